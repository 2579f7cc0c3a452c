import Verif.Timer.Spec
/-! Properties of the timer. -/
namespace ELC.Timer

/-! ### C200: the timer is a stopwatch -/

/-- How the two time points hold the watch and the error. -/
def Inv (t : Timer) (e : Spec.Error) : Prop :=
  t.stop = e.last ∧
    match e.watch.since with
    | none => t.stop - t.start = e.watch.elapsed + e.over
    | some s => t.start = s - e.watch.elapsed - e.over

theorem step_inv {t : Timer} {e : Spec.Error} (h : Inv t e) (o : Op) : Inv (step t o) (Spec.stepError e o) := by
  obtain ⟨⟨el, si⟩, la, ov⟩ := e
  obtain ⟨a, b⟩ := t
  cases si <;> cases o <;> simp only [Inv, step, Spec.stepError, Spec.step] at * <;> simp at * <;> omega

theorem run_inv (os : List Op) : ∀ {t : Timer} {e : Spec.Error}, Inv t e → Inv (run t os) (Spec.runError e os) := by
  induction os with
  | nil => intro t e h; exact h
  | cons o os ih => intro t e h; exact ih (step_inv h o)

theorem runError_watch (os : List Op) : ∀ e : Spec.Error, (Spec.runError e os).watch = Spec.run e.watch os := by
  induction os with
  | nil => intro e; rfl
  | cons o os ih => intro e; exact ih _

theorem runError_proper (os : List Op) : ∀ e : Spec.Error, Spec.Proper e.watch os → e.over = 0 → (Spec.runError e os).over = 0 := by
  induction os with
  | nil => intro e _ h; exact h
  | cons o os ih =>
    intro e h h0
    refine ih _ h.2 ?_
    cases o with
    | start | reset => rfl
    | stop now | pause now => exact (if_neg h.1).trans h0
    | resume now => exact (if_pos h.1).trans h0

/-- **C200, exactly, after every history that leaves the watch standing**: the timer shows the time the stopwatch ran, and too much
by the pauses before a second stop, too little by the time since the last stop for each resumption of a watch that runs. -/
theorem timer_characterised (os : List Op) (h : (Spec.run ⟨0, none⟩ os).since = none) :
    get (run fresh os) = (Spec.run ⟨0, none⟩ os).elapsed + (Spec.runError ⟨⟨0, none⟩, 0, 0⟩ os).over := by
  have hi := run_inv os (t := fresh) (e := ⟨⟨0, none⟩, 0, 0⟩) ⟨rfl, rfl⟩
  have hw := runError_watch os ⟨⟨0, none⟩, 0, 0⟩
  obtain ⟨_, h2⟩ := hi
  rw [hw] at h2
  simp only [h] at h2
  exact h2

/-- C200, part: the timer shows the time the stopwatch ran, if it is stopped only while it runs and resumed only while it
stands, whatever the clock shows.  What is missing: `timer_refuted`. -/
theorem timer_partial (os : List Op) (hp : Spec.Proper ⟨0, none⟩ os) (h : (Spec.run ⟨0, none⟩ os).since = none) :
    get (run fresh os) = (Spec.run ⟨0, none⟩ os).elapsed := by
  rw [timer_characterised os h, runError_proper os ⟨⟨0, none⟩, 0, 0⟩ hp rfl, Int.add_zero]

-- started at 100, paused from 130 to 200, stopped at 250: 80
example : Spec.Proper ⟨0, none⟩ [.start 100, .pause 130, .resume 200, .stop 250] ∧
    Spec.run ⟨0, none⟩ [.start 100, .pause 130, .resume 200, .stop 250] = ⟨80, none⟩ := by
  simp [Spec.Proper, Spec.step, Spec.run]

/-- C200 is false of the program: a timer that is paused and then stopped counts the pause; one that is reset while it is paused
and then resumed shows less than it ran, even less than nothing. -/
theorem timer_refuted (s p e : Int) :
    get (run fresh [.start s, .pause p, .stop e]) = (p - s) + (e - p) ∧
      (Spec.run ⟨0, none⟩ [.start s, .pause p, .stop e]).elapsed = p - s ∧
    get (run fresh [.start s, .pause p, .reset e, .resume e, .stop e]) = p - e ∧
      (Spec.run ⟨0, none⟩ [.start s, .pause p, .reset e, .resume e, .stop e]).elapsed = 0 := by
  refine ⟨?_, ?_, ?_, ?_⟩ <;> simp [get, run, step, Spec.run, Spec.step, fresh] <;> omega

/-- C200: while it runs the timer shows what it showed at the last stop, shifted: the time since the start is not looked at. -/
theorem timer_running (os : List Op) {s : Int} (h : (Spec.run ⟨0, none⟩ os).since = some s) :
    get (run fresh os) = (Spec.run ⟨0, none⟩ os).elapsed + (Spec.runError ⟨⟨0, none⟩, 0, 0⟩ os).over +
      ((Spec.runError ⟨⟨0, none⟩, 0, 0⟩ os).last - s) := by
  have hi := run_inv os (t := fresh) (e := ⟨⟨0, none⟩, 0, 0⟩) ⟨rfl, rfl⟩
  have hw := runError_watch os ⟨⟨0, none⟩, 0, 0⟩
  obtain ⟨h1, h2⟩ := hi
  rw [hw] at h2
  simp only [h] at h2
  unfold get
  omega

end ELC.Timer
