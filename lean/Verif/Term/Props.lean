import Verif.Term.Spec

/-! Properties C195 and C196: the mode of terminals. -/
namespace ELC.Term
open Spec

theorem before_terminal (s : Sys) (m : Mode) : beforeRead s .terminal m = some (m, raw s m) := by
  cases s <;> simp [beforeRead, getMode, setMode, raw]

theorem raw_raw (s : Sys) (m : Mode) : raw s (raw s m) = raw s m := by cases s <;> rfl

theorem run_append (s : Sys) (d : Dev) (a b : List Ev) :
    ∀ x, run s d x (a ++ b) = (run s d x a).bind fun y => run s d y b := by
  induction a with
  | nil => intro x; simp [run]
  | cons e a ih =>
    intro x
    rw [List.cons_append, run, run]
    cases step s d x e with
    | none => simp
    | some y => simp [ih]

theorem step_enter (s : Sys) (x : St) (t : Nat) (h : x.kept t = none) :
    step s .terminal x (.enter t) = some ⟨raw s x.mode, set x.kept t (some x.mode)⟩ := by
  simp [step, h, before_terminal]

theorem step_leave (s : Sys) (x : St) (t : Nat) (k : Mode) (h : x.kept t = some k) :
    step s .terminal x (.leave t) = some ⟨k, set x.kept t none⟩ := by
  simp [step, h, afterRead, setMode]

/-- C195: one read of a terminal reads character by character, and the mode is then what it was; reading from anything that is
no device for characters leaves all terminals alone. -/
theorem read_restores (s : Sys) (d : Dev) (m : Mode) (h : d ≠ .device) :
    ∃ during, read s d m = some (during, m) ∧ (d = .terminal → during = raw s m) ∧ (d = .file → during = m) := by
  cases d with
  | terminal => exact ⟨raw s m, by simp [read, isTerminal, before_terminal, afterRead, setMode], by simp, by simp⟩
  | device => simp at h
  | file => exact ⟨m, by cases s <;> simp [read, isTerminal], by simp, by simp⟩

example : read .linux .terminal ⟨true, true, false, 7⟩ = some (⟨false, false, false, 7⟩, ⟨true, true, false, 7⟩) := by decide

/-- C195 is false of other devices on Windows: reading from `NUL` uses a variable without a value. -/
theorem device_refuted (m : Mode) : read .windows .device m = none ∧ read .linux .device m = some (m, m) := by
  constructor <;> simp [read, isTerminal, beforeRead, getMode]

/-- A well nested schedule changes nothing, whatever the mode is when it begins. -/
theorem nested_run (s : Sys) (l : List Ev) (hn : Nested l) :
    ∀ x y, run s .terminal x l = some y → y.mode = x.mode ∧ ∀ t, x.kept t ≠ none → y.kept t = x.kept t := by
  induction hn with
  | nil => intro x y h; simp [run] at h; subst h; simp
  | read t inner rest _ _ ihi ihr =>
    intro x y h
    rw [List.cons_append, run] at h
    cases hk : x.kept t with
    | some k => simp [step, hk] at h
    | none =>
      rw [step_enter s x t hk, Option.bind_some, run_append] at h
      cases hr : run s .terminal ⟨raw s x.mode, set x.kept t (some x.mode)⟩ inner with
      | none => rw [hr] at h; simp at h
      | some z =>
        rw [hr, Option.bind_some, run] at h
        obtain ⟨_, hz⟩ := ihi _ _ hr
        have hzt : z.kept t = some x.mode := by
          rw [hz t (by simp [set])]; simp [set]
        rw [step_leave s z t x.mode hzt, Option.bind_some] at h
        obtain ⟨h1, h2⟩ := ihr _ _ h
        refine ⟨h1, ?_⟩
        intro u hu
        have hut : u ≠ t := by rintro rfl; exact hu hk
        have hzu : z.kept u = x.kept u := by
          rw [hz u (by simpa [set, hut] using hu)]; simp [set, hut]
        rw [h2 u (by simpa [set, hut, hzu] using hu)]
        simp [set, hut, hzu]

/-- C195 for threads whose reads are nested: after all of them the mode is what it was. -/
theorem nested_partial (s : Sys) (m : Mode) (l : List Ev) (hn : Nested l) (y : St)
    (h : run s .terminal (idle m) l = some y) : y.mode = m := (nested_run s l hn _ _ h).1

example : ∃ y, Nested [.enter 0, .enter 1, .leave 1, .leave 0] ∧
    run .linux .terminal (idle ⟨true, true, true, 0⟩) [.enter 0, .enter 1, .leave 1, .leave 0] = some y :=
  ⟨_, Nested.read 0 [.enter 1, .leave 1] [] (Nested.read 1 [] [] .nil .nil) .nil, rfl⟩

/-- C195 for reads one after the other, by whatever threads: they are all possible, and the mode is what it was. -/
theorem one_by_one (s : Sys) (m : Mode) (ts : List Nat) :
    ∃ y, run s .terminal (idle m) (oneByOne ts) = some y ∧ y.mode = m ∧ ∀ t, y.kept t = none := by
  suffices h : ∀ x : St, (∀ t, x.kept t = none) →
      ∃ y, run s .terminal x (oneByOne ts) = some y ∧ y.mode = x.mode ∧ ∀ t, y.kept t = none from
    h (idle m) (fun _ => rfl)
  induction ts with
  | nil => intro x hx; exact ⟨x, rfl, rfl, hx⟩
  | cons t ts ih =>
    intro x hx
    have e1 : oneByOne (t :: ts) = .enter t :: .leave t :: oneByOne ts := rfl
    rw [e1, run, step_enter s x t (hx t), Option.bind_some, run,
      step_leave s _ t x.mode (by simp [set]), Option.bind_some]
    obtain ⟨y, h1, h2, h3⟩ := ih ⟨x.mode, set (set x.kept t (some x.mode)) t none⟩
      (by intro u; by_cases hu : u = t <;> simp [set, hu, hx])
    exact ⟨y, h1, h2, h3⟩

example : run .windows .terminal (idle ⟨true, true, true, 0⟩) (oneByOne [3, 1, 3]) ≠ none := by
  simp [oneByOne, run, step, idle, beforeRead, getMode, set]

/-- The mode is always the first one or the one for reading, and so is what threads keep. -/
theorem modes (s : Sys) (m : Mode) (l : List Ev) :
    ∀ x y, run s .terminal x l = some y → (x.mode = m ∨ x.mode = raw s m) →
      (∀ t k, x.kept t = some k → k = m ∨ k = raw s m) →
      (y.mode = m ∨ y.mode = raw s m) ∧ ∀ t k, y.kept t = some k → k = m ∨ k = raw s m := by
  induction l with
  | nil => intro x y h hm hk; simp [run] at h; subst h; exact ⟨hm, hk⟩
  | cons e l ih =>
    intro x y h hm hk
    rw [run] at h
    cases e with
    | enter t =>
      cases ht : x.kept t with
      | some k => simp [step, ht] at h
      | none =>
        rw [step_enter s x t ht, Option.bind_some] at h
        refine ih _ _ h ?_ ?_
        · rcases hm with hm | hm <;> rw [hm] <;> simp [raw_raw]
        · intro u k hu
          by_cases hut : u = t
          · simp [set, hut] at hu; rw [← hu]; exact hm
          · simp [set, hut] at hu; exact hk u k hu
    | leave t =>
      cases ht : x.kept t with
      | none => simp [step, ht] at h
      | some k =>
        rw [step_leave s x t k ht, Option.bind_some] at h
        refine ih _ _ h (hk t k ht) ?_
        intro u k' hu
        by_cases hut : u = t
        · simp [set, hut] at hu
        · simp [set, hut] at hu; exact hk u k' hu

/-- C195, exactly what is left after any schedule: the mode that it was or, as a whole, the one for reading. -/
theorem mode_characterised (s : Sys) (m : Mode) (l : List Ev) (y : St) (h : run s .terminal (idle m) l = some y) :
    y.mode = m ∨ y.mode = raw s m :=
  (modes s m l _ _ h (.inl rfl) (by simp [idle])).1

/-- C195 is false of two threads: the one that begins second and ends second leaves every terminal in the mode for reading,
for good, although both have ended. -/
theorem threads_refuted (s : Sys) (m : Mode) (a b : Nat) (hab : a ≠ b) :
    ∃ y, run s .terminal (idle m) [.enter a, .enter b, .leave a, .leave b] = some y ∧ (∀ t, y.kept t = none) ∧
      y.mode = raw s m := by
  have hba : b ≠ a := fun h => hab h.symm
  refine ⟨⟨raw s m, fun _ => none⟩, ?_, fun _ => rfl, rfl⟩
  rw [run, step_enter s _ a rfl, Option.bind_some, run, step_enter s _ b (by simp [set, hba, idle]), Option.bind_some, run,
    step_leave s _ a m (by simp [set, hab, idle]), Option.bind_some, run,
    step_leave s _ b (raw s m) (by simp [set, hba, idle]), Option.bind_some, run]
  congr 2
  funext u
  by_cases h1 : u = a <;> by_cases h2 : u = b <;> simp [set, h1, h2, idle]

example : raw .linux ⟨true, true, true, 0⟩ ≠ ⟨true, true, true, 0⟩ := by decide

/-- C195 is false when the program ends during a read: the terminal keeps the mode for reading. -/
theorem crash_refuted (s : Sys) (m : Mode) (ts : List Nat) (t : Nat) :
    ∃ y, run s .terminal (idle m) (oneByOne ts ++ [.enter t]) = some y ∧ y.mode = raw s m := by
  obtain ⟨x, h1, h2, h3⟩ := one_by_one s m ts
  rw [run_append, h1, Option.bind_some, run, step_enter s x t (h3 t), Option.bind_some, run]
  exact ⟨_, rfl, by rw [h2]⟩

/-- C195 for a program that ends while nobody reads, after any number of complete reads: the mode is what it was. -/
theorem crash_partial (s : Sys) (m : Mode) (ts : List Nat) (n : Nat) (y : St)
    (h : run s .terminal (idle m) ((oneByOne ts).take (2 * n)) = some y) : y.mode = m := by
  have e : (oneByOne ts).take (2 * n) = oneByOne (ts.take n) := by
    clear h
    induction ts generalizing n with
    | nil => simp [oneByOne]
    | cons t ts ih =>
      cases n with
      | zero => simp [oneByOne]
      | succ n =>
        have e1 : oneByOne (t :: ts) = .enter t :: .leave t :: oneByOne ts := rfl
        have e2 : oneByOne (t :: ts.take n) = .enter t :: .leave t :: oneByOne (ts.take n) := rfl
        rw [e1, show 2 * (n + 1) = 2 * n + 1 + 1 by omega, List.take_succ_cons, List.take_succ_cons, ih n,
          List.take_succ_cons, e2]
  rw [e] at h
  obtain ⟨z, h1, h2, _⟩ := one_by_one s m (ts.take n)
  rw [h1] at h
  simp at h
  rw [← h, h2]

example : (oneByOne [5, 6]).take 2 = [.enter 5, .leave 5] := by decide

/-- C196: where writing is defined it leaves the mode of every terminal as it was, also while it writes. -/
theorem write_partial (s : Sys) (d : Dev) (m during after : Mode) (h : write s d m = some (during, after)) :
    during = m ∧ after = m := by
  cases s <;> cases d <;>
    simp [write, isTerminal, terminalWrite, fileWrite, beforeWrite, getMode, afterWrite] at h <;>
    exact ⟨h.1.symm, h.2.symm⟩

example : write .windows .terminal ⟨true, true, false, 0⟩ = some (⟨true, true, false, 0⟩, ⟨true, true, false, 0⟩) := by decide

/-- C196: writing is undefined exactly for files on Windows, where a variable without a value is used. -/
theorem write_characterised (s : Sys) (d : Dev) (m : Mode) : write s d m = none ↔ s = .windows ∧ d = .file := by
  cases s <;> cases d <;>
    simp [write, isTerminal, fileWrite, beforeWrite, getMode]

/-- C196 is false of files on Windows. -/
theorem write_file_refuted (m : Mode) : write .windows .file m = none := (write_characterised _ _ _).2 ⟨rfl, rfl⟩

/-- C196 is false: the functions that make a console interpret escape sequences are called for every stream but those onto
consoles, so a console that does not interpret them shows them. -/
theorem escapes_refuted (m : Mode) (h : m.escapes = false) :
    ∃ during after, write .windows .terminal m = some (during, after) ∧ during.escapes = false ∧
      ∃ during', fileWrite .windows .terminal m = some (during', m) ∧ during'.escapes = true := by
  refine ⟨m, m, by simp [write, isTerminal, terminalWrite], h, { m with escapes := true }, ?_, rfl⟩
  simp [fileWrite, beforeWrite, getMode, setMode, afterWrite]

example : (⟨true, true, false, 0⟩ : Mode).escapes = false := rfl

end ELC.Term
