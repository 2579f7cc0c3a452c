import Verif.Lib.Lemmas
/-! Properties of dynamic libraries. -/
namespace ELC.Lib

/-! ### C172: a library is loaded as long as somebody holds it -/

/-- C172 on Windows, and on Linux if every library is found: whatever a program does with libraries and functions that are
there, it is defined, the functions called are those it asked for, and exactly the libraries of which a handle or a function
exists are open.  What is missing: Linux, when loading fails (`failed_load_refuted`). -/
theorem held_loaded_partial (os : Os) (ops : List Op) {s : Spec.State} (h : Spec.run os ⟨[], []⟩ ops = some s)
    (hf : os.linux = true → ∀ n, .load n ∈ ops → os.find n ≠ none) :
    ∃ m, run os Mem.init ops = some m ∧ m.called = s.called ∧ ∀ l, 0 < m.opened l ↔ Spec.held s l := by
  obtain ⟨m, e, hi⟩ := run_inv ops (inv_init os) h hf
  exact ⟨m, e, hi.called.symm, opened_iff hi⟩

/-- C172: when no variable is left, every library is closed as often as it was opened. -/
theorem all_closed_partial (os : Os) (ops : List Op) {s : Spec.State} (h : Spec.run os ⟨[], []⟩ ops = some s)
    (hf : os.linux = true → ∀ n, .load n ∈ ops → os.find n ≠ none) (hv : s.vars = []) :
    ∃ m, run os Mem.init ops = some m ∧ ∀ l, m.opened l = 0 := by
  obtain ⟨m, e, hi⟩ := run_inv ops (inv_init os) h hf
  refine ⟨m, e, fun l => ?_⟩
  have := (opened_iff hi l).not.mpr (by rintro ⟨v, hv', _⟩; rw [hv] at hv'; exact absurd hv' List.not_mem_nil)
  omega

/-- A system with one library that has one symbol. -/
def sample : Os := ⟨true, fun n => if n = 1 then some 7 else none, fun l y => if l = 7 ∧ y = 2 then some 99 else none, fun _ => some 5⟩

-- load, take a function, forget the handle, call the function, take the handle from the function
example : Spec.run sample ⟨[], []⟩ [.load 1, .sym 0 2, .drop 0, .call 0, .handleOf 0, .drop 0, .sym 0 2] =
    some ⟨[.handle (some 7), .func (some 7) 99], [99]⟩ := by decide

/-- C172 is false of the program: on Linux, when a library is not found, the end of the last handle closes null. -/
theorem failed_load_refuted (os : Os) (n : Nat) (hl : os.linux = true) (hf : os.find n = none) :
    run os Mem.init [.load n, .drop 0] = none ∧ Spec.run os ⟨[], []⟩ [.load n, .drop 0] = some ⟨[], []⟩ := by
  constructor
  · simp [run, step, load, Mem.init, release, Obj.info, hf, close, hl]
  · simp [Spec.run, Spec.step]

example : sample.find 0 = none ∧ sample.linux = true := by decide

/-- **C172, what the program does on Linux**: it is undefined exactly if somewhere the last variable is dropped that comes from a load
that found no library; otherwise everything is as on Windows. -/
theorem linux_characterised (os : Os) (hl : os.linux = true) (ops : List Op) {s : Spec.State}
    (h : Spec.run os ⟨[], []⟩ ops = some s) :
    (run os Mem.init ops = none ↔ ∃ pre k post, ops = pre ++ .drop k :: post ∧ Spec.LastFailed os pre k) ∧
    ∀ m, run os Mem.init ops = some m → m.called = s.called ∧ ∀ l, 0 < m.opened l ↔ Spec.held s l := by
  have hw : Spec.run (windows os) ⟨[], []⟩ ops = some s := by rw [spec_run_windows]; exact h
  obtain ⟨h1, h2⟩ := run_linux hl ops (inv_init (windows os)) (g := ⟨[], []⟩) ⟨rfl, rfl⟩ h
  refine ⟨h1.trans ⟨?_, ?_⟩, fun m hm => ?_⟩
  · rintro ⟨pre, o, post, e, k, j, n, rfl, h3⟩
    exact ⟨pre, k, post, e, j, n, h3⟩
  · rintro ⟨pre, k, post, e, j, n, h3⟩
    exact ⟨pre, .drop k, post, e, k, j, n, rfl, h3⟩
  · obtain ⟨m', e, hc, ho⟩ := held_loaded_partial (windows os) ops hw (fun hc => by simp [windows] at hc)
    have := h2 m hm
    rw [e, Option.some.injEq] at this
    subst this
    exact ⟨hc, ho⟩

-- a load that fails, its handle copied: dropping the first is fine, dropping the second is not
example : Spec.LastFailed sample [.load 0, .copy 0, .load 1, .drop 0] 0 ∧
    ¬ Spec.LastFailed sample [.load 0, .copy 0, .load 1] 0 ∧
    (run sample Mem.init [.load 0, .copy 0, .load 1, .drop 0]).isSome ∧
    run sample Mem.init [.load 0, .copy 0, .load 1, .drop 0, .drop 0] = none := by
  refine ⟨⟨0, 0, by decide, by decide, by decide, ?_⟩, ?_, by decide, by decide⟩
  · intro k' h
    rcases k' with _ | _ | k' <;> simp_all [Spec.origins, Spec.Origins.step]
  · rintro ⟨j, n, h1, _, _, h4⟩
    have : j = 0 := by simpa [Spec.origins, Spec.Origins.step] using h1.symm
    subst this
    exact absurd (h4 1 (by decide)) (by decide)

/-- C172 is false of the program: on Linux every program that has the object for "no library" closes null at its end. -/
theorem exit_refuted (os : Os) (m : Mem) (hl : os.linux = true) : exit os m = none := by
  unfold exit close; rw [if_pos hl]

/-- On Windows the end of the program changes nothing. -/
theorem exit_windows (os : Os) (m : Mem) (hl : os.linux = false) : exit os m = some m := by
  unfold exit close; simp [hl]

/-! ### C173: a symbol is found, or reported missing -/

/-- C173, for symbols that exist: the function taken from a library has the address the library has for it, and it knows its
library, whatever was done before.  What is missing: `missing_symbol_refuted`, `unloaded_symbol_refuted`. -/
theorem symbol_partial (os : Os) (ops : List Op) (k y l a : Nat) {s : Spec.State} (h : Spec.run os ⟨[], []⟩ ops = some s)
    (hf : os.linux = true → ∀ n, .load n ∈ ops → os.find n ≠ none) (hk : s.vars[k]? = some (.handle (some l)))
    (ha : os.symbols l y = some a) : ∃ m, run os Mem.init ops = some m ∧ ∃ m' i, step os m (.sym k y) = some m' ∧
      m'.vars = m.vars ++ [.func i a] ∧ libOf m' i = some l ∧ 0 < m'.opened l := by
  obtain ⟨m, e, hi⟩ := run_inv ops (inv_init os) h hf
  have hs : Spec.step os s (.sym k y) = some ⟨s.vars ++ [.func (some l) a], s.called⟩ := by
    simp [Spec.step, hk, ha]
  obtain ⟨m', e', hi'⟩ := step_inv hi hs (fun _ n hn => by simp at hn)
  refine ⟨m, e, m', ?_⟩
  have hheld : 0 < m'.opened l := (opened_iff hi' l).mpr ⟨.func (some l) a, by simp, rfl⟩
  have hv := hi'.vars
  simp only [step] at e'
  split at e'
  · next i hi0 =>
    rw [Option.bind_eq_some_iff] at e'
    obtain ⟨a', _, e''⟩ := e'
    rw [Option.map_eq_some_iff] at e''
    obtain ⟨m1, hm1, rfl⟩ := e''
    have hm1v : m1.vars = m.vars := by
      unfold acquire at hm1
      split at hm1
      · injection hm1 with hm1; rw [← hm1]
      · split at hm1
        · simp at hm1
        · injection hm1 with hm1; rw [← hm1]
    have hlast := congrArg List.getLast? hv
    simp only [List.map_append, List.map_cons, List.map_nil, List.getLast?_append, List.getLast?_singleton, Option.some_or,
      Option.some.injEq, view, Spec.Val.func.injEq] at hlast
    refine ⟨i, ?_, ?_, hlast.1.symm, hheld⟩
    · simp only [step, hi0]
      next ha' => rw [ha', Option.bind_some, hm1]; rfl
    · simp only [hm1v, hlast.2]
  · simp at e'

/-- C173 is false of the program: asking for a symbol that does not exist is undefined; no null function is returned. -/
theorem missing_symbol_refuted (os : Os) (n y l : Nat) (hf : os.find n = some l) (hs : os.symbols l y = none) :
    run os Mem.init [.load n, .sym 0 y] = none := by
  simp [run, step, load, Mem.init, hf, address, libOf, hs]

/-- C173 is false of the program: asked for a symbol, a library that was not loaded gives the function the program has under
that name. -/
theorem unloaded_symbol_refuted (os : Os) (n y a : Nat) (hf : os.find n = none) (hp : os.program y = some a) :
    ∃ m, run os Mem.init [.load n, .sym 0 y, .call 1] = some m ∧ m.called = [a] := by
  refine ⟨_, by simp only [run, step, load, Mem.init, hf, address, libOf, acquire, hp, List.nil_append, List.getElem?_cons_zero,
    Option.bind_some, List.length_nil, Option.map_some, List.getElem?_cons_succ, List.cons_append, List.set_cons_zero]; rfl, rfl⟩

/-- C173: the loader of packages is ready if its library has both symbols, and dies if there is no library; it is undefined
otherwise, also when only the symbol is missing for which it promises to die. -/
theorem loader_characterised (os : Os) (p a b : Nat) :
    (start os p a b = some .died ↔ os.find p = none) ∧
    (start os p a b = none ↔ ∃ l, os.find p = some l ∧ (os.symbols l a = none ∨ os.symbols l b = none)) ∧
    (∀ x y, start os p a b = some (.ready x y) ↔ ∃ l, os.find p = some l ∧ os.symbols l a = some x ∧ os.symbols l b = some y) := by
  unfold start
  cases hf : os.find p with
  | none => simp
  | some l =>
    cases ha : os.symbols l a <;> cases hb : os.symbols l b <;> simp [ha, hb]

end ELC.Lib
