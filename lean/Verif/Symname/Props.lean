import Verif.Symname.Lemmas
/-! Properties of the names of types and functions. -/
namespace ELC.Symname

/-! ### C167: name objects are values -/

/-- C167: whatever a program does with names that could be made, it is defined, every object has the text the
specification says, and when no object is left all memory is free again. -/
theorem names_are_values (gnu : Bool) (os : List Op) {s : Spec.State} (h : Spec.run gnu (fun _ => none) os = some s) :
    ∃ m, run gnu Mem.empty os = some m ∧
      (∀ v, s v = none → m.vars v = none) ∧
      (∀ v t, s v = some t → ∃ n, m.vars v = some n ∧ n.size = t.length ∧ text m n = some t) ∧
      ((∀ v, s v = none) → ∀ i, m.heap i = none) := by
  obtain ⟨m, h1, hi⟩ := run_inv os (inv_empty gnu) (by intro _ v n hv; simp [Mem.empty] at hv) h
  refine ⟨m, h1, hi.none_, ?_, ?_⟩
  · intro v t ht
    obtain ⟨n, g1, g2, _⟩ := hi.some_ v t ht
    exact ⟨n, g1, text_size g2, g2⟩
  · intro hall i
    apply Classical.byContradiction
    intro hc
    obtain ⟨_, v, n, hv, _⟩ := hi.owned i hc
    rw [hi.none_ v (hall v)] at hv
    simp at hv

/-- C167: the text of a name is in memory no other name uses: with gcc and clang two objects never share a block. -/
theorem names_alone (os : List Op) {s : Spec.State} (h : Spec.run true (fun _ => none) os = some s) {m : Mem}
    (hm : run true Mem.empty os = some m) {v u : Nat} {n k : Name} {i : Nat} (h1 : m.vars v = some n)
    (h2 : m.vars u = some k) (h3 : n.ptr = .block i) (h4 : k.ptr = .block i) : v = u := by
  obtain ⟨m', e, hi⟩ := run_inv os (inv_empty true) (by intro h; simp at h) h
  rw [hm] at e
  injection e with e
  subst e
  exact hi.alone v u n k i h1 h2 h3 h4

-- int is made, copied and moved, and the copy and the original disappear
example : Spec.run true (fun _ => none) [.make 0 (some [0x69]) (.ok [0x69, 0x6E, 0x74] [7]), .copy 1 0 true, .move 2 0,
    .drop 0, .drop 1] ≠ none ∧
    (Spec.run true (fun _ => none) [.make 0 (some [0x69]) (.ok [0x69, 0x6E, 0x74] [7]), .copy 1 0 true, .move 2 0,
      .drop 0, .drop 1]).bind (fun s => s 2) = some [0x69, 0x6E, 0x74, 0, 7] := by
  refine ⟨by simp [Spec.run, Spec.step, Spec.made, Spec.put], by simp [Spec.run, Spec.step, Spec.made, Spec.put]⟩

/-- C167 is false of the program: with gcc and clang, a name that the demangler does not know is freed although nobody
allocated it. -/
theorem make_refuted (m : Mem) (v : Nat) (o : List Nat) : step true m (.make v (some o) .fail) = none := rfl

/-- C167, exactly: a name is made if and only if the demangler knows it; with the other compilers, if and only if there is a
text. -/
theorem make_characterised (gnu : Bool) (m : Mem) (v : Nat) (o : Option (List Nat)) (r : Demangled) :
    (step gnu m (.make v o r) ≠ none ↔ Spec.made gnu o r ≠ none) := by
  cases gnu <;> cases r <;> cases o <;> simp [step, demangle, Spec.made, malloc, free]

/-! ### C168: the name of a type is its name -/

/-- C168: what the name of a type is: with gcc and clang the name, a zero and all that follows in the buffer; otherwise
what the compiler says. -/
theorem type_name_characterised (gnu : Bool) (v : Nat) (o t rest : List Nat) :
    ∃ m n, step gnu Mem.empty (.make v (some o) (.ok t rest)) = some m ∧ m.vars v = some n ∧
      text m n = some (if gnu then t ++ 0 :: rest else o) := by
  cases gnu
  · exact ⟨_, ⟨.static o, o.length⟩, rfl, set_same _ _ _, by simp [text, bytes]⟩
  · refine ⟨_, ⟨.block 0, (t ++ 0 :: rest).length⟩, rfl, set_same _ _ _, ?_⟩
    simp [text, bytes, Mem.empty, set]
    exact List.take_of_length_le (by simp)

/-- C168, part: the name begins with the name of the type, and read up to the first zero it is the name.  What is missing:
its size, with gcc and clang (`type_name_refuted`). -/
theorem type_name_partial (v : Nat) (o t rest : List Nat) (h0 : ∀ c ∈ t, c ≠ 0) :
    ∃ m n x, step true Mem.empty (.make v (some o) (.ok t rest)) = some m ∧ m.vars v = some n ∧ text m n = some x ∧
      t <+: x ∧ x.takeWhile (· ≠ 0) = t := by
  obtain ⟨m, n, h1, h2, h3⟩ := type_name_characterised true v o t rest
  refine ⟨m, n, _, h1, h2, h3, by simp, ?_⟩
  simp only [if_true]
  rw [List.takeWhile_append_of_pos (by simpa using h0)]
  simp

/-- C168 is false of the program: with gcc and clang the size counts the whole buffer, so no name is equal to the name of
the type. -/
theorem type_name_refuted (v : Nat) (o t rest : List Nat) :
    ∃ m n, step true Mem.empty (.make v (some o) (.ok t rest)) = some m ∧ m.vars v = some n ∧ text m n ≠ some t ∧
      t.length < n.size := by
  obtain ⟨m, n, h1, h2, h3⟩ := type_name_characterised true v o t rest
  refine ⟨m, n, h1, h2, ?_, ?_⟩
  · rw [h3]; simp
  · rw [text_size h3]; simp

/-! ### C169: the name of a function -/

/-- C169, on Linux: a function whose symbol the demangler knows has a name. -/
theorem function_name_partial (m : Mem) (o t rest : List Nat) :
    ∃ m' n, functionName m (some (some o)) (.ok t rest) = some (m', n) ∧ text m' n = some (t ++ 0 :: rest) := by
  refine ⟨_, ⟨.block m.next, (t ++ 0 :: rest).length⟩, rfl, ?_⟩
  simp [text, bytes, set]
  exact List.take_of_length_le (by simp)

/-- C169 is false of the program: on Linux it is undefined for a function the demangler does not know (every C function,
`main`), for one without a symbol, and for one that is not known at all. -/
theorem function_name_refuted (m : Mem) (info : Option (Option (List Nat))) : functionName m info .fail = none := by
  unfold functionName demangle
  cases h : info.getD (some unknown) with
  | none => simp
  | some o => simp [free]

/-- The first parenthesis is the one behind the number. -/
theorem jump_find (d n : List Nat) (hd : 0x28 ∉ d) :
    (ilt ++ d ++ 0x28 :: n ++ [0x29]).idxOf? 0x28 = some (ilt ++ d).length := by
  have hni : 0x28 ∉ ilt ++ d := by
    simp only [List.mem_append, not_or]
    exact ⟨by decide, hd⟩
  rw [List.append_assoc, List.cons_append]
  rw [List.idxOf?_eq_some_iff]
  refine ⟨by simp, by simp, ?_⟩
  intro j hj
  rw [List.getElem_append_left hj]
  intro hc
  have hc' : (ilt ++ d)[j] = 0x28 := by simpa using hc
  exact hni (hc' ▸ List.getElem_mem hj)

/-- C169, on Windows: the entry of a jump table is named after its target. -/
theorem jump_name_partial (und : List Nat → Option (List Nat)) (d n : List Nat) (hd : 0x28 ∉ d) (hn : n.length < 1024) :
    demangleName und (ilt ++ d ++ 0x28 :: n ++ [0x29]) = some ((und n).getD n) := by
  have hidx := jump_find d n hd
  unfold demangleName
  rw [if_pos (by rw [List.append_assoc, List.append_assoc]; exact List.prefix_append _ _), hidx]
  dsimp only
  have hdrop : (ilt ++ d ++ 0x28 :: n ++ [0x29]).drop ((ilt ++ d).length + 1) = n ++ [0x29] := by
    rw [List.append_assoc, List.cons_append, List.drop_append]
    simp
  rw [hdrop, if_neg (by simp)]
  have htake : (n ++ [0x29]).take ((n ++ [0x29]).length - 1) = n := by simp
  rw [htake, if_pos hn]

-- "@ILT+5(f)"
example : demangleName (fun _ => none) [0x40, 0x49, 0x4C, 0x54, 0x2B, 0x35, 0x28, 0x66, 0x29] = some [0x66] := by decide

/-- C169, on Windows: every other name is the one the system gives. -/
theorem plain_name (und : List Nat → Option (List Nat)) (n : List Nat) (h : ¬ ilt <+: n) :
    demangleName und n = some ((und n).getD n) := by
  unfold demangleName
  rw [if_neg h]

/-- C169, on Windows: a jump without a target keeps its name. -/
theorem jump_bare (und : List Nat → Option (List Nat)) (n : List Nat) (h : 0x28 ∉ n) :
    demangleName und (ilt ++ n) = some (ilt ++ n) := by
  unfold demangleName
  rw [if_pos (List.prefix_append _ _), List.idxOf?_eq_none_iff.mpr]
  simp only [List.mem_append, not_or]
  exact ⟨by decide, h⟩

/-- C169 is false of the program: on Windows the target of a jump table may have up to 2000 characters, but 1024 and more
do not fit; and a name that ends with the parenthesis wraps around. -/
theorem jump_name_refuted (und : List Nat → Option (List Nat)) :
    (∀ d n : List Nat, 0x28 ∉ d → 1024 ≤ n.length → demangleName und (ilt ++ d ++ 0x28 :: n ++ [0x29]) = none) ∧
    demangleName und (ilt ++ [0x28]) = none := by
  refine ⟨?_, rfl⟩
  intro d n hd hn
  have hidx := jump_find d n hd
  unfold demangleName
  rw [if_pos (by rw [List.append_assoc, List.append_assoc]; exact List.prefix_append _ _), hidx]
  dsimp only
  have hdrop : (ilt ++ d ++ 0x28 :: n ++ [0x29]).drop ((ilt ++ d).length + 1) = n ++ [0x29] := by
    rw [List.append_assoc, List.cons_append, List.drop_append]
    simp
  rw [hdrop, if_neg (by simp)]
  have htake : (n ++ [0x29]).take ((n ++ [0x29]).length - 1) = n := by simp
  rw [htake, if_neg (by omega)]

/-- C169, on Linux, exactly: a function has a name if and only if the demangler knows what `dladdr` finds, whatever that is. -/
theorem function_name_characterised (m : Mem) (info : Option (Option (List Nat))) (r : Demangled) :
    functionName m info r ≠ none ↔ ∃ t rest, r = .ok t rest := by
  cases r with
  | ok t rest => exact ⟨fun _ => ⟨t, rest, rfl⟩, fun _ => by simp [functionName, demangle]⟩
  | fail => exact ⟨fun h => absurd (function_name_refuted m info) h, nofun⟩

/-- C169, on Windows, exactly: the name of an entry of a jump table is what is between its first parenthesis and its last
character, and it is there if and only if at least one and at most 1024 characters follow the parenthesis. -/
theorem jump_name_characterised (und : List Nat → Option (List Nat)) (d r : List Nat) (hd : 0x28 ∉ d) :
    (1 ≤ r.length ∧ r.length ≤ 1024 →
      demangleName und (ilt ++ d ++ 0x28 :: r) = some ((und r.dropLast).getD r.dropLast)) ∧
    (¬ (1 ≤ r.length ∧ r.length ≤ 1024) → demangleName und (ilt ++ d ++ 0x28 :: r) = none) := by
  have hidx : (ilt ++ d ++ 0x28 :: r).idxOf? 0x28 = some (ilt ++ d).length := by
    have hni : 0x28 ∉ ilt ++ d := by
      simp only [List.mem_append, not_or]
      exact ⟨by decide, hd⟩
    rw [List.idxOf?_eq_some_iff]
    refine ⟨by simp, by simp, ?_⟩
    intro j hj
    rw [List.getElem_append_left hj]
    intro hc
    have hc' : (ilt ++ d)[j] = 0x28 := by simpa using hc
    exact hni (hc' ▸ List.getElem_mem hj)
  have hdrop : (ilt ++ d ++ 0x28 :: r).drop ((ilt ++ d).length + 1) = r := by
    rw [List.drop_append]
    simp
  have hpre : ilt <+: ilt ++ d ++ 0x28 :: r := by rw [List.append_assoc]; exact List.prefix_append _ _
  unfold demangleName
  rw [if_pos hpre, hidx]
  dsimp only
  rw [hdrop]
  have hl : (r.take (r.length - 1)).length = r.length - 1 := by simp
  constructor
  · intro h
    rw [if_neg (by omega), if_pos (by rw [hl]; omega), List.dropLast_eq_take]
  · intro h
    by_cases h0 : r.length = 0
    · rw [if_pos h0]
    · rw [if_neg h0, if_neg (by rw [hl]; omega)]

-- "@ILT+5(f(g))": the last character is not looked at
example : demangleName (fun _ => none) [0x40, 0x49, 0x4C, 0x54, 0x2B, 0x35, 0x28, 0x66, 0x28, 0x67, 0x29, 0x29] =
    some [0x66, 0x28, 0x67, 0x29] := by decide

end ELC.Symname
