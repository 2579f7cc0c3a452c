import Verif.Cast.Lemmas
/-! C209: using the payload of a node as a `T`. -/
namespace ELC.Cast

/-- C209: `maybe_fail_use_by_ref_as<T>` refers to the object as a `T` where it is one, in the sense of the language,
and fails otherwise. -/
theorem maybe_use_correct (E : Types) (T : Nat) (c : Cls) (hc : Declared E c) (p : Path) :
    maybeUse E T (.bin c) = some p ↔ Is c T p := by
  unfold maybeUse
  dsimp only
  by_cases hn : c.name = T
  · rw [if_pos hn]
    subst hn
    constructor
    · intro h
      injection h with h
      subst h
      exact ⟨has_self c, fun q pub hq => hc.once q pub hq⟩
    · intro h
      rw [hc.once p true h.1]
  · rw [if_neg hn]
    by_cases hf : (E.isClass T && !E.isFinal T) = true
    · rw [if_pos hf]; exact catchPtr_iff T c p
    · rw [if_neg hf]
      refine ⟨nofun, fun h => absurd ?_ hf⟩
      have hp : p ≠ [] := by
        rintro rfl
        have := h.1
        cases this
        exact hn rfl
      obtain ⟨h1, h2⟩ := hc.base p T true h.1 hp
      rw [h1, h2]; rfl

/-- C209: `was_an<T>` says whether the object is a `T`. -/
theorem was_an_correct (E : Types) (T : Nat) (c : Cls) (hc : Declared E c) :
    wasAn E T (.bin c) = true ↔ ∃ p, Is c T p := by
  have h : wasAn E T (.bin c) = (maybeUse E T (.bin c)).isSome := by
    unfold wasAn maybeUse
    dsimp only
    by_cases h1 : c.name = T
    · rw [if_pos h1, if_pos h1]; rfl
    · rw [if_neg h1, if_neg h1]
      by_cases h2 : (E.isClass T && !E.isFinal T) = true
      · rw [if_pos h2, if_pos h2]
        cases catchPtr T c <;> rfl
      · rw [if_neg h2, if_neg h2]; rfl
  rw [h, Option.isSome_iff_exists]
  constructor
  · rintro ⟨p, hp⟩; exact ⟨p, (maybe_use_correct E T c hc p).1 hp⟩
  · rintro ⟨p, hp⟩; exact ⟨p, (maybe_use_correct E T c hc p).2 hp⟩

/-- C209: `const_use_by_ref_as<T>`, and `use_as<T>`, take the object as a `T` where it is one, else the default value
of `T`. -/
theorem const_use_correct (E : Types) (T : Nat) (c : Cls) (hc : Declared E c) :
    (∀ p, constUse E T (.bin c) = .sub p ↔ Is c T p) ∧
      (constUse E T (.bin c) = .default ↔ ∀ p, ¬ Is c T p) := by
  have h : constUse E T (.bin c) = match maybeUse E T (.bin c) with | some p => .sub p | none => .default := by
    unfold constUse maybeUse
    dsimp only
    by_cases h1 : c.name = T
    · rw [if_pos h1, if_pos h1]
    · rw [if_neg h1, if_neg h1]
      by_cases h2 : (E.isClass T && !E.isFinal T) = true
      · rw [if_pos h2, if_pos h2]; cases catchPtr T c <;> rfl
      · rw [if_neg h2, if_neg h2]
  rw [h]
  constructor
  · intro p
    rw [← maybe_use_correct E T c hc p]
    cases maybeUse E T (.bin c) <;> simp
  · simp only [← maybe_use_correct E T c hc]
    cases maybeUse E T (.bin c) <;> simp

/-- C209: nodes without a payload are never a `T`. -/
theorem other_nodes (E : Types) (T : Nat) : maybeUse E T .other = none ∧ wasAn E T .other = false ∧
    constUse E T .other = .default := ⟨rfl, rfl, rfl⟩

/-! Classes 1, 2 : 1 and 3 : 2, private 4; and a class 5 with two bases that both have a base 1. -/

/-- A class with a public chain of bases and a private base. -/
def chain : Cls := .mk 3 [(true, .mk 2 [(true, .mk 1 [])]), (false, .mk 4 [])]

/-- A class with two sub-objects of one class. -/
def twice : Cls := .mk 5 [(true, .mk 2 [(true, .mk 1 [])]), (true, .mk 6 [(true, .mk 1 [])])]

/-- Every type is a class that is not final. -/
def allOpen : Types := ⟨fun _ => true, fun _ => false⟩

theorem declared_of_once {c : Cls} (h : ((parts c).tail.all fun x => x.name ≠ c.name) = true) : Declared allOpen c := by
  refine ⟨fun _ _ _ _ _ => ⟨rfl, rfl⟩, fun p pub hp => ?_⟩
  have hm := (mem_parts c ⟨c.name, pub, p⟩).2 hp
  obtain ⟨n, bs⟩ := c
  rw [parts] at hm h
  rcases List.mem_cons.1 hm with e | e
  · injection e
  · have := List.all_eq_true.1 h _ e
    simp at this

example : Declared allOpen chain ∧ Declared allOpen twice :=
  ⟨declared_of_once (by decide), declared_of_once (by decide)⟩

-- the grandparent is found, the private base is not, and neither is the one that is there twice
example : maybeUse allOpen 1 (.bin chain) = some [0, 0] ∧ maybeUse allOpen 4 (.bin chain) = none ∧
    maybeUse allOpen 1 (.bin twice) = none ∧ maybeUse allOpen 6 (.bin twice) = some [1] := by decide

end ELC.Cast
