import Verif.Chars.Props
import Verif.Stream.Spec

/-! Lemmas about reading words and lines. -/
namespace ELC.Stream
open Spec

/-- The predicate of the specification as a Boolean function. -/
def sp (c : Nat) : Bool := decide (IsSpace c)

theorem space_eq (c : Nat) : space c = sp c := by
  have h := Chars.space_exact c
  have h2 : (Chars.Spec.In Chars.whiteSpace c) ↔ IsSpace c := by
    simp only [Chars.Spec.In, Chars.whiteSpace, IsSpace, List.mem_cons, List.not_mem_nil, or_false,
      exists_eq_or_imp, exists_eq_left]
    omega
  rw [Bool.eq_iff_iff, space, sp, decide_eq_true_eq, ← h2, ← h, beq_iff_eq]

theorem sp_zero : sp 0 = false := by decide

theorem skipSpace_eq (ends : Bool) (t : List Nat) :
    skipSpace ends t = some ⟨t.dropWhile sp, ends⟩ := by
  induction t with
  | nil => rw [skipSpace, space_eq, sp_zero]; rfl
  | cons c r ih =>
    rw [skipSpace, space_eq]
    by_cases h : sp c = true
    · rw [if_pos h, ih, List.dropWhile_cons_of_pos h]
    · rw [if_neg h, List.dropWhile_cons_of_neg h]

theorem takeWord_eq (t : List Nat) : ∀ str, takeWord true str t =
    some (str ++ t.takeWhile (fun c => !sp c), ⟨t.dropWhile (fun c => !sp c), true⟩) := by
  induction t with
  | nil => intro str; simp [takeWord]
  | cons c r ih =>
    intro str
    rw [takeWord, space_eq]
    by_cases h : sp c = true
    · rw [if_pos h]; simp [h]
    · rw [if_neg h, ih]; simp [h]

theorem takeWord_open (t : List Nat) : ∀ str, takeWord false str t =
    if t.any sp then
      some (str ++ t.takeWhile (fun c => !sp c), ⟨t.dropWhile (fun c => !sp c), false⟩)
    else none := by
  induction t with
  | nil => intro str; simp [takeWord, space_eq, sp_zero]
  | cons c r ih =>
    intro str
    rw [takeWord, space_eq]
    by_cases h : sp c = true
    · rw [if_pos h]; simp [h]
    · rw [if_neg h, ih]; simp [h]

theorem readWord_eq (t : List Nat) : readWord ⟨t, true⟩ =
    some ((t.dropWhile sp).takeWhile (fun c => !sp c),
      ⟨(t.dropWhile sp).dropWhile (fun c => !sp c), true⟩) := by
  rw [readWord, skipSpace_eq]
  show takeWord true [] (t.dropWhile sp) = _
  rw [takeWord_eq, List.nil_append]

theorem splitOnP_first (p : Nat → Bool) (u : List Nat) : u.splitOnP p =
    u.takeWhile (fun c => !p c) ::
      (match u.dropWhile (fun c => !p c) with | [] => [] | _ :: r => r.splitOnP p) := by
  induction u with
  | nil => rfl
  | cons c r ih =>
    rw [List.splitOnP_cons_eq_if_modifyHead]
    by_cases h : p c = true
    · simp [h]
    · rw [if_neg h, ih]; simp [h]

theorem words_space {c : Nat} (h : sp c = true) (r : List Nat) : words (c :: r) = words r := by
  have h' : decide (IsSpace c) = true := h
  rw [words, List.splitOnP_cons_eq_if_modifyHead, if_pos h']
  rfl

theorem words_skip (t : List Nat) : words t = words (t.dropWhile sp) := by
  induction t with
  | nil => rfl
  | cons c r ih =>
    by_cases h : sp c = true
    · rw [words_space h, ih, List.dropWhile_cons_of_pos h]
    · rw [List.dropWhile_cons_of_neg h]

theorem dropWhile_head {p : Nat → Bool} {c : Nat} {r : List Nat} :
    ∀ {t : List Nat}, t.dropWhile p = c :: r → p c = false := by
  intro t
  induction t with
  | nil => intro h; cases h
  | cons d t ih =>
    intro h
    by_cases hd : p d = true
    · rw [List.dropWhile_cons_of_pos hd] at h; exact ih h
    · rw [List.dropWhile_cons_of_neg hd] at h
      injection h with h1 _
      subst h1
      simpa using hd

theorem words_rec (t : List Nat) : words t =
    if (t.dropWhile sp).takeWhile (fun c => !sp c) = [] then []
    else (t.dropWhile sp).takeWhile (fun c => !sp c) ::
      words ((t.dropWhile sp).dropWhile (fun c => !sp c)) := by
  rw [words_skip]
  generalize hu : t.dropWhile sp = u
  match u, hu with
  | [], _ => rfl
  | c :: r, hu =>
    have hc : sp c = false := dropWhile_head hu
    have hne : (c :: r).takeWhile (fun c => !sp c) ≠ [] := by simp [hc]
    rw [if_neg hne]
    have e : words (c :: r) = ((c :: r).splitOnP sp).filter (fun w => !w.isEmpty) := rfl
    rw [e, splitOnP_first]
    have hw : (!((c :: r).takeWhile (fun c => !sp c)).isEmpty) = true := by simp [hc]
    rw [List.filter_cons_of_pos (p := fun w : List Nat => !w.isEmpty) hw]
    congr 1
    generalize hv : (c :: r).dropWhile (fun c => !sp c) = v
    match v, hv with
    | [], _ => rfl
    | d :: v', hv =>
      have hd : sp d = true := by simpa using dropWhile_head hv
      rw [words_space hd]; rfl

/-! ### Lines -/

/-- The end of a line as the code sees it. -/
def nl (c : Nat) : Bool := c == 0x0d || c == 0x0a

theorem nl_iff (c : Nat) : nl c = true ↔ c = 0x0d ∨ c = 0x0a := by simp [nl]

theorem takeLine_eq (t : List Nat) : ∀ str, takeLine true str t =
    some (str ++ t.takeWhile (fun c => !nl c), ⟨t.dropWhile (fun c => !nl c), true⟩) := by
  induction t with
  | nil => intro str; simp [takeLine]
  | cons c r ih =>
    intro str
    rw [takeLine]
    by_cases h : nl c = true
    · have h2 := (nl_iff c).1 h
      rw [if_neg (by omega)]; simp [h]
    · have h2 : ¬ (c = 0x0d ∨ c = 0x0a) := fun hc => h ((nl_iff c).2 hc)
      rw [if_pos (by omega), ih]; simp [h]

theorem getline_eq (w : Bool) (t : List Nat) : getline w ⟨t, true⟩ =
    (readEndline true w ((t.dropWhile sp).dropWhile (fun c => !nl c))).map
      (fun s => ((t.dropWhile sp).takeWhile (fun c => !nl c), s)) := by
  rw [getline, skipSpace_eq]
  show (do
    let (str, s2) ← takeLine true [] (t.dropWhile sp)
    let s3 ← readEndline s2.ends w s2.text
    return (str, s3)) = _
  rw [takeLine_eq, List.nil_append]
  show (do
    let s3 ← readEndline true w ((t.dropWhile sp).dropWhile (fun c => !nl c))
    return ((t.dropWhile sp).takeWhile (fun c => !nl c), s3)) = _
  cases readEndline true w ((t.dropWhile sp).dropWhile (fun c => !nl c)) <;> rfl

/-- What is left of a text that begins with a line end. -/
def afterEnd (w : Bool) (u : List Nat) : List Nat :=
  match u with
  | [] => []
  | c :: r =>
    if c = 0x0d ∧ w = false then
      match r with
      | [] => []
      | [_] => []
      | d :: e :: r' => if d = 0x0a then e :: r' else d :: e :: r'
    else r

theorem readEndline_eq (w : Bool) (u : List Nat) (h : ∀ c r, u = c :: r → nl c = true) :
    readEndline true w u = some ⟨afterEnd w u, true⟩ := by
  match u, h with
  | [], _ => rfl
  | c :: r, h =>
    have hc := (nl_iff c).1 (h c r rfl)
    match r with
    | [] =>
      rw [readEndline]
      have : afterEnd w [c] = [] := by
        unfold afterEnd; simp
      rw [if_pos (by rfl), this]
    | d :: r' =>
      rw [readEndline, if_neg (by simp)]
      rcases hc with rfl | rfl
      · rw [if_neg (by decide), if_pos rfl]
        cases w with
        | true => rfl
        | false =>
          match r' with
          | [] => rfl
          | e :: r'' =>
            by_cases hd : d = 0x0a
            · subst hd; rfl
            · simp [afterEnd, hd]
      · rw [if_pos rfl]; rfl

end ELC.Stream
