import Verif.Mixed.Lemmas
/-!
C198: equality, order, greatest and least of native integers of different types.  C199: greatest and least with NaN.
-/
namespace ELC.Mixed
open Spec Lemmas

/-! ### C198 -/

/-- `compare` gives the order of the numbers exactly in these cases: the common type has a sign, none of them is negative, or the
negative one is still smaller after it has been taken for a number without sign. -/
theorem compare_characterised {a b : Num} (ha : Num.Ok a) (hb : Num.Ok b) :
    compareNum a b = some (compare a.val b.val) ↔
      (common a.ty b.ty).signed = true ∨ (0 ≤ a.val ∧ 0 ≤ b.val) ∨
      (a.val < 0 ∧ a.val + 2 ^ (common a.ty b.ty).bits < b.val) ∨ (b.val < 0 ∧ b.val + 2 ^ (common a.ty b.ty).bits < a.val) := by
  rw [compare_conv, conv_seen_left ha, conv_seen_right hb, Option.some.injEq]
  rcases signed_or (c := common a.ty b.ty) with hs | hs
  · simp [seen, hs]
  · have o := one_negative ha hb hs
    have p := pow_pos' (common a.ty b.ty).bits
    unfold seen
    generalize (2 : Int) ^ (common a.ty b.ty).bits = P at *
    simp only [hs, true_and, Bool.false_eq_true, false_or]
    by_cases h1 : a.val < 0
    · rw [if_pos h1, if_neg (by omega), compare_lt_iff_lt.2 (show a.val < b.val by omega)]
      constructor
      · intro h; exact Or.inr (Or.inl ⟨h1, compare_lt_iff_lt.1 h⟩)
      · rintro (h | h | h)
        · omega
        · exact compare_lt_iff_lt.2 h.2
        · omega
    · rw [if_neg h1]
      by_cases h2 : b.val < 0
      · rw [if_pos h2, compare_gt_iff_gt.2 (show a.val > b.val by omega)]
        constructor
        · intro h; exact Or.inr (Or.inr ⟨h2, compare_gt_iff_gt.1 h⟩)
        · rintro (h | h | h)
          · omega
          · omega
          · exact compare_gt_iff_gt.2 h.2
      · rw [if_neg h2]
        simp only [true_iff]
        left; omega

/-- `equal` says that two numbers are equal exactly if they are, or if they differ by what a common type without sign wraps at. -/
theorem equal_characterised {a b : Num} (ha : Num.Ok a) (hb : Num.Ok b) :
    equalNum a b = true ↔ a.val = b.val ∨ ((common a.ty b.ty).signed = false ∧
      ((a.val < 0 ∧ b.val = a.val + 2 ^ (common a.ty b.ty).bits) ∨ (b.val < 0 ∧ a.val = b.val + 2 ^ (common a.ty b.ty).bits))) := by
  unfold equalNum
  simp only [decide_eq_true_eq]
  rw [conv_seen_left ha, conv_seen_right hb]
  rcases signed_or (c := common a.ty b.ty) with hs | hs
  · simp [seen, hs]
  · have o := one_negative ha hb hs
    have p := pow_pos' (common a.ty b.ty).bits
    unfold seen
    generalize (2 : Int) ^ (common a.ty b.ty).bits = P at *
    simp only [hs, true_and]
    split <;> split <;> omega

/-- The greatest of two: its value, and its type. -/
theorem max_value {a b : Num} (ha : Num.Ok a) (hb : Num.Ok b) :
    max2 a b = ⟨common a.ty b.ty, max (seen (common a.ty b.ty) a.val) (seen (common a.ty b.ty) b.val)⟩ := by
  unfold max2
  rw [compare_conv]
  simp only [Option.some.injEq, Num.mk.injEq, true_and, compare_lt_iff_lt]
  rw [← conv_seen_left ha, ← conv_seen_right hb]
  split <;> omega

/-- The least of two: its value, and its type. -/
theorem min_value {a b : Num} (ha : Num.Ok a) (hb : Num.Ok b) :
    min2 a b = ⟨common a.ty b.ty, min (seen (common a.ty b.ty) a.val) (seen (common a.ty b.ty) b.val)⟩ := by
  unfold min2
  rw [compare_conv]
  simp only [Option.some.injEq, Num.mk.injEq, true_and, compare_lt_iff_lt]
  rw [← conv_seen_left ha, ← conv_seen_right hb]
  split <;> omega

/-- `max(a,b)` is the greater of the two exactly in these cases: the common type has a sign, none is negative, or the negative one is
still not the greater after it has been taken for a number without sign. -/
theorem max_characterised {a b : Num} (ha : Num.Ok a) (hb : Num.Ok b) :
    (max2 a b).val = max a.val b.val ↔
      (common a.ty b.ty).signed = true ∨ (0 ≤ a.val ∧ 0 ≤ b.val) ∨
      (a.val < 0 ∧ a.val + 2 ^ (common a.ty b.ty).bits ≤ b.val) ∨ (b.val < 0 ∧ b.val + 2 ^ (common a.ty b.ty).bits ≤ a.val) := by
  rw [max_value ha hb]
  rcases signed_or (c := common a.ty b.ty) with hs | hs
  · simp [seen, hs]
  · have o := one_negative ha hb hs
    have p := pow_pos' (common a.ty b.ty).bits
    unfold seen
    generalize (2 : Int) ^ (common a.ty b.ty).bits = P at *
    simp only [hs, true_and, Bool.false_eq_true, false_or]
    rcases le_total a.val b.val with h | h <;> simp only [h, max_eq_left, max_eq_right, min_eq_left, min_eq_right] <;>
    split <;> split <;> omega

/-- `min(a,b)` is the lesser of the two exactly if the common type has a sign or none is negative: never if the least is negative and
the common type has no sign. -/
theorem min_characterised {a b : Num} (ha : Num.Ok a) (hb : Num.Ok b) :
    (min2 a b).val = min a.val b.val ↔ (common a.ty b.ty).signed = true ∨ (0 ≤ a.val ∧ 0 ≤ b.val) := by
  rw [min_value ha hb]
  rcases signed_or (c := common a.ty b.ty) with hs | hs
  · simp [seen, hs]
  · have o := one_negative ha hb hs
    have la := half_le ha.1 ha.2
    have lb := half_le hb.1 hb.2
    have p := pow_pos' (common a.ty b.ty).bits
    have ba := common_bits a.ty b.ty
    have bb := common_bits b.ty a.ty
    rw [common_comm b.ty a.ty] at bb
    have ma := pow_mono (show a.ty.bits - 1 ≤ (common a.ty b.ty).bits by omega)
    have mb := pow_mono (show b.ty.bits - 1 ≤ (common a.ty b.ty).bits by omega)
    unfold seen
    generalize (2 : Int) ^ (common a.ty b.ty).bits = P at *
    simp only [hs, true_and, Bool.false_eq_true, false_or]
    rcases le_total a.val b.val with h | h <;> simp only [h, max_eq_left, max_eq_right, min_eq_left, min_eq_right] <;>
    split <;> split <;> omega

/-- Which of the two comes first makes no difference. -/
theorem max_min_comm {a b : Num} (ha : Num.Ok a) (hb : Num.Ok b) : max2 a b = max2 b a ∧ min2 a b = min2 b a := by
  rw [max_value ha hb, max_value hb ha, min_value ha hb, min_value hb ha, common_comm b.ty a.ty, max_comm, min_comm]
  exact ⟨rfl, rfl⟩

/-- The type of the greatest of two numbers with a sign has a sign. -/
theorem common_signed {t u : ITy} (ht : t.signed = true) (hu : u.signed = true) : (common t u).signed = true := by
  have k : ∀ t : ITy, t.signed = true → (promote t).signed = true := by
    intro t h; unfold promote; split <;> simp [h]
  unfold common
  simp [k t ht, k u hu]

/-- Numbers that can be compared with each other without surprise: none is negative, or all types have a sign. -/
def Alike (l : List Num) : Prop := (∀ a ∈ l, 0 ≤ a.val) ∨ ∀ a ∈ l, a.ty.signed = true

theorem alike_two {a b : Num} (h : (0 ≤ a.val ∧ 0 ≤ b.val) ∨ (a.ty.signed = true ∧ b.ty.signed = true)) (ha : Num.Ok a)
    (hb : Num.Ok b) : seen (common a.ty b.ty) a.val = a.val ∧ seen (common a.ty b.ty) b.val = b.val ∧
      Has (common a.ty b.ty) a.val ∧ Has (common a.ty b.ty) b.val := by
  have hc := common_comm a.ty b.ty
  rcases h with h | h
  · refine ⟨if_neg (by omega), if_neg (by omega), common_has ha.1 ha.2 (Or.inr h.1), ?_⟩
    rw [hc]; exact common_has hb.1 hb.2 (Or.inr h.2)
  · have s := common_signed h.1 h.2
    refine ⟨if_neg (by simp [s]), if_neg (by simp [s]), common_has ha.1 ha.2 (Or.inl s), ?_⟩
    rw [hc]; exact common_has hb.1 hb.2 (Or.inl (hc ▸ s))

/-- For any number of arguments of any types, none negative or all of types with a sign, `max` is the greatest and `min` the least of
them, and the result is a value of its type. -/
theorem max_min_partial (a : Num) (l : List Num) (ok : ∀ x ∈ a :: l, Num.Ok x) (h : Alike (a :: l)) :
    Greatest ((a :: l).map Num.val) (maxOf a l).val ∧ Num.Ok (maxOf a l) ∧
    Least ((a :: l).map Num.val) (minOf a l).val ∧ Num.Ok (minOf a l) := by
  suffices key : Greatest ((a :: l).map Num.val) (maxOf a l).val ∧ Num.Ok (maxOf a l) ∧
      Least ((a :: l).map Num.val) (minOf a l).val ∧ Num.Ok (minOf a l) ∧
      ((∀ x ∈ a :: l, x.ty.signed = true) → (maxOf a l).ty.signed = true ∧ (minOf a l).ty.signed = true) from
    ⟨key.1, key.2.1, key.2.2.1, key.2.2.2.1⟩
  induction l generalizing a with
  | nil =>
    have o := ok a (by simp)
    simp only [List.map_cons, List.map_nil, maxOf, minOf]
    exact ⟨⟨by simp, by simp⟩, o, ⟨by simp, by simp⟩, o, fun h => ⟨h a (by simp), h a (by simp)⟩⟩
  | cons b l ih =>
    have oa := ok a (by simp)
    have h' : Alike (b :: l) := by
      rcases h with h | h
      · exact Or.inl fun x hx => h x (List.mem_cons_of_mem _ hx)
      · exact Or.inr fun x hx => h x (List.mem_cons_of_mem _ hx)
    obtain ⟨g, og, lm, ol, sg⟩ := ih b (fun x hx => ok x (List.mem_cons_of_mem _ hx)) h'
    have inM : ∃ x ∈ b :: l, (maxOf b l).val = x.val := by
      obtain ⟨x, hx, e⟩ := List.mem_map.1 g.1; exact ⟨x, hx, e.symm⟩
    have inm : ∃ x ∈ b :: l, (minOf b l).val = x.val := by
      obtain ⟨x, hx, e⟩ := List.mem_map.1 lm.1; exact ⟨x, hx, e.symm⟩
    have hM : (0 ≤ a.val ∧ 0 ≤ (maxOf b l).val) ∨ (a.ty.signed = true ∧ (maxOf b l).ty.signed = true) := by
      rcases h with h | h
      · left
        obtain ⟨x, hx, e⟩ := inM
        exact ⟨h a (by simp), by rw [e]; exact h x (List.mem_cons_of_mem _ hx)⟩
      · exact Or.inr ⟨h a (by simp), (sg fun x hx => h x (List.mem_cons_of_mem _ hx)).1⟩
    have hm : (0 ≤ a.val ∧ 0 ≤ (minOf b l).val) ∨ (a.ty.signed = true ∧ (minOf b l).ty.signed = true) := by
      rcases h with h | h
      · left
        obtain ⟨x, hx, e⟩ := inm
        exact ⟨h a (by simp), by rw [e]; exact h x (List.mem_cons_of_mem _ hx)⟩
      · exact Or.inr ⟨h a (by simp), (sg fun x hx => h x (List.mem_cons_of_mem _ hx)).2⟩
    obtain ⟨s1, s2, k1, k2⟩ := alike_two hM oa og
    obtain ⟨t1, t2, j1, j2⟩ := alike_two hm oa ol
    have bM := common_bits a.ty (maxOf b l).ty
    have bm := common_bits a.ty (minOf b l).ty
    rw [maxOf, minOf, max_value oa og, min_value oa ol, s1, s2, t1, t2]
    refine ⟨⟨?_, ?_⟩, ⟨by simp only; omega, ?_⟩, ⟨?_, ?_⟩, ⟨by simp only; omega, ?_⟩, ?_⟩
    · rw [List.map_cons]
      rcases max_choice a.val (maxOf b l).val with e | e
      · simp only; rw [e]; exact List.mem_cons_self
      · simp only; rw [e]; exact List.mem_cons_of_mem _ g.1
    · intro x hx
      rw [List.map_cons] at hx
      rcases List.mem_cons.1 hx with rfl | hx
      · exact le_max_left _ _
      · exact le_trans (g.2 x hx) (le_max_right _ _)
    · rcases max_choice a.val (maxOf b l).val with e | e
      · simp only; rw [e]; exact k1
      · simp only; rw [e]; exact k2
    · rw [List.map_cons]
      rcases min_choice a.val (minOf b l).val with e | e
      · simp only; rw [e]; exact List.mem_cons_self
      · simp only; rw [e]; exact List.mem_cons_of_mem _ lm.1
    · intro x hx
      rw [List.map_cons] at hx
      rcases List.mem_cons.1 hx with rfl | hx
      · exact min_le_left _ _
      · exact le_trans (min_le_right _ _) (lm.2 x hx)
    · rcases min_choice a.val (minOf b l).val with e | e
      · simp only; rw [e]; exact j1
      · simp only; rw [e]; exact j2
    · intro hs
      have sb := sg fun x hx => hs x (List.mem_cons_of_mem _ hx)
      exact ⟨common_signed (hs a (by simp)) sb.1, common_signed (hs a (by simp)) sb.2⟩

/-- -1 as an `int` with 1 and 4294967295 as `unsigned`: equal to the one, greater than the other, and the greatest is neither. -/
theorem mixed_refuted : Num.Ok ⟨⟨32, true⟩, -1⟩ ∧ Num.Ok ⟨⟨32, false⟩, 1⟩ ∧ Num.Ok ⟨⟨32, false⟩, 2 ^ 32 - 1⟩ ∧
    equalNum ⟨⟨32, true⟩, -1⟩ ⟨⟨32, false⟩, 2 ^ 32 - 1⟩ = true ∧
    compareNum ⟨⟨32, true⟩, -1⟩ ⟨⟨32, false⟩, 1⟩ = some .gt ∧
    max2 ⟨⟨32, true⟩, -1⟩ ⟨⟨32, false⟩, 1⟩ = ⟨⟨32, false⟩, 2 ^ 32 - 1⟩ ∧
    min2 ⟨⟨32, true⟩, -1⟩ ⟨⟨32, false⟩, 1⟩ = ⟨⟨32, false⟩, 1⟩ := by
  refine ⟨⟨by decide, ?_⟩, ⟨by decide, ?_⟩, ⟨by decide, ?_⟩, by decide +kernel, by decide +kernel, by decide +kernel, by decide +kernel⟩ <;>
    simp [Has]

/-- The greatest of three numbers depends on the order they are given in: -1 (`int`), 1 (`unsigned`), 3 (64 bits with a sign). -/
theorem order_refuted : ∃ a b c : Num, Num.Ok a ∧ Num.Ok b ∧ Num.Ok c ∧ (maxOf a [b, c]).val = 3 ∧ (maxOf c [a, b]).val = 2 ^ 32 - 1 := by
  refine ⟨⟨⟨32, true⟩, -1⟩, ⟨⟨32, false⟩, 1⟩, ⟨⟨64, true⟩, 3⟩, ⟨by decide, ?_⟩, ⟨by decide, ?_⟩, ⟨by decide, ?_⟩, by decide +kernel, by decide +kernel⟩ <;>
    simp [Has]

example : (maxOf ⟨⟨8, true⟩, -5⟩ [⟨⟨64, true⟩, 2 ^ 40⟩, ⟨⟨16, true⟩, 7⟩]).val = 2 ^ 40 := by decide +kernel
example : (minOf ⟨⟨8, false⟩, 200⟩ [⟨⟨8, true⟩, 100⟩]) = ⟨⟨32, true⟩, 100⟩ := by decide +kernel

/-! ### C199 -/

theorem fmax2_num (x y : Int) : fmax2 (.num x) (.num y) = .num (max x y) := by
  unfold fmax2 compareFlt
  simp only [Option.some.injEq, compare_lt_iff_lt]
  split
  · rw [max_eq_right (by omega)]
  · rw [max_eq_left (by omega)]

theorem fmin2_num (x y : Int) : fmin2 (.num x) (.num y) = .num (min x y) := by
  unfold fmin2 compareFlt
  simp only [Option.some.injEq, compare_lt_iff_lt]
  split
  · rw [min_eq_left (by omega)]
  · rw [min_eq_right (by omega)]

theorem greatest_cons {x m : Int} {l : List Int} (h : Greatest l m) : Greatest (x :: l) (max x m) := by
  refine ⟨?_, ?_⟩
  · rcases max_choice x m with e | e
    · rw [e]; exact List.mem_cons_self
    · rw [e]; exact List.mem_cons_of_mem _ h.1
  · intro y hy
    rcases List.mem_cons.1 hy with rfl | hy
    · exact le_max_left _ _
    · exact le_trans (h.2 y hy) (le_max_right _ _)

theorem least_cons {x m : Int} {l : List Int} (h : Least l m) : Least (x :: l) (min x m) := by
  refine ⟨?_, ?_⟩
  · rcases min_choice x m with e | e
    · rw [e]; exact List.mem_cons_self
    · rw [e]; exact List.mem_cons_of_mem _ h.1
  · intro y hy
    rcases List.mem_cons.1 hy with rfl | hy
    · exact min_le_left _ _
    · exact le_trans (min_le_right _ _) (h.2 y hy)

/-- `max(a,b,c...)`: NaN if the first is NaN, else the greatest of the arguments before the first NaN; what comes behind a NaN does
not count. -/
theorem nan_max_characterised (a : Flt) (l : List Flt) :
    (a = .nan → fmaxOf a l = .nan) ∧ (a ≠ .nan → IsMax (places (untilNan (a :: l))) (fmaxOf a l)) := by
  induction l generalizing a with
  | nil =>
    cases a with
    | nan => simp [fmaxOf]
    | num x => exact ⟨fun h => (by simp at h), fun _ => ⟨x, rfl, by simp [untilNan, places, Greatest]⟩⟩
  | cons b l ih =>
    cases a with
    | nan => exact ⟨fun _ => by cases h : fmaxOf b l <;> simp [fmaxOf, fmax2, compareFlt, h], fun h => absurd rfl h⟩
    | num x =>
      refine ⟨fun h => (nomatch h), fun _ => ?_⟩
      cases b with
      | nan =>
        rw [fmaxOf, (ih .nan).1 rfl]
        exact ⟨x, by simp [fmax2, compareFlt], by simp [untilNan, places, Greatest]⟩
      | num y =>
        obtain ⟨m, e, g⟩ := (ih (.num y)).2 (by simp)
        rw [fmaxOf, e, fmax2_num]
        exact ⟨max x m, rfl, by simpa only [untilNan, places] using greatest_cons (x := x) g⟩

/-- `min(a,b,c...)`: NaN if the last is NaN, else the least of the numbers among the arguments. -/
theorem nan_min_characterised (a : Flt) (l : List Flt) :
    ((a :: l).getLast (by simp) = .nan → fminOf a l = .nan) ∧
    ((a :: l).getLast (by simp) ≠ .nan → IsMin (places (a :: l)) (fminOf a l)) := by
  induction l generalizing a with
  | nil =>
    cases a with
    | nan => simp [fminOf]
    | num x => exact ⟨fun h => (by simp at h), fun _ => ⟨x, rfl, by simp [places, Least]⟩⟩
  | cons b l ih =>
    rw [List.getLast_cons (by simp), fminOf]
    refine ⟨fun h => ?_, fun h => ?_⟩
    · rw [(ih b).1 h]; cases a <;> simp [fmin2, compareFlt]
    · obtain ⟨m, e, g⟩ := (ih b).2 h
      rw [e]
      cases a with
      | nan => exact ⟨m, by simp [fmin2, compareFlt], g⟩
      | num x => rw [fmin2_num]; exact ⟨min x m, rfl, least_cons g⟩

/-- `max({...})` and `min({...})`: NaN if the first is NaN, else the greatest and the least of the numbers, whatever else is NaN. -/
theorem nan_list_characterised (a : Flt) (l : List Flt) :
    (a = .nan → fmaxList a l = .nan ∧ fminList a l = .nan) ∧
    (a ≠ .nan → IsMax (places (a :: l)) (fmaxList a l) ∧ IsMin (places (a :: l)) (fminList a l)) := by
  have hmax : ∀ l, fmaxList .nan l = .nan := by
    intro l; induction l with
    | nil => rfl
    | cons i l ih => rw [fmaxList]; simpa [compareFlt] using ih
  have hmin : ∀ l, fminList .nan l = .nan := by
    intro l; induction l with
    | nil => rfl
    | cons i l ih => rw [fminList]; simpa [compareFlt] using ih
  refine ⟨fun h => ⟨by rw [h, hmax], by rw [h, hmin]⟩, fun h => ?_⟩
  cases a with
  | nan => exact absurd rfl h
  | num x =>
    constructor
    · clear h
      induction l generalizing x with
      | nil => exact ⟨x, rfl, by simp [places, Greatest]⟩
      | cons i l ih =>
        rw [fmaxList]
        cases i with
        | nan => simpa [compareFlt, places] using ih x
        | num y =>
          simp only [compareFlt, Option.some.injEq, compare_lt_iff_lt]
          by_cases hl : x < y
          · rw [if_pos hl]
            obtain ⟨m, e, g⟩ := ih y
            refine ⟨m, e, List.mem_cons_of_mem _ g.1, fun z hz => ?_⟩
            rcases List.mem_cons.1 hz with rfl | hz
            · have := g.2 y (by simp [places]); omega
            · exact g.2 z hz
          · rw [if_neg hl]
            obtain ⟨m, e, g⟩ := ih x
            refine ⟨m, e, ?_, fun z hz => ?_⟩
            · simp only [places] at g ⊢
              rcases List.mem_cons.1 g.1 with h | h
              · exact h ▸ List.mem_cons_self
              · exact List.mem_cons_of_mem _ (List.mem_cons_of_mem _ h)
            · simp only [places] at g hz
              have gx := g.2 x List.mem_cons_self
              rcases List.mem_cons.1 hz with rfl | hz
              · exact gx
              · rcases List.mem_cons.1 hz with rfl | hz
                · omega
                · exact g.2 z (List.mem_cons_of_mem _ hz)
    · clear h
      induction l generalizing x with
      | nil => exact ⟨x, rfl, by simp [places, Least]⟩
      | cons i l ih =>
        rw [fminList]
        cases i with
        | nan => simpa [compareFlt, places] using ih x
        | num y =>
          simp only [compareFlt, Option.some.injEq, compare_gt_iff_gt]
          by_cases hl : x > y
          · rw [if_pos hl]
            obtain ⟨m, e, g⟩ := ih y
            refine ⟨m, e, List.mem_cons_of_mem _ g.1, fun z hz => ?_⟩
            rcases List.mem_cons.1 hz with rfl | hz
            · have := g.2 y (by simp [places]); omega
            · exact g.2 z hz
          · rw [if_neg hl]
            obtain ⟨m, e, g⟩ := ih x
            refine ⟨m, e, ?_, fun z hz => ?_⟩
            · simp only [places] at g ⊢
              rcases List.mem_cons.1 g.1 with h | h
              · exact h ▸ List.mem_cons_self
              · exact List.mem_cons_of_mem _ (List.mem_cons_of_mem _ h)
            · simp only [places] at g hz
              have gx := g.2 x List.mem_cons_self
              rcases List.mem_cons.1 hz with rfl | hz
              · exact gx
              · rcases List.mem_cons.1 hz with rfl | hz
                · omega
                · exact g.2 z (List.mem_cons_of_mem _ hz)

/-- Without NaN both forms of `max` and `min` are right. -/
theorem nan_partial (a : Flt) (l : List Flt) (h : .nan ∉ a :: l) :
    IsMax (places (a :: l)) (fmaxOf a l) ∧ IsMin (places (a :: l)) (fminOf a l) ∧
    IsMax (places (a :: l)) (fmaxList a l) ∧ IsMin (places (a :: l)) (fminList a l) := by
  have ha : a ≠ .nan := fun e => h (e ▸ List.mem_cons_self)
  have hu : ∀ l : List Flt, Flt.nan ∉ l → untilNan l = l := by
    intro l
    induction l with
    | nil => intro _; rfl
    | cons b l ih =>
      intro h
      cases b with
      | nan => exact absurd List.mem_cons_self h
      | num x => rw [untilNan, ih fun k => h (List.mem_cons_of_mem _ k)]
  have h1 := (nan_max_characterised a l).2 ha
  rw [hu _ h] at h1
  have hl : (a :: l).getLast (by simp) ≠ .nan := fun e => h (e ▸ List.getLast_mem _)
  exact ⟨h1, (nan_min_characterised a l).2 hl, ((nan_list_characterised a l).2 ha).1, ((nan_list_characterised a l).2 ha).2⟩

/-- With NaN the result depends on the order of the arguments, `max` forgets a greater number behind a NaN, and the two forms of
`min` differ. -/
theorem nan_refuted : fmaxOf (.num 1) [.nan] = .num 1 ∧ fmaxOf .nan [.num 1] = .nan ∧ fmaxOf (.num 1) [.nan, .num 5] = .num 1 ∧
    fminOf (.num 1) [.nan] = .nan ∧ fminList (.num 1) [.nan] = .num 1 ∧ fminOf .nan [.num 1] = .num 1 ∧ fminList .nan [.num 1] = .nan := by
  decide +kernel

example : fmaxOf (.num 1) [.num 7, .num 5] = .num 7 := by decide +kernel

end ELC.Mixed
