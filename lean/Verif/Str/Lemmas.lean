import Verif.Str.Spec
namespace ELC.Str
open Hash Spec
set_option linter.unusedSectionVars false
variable {A : Type} [Inhabited A]

theorem part_append (a b : List A) (p n : Nat) :
    part (a ++ b) p n = part a p n ++ part b (p - a.length) (n - (a.length - p)) := by
  simp [part, List.drop_append, List.take_append]

theorem part_append_left {a b : List A} {p n : Nat} (h : p + n ≤ a.length) :
    part (a ++ b) p n = part a p n := by
  rw [part_append]; have : n - (a.length - p) = 0 := by omega
  rw [this]; simp [part]

theorem part_append_right {a b : List A} {p n : Nat} (h : a.length ≤ p) :
    part (a ++ b) p n = part b (p - a.length) n := by
  have h1 : a.length - p = 0 := by omega
  rw [part_append, h1]; simp [part, List.drop_eq_nil_of_le h]

theorem part_take {l : List A} {k p n : Nat} (h : p + n ≤ k) : part (l.take k) p n = part l p n := by
  simp only [part, List.drop_take, List.take_take]; congr 1; omega

theorem part_drop (l : List A) (k p n : Nat) : part (l.drop k) p n = part l (k + p) n := by
  simp only [part, List.drop_drop]

theorem part_part {l : List A} {b s p n : Nat} (h : p + n ≤ s) :
    part ((l.drop b).take s) p n = part l (b + p) n := by
  rw [part_take h, part_drop]

theorem part_replicate {s p n : Nat} {v : A} (h : p + n ≤ s) :
    part (List.replicate s v) p n = List.replicate n v := by
  simp only [part, List.drop_replicate, List.take_replicate]; congr 1; omega

theorem size_eq (hc : A → Word) : ∀ n : Node A, WF hc n → n.size = (chars n).length := by
  intro n
  induction n with
  | null => intro; rfl
  | comn h m => intro; rfl
  | const h m => intro; rfl
  | substr h t b s ih => intro w; simp only [WF] at w; simp only [Node.size, chars, List.length_take, List.length_drop]; omega
  | head h m t ts u ih => intro w; simp only [WF] at w; simp only [Node.size, chars, List.length_append, List.length_drop]; omega
  | endA h m t ts u ih => intro w; simp only [WF] at w; simp only [Node.size, chars, List.length_append, List.length_take]; omega
  | sum h x y xs ys ihx ihy => intro w; simp only [WF] at w; simp only [Node.size, chars, List.length_append]; omega
  | erased h t ts p s ih => intro w; simp only [WF] at w; simp only [Node.size, chars, List.length_append, List.length_take, List.length_drop]; omega
  | inserted h t i ts p s iht ihi => intro w; simp only [WF] at w; simp only [Node.size, chars, List.length_append, List.length_take, List.length_drop]; omega
  | same h s v => intro; simp [Node.size, chars]

theorem arec_eq (hc : A → Word) : ∀ n : Node A, WF hc n → ∀ i, i < (chars n).length →
    arec n i = (chars n)[i]? := by
  intro n
  induction n with
  | null => intro _ i hi; simp [chars] at hi
  | comn h m => intro _ i hi; rfl
  | const h m => intro _ i hi; rfl
  | substr h t b s ih => 
    intro w i hi; simp only [WF] at w; simp only [chars, List.length_take, List.length_drop] at hi ⊢
    rw [arec, ih w.1 _ (by omega)]; grind
  | head h m t ts u ih => 
    intro w i hi; simp only [WF] at w; simp only [chars, List.length_append, List.length_drop] at hi ⊢
    rw [arec]; split
    · grind
    · rw [ih w.1 _ (by omega)]; grind
  | endA h m t ts u ih => 
    intro w i hi; simp only [WF] at w; simp only [chars, List.length_append, List.length_take] at hi ⊢
    rw [arec]; split
    · rw [ih w.1 _ (by omega)]; grind
    · grind
  | sum h x y xs ys ihx ihy => 
    intro w i hi; simp only [WF] at w; simp only [chars, List.length_append] at hi ⊢
    rw [arec]; split
    · rw [ihx w.1 _ (by omega)]; grind
    · rw [ihy w.2.1 _ (by omega)]; grind
  | erased h t ts p s ih => 
    intro w i hi; simp only [WF] at w; simp only [chars, List.length_append, List.length_take, List.length_drop] at hi ⊢
    rw [arec]; split
    · rw [ih w.1 _ (by omega)]; grind
    · rw [ih w.1 _ (by omega)]; grind
  | inserted h t i ts p s iht ihi => 
    intro w j hi; simp only [WF] at w; simp only [chars, List.length_append, List.length_take, List.length_drop] at hi ⊢
    rw [arec]; split
    · rw [ihi w.2.1 _ (by omega)]; grind
    · split
      · rw [iht w.1 _ (by omega)]; grind
      · rw [iht w.1 _ (by omega)]; grind
  | same h s v => intro _ i hi; simp only [chars, List.length_replicate] at hi ⊢; rw [arec]; grind

theorem cacheOk_fresh (hc : A → Word) (l : List A) : CacheOk hc fresh l := by
  intro w h; simp [fresh] at h

theorem mkSubstr_ok {hc : A → Word} {n : Node A} (w : WF hc n) {b s : Nat}
    (hb : b + s ≤ (chars n).length) :
    WF hc (mkSubstr n b s) ∧ chars (mkSubstr n b s) = part (chars n) b s := by
  unfold mkSubstr
  split
  · rename_i h; subst h; simp [WF, chars, part]
  · simp only [WF]; exact ⟨⟨w, hb, cacheOk_fresh _ _⟩, rfl⟩

theorem part_all (l : List A) : part l 0 l.length = l := by simp [part]

theorem baseSubstr_ok {hc : A → Word} {n : Node A} (w : WF hc n) {b s : Nat}
    (hb : b + s ≤ (chars n).length) :
    ∃ r, baseSubstr n b s = some r ∧ WF hc r ∧ chars r = part (chars n) b s := by
  unfold baseSubstr
  refine ⟨_, rfl, ?_⟩
  split
  · rename_i h; obtain ⟨rfl, rfl⟩ := h
    rw [size_eq hc n w, part_all]; exact ⟨w, rfl⟩
  · exact mkSubstr_ok w hb

theorem slice_ok {m : List A} {i n : Nat} (h : i + n ≤ m.length) : slice m i n = some (part m i n) := by
  simp [slice, h, part]

theorem mkConst_ok (hc : A → Word) (m : List A) : WF hc (mkConst m) ∧ chars (mkConst m) = m := by
  unfold mkConst; split
  · rename_i h; simp [WF, chars, List.length_eq_zero_iff.mp h]
  · simp only [WF]; exact ⟨cacheOk_fresh _ _, rfl⟩

theorem clone_ok {hc : A → Word} {h : Hd} {size : Nat} {v : A} (w : WF hc (.same h size v)) (k : Nat) :
    WF hc (clone h size v k) ∧ chars (clone h size v k) = List.replicate k v := by
  unfold clone; split
  · rename_i e; subst e; exact ⟨w, rfl⟩
  · split
    · rename_i e; subst e; simp [WF, chars]
    · simp only [WF]; exact ⟨cacheOk_fresh _ _, rfl⟩

theorem getSubstr_ok (hc : A → Word) : ∀ n : Node A, WF hc n → ∀ b s, b + s ≤ (chars n).length →
    ∃ r, getSubstr n b s = some r ∧ WF hc r ∧ chars r = part (chars n) b s := by
  intro n
  induction n with
  | null => intro _ b s hb; exact ⟨_, rfl, trivial, by simp [chars, part]⟩
  | comn h m => intro w b s hb; exact baseSubstr_ok w hb
  | const h m => 
    intro w b s hb; simp only [chars] at hb
    rw [getSubstr, slice_ok hb]; exact ⟨_, rfl, mkConst_ok hc _⟩
  | substr h t b s ih => 
    intro w i n hi; have w' := w; simp only [WF] at w; simp only [chars, List.length_take, List.length_drop] at hi ⊢
    rw [getSubstr]
    refine ⟨_, rfl, ?_⟩
    have := mkSubstr_ok (hc := hc) w.1 (b := i + b) (s := n) (by omega)
    refine ⟨this.1, ?_⟩
    rw [this.2, part_part (by omega), Nat.add_comm]
  | head h m t ts u ih => 
    intro w i n hi; have w' := w; have hi' := hi
    simp only [WF] at w; simp only [chars, List.length_append, List.length_drop] at hi ⊢
    rw [getSubstr]; split
    · obtain ⟨r, h1, h2, h3⟩ := ih w.1 (i - u) n (by omega)
      refine ⟨r, h1, h2, ?_⟩
      rw [h3, part_append_right (by simp only [List.length_drop]; omega)]
      simp only [List.length_drop]; congr 1; omega
    · exact baseSubstr_ok w' hi'
  | endA h m t ts u ih => 
    intro w i n hi; have w' := w; have hi' := hi
    simp only [WF] at w; simp only [chars, List.length_append, List.length_take] at hi ⊢
    rw [getSubstr]; split
    · obtain ⟨r, h1, h2, h3⟩ := ih w.1 i n (by omega)
      refine ⟨r, h1, h2, ?_⟩
      rw [h3, part_append_left (by omega)]
    · exact baseSubstr_ok w' hi'
  | sum h x y xs ys ihx ihy => 
    intro w i n hi; have w' := w; have hi' := hi
    simp only [WF] at w; simp only [chars, List.length_append] at hi ⊢
    rw [getSubstr]; split
    · obtain ⟨r, h1, h2, h3⟩ := ihx w.1 i n (by omega)
      refine ⟨r, h1, h2, ?_⟩
      rw [h3, part_append_left (by omega)]
    · split
      · obtain ⟨r, h1, h2, h3⟩ := ihy w.2.1 (i - xs) n (by omega)
        refine ⟨r, h1, h2, ?_⟩
        rw [h3, part_append_right (by omega), w.2.2.1]
      · exact baseSubstr_ok w' hi'
  | erased h t ts p s ih => 
    intro w i n hi; have w' := w; have hi' := hi
    simp only [WF] at w; simp only [chars, List.length_append, List.length_take, List.length_drop] at hi ⊢
    rw [getSubstr]; split
    · obtain ⟨r, h1, h2, h3⟩ := ih w.1 i n (by omega)
      refine ⟨r, h1, h2, ?_⟩
      rw [h3, part_append_left (by simp only [List.length_take]; omega), part_take (by omega)]
    · split
      · obtain ⟨r, h1, h2, h3⟩ := ih w.1 (i + s) n (by omega)
        refine ⟨r, h1, h2, ?_⟩
        rw [h3, part_append_right (by simp only [List.length_take]; omega), part_drop]
        simp only [List.length_take]; congr 1; omega
      · exact baseSubstr_ok w' hi'
  | inserted h t x ts p s iht ihi => 
    intro w i n hi; have w' := w; have hi' := hi
    simp only [WF] at w; simp only [chars, List.length_append, List.length_take, List.length_drop] at hi ⊢
    rw [getSubstr]; split
    · obtain ⟨r, h1, h2, h3⟩ := iht w.1 i n (by omega)
      refine ⟨r, h1, h2, ?_⟩
      rw [h3, part_append_left (by simp only [List.length_append, List.length_take]; omega),
        part_append_left (by simp only [List.length_take]; omega), part_take (by omega)]
    · split
      · obtain ⟨r, h1, h2, h3⟩ := iht w.1 (i - s) n (by omega)
        refine ⟨r, h1, h2, ?_⟩
        rw [h3, part_append_right (by simp only [List.length_append, List.length_take]; omega),
          part_drop]
        simp only [List.length_append, List.length_take]; congr 1; omega
      · split
        · obtain ⟨r, h1, h2, h3⟩ := ihi w.2.1 (i - p) n (by omega)
          refine ⟨r, h1, h2, ?_⟩
          rw [h3, part_append_left (by simp only [List.length_append, List.length_take]; omega),
            part_append_right (by simp only [List.length_take]; omega)]
          simp only [List.length_take]; congr 1; omega
        · exact baseSubstr_ok w' hi'
  | same h s v => 
    intro w b k hb; simp only [chars, List.length_replicate] at hb ⊢
    rw [getSubstr]; refine ⟨_, rfl, (clone_ok w k).1, ?_⟩
    rw [(clone_ok w k).2, part_replicate hb]

theorem part_split (l : List A) (p a b : Nat) : part l p (a + b) = part l p a ++ part l (p + a) b := by
  simp only [part, List.take_add, List.drop_drop]

theorem part_zero (l : List A) (p : Nat) : part l p 0 = [] := by simp [part]

theorem length_part {l : List A} {p n : Nat} (h : p + n ≤ l.length) : (part l p n).length = n := by
  simp only [part, List.length_take, List.length_drop]; omega

/-- A range across the seam of a concatenation. -/
theorem part_seam {a b : List A} {p n : Nat} (h1 : p ≤ a.length) (h2 : a.length ≤ p + n) :
    part (a ++ b) p n = part a p (a.length - p) ++ part b 0 (n - (a.length - p)) := by
  have : n = (a.length - p) + (n - (a.length - p)) := by omega
  conv_lhs => rw [this]
  rw [part_split, part_append_left (by omega), part_append_right (by omega)]
  congr 2; omega

theorem rangeClear_zero : ∀ (n : Node A) (p : Nat), RangeClear n p 0 := by
  intro n
  induction n with
  | substr h t b s ih => intro p; exact ih _
  | head h m t ts u ih => intro p; exact ⟨fun h1 h2 => by omega, fun _ => ih _⟩
  | endA h m t ts u ih => intro p _; rw [Nat.zero_min]; exact ih _
  | sum h x y xs ys ihx ihy =>
    intro p
    exact ⟨fun _ => by rw [Nat.zero_min]; exact ihx _, fun h1 h2 => by omega, fun _ => ihy _⟩
  | erased h t ts ep s ih =>
    intro p
    exact ⟨fun _ => by rw [Nat.zero_min]; exact ih _, fun h1 h2 => by omega, fun _ => ih _⟩
  | inserted h t x ts ip s iht ihx =>
    intro p
    refine ⟨Or.inl rfl, fun _ => ?_, fun _ _ => ?_, fun h1 h2 => by omega, fun _ => iht _⟩
    · rw [Nat.zero_min]; exact iht _
    · rw [Nat.zero_sub, Nat.zero_min]; exact ihx _
  | _ => intro p; trivial

theorem rangeClear_of_noInserted : ∀ n : Node A, NoInserted n → ∀ p k, RangeClear n p k := by
  intro n
  induction n with
  | substr h t b s ih => intro ni p k; exact ih ni _ _
  | head h m t ts u ih => intro ni p k; exact ⟨fun _ _ => ih ni _ _, fun _ => ih ni _ _⟩
  | endA h m t ts u ih => intro ni p k _; exact ih ni _ _
  | sum h x y xs ys ihx ihy =>
    intro ni p k; exact ⟨fun _ => ihx ni.1 _ _, fun _ _ => ihy ni.2 _ _, fun _ => ihy ni.2 _ _⟩
  | erased h t ts ep s ih =>
    intro ni p k; exact ⟨fun _ => ih ni _ _, fun _ _ => ih ni _ _, fun _ => ih ni _ _⟩
  | inserted h t x ts ip s iht ihx => intro ni; exact absurd ni (by simp [NoInserted])
  | _ => intro _ p k; trivial

theorem rangeClear_of_onTop : ∀ n : Node A, InsertsOnTop n → ∀ k, RangeClear n 0 k := by
  intro n
  induction n with
  | substr h t b s ih => intro ni k; exact rangeClear_of_noInserted t ni _ _
  | head h m t ts u ih =>
    intro ni k; exact ⟨fun _ _ => ih ni _, fun _ => by rw [Nat.zero_sub]; exact ih ni _⟩
  | endA h m t ts u ih => intro ni k _; exact ih ni _
  | sum h x y xs ys ihx ihy =>
    intro ni k
    exact ⟨fun _ => ihx ni.1 _, fun _ _ => ihy ni.2 _, fun _ => by rw [Nat.zero_sub]; exact ihy ni.2 _⟩
  | erased h t ts ep s ih =>
    intro ni k
    have := rangeClear_of_noInserted t ni
    exact ⟨fun _ => this _ _, fun _ _ => this _ _, fun _ => this _ _⟩
  | inserted h t x ts ip s iht ihx =>
    intro ni k
    have := rangeClear_of_noInserted t ni.1
    exact ⟨Or.inr (Or.inl (Nat.zero_le _)), fun _ => this _ _, fun _ _ => ihx ni.2 _, fun _ _ => this _ _,
      fun _ => this _ _⟩
  | _ => intro _ k; trivial

theorem part_prefix_seam {a b : List A} {n : Nat} (h : a.length ≤ n) :
    part (a ++ b) 0 n = a ++ part b 0 (n - a.length) := by
  rw [part_seam (by omega) (by omega), Nat.sub_zero, part_all]

/-- A range of a text with an insertion, that starts at or before the insertion point and does not
end before it. -/
theorem part_inserted {t x : List A} {ip p k : Nat} (hip : ip ≤ t.length) (hp : p ≤ ip) (hk : ip ≤ p + k) :
    part (t.take ip ++ x ++ t.drop ip) p k = part t p (ip - p) ++ part x 0 (min (k - (ip - p)) x.length) ++
      part t ip (k - (ip - p) - x.length) := by
  have hl : (t.take ip).length = ip := by simp only [List.length_take]; omega
  rw [List.append_assoc, part_seam (by omega) (by omega), hl, part_take (by omega), List.append_assoc]
  congr 1
  rcases Nat.le_total x.length (k - (ip - p)) with h | h
  · rw [part_prefix_seam h, Nat.min_eq_right h, part_all, part_drop, Nat.add_zero]
  · rw [part_append_left (by omega), Nat.min_eq_left h]
    have : k - (ip - p) - x.length = 0 := by omega
    rw [this, part_zero, List.append_nil]

theorem copyPart_clear (hc : A → Word) : ∀ n : Node A, WF hc n → ∀ p k, RangeClear n p k →
    p + k ≤ (chars n).length → copyPart n p k = some (part (chars n) p k) := by
  intro n
  induction n with
  | null =>
    intro _ p k _ hk; simp only [chars, List.length_nil] at hk
    have : k = 0 := by omega
    subst this; simp [copyPart, part]
  | comn h m => intro _ p k _ hk; exact slice_ok hk
  | const h m => intro _ p k _ hk; exact slice_ok hk
  | substr h t b s ih =>
    intro w p k rc hk
    simp only [WF] at w; simp only [RangeClear] at rc
    simp only [chars, List.length_take, List.length_drop] at hk ⊢
    rw [copyPart, ih w.1 _ _ rc (by omega), part_part (by omega), Nat.add_comm]
  | head h m t ts u ih =>
    intro w p k rc hk
    simp only [WF] at w; simp only [RangeClear] at rc
    simp only [chars, List.length_append, List.length_drop] at hk ⊢
    have hl : (m.drop (m.length - u)).length = u := by simp only [List.length_drop]; omega
    rw [copyPart]; split
    · rename_i hp
      dsimp only
      rw [slice_ok (by omega)]
      simp only [Option.bind_some]
      split
      · have hk' : min (u - p) k = u - p := by omega
        rw [hk', ih w.1 _ _ (rc.1 hp (by omega)) (by omega), part_seam (by omega) (by omega), part_drop, hl]; rfl
      · have hk' : min (u - p) k = k := by omega
        rw [hk', part_append_left (by omega), part_drop]
    · rw [ih w.1 _ _ (rc.2 (by omega)) (by omega), part_append_right (by omega), hl]
  | endA h m t ts u ih =>
    intro w p k rc hk
    simp only [WF] at w; simp only [RangeClear] at rc
    simp only [chars, List.length_append, List.length_take] at hk ⊢
    rw [copyPart]; split
    · have h1 := rc (by omega)
      rw [Nat.min_eq_left (by omega)] at h1
      rw [ih w.1 _ _ h1 (by omega), part_append_left (by omega)]
    · split
      · have h1 := rc (by omega)
        rw [Nat.min_eq_right (by omega)] at h1
        rw [ih w.1 _ _ h1 (by omega), Option.bind_some, slice_ok (by omega), part_seam (by omega) (by omega),
          part_take (by omega), w.2.1]; rfl
      · rw [slice_ok (by omega), part_append_right (by omega), part_take (by omega), w.2.1]
  | sum h x y xs ys ihx ihy =>
    intro w p k rc hk
    simp only [WF] at w; simp only [RangeClear] at rc
    simp only [chars, List.length_append] at hk ⊢
    rw [copyPart]; split
    · rename_i hp
      dsimp only
      have h1 := rc.1 hp
      have hk' : min (p + k) xs - p = min k (xs - p) := by omega
      rw [hk', ihx w.1 _ _ h1 (by omega)]
      simp only [Option.bind_some]
      split
      · have hk' : min k (xs - p) = xs - p := by omega
        rw [hk', ihy w.2.1 _ _ (rc.2.1 hp (by omega)) (by omega), part_seam (by omega) (by omega), w.2.2.1]; rfl
      · have hk' : min k (xs - p) = k := by omega
        rw [hk', part_append_left (by omega)]
    · rw [ihy w.2.1 _ _ (rc.2.2 (by omega)) (by omega), part_append_right (by omega), w.2.2.1]
  | erased h t ts ep s ih =>
    intro w p k rc hk
    simp only [WF] at w; simp only [RangeClear] at rc
    simp only [chars, List.length_append, List.length_take, List.length_drop] at hk ⊢
    have hl : ((chars t).take ep).length = ep := by simp only [List.length_take]; omega
    rw [copyPart]; split
    · have h1 := rc.1 (by omega)
      rw [Nat.min_eq_left (by omega)] at h1
      rw [ih w.1 _ _ h1 (by omega), part_append_left (by omega), part_take (by omega)]
    · split
      · rw [ih w.1 _ _ (rc.2.2 (by omega)) (by omega), part_append_right (by omega), part_drop, hl]
        congr 2; omega
      · have h1 := rc.1 (by omega)
        rw [Nat.min_eq_right (by omega)] at h1
        rw [ih w.1 _ _ h1 (by omega), Option.bind_some, ih w.1 _ _ (rc.2.1 (by omega) (by omega)) (by omega),
          part_seam (by omega) (by omega), part_drop, part_take (by omega), hl]; rfl
  | inserted h t x ts ip s iht ihx =>
    intro w p k rc hk
    simp only [WF] at w; simp only [RangeClear] at rc
    simp only [chars, List.length_append, List.length_take, List.length_drop] at hk ⊢
    have hl : ((chars t).take ip).length = ip := by simp only [List.length_take]; omega
    obtain ⟨r0, r1, r2, r3, r4⟩ := rc
    rw [copyPart]; split
    · have h1 := r1 (by omega)
      rw [Nat.min_eq_left (by omega)] at h1
      rw [iht w.1 _ _ h1 (by omega), List.append_assoc, part_append_left (by omega), part_take (by omega)]
    · split
      · rw [iht w.1 _ _ (r4 (by omega)) (by omega), List.append_assoc, part_append_right (by omega),
          part_append_right (by omega), part_drop, hl, w.2.2.2.1]
        congr 2; omega
      · dsimp only
        by_cases hpi : p ≤ ip
        · have e2 : (if ip > p then ip - p else 0) = ip - p := by split <;> omega
          rw [e2]
          have e1 : (if ip > p then copyPart t p (ip - p) else some []) = some (part (chars t) p (ip - p)) := by
            split
            · have h1 := r1 (by omega)
              rw [Nat.min_eq_right (by omega)] at h1
              rw [iht w.1 _ _ h1 (by omega)]
            · have : ip - p = 0 := by omega
              rw [this, part_zero]
          have e3 : (if k - (ip - p) - min (k - (ip - p)) s ≠ 0 then copyPart t ip (k - (ip - p) - min (k - (ip - p)) s) else some []) =
              some (part (chars t) ip (k - (ip - p) - s)) := by
            split
            · have : min (k - (ip - p)) s = s := by omega
              rw [this, iht w.1 _ _ (r3 hpi (by omega)) (by omega)]
            · have : k - (ip - p) - s = 0 := by omega
              rw [this, part_zero]
          rw [e1, Option.bind_some, ihx w.2.1 _ _ (r2 hpi (by omega)) (by omega), Option.bind_some, e3,
            part_inserted w.2.2.2.2.1 hpi (by omega), w.2.2.2.1]
          rfl
        · have hk0 : k = 0 := by omega
          subst hk0
          have e2 : (if ip > p then ip - p else 0) = 0 := by split <;> omega
          rw [e2, if_neg (by omega), Option.bind_some, Nat.zero_sub, Nat.zero_min,
            ihx w.2.1 _ _ (rangeClear_zero x 0) (by omega)]
          simp [part]
  | same h s v =>
    intro _ p k _ hk; simp only [chars, List.length_replicate] at hk ⊢
    rw [copyPart, part_replicate hk]

theorem copyPart_ok (hc : A → Word) (n : Node A) (w : WF hc n) (ni : NoInserted n) (p k : Nat)
    (hk : p + k ≤ (chars n).length) : copyPart n p k = some (part (chars n) p k) :=
  copyPart_clear hc n w p k (rangeClear_of_noInserted n ni p k) hk

theorem toComn_clear {hc : A → Word} {n : Node A} (w : WF hc n) (rc : RangeClear n 0 (chars n).length) :
    toComn n = some (.comn fresh (chars n)) := by
  rw [toComn, size_eq hc n w, copyPart_clear hc n w _ _ rc (by omega), part_all]; rfl

theorem toComn_ok {hc : A → Word} {n : Node A} (w : WF hc n) (ni : InsertsOnTop n) :
    toComn n = some (.comn fresh (chars n)) := toComn_clear w (rangeClear_of_onTop n ni _)

/-- The hash `w` of a sequence of length `bs`, continued over `l`. -/
def cont (hc : A → Word) (w : Word) (bs : Nat) (l : List A) : Word :=
  w ^^^ Hash.Spec.arrayHashFrom hc bs l

theorem cont_append (hc : A → Word) (w : Word) (bs : Nat) (a b : List A) :
    cont hc w bs (a ++ b) = cont hc (cont hc w bs a) (bs + a.length) b := by
  simp only [cont, arrayHashFrom_append, BitVec.xor_assoc]

theorem cont_nil (hc : A → Word) (w : Word) (bs : Nat) : cont hc w bs [] = w := by
  simp [cont, Hash.Spec.arrayHashFrom]

theorem merge_cont (hc : A → Word) (w : Word) (bs : Nat) (l : List A) (k : Nat) :
    mergeArrayHashResults w bs (hashOf hc l) k = cont hc w bs l := by
  simp only [mergeArrayHashResults, rotl_eq, hashOf, Hash.Spec.arrayHash, cont]
  rw [← arrayHashFrom_shift, Nat.zero_add]

theorem wcb_cont (hc : A → Word) (w : Word) (bs : Nat) (l : List A) :
    withCalculatedBefore hc w bs l = cont hc w bs l := withCalculatedBefore_eq hc w bs l

theorem hashOf_cont (hc : A → Word) (l : List A) : hashOf hc l = cont hc hashNothing 0 l := by
  simp [hashOf, Hash.Spec.arrayHash, cont, hashNothing]

theorem hashArray_hashOf (hc : A → Word) (l : List A) : hashArray hc l = hashOf hc l :=
  hashArray_closed_form hc l

/-- Both hash functions of a node are right, for the ranges in `P`. -/
def HashOk (hc : A → Word) (P : Nat → Nat → Prop) (l : List A)
    (r : Option Word × (Word → Nat → Nat → Nat → Option Word)) : Prop :=
  (P 0 l.length → r.1 = some (hashOf hc l)) ∧
  ∀ w bs p k, P p k → p + k ≤ l.length → r.2 w bs p k = some (cont hc w bs (part l p k))

theorem withDetail_ok {hc : A → Word} {P : Nat → Nat → Prop} {h : Hd} {l : List A} {size : Nat}
    {d : Option Word} {o : Word → Nat → Nat → Nat → Option Word}
    (hcache : CacheOk hc h l) (hs : size = l.length) (hd : P 0 l.length → d = some (hashOf hc l))
    (ho : ∀ w bs p k, P p k → p + k ≤ l.length → o w bs p k = some (cont hc w bs (part l p k))) :
    HashOk hc P l (withDetail h.cache size d o) := by
  have hg : P 0 l.length → (withDetail h.cache size d o).1 = some (hashOf hc l) := by
    intro hP
    simp only [withDetail]
    cases hc' : h.cache with
    | none => exact hd hP
    | some w => rw [hcache w hc']
  refine ⟨hg, ?_⟩
  intro w bs p k hp hk
  have : (withDetail h.cache size d o).2 w bs p k =
      if p = 0 ∧ k = size then (withDetail h.cache size d o).1.map fun v => mergeArrayHashResults w bs v k
      else o w bs p k := rfl
  rw [this]
  split
  · rename_i e; obtain ⟨rfl, rfl⟩ := e
    rw [hg (hs ▸ hp), Option.map_some, merge_cont, hs, part_all]
  · exact ho w bs p k hp hk

theorem hashes_clear (hc : A → Word) : ∀ n : Node A, WF hc n →
    HashOk hc (RangeClear n) (chars n) (hashes hc n) := by
  intro n
  induction n with
  | null =>
    intro _
    refine withDetail_ok (h := ⟨true, none⟩) (by intro w h; simp at h) rfl
      (by simp [chars, hashOf_cont, cont_nil]) ?_
    intro w bs p k _ hk
    simp [chars, part, cont_nil]
  | comn h m =>
    intro w
    refine withDetail_ok w rfl (by intro _; rw [hashArray_hashOf]; rfl) ?_
    intro w bs p k _ hk
    simp only [chars] at hk ⊢
    rw [slice_ok hk, Option.map_some, wcb_cont]
  | const h m =>
    intro w
    refine withDetail_ok w rfl (by intro _; rw [hashArray_hashOf]; rfl) ?_
    intro w bs p k _ hk
    simp only [chars] at hk ⊢
    rw [slice_ok hk, Option.map_some, wcb_cont]
  | substr h t b s ih =>
    intro w
    have hs := size_eq hc _ w
    simp only [WF] at w
    have ih := (ih w.1).2
    refine withDetail_ok w.2.2 hs ?_ ?_
    · intro rc
      simp only [RangeClear] at rc
      rw [← hs, Node.size, Nat.zero_add] at rc
      rw [ih _ _ _ _ rc w.2.1, hashOf_cont]; rfl
    · intro v bs p k rc hk
      simp only [RangeClear] at rc
      simp only [chars, List.length_take, List.length_drop] at hk ⊢
      rw [ih _ _ _ _ rc (by omega), part_part (by omega), Nat.add_comm]
  | head h m t ts u ih =>
    intro w
    have hs := size_eq hc _ w
    simp only [WF] at w
    have ih := ih w.1
    have hl : (m.drop (m.length - u)).length = u := by simp only [List.length_drop]; omega
    have hm : part m (m.length - u) u = m.drop (m.length - u) := by
      simp only [part]; exact List.take_of_length_le (by omega)
    refine withDetail_ok w.2.2.2 hs ?_ ?_
    · intro rc
      simp only [RangeClear] at rc
      simp only [chars, List.length_append] at rc ⊢
      split
      · rw [slice_ok (by omega), Option.bind_some, hashArray_hashOf, hm]
        split
        · have h1 := rc.1 (by omega) (by omega)
          rw [hl, Nat.sub_zero, Nat.add_sub_cancel_left] at h1
          rw [ih.1 h1, Option.map_some, merge_cont, hashOf_cont, hashOf_cont hc (_ ++ _), cont_append, hl, Nat.zero_add]
        · have : chars t = [] := List.length_eq_zero_iff.mp (by omega)
          rw [this, List.append_nil]
      · have e : m.drop (m.length - u) = [] := List.length_eq_zero_iff.mp (by omega)
        have h1 := rc.2 (by omega)
        rw [e, List.length_nil, Nat.zero_add, Nat.zero_sub] at h1
        rw [ih.1 h1, e, List.nil_append]
    · intro v bs p k rc hk
      simp only [RangeClear] at rc
      simp only [chars, List.length_append] at hk ⊢
      split
      · rename_i hp
        rw [slice_ok (by omega), Option.bind_some]
        split
        · have hk' : min (u - p) k = u - p := by omega
          rw [hk', ih.2 _ _ _ _ (rc.1 hp (by omega)) (by omega), part_seam (by omega) (by omega), part_drop,
            cont_append, wcb_cont, hl, length_part (by omega)]
        · have hk' : min (u - p) k = k := by omega
          rw [hk', part_append_left (by omega), part_drop, wcb_cont]
      · rw [ih.2 _ _ _ _ (rc.2 (by omega)) (by omega), part_append_right (by omega), hl]
  | endA h m t ts u ih =>
    intro w
    have hs := size_eq hc _ w
    simp only [WF] at w
    have ih := ih w.1
    have hl : (m.take u).length = u := by simp only [List.length_take]; omega
    refine withDetail_ok w.2.2.2 hs ?_ ?_
    · intro rc
      simp only [RangeClear] at rc
      simp only [chars, List.length_append] at rc ⊢
      have h1 := rc (by omega)
      rw [Nat.min_eq_right (by omega), Nat.sub_zero, w.2.1] at h1
      rw [ih.1 h1, Option.bind_some, slice_ok (by omega), Option.map_some, wcb_cont, hashOf_cont hc (_ ++ _),
        cont_append, ← hashOf_cont, w.2.1, Nat.zero_add]
      simp [part]
    · intro v bs p k rc hk
      simp only [RangeClear] at rc
      simp only [chars, List.length_append] at hk ⊢
      split
      · have h1 := rc (by omega)
        rw [Nat.min_eq_left (by omega)] at h1
        rw [ih.2 _ _ _ _ h1 (by omega), part_append_left (by omega)]
      · split
        · have h1 := rc (by omega)
          rw [Nat.min_eq_right (by omega)] at h1
          rw [ih.2 _ _ _ _ h1 (by omega), Option.bind_some, slice_ok (by omega), Option.map_some, wcb_cont,
            part_seam (by omega) (by omega), cont_append, part_take (by omega), length_part (by omega), w.2.1]
        · rw [slice_ok (by omega), part_append_right (by omega), part_take (by omega), w.2.1, Option.map_some, wcb_cont]
  | sum h x y xs ys ihx ihy =>
    intro w
    have hs := size_eq hc _ w
    simp only [WF] at w
    have ihx := ihx w.1
    have ihy := ihy w.2.1
    refine withDetail_ok w.2.2.2.2 hs ?_ ?_
    · intro rc
      simp only [RangeClear] at rc
      simp only [chars, List.length_append] at rc ⊢
      obtain ⟨r1, r2, r3⟩ := rc
      split
      · have h1 := r1 (by omega)
        rw [Nat.min_eq_right (by omega), Nat.sub_zero, w.2.2.1] at h1
        rw [ihx.1 h1, Option.bind_some]
        split
        · have h2 := r2 (by omega) (by omega)
          rw [Nat.sub_zero, w.2.2.1, Nat.add_sub_cancel_left] at h2
          rw [ihy.1 h2, Option.map_some, merge_cont, hashOf_cont, hashOf_cont hc (_ ++ _), cont_append, w.2.2.1,
            Nat.zero_add]
        · have : chars y = [] := List.length_eq_zero_iff.mp (by omega)
          rw [this, List.append_nil]
      · have e : chars x = [] := List.length_eq_zero_iff.mp (by omega)
        have h3 := r3 (by omega)
        rw [e, List.length_nil, Nat.zero_add, Nat.zero_sub] at h3
        rw [ihy.1 h3, e, List.nil_append]
    · intro v bs p k rc hk
      simp only [RangeClear] at rc
      simp only [chars, List.length_append] at hk ⊢
      split
      · rename_i hp
        have hk' : min (p + k) xs - p = min k (xs - p) := by omega
        rw [hk', ihx.2 _ _ _ _ (rc.1 hp) (by omega), Option.bind_some]
        split
        · have hk' : min k (xs - p) = xs - p := by omega
          rw [hk', ihy.2 _ _ _ _ (rc.2.1 hp (by omega)) (by omega), part_seam (by omega) (by omega), cont_append,
            length_part (by omega), w.2.2.1]
        · have hk' : min k (xs - p) = k := by omega
          rw [hk', part_append_left (by omega)]
      · rw [ihy.2 _ _ _ _ (rc.2.2 (by omega)) (by omega), part_append_right (by omega), w.2.2.1]
  | erased h t ts ep s ih =>
    intro w
    have hs := size_eq hc _ w
    simp only [WF] at w
    have ih := ih w.1
    have hl : ((chars t).take ep).length = ep := by simp only [List.length_take]; omega
    refine withDetail_ok w.2.2.2 hs ?_ ?_
    · intro rc
      simp only [RangeClear] at rc
      rw [← hs, Node.size] at rc
      simp only [chars]
      have e1 : (hashes hc t).2 hashNothing 0 0 ep = some (cont hc hashNothing 0 ((chars t).take ep)) := by
        by_cases h0 : ep = 0
        · subst h0; rw [ih.2 _ _ _ _ (rangeClear_zero t 0) (by omega)]; simp [part]
        · have h1 := rc.1 (by omega)
          rw [Nat.min_eq_right (by omega), Nat.sub_zero] at h1
          rw [ih.2 _ _ _ _ h1 (by omega)]; simp [part]
      have h2 : RangeClear t (ep + s) (ts - s - ep) := by
        by_cases h0 : ep = 0
        · subst h0; have := rc.2.2 (by omega); rwa [Nat.sub_zero]
        · have := rc.2.1 (by omega) (by omega); rwa [Nat.sub_zero] at this
      rw [e1, Option.bind_some, ih.2 _ _ _ _ h2 (by omega),
        hashOf_cont hc (_ ++ _), cont_append, hl, Nat.zero_add]
      have : part (chars t) (ep + s) (ts - s - ep) = (chars t).drop (ep + s) := by
        simp only [part]; exact List.take_of_length_le (by simp only [List.length_drop]; omega)
      rw [this]
    · intro v bs p k rc hk
      simp only [RangeClear] at rc
      simp only [chars, List.length_append, List.length_drop] at hk ⊢
      split
      · have h1 := rc.1 (by omega)
        rw [Nat.min_eq_left (by omega)] at h1
        rw [ih.2 _ _ _ _ h1 (by omega), part_append_left (by omega), part_take (by omega)]
      · split
        · rw [ih.2 _ _ _ _ (rc.2.2 (by omega)) (by omega), part_append_right (by omega), part_drop, hl]
          congr 3; omega
        · have h1 := rc.1 (by omega)
          rw [Nat.min_eq_right (by omega)] at h1
          rw [ih.2 _ _ _ _ h1 (by omega), Option.bind_some, ih.2 _ _ _ _ (rc.2.1 (by omega) (by omega)) (by omega),
            part_seam (by omega) (by omega),
            part_drop, part_take (by omega), hl, cont_append, length_part (by omega)]; rfl
  | inserted h t x ts ip s iht ihx =>
    intro w
    have hs := size_eq hc _ w
    simp only [WF] at w
    have iht := (iht w.1).2
    have ihx := ihx w.2.1
    have hl : ((chars t).take ip).length = ip := by simp only [List.length_take]; omega
    have hd : part (chars t) ip (ts - ip) = (chars t).drop ip := by
      simp only [part]; exact List.take_of_length_le (by simp only [List.length_drop]; omega)
    refine withDetail_ok w.2.2.2.2.2 hs ?_ ?_
    · intro rc
      simp only [RangeClear] at rc
      rw [← hs, Node.size] at rc
      obtain ⟨_, r1, r2, r3, _⟩ := rc
      simp only [chars]
      have e1 : (if ip ≠ 0 then (hashes hc t).2 hashNothing 0 0 ip else some hashNothing) =
          some (cont hc hashNothing 0 ((chars t).take ip)) := by
        split
        · have h1 := r1 (by omega)
          rw [Nat.min_eq_right (by omega), Nat.sub_zero] at h1
          rw [iht _ _ _ _ h1 (by omega)]; simp [part]
        · have : ip = 0 := by omega
          subst this; simp [cont_nil]
      have h2 := r2 (by omega) (by omega)
      rw [Nat.min_eq_right (by omega), w.2.2.2.1] at h2
      rw [e1, Option.bind_some, ihx.1 h2, Option.map_some, Option.bind_some, merge_cont, hashOf_cont,
        cont_append, cont_append, List.length_append, hl, Nat.zero_add]
      split
      · have h3 := r3 (by omega) (by omega)
        have e3 : ts + s - (ip - 0) - s = ts - ip := by omega
        rw [e3] at h3
        rw [iht _ _ _ _ h3 (by omega), hd, w.2.2.2.1]; simp
      · have : (chars t).drop ip = [] := List.drop_eq_nil_of_le (by omega)
        rw [this, cont_nil]
    · intro v bs p k rc hk
      simp only [RangeClear] at rc
      obtain ⟨r0, r1, r2, r3, r4⟩ := rc
      simp only [chars, List.length_append, List.length_drop] at hk ⊢
      split
      · have h1 := r1 (by omega)
        rw [Nat.min_eq_left (by omega)] at h1
        rw [iht _ _ _ _ h1 (by omega), List.append_assoc, part_append_left (by omega), part_take (by omega)]
      · split
        · rw [iht _ _ _ _ (r4 (by omega)) (by omega), List.append_assoc, part_append_right (by omega),
            part_append_right (by omega), part_drop, hl, w.2.2.2.1]
          congr 3; omega
        · by_cases hpi : p ≤ ip
          · have e2 : (if ip > p then ip - p else 0) = ip - p := by split <;> omega
            rw [e2]
            have e1 : (if ip > p then (hashes hc t).2 v bs p (ip - p) else some v) =
                some (cont hc v bs (part (chars t) p (ip - p))) := by
              split
              · have h1 := r1 (by omega)
                rw [Nat.min_eq_right (by omega)] at h1
                rw [iht _ _ _ _ h1 (by omega)]
              · have : ip - p = 0 := by omega
                rw [this, part_zero, cont_nil]
            rw [e1, Option.bind_some, ihx.2 _ _ _ _ (r2 hpi (by omega)) (by omega), Option.bind_some,
              part_inserted w.2.2.2.2.1 hpi (by omega), cont_append, cont_append, List.length_append,
              length_part (by omega), length_part (by omega), ← w.2.2.2.1]
            split
            · have hm : min (k - (ip - p)) s = s := by omega
              rw [hm, iht _ _ _ _ (r3 hpi (by omega)) (by omega)]
              congr 2; omega
            · have : k - (ip - p) - s = 0 := by omega
              rw [this, part_zero, cont_nil]
          · have hk0 : k = 0 := by omega
            subst hk0
            have e2 : (if ip > p then ip - p else 0) = 0 := by split <;> omega
            rw [e2, if_neg (by omega), Option.bind_some, Nat.zero_sub, Nat.zero_min,
              ihx.2 _ _ _ _ (rangeClear_zero x 0) (by omega)]
            simp [part, cont_nil]
  | same h s v =>
    intro w
    simp only [chars]
    refine withDetail_ok w (by simp) (by intro _; rw [repeat_times_eq_hash_replicate, hashArray_hashOf]) ?_
    intro w bs p k _ hk
    simp only [List.length_replicate] at hk
    rw [part_replicate hk, repeat_times_eq_hash_replicate, hashArray_hashOf, merge_cont]

theorem startOk_zero : ∀ n : Node A, StartOk n 0 := by
  intro n
  induction n with
  | head h m t ts u ih => intro hu; rw [Nat.zero_sub]; exact ih
  | endA h m t ts u ih => intro _; exact ih
  | sum h x y xs ys ihx ihy => exact ⟨fun _ => ihx, fun _ => by rw [Nat.zero_sub]; exact ihy⟩
  | erased h t ts p s ih => exact Or.inl rfl
  | inserted h t x ts p s iht ihx => intro _ _; rw [Nat.zero_sub]; exact ihx
  | _ => trivial

theorem startOk_of_noInner : ∀ n : Node A, NoInnerErase n → ∀ i, StartOk n i := by
  intro n
  induction n with
  | head h m t ts u ih => intro w i _; exact ih w _
  | endA h m t ts u ih => intro w i _; exact ih w _
  | sum h x y xs ys ihx ihy => intro w i; exact ⟨fun _ => ihx w.1 _, fun _ => ihy w.2 _⟩
  | erased h t ts p s ih => intro w i; exact Or.inr (by have := w.2; omega)
  | inserted h t x ts p s iht ihx => intro w i _ _; exact ihx w.2 _
  | _ => intro _ _; trivial

theorem sequential_of_noInner : ∀ n : Node A, NoInnerErase n → Sequential n := by
  intro n
  induction n with
  | substr h t b s ih => exact id
  | head h m t ts u ih => intro w; exact ih w
  | endA h m t ts u ih => intro w; exact ih w
  | sum h x y xs ys ihx ihy => intro w; exact ⟨ihx w.1, ihy w.2⟩
  | erased h t ts p s ih => intro w; exact Or.inl w
  | inserted h t x ts p s iht ihx => intro w; exact ⟨w.1, ihx w.2⟩
  | _ => intro _; trivial

theorem part_rest {l : List A} {i : Nat} : part l i (l.length - i) = l.drop i := by
  simp only [part]; exact List.take_of_length_le (by simp)

theorem wsub_eq {a b : Nat} (h : b ≤ a) : wsub a b = a - b := by simp [wsub, h]

theorem take_part (l : List A) (p n k : Nat) : (part l p n).take k = part l p (min k n) := by
  simp [part, List.take_take]

theorem flat_block {t : Node A} (f : Flat t) {i : Nat} (hi : i ≤ (chars t).length) :
    block t i = some (part (chars t) i ((chars t).length - i)) := by
  cases t <;> simp only [Flat] at f
  · simp only [chars] at hi ⊢; rw [block, wsub_eq hi, slice_ok (by omega)]
  · simp only [chars] at hi ⊢; rw [block, wsub_eq hi, slice_ok (by omega)]
  · simp only [chars, List.length_replicate] at hi ⊢
    rw [block, if_pos hi, part_replicate (by omega)]
    congr 2; omega

theorem block_ok (hc : A → Word) : ∀ n : Node A, WF hc n → Sequential n → ∀ i,
    i ≤ (chars n).length → StartOk n i →
    ∃ k, block n i = some (part (chars n) i k) ∧ i + k ≤ (chars n).length ∧
      (i < (chars n).length → 0 < k) ∧ StartOk n (i + k) := by
  intro n
  induction n with
  | null => intro _ _ i hi _; exact ⟨0, by simp [block, part], by simpa using hi, by simp [chars], trivial⟩
  | comn h m =>
    intro _ _ i hi _
    simp only [chars] at hi ⊢
    exact ⟨m.length - i, by rw [block, wsub_eq hi, slice_ok (by omega)], by omega, by omega, trivial⟩
  | const h m =>
    intro _ _ i hi _
    simp only [chars] at hi ⊢
    exact ⟨m.length - i, by rw [block, wsub_eq hi, slice_ok (by omega)], by omega, by omega, trivial⟩
  | same h s v =>
    intro _ _ i hi _
    simp only [chars, List.length_replicate] at hi ⊢
    refine ⟨min (s - i) 512, ?_, by omega, by omega, trivial⟩
    rw [block, if_pos hi, part_replicate (by omega)]
  | substr h t b s ih =>
    intro w q i hi _
    have hl := size_eq hc _ w
    simp only [WF] at w; simp only [Sequential] at q
    rw [← hl] at hi ⊢
    simp only [Node.size] at hi ⊢
    obtain ⟨k, hk, hle, hpos, _⟩ := ih w.1 (sequential_of_noInner t q) (b + i) (by omega) (startOk_of_noInner t q _)
    refine ⟨min (s - i) k, ?_, by omega, by omega, trivial⟩
    simp only [block, hk, Option.map_some, chars]
    rw [wsub_eq hi, take_part, part_part (by omega)]
  | head h m t ts u ih =>
    intro w q i hi st
    have hl := size_eq hc _ w
    simp only [WF] at w; simp only [Sequential] at q; simp only [StartOk] at st ⊢
    rw [← hl] at hi ⊢
    simp only [Node.size, block, chars] at hi ⊢
    have hml : (m.drop (m.length - u)).length = u := by simp only [List.length_drop]; omega
    split
    · rename_i hu
      obtain ⟨k, hk, hle, hpos, hst⟩ := ih w.1 q (i - u) (by omega) (st hu)
      refine ⟨k, ?_, by omega, by omega, ?_⟩
      · rw [hk, part_append_right (by omega), hml]
      · intro _; rw [show i + k - u = i - u + k by omega]; exact hst
    · refine ⟨u - i, ?_, by omega, by omega, ?_⟩
      · rw [slice_ok (by omega), part_append_left (by omega), part_drop]
      · intro _; rw [show i + (u - i) - u = 0 by omega]; exact startOk_zero t
  | endA h m t ts u ih =>
    intro w q i hi st
    have hl := size_eq hc _ w
    simp only [WF] at w; simp only [Sequential] at q; simp only [StartOk] at st ⊢
    rw [← hl] at hi ⊢
    simp only [Node.size, block, chars] at hi ⊢
    split
    · rename_i hu
      obtain ⟨k, hk, hle, hpos, hst⟩ := ih w.1 q i (by omega) (st hu)
      refine ⟨k, ?_, by omega, by omega, fun _ => hst⟩
      rw [hk, part_append_left (by omega)]
    · refine ⟨u - (i - ts), ?_, by omega, by omega, fun _ => by omega⟩
      rw [wsub_eq (by omega), slice_ok (by omega), part_append_right (by omega), part_take (by omega), w.2.1]
  | sum h x y xs ys ihx ihy =>
    intro w q i hi st
    have hl := size_eq hc _ w
    simp only [WF] at w; simp only [Sequential] at q; simp only [StartOk] at st ⊢
    rw [← hl] at hi ⊢
    simp only [Node.size, block, chars] at hi ⊢
    split
    · rename_i hu
      obtain ⟨k, hk, hle, hpos, hst⟩ := ihx w.1 q.1 i (by omega) (st.1 hu)
      refine ⟨k, ?_, by omega, by omega, fun _ => hst, ?_⟩
      · rw [hk, part_append_left (by omega)]
      · intro _; rw [show i + k - xs = 0 by omega]; exact startOk_zero y
    · rename_i hu
      obtain ⟨k, hk, hle, hpos, hst⟩ := ihy w.2.1 q.2 (i - xs) (by omega) (st.2 (by omega))
      refine ⟨k, ?_, by omega, by omega, fun _ => by omega, ?_⟩
      · rw [hk, part_append_right (by omega), w.2.2.1]
      · intro _; rw [show i + k - xs = i - xs + k by omega]; exact hst
  | erased h t ts p s ih =>
    intro w q i hi st
    have hl := size_eq hc _ w
    simp only [WF] at w; simp only [Sequential] at q; simp only [StartOk] at st ⊢
    rw [← hl] at hi ⊢
    simp only [Node.size, block, chars] at hi ⊢
    have hml : ((chars t).take p).length = p := by simp only [List.length_take]; omega
    by_cases hp : i < p
    · rw [if_pos hp]
      have hi0 : i = 0 := by omega
      subst hi0
      have f : Flat t := by
        rcases q with q | q
        · omega
        · exact q
      refine ⟨p, ?_, by omega, by omega, by omega⟩
      rw [flat_block f (by omega), Option.map_some, part_append_left (by omega), part_take (by omega), length_part (by omega)]
      split
      · rw [take_part]; congr 2; omega
      · congr 2; omega
    · rw [if_neg hp]
      rcases q with q | q
      · obtain ⟨k, hk, hle, hpos, hst⟩ := ih w.1 (sequential_of_noInner t q.1) (i + s) (by omega) (startOk_of_noInner t q.1 _)
        refine ⟨k, ?_, by omega, by omega, by omega⟩
        rw [hk, part_append_right (by omega), part_drop, hml]
        congr 2; omega
      · refine ⟨(chars t).length - (i + s), ?_, by omega, by omega, by omega⟩
        rw [flat_block q (by omega), part_append_right (by omega), part_drop, hml]
        congr 2; omega
  | inserted h t x ts p s iht ihx =>
    intro w q i hi st
    have hl := size_eq hc _ w
    simp only [WF] at w; simp only [Sequential] at q; simp only [StartOk] at st ⊢
    rw [← hl] at hi ⊢
    simp only [Node.size, block, chars] at hi ⊢
    have hml : ((chars t).take p).length = p := by simp only [List.length_take]; omega
    have qt := sequential_of_noInner t q.1
    have sn := startOk_of_noInner t q.1
    rw [List.append_assoc]
    split
    · rename_i hu
      obtain ⟨k, hk, hle, hpos, hst⟩ := ihx w.2.1 q.2 (i - p) (by omega) (st hu.1 hu.2)
      refine ⟨k, ?_, by omega, by omega, ?_⟩
      · rw [hk, part_append_right (by omega), hml, part_append_left (by omega)]
      · intro _ _; rw [show i + k - p = i - p + k by omega]; exact hst
    · split
      · obtain ⟨k, hk, hle, hpos, hst⟩ := iht w.1 qt (i - s) (by omega) (sn _)
        refine ⟨k, ?_, by omega, by omega, fun _ _ => by omega⟩
        rw [hk, part_append_right (by omega), hml, part_append_right (by omega), part_drop]
        congr 2; omega
      · obtain ⟨k, hk, hle, hpos, hst⟩ := iht w.1 qt i (by omega) (sn _)
        refine ⟨min (p - i) k, ?_, by omega, by omega, ?_⟩
        · rw [hk, Option.map_some, part_append_left (by omega), part_take (by omega), length_part (by omega)]
          split
          · rw [take_part]
          · congr 2; omega
        · intro _ _; rw [show i + min (p - i) k - p = 0 by omega]; exact startOk_zero x

/-- The loop of `do_output` writes the rest of the characters. -/
theorem output_ok {hc : A → Word} {n : Node A} (w : WF hc n) (q : Sequential n) :
    ∀ fuel i, i ≤ (chars n).length → StartOk n i → (chars n).length - i < fuel →
    output n fuel i = some ((chars n).drop i) := by
  intro fuel
  induction fuel with
  | zero => intro i _ _ hf; omega
  | succ f ih =>
    intro i hi st hf
    obtain ⟨k, hk, hle, hpos, hst⟩ := block_ok hc n w q i hi st
    rw [output, hk, Option.bind_some, length_part hle]
    split
    · rename_i h0
      have : (chars n).length ≤ i := by
        by_cases h : i < (chars n).length
        · have := hpos h; omega
        · omega
      rw [List.drop_eq_nil_of_le this]
    · rw [ih (i + k) hle hst (by omega), Option.map_some, part, ← List.drop_drop, List.take_append_drop]

end ELC.Str
