import Verif.Throw.Lemmas

/-
Arrays of elements whose constructors throw: C127 to C130.
-/
namespace ELC.Throw
open Spec

variable {A : Type}

theorem fresh_is (may : Bool) (new : List A) (s : St A) (t : Nat) :
    fresh may new s t = if count may new.length ≤ t then .done (lives new, s) (t - count may new.length)
      else .thrown ([], { s with lost := (raws (new.length - t) ++ lives (lastN t new)) :: s.lost }) := by
  have e : (block new.length : List (Cell A)) = [] ++ raws new.length ++ [] := by simp [block, raws]
  unfold fresh make
  rw [e]
  by_cases h : count may new.length ≤ t
  · rw [if_pos h]
    have := make_done may new.reverse [] (raws new.length) [] t (by simp [raws]) (by simpa using h)
    rw [show ([] : List (Cell A)).length = 0 from rfl] at this
    rw [this]
    simp
  · rw [if_neg h]
    have hm : may = true := by
      cases may
      · simp [count] at h
      · rfl
    subst hm
    have ht : t < new.length := by simpa [count] using h
    have := make_throw new.reverse [] (raws new.length) [] t (by simp [raws]) (by simpa using ht)
    rw [show ([] : List (Cell A)).length = 0 from rfl] at this
    rw [this]
    dsimp only
    rw [take_raws, raws_length, Nat.min_eq_left (by omega), List.take_reverse, List.reverse_reverse]
    simp [lastN]

/-- Elements made in a gap. -/
theorem stMake_is (may : Bool) (new : List A) (s : St A) (a b : List (Cell A)) (t : Nat)
    (hs : s.arr = a ++ raws new.length ++ b) :
    s.make may a.length new t = if count may new.length ≤ t then
        .done { s with arr := a ++ lives new ++ b } (t - count may new.length)
      else .thrown { s with arr := a ++ raws (new.length - t) ++ lives (lastN t new) ++ b } := by
  unfold St.make make
  rw [hs]
  by_cases h : count may new.length ≤ t
  · rw [if_pos h, make_done may new.reverse a (raws new.length) b t (by simp [raws]) (by simpa using h)]
    simp
  · rw [if_neg h]
    have hm : may = true := by
      cases may
      · simp [count] at h
      · rfl
    subst hm
    have ht : t < new.length := by simpa [count] using h
    rw [make_throw new.reverse a (raws new.length) b t (by simp [raws]) (by simpa using ht)]
    dsimp only
    rw [take_raws, raws_length, Nat.min_eq_left (by omega), List.take_reverse, List.reverse_reverse]
    simp [lastN]

theorem grow_is (may : Bool) (s : St A) (n t : Nat) : grow may s (s.arr.length + n) t = growInsert may s s.arr.length n t := by
  unfold grow growInsert
  cases move may 0 0 s.arr.length s.arr (block (s.arr.length + n)) t with
  | done p t => simp only [Nat.sub_self, move, moveLoop, destruct]
  | thrown p => rfl
  | undef => rfl

theorem forwardGrow_is (may : Bool) (s : St A) (n t : Nat) :
    forwardGrow may s (s.arr.length + n) t = growInsert may s 0 n t := by
  unfold forwardGrow growInsert
  have e : move may 0 0 0 s.arr (block (s.arr.length + n)) t = .done (s.arr, block (s.arr.length + n)) t := by
    simp only [move, moveLoop, destruct]
  rw [e]
  simp only [Nat.add_sub_cancel_left, Nat.zero_add, Nat.sub_zero]

theorem move_done' {may : Bool} {xs : List A} {i j n : Nat} {src dst : List (Cell A)} (a b a' m b' : List (Cell A)) {t : Nat}
    (hm : m.length = xs.length) (ht : count may xs.length ≤ t) (hi : i = a'.length) (hj : j = a.length)
    (hn : n = xs.length) (hs : src = a ++ lives xs ++ b) (hd : dst = a' ++ m ++ b') :
    move may i j n src dst t = .done (a ++ raws xs.length ++ b, a' ++ lives xs ++ b') (t - count may xs.length) := by
  subst hi hj hn hs hd
  exact move_done a b a' m b' hm ht

theorem move_throw' {xs : List A} {i j n : Nat} {src dst : List (Cell A)} (a b a' m b' : List (Cell A)) {t : Nat}
    (hm : m.length = xs.length) (ht : t < xs.length) (hi : i = a'.length) (hj : j = a.length)
    (hn : n = xs.length) (hs : src = a ++ lives xs ++ b) (hd : dst = a' ++ m ++ b') :
    move true i j n src dst t = .thrown (a ++ lives (butLast t xs) ++ husks t ++ b,
      a' ++ m.take (m.length - t) ++ lives (lastN t xs) ++ b') := by
  subst hi hj hn hs hd
  exact move_throw a b a' m b' hm ht

theorem count_true_of_lt {may : Bool} {n t : Nat} (h : ¬ count may n ≤ t) : may = true ∧ t < n := by
  cases may
  · simp [count] at h
  · exact ⟨rfl, by simpa [count] using h⟩

theorem count_add (may : Bool) (n k : Nat) : count may n + count may k = count may (n + k) := by
  cases may <;> simp [count]

/-- The larger block, with a gap. -/
theorem growInsert_is (may : Bool) (s : St A) (vs : List A) (hs : s.arr = lives vs) (pos n t : Nat) (hp : pos ≤ vs.length) :
    growInsert may s pos n t =
      if count may vs.length ≤ t then
        .done { s with arr := lives (vs.take pos) ++ raws n ++ lives (vs.drop pos) } (t - count may vs.length)
      else if t < count may pos then
        .thrown { s with arr := lives (butLast t (vs.take pos)) ++ husks t ++ lives (vs.drop pos)
                         dead := s.dead ++ lives (lastN t (vs.take pos)) }
      else
        .thrown { s with arr := raws pos ++ lives (butLast (t - pos) (vs.drop pos)) ++ husks (t - pos)
                         dead := s.dead ++ lives (vs.take pos) ++ lives (lastN (t - pos) (vs.drop pos)) } := by
  have hl : s.arr.length = vs.length := by rw [hs, lives_length]
  have h1 : (vs.take pos).length = pos := by simp [hp]
  have h2 : (vs.drop pos).length = vs.length - pos := by simp
  have hsplit : lives vs = [] ++ lives (vs.take pos) ++ lives (vs.drop pos) := by
    rw [List.nil_append, lives, lives, lives, ← List.map_append, List.take_append_drop]
  have hblock : (block (vs.length + n) : List (Cell A)) = [] ++ raws pos ++ raws (n + (vs.length - pos)) := by
    rw [List.nil_append, ← raws_add, show pos + (n + (vs.length - pos)) = vs.length + n by omega]; rfl
  unfold growInsert
  rw [hl, hs]
  by_cases hc1 : count may pos ≤ t
  · rw [move_done' (xs := vs.take pos) (i := 0) (j := 0) [] (lives (vs.drop pos)) [] (raws pos) (raws (n + (vs.length - pos)))
      (by rw [raws_length, h1]) (by rw [h1]; exact hc1) rfl rfl h1.symm hsplit hblock]
    dsimp only
    rw [h1]
    have hdst : ([] : List (Cell A)) ++ lives (vs.take pos) ++ raws (n + (vs.length - pos)) =
        (lives (vs.take pos) ++ raws n) ++ raws (vs.length - pos) ++ [] := by
      rw [raws_add]; simp [List.append_assoc]
    have hsrc : ([] : List (Cell A)) ++ raws pos ++ lives (vs.drop pos) = raws pos ++ lives (vs.drop pos) ++ [] := by simp
    have hi : pos + n = (lives (vs.take pos) ++ raws n).length := by
      rw [List.length_append, lives_length, raws_length, h1]
    by_cases hc2 : count may (vs.length - pos) ≤ t - count may pos
    · have hc : count may vs.length ≤ t := by
        have := count_add may pos (vs.length - pos)
        rw [show pos + (vs.length - pos) = vs.length by omega] at this
        omega
      rw [move_done' (xs := vs.drop pos) (raws pos) [] (lives (vs.take pos) ++ raws n) (raws (vs.length - pos)) []
        (by rw [raws_length, h2]) (by rw [h2]; exact hc2) hi (raws_length pos).symm h2.symm hsrc hdst, if_pos hc]
      dsimp only
      have : t - count may pos - count may (vs.drop pos).length = t - count may vs.length := by
        have := count_add may pos (vs.length - pos)
        rw [show pos + (vs.length - pos) = vs.length by omega] at this
        rw [h2]; omega
      rw [this]
      simp [St.free, filter_raws, List.filter_append]
    · obtain ⟨rfl, hc2'⟩ := count_true_of_lt hc2
      have hcp : count true pos = pos := by simp [count]
      have hcv : count true vs.length = vs.length := by simp [count]
      rw [hcp] at hc1 hc2' ⊢
      rw [hcv, if_neg (by omega), if_neg (by omega),
        move_throw' (xs := vs.drop pos) (raws pos) [] (lives (vs.take pos) ++ raws n) (raws (vs.length - pos)) []
        (by rw [raws_length, h2]) (by rw [h2]; exact hc2') hi (raws_length pos).symm h2.symm hsrc hdst]
      dsimp only
      simp only [St.free, List.append_nil, List.filter_append, filter_lives, filter_raws, take_raws, List.append_assoc,
        List.nil_append]
  · obtain ⟨rfl, ht⟩ := count_true_of_lt hc1
    have hcp : count true pos = pos := by simp [count]
    have hcv : count true vs.length = vs.length := by simp [count]
    rw [hcp, hcv, if_neg (by omega), if_pos ht,
      move_throw' (xs := vs.take pos) (i := 0) (j := 0) [] (lives (vs.drop pos)) [] (raws pos) (raws (n + (vs.length - pos)))
      (by rw [raws_length, h1]) (by rw [h1]; exact ht) rfl rfl h1.symm hsplit hblock]
    dsimp only
    simp only [St.free, List.append_nil, List.filter_append, filter_lives, filter_raws, take_raws, List.append_assoc,
      List.nil_append]

/-- An insertion. -/
theorem ins_is (T : Traits) (may : Bool) (s : St A) (vs : List A) (hs : s.arr = lives vs) (pos : Nat) (hp : pos ≤ vs.length)
    (new : List A) (t : Nat) :
    (andThen (growInsert T.move s pos new.length t) fun s t => s.make may pos new t) =
      if (Plan.ins may pos new).calls T vs ≤ t then
        .done { s with arr := lives (vs.take pos ++ new ++ vs.drop pos) } (t - (Plan.ins may pos new).calls T vs)
      else .thrown ((Plan.ins may pos new).left T s vs t) := by
  rw [growInsert_is T.move s vs hs pos new.length t hp,
    show (Plan.ins may pos new).calls T vs = count T.move vs.length + count may new.length from rfl]
  simp only [Plan.left]
  have h1 : (lives (vs.take pos)).length = pos := by rw [lives_length]; simp [hp]
  have hmono : count T.move pos ≤ count T.move vs.length := by unfold count; split <;> omega
  by_cases hc : count T.move vs.length ≤ t
  · rw [if_pos hc]
    simp only [andThen]
    have e := stMake_is may new { s with arr := lives (vs.take pos) ++ raws new.length ++ lives (vs.drop pos) }
      (lives (vs.take pos)) (lives (vs.drop pos)) (t - count T.move vs.length) rfl
    rw [h1] at e
    rw [e, if_neg (show ¬ t < count T.move pos by omega), if_neg (show ¬ t < count T.move vs.length by omega)]
    by_cases h2 : count may new.length ≤ t - count T.move vs.length
    · rw [if_pos h2, if_pos (by omega), Nat.sub_sub]
      simp [lives, List.append_assoc]
    · rw [if_neg h2, if_neg (by omega)]
  · rw [if_neg hc, if_neg (by omega : ¬ count T.move vs.length + count may new.length ≤ t)]
    by_cases h2 : t < count T.move pos
    · rw [if_pos h2, if_pos h2]; rfl
    · rw [if_neg h2, if_neg h2, if_pos (by omega)]; rfl

theorem unget_is (s : St A) (vs : List A) (hs : s.arr = lives vs) : unget s = some { s with arr := [] } := by
  have h := destruct_alive (lives vs) [] [] (lives_alive vs)
  rw [List.nil_append, List.append_nil, lives_length] at h
  unfold unget
  rw [hs, lives_length, show (0 : Nat) = ([] : List (Cell A)).length from rfl, h, Option.map_some]
  simp [St.free, filter_raws]

theorem replace_is (may : Bool) (T : Traits) (s : St A) (vs : List A) (hs : s.arr = lives vs) (new : List A) (t : Nat) :
    replace s (fresh may new s t) =
      if (Plan.build may new).calls T vs ≤ t then .done { s with arr := lives new } (t - (Plan.build may new).calls T vs)
      else .thrown ((Plan.build may new).left T s vs t) := by
  rw [fresh_is, show (Plan.build may new).calls T vs = count may new.length from rfl]
  by_cases h : count may new.length ≤ t
  · rw [if_pos h, if_pos h]
    simp only [replace, unget_is s vs hs]
  · rw [if_neg h, if_neg h]
    rfl

theorem last_is (T : Traits) (s : St A) (vs : List A) (n t : Nat) (hn : n ≤ vs.length)
    (hs : s.arr = raws (vs.length - n) ++ lives (lastN n vs)) :
    forwardCut T.move s n t = if (Plan.last n : Plan A).calls T vs ≤ t then
        .done { s with arr := lives (lastN n vs) } (t - (Plan.last n : Plan A).calls T vs)
      else .thrown ((Plan.last n).left T s vs t) := by
  have hl : (lastN n vs).length = n := by simp [lastN]; omega
  have hal : s.arr.length - n = (raws (vs.length - n) : List (Cell A)).length := by
    rw [hs, List.length_append, raws_length, lives_length, hl]; omega
  have hsrc : s.arr = raws (vs.length - n) ++ lives (lastN n vs) ++ [] := by rw [hs, List.append_nil]
  have hdst : (block n : List (Cell A)) = [] ++ raws n ++ [] := by simp [block, raws]
  unfold forwardCut
  rw [show (Plan.last n : Plan A).calls T vs = count T.move n from rfl]
  simp only [Plan.left]
  by_cases h : count T.move n ≤ t
  · rw [if_pos h, move_done' (xs := lastN n vs) (i := 0) (raws (vs.length - n)) [] [] (raws n) [] (by rw [raws_length, hl])
      (by rw [hl]; exact h) rfl hal hl.symm hsrc hdst]
    dsimp only
    rw [hl]
    simp [St.free, filter_raws]
  · obtain ⟨hm, ht⟩ := count_true_of_lt h
    rw [if_neg h, hm, move_throw' (xs := lastN n vs) (i := 0) (raws (vs.length - n)) [] [] (raws n) [] (by rw [raws_length, hl])
      (by rw [hl]; exact ht) rfl hal hl.symm hsrc hdst]
    dsimp only
    simp [St.free, filter_raws, filter_lives, take_raws]

/-- Every operation on a whole array, with an exception at any moment. -/
theorem body_is (T : Traits) (d : A) (s : St A) (vs : List A) (hs : s.arr = lives vs) (o : Op A) (hv : Valid vs o) (t : Nat) :
    body T d s t o = if (plan T d vs o).calls T vs ≤ t then
        .done { s with arr := lives (edit d vs o) } (t - (plan T d vs o).calls T vs)
      else .thrown ((plan T d vs o).left T s vs t) := by
  have hl : s.arr.length = vs.length := by rw [hs, lives_length]
  have hquiet : ∀ r : Res (St A), r = .done { s with arr := lives (edit d vs o) } t → plan T d vs o = .quiet →
      r = if (plan T d vs o).calls T vs ≤ t then
        .done { s with arr := lives (edit d vs o) } (t - (plan T d vs o).calls T vs)
      else .thrown ((plan T d vs o).left T s vs t) := by
    intro r h1 h2
    rw [h2, if_pos (by simp [Plan.calls]), h1]
    simp [Plan.calls]
  have hsame : ∀ ws : List A, ws = vs → ({ s with arr := lives ws } : St A) = s := by
    rintro ws rfl; rw [← hs]
  cases o with
  | assignSize n => exact replace_is T.dflt T s vs hs _ t
  | assignFill n v => exact replace_is T.copy T s vs hs _ t
  | assign ws => exact replace_is T.copy T s vs hs _ t
  | resize n =>
    simp only [body, hl]
    by_cases h1 : vs.length = n
    · rw [if_pos h1]
      refine hquiet _ ?_ (by simp only [plan]; rw [if_pos (by omega)])
      rw [hsame _ (by simp [edit, ← h1])]
    · rw [if_neg h1]
      by_cases h2 : n < vs.length
      · rw [if_pos h2]
        refine hquiet _ ?_ (by simp only [plan]; rw [if_pos (by omega)])
        have e : s.arr = lives (vs.take n) ++ lives (vs.drop n) ++ [] := by
          rw [hs, List.append_nil, lives, lives, lives, ← List.map_append, List.take_append_drop]
        have h3 : (lives (vs.take n)).length = n := by rw [lives_length]; simp; omega
        have hd := destruct_alive (lives (vs.drop n)) (lives (vs.take n)) [] (lives_alive _)
        rw [h3, lives_length, List.length_drop, ← e] at hd
        rw [hd]
        dsimp only
        have e1 : (lives (vs.take n) ++ raws (vs.length - n) ++ []).drop n = raws (vs.length - n) := by
          rw [List.append_nil, List.drop_append_of_le_length (by omega), List.drop_eq_nil_of_le (by omega), List.nil_append]
        have e2 : (lives (vs.take n) ++ raws (vs.length - n) ++ []).take n = lives (vs.take n) := by
          rw [List.append_nil, List.take_append_of_le_length (by omega), List.take_of_length_le (by omega)]
        rw [e1, e2, St.free, filter_raws, List.append_nil]
        simp [edit, show n - vs.length = 0 by omega]
      · rw [if_neg h2]
        by_cases h3 : vs.length ≠ 0
        · have hp : plan T d vs (.resize n) = .ins T.dflt vs.length (List.replicate (n - vs.length) d) := by
            simp only [plan]; rw [if_neg (by omega), if_neg h3]
          rw [if_pos h3, hp]
          have := ins_is T T.dflt s vs hs vs.length (Nat.le_refl _) (List.replicate (n - vs.length) d) t
          rw [List.length_replicate] at this
          have e : grow T.move s n t = growInsert T.move s vs.length (n - vs.length) t := by
            have := grow_is T.move s (n - vs.length) t
            rw [hl, show vs.length + (n - vs.length) = n by omega] at this
            exact this
          rw [e, this]
          simp [edit, List.take_of_length_le (show vs.length ≤ n by omega)]
        · have h0 : vs.length = 0 := by omega
          have hp : plan T d vs (.resize n) = .build T.dflt (List.replicate n d) := by
            simp only [plan]; rw [if_neg (by omega), if_pos h0]
          rw [if_neg h3, hp, fresh_is, show (Plan.build T.dflt (List.replicate n d)).calls T vs = count T.dflt (List.replicate n d).length from rfl]
          have hv0 : vs = [] := List.length_eq_zero_iff.1 h0
          by_cases h : count T.dflt (List.replicate n d).length ≤ t
          · rw [if_pos h, if_pos h]; simp [edit, hv0]
          · rw [if_neg h, if_neg h]
            rfl
  | forwardResize n =>
    simp only [body, hl]
    by_cases h1 : vs.length = n
    · rw [if_pos h1]
      refine hquiet _ ?_ (by simp only [plan]; rw [if_pos h1.symm])
      rw [hsame _ (by simp [edit, ← h1])]
    · rw [if_neg h1]
      by_cases h2 : n < vs.length
      · have hp : plan T d vs (.forwardResize n) = .last n := by
          simp only [plan]; rw [if_neg (by omega), if_pos h2]
        rw [if_pos h2, hp]
        have e : s.arr = [] ++ lives (vs.take (vs.length - n)) ++ lives (lastN n vs) := by
          rw [hs, List.nil_append, lives, lives, lives, lastN, ← List.map_append, List.take_append_drop]
        have h3 : (lives (vs.take (vs.length - n))).length = vs.length - n := by rw [lives_length]; simp
        have hd := destruct_alive (lives (vs.take (vs.length - n))) [] (lives (lastN n vs)) (lives_alive _)
        rw [h3, ← e] at hd
        rw [show (0 : Nat) = ([] : List (Cell A)).length from rfl, hd]
        dsimp only
        rw [last_is T _ vs n t (by omega) rfl]
        simp only [edit, show n - vs.length = 0 by omega, List.replicate_zero, List.nil_append, lastN]
        rfl
      · rw [if_neg h2]
        by_cases h3 : vs.length ≠ 0
        · have hp : plan T d vs (.forwardResize n) = .ins T.dflt 0 (List.replicate (n - vs.length) d) := by
            simp only [plan]; rw [if_neg (by omega), if_neg h2, if_neg h3]
          rw [if_pos h3, hp]
          have := ins_is T T.dflt s vs hs 0 (Nat.zero_le _) (List.replicate (n - vs.length) d) t
          rw [List.length_replicate] at this
          have e : forwardGrow T.move s n t = growInsert T.move s 0 (n - vs.length) t := by
            have := forwardGrow_is T.move s (n - vs.length) t
            rw [hl, show vs.length + (n - vs.length) = n by omega] at this
            exact this
          rw [e, this]
          simp [edit, show vs.length - n = 0 by omega]
        · have h0 : vs.length = 0 := by omega
          have hp : plan T d vs (.forwardResize n) = .build T.dflt (List.replicate n d) := by
            simp only [plan]; rw [if_neg (by omega), if_neg h2, if_pos h0]
          rw [if_neg h3, hp, fresh_is, show (Plan.build T.dflt (List.replicate n d)).calls T vs = count T.dflt (List.replicate n d).length from rfl]
          have hv0 : vs = [] := List.length_eq_zero_iff.1 h0
          by_cases h : count T.dflt (List.replicate n d).length ≤ t
          · rw [if_pos h, if_pos h]; simp [edit, hv0]
          · rw [if_neg h, if_neg h]
            rfl
  | insert pos n =>
    have hv' : pos ≤ vs.length := hv
    simp only [body, hl]
    by_cases h1 : n = 0
    · rw [if_pos h1]
      refine hquiet _ ?_ (by simp only [plan]; rw [if_pos h1])
      rw [hsame _ (by simp [edit, h1])]
    · have hp : plan T d vs (.insert pos n) = .ins T.dflt pos (List.replicate n d) := by simp only [plan]; rw [if_neg h1]
      rw [if_neg h1, if_neg (by omega), hp]
      have := ins_is T T.dflt s vs hs pos hv' (List.replicate n d) t
      rw [List.length_replicate] at this
      exact this
  | insertFill pos n v =>
    have hv' : pos ≤ vs.length := hv
    simp only [body, hl]
    by_cases h1 : n = 0
    · rw [if_pos h1]
      refine hquiet _ ?_ (by simp only [plan]; rw [if_pos h1])
      rw [hsame _ (by simp [edit, h1])]
    · have hp : plan T d vs (.insertFill pos n v) = .ins T.copy pos (List.replicate n v) := by
        simp only [plan]; rw [if_neg h1]
      rw [if_neg h1, if_neg (by omega), hp]
      have := ins_is T T.copy s vs hs pos hv' (List.replicate n v) t
      rw [List.length_replicate] at this
      exact this
  | insertData pos ws =>
    have hv' : pos ≤ vs.length := hv
    simp only [body, hl]
    by_cases h1 : ws.length = 0
    · rw [if_pos h1]
      refine hquiet _ ?_ (by simp only [plan]; rw [if_pos h1])
      rw [hsame _ (by simp [edit, List.length_eq_zero_iff.1 h1])]
    · have hp : plan T d vs (.insertData pos ws) = .ins T.copy pos ws := by simp only [plan]; rw [if_neg h1]
      rw [if_neg h1, if_neg (by omega), hp]
      exact ins_is T T.copy s vs hs pos hv' ws t
  | pushBack v =>
    have := ins_is T T.copy s vs hs vs.length (Nat.le_refl _) [v] t
    simp only [body]
    rw [grow_is, hl]
    rw [List.length_singleton] at this
    rw [this]
    rw [show plan T d vs (.pushBack v) = .ins T.copy vs.length [v] from rfl]
    simp [edit]
  | pushBackMove v =>
    have := ins_is T T.move s vs hs vs.length (Nat.le_refl _) [v] t
    simp only [body]
    rw [grow_is, hl]
    rw [List.length_singleton] at this
    rw [this]
    rw [show plan T d vs (.pushBackMove v) = .ins T.move vs.length [v] from rfl]
    simp [edit]
  | append ws =>
    have := ins_is T T.copy s vs hs vs.length (Nat.le_refl _) ws t
    simp only [body]
    rw [grow_is, hl, this]
    rw [show plan T d vs (.append ws) = .ins T.copy vs.length ws from rfl]
    simp [edit]
  | destroy =>
    refine hquiet _ ?_ rfl
    simp only [body, unget_is s vs hs]
    rfl

/-- C127 to C130, all of it: what every operation on an array does when an exception comes at any moment, or none. -/
theorem outcome (T : Traits) (d : A) (s : St A) (vs : List A) (hs : s.arr = lives vs) (o : Op A) (hv : Valid vs o) (t : Nat) :
    exec T d s t o =
      if (plan T d vs o).calls T vs ≤ t then .done { s with arr := lives (edit d vs o) }
      else if nx T o then .terminate
      else .thrown ((plan T d vs o).left T s vs t) := by
  rw [exec, body_is T d s vs hs o hv t]
  split
  · rfl
  · simp only [close]

/-- Nothing else can happen to a whole array. -/
theorem never_undefined (T : Traits) (d : A) (s : St A) (vs : List A) (hs : s.arr = lives vs) (o : Op A) (hv : Valid vs o)
    (t : Nat) : exec T d s t o ≠ .undef := by
  rw [outcome T d s vs hs o hv t]
  split
  · simp
  · split <;> simp

/-- If no constructor throws, the list is edited and nothing is lost. -/
theorem completes (T : Traits) (hT : T = ⟨false, false, false⟩) (d : A) (s : St A) (vs : List A) (hs : s.arr = lives vs) (o : Op A)
    (hv : Valid vs o) (t : Nat) : exec T d s t o = .done { s with arr := lives (edit d vs o) } := by
  have : (plan T d vs o).calls T vs = 0 := by
    subst hT
    cases o <;> simp only [plan] <;> (try split) <;> (try split) <;> (try split) <;> simp [Plan.calls, count]
  rw [outcome T d s vs hs o hv t, this, if_pos (Nat.zero_le _)]

theorem thrown_iff (T : Traits) (d : A) (s : St A) (vs : List A) (hs : s.arr = lives vs) (o : Op A) (hv : Valid vs o) (t : Nat)
    (s' : St A) : exec T d s t o = .thrown s' ↔
      t < (plan T d vs o).calls T vs ∧ nx T o = false ∧ s' = (plan T d vs o).left T s vs t := by
  rw [outcome T d s vs hs o hv t]
  by_cases h : (plan T d vs o).calls T vs ≤ t
  · rw [if_pos h]
    constructor
    · intro h; cases h
    · intro h2; omega
  · rw [if_neg h]
    cases hn : nx T o
    · simp only [Bool.false_eq_true, ↓reduceIte, Out.thrown.injEq]
      exact ⟨fun e => ⟨by omega, trivial, e.symm⟩, fun e => e.2.2.symm⟩
    · simp

/-! ### C127: new arrays -/

/-- The full claim does not hold: a block with two elements is left behind. -/
theorem assign_leaves_nothing_refuted :
    ¬ ∀ (T : Traits) (d : Nat) (s : St Nat) (vs : List Nat), s.arr = lives vs → ∀ (o : Op Nat) (t : Nat) (s' : St Nat),
      o.assigns = true → exec T d s t o = .thrown s' → s'.lost = s.lost := by
  intro h
  have := h ⟨true, true, true⟩ 0 .new [] rfl (.assign [1, 2, 3]) 2 _ rfl rfl
  simp [St.new] at this

/-- C127, what holds: every exception leaves the new block behind, with all the elements made before it, and the old array
untouched. -/
theorem assign_thrown_characterised (T : Traits) (d : A) (s : St A) (vs : List A) (hs : s.arr = lives vs) (o : Op A) (t : Nat)
    (s' : St A) (ha : o.assigns = true) (h : exec T d s t o = .thrown s') :
    t < (edit d vs o).length ∧ s'.arr = s.arr ∧ s'.dead = s.dead ∧
      s'.lost = (raws ((edit d vs o).length - t) ++ lives (lastN t (edit d vs o))) :: s.lost := by
  cases o with
  | assignSize n =>
    obtain ⟨h1, _, rfl⟩ := (thrown_iff T d s vs hs (.assignSize n) trivial t s').1 h
    refine ⟨?_, rfl, rfl, rfl⟩
    simp only [plan, Plan.calls, edit] at h1 ⊢
    unfold count at h1; split at h1 <;> omega
  | assignFill n v =>
    obtain ⟨h1, _, rfl⟩ := (thrown_iff T d s vs hs (.assignFill n v) trivial t s').1 h
    refine ⟨?_, rfl, rfl, rfl⟩
    simp only [plan, Plan.calls, edit] at h1 ⊢
    unfold count at h1; split at h1 <;> omega
  | assign n =>
    obtain ⟨h1, _, rfl⟩ := (thrown_iff T d s vs hs (.assign n) trivial t s').1 h
    refine ⟨?_, rfl, rfl, rfl⟩
    simp only [plan, Plan.calls, edit] at h1 ⊢
    unfold count at h1; split at h1 <;> omega
  | _ => simp [Op.assigns] at ha

/-! ### C128: growing arrays -/

/-- The full claim does not hold: the second move throws, and the element moved first is gone. -/
theorem grow_unchanged_refuted :
    ¬ ∀ (T : Traits) (d : Nat) (s : St Nat) (vs : List Nat), s.arr = lives vs → ∀ (o : Op Nat) (t : Nat) (s' : St Nat),
      o.grows = true → Valid vs o → exec T d s t o = .thrown s' → s' = s := by
  intro h
  have := h ⟨true, true, true⟩ 0 { (.new : St Nat) with arr := lives [1, 2] } [1, 2] rfl (.pushBack 3) 1 _ rfl trivial rfl
  simp [lives] at this

theorem lives_length_eq (vs : List A) : (lives vs).length = vs.length := lives_length vs

theorem raw_not_lives (vs : List A) (a b : List (Cell A)) (n : Nat) (hn : 0 < n) : a ++ raws n ++ b ≠ lives vs := by
  intro h
  have : (Cell.raw : Cell A) ∈ lives vs := by
    rw [← h]
    simp [raws]; omega
  simp [lives] at this

theorem husk_not_lives (vs : List A) (a b : List (Cell A)) (n : Nat) (hn : 0 < n) : a ++ husks n ++ b ≠ lives vs := by
  intro h
  have : (Cell.husk : Cell A) ∈ lives vs := by
    rw [← h]
    simp [husks]; omega
  simp [lives] at this

/-- An insertion that throws. -/
theorem ins_left_same (T : Traits) (s : St A) (vs : List A) (hs : s.arr = lives vs) (hne : vs ≠ []) (may : Bool) (pos : Nat)
    (hp : pos ≤ vs.length) (new : List A) (t : Nat) (ht : t < (Plan.ins may pos new).calls T vs) :
    (Plan.ins may pos new).left T s vs t = s ↔ T.move = true ∧ t = 0 := by
  have hlen : 0 < vs.length := List.length_pos_iff.2 hne
  have hcalls : (Plan.ins may pos new).calls T vs = count T.move vs.length + count may new.length := rfl
  rw [hcalls] at ht
  simp only [Plan.left]
  by_cases h1 : t < count T.move pos
  · rw [if_pos h1]
    have hm : T.move = true := by
      cases hm : T.move
      · rw [hm] at h1; simp [count] at h1
      · rfl
    constructor
    · intro h
      refine ⟨hm, ?_⟩
      by_contra h0
      have := congrArg St.arr h
      rw [hs] at this
      exact husk_not_lives vs _ _ t (by omega) this
    · rintro ⟨_, rfl⟩
      rw [butLast_zero, lastN_zero]
      have : lives (vs.take pos) ++ husks 0 ++ lives (vs.drop pos) = s.arr := by
        rw [hs]
        simp only [husks, List.replicate_zero, List.append_nil, lives]
        rw [← List.map_append, List.take_append_drop]
      rw [this]
      simp [lives]
  · rw [if_neg h1]
    by_cases h2 : t < count T.move vs.length
    · rw [if_pos h2]
      have hm : T.move = true := by
        cases hm : T.move
        · rw [hm] at h2; simp [count] at h2
        · rfl
      have hc : count T.move pos = pos := by simp [count, hm]
      rw [hc] at h1
      constructor
      · intro h
        refine ⟨hm, ?_⟩
        have he := congrArg St.arr h
        rw [hs] at he
        by_contra h0
        by_cases hp0 : 0 < pos
        · exact raw_not_lives vs [] (lives (butLast (t - pos) (vs.drop pos)) ++ husks (t - pos)) pos hp0 (by
            simpa [List.append_assoc] using he)
        · exact husk_not_lives vs (raws pos ++ lives (butLast (t - pos) (vs.drop pos))) [] (t - pos) (by omega) (by
            simpa [List.append_assoc] using he)
      · rintro ⟨_, rfl⟩
        have hp0 : pos = 0 := by omega
        subst hp0
        rw [List.drop_zero, Nat.sub_zero, butLast_zero, lastN_zero]
        have : (raws 0 ++ lives vs ++ husks 0 : List (Cell A)) = s.arr := by
          rw [hs]; simp [raws, husks]
        rw [this]
        simp [lives]
    · rw [if_neg h2]
      constructor
      · intro h
        have he := congrArg St.arr h
        rw [hs] at he
        have hlt : 0 < new.length - (t - count T.move vs.length) := by
          have : count may new.length ≤ new.length := by unfold count; split <;> omega
          omega
        exact absurd (by simpa [List.append_assoc] using he)
          (raw_not_lives vs (lives (vs.take pos))
            (lives (lastN (t - count T.move vs.length) new) ++ lives (vs.drop pos)) _ hlt)
      · rintro ⟨hm, rfl⟩
        rw [hm] at h2
        simp [count] at h2
        exact absurd h2 hne

theorem plan_grows (T : Traits) (d : A) (vs : List A) (hne : vs ≠ []) (o : Op A) (hg : o.grows = true) (hv : Valid vs o)
    (hle : vs.length ≤ (edit d vs o).length) : plan T d vs o = .quiet ∨
      ∃ may pos new, pos ≤ vs.length ∧ plan T d vs o = .ins may pos new := by
  have hlen : vs.length ≠ 0 := by simpa using hne
  cases o with
  | resize n =>
    simp only [plan]
    split
    · exact .inl rfl
    · exact .inr ⟨_, _, _, Nat.le_refl _, rfl⟩
  | forwardResize n =>
    simp only [plan]
    split
    · exact .inl rfl
    · rename_i h1
      simp [edit] at hle
      rw [if_neg (by omega)]; exact .inr ⟨_, _, _, Nat.zero_le _, rfl⟩
  | insert pos n =>
    simp only [plan]
    split
    · exact .inl rfl
    · exact .inr ⟨_, _, _, hv, rfl⟩
  | insertFill pos n v =>
    simp only [plan]
    split
    · exact .inl rfl
    · exact .inr ⟨_, _, _, hv, rfl⟩
  | insertData pos ws =>
    simp only [plan]
    split
    · exact .inl rfl
    · exact .inr ⟨_, _, _, hv, rfl⟩
  | pushBack v => exact .inr ⟨_, _, _, Nat.le_refl _, rfl⟩
  | pushBackMove v => exact .inr ⟨_, _, _, Nat.le_refl _, rfl⟩
  | append ws => exact .inr ⟨_, _, _, Nat.le_refl _, rfl⟩
  | _ => simp [Op.grows] at hg

/-- C128, what holds: an array that is not empty is unchanged after an exception exactly if the very first move threw. -/
theorem grow_unchanged_characterised (T : Traits) (d : A) (s : St A) (vs : List A) (hs : s.arr = lives vs) (hne : vs ≠ [])
    (o : Op A) (hg : o.grows = true) (hv : Valid vs o) (hle : vs.length ≤ (edit d vs o).length) (t : Nat) (s' : St A)
    (h : exec T d s t o = .thrown s') : s' = s ↔ T.move = true ∧ t = 0 := by
  obtain ⟨h1, _, rfl⟩ := (thrown_iff T d s vs hs o hv t s').1 h
  rcases plan_grows T d vs hne o hg hv hle with hq | ⟨may, pos, new, hp, hq⟩
  · rw [hq] at h1; simp [Plan.calls] at h1
  · rw [hq] at h1 ⊢
    exact ins_left_same T s vs hs hne may pos hp new t h1

/-- C128, what holds: if the moves do not throw no element is lost, and none is given up without being destroyed; they are
all still in the array, about a gap. -/
theorem grow_nothrow_move (T : Traits) (hm : T.move = false) (d : A) (s : St A) (vs : List A) (hs : s.arr = lives vs)
    (hne : vs ≠ []) (o : Op A) (hg : o.grows = true) (hv : Valid vs o) (hle : vs.length ≤ (edit d vs o).length) (t : Nat)
    (s' : St A) (h : exec T d s t o = .thrown s') :
    s'.dead = s.dead ∧ s'.lost = s.lost ∧ ∃ pos k made, 0 < k ∧
      s'.arr = lives (vs.take pos) ++ raws k ++ lives made ++ lives (vs.drop pos) := by
  obtain ⟨h1, _, rfl⟩ := (thrown_iff T d s vs hs o hv t s').1 h
  rcases plan_grows T d vs hne o hg hv hle with hq | ⟨may, pos, new, hp, hq⟩
  · rw [hq] at h1; simp [Plan.calls] at h1
  · rw [hq] at h1 ⊢
    have hcalls : (Plan.ins may pos new).calls T vs = count T.move vs.length + count may new.length := rfl
    have hc : ∀ n, count T.move n = 0 := fun n => by simp [count, hm]
    rw [hcalls, hc] at h1
    simp only [Plan.left, hc]
    rw [if_neg (by omega), if_neg (by omega)]
    have : count may new.length ≤ new.length := by unfold count; split <;> omega
    exact ⟨rfl, rfl, pos, new.length - (t - 0), _, by omega, rfl⟩

/-! ### C129: after the exception -/

theorem destruct_iff (n : Nat) (c : List (Cell A)) (hn : n ≤ c.length) :
    (destruct 0 n c).isSome = true ↔ ∀ x ∈ c.take n, x.alive = true := by
  induction n generalizing c with
  | zero => simp [destruct]
  | succ n ih =>
    have hlt : n < c.length := by omega
    rw [destruct, Nat.zero_add, List.getElem?_eq_getElem hlt]
    dsimp only
    have htake : c.take (n + 1) = c.take n ++ [c[n]] := by rw [List.take_succ_eq_append_getElem hlt]
    by_cases ha : c[n].alive = true
    · rw [if_pos ha, ih (c.set n .raw) (by rw [List.length_set]; omega), htake]
      have : (c.set n .raw).take n = c.take n := by rw [List.take_set_of_le (Nat.le_refl n)]
      rw [this]
      constructor
      · intro h x hx
        rcases List.mem_append.1 hx with hx | hx
        · exact h x hx
        · rw [List.mem_singleton.1 hx]; exact ha
      · intro h x hx
        exact h x (List.mem_append_left _ hx)
    · rw [if_neg ha]
      simp only [Option.isSome_none, Bool.false_eq_true, false_iff]
      intro h
      exact ha (h _ (by rw [htake]; exact List.mem_append_right _ (List.mem_singleton.2 rfl)))

/-- The destructor of the array is defined exactly if every cell has an element. -/
theorem destroy_defined_iff (T : Traits) (d : A) (s : St A) (t : Nat) : exec T d s t .destroy ≠ .undef ↔ Whole s := by
  have h := destruct_iff s.arr.length s.arr (Nat.le_refl _)
  rw [List.take_length] at h
  rw [Whole, ← h]
  simp only [exec, body, unget]
  cases destruct 0 s.arr.length s.arr <;> simp [close]

/-- The full claim does not hold: the new element of a `push_back` throws, and the destructor destroys what was never made. -/
theorem destroy_after_throw_refuted :
    ¬ ∀ (T : Traits) (d : Nat) (s : St Nat) (vs : List Nat), s.arr = lives vs → ∀ (o : Op Nat), Valid vs o → ∀ (t : Nat) (s' : St Nat),
      exec T d s t o = .thrown s' → ∀ t', exec T d s' t' .destroy ≠ .undef := by
  intro h
  exact h ⟨true, true, false⟩ 0 { (.new : St Nat) with arr := lives [1, 2] } [1, 2] rfl (.pushBack 3) trivial 0 _ rfl 0 rfl

theorem whole_append {a b : List (Cell A)} :
    (∀ c ∈ a ++ b, c.alive = true) ↔ (∀ c ∈ a, c.alive = true) ∧ ∀ c ∈ b, c.alive = true := by
  simp only [List.mem_append, or_imp, forall_and]

theorem whole_raws (n : Nat) : (∀ c ∈ (raws n : List (Cell A)), c.alive = true) ↔ n = 0 := by
  cases n <;> simp [raws, Cell.alive]

/-- C129, what holds: whether the array can be destroyed after an exception, for every operation and every moment. -/
theorem destroy_after_throw_characterised (T : Traits) (d : A) (s : St A) (vs : List A) (hs : s.arr = lives vs) (o : Op A)
    (hv : Valid vs o) (t : Nat) (s' : St A) (h : exec T d s t o = .thrown s') (t' : Nat) :
    exec T d s' t' .destroy ≠ .undef ↔ match plan T d vs o with
      | .quiet => True
      | .build _ _ => True
      | .ins _ pos _ => T.move = true ∧ (t < pos ∨ pos = 0 ∧ t < vs.length)
      | .last _ => False := by
  obtain ⟨h1, _, rfl⟩ := (thrown_iff T d s vs hs o hv t s').1 h
  rw [destroy_defined_iff, Whole]
  cases hp : plan T d vs o with
  | quiet => rw [hp] at h1; simp [Plan.calls] at h1
  | build may new =>
    simp only [Plan.left, hs, iff_true]
    exact fun c hc => lives_alive vs c hc
  | ins may pos new =>
    rw [hp] at h1
    have hcalls : (Plan.ins may pos new).calls T vs = count T.move vs.length + count may new.length := rfl
    rw [hcalls] at h1
    simp only [Plan.left]
    by_cases h2 : t < count T.move pos
    · have hm : T.move = true := by
        cases hm : T.move
        · rw [hm] at h2; simp [count] at h2
        · rfl
      rw [if_pos h2]
      simp only [count, hm, if_true] at h2
      simp only [hm, h2, true_or, and_self, iff_true]
      rw [whole_append, whole_append]
      exact ⟨⟨lives_alive _, husks_alive _⟩, lives_alive _⟩
    · rw [if_neg h2]
      by_cases h3 : t < count T.move vs.length
      · have hm : T.move = true := by
          cases hm : T.move
          · rw [hm] at h3; simp [count] at h3
          · rfl
        rw [if_pos h3]
        simp only [count, hm, if_true] at h2 h3
        dsimp only
        rw [whole_append, whole_append, whole_raws]
        simp only [hm, h2, h3, and_true, false_or, true_and]
        exact ⟨fun h => h.1.1, fun h => ⟨⟨h, lives_alive _⟩, husks_alive _⟩⟩
      · rw [if_neg h3]
        dsimp only
        rw [whole_append, whole_append, whole_append, whole_raws]
        have : count may new.length ≤ new.length := by unfold count; split <;> omega
        constructor
        · intro h; omega
        · rintro ⟨hm, h⟩
          simp only [count, hm, if_true] at h2 h3
          omega
  | last n =>
    simp only [Plan.left, iff_false]
    rw [whole_append, whole_append, whole_raws]
    have : n < vs.length := by
      cases o <;> simp only [plan] at hp <;> (try split at hp) <;> (try split at hp) <;> (try split at hp) <;> simp_all
    omega

/-! ### C130: exceptions reach the caller -/

/-- The full claim does not hold: the copies of `insert` throw through a `noexcept` function. -/
theorem throw_reaches_caller_refuted :
    ¬ ∀ (T : Traits) (d : Nat) (s : St Nat) (vs : List Nat), s.arr = lives vs → ∀ (o : Op Nat), Valid vs o → ∀ (t : Nat),
      exec T d s t o ≠ .terminate := by
  intro h
  exact h ⟨false, true, false⟩ 0 .new [] rfl (.insertData 0 [1]) (Nat.le_refl 0) 0 rfl

/-- C130, what holds: an exception ends the program exactly if copies are made by `array_t(size,elem)` and default elements
do not throw, or by `insert` and neither default elements nor moves throw. -/
theorem throw_reaches_caller_characterised (T : Traits) (d : A) (s : St A) (vs : List A) (hs : s.arr = lives vs) (o : Op A)
    (hv : Valid vs o) : (∃ t, exec T d s t o = .terminate) ↔
      T.copy = true ∧ T.dflt = false ∧ match o with
        | .assignFill n _ => 0 < n
        | .insertFill _ n _ => 0 < n ∧ T.move = false
        | .insertData _ ws => ws ≠ [] ∧ T.move = false
        | _ => False := by
  have key : (∃ t, exec T d s t o = .terminate) ↔ 0 < (plan T d vs o).calls T vs ∧ nx T o = true := by
    constructor
    · rintro ⟨t, ht⟩
      rw [outcome T d s vs hs o hv t] at ht
      split at ht
      · cases ht
      · rename_i h
        cases hn : nx T o
        · rw [hn] at ht; cases ht
        · exact ⟨by omega, rfl⟩
    · rintro ⟨h1, h2⟩
      refine ⟨0, ?_⟩
      rw [outcome T d s vs hs o hv 0, if_neg (by omega), if_pos h2]
  rw [key]
  obtain ⟨b1, b2, b3⟩ := T
  cases o with
  | assignSize n => cases b1 <;> simp [plan, Plan.calls, nx, count]
  | assignFill n v => cases b1 <;> cases b2 <;> simp [plan, Plan.calls, nx, count]
  | assign ws => cases b2 <;> simp [plan, Plan.calls, nx, count]
  | resize n =>
    simp only [plan]
    cases b1 <;> cases b3 <;> (split <;> [skip; split]) <;> simp [Plan.calls, nx, count]
  | forwardResize n =>
    simp only [plan]
    cases b1 <;> cases b3 <;> (split <;> [skip; (split <;> [skip; split])]) <;> simp [Plan.calls, nx, count]
  | insert pos n =>
    simp only [plan]
    cases b1 <;> cases b3 <;> split <;> simp [Plan.calls, nx, count]
  | insertFill pos n v =>
    simp only [plan]
    cases b1 <;> cases b2 <;> cases b3 <;> split <;> simp [Plan.calls, nx, count] <;> omega
  | insertData pos ws =>
    have hw : ws ≠ [] ↔ 0 < ws.length := by rw [List.length_pos_iff]
    by_cases h0 : ws.length = 0
    · rw [show plan ⟨b1, b2, b3⟩ d vs (.insertData pos ws) = .quiet from if_pos h0]
      simp only [hw, h0, Plan.calls]
      simp
    · rw [show plan ⟨b1, b2, b3⟩ d vs (.insertData pos ws) = .ins b2 pos ws from if_neg h0]
      have h1 : 0 < ws.length := by omega
      cases b1 <;> cases b2 <;> cases b3 <;> simp [Plan.calls, nx, count, hw, h1]
  | pushBack v => cases b2 <;> cases b3 <;> simp [plan, Plan.calls, nx, count]
  | pushBackMove v => cases b2 <;> cases b3 <;> simp [plan, Plan.calls, nx, count]
  | append ws => cases b2 <;> cases b3 <;> simp [plan, Plan.calls, nx, count]
  | destroy => simp [plan, Plan.calls]

/-! ### The hypotheses are met -/

/-- An array with elements; an insertion of two copies of which the second throws, after three moves. -/
example : exec ⟨false, true, true⟩ 0 { (.new : St Nat) with arr := lives [1, 2, 3] } 4 (.insertFill 1 2 7) =
    .thrown { (.new : St Nat) with arr := [.live 1, .raw, .live 7, .live 2, .live 3] } := rfl
/-- The third move throws: two elements have been destroyed with the new block. -/
example : exec ⟨false, true, true⟩ 0 { (.new : St Nat) with arr := lives [1, 2, 3] } 2 (.insertFill 1 2 7) =
    .thrown { (.new : St Nat) with arr := [.raw, .live 2, .husk], dead := [.live 1, .live 3] } := rfl
example : Valid [1, 2, 3] (.insertFill 1 2 7) := by simp [Valid]
example : exec ⟨true, true, true⟩ 0 { (.new : St Nat) with arr := lives [1, 2] } 1 (.assign [5, 6, 7]) =
    .thrown { arr := lives [1, 2], lost := [[.raw, .raw, .live 7]], dead := [] } := rfl
example : exec ⟨true, true, true⟩ 0 { (.new : St Nat) with arr := lives [1, 2, 3] } 1 (.forwardResize 2) =
    .thrown { (.new : St Nat) with arr := [.raw, .live 2, .husk], dead := [.live 3] } := rfl

end ELC.Throw
