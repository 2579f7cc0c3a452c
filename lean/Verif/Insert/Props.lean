import Verif.Insert.Model
import Verif.Insert.Spec
/-! Property C204: writing strings to streams of the C++ library. -/
namespace ELC.Insert
open ELC.Stdwrap (Out outSentry)
open Spec

variable {A : Type}

/-- Writing a text at the position of a stream as far as there is room. -/
def put (s : Out A) (new : List A) : Out A :=
  { s with text := over s.text s.pos (new.take (s.cap - s.pos)), pos := s.pos + (new.take (s.cap - s.pos)).length }

theorem over_over {t a b : List A} {p : Nat} (hp : p ≤ t.length) :
    over (over t p a) (p + a.length) b = over t p (a ++ b) := by
  have h1 : (t.take p).length = p := by simp; omega
  have h2 : (t.take p ++ a).length = p + a.length := by simp; omega
  have ht : (over t p a).take (p + a.length) = t.take p ++ a := by
    unfold over
    rw [← h2]; exact List.take_left
  have hd : (over t p a).drop (p + a.length + b.length) = t.drop (p + (a ++ b).length) := by
    unfold over
    rw [← h2, List.drop_append, h2]
    have : (t.take p ++ a).drop (p + a.length + b.length) = [] := by
      apply List.drop_eq_nil_of_le; rw [h2]; omega
    rw [this, List.nil_append, List.drop_drop]
    congr 1; simp; omega
  simp only [over] at ht hd ⊢
  rw [ht, hd]
  simp only [List.append_assoc]

theorem over_length {t a : List A} {p : Nat} (hp : p ≤ t.length) : p + a.length ≤ (over t p a).length := by
  simp [over]; omega

theorem put_nil (s : Out A) : put s [] = s := by
  simp [put, over]

theorem put_put {s : Out A} {a b : List A} (hp : s.pos ≤ s.text.length) (ha : a.length ≤ s.cap - s.pos) :
    put (put s a) b = put s (a ++ b) := by
  have h1 : a.take (s.cap - s.pos) = a := List.take_of_length_le ha
  have h2 : (a ++ b).take (s.cap - s.pos) = a ++ b.take (s.cap - (s.pos + a.length)) := by
    rw [List.take_append, h1]; congr 2; omega
  simp only [put, h1, h2, over_over hp, List.length_append, Nat.add_assoc]

theorem sputc_put {s : Out A} {c : A} : sputc s c = if s.pos < s.cap then (true, put s [c]) else (false, put s [c]) := by
  unfold sputc
  by_cases h : s.pos < s.cap
  · rw [if_pos h, if_pos h]
    have : ([c] : List A).take (s.cap - s.pos) = [c] := List.take_of_length_le (by simp; omega)
    simp only [put, this, over]
    simp
  · rw [if_neg h, if_neg h]
    have : s.cap - s.pos = 0 := by omega
    simp [put, this, over]

/-- What one of the loops that fill up does. -/
theorem padLoop_put (c : A) : ∀ (n : Nat) {s : Out A}, s.pos ≤ s.text.length → s.pos ≤ s.cap →
    (padLoop c n s).2.2 = put s (List.replicate n c) ∧
    (padLoop c n s).2.1 = decide (s.cap - s.pos < n) ∧
    (padLoop c n s).1 = n - (s.cap - s.pos)
  | 0, s, _, _ => by simp [padLoop, put_nil]
  | n+1, s, hp, hc => by
      unfold padLoop
      rw [sputc_put]
      by_cases h : s.pos < s.cap
      · rw [if_pos h]
        have ht : ([c] : List A).take (s.cap - s.pos) = [c] := List.take_of_length_le (by simp; omega)
        have hq : (put s [c]).pos = s.pos + 1 := by simp [put, ht]
        have hl : (put s [c]).pos ≤ (put s [c]).text.length := by
          have := over_length (a := [c]) hp
          simpa [put, ht] using this
        have hcap : (put s [c]).cap = s.cap := rfl
        obtain ⟨h1, h2, h3⟩ := padLoop_put c n hl (by rw [hq, hcap]; omega)
        refine ⟨?_, ?_, ?_⟩
        · rw [h1, put_put hp (by simp; omega)]; rfl
        · rw [h2, hq, hcap]; congr 1; apply propext; omega
        · rw [h3, hq, hcap]; omega
      · rw [if_neg h]
        have h0 : s.cap - s.pos = 0 := by omega
        refine ⟨?_, ?_, ?_⟩
        · simp [put, h0]
        · simp [h0]
        · show n + 1 = _; omega

theorem out_good {s : Out A} (h : s.good = true) : s.fail = false ∧ s.bad = false := by
  simpa [Out.good] using h

theorem write_put {s : Out A} (h : s.good = true) (d : List A) :
    Stdwrap.write s d = { put s d with bad := decide (s.cap - s.pos < d.length) } := by
  obtain ⟨h1, h2⟩ := out_good h
  have hs : outSentry s = (true, s) := by unfold outSentry; rw [if_pos h]
  unfold Stdwrap.write
  rw [hs]
  show Stdwrap.stdWrite s d = _
  unfold Stdwrap.stdWrite
  rw [hs]
  by_cases hd : (d.take (s.cap - s.pos)).length = d.length
  · have : ¬ s.cap - s.pos < d.length := by rw [List.length_take] at hd; omega
    simp only [hd, if_true, put, over, this, decide_false]
    cases s; simp_all
  · have : s.cap - s.pos < d.length := by rw [List.length_take] at hd; omega
    simp only [if_neg hd, put, over, this, decide_true]

theorem write_dead {s : Out A} (h : s.bad = true) (d : List A) :
    (Stdwrap.write s d).text = s.text ∧ (Stdwrap.write s d).pos = s.pos ∧ (Stdwrap.write s d).cap = s.cap ∧
      (Stdwrap.write s d).bad = true := by
  simp [Stdwrap.write, outSentry, Out.good, h]

theorem writeAll_dead : ∀ (ps : List (List A)) {s : Out A}, s.bad = true →
    (writeAll ps s).text = s.text ∧ (writeAll ps s).pos = s.pos ∧ (writeAll ps s).cap = s.cap ∧ (writeAll ps s).bad = true
  | [], _, h => ⟨rfl, rfl, rfl, h⟩
  | p :: ps, s, h => by
      obtain ⟨h1, h2, h3, h4⟩ := write_dead h p
      obtain ⟨k1, k2, k3, k4⟩ := writeAll_dead ps h4
      exact ⟨k1.trans h1, k2.trans h2, k3.trans h3, k4⟩

/-- The pieces of a string arrive as one text. -/
theorem writeAll_put : ∀ (ps : List (List A)) {s : Out A}, s.good = true → s.pos ≤ s.text.length → s.pos ≤ s.cap →
    (writeAll ps s).text = (put s ps.flatten).text ∧ (writeAll ps s).pos = (put s ps.flatten).pos ∧
      (writeAll ps s).cap = s.cap ∧ (writeAll ps s).bad = decide (s.cap - s.pos < ps.flatten.length) ∧
      (s.cap - s.pos < ps.flatten.length ∨ (writeAll ps s).fail = false)
  | [], s, h, _, _ => by
      obtain ⟨h1, h2⟩ := out_good h
      simp [writeAll, put_nil, h1, h2]
  | p :: ps, s, h, hp, hc => by
      obtain ⟨h1, h2⟩ := out_good h
      rw [writeAll, write_put h]
      by_cases hd : s.cap - s.pos < p.length
      · simp only [hd, decide_true]
        obtain ⟨k1, k2, k3, k4⟩ := writeAll_dead ps (s := { put s p with bad := true }) rfl
        have ht : (p ++ ps.flatten).take (s.cap - s.pos) = p.take (s.cap - s.pos) := by
          rw [List.take_append_of_le_length (by omega)]
        rw [k1, k2, k3, k4]
        refine ⟨?_, ?_, rfl, ?_, ?_⟩
        · simp [put, ht]
        · simp [put, ht]
        · simp; omega
        · simp; omega
      · simp only [hd, decide_false]
        have ht : p.take (s.cap - s.pos) = p := List.take_of_length_le (by omega)
        have e : ({ put s p with bad := false } : Out A) = put s p := by simp [put, h2]
        have hq : (put s p).pos = s.pos + p.length := by simp [put, ht]
        have hcap : (put s p).cap = s.cap := rfl
        have hl : (put s p).pos ≤ (put s p).text.length := by
          have := over_length (a := p) hp
          simpa [put, ht] using this
        have hg : (put s p).good = true := h
        rw [e]
        obtain ⟨k1, k2, k3, k4, k5⟩ := writeAll_put ps hg hl (by rw [hq, hcap]; omega)
        have hpp := put_put (b := ps.flatten) hp (a := p) (by omega)
        rw [k1, k2, k3, k4, hpp, hq, hcap, List.flatten_cons]
        refine ⟨rfl, rfl, rfl, ?_, ?_⟩
        · congr 1; apply propext; rw [List.length_append]; omega
        · rcases k5 with h | h
          · left; rw [hq, hcap] at h; rw [List.length_append]; omega
          · right; exact h

theorem padding_eq (w : Int) (n : Nat) : padding w n = (w - n).toNat := by
  unfold padding; split <;> omega

/-- C204.  On a stream in order, whatever the pieces of the string are: the field with the text in it is written at the
position, as far as there is room; the stream is bad afterwards iff there was too little; and the width is zero. -/
theorem insert_correct {f : Fmt A} (pieces : List (List A)) (hg : f.out.good = true)
    (hp : f.out.pos ≤ f.out.text.length) (hc : f.out.pos ≤ f.out.cap) :
    let new := field f.width f.left f.fill pieces.flatten
    let room := f.out.cap - f.out.pos
    (insert f pieces).out.text = over f.out.text f.out.pos (new.take room) ∧
    (insert f pieces).out.pos = f.out.pos + (new.take room).length ∧
    (insert f pieces).out.bad = decide (room < new.length) ∧
    (new.length ≤ room → (insert f pieces).out.fail = false) ∧
    (insert f pieces).width = 0 := by
  obtain ⟨h1, h2⟩ := out_good hg
  obtain ⟨s, w, left, c⟩ := f
  dsimp only at hg hp hc h1 h2 ⊢
  have hs : outSentry s = (true, s) := by unfold outSentry; rw [if_pos hg]
  generalize ht : pieces.flatten = t
  have hpad : padding w t.length = (w - t.length).toNat := padding_eq ..
  generalize hn : (w - t.length).toNat = n at hpad
  unfold insert
  simp only [hs, ht, hpad]
  unfold field
  simp only [hn]
  cases left with
  | true =>
    simp only [Bool.not_true, Bool.false_eq_true, if_false, Bool.not_false, if_true]
    obtain ⟨k1, k2, k3, k4, k5⟩ := writeAll_put pieces hg hp hc
    rw [ht] at k1 k2 k4 k5
    generalize writeAll pieces s = u at *
    by_cases hd : s.cap - s.pos < t.length
    · have hb : u.bad = true := by rw [k4]; simp [hd]
      have e : (t ++ List.replicate n c).take (s.cap - s.pos) = t.take (s.cap - s.pos) :=
        List.take_append_of_le_length (by omega)
      rw [hb, Bool.or_true, if_pos rfl, e]
      refine ⟨k1, k2, ?_, ?_, rfl⟩
      · simp; omega
      · intro h; simp at h; omega
    · have hb : u.bad = false := by rw [k4]; simp [hd]
      have hf : u.fail = false := by rcases k5 with h | h; exact absurd h hd; exact h
      have ht' : t.take (s.cap - s.pos) = t := List.take_of_length_le (by omega)
      have hu : u = put s t := by
        cases u
        simp only [put] at *
        simp [k1, k2, k3, hb, hf, h1, h2]
      rw [hb, hf, Bool.or_false, if_neg (by simp)]
      have hq : (put s t).pos = s.pos + t.length := by simp [put, ht']
      have hl : (put s t).pos ≤ (put s t).text.length := by
        have := over_length (a := t) hp
        simpa [put, ht'] using this
      have hcap : (put s t).cap = s.cap := rfl
      obtain ⟨q1, q2, _⟩ := padLoop_put c n hl (by rw [hq, hcap]; omega)
      rw [hu, q1, q2, put_put hp (by omega), hq, hcap]
      refine ⟨rfl, rfl, ?_, fun _ => h1, rfl⟩
      show (s.bad || false || _) = _
      rw [h2]
      simp only [Bool.false_or]
      congr 1; apply propext; simp; omega
  | false =>
    simp only [Bool.not_false, if_true, Bool.false_eq_true, if_false]
    obtain ⟨q1, q2, q3⟩ := padLoop_put c n hp hc
    rw [q1, q2, q3]
    by_cases hd : s.cap - s.pos < n
    · have hq : (put s (List.replicate n c)).pos = s.cap := by simp [put]; omega
      have hcap : (put s (List.replicate n c)).cap = s.cap := rfl
      have hl : (put s (List.replicate n c)).pos ≤ (put s (List.replicate n c)).text.length := by
        have := over_length (a := (List.replicate n c).take (s.cap - s.pos)) hp
        simpa [put] using this
      have hbad : (put s (List.replicate n c)).bad = false := h2
      have hfail : (put s (List.replicate n c)).fail = false := h1
      have e : (List.replicate n c ++ t).take (s.cap - s.pos) = (List.replicate n c).take (s.cap - s.pos) :=
        List.take_append_of_le_length (by simp; omega)
      simp only [hd, decide_true, Bool.not_true, Bool.false_eq_true, if_false, hbad, hfail, Bool.or_false]
      obtain ⟨p1, p2, _⟩ := padLoop_put c (n - (s.cap - s.pos)) hl (by rw [hq, hcap]; exact Nat.le_refl _)
      rw [p1, p2, e]
      have hz : put (put s (List.replicate n c)) (List.replicate (n - (s.cap - s.pos)) c) = put s (List.replicate n c) := by
        have h0 : ∀ u : Out A, u.pos = u.cap → ∀ l : List A, put u l = u := by
          intro u hu l
          have : u.cap - u.pos = 0 := by omega
          simp [put, over, this]
        exact h0 _ (hq.trans hcap.symm) _
      rw [hz]
      refine ⟨rfl, rfl, ?_, ?_, by trivial⟩
      · simp; omega
      · intro h; simp at h; omega
    · have hle : (List.replicate n c).length ≤ s.cap - s.pos := by simp; omega
      have htk : (List.replicate n c).take (s.cap - s.pos) = List.replicate n c := List.take_of_length_le hle
      have hq : (put s (List.replicate n c)).pos = s.pos + n := by simp [put, htk]
      have hcap : (put s (List.replicate n c)).cap = s.cap := rfl
      have hl : (put s (List.replicate n c)).pos ≤ (put s (List.replicate n c)).text.length := by
        have := over_length (a := List.replicate n c) hp
        simpa [put, htk] using this
      have hgood : (put s (List.replicate n c)).good = true := hg
      simp only [hd, decide_false, Bool.not_false, if_true]
      obtain ⟨k1, k2, k3, k4, k5⟩ := writeAll_put pieces hgood hl (by rw [hq, hcap]; omega)
      rw [ht, put_put hp hle] at k1 k2
      rw [ht, hq, hcap] at k4 k5
      have hz : n - (s.cap - s.pos) = 0 := by omega
      rw [hz]
      generalize writeAll pieces (put s (List.replicate n c)) = u at *
      have hlen : (List.replicate n c ++ t).length = n + t.length := by simp
      by_cases hd2 : s.cap - (s.pos + n) < t.length
      · have hb : u.bad = true := by rw [k4]; simp [hd2]
        rw [hb, Bool.or_true, if_pos rfl]
        refine ⟨k1, k2, ?_, ?_, rfl⟩
        · rw [hlen]; simp; omega
        · intro h; rw [hlen] at h; omega
      · have hb : u.bad = false := by rw [k4]; simp [hd2]
        have hf : u.fail = false := by rcases k5 with h | h; exact absurd h hd2; exact h
        rw [hb, hf, Bool.or_false, if_neg (by simp)]
        refine ⟨k1, k2, ?_, fun _ => hf, rfl⟩
        rw [hlen]
        simp [padLoop, hb]; omega

/-- Writing three characters in a field of five. -/
example : insert (A := Nat) ⟨⟨[9, 9], 1, 100, false, false⟩, 5, false, 0⟩ [[1, 2], [3]] =
    ⟨⟨[9, 0, 0, 1, 2, 3], 6, 100, false, false⟩, 0, false, 0⟩ := by decide +kernel

/-- To the left, with room for four characters. -/
example : (insert (A := Nat) ⟨⟨[9, 9], 1, 5, false, false⟩, 6, true, 0⟩ [[1, 2], [3]]).out =
    ⟨[9, 1, 2, 3, 0], 5, 5, false, true⟩ := by decide +kernel

/-- C204, otherwise: a stream that is not in order stays as it is and is marked bad. -/
theorem insert_dead {f : Fmt A} (pieces : List (List A)) (h : f.out.good = false) :
    insert f pieces = { f with out := { f.out with fail := true, bad := true } } := by
  have hs : outSentry f.out = (false, { f.out with fail := true }) := by
    unfold outSentry; rw [if_neg (by simp [h])]
  unfold insert
  simp only [hs]

example : (⟨[1], 1, 5, true, false⟩ : Out Nat).good = false := rfl

/-- C204: how a string is stored does not matter. -/
theorem insert_pieces {f : Fmt A} {ps qs : List (List A)} (h : ps.flatten = qs.flatten)
    (hp : f.out.pos ≤ f.out.text.length) (hc : f.out.pos ≤ f.out.cap) :
    (insert f ps).out.text = (insert f qs).out.text ∧ (insert f ps).out.pos = (insert f qs).out.pos ∧
      (insert f ps).out.bad = (insert f qs).out.bad ∧ (insert f ps).width = (insert f qs).width := by
  by_cases hg : f.out.good = true
  · obtain ⟨a1, a2, a3, _, a5⟩ := insert_correct ps hg hp hc
    obtain ⟨b1, b2, b3, _, b5⟩ := insert_correct qs hg hp hc
    rw [a1, a2, a3, a5, b1, b2, b3, b5, h]
    exact ⟨rfl, rfl, rfl, rfl⟩
  · rw [insert_dead ps (by simpa using hg), insert_dead qs (by simpa using hg)]
    exact ⟨rfl, rfl, rfl, rfl⟩

example : [[1, 2], [3]].flatten = [[1], [], [2, 3]].flatten := rfl

end ELC.Insert
