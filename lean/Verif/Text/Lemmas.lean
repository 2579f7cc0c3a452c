import Verif.Text.Spec
import Verif.StrEdit.Props
import Verif.StrCmp.Props
import Verif.Search.Props
import Verif.Compare.Props
/-! Lemmas about strings. -/
namespace ELC.Text
open Hash Str Str.Spec StrEdit StrEdit.Spec StrCmp StrCmp.Spec Compare Compare.Spec Spec

section
variable {A : Type} {hc : A → Word}

theorem share_chars (n : Node A) : chars (share n) = chars n := by cases n <;> rfl

theorem share_uniq (n : Node A) : (share n).uniq = false := by cases n <;> rfl

theorem share_wf {n : Node A} (w : WF hc n) : WF hc (share n) := by
  cases n <;> exact w

theorem share_size (n : Node A) : (share n).size = n.size := by cases n <;> rfl

variable [Inhabited A] [DecidableEq A] {gold : Nat → Nat} {th : Nat}

theorem size_text {t : Text A} (o : Ok hc t) : t.size = (text t).length := by
  cases t with
  | lit m => rfl
  | chr a => rfl
  | node n => exact size_eq hc n o

theorem fin_ok {t : Text A} (o : Ok hc t) (b : Bool) :
    WF hc (fin hc b t) ∧ chars (fin hc b t) = text t := by
  cases t with
  | lit m =>
    cases b
    · refine ⟨?_, rfl⟩
      intro w h
      simp only [Option.some.injEq] at h
      rw [← h, hashArray_hashOf]
    · exact ⟨cacheOk_fresh _ _, rfl⟩
  | chr a => exact ⟨cacheOk_fresh _ _, rfl⟩
  | node n => exact ⟨o, rfl⟩

theorem fcc_ok {t : Text A} (o : Ok hc t) :
    Ok hc (fullCopyCheck hc th t) ∧ text (fullCopyCheck hc th t) = text t := by
  unfold fullCopyCheck
  split
  · exact fin_ok o false
  · exact ⟨o, rfl⟩

/-- The result is a string in order with the characters `l`. -/
def Has (hc : A → Word) (r : Option (Text A)) (l : List A) : Prop :=
  ∃ t, r = some t ∧ Ok hc t ∧ text t = l

theorem Has.of {r : Option (Node A)} {l : List A} (g : ∃ n, r = some n ∧ WF hc n ∧ chars n = l) :
    Has hc (r.map .node) l := by
  obtain ⟨n, rfl, w, e⟩ := g
  exact ⟨.node n, rfl, w, e⟩

theorem Has.bind {r : Option (Text A)} {l l' : List A} {f : Text A → Option (Text A)} (g : Has hc r l)
    (h : ∀ t, Ok hc t → text t = l → Has hc (f t) l') : Has hc (r.bind f) l' := by
  obtain ⟨t, rfl, w, e⟩ := g
  exact h t w e

theorem Has.congr {r : Option (Text A)} {l l' : List A} (g : Has hc r l) (h : l = l') : Has hc r l' :=
  h ▸ g

theorem substr_ok {t : Text A} (o : Ok hc t) {b : Nat} (s : Nat) (hb : b ≤ (text t).length) :
    Has hc (substr hc t b s) (((text t).drop b).take s) := by
  unfold substr
  dsimp only
  rw [size_text o, wsub_eq hb]
  obtain ⟨w, e⟩ := fin_ok (hc := hc) o false
  have hm : ((text t).drop b).take s = ((text t).drop b).take (min s ((text t).length - b)) := by
    rcases Nat.le_total s ((text t).length - b) with h | h
    · rw [Nat.min_eq_left h]
    · rw [Nat.min_eq_right h, List.take_of_length_le (by simp; omega),
        List.take_of_length_le (by simp)]
  split
  · refine .of ?_
    rw [hm, ← e]
    exact getSubstr_ok hc _ w b _ (by rw [e]; omega)
  · rename_i h
    refine ⟨_, rfl, trivial, ?_⟩
    rw [hm, show min s ((text t).length - b) = 0 by omega]
    rfl

theorem pushBackV_ok (hg : ∀ n, n ≤ gold n) {t : Text A} (o : Ok hc t) (str : List A) :
    Has hc (pushBackV hc gold t str) (text t ++ str) := by
  obtain ⟨w, e⟩ := fin_ok (hc := hc) o false
  exact .of (e ▸ endV_ok hg str _ w)

theorem pushFrontV_ok (hg : ∀ n, n ≤ gold n) {t : Text A} (o : Ok hc t) (str : List A) :
    Has hc (pushFrontV hc gold t str) (str ++ text t) := by
  obtain ⟨w, e⟩ := fin_ok (hc := hc) o false
  exact .of (e ▸ beginV_ok hg str _ w)

theorem beginSelf_iff {v : List A} {m : Node A} (hv : v ≠ []) :
    beginSelf v m = true ↔ GrowsAtFront m := by
  have : v.length ≠ 0 := fun h => hv (List.length_eq_zero_iff.mp h)
  cases m <;> simp [beginSelf, GrowsAtFront, this]

theorem endSelf_iff {v : List A} {m : Node A} (w : WF hc m) (hv : v ≠ []) :
    endSelf v m = true ↔ GrowsAtBack m := by
  have : v.length ≠ 0 := fun h => hv (List.length_eq_zero_iff.mp h)
  cases m with
  | substr h t b s => simp [endSelf, GrowsAtBack, this, size_eq hc t w.1]
  | _ => simp [endSelf, GrowsAtBack, this]

theorem short_fcc {t : Text A} {v : List A} (h : short (fullCopyCheck hc th t) = some v) :
    Short t ∧ text t = v ∧ (text t).length < th ∧ fullCopyCheck hc th t = t := by
  unfold fullCopyCheck at h ⊢
  split at h
  · simp [short] at h
  · rename_i h'
    rw [if_neg h']
    cases t with
    | lit m => simp only [short, Option.some.injEq] at h; subst h
               exact ⟨trivial, rfl, by simpa [Text.size, text] using h', rfl⟩
    | chr a => simp only [short, Option.some.injEq] at h; subst h
               exact ⟨trivial, rfl, by simpa [Text.size, text] using h', rfl⟩
    | node n => simp [short] at h

theorem node_fcc {t : Text A} {n : Node A} (h : fullCopyCheck hc th t = .node n) :
    ¬ Short t ∨ th ≤ t.size := by
  unfold fullCopyCheck at h
  split at h
  · right; assumption
  · subst h; exact .inl id

/-- A short operand that got a node does not grow in place. -/
theorem node_fcc_eq {t : Text A} {n : Node A} (h : fullCopyCheck hc th t = .node n) :
    t = .node n ∨ (¬ GrowsAtFront n ∧ ¬ GrowsAtBack n) := by
  unfold fullCopyCheck at h
  split at h
  · cases t with
    | lit m => simp only [fin, Text.node.injEq] at h; subst h; exact .inr ⟨id, id⟩
    | chr a => simp only [fin, Text.node.injEq] at h; subst h; exact .inr ⟨id, id⟩
    | node m => simp only [fin, Text.node.injEq] at h; subst h; exact .inl rfl
  · exact .inl h

theorem not_takesOver_of_node {P : Node A → Prop} {t str : Text A} {n : Node A} (o : Ok hc t)
    (h : fullCopyCheck hc th t = .node n) : ¬ TakesOver P th t str := by
  rintro ⟨h1, _, h3, _⟩
  rcases node_fcc h with h' | h'
  · exact h' h1
  · rw [size_text o] at h'; omega

/-- What a push with another string gives: the string, and the operand. -/
def HasBoth (hc : A → Word) (r : Option (Text A × Text A)) (l : List A) (T : Prop) (s : List A) : Prop :=
  ∃ t a, r = some (t, a) ∧ (Ok hc t ∧ text t = l) ∧ Ok hc a ∧ (T → text a = l) ∧ (¬ T → text a = s)

theorem pushBack_ok (hg : ∀ n, n ≤ gold n) {t str : Text A} (o : Ok hc t) (os : Ok hc str) :
    HasBoth hc (pushBack hc gold th t str) (text t ++ text str) (TakesOver GrowsAtFront th t str)
      (text str) := by
  obtain ⟨o1, e1⟩ := fcc_ok (th := th) o
  obtain ⟨o2, e2⟩ := fcc_ok (th := th) os
  unfold pushBack
  split
  · rename_i n m hn hm
    rw [hn] at o1 e1; rw [hm] at o2 e2
    obtain ⟨r, er, wr, cr⟩ := endP_ok (str := share m) hg (share_wf (hc := hc) o2) n o1
    refine ⟨.node r, .node (share m), by rw [er]; rfl, ⟨wr, ?_⟩, share_wf (hc := hc) o2, ?_, fun _ => ?_⟩
    · rw [text, cr, share_chars, ← e1, ← e2]; rfl
    · exact fun h => absurd h (not_takesOver_of_node o hn)
    · rw [text, share_chars, ← e2]; rfl
  · rename_i m hm hnn
    cases hs : short (fullCopyCheck hc th t) with
    | none => cases h : fullCopyCheck hc th t with
      | node n => exact (hnn n h).elim
      | _ => simp [h, short] at hs
    | some v =>
      rw [Option.bind_some]
      obtain ⟨h1, h2, h3, h4⟩ := short_fcc hs
      rw [hm] at o2 e2
      split
      · rename_i hb
        obtain ⟨r, er, wr, cr⟩ := beginV_ok (hc := hc) hg v m o2
        refine ⟨.node (share r), .node (share r), by rw [er]; rfl, ⟨share_wf (hc := hc) wr, ?_⟩, share_wf (hc := hc) wr, fun _ => ?_,
          fun h => ?_⟩
        · rw [text, share_chars, cr, h2, ← e2]; rfl
        · rw [text, share_chars, cr, h2, ← e2]; rfl
        · rw [text, share_chars, cr, ← e2]
          by_cases hv : v = []
          · rw [hv]; rfl
          · rcases node_fcc_eq hm with he | he
            · exact absurd ⟨h1, h2 ▸ hv, h3, m, he, (beginSelf_iff hv).mp hb⟩ h
            · exact absurd ((beginSelf_iff hv).mp hb) he.1
      · rename_i hb
        obtain ⟨r, er, wr, cr⟩ := beginV_ok (hc := hc) hg v (share m) (share_wf (hc := hc) o2)
        refine ⟨.node r, .node (share m), by rw [er]; rfl, ⟨wr, ?_⟩, share_wf (hc := hc) o2, ?_, fun _ => ?_⟩
        · rw [text, cr, share_chars, h2, ← e2]; rfl
        · rintro ⟨_, hv, _, m', he, hp⟩
          rcases node_fcc_eq hm with he' | he'
          · rw [he] at he'; cases he'
            exact absurd ((beginSelf_iff (h2 ▸ hv)).mpr hp) hb
          · have : m' = m := by
              rw [he] at hm; unfold fullCopyCheck at hm
              split at hm <;> simpa [fin] using hm
            exact absurd (this ▸ hp) he'.1
        · rw [text, share_chars, ← e2]; rfl
  · rename_i hnn _
    cases hs : short (fullCopyCheck hc th str) with
    | none => cases h : fullCopyCheck hc th str with
      | node n => exact (hnn n h).elim
      | _ => simp [h, short] at hs
    | some v =>
      rw [Option.bind_some]
      obtain ⟨h1, h2, h3, h4⟩ := short_fcc hs
      obtain ⟨r, er, wr, cr⟩ := pushBackV_ok hg o1 v
      refine ⟨_, _, by rw [er]; rfl, ⟨wr, ?_⟩, o2, ?_, fun _ => e2⟩
      · rw [cr, e1, h2]
      · rintro ⟨_, _, _, m, he, _⟩
        rw [he] at h1; exact absurd h1 id

theorem pushFront_ok (hg : ∀ n, n ≤ gold n) {t str : Text A} (o : Ok hc t) (os : Ok hc str) :
    HasBoth hc (pushFront hc gold th t str) (text str ++ text t) (TakesOver GrowsAtBack th t str)
      (text str) := by
  obtain ⟨o1, e1⟩ := fcc_ok (th := th) o
  obtain ⟨o2, e2⟩ := fcc_ok (th := th) os
  unfold pushFront
  split
  · rename_i n m hn hm
    rw [hn] at o1 e1; rw [hm] at o2 e2
    obtain ⟨r, er, wr, cr⟩ := beginP_ok (str := share m) hg (share_wf (hc := hc) o2) n o1
    refine ⟨.node r, .node (share m), by rw [er]; rfl, ⟨wr, ?_⟩, share_wf (hc := hc) o2, ?_, fun _ => ?_⟩
    · rw [text, cr, share_chars, ← e1, ← e2]; rfl
    · exact fun h => absurd h (not_takesOver_of_node o hn)
    · rw [text, share_chars, ← e2]; rfl
  · rename_i m hm hnn
    cases hs : short (fullCopyCheck hc th t) with
    | none => cases h : fullCopyCheck hc th t with
      | node n => exact (hnn n h).elim
      | _ => simp [h, short] at hs
    | some v =>
      rw [Option.bind_some]
      obtain ⟨h1, h2, h3, h4⟩ := short_fcc hs
      rw [hm] at o2 e2
      split
      · rename_i hb
        obtain ⟨r, er, wr, cr⟩ := endV_ok (hc := hc) hg v m o2
        refine ⟨.node (share r), .node (share r), by rw [er]; rfl, ⟨share_wf (hc := hc) wr, ?_⟩, share_wf (hc := hc) wr, fun _ => ?_,
          fun h => ?_⟩
        · rw [text, share_chars, cr, h2, ← e2]; rfl
        · rw [text, share_chars, cr, h2, ← e2]; rfl
        · rw [text, share_chars, cr, ← e2]
          by_cases hv : v = []
          · rw [hv, List.append_nil]; rfl
          · rcases node_fcc_eq hm with he | he
            · exact absurd ⟨h1, h2 ▸ hv, h3, m, he, (endSelf_iff (hc := hc) o2 hv).mp hb⟩ h
            · exact absurd ((endSelf_iff (hc := hc) o2 hv).mp hb) he.2
      · rename_i hb
        obtain ⟨r, er, wr, cr⟩ := endV_ok (hc := hc) hg v (share m) (share_wf (hc := hc) o2)
        refine ⟨.node r, .node (share m), by rw [er]; rfl, ⟨wr, ?_⟩, share_wf (hc := hc) o2, ?_, fun _ => ?_⟩
        · rw [text, cr, share_chars, h2, ← e2]; rfl
        · rintro ⟨_, hv, _, m', he, hp⟩
          rcases node_fcc_eq hm with he' | he'
          · rw [he] at he'; cases he'
            exact absurd ((endSelf_iff (hc := hc) o2 (h2 ▸ hv)).mpr hp) hb
          · have : m' = m := by
              rw [he] at hm; unfold fullCopyCheck at hm
              split at hm <;> simpa [fin] using hm
            exact absurd (this ▸ hp) he'.2
        · rw [text, share_chars, ← e2]; rfl
  · rename_i hnn _
    cases hs : short (fullCopyCheck hc th str) with
    | none => cases h : fullCopyCheck hc th str with
      | node n => exact (hnn n h).elim
      | _ => simp [h, short] at hs
    | some v =>
      rw [Option.bind_some]
      obtain ⟨h1, h2, h3, h4⟩ := short_fcc hs
      obtain ⟨r, er, wr, cr⟩ := pushFrontV_ok hg o1 v
      refine ⟨_, _, by rw [er]; rfl, ⟨wr, ?_⟩, o2, ?_, fun _ => e2⟩
      · rw [cr, e1, h2]
      · rintro ⟨_, _, _, m, he, _⟩
        rw [he] at h1; exact absurd h1 id

theorem pushBackMove_ok (hg : ∀ n, n ≤ gold n) {t str : Text A} (o : Ok hc t) (os : Ok hc str) :
    Has hc (pushBackMove hc gold th t str) (text t ++ text str) := by
  obtain ⟨o1, e1⟩ := fcc_ok (th := th) o
  obtain ⟨o2, e2⟩ := fcc_ok (th := th) os
  unfold pushBackMove
  split
  · rename_i n m hn hm
    rw [hn] at o1 e1; rw [hm] at o2 e2
    rw [← e1, ← e2]
    exact .of (endP_ok hg o2 n o1)
  · rename_i m hm hnn
    cases hs : short (fullCopyCheck hc th t) with
    | none => cases h : fullCopyCheck hc th t with
      | node n => exact (hnn n h).elim
      | _ => simp [h, short] at hs
    | some v =>
      obtain ⟨h1, h2, h3, h4⟩ := short_fcc hs
      rw [hm] at o2 e2
      rw [Option.bind_some, h2, ← e2]
      exact .of (beginV_ok (hc := hc) hg v m o2)
  · rename_i hnn _
    cases hs : short (fullCopyCheck hc th str) with
    | none => cases h : fullCopyCheck hc th str with
      | node n => exact (hnn n h).elim
      | _ => simp [h, short] at hs
    | some v =>
      obtain ⟨h1, h2, h3, h4⟩ := short_fcc hs
      rw [Option.bind_some, h2, ← e1]
      exact pushBackV_ok hg o1 v

theorem pushRun_ok (hg : ∀ n, n ≤ gold n) {t : Text A} (o : Ok hc t) (ch : A) (count : Nat) :
    Has hc (pushBackRun hc gold t ch count) (text t ++ List.replicate count ch) ∧
    Has hc (pushFrontRun hc gold t ch count) (List.replicate count ch ++ text t) := by
  obtain ⟨w, e⟩ := fin_ok (hc := hc) o false
  have ws : WF hc (Node.same ⟨false, none⟩ count ch) := by intro w h; simp at h
  constructor
  · unfold pushBackRun
    split
    · rename_i h; subst h; exact ⟨t, rfl, o, by simp⟩
    · exact .of (e ▸ endP_ok hg ws _ w)
  · unfold pushFrontRun
    split
    · rename_i h; subst h; exact ⟨t, rfl, o, by simp⟩
    · exact .of (e ▸ beginP_ok hg ws _ w)

theorem plusV_ok (hg : ∀ n, n ≤ gold n) {t : Text A} (o : Ok hc t) (str : List A) :
    Has hc (plusV hc gold t str) (text t ++ str) ∧ Has hc (vPlus hc gold str t) (str ++ text t) := by
  obtain ⟨w, e⟩ := fin_ok (hc := hc) o false
  rw [← e, ← share_chars]
  exact ⟨.of (endV_ok hg str _ (share_wf (hc := hc) w)), .of (beginV_ok hg str _ (share_wf (hc := hc) w))⟩

theorem plus_ok (hg : ∀ n, n ≤ gold n) {t str : Text A} (o : Ok hc t) (os : Ok hc str) :
    Has hc (plus hc gold th t str) (text t ++ text str) := by
  obtain ⟨w, e⟩ := fin_ok (hc := hc) o false
  obtain ⟨o2, e2⟩ := fcc_ok (th := th) os
  unfold plus
  split
  · rename_i m hm
    rw [hm] at o2 e2
    rw [← e, ← e2, text, ← share_chars (fin hc false t), ← share_chars m]
    exact .of (endP_ok hg (share_wf (hc := hc) o2) _ (share_wf (hc := hc) w))
  · rename_i hnn
    cases hs : short (fullCopyCheck hc th str) with
    | none => cases h : fullCopyCheck hc th str with
      | node n => exact (hnn n h).elim
      | _ => simp [h, short] at hs
    | some v =>
      obtain ⟨h1, h2, h3, h4⟩ := short_fcc hs
      rw [Option.bind_some, h2]
      exact (plusV_ok hg o v).1

theorem selfAdd_ok (hg : ∀ n, n ≤ gold n) {t : Text A} (o : Ok hc t) (h : ¬ OneChar t ∨ th ≤ 1) :
    Has hc (plusSelf hc gold th t) (text t ++ text t) ∧
    Has hc (pushBackSelf hc gold th t) (text t ++ text t) := by
  obtain ⟨o2, e2⟩ := fcc_ok (th := th) o
  unfold plusSelf pushBackSelf
  cases hm : fullCopyCheck hc th t with
  | node m =>
    rw [hm] at o2 e2
    have : Has hc ((endP gold (share m) (share m)).map Text.node) (text t ++ text t) := by
      rw [← e2, text, ← share_chars m]
      exact .of (endP_ok hg (share_wf (hc := hc) o2) _ (share_wf (hc := hc) o2))
    exact ⟨this, this⟩
  | lit m =>
    rw [hm] at o2 e2
    rw [← e2]
    exact ⟨(plusV_ok hg o2 m).1, pushBackV_ok hg o2 m⟩
  | chr a =>
    exfalso
    have hs : short (fullCopyCheck hc th t) = some [a] := by rw [hm]; rfl
    obtain ⟨h1, h2, h3, h4⟩ := short_fcc hs
    rw [h4] at hm
    subst hm
    simp [OneChar, text] at h h3
    omega

omit [DecidableEq A] in
theorem selfAdd_none {t : Text A} (h1 : OneChar t) (h2 : 1 < th) :
    plusSelf hc gold th t = none ∧ pushBackSelf hc gold th t = none := by
  cases t with
  | chr a =>
    have : fullCopyCheck hc th (Text.chr a) = .chr a := by
      unfold fullCopyCheck; rw [if_neg]; simp [Text.size]; omega
    simp [plusSelf, pushBackSelf, this]
  | _ => exact absurd h1 id

end
end ELC.Text
