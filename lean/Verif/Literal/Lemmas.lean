import Verif.Literal.Model
import Verif.Literal.Spec
import Verif.Ubig.Props
import Verif.Numeral.Frac
namespace ELC.Literal
open Spec ELC.Ubig.Spec
open ELC.Numeral.Spec (positional)
open ELC.Bigfloat ELC.Bigfloat.Spec

/-- The bases of literals. -/
def IsBase (b : Nat) : Prop := b = 2 ∨ b = 8 ∨ b = 10 ∨ b = 16

theorem hexval_digitOf {c d : Nat} (h : digitOf c = some d) : hexval c = d ∧ d < 16 ∧ c ≠ 39 ∧ c ≠ 46 ∧ 48 ≤ c := by
  unfold digitOf at h
  unfold hexval
  split at h
  · injection h with h
    rw [if_neg (by omega), if_neg (by omega)]
    omega
  · split at h
    · injection h with h
      rw [if_pos (by omega)]
      omega
    · split at h
      · injection h with h
        rw [if_neg (by omega), if_pos (by omega)]
        omega
      · cases h

theorem charOk_iff {base c : Nat} : charOk base c = true ↔ ∃ d, digitOf c = some d ∧ d < base := by
  constructor
  · intro h
    simp only [charOk, Bool.and_eq_true, Bool.or_eq_true, decide_eq_true_eq] at h
    have : ∃ d, digitOf c = some d := by
      unfold digitOf
      split
      · exact ⟨_, rfl⟩
      · split
        · exact ⟨_, rfl⟩
        · split
          · exact ⟨_, rfl⟩
          · omega
    obtain ⟨d, hd⟩ := this
    exact ⟨d, hd, by rw [← (hexval_digitOf hd).1]; exact h.2⟩
  · rintro ⟨d, hd, hlt⟩
    simp only [charOk, Bool.and_eq_true, Bool.or_eq_true, decide_eq_true_eq]
    refine ⟨?_, by rw [(hexval_digitOf hd).1]; exact hlt⟩
    unfold digitOf at hd
    split at hd
    · omega
    · split at hd
      · omega
      · split at hd
        · omega
        · cases hd

theorem scale_step {b k : Nat} (hb : IsBase b) (hk : b ^ k < 2 ^ 64) :
    (b ^ (k + 1) < 2 ^ 64 ∧ ¬ b ^ k > b ^ (k + 1) % 2 ^ 64) ∨ (b ^ (k + 1) ≥ 2 ^ 64 ∧ b ^ k > b ^ (k + 1) % 2 ^ 64) := by
  have hlt : k < 64 := by
    by_contra h
    have h1 : 2 ^ 64 ≤ 2 ^ k := Nat.pow_le_pow_right (by decide) (by omega)
    have h2 : 2 ^ k ≤ b ^ k := Nat.pow_le_pow_left (by rcases hb with h | h | h | h <;> omega) k
    omega
  have key : ∀ b ∈ [2, 8, 10, 16], ∀ k < 64, b ^ k < 2 ^ 64 →
    (b ^ (k + 1) < 2 ^ 64 ∧ ¬ b ^ k > b ^ (k + 1) % 2 ^ 64) ∨
      (b ^ (k + 1) ≥ 2 ^ 64 ∧ b ^ k > b ^ (k + 1) % 2 ^ 64) := by decide +kernel
  exact key b (by rcases hb with h | h | h | h <;> simp [h]) k hlt hk

theorem scale_le {b k : Nat} (hb : IsBase b) (hk : b ^ k < 2 ^ 64) : b ^ k ≤ 10 ^ 19 := by
  have hlt : k < 64 := by
    by_contra h
    have h1 : 2 ^ 64 ≤ 2 ^ k := Nat.pow_le_pow_right (by decide) (by omega)
    have h2 : 2 ^ k ≤ b ^ k := Nat.pow_le_pow_left (by rcases hb with h | h | h | h <;> omega) k
    omega
  have key : ∀ b ∈ [2, 8, 10, 16], ∀ k < 64, b ^ k < 2 ^ 64 → b ^ k ≤ 10 ^ 19 := by decide +kernel
  exact key b (by rcases hb with h | h | h | h <;> simp [h]) k hlt hk

theorem ofNativeLoop_length {w : Nat} : ∀ (s v : Nat) (l : List Nat), Ubig.ofNativeLoop w s v = some l → l.length ≤ s := by
  intro s
  induction s with
  | zero =>
    intro v l h
    cases v with
    | zero => simp [Ubig.ofNativeLoop] at h; subst h; simp
    | succ v => simp [Ubig.ofNativeLoop] at h
  | succ s ih =>
    intro v l h
    cases v with
    | zero => simp [Ubig.ofNativeLoop] at h; subst h; simp
    | succ v =>
      rw [Ubig.ofNativeLoop, Option.map_eq_some_iff] at h
      obtain ⟨l', h1, rfl⟩ := h
      have := ih _ _ h1
      simpa using this

/-- What the iterator holds after reading digits worth `n`. -/
def Inv (w base : Nat) (a : Acc) (n : Nat) : Prop :=
  ∃ V k, Stores w a.digits V ∧ a.scale = base ^ k ∧ base ^ k < 2 ^ 64 ∧ a.block < base ^ k ∧ V * base ^ k + a.block = n

theorem flush_spec {w base : Nat} (hw : 2 ≤ w) (hb : IsBase base) {a : Acc} {n : Nat} (h : Inv w base a n) :
    ∃ r, flush w a = some r ∧ Stores w r n := by
  obtain ⟨V, k, h1, h2, h3, h4, h5⟩ := h
  obtain ⟨s, e1, e2⟩ := Ubig.ofNative_stores (w := w) (by omega) 64 a.scale (by rw [h2]; exact h3)
  have hlen : s.length < 64 := by
    have := ofNativeLoop_length _ _ _ e1
    have h' : (64 + w - 1) / w < 64 := by
      rw [Nat.div_lt_iff_lt_mul (by omega)]; omega
    omega
  obtain ⟨p, f1, f2⟩ := Ubig.mul_small_correct h1 e2 (Or.inr hlen)
  have hle := scale_le hb h3
  obtain ⟨r, g1, g2⟩ := Ubig.add_native_partial (w := w) (t := 64) (by omega) f2 (n := a.block) (by
    by_cases hw2 : w ≤ 62
    · have h' : 2 ^ w ≤ 2 ^ 62 := Nat.pow_le_pow_right (by decide) hw2
      have h'' : 2 ^ 64 ≤ 2 ^ max 64 (2 * w) := Nat.pow_le_pow_right (by decide) (by omega)
      have : 10 ^ 19 + 2 ^ 62 ≤ 2 ^ 64 := by decide
      omega
    · have h' : 2 ^ max 64 (2 * w) = 2 ^ w * 2 ^ w := by rw [← pow_add]; congr 1; omega
      have h63 : 2 ^ 63 ≤ 2 ^ w := Nat.pow_le_pow_right (by decide) (by omega)
      rw [h']
      have : 10 ^ 19 ≤ 2 ^ 63 * 2 := by decide
      have : 2 ^ w * 4 ≤ 2 ^ w * 2 ^ w := Nat.mul_le_mul_left _ (by omega)
      omega)
  refine ⟨r, ?_, ?_⟩
  · simp only [flush, e1, Option.bind_some, f1, g1]
  · rw [h2, h5] at g2; exact g2

theorem step_spec {w base : Nat} (hw : 2 ≤ w) (hb : IsBase base) {a : Acc} {n c d : Nat} (h : Inv w base a n)
    (hc : digitOf c = some d) (hd : d < base) : ∃ a', step w base a c = some a' ∧ Inv w base a' (n * base + d) := by
  have hfl := flush_spec hw hb h
  obtain ⟨V, k, h1, h2, h3, h4, h5⟩ := h
  have hv := (hexval_digitOf hc).1
  have hpk : base ^ (k + 1) = base ^ k * base := pow_succ _ _
  unfold step
  rw [h2, ← hpk, hv]
  dsimp only
  rcases scale_step hb h3 with ⟨g1, g2⟩ | ⟨g1, g2⟩
  · rw [if_neg g2, Nat.mod_eq_of_lt g1]
    have hblk : a.block * base + d < base ^ (k + 1) := by
      rw [hpk]
      calc a.block * base + d < a.block * base + base := by omega
        _ = (a.block + 1) * base := by ring
        _ ≤ _ := Nat.mul_le_mul_right _ h4
    rw [Nat.mod_eq_of_lt (by omega)]
    refine ⟨_, rfl, V, k + 1, h1, rfl, g1, hblk, ?_⟩
    rw [← h5, hpk]; ring
  · rw [if_pos g2]
    obtain ⟨r, e1, e2⟩ := hfl
    rw [e1]
    refine ⟨_, rfl, n, 1, e2, (pow_one _).symm, ?_, ?_, ?_⟩
    · rcases hb with h | h | h | h <;> subst h <;> decide
    · rw [pow_one]; exact hd
    · rw [pow_one]

theorem inv_init (w : Nat) {base : Nat} : Inv w base ⟨[], 0, 1⟩ 0 :=
  ⟨0, 0, Ubig.stores_nil w, by simp, by simp, by simp, by simp⟩

theorem positional_foldl (base : Nat) (ds : List Nat) (n : Nat) :
    ds.foldl (fun v d => v * base + d) n = n * base ^ ds.length + positional base ds := by
  unfold positional
  induction ds generalizing n with
  | nil => simp
  | cons d ds ih =>
    simp only [List.foldl_cons, List.length_cons]
    rw [ih, ih (0 * base + d), pow_succ]; ring

theorem spells_cons {base c : Nat} {cs ds : List Nat} (h : Spells base (c :: cs) ds) :
    (c = 39 ∧ Spells base cs ds) ∨
      ∃ d ds', digitOf c = some d ∧ d < base ∧ c ≠ 39 ∧ ds = d :: ds' ∧ Spells base cs ds' := by
  obtain ⟨h1, h2⟩ := h
  by_cases hc : c = 39
  · left
    refine ⟨hc, ?_, h2⟩
    rw [List.filter_cons_of_neg (by simpa using hc)] at h1
    exact h1
  · right
    rw [List.filter_cons_of_pos (by simpa using hc), List.map_cons] at h1
    cases ds with
    | nil => cases h1
    | cons d ds =>
      rw [List.map_cons] at h1
      injection h1 with h3 h4
      exact ⟨d, ds, h3, h2 d (by simp), hc, rfl, h4, fun x hx => h2 x (by simp [hx])⟩

theorem run_spec {w base : Nat} (hw : 2 ≤ w) (hb : IsBase base) : ∀ (cs : List Nat) (a : Acc) (n : Nat) (ds : List Nat),
    Inv w base a n → Spells base cs ds →
    ∃ a', run w base cs a = some a' ∧ Inv w base a' (n * base ^ ds.length + positional base ds) := by
  intro cs
  induction cs with
  | nil =>
    intro a n ds h hs
    have : ds = [] := by
      have := hs.1
      simpa using this.symm
    subst this
    exact ⟨a, rfl, by simpa [positional] using h⟩
  | cons c cs ih =>
    intro a n ds h hs
    rcases spells_cons hs with ⟨hc, hs'⟩ | ⟨d, ds', hd, hlt, hc, rfl, hs'⟩
    · rw [run, if_pos hc]; exact ih a n ds h hs'
    · rw [run, if_neg hc, if_pos (charOk_iff.2 ⟨d, hd, hlt⟩)]
      obtain ⟨a', e1, e2⟩ := step_spec hw hb h hd hlt
      obtain ⟨a'', f1, f2⟩ := ih a' _ ds' e2 hs'
      refine ⟨a'', by rw [e1]; exact f1, ?_⟩
      have hp : positional base (d :: ds') = d * base ^ ds'.length + positional base ds' := by
        have := positional_foldl base ds' d
        rw [← this]; simp [positional]
      rw [hp, List.length_cons, pow_succ]
      have e : (n * base + d) * base ^ ds'.length + positional base ds' =
        n * (base ^ ds'.length * base) + (d * base ^ ds'.length + positional base ds') := by ring
      rw [e] at f2
      exact f2

theorem doEval_spec {w base : Nat} (hw : 2 ≤ w) (hb : IsBase base) {cs ds : List Nat} (h : Spells base cs ds) :
    ∃ r, doEval w base cs = some r ∧ Stores w r (positional base ds) := by
  obtain ⟨a, e1, e2⟩ := run_spec hw hb cs _ 0 ds (inv_init w) h
  rw [Nat.zero_mul, Nat.zero_add] at e2
  obtain ⟨r, f1, f2⟩ := flush_spec hw hb e2
  exact ⟨r, by rw [doEval, e1]; exact f1, f2⟩

/-- Only digits and separators get through. -/
theorem run_some {w base : Nat} : ∀ (cs : List Nat) (a a' : Acc), run w base cs a = some a' →
    ∃ ds, Spells base cs ds := by
  intro cs
  induction cs with
  | nil => intro a a' _; exact ⟨[], by simp [Spells]⟩
  | cons c cs ih =>
    intro a a' h
    rw [run] at h
    split at h
    · next hc =>
      obtain ⟨ds, h1, h2⟩ := ih _ _ h
      refine ⟨ds, ?_, h2⟩
      rw [List.filter_cons_of_neg (by simpa using hc)]; exact h1
    · next hc =>
      split at h
      · next ho =>
        rw [Option.bind_eq_some_iff] at h
        obtain ⟨a1, _, h3⟩ := h
        obtain ⟨ds, h1, h2⟩ := ih _ _ h3
        obtain ⟨d, hd, hlt⟩ := charOk_iff.1 ho
        refine ⟨d :: ds, ?_, ?_⟩
        · rw [List.filter_cons_of_pos (by simpa using hc), List.map_cons, h1, hd]; rfl
        · intro x hx
          rcases List.mem_cons.1 hx with rfl | hx
          · exact hlt
          · exact h2 x hx
      · cases h

theorem evalWithBase_spec {w d : Nat} (hw : 2 ≤ w) (hb : IsBase d) {cs : List Nat} {n : Nat} (h : Integer d cs n) :
    ∃ r, evalWithBase w d cs = some r ∧ Stores w r n := by
  cases h with
  | @hex x cs ds hx hs =>
    rcases hx with rfl | rfl <;> (rw [evalWithBase]; exact doEval_spec hw (by simp [IsBase]) hs)
  | @bin x cs ds hx hs =>
    rcases hx with rfl | rfl <;> (rw [evalWithBase]; exact doEval_spec hw (by simp [IsBase]) hs)
  | @oct cs ds hs =>
    have : evalWithBase w d (48 :: cs) = doEval w 8 cs := by
      cases cs with
      | nil => rfl
      | cons c cs =>
        have hc : c ≠ 120 ∧ c ≠ 88 ∧ c ≠ 98 ∧ c ≠ 66 := by
          rcases spells_cons hs with ⟨hc, _⟩ | ⟨e, _, he, hlt, _, _, _⟩
          · omega
          · refine ⟨?_, ?_, ?_, ?_⟩ <;> rintro rfl <;> simp [digitOf] at he <;> omega
        unfold evalWithBase
        split <;> simp_all
    rw [this]
    exact doEval_spec hw (by simp [IsBase]) hs
  | @plain cs ds hh hs =>
    have : evalWithBase w d cs = doEval w d cs := by
      unfold evalWithBase
      split <;> simp_all
    rw [this]
    exact doEval_spec hw hb hs

theorem evalSigned_spec {w d : Nat} (hw : 2 ≤ w) (hb : IsBase d) {cs : List Nat} {z : Int} (h : Exponent d cs z) :
    evalSigned w d cs = some z := by
  cases h with
  | @pos cs n hh hi =>
    obtain ⟨r, e1, e2⟩ := evalWithBase_spec hw hb hi
    have : evalSigned w d cs = (evalWithBase w d cs).map fun r => (val w r : Int) := by
      unfold evalSigned
      split <;> simp_all
    rw [this, e1, Option.map_some, e2.3]
  | @neg cs n hi =>
    obtain ⟨r, e1, e2⟩ := evalWithBase_spec hw hb hi
    rw [evalSigned, e1, Option.map_some, e2.3]

/-! ### fractions -/

/-- Reading digits, up to the end, a point or an exponent. -/
theorem runFloat_digits {w base e : Nat} (hw : 2 ≤ w) (hb : IsBase base) (he : base ≤ 14 ∨ 103 ≤ e)
    (he' : 101 ≤ e ∧ e ≤ 122) {pointed : Bool} : ∀ (cs : List Nat) (a : Acc) (n : Nat) (ds : List Nat) (z : Int)
    (rest : List Nat), Inv w base a n → Spells base cs ds →
    ∃ a', runFloat w base e pointed (cs ++ rest) a z =
        runFloat w base e pointed rest a' (if pointed then z - ds.length else z) ∧
      Inv w base a' (n * base ^ ds.length + positional base ds) := by
  intro cs
  induction cs with
  | nil =>
    intro a n ds z rest h hs
    have : ds = [] := by
      have := hs.1
      simpa using this.symm
    subst this
    exact ⟨a, by simp, by simpa [positional] using h⟩
  | cons c cs ih =>
    intro a n ds z rest h hs
    rcases spells_cons hs with ⟨hc, hs'⟩ | ⟨d, ds', hd, hlt, hc, rfl, hs'⟩
    · rw [List.cons_append, runFloat, if_neg (by omega), if_neg (by omega), if_pos hc]; exact ih a n ds z rest h hs'
    · obtain ⟨a', e1, e2⟩ := step_spec hw hb h hd hlt
      obtain ⟨a'', f1, f2⟩ := ih a' _ ds' (if pointed then z - 1 else z) rest e2 hs'
      have hne : ¬ (c = e ∨ c + 32 = e) := by
        unfold digitOf at hd
        split at hd
        · omega
        · split at hd
          · injection hd with hd
            omega
          · split at hd
            · injection hd with hd
              omega
            · cases hd
      have hge := hexval_digitOf hd
      refine ⟨a'', ?_, ?_⟩
      · rw [List.cons_append, runFloat, if_neg hge.2.2.2.1, if_neg hne, if_neg hc,
          if_pos (charOk_iff.2 ⟨d, hd, hlt⟩), e1, Option.bind_some, f1]
        congr 1
        cases pointed
        · simp
        · simp only [if_true, List.length_cons]; push_cast; omega
      · have hp : positional base (d :: ds') = d * base ^ ds'.length + positional base ds' := by
          have := positional_foldl base ds' d
          rw [← this]; simp [positional]
        rw [hp, List.length_cons, pow_succ]
        have e : (n * base + d) * base ^ ds'.length + positional base ds' =
          n * (base ^ ds'.length * base) + (d * base ^ ds'.length + positional base ds') := by ring
        rw [e] at f2
        exact f2

theorem base_ne {base : Nat} (hb : IsBase base) : (base : ℚ) ≠ 0 := by
  rcases hb with h | h | h | h <;> subst h <;> norm_num

/-- Reading a mantissa. -/
theorem runFloat_mantissa {w base e : Nat} (hw : 2 ≤ w) (hb : IsBase base) (he : base ≤ 14 ∨ 103 ≤ e)
    (he' : 101 ≤ e ∧ e ≤ 122) {m : List Nat} {q : ℚ} (h : Mantissa base m q) (rest : List Nat) :
    ∃ p a n z, runFloat w base e false (m ++ rest) ⟨[], 0, 1⟩ 0 = runFloat w base e p rest a z ∧ Inv w base a n ∧
      (n : ℚ) * (base : ℚ) ^ z = q := by
  cases h with
  | @int cs ds hs =>
    obtain ⟨a, e1, e2⟩ := runFloat_digits (e := e) (pointed := false) hw hb he he' m _ 0 ds 0 rest (inv_init w) hs
    refine ⟨false, a, _, _, e1, e2, ?_⟩
    simp
  | @point s t ds es hs ht =>
    obtain ⟨a, e1, e2⟩ := runFloat_digits (e := e) (pointed := false) hw hb he he' s _ 0 ds 0 (46 :: (t ++ rest))
      (inv_init w) hs
    obtain ⟨a', f1, f2⟩ := runFloat_digits (e := e) (pointed := true) hw hb he he' t a _ es 0 rest e2 ht
    refine ⟨true, a', _, (if true = true then 0 - (es.length : ℤ) else 0), ?_, f2, ?_⟩
    · rw [List.append_assoc, List.cons_append, e1, runFloat, if_pos rfl, if_neg (by simp)]
      simp only [Bool.false_eq_true, if_false]
      exact f1
    · have hne := base_ne hb
      have hp : (base : ℚ) ^ es.length ≠ 0 := pow_ne_zero _ hne
      simp only [if_true, zero_sub, zpow_neg, zpow_natCast]
      push_cast
      field_simp
      ring

theorem powFrac_spec {base : Nat} (hb : 0 < base) (z : ℤ) : uvalue (Numeral.powFrac base z) = (base : ℚ) ^ z ∧
    Finite (Numeral.powFrac base z) := by
  have hne : (base : ℚ) ^ z.natAbs ≠ 0 := pow_ne_zero _ (by exact_mod_cast (by omega : base ≠ 0))
  have hpos := Nat.pow_pos (n := z.natAbs) hb
  unfold Numeral.powFrac
  split
  · next hz =>
    constructor
    · have e : z = -(z.natAbs : ℤ) := by omega
      conv_rhs => rw [e, zpow_neg, zpow_natCast]
      simp [uvalue, UFrac.div, UFrac.ofNat]
    · simp [Bigfloat.Spec.Finite, UFrac.div, UFrac.ofNat]; omega
  · next hz =>
    constructor
    · have e : z = (z.natAbs : ℤ) := by omega
      conv_rhs => rw [e, zpow_natCast]
      simp [uvalue, UFrac.ofNat]
    · simp [Bigfloat.Spec.Finite, UFrac.ofNat]

theorem doEvalFloat_spec {w base e : Nat} (hw : 2 ≤ w) (hb : IsBase base) (he : base ≤ 14 ∨ 103 ≤ e)
    (he' : 101 ≤ e ∧ e ≤ 122) {cs : List Nat} {q : ℚ} (h : Body base e cs q) :
    ∃ u, doEvalFloat w base e cs = some u ∧ uvalue u = q ∧ Finite u := by
  have fin : ∀ (a : Acc) (n : Nat) (z : Int), runFloat w base e false cs ⟨[], 0, 1⟩ 0 = some (a, z) → Inv w base a n →
      ∃ u, doEvalFloat w base e cs = some u ∧ uvalue u = (n : ℚ) * (base : ℚ) ^ z ∧ Finite u := by
    intro a n z h1 h2
    obtain ⟨r, e1, e2⟩ := flush_spec hw hb h2
    obtain ⟨p1, p2⟩ := powFrac_spec (base := base) (by rcases hb with h | h | h | h <;> omega) z
    refine ⟨_, by rw [doEvalFloat, h1, Option.bind_some]; dsimp only; rw [e1, Option.map_some, e2.3], ?_, ?_⟩
    · rw [← p1]
      simp only [uvalue, UFrac.mulAssign, UFrac.ofNat, UFrac.seen]
      push_cast
      simp [mul_div_assoc]
    · simpa [Bigfloat.Spec.Finite, UFrac.mulAssign, UFrac.ofNat, UFrac.seen] using p2
  cases h with
  | @plain m q hm =>
    obtain ⟨p, a, n, z, e1, e2, e3⟩ := runFloat_mantissa hw hb he he' hm []
    rw [List.append_nil, runFloat] at e1
    rw [← e3]
    exact fin a n z e1 e2
  | @exp m q x s z' hm hx hz =>
    obtain ⟨p, a, n, z, e1, e2, e3⟩ := runFloat_mantissa hw hb he he' hm (x :: s)
    rw [runFloat, if_neg (by omega), if_pos hx, evalSigned_spec hw hb hz, Option.map_some] at e1
    have hne := base_ne hb
    rw [← e3, mul_assoc, ← zpow_add₀ hne]
    exact fin a n _ e1 e2

theorem spells_mem {base : Nat} {cs ds : List Nat} (h : Spells base cs ds) {c : Nat} (hc : c ∈ cs) :
    c = 39 ∨ ∃ d, digitOf c = some d ∧ d < base := by
  induction cs generalizing ds with
  | nil => simp at hc
  | cons x cs ih =>
    rcases spells_cons h with ⟨hx, hs'⟩ | ⟨d, ds', hd, hlt, _, rfl, hs'⟩
    · rcases List.mem_cons.1 hc with rfl | hc
      · exact Or.inl hx
      · exact ih hs' hc
    · rcases List.mem_cons.1 hc with rfl | hc
      · exact Or.inr ⟨d, hd, hlt⟩
      · exact ih hs' hc

theorem mantissa_mem {base : Nat} {m : List Nat} {q : ℚ} (h : Mantissa base m q) {c : Nat} (hc : c ∈ m) :
    c = 39 ∨ c = 46 ∨ ∃ d, digitOf c = some d ∧ d < base := by
  cases h with
  | int hs => rcases spells_mem hs hc with h | h <;> simp [h]
  | point hs ht =>
    rcases List.mem_append.1 hc with hc | hc
    · rcases spells_mem hs hc with h | h <;> simp [h]
    · rcases List.mem_cons.1 hc with hc | hc
      · simp [hc]
      · rcases spells_mem ht hc with h | h <;> simp [h]

/-- A decimal literal does not start with `0x`. -/
theorem body_not_hex {cs rest : List Nat} {q : ℚ} {x : Nat} (h : Body 10 101 cs q) (hx : x = 120 ∨ x = 88) :
    cs ≠ 48 :: x :: rest := by
  intro hcs
  have hno : ∀ {m : List Nat} {q : ℚ}, Mantissa 10 m q → x ∉ m := by
    intro m q hm hmem
    rcases mantissa_mem hm hmem with h | h | ⟨d, hd, hlt⟩
    · omega
    · omega
    · rcases hx with rfl | rfl <;> simp [digitOf] at hd
  cases h with
  | plain hm => exact hno hm (by rw [hcs]; simp)
  | @exp m q y s z hm hy _ =>
    cases m with
    | nil => simp at hcs; omega
    | cons c m =>
      cases m with
      | nil => simp at hcs; omega
      | cons c' m =>
        simp at hcs
        exact hno hm (by simp [hcs.2.1])

end ELC.Literal
