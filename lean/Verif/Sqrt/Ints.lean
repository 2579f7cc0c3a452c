import Verif.Sqrt.Result
/-! Roots of integers. -/
namespace ELC.Sqrt

open ELC.Float ELC.Float.Spec

variable {I : Info} {f : Format} {v lo x r a n : Nat}

theorem int_units (h : Agrees I f) (hn : n < 2 ^ (f.p + 1)) : units f.p (trunc f.p (n * one I)) = n * one I := by
  rw [one_eq h]; exact trunc_exact hn

theorem pow_le_one (h : Agrees I f) : 2 ^ f.p ≤ one I := by
  rw [one_eq h]
  exact Nat.pow_le_pow_right (by decide) (by unfold Kof; have := h.biasPos; omega)

/-- What is worth at least one is normal. -/
theorem normal_of (h : Agrees I f) (hx : one I ≤ units f.p x) : 2 ^ f.p ≤ x := by
  by_contra hc
  have h1 := pow_le_one h
  have hd : x / 2 ^ f.p = 0 := Nat.div_eq_of_lt (by omega)
  unfold units at hx
  rw [hd, if_pos rfl, Nat.mod_eq_of_lt (by omega)] at hx
  omega

/-- Integers of few bits have even bytes. -/
theorem int_even (h : Agrees I f) (h0 : 0 < n) (hn : n < 2 ^ f.p) : trunc f.p (n * one I) % 2 = 0 := by
  have hu := int_units h (n := n) (by rw [pow_succ]; omega)
  have hone := one_pos h
  have hnorm : 2 ^ f.p ≤ trunc f.p (n * one I) := by
    apply normal_of h
    rw [hu]
    exact Nat.le_mul_of_pos_left _ h0
  generalize trunc f.p (n * one I) = d at *
  by_contra hodd
  have hep := even_pow h
  have hm2 : d % 2 ^ f.p % 2 = d % 2 := Nat.mod_mod_of_dvd _ (Nat.dvd_of_mod_eq_zero hep)
  rw [units_normal hnorm, one_eq h] at hu
  unfold sp at hu
  generalize d / 2 ^ f.p - 1 = t at *
  by_cases hK : Kof f ≤ t
  · obtain ⟨k, rfl⟩ := Nat.exists_eq_add_of_le hK
    rw [pow_add] at hu
    have h1 : (2 ^ f.p + d % 2 ^ f.p) * 2 ^ k = n := by
      apply Nat.eq_of_mul_eq_mul_right (Nat.two_pow_pos (Kof f))
      rw [← hu]; ring
    have h2 := Nat.le_mul_of_pos_right (2 ^ f.p + d % 2 ^ f.p) (Nat.two_pow_pos k)
    omega
  · obtain ⟨k, hk⟩ : ∃ k, Kof f = t + (k + 1) := ⟨Kof f - t - 1, by omega⟩
    rw [hk, pow_add] at hu
    have h1 : 2 ^ f.p + d % 2 ^ f.p = n * 2 ^ (k + 1) := by
      apply Nat.eq_of_mul_eq_mul_right (Nat.two_pow_pos t)
      rw [hu]; ring
    have h2 : n * 2 ^ (k + 1) % 2 = 0 := by rw [pow_succ, ← Nat.mul_assoc]; exact Nat.mul_mod_left _ _
    omega

theorem int_finite (h : Agrees I f) (hb : 2 * f.p + 3 ≤ f.bias) (ha : a < 2 ^ (2 * f.p)) : ofNat I a < infinity I := by
  have h1 : units f.p (trunc f.p (1 * 2 ^ (2 * f.p + Kof f))) = 1 * 2 ^ (2 * f.p + Kof f) := trunc_exact (Nat.one_lt_two_pow (by omega))
  have h2 : ofNat I a ≤ trunc f.p (1 * 2 ^ (2 * f.p + Kof f)) := by
    unfold ofNat
    apply nearest_le h Nat.one_pos
    rw [h1, one_eq h, pow_add, Nat.one_mul, Nat.one_mul]
    exact Nat.mul_le_mul_right _ ha.le
  refine lt_of_le_of_lt h2 (lt_infinity h ?_)
  rw [h1, one_eq h, pow_add, Nat.one_mul]
  exact Nat.mul_lt_mul_of_pos_right (Nat.pow_lt_pow_right (by decide) (by omega)) (Nat.two_pow_pos _)

theorem int_ge (h : Agrees I f) (h4 : 4 ≤ a) : 4 * one I ≤ units f.p (ofNat I a) := by
  obtain ⟨h1, h2⟩ := ofNat_eq h (n := 4) (by norm_num)
  rw [← h1]
  apply units_le
  unfold ofNat at *
  apply nearest_ge h Nat.one_pos _ h2.le
  rw [h1, Nat.one_mul]
  exact Nat.mul_le_mul_right _ h4

theorem below_iff (ha : Around I f (units f.p v * one I) lo) {d : Nat} : d ≤ lo ↔ units f.p d * units f.p d ≤ units f.p v * one I := by
  constructor
  · intro hd
    have := units_le (p := f.p) hd
    exact Nat.le_trans (Nat.mul_le_mul this this) ha.below
  · intro hd
    by_contra hc
    have h1 : units f.p (lo + 1) ≤ units f.p d := units_le (by omega)
    have := Nat.mul_le_mul h1 h1
    have := ha.above
    omega

/-- The arithmetic of the case where the integer was rounded down. -/
theorem rounded {P D C u V O s n a N : Nat} (hD : D = n * O) (hC : D = C + u) (hu : D ≤ 2 * P * u) (hV : V < n * n * O) (hs : P * s ≤ V)
    (ha : n * n ≤ a) (hr : 2 * (a * O) ≤ 2 * V + s) (hN : N = V * O) (hP : 0 < P) (hO : 0 < O) : C * (C + D) < 2 * N := by
  have h1 : P * (s * O) < P * (2 * u * D) := by
    calc P * (s * O) = P * s * O := by ring
      _ ≤ V * O := Nat.mul_le_mul_right _ hs
      _ < n * n * O * O := Nat.mul_lt_mul_of_pos_right hV hO
      _ = D * D := by rw [hD]; ring
      _ ≤ 2 * P * u * D := Nat.mul_le_mul_right _ hu
      _ = _ := by ring
  have h2 : s * O < 2 * u * D := Nat.lt_of_mul_lt_mul_left h1
  have h3 : 2 * (D * D) ≤ 2 * N + s * O := by
    calc 2 * (D * D) = 2 * (n * n * O) * O := by rw [hD]; ring
      _ ≤ 2 * (a * O) * O := Nat.mul_le_mul_right _ (Nat.mul_le_mul_left _ (Nat.mul_le_mul_right _ ha))
      _ ≤ (2 * V + s) * O := Nat.mul_le_mul_right _ hr
      _ = _ := by rw [hN]; ring
  have h4 : C * (C + D) + 2 * u * D ≤ 2 * (D * D) := by
    rw [hC]
    nlinarith [Nat.zero_le (C * u), Nat.zero_le (u * u)]
  omega

/-- The root of an integer is not below its integer root. -/
theorem root_ge (h : Agrees I f) (hb : 2 * f.p + 3 ≤ f.bias) (h4 : 4 ≤ a) (ha : a < 2 ^ (2 * f.p))
    (hr : Result I f (ofNat I a) lo r) : Nat.sqrt a * one I ≤ units f.p r := by
  have hb' : f.p + 3 ≤ f.bias := by omega
  have hge := result_ge h hr
  have hA := hr.1
  have hfin := int_finite h hb ha
  have hV4 := int_ge h h4
  have ho := one_pos h
  have hpp := two_le_pow h
  have hn1 : Nat.sqrt a < 2 ^ f.p := by
    apply Nat.sqrt_lt.2
    rwa [← pow_add, ← two_mul]
  have hn2 : 2 ≤ Nat.sqrt a := Nat.le_sqrt.2 (by omega)
  have hna := Nat.sqrt_le a
  generalize Nat.sqrt a = n at *
  have hD := int_units h (n := n) (by rw [pow_succ]; omega)
  have hev := int_even h (n := n) (by omega) hn1
  generalize trunc f.p (n * one I) = d at *
  rw [← hD]
  apply units_le
  by_cases hc : n * n * one I ≤ units f.p (ofNat I a)
  · refine Nat.le_trans ((below_iff hA).2 ?_) hge
    rw [hD]
    calc _ = n * n * one I * one I := by ring
      _ ≤ _ := Nat.mul_le_mul_right _ hc
  · have hlt : lo < d := by
      by_contra hcon
      have h1 := (below_iff hA).1 (Nat.le_of_not_lt hcon)
      rw [hD] at h1
      have h2 : n * n * one I * one I ≤ units f.p (ofNat I a) * one I := by
        calc _ = n * one I * (n * one I) := by ring
          _ ≤ _ := h1
      exact hc (Nat.le_of_mul_le_mul_right h2 ho)
    obtain ⟨c, hcd⟩ : ∃ c, d = c + 1 := ⟨d - 1, by omega⟩
    have hdn : 2 * 2 ^ f.p ≤ d := by have := hA.normal; omega
    have eC : units f.p d = units f.p c + sp f.p c := by rw [hcd, units_sp]
    have hcn : 2 ^ f.p ≤ c := by omega
    have hDu : units f.p d ≤ 2 * 2 ^ f.p * sp f.p c := by
      rw [eC, units_normal hcn]
      have := Nat.mod_lt c (Nat.two_pow_pos f.p)
      have h1 := Nat.mul_le_mul_right (sp f.p c) (show 2 ^ f.p + c % 2 ^ f.p + 1 ≤ 2 * 2 ^ f.p by omega)
      calc _ = (2 ^ f.p + c % 2 ^ f.p + 1) * sp f.p c := by ring
        _ ≤ _ := h1
    have hmid : 2 * (a * one I) ≤ 2 * units f.p (ofNat I a) + sp f.p (ofNat I a) := by
      have := (nearest_mid h Nat.one_pos (x := a * one I) hfin).1
      have e : nearest I (a * one I) 1 = ofNat I a := rfl
      rw [e, units_sp, Nat.one_mul] at this
      omega
    have hsv : 2 ^ f.p * sp f.p (ofNat I a) ≤ units f.p (ofNat I a) := sp_le_units (normal_of h (by omega))
    have key := rounded hD eC hDu (Nat.lt_of_not_le hc) hsv hna hmid rfl (Nat.two_pow_pos _) ho
    have hcl : c ≤ lo := by
      apply (below_iff hA).2
      have h1 : units f.p c ≤ units f.p d := units_le (by omega)
      have := Nat.mul_le_mul_left (units f.p c) h1
      rw [Nat.mul_add] at key
      omega
    have e : lo = c := by omega
    subst e
    have := result_up h hb' hr hV4 (by omega) (by rw [← hcd]; exact key)
    omega

/-- Nor far above it. -/
theorem root_exact (h : Agrees I f) (hb : 2 * f.p + 3 ≤ f.bias) (h4 : 4 ≤ a) (ha : 8 * a ≤ 2 ^ f.p)
    (hr : Result I f (ofNat I a) lo r) : units f.p r / one I = Nat.sqrt a := by
  have hb' : f.p + 3 ≤ f.bias := by omega
  have ho := one_pos h
  have ha2 : a < 2 ^ (2 * f.p) := lt_of_lt_of_le (show a < 2 ^ f.p by omega) (Nat.pow_le_pow_right (by decide) (by omega))
  have hlow := root_ge h hb h4 ha2 hr
  have hA := hr.1
  have hV4 := int_ge h h4
  obtain ⟨_, hcase⟩ := result_fixed h hb' hr hV4
  have hpow : 2 ^ f.p < 2 ^ (f.p + 1) := by rw [pow_succ]; have := Nat.two_pow_pos f.p; omega
  have hV : units f.p (ofNat I a) = a * one I := by
    have he := int_units h (n := a) (by omega)
    have hfin : trunc f.p (a * one I) < infinity I := by
      apply lt_infinity h
      rw [he]
      apply Nat.mul_lt_mul_of_pos_right _ ho
      exact lt_of_lt_of_le (show a < 2 ^ f.p by omega) (Nat.pow_le_pow_right (by decide) (by omega))
    have := nearest_exact h (y := 1) Nat.one_pos hfin.le
    rw [Nat.one_mul, he] at this
    unfold ofNat
    rw [this, he]
  have hsq := Nat.lt_succ_sqrt a
  have hsl := Nat.sqrt_le a
  have hself := Nat.sqrt_le_self a
  simp only [Nat.succ_eq_add_one] at hsq
  generalize Nat.sqrt a = n at *
  apply Nat.div_eq_of_lt_le hlow
  have hn1 : n + 1 < 2 ^ (f.p + 1) := by omega
  have hD := int_units h (n := n + 1) hn1
  generalize trunc f.p ((n + 1) * one I) = d at *
  by_contra hcon
  have hrd : d ≤ r := (units_le_iff (p := f.p)).1 (by omega)
  have hlt : lo < d := by
    by_contra hc
    have h1 := (below_iff hA).1 (Nat.le_of_not_lt hc)
    rw [hD, hV] at h1
    have h2 : (n + 1) * (n + 1) * (one I * one I) ≤ a * (one I * one I) := by
      calc _ = (n + 1) * one I * ((n + 1) * one I) := by ring
        _ ≤ _ := h1
        _ = _ := by ring
    have := Nat.le_of_mul_le_mul_right h2 (Nat.mul_pos ho ho)
    omega
  have e : d = lo + 1 := by omega
  have eC : units f.p d = units f.p lo + sp f.p lo := by rw [e, units_sp]
  have hPu := sp_le_units (p := f.p) (x := lo) (by have := hA.normal; omega)
  have hb2 := hA.below
  rw [hV] at hb2
  have hPp := Nat.two_pow_pos f.p
  have hup := sp_pos f.p lo
  have hn3 : 2 * ((n + 1) * (n + 1)) ≤ 2 ^ f.p := by nlinarith
  generalize 2 ^ f.p = P at *
  generalize sp f.p lo = u at *
  generalize units f.p lo = C at *
  generalize one I = O at *
  clear hlow hcase hcon hlt hrd hpow hA hr hV4 hn1
  -- O² ≤ 2 D u, and P u < D
  have h1 : (a + 1) * (O * O) ≤ (C + u) * (C + u) := by
    rw [← eC, hD]
    calc _ ≤ (n + 1) * (n + 1) * (O * O) := Nat.mul_le_mul_right _ (by omega)
      _ = _ := by ring
  have h2 : O * O < 2 * (u * (C + u)) := by
    have h3 : a * O * O = a * (O * O) := by ring
    rw [h3] at hb2
    nlinarith [Nat.mul_pos hup hup]
  have h5 : P * u < C + u := by omega
  have h6 : P * (O * O) < 2 * ((C + u) * (C + u)) := by
    calc P * (O * O) ≤ P * (2 * (u * (C + u))) := Nat.mul_le_mul_left _ h2.le
      _ = 2 * (P * u * (C + u)) := by ring
      _ < _ := by
        have := Nat.mul_lt_mul_of_pos_right h5 (show 0 < C + u by omega)
        omega
  rw [← eC, hD] at h6
  have h7 : P * (O * O) < 2 * ((n + 1) * (n + 1)) * (O * O) := by
    calc _ < _ := h6
      _ = _ := by ring
  have := Nat.lt_of_mul_lt_mul_right h7
  omega

theorem root_small (h : Agrees I f) (hb : 2 * f.p + 3 ≤ f.bias) (h5 : 5 ≤ a) (ha : a < 2 ^ (2 * f.p))
    (hr : Result I f (ofNat I a) lo r) : units f.p r / one I + 2 < a := by
  have hb' : f.p + 3 ≤ f.bias := by omega
  have ho := one_pos h
  by_cases hs : 8 * a ≤ 2 ^ f.p
  · rw [root_exact h hb (by omega) hs hr]
    have h1 := Nat.sqrt_le a
    by_contra hc
    have : a ≤ Nat.sqrt a + 2 := by omega
    generalize Nat.sqrt a = n at *
    have : n ≤ 2 := by
      by_contra hn
      have := Nat.mul_le_mul_right n (show 3 ≤ n by omega)
      omega
    have : n * n ≤ 4 := Nat.mul_le_mul this this
    -- a ≤ 4
    omega
  · have hbig : 1000 ≤ a := by
      have : 2 ^ 23 ≤ 2 ^ f.p := Nat.pow_le_pow_right (by decide) h.large.1
      have : 2 ^ 23 = 8388608 := by norm_num
      omega
    have hA := hr.1
    have hV4 := int_ge h (show 4 ≤ a by omega)
    obtain ⟨_, hcase⟩ := result_fixed h hb' hr hV4
    have hR : units f.p r ≤ 2 * units f.p lo := by
      have h1 : units f.p r ≤ units f.p (lo + 1) := units_le (by omega)
      rw [units_sp] at h1
      have := sp_lo_le h hA
      omega
    have hV : units f.p (ofNat I a) ≤ 2 * (a * one I) := by
      obtain ⟨c, hc⟩ : ∃ c, ofNat I a = c + 1 := ⟨ofNat I a - 1, by
        have := normal_of (x := ofNat I a) h (by omega)
        have := Nat.two_pow_pos f.p
        omega⟩
      have := ((nearest_mid h Nat.one_pos (x := a * one I) (int_finite h hb ha)).2.2 c hc).1
      rw [hc]
      omega
    have hN := Nat.le_trans hA.below (Nat.mul_le_mul_right (one I) hV)
    by_contra hc
    have hc' : a - 2 ≤ units f.p r / one I := by omega
    have h1 := (Nat.le_div_iff_mul_le ho).1 hc'
    have h2 : (a - 2) * one I ≤ 2 * units f.p lo := by omega
    have h3 := Nat.mul_le_mul h2 h2
    have h6 : (a - 2) * (a - 2) * (one I * one I) ≤ 8 * a * (one I * one I) := by
      calc _ = (a - 2) * one I * ((a - 2) * one I) := by ring
        _ ≤ _ := h3
        _ = 4 * (units f.p lo * units f.p lo) := by ring
        _ ≤ 4 * (2 * (a * one I) * one I) := Nat.mul_le_mul_left _ hN
        _ = _ := by ring
    have h7 := Nat.le_of_mul_le_mul_right h6 (Nat.mul_pos ho ho)
    have h8 := Nat.mul_le_mul_right (a - 2) (show 998 ≤ a - 2 by omega)
    omega

end ELC.Sqrt
