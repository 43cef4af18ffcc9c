import Verif.Lemmas.SquareLaw

/-!
# Elliptic integrals given by four real roots
-/

namespace Gftool.Lemmas

open Gftool Spec MeasureTheory

open scoped ENNReal

lemma image_sin_sq : (fun θ => Real.sin θ ^ 2) '' Set.Ioo 0 (Real.pi / 2) = Set.Ioo (0 : ℝ) 1 := by
  have hpi := Real.pi_pos
  ext u
  constructor
  · rintro ⟨θ, hθ, rfl⟩
    have h1 := Real.sin_pos_of_pos_of_lt_pi hθ.1 (by linarith [hθ.2])
    have h2 := Real.cos_pos_of_mem_Ioo ⟨by linarith [hθ.1], hθ.2⟩
    have h3 := Real.sin_sq_add_cos_sq θ
    exact ⟨by positivity, by simp only; nlinarith⟩
  · rintro ⟨h0, h1⟩
    have hs0 : 0 < √u := Real.sqrt_pos.2 h0
    have hs1 : √u < 1 := by rw [Real.sqrt_lt' one_pos]; simpa using h1
    refine ⟨Real.arcsin √u, ⟨Real.arcsin_pos.2 hs0, Real.arcsin_lt_pi_div_two.2 hs1⟩, ?_⟩
    simp only
    rw [Real.sin_arcsin (by linarith) hs1.le, Real.sq_sqrt h0.le]

/-- Algebraic form of the elliptic integral. -/
lemma lintegral_ellip {m : ℝ} (hm : m < 1) :
    ∫⁻ u in Set.Ioo (0 : ℝ) 1, ENNReal.ofReal (1 / √(u * (1 - u) * (1 - m * u))) = ENNReal.ofReal (2 * ellipKR m) := by
  have hpi := Real.pi_pos
  have hsub := lintegral_image_eq_lintegral_abs_deriv_mul (f := fun θ => Real.sin θ ^ 2) measurableSet_Ioo
    (f' := fun θ => 2 * Real.sin θ * Real.cos θ) (s := Set.Ioo 0 (Real.pi / 2))
    (fun θ _ => by
      have h1 : HasDerivAt (fun θ => Real.sin θ ^ 2) _ θ := (Real.hasDerivAt_sin θ).pow 2
      refine (h1.congr_deriv ?_).hasDerivWithinAt
      norm_num)
    (by
      intro a ha b hb hab
      have h1 := Real.sin_pos_of_pos_of_lt_pi ha.1 (by linarith [ha.2])
      have h2 := Real.sin_pos_of_pos_of_lt_pi hb.1 (by linarith [hb.2])
      have h3 : Real.sin a = Real.sin b := (pow_left_inj₀ h1.le h2.le two_ne_zero).1 hab
      exact Real.injOn_sin ⟨by linarith [ha.1], ha.2.le⟩ ⟨by linarith [hb.1], hb.2.le⟩ h3)
    (fun u => ENNReal.ofReal (1 / √(u * (1 - u) * (1 - m * u))))
  rw [image_sin_sq] at hsub
  rw [hsub, ENNReal.ofReal_mul (by norm_num), ofReal_ellipKR hm, ← lintegral_const_mul' _ _ ENNReal.ofReal_ne_top]
  refine setLIntegral_congr_fun measurableSet_Ioo fun θ hθ => ?_
  have h1 := Real.sin_pos_of_pos_of_lt_pi hθ.1 (by linarith [hθ.2])
  have h2 := Real.cos_pos_of_mem_Ioo ⟨by linarith [hθ.1], hθ.2⟩
  have h3 := one_sub_pos hm θ
  have hr : √(Real.sin θ ^ 2 * (1 - Real.sin θ ^ 2) * (1 - m * Real.sin θ ^ 2))
      = Real.sin θ * Real.cos θ * √(1 - m * Real.sin θ ^ 2) := by
    rw [← Real.cos_sq', ← mul_pow, Real.sqrt_mul (by positivity), Real.sqrt_sq (by positivity)]
  rw [hr, ← ENNReal.ofReal_mul (abs_nonneg _), ← ENNReal.ofReal_mul (by norm_num), abs_of_pos (by positivity)]
  congr 1
  have := Real.sqrt_pos.2 h3
  field_simp

/-- Substitution of a Möbius transformation with the pole outside of the interval. -/
lemma lintegral_mobius {p q N : ℝ} {n : ℝ} {f : ℝ → ℝ} (hq : q ≠ 0) (hn : n ≠ 0)
    (hN : ∀ u ∈ Set.Ioo (0 : ℝ) 1, 0 < N + n * u) {s : Set ℝ}
    (hs : (fun u => p + q / (N + n * u)) '' Set.Ioo (0 : ℝ) 1 = s) :
    ∫⁻ t in s, ENNReal.ofReal (f t)
      = ∫⁻ u in Set.Ioo (0 : ℝ) 1, ENNReal.ofReal (|q * n| / (N + n * u) ^ 2 * f (p + q / (N + n * u))) := by
  have hsub := lintegral_image_eq_lintegral_abs_deriv_mul (f := fun u => p + q / (N + n * u)) measurableSet_Ioo
    (f' := fun u => -(q * n) / (N + n * u) ^ 2) (s := Set.Ioo (0 : ℝ) 1)
    (fun u hu => by
      have h1 : HasDerivAt (fun u => N + n * u) n u := by simpa using ((hasDerivAt_id u).const_mul n).const_add N
      have h2 := ((hasDerivAt_const u q).div h1 (hN u hu).ne').const_add p
      simp only [zero_mul, zero_sub] at h2
      exact h2.hasDerivWithinAt)
    (by
      intro a ha b hb hab
      have h1 := (hN a ha).ne'
      have h2 := (hN b hb).ne'
      have h3 : q / (N + n * a) = q / (N + n * b) := by simpa using hab
      rw [div_eq_div_iff h1 h2] at h3
      have h4 := mul_left_cancel₀ hq h3
      exact mul_left_cancel₀ hn (by linarith))
    (fun t => ENNReal.ofReal (f t))
  rw [hs] at hsub
  rw [hsub]
  refine setLIntegral_congr_fun measurableSet_Ioo fun u hu => ?_
  have h1 := hN u hu
  rw [← ENNReal.ofReal_mul (abs_nonneg _), abs_div, abs_neg, abs_of_pos (by positivity : 0 < (N + n * u) ^ 2)]

/-- The integral between the two inner roots. -/
lemma lintegral_quartic_mid {a b c d : ℝ} (hab : b < a) (hbc : c < b) (hcd : d < c) :
    ∫⁻ t in Set.Ioo c b, ENNReal.ofReal (1 / √((a - t) * (b - t) * (t - c) * (t - d)))
      = ENNReal.ofReal (2 / √((a - c) * (b - d)) * ellipKR ((b - c) * (a - d) / ((a - c) * (b - d)))) := by
  have hac : 0 < a - c := by linarith
  have hbd : 0 < b - d := by linarith
  have hbc' : 0 < b - c := by linarith
  have hcd' : 0 < c - d := by linarith
  set m := (b - c) * (a - d) / ((a - c) * (b - d)) with hm
  have hm1 : m < 1 := by
    rw [hm, div_lt_one (by positivity)]
    nlinarith [mul_pos (sub_pos.2 hab) hcd']
  have hN : ∀ u ∈ Set.Ioo (0 : ℝ) 1, 0 < (b - d) + (-(b - c)) * u := by
    intro u hu
    nlinarith [hu.1, hu.2]
  have himg : (fun u => d + (b - d) * (c - d) / ((b - d) + (-(b - c)) * u)) '' Set.Ioo (0 : ℝ) 1 = Set.Ioo c b := by
    ext t
    constructor
    · rintro ⟨u, hu, rfl⟩
      have h := hN u hu
      constructor
      · have : c - d < (b - d) * (c - d) / ((b - d) + (-(b - c)) * u) := by
          rw [lt_div_iff₀ h]
          nlinarith [mul_pos (mul_pos hcd' hbc') hu.1]
        simp only
        linarith
      · have : (b - d) * (c - d) / ((b - d) + (-(b - c)) * u) < b - d := by
          rw [div_lt_iff₀ h]
          nlinarith [mul_pos (mul_pos hbd hbc') (sub_pos.2 hu.2)]
        simp only
        linarith
    · rintro ⟨h1, h2⟩
      have htd : 0 < t - d := by linarith
      refine ⟨(b - d) * (t - c) / ((b - c) * (t - d)), ⟨?_, ?_⟩, ?_⟩
      · have : 0 < t - c := by linarith
        positivity
      · rw [div_lt_one (by positivity)]
        nlinarith [mul_pos hcd' (sub_pos.2 h2)]
      · simp only
        have e : b - d + -(b - c) * ((b - d) * (t - c) / ((b - c) * (t - d))) = (b - d) * (c - d) / (t - d) := by
          field_simp
          ring
        rw [e]
        field_simp
        ring
  have hne : (b - d) * (c - d) ≠ 0 := by positivity
  rw [lintegral_mobius hne (neg_ne_zero.2 hbc'.ne') hN himg]
  have hC : 0 < √((a - c) * (b - d)) := Real.sqrt_pos.2 (by positivity)
  have e2 : 2 / √((a - c) * (b - d)) * ellipKR m = 1 / √((a - c) * (b - d)) * (2 * ellipKR m) := by ring
  rw [e2, ENNReal.ofReal_mul (by positivity), ← lintegral_ellip hm1, ← lintegral_const_mul' _ _ ENNReal.ofReal_ne_top]
  refine setLIntegral_congr_fun measurableSet_Ioo fun u hu => ?_
  have h := hN u hu
  have hu0 := hu.1
  have hu1 : 0 < 1 - u := by linarith [hu.2]
  have hmu : 0 < 1 - m * u := by
    rcases le_or_gt m 0 with h' | h' <;> nlinarith [hu.2]
  rw [← ENNReal.ofReal_mul (by positivity)]
  congr 1
  set Q := (b - d) + (-(b - c)) * u with hQ
  have hmE : m * ((a - c) * (b - d)) = (b - c) * (a - d) := by rw [hm]; field_simp
  have e3 : (a - (d + (b - d) * (c - d) / Q)) * (b - (d + (b - d) * (c - d) / Q)) * (d + (b - d) * (c - d) / Q - c)
      * (d + (b - d) * (c - d) / Q - d)
      = ((b - d) * (b - c) * (c - d) / Q ^ 2) ^ 2 * ((a - c) * (b - d) * (u * (1 - u) * (1 - m * u))) := by
    have f1 : a - (d + (b - d) * (c - d) / Q) = (a - c) * (b - d) * (1 - m * u) / Q := by
      rw [eq_div_iff h.ne', sub_mul, add_mul, div_mul_cancel₀ _ h.ne']
      have : (a - c) * (b - d) * (1 - m * u) = (a - c) * (b - d) - m * ((a - c) * (b - d)) * u := by ring
      rw [this, hmE, hQ]
      ring
    have f2 : b - (d + (b - d) * (c - d) / Q) = (b - d) * (b - c) * (1 - u) / Q := by
      rw [eq_div_iff h.ne', sub_mul, add_mul, div_mul_cancel₀ _ h.ne', hQ]
      ring
    have f3 : d + (b - d) * (c - d) / Q - c = (b - c) * (c - d) * u / Q := by
      rw [eq_div_iff h.ne', sub_mul, add_mul, div_mul_cancel₀ _ h.ne', hQ]
      ring
    have f4 : d + (b - d) * (c - d) / Q - d = (b - d) * (c - d) / Q := by ring
    rw [f1, f2, f3, f4]
    clear_value Q m
    field_simp
  rw [e3, Real.sqrt_mul (by positivity), Real.sqrt_sq (by positivity), Real.sqrt_mul (by positivity),
    abs_mul, abs_neg, abs_of_pos hbc', abs_of_pos (by positivity : 0 < (b - d) * (c - d))]
  have hr : 0 < √(u * (1 - u) * (1 - m * u)) := Real.sqrt_pos.2 (by positivity)
  clear_value Q m
  field_simp

/-- The integral between the two lowest roots. -/
lemma lintegral_quartic_low {a b c d : ℝ} (hab : b < a) (hbc : c < b) (hcd : d < c) :
    ∫⁻ t in Set.Ioo d c, ENNReal.ofReal (1 / √((a - t) * (b - t) * (c - t) * (t - d)))
      = ENNReal.ofReal (2 / √((a - c) * (b - d)) * ellipKR ((a - b) * (c - d) / ((a - c) * (b - d)))) := by
  have hac : 0 < a - c := by linarith
  have hbd : 0 < b - d := by linarith
  have had : 0 < a - d := by linarith
  have hcd' : 0 < c - d := by linarith
  set m := (a - b) * (c - d) / ((a - c) * (b - d)) with hm
  have hm1 : m < 1 := by
    rw [hm, div_lt_one (by positivity)]
    nlinarith [mul_pos (sub_pos.2 hbc) had]
  have hN : ∀ u ∈ Set.Ioo (0 : ℝ) 1, 0 < (a - c) + (c - d) * u := by
    intro u hu
    nlinarith [hu.1, hu.2]
  have himg : (fun u => a + (-((a - c) * (a - d))) / ((a - c) + (c - d) * u)) '' Set.Ioo (0 : ℝ) 1 = Set.Ioo d c := by
    ext t
    constructor
    · rintro ⟨u, hu, rfl⟩
      have h := hN u hu
      simp only [neg_div]
      constructor
      · have : ((a - c) * (a - d)) / ((a - c) + (c - d) * u) < a - d := by
          rw [div_lt_iff₀ h]
          nlinarith [mul_pos (mul_pos hcd' had) hu.1]
        linarith
      · have : a - c < ((a - c) * (a - d)) / ((a - c) + (c - d) * u) := by
          rw [lt_div_iff₀ h]
          nlinarith [mul_pos (mul_pos hac hcd') (sub_pos.2 hu.2)]
        linarith
    · rintro ⟨h1, h2⟩
      have hat : 0 < a - t := by linarith
      refine ⟨(a - c) * (t - d) / ((c - d) * (a - t)), ⟨?_, ?_⟩, ?_⟩
      · have : 0 < t - d := by linarith
        positivity
      · rw [div_lt_one (by positivity)]
        nlinarith [mul_pos had (sub_pos.2 h2)]
      · simp only
        have e : a - c + (c - d) * ((a - c) * (t - d) / ((c - d) * (a - t))) = (a - c) * (a - d) / (a - t) := by
          field_simp
          ring
        rw [e]
        field_simp
        ring
  have hne : -((a - c) * (a - d)) ≠ 0 := neg_ne_zero.2 (by positivity)
  rw [lintegral_mobius hne hcd'.ne' hN himg]
  have hC : 0 < √((a - c) * (b - d)) := Real.sqrt_pos.2 (by positivity)
  have e2 : 2 / √((a - c) * (b - d)) * ellipKR m = 1 / √((a - c) * (b - d)) * (2 * ellipKR m) := by ring
  rw [e2, ENNReal.ofReal_mul (by positivity), ← lintegral_ellip hm1, ← lintegral_const_mul' _ _ ENNReal.ofReal_ne_top]
  refine setLIntegral_congr_fun measurableSet_Ioo fun u hu => ?_
  have h := hN u hu
  have hu0 := hu.1
  have hu1 : 0 < 1 - u := by linarith [hu.2]
  have hmu : 0 < 1 - m * u := by
    rcases le_or_gt m 0 with h' | h' <;> nlinarith [hu.2]
  rw [← ENNReal.ofReal_mul (by positivity)]
  congr 1
  set Q := (a - c) + (c - d) * u with hQ
  have hmE : m * ((a - c) * (b - d)) = (a - b) * (c - d) := by rw [hm]; field_simp
  have e3 : (a - (a + (-((a - c) * (a - d))) / Q)) * (b - (a + (-((a - c) * (a - d))) / Q))
      * (c - (a + (-((a - c) * (a - d))) / Q)) * (a + (-((a - c) * (a - d))) / Q - d)
      = ((a - c) * (a - d) * (c - d) / Q ^ 2) ^ 2 * ((a - c) * (b - d) * (u * (1 - u) * (1 - m * u))) := by
    have f1 : a - (a + (-((a - c) * (a - d))) / Q) = (a - c) * (a - d) / Q := by ring
    have f2 : b - (a + (-((a - c) * (a - d))) / Q) = (a - c) * (b - d) * (1 - m * u) / Q := by
      rw [eq_div_iff h.ne', sub_mul, add_mul, div_mul_cancel₀ _ h.ne']
      have : (a - c) * (b - d) * (1 - m * u) = (a - c) * (b - d) - m * ((a - c) * (b - d)) * u := by ring
      rw [this, hmE, hQ]
      ring
    have f3 : c - (a + (-((a - c) * (a - d))) / Q) = (a - c) * (c - d) * (1 - u) / Q := by
      rw [eq_div_iff h.ne', sub_mul, add_mul, div_mul_cancel₀ _ h.ne', hQ]
      ring
    have f4 : a + (-((a - c) * (a - d))) / Q - d = (a - d) * (c - d) * u / Q := by
      rw [eq_div_iff h.ne', sub_mul, add_mul, div_mul_cancel₀ _ h.ne', hQ]
      ring
    rw [f1, f2, f3, f4]
    clear_value Q m
    field_simp
  rw [e3, Real.sqrt_mul (by positivity), Real.sqrt_sq (by positivity), Real.sqrt_mul (by positivity),
    abs_mul, abs_neg, abs_of_pos hcd', abs_of_pos (by positivity : 0 < (a - c) * (a - d))]
  have hr : 0 < √(u * (1 - u) * (1 - m * u)) := Real.sqrt_pos.2 (by positivity)
  clear_value Q m
  field_simp

end Gftool.Lemmas
