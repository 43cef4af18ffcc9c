import Verif.Lemmas.Nevanlinna

/-!
# Stieltjes transforms beyond the edge of the band

For real energies `e ≤ b` and `Re ξ > b`.
-/

namespace Gftool.Lemmas

open MeasureTheory

variable {Ω : Type*} [MeasurableSpace Ω] {μ : Measure Ω} [IsProbabilityMeasure μ] {e : Ω → ℝ}

/-- Beyond the edge of the band the real part of `1/G` is at least the distance to the band. -/
lemma stj_edge (he : Measurable e) {b : ℝ} (hb : ∀ᵐ x ∂μ, e x ≤ b) {ξ : ℂ} (hξ : 0 < ξ.im) (hr : b < ξ.re) :
    ∃ p : ℝ, 1 ≤ p ∧ p * (ξ.re - b) ≤ (1 / stj μ (fun x => (e x : ℂ)) ξ).re ∧
      (1 / stj μ (fun x => (e x : ℂ)) ξ).im = p * ξ.im ∧
      ∀ a, (∀ᵐ x ∂μ, a ≤ e x) → ‖1 / stj μ (fun x => (e x : ℂ)) ξ - (ξ - b)‖ ^ 2 ≤ (b - a) ^ 2 * p := by
  have hm : Measurable fun x => (e x : ℂ) := Complex.measurable_ofReal.comp he
  have hl : ∀ x, ((e x : ℝ) : ℂ).im ≤ 0 := fun x => by simp
  have hi := stj_integrable (μ := μ) hm hl hξ
  have hs := stj_sq_integrable (μ := μ) hm hl hξ
  have hne := stj_ne_zero (μ := μ) hm hl hξ
  have hnx : ∀ x, ξ - (e x : ℂ) ≠ 0 := stj_ne hl hξ
  have hre : (stj μ (fun x => (e x : ℂ)) ξ).re = ∫ x, (1 / (ξ - (e x : ℂ))).re ∂μ := (integral_re hi).symm
  have him : (stj μ (fun x => (e x : ℂ)) ξ).im = ∫ x, (1 / (ξ - (e x : ℂ))).im ∂μ := (integral_im hi).symm
  have hsq : ‖stj μ (fun x => (e x : ℂ)) ξ‖ ^ 2 ≤ ∫ x, ‖1 / (ξ - (e x : ℂ))‖ ^ 2 ∂μ := by
    have := norm_integral_mul_sq_le (μ := μ) (a := fun x => 1 / (ξ - (e x : ℂ))) (b := fun _ => 1) hs (by simp)
      (by simpa using hi.norm)
    simpa [stj] using this
  set G := stj μ (fun x => (e x : ℂ)) ξ with hG
  set P := ∫ x, ‖1 / (ξ - (e x : ℂ))‖ ^ 2 ∂μ with hP
  have hGn : 0 < ‖G‖ ^ 2 := by positivity
  have h1 : (ξ.re - b) * P ≤ G.re := by
    rw [hre, hP, ← integral_const_mul]
    refine integral_mono_ae (hs.const_mul _) hi.re ?_
    filter_upwards [hb] with x hx
    change _ ≤ (1 / (ξ - (e x : ℂ))).re
    rw [norm_div, norm_one, one_div (ξ - (e x : ℂ)), Complex.inv_re, div_pow, one_pow, ← Complex.normSq_eq_norm_sq, mul_one_div]
    refine div_le_div_of_nonneg_right ?_ (Complex.normSq_nonneg _)
    rw [Complex.sub_re, Complex.ofReal_re]
    linarith
  have h2 : -G.im = ξ.im * P := by
    rw [him, hP, ← integral_const_mul, ← integral_neg]
    congr 1
    funext x
    rw [norm_div, norm_one, one_div (ξ - (e x : ℂ)), Complex.inv_im, div_pow, one_pow, ← Complex.normSq_eq_norm_sq, Complex.sub_im,
      Complex.ofReal_im]
    ring
  refine ⟨P / ‖G‖ ^ 2, (one_le_div hGn).2 hsq, ?_, ?_, fun a ha => ?_⟩
  · rw [one_div G, Complex.inv_re, Complex.normSq_eq_norm_sq, div_mul_eq_mul_div]
    exact div_le_div_of_nonneg_right (by linarith) hGn.le
  · rw [one_div G, Complex.inv_im, Complex.normSq_eq_norm_sq, h2]
    ring
  · have hid : 1 / G - (ξ - b) = (∫ x, ((b - e x : ℝ) : ℂ) * (1 / (ξ - (e x : ℂ))) ∂μ) / G := by
      have e1 : ∀ x, ((b - e x : ℝ) : ℂ) * (1 / (ξ - (e x : ℂ))) = 1 - (ξ - b) * (1 / (ξ - (e x : ℂ))) := fun x => by
        have := hnx x
        field_simp
        push_cast
        ring
      simp only [e1]
      rw [integral_sub (integrable_const _) (hi.const_mul _), integral_const_mul, show ∫ x, 1 / (ξ - (e x : ℂ)) ∂μ = G from rfl]
      simp
      field_simp
    have hab : ∀ᵐ x ∂μ, ‖((b - e x : ℝ) : ℂ)‖ ≤ b - a := by
      filter_upwards [hb, ha] with x hx hx'
      rw [Complex.norm_real, Real.norm_eq_abs, abs_of_nonneg (by linarith)]
      linarith
    have hmb : Measurable fun x => ((b - e x : ℝ) : ℂ) := Complex.measurable_ofReal.comp (measurable_const.sub he)
    have hint : Integrable (fun x => ‖((b - e x : ℝ) : ℂ)‖ ^ 2) μ := by
      refine Integrable.of_bound (hmb.norm.pow_const 2).aestronglyMeasurable ((b - a) ^ 2) ?_
      filter_upwards [hab] with x hx
      rw [norm_pow, norm_norm]
      exact pow_le_pow_left₀ (norm_nonneg _) hx 2
    have h3 := norm_integral_mul_sq_le (μ := μ) (a := fun x => ((b - e x : ℝ) : ℂ)) (b := fun x => 1 / (ξ - (e x : ℂ))) hint hs (by
      refine Integrable.of_bound (hmb.norm.mul (by fun_prop)).aestronglyMeasurable ((b - a) * (1 / ξ.im)) ?_
      filter_upwards [hab] with x hx
      rw [norm_mul, norm_norm, norm_norm]
      exact mul_le_mul hx (stj_bound hl hξ x) (norm_nonneg _) ((norm_nonneg _).trans hx))
    have h4 : ∫ x, ‖((b - e x : ℝ) : ℂ)‖ ^ 2 ∂μ ≤ (b - a) ^ 2 := by
      calc _ ≤ ∫ _, (b - a) ^ 2 ∂μ := by
            refine integral_mono_ae hint (integrable_const _) ?_
            filter_upwards [hab] with x hx
            exact pow_le_pow_left₀ (norm_nonneg _) hx 2
        _ = _ := by simp
    rw [hid, norm_div, div_pow, ← mul_div_assoc]
    refine div_le_div_of_nonneg_right (h3.trans ?_) hGn.le
    exact mul_le_mul_of_nonneg_right h4 (integral_nonneg fun x => by positivity)

end Gftool.Lemmas
