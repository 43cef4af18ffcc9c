import Verif.Lemmas.Dispersion
import Verif.Spec.MultiBand
import Mathlib.MeasureTheory.Function.JacobianOneDim

/-!
# Densities of states of pairs of bands with opposite energies
-/

namespace Gftool.Lemmas

open Gftool Spec MeasureTheory
open scoped ENNReal

variable {κ : Type*} [MeasurableSpace κ] {μ : Measure κ} {disp : κ → ℝ} {dos : ℝ → ℝ}

/-- Averages over the density of states are averages over momenta. -/
lemma _root_.Gftool.Spec.IsDosOf.lintegral (h : IsDosOf μ disp dos) (hm : Measurable disp) {f : ℝ → ℝ≥0∞} (hf : Measurable f) :
    ∫⁻ e, ENNReal.ofReal (dos e) * f e = ∫⁻ k, f (disp k) ∂μ := by
  rw [← lintegral_map hf hm, h.density, lintegral_withDensity_eq_lintegral_mul _ h.measurable.ennreal_ofReal hf]
  rfl

/-- One half of the parabola. -/
private lemma fold_half (h : IsDosOf μ disp dos) (hm : Measurable disp) {α c : ℝ} (hα : 0 < α) (hc : ∀ k, -c ≤ disp k)
    {f : ℝ → ℝ≥0∞} (hf : Measurable f) :
    ∫⁻ x in Set.Ioi 0, 2 * ENNReal.ofReal (α * |x| * dos (α * x ^ 2 - c)) * f x
      = ∫⁻ k, f √((disp k + c) / α) ∂μ := by
  have himg : (fun x : ℝ => α * x ^ 2 - c) '' Set.Ioi 0 = Set.Ioi (-c) := by
    ext u
    constructor
    · rintro ⟨x, hx, rfl⟩
      have hx' : 0 < x := hx
      have : 0 < α * x ^ 2 := by positivity
      simp only [Set.mem_Ioi]
      linarith
    · intro hu
      have hu' : 0 < (u + c) / α := div_pos (by rw [Set.mem_Ioi] at hu; linarith) hα
      refine ⟨√((u + c) / α), Real.sqrt_pos.2 hu', ?_⟩
      simp only
      rw [Real.sq_sqrt hu'.le]
      field_simp
      ring
  have hinj : Set.InjOn (fun x : ℝ => α * x ^ 2 - c) (Set.Ioi 0) := by
    intro x hx y hy hxy
    simp only [sub_left_inj] at hxy
    have := mul_left_cancel₀ hα.ne' hxy
    exact (pow_left_inj₀ (le_of_lt hx) (le_of_lt hy) (by norm_num)).1 this
  have hder : ∀ x ∈ Set.Ioi (0 : ℝ), HasDerivWithinAt (fun x : ℝ => α * x ^ 2 - c) (2 * α * x) (Set.Ioi 0) x := by
    intro x _
    have := ((hasDerivAt_pow 2 x).const_mul α).sub_const c
    refine (this.congr_deriv ?_).hasDerivWithinAt
    push_cast
    ring
  have hg : Measurable fun u : ℝ => f √((u + c) / α) := hf.comp (by fun_prop)
  have h1 := lintegral_image_eq_lintegral_abs_deriv_mul measurableSet_Ioi hder hinj
    (fun u => ENNReal.ofReal (dos u) * f √((u + c) / α))
  rw [himg] at h1
  have h2 : ∫⁻ x in Set.Ioi 0, 2 * ENNReal.ofReal (α * |x| * dos (α * x ^ 2 - c)) * f x
      = ∫⁻ x in Set.Ioi 0, ENNReal.ofReal |2 * α * x|
        * (ENNReal.ofReal (dos (α * x ^ 2 - c)) * f √((α * x ^ 2 - c + c) / α)) := by
    refine setLIntegral_congr_fun measurableSet_Ioi fun x hx => ?_
    have hx' : 0 < x := hx
    rw [sub_add_cancel, mul_div_cancel_left₀ _ hα.ne', Real.sqrt_sq hx'.le, abs_of_pos hx',
      abs_of_pos (by positivity : 0 < 2 * α * x), ENNReal.ofReal_mul (by positivity), ← mul_assoc, ← mul_assoc,
      mul_assoc 2 α x, ENNReal.ofReal_mul (by norm_num : (0 : ℝ) ≤ 2), ENNReal.ofReal_ofNat]
  rw [h2, ← h1, ← h.lintegral hm hg, setLIntegral_congr Ioi_ae_eq_Ici, ← lintegral_indicator measurableSet_Ici]
  -- there are no energies below `-c`
  have h3 := h.lintegral hm (f := (Set.Ici (-c)).indicator fun u => f √((u + c) / α)) (hg.indicator measurableSet_Ici)
  have h4 := h.lintegral hm hg
  have h5 : ∀ k, (Set.Ici (-c)).indicator (fun u => f √((u + c) / α)) (disp k) = f √((disp k + c) / α) := fun k =>
    Set.indicator_of_mem (hc k) _
  simp only [h5] at h3
  rw [h4, ← h3]
  congr 1
  funext u
  by_cases hu : u ∈ Set.Ici (-c) <;> simp [Set.indicator, hu]

/-- The density of two bands with opposite energies, the squares of which are an affine function of another dispersion. -/
lemma _root_.Gftool.Spec.IsDosOf.fold (h : IsDosOf μ disp dos) (hm : Measurable disp) {α c : ℝ} (hα : 0 < α)
    (hc : ∀ k, -c ≤ disp k) :
    IsDosOfBands μ ![fun k => √((disp k + c) / α), fun k => -√((disp k + c) / α)] 2
      (fun x => α * |x| * dos (α * x ^ 2 - c)) where
  measurable := (by fun_prop : Measurable fun x : ℝ => α * |x|).mul (h.measurable.comp (by fun_prop))
  nonneg e := by
    have := h.nonneg (α * e ^ 2 - c)
    positivity
  density := by
    have hmeas : Measurable fun x : ℝ => α * |x| * dos (α * x ^ 2 - c) :=
      (by fun_prop : Measurable fun x : ℝ => α * |x|).mul (h.measurable.comp (by fun_prop))
    have hb : Measurable fun k => √((disp k + c) / α) := by fun_prop
    refine Measure.ext_of_lintegral _ fun f hf => ?_
    rw [Fin.sum_univ_two, lintegral_add_measure, lintegral_smul_measure,
      lintegral_withDensity_eq_lintegral_mul _ hmeas.ennreal_ofReal hf]
    simp only [Matrix.cons_val_zero, Matrix.cons_val_one]
    rw [lintegral_map hf hb, lintegral_map hf (by fun_prop)]
    have h1 := fold_half h hm hα hc hf
    have h2 := fold_half h hm hα hc (hf.comp measurable_neg)
    simp only [Function.comp] at h2
    rw [← h1, ← h2]
    obtain ⟨g, hg⟩ : ∃ g : ℝ → ℝ≥0∞, g = fun x => 2 * ENNReal.ofReal (α * |x| * dos (α * x ^ 2 - c)) * f x := ⟨_, rfl⟩
    have e1 : ∫⁻ x in Set.Ioi (0 : ℝ), 2 * ENNReal.ofReal (α * |x| * dos (α * x ^ 2 - c)) * f (-x)
        = ∫⁻ x in Set.Iio (0 : ℝ), g x := by
      rw [← lintegral_indicator measurableSet_Ioi, ← lintegral_indicator measurableSet_Iio,
        ← lintegral_neg_eq_self]
      congr 1
      funext x
      by_cases hx : x < 0
      · simp [Set.indicator, hx, hg]
      · simp [Set.indicator, hx]
    rw [e1, ← hg, add_comm, setLIntegral_congr (Iio_ae_eq_Iic (a := (0 : ℝ)))]
    have e2 : (Set.Ioi (0 : ℝ)) = (Set.Iic 0)ᶜ := by
      rw [Set.compl_Iic]
    rw [e2, lintegral_add_compl g measurableSet_Iic, hg]
    simp only [Pi.mul_apply, Nat.cast_ofNat, smul_eq_mul]
    rw [← lintegral_const_mul]
    · congr 1
      funext x
      rw [mul_assoc]
    · exact hmeas.ennreal_ofReal.mul hf

/-- A shift of all bands. -/
lemma _root_.Gftool.Spec.IsDosOfBands.shift {n : ℕ} {bands : Fin n → κ → ℝ} {N : ℕ} (h : IsDosOfBands μ bands N dos)
    (hm : ∀ i, Measurable (bands i)) (s : ℝ) :
    IsDosOfBands μ (fun i k => s + bands i k) N (fun e => dos (e - s)) where
  measurable := h.measurable.comp (by fun_prop)
  nonneg e := h.nonneg _
  density := by
    refine Measure.ext_of_lintegral _ fun f hf => ?_
    have hfs : Measurable fun e => f (s + e) := hf.comp (by fun_prop)
    have hds : Measurable fun e => ENNReal.ofReal (dos (e - s)) := (h.measurable.comp (by fun_prop)).ennreal_ofReal
    have h1 := congrArg (fun ν => ∫⁻ e, f (s + e) ∂ν) h.density
    rw [lintegral_finsetSum_measure, lintegral_smul_measure,
      lintegral_withDensity_eq_lintegral_mul _ h.measurable.ennreal_ofReal hfs] at h1
    rw [lintegral_finsetSum_measure, lintegral_smul_measure,
      lintegral_withDensity_eq_lintegral_mul _ hds hf,
      ← lintegral_add_left_eq_self _ s]
    simp only [Pi.mul_apply, add_sub_cancel_left] at h1 ⊢
    rw [← h1]
    refine Finset.sum_congr rfl fun i _ => ?_
    rw [lintegral_map hf (by have := hm i; fun_prop), lintegral_map hfs (hm i)]

/-- The density per site for a larger unit cell. -/
lemma _root_.Gftool.Spec.IsDosOfBands.unit_cell {n : ℕ} {bands : Fin n → κ → ℝ} {N M : ℕ} (h : IsDosOfBands μ bands N dos)
    (hM : M ≠ 0) : IsDosOfBands μ bands M (fun e => N / M * dos e) where
  measurable := h.measurable.const_mul _
  nonneg e := by
    have := h.nonneg e
    positivity
  density := by
    rw [h.density, ← withDensity_smul _ h.measurable.ennreal_ofReal,
      ← withDensity_smul _ (h.measurable.const_mul _).ennreal_ofReal]
    congr 1
    funext e
    simp only [Pi.smul_apply, smul_eq_mul]
    rw [← ENNReal.ofReal_natCast, ← ENNReal.ofReal_natCast, ← ENNReal.ofReal_mul (by positivity),
      ← ENNReal.ofReal_mul (by positivity)]
    congr 1
    field_simp

/-- Averages over the density of states. -/
lemma _root_.Gftool.Spec.IsDosOfBands.integral {n : ℕ} {bands : Fin n → κ → ℝ} {N : ℕ} (h : IsDosOfBands μ bands N dos)
    (hm : ∀ i, Measurable (bands i)) {f : ℝ → ℝ} (hf : Measurable f) (hi : ∀ i, Integrable (fun k => f (bands i k)) μ) :
    N * ∫ e, f e * dos e = ∑ i, ∫ k, f (bands i k) ∂μ := by
  have h1 := congrArg (fun ν => ∫ e, f e ∂ν) h.density
  rw [integral_finsetSum_measure, integral_smul_measure,
    integral_withDensity_eq_integral_toReal_smul h.measurable.ennreal_ofReal
      (Filter.Eventually.of_forall fun _ => ENNReal.ofReal_lt_top)] at h1
  · simp only [ENNReal.toReal_natCast, smul_eq_mul] at h1
    have h2 : ∫ e, f e * dos e = ∫ e, (ENNReal.ofReal (dos e)).toReal * f e := by
      congr 1
      funext e
      rw [ENNReal.toReal_ofReal (h.nonneg e), mul_comm]
    rw [h2, ← h1]
    refine Finset.sum_congr rfl fun i _ => ?_
    rw [integral_map (hm i).aemeasurable hf.aestronglyMeasurable]
  · intro i _
    exact (integrable_map_measure hf.aestronglyMeasurable (hm i).aemeasurable).2 (hi i)

/-- Averages of complex functions over the density of states. -/
lemma _root_.Gftool.Spec.IsDosOfBands.integral_complex {n : ℕ} {bands : Fin n → κ → ℝ} {N : ℕ}
    (h : IsDosOfBands μ bands N dos) (hm : ∀ i, Measurable (bands i)) {f : ℝ → ℂ} (hf : Measurable f)
    (hi : ∀ i, Integrable (fun k => f (bands i k)) μ) :
    N * ∫ e, (dos e : ℂ) * f e = ∑ i, ∫ k, f (bands i k) ∂μ := by
  have h1 := congrArg (fun ν => ∫ e, f e ∂ν) h.density
  rw [integral_finsetSum_measure, integral_smul_measure,
    integral_withDensity_eq_integral_toReal_smul h.measurable.ennreal_ofReal
      (Filter.Eventually.of_forall fun _ => ENNReal.ofReal_lt_top)] at h1
  · simp only [ENNReal.toReal_natCast, Complex.real_smul, Complex.ofReal_natCast] at h1
    have h2 : ∫ e, (dos e : ℂ) * f e = ∫ e, ((ENNReal.ofReal (dos e)).toReal : ℂ) * f e := by
      congr 1
      funext e
      rw [ENNReal.toReal_ofReal (h.nonneg e)]
    rw [h2, ← h1]
    refine Finset.sum_congr rfl fun i _ => ?_
    rw [integral_map (hm i).aemeasurable hf.aestronglyMeasurable]
  · intro i _
    exact (integrable_map_measure hf.aestronglyMeasurable (hm i).aemeasurable).2 (hi i)

end Gftool.Lemmas
