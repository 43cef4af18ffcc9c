import Verif.Lemmas.Bz

/-!
# Densities of states given by a dispersion
-/

namespace Gftool.Lemmas

open Gftool Spec MeasureTheory

open scoped ENNReal

section
variable {κ : Type*} [MeasurableSpace κ] {μ : Measure κ} {disp : κ → ℝ} {dos : ℝ → ℝ}

/-- Averages over the density of states are averages over momenta. -/
lemma _root_.Gftool.Spec.IsDosOf.integral_smul {E : Type*} [NormedAddCommGroup E] [NormedSpace ℝ E]
    (h : IsDosOf μ disp dos) (hm : Measurable disp) {f : ℝ → E} (hf : StronglyMeasurable f) :
    ∫ e, dos e • f e = ∫ k, f (disp k) ∂μ := by
  rw [← integral_map hm.aemeasurable hf.aestronglyMeasurable, h.density,
    integral_withDensity_eq_integral_toReal_smul h.measurable.ennreal_ofReal
      (Filter.Eventually.of_forall fun _ => ENNReal.ofReal_lt_top)]
  refine integral_congr_ae (Filter.Eventually.of_forall fun e => ?_)
  simp only
  rw [ENNReal.toReal_ofReal (h.nonneg e)]

lemma _root_.Gftool.Spec.IsDosOf.integrable [IsProbabilityMeasure μ] (h : IsDosOf μ disp dos) (hm : Measurable disp) :
    Integrable dos ∧ ∫ e, dos e = 1 := by
  have h1 : ∫⁻ e, ENNReal.ofReal (dos e) = 1 := by
    have h2 : (μ.map disp) Set.univ = 1 := by
      rw [Measure.map_apply hm MeasurableSet.univ]
      simp
    rw [h.density, withDensity_apply _ MeasurableSet.univ, Measure.restrict_univ] at h2
    exact h2
  have hi : Integrable dos := by
    refine ⟨h.measurable.aestronglyMeasurable, ?_⟩
    rw [hasFiniteIntegral_iff_ofReal (Filter.Eventually.of_forall h.nonneg), h1]
    exact ENNReal.one_lt_top
  refine ⟨hi, ?_⟩
  rw [integral_eq_lintegral_of_nonneg_ae (Filter.Eventually.of_forall h.nonneg) h.measurable.aestronglyMeasurable, h1]
  rfl

/-- The Green's function of a dispersion is the Hilbert transform of its density of states. -/
lemma _root_.Gftool.Spec.IsDosOf.hilbertPair [IsProbabilityMeasure μ] (h : IsDosOf μ disp dos) (hm : Measurable disp)
    {a b : ℝ} (hout : ∀ e, e ∉ Set.Icc a b → dos e = 0) :
    HilbertPair dos (bzGreen μ disp) a b 1 where
  measurable := h.measurable
  nonneg := h.nonneg
  outside := hout
  integrable := (h.integrable hm).1
  norm := (h.integrable hm).2
  hilbert z _ := by
    unfold bzGreen
    have hs : StronglyMeasurable fun e : ℝ => 1 / (z - e) := by
      apply Measurable.stronglyMeasurable
      fun_prop
    rw [← h.integral_smul hm hs]
    congr 1
    funext e
    rw [Complex.real_smul]
    ring

lemma _root_.Gftool.Spec.HilbertPair.congr {dos : ℝ → ℝ} {gf gf' : ℂ → ℂ} {a b w : ℝ} (h : HilbertPair dos gf a b w)
    (hg : ∀ z : ℂ, (∀ e ∈ Set.Icc a b, z ≠ (e : ℂ)) → gf' z = gf z) : HilbertPair dos gf' a b w :=
  { h with hilbert := fun z hz => (hg z hz).trans (h.hilbert z hz) }

end

lemma continuousAt_sqrt {x : ℂ} (hx : x ∈ Complex.slitPlane) : ContinuousAt Complex.sqrt x := by
  unfold Complex.sqrt
  exact continuousAt_cpow_const hx

/-- Even functions of the cosine over half a period. -/
lemma intervalIntegral_even_cos {E : Type*} [NormedAddCommGroup E] [NormedSpace ℝ E] {h : ℝ → E}
    (hc : ContinuousOn h (Set.Icc 0 1)) :
    ∫ φ in (0 : ℝ)..Real.pi, h (Real.cos φ ^ 2) = (2 : ℝ) • ∫ θ in (0 : ℝ)..(Real.pi / 2), h (Real.sin θ ^ 2) := by
  have hcont : Continuous fun φ : ℝ => h (Real.cos φ ^ 2) := by
    refine hc.comp_continuous (by fun_prop) fun φ => ⟨sq_nonneg _, Real.cos_sq_le_one φ⟩
  have h1 : ∫ φ in (Real.pi / 2)..Real.pi, h (Real.cos φ ^ 2) = ∫ θ in (0 : ℝ)..(Real.pi / 2), h (Real.sin θ ^ 2) := by
    have := intervalIntegral.integral_comp_add_right (a := 0) (b := Real.pi / 2)
      (fun φ => h (Real.cos φ ^ 2)) (Real.pi / 2)
    rw [zero_add, show Real.pi / 2 + Real.pi / 2 = Real.pi by ring] at this
    rw [← this]
    simp_rw [Real.cos_add_pi_div_two, neg_sq]
  have h2 : ∫ φ in (0 : ℝ)..(Real.pi / 2), h (Real.cos φ ^ 2)
      = ∫ θ in (0 : ℝ)..(Real.pi / 2), h (Real.sin θ ^ 2) := by
    have := intervalIntegral.integral_comp_sub_left (a := 0) (b := Real.pi / 2)
      (fun φ => h (Real.cos φ ^ 2)) (Real.pi / 2)
    rw [sub_zero, sub_self] at this
    rw [← this]
    simp_rw [Real.cos_pi_div_two_sub]
  rw [← intervalIntegral.integral_add_adjacent_intervals (b := Real.pi / 2) (hcont.intervalIntegrable _ _)
    (hcont.intervalIntegrable _ _), h1, h2, two_smul]

end Gftool.Lemmas
