import Verif.Spec.Dispersion
import Mathlib.Tactic
import Mathlib.MeasureTheory.Integral.IntervalIntegral.FundThmCalculus
import Mathlib.MeasureTheory.Integral.DominatedConvergence
import Mathlib.MeasureTheory.Integral.Prod
import Mathlib.MeasureTheory.Constructions.BorelSpace.Order
import Mathlib.Analysis.SpecialFunctions.Trigonometric.ArctanDeriv
import Mathlib.MeasureTheory.Function.LocallyIntegrable

/-!
# Stieltjes inversion

Where the Green's function has continuous boundary values, the distribution of the energies has
the density `-Im G(ε + i0⁺)/π`.
-/

namespace Gftool.Lemmas

open Gftool Spec MeasureTheory Filter Topology

/-- Integral of the Lorentzian. -/
lemma integral_lorentz {η : ℝ} (hη : 0 < η) (c d e : ℝ) :
    ∫ x in c..d, η / ((x - e) ^ 2 + η ^ 2) = Real.arctan ((d - e) / η) - Real.arctan ((c - e) / η) := by
  have hd : ∀ x ∈ Set.uIcc c d, HasDerivAt (fun x => Real.arctan ((x - e) / η)) (η / ((x - e) ^ 2 + η ^ 2)) x := by
    intro x _
    have h1 : HasDerivAt (fun x => (x - e) / η) (1 / η) x := ((hasDerivAt_id x).sub_const e).div_const η
    refine h1.arctan.congr_deriv ?_
    have : (x - e) ^ 2 + η ^ 2 ≠ 0 := by positivity
    have h2 : 1 + ((x - e) / η) ^ 2 ≠ 0 := by positivity
    field_simp
    ring
  rw [intervalIntegral.integral_eq_sub_of_hasDerivAt hd]
  apply Continuous.intervalIntegrable
  refine Continuous.div (by fun_prop) (by fun_prop) fun x => ?_
  positivity

/-- The step function that is approached. -/
noncomputable def halfStep (x : ℝ) : ℝ := if x < 0 then -(Real.pi / 2) else if x = 0 then 0 else Real.pi / 2

lemma tendsto_arctan_div (x : ℝ) : Tendsto (fun η : ℝ => Real.arctan (x / η)) (𝓝[>] 0) (𝓝 (halfStep x)) := by
  unfold halfStep
  split_ifs with h1 h2
  · have h : Tendsto (fun η : ℝ => x / η) (𝓝[>] 0) atBot := by
      have := tendsto_inv_nhdsGT_zero (𝕜 := ℝ)
      simp_rw [div_eq_mul_inv]
      exact this.const_mul_atTop_of_neg h1
    exact ((Real.tendsto_arctan_atBot).mono_right nhdsWithin_le_nhds).comp h
  · subst h2
    simp
  · have hx : 0 < x := lt_of_le_of_ne (not_lt.1 h1) (Ne.symm h2)
    have h : Tendsto (fun η : ℝ => x / η) (𝓝[>] 0) atTop := by
      have := tendsto_inv_nhdsGT_zero (𝕜 := ℝ)
      simp_rw [div_eq_mul_inv]
      exact this.const_mul_atTop hx
    exact ((Real.tendsto_arctan_atTop).mono_right nhdsWithin_le_nhds).comp h

lemma green_im {κ : Type*} [MeasurableSpace κ] {μ : Measure κ} [IsProbabilityMeasure μ] {disp : κ → ℝ}
    (hm : Measurable disp) {x η : ℝ} (hη : 0 < η) :
    -(bzGreen μ disp (x + η * Complex.I)).im = ∫ k, η / ((x - disp k) ^ 2 + η ^ 2) ∂μ := by
  have hne : ∀ e : ℝ, (x + η * Complex.I - e : ℂ) ≠ 0 := fun e h => by
    have := congrArg Complex.im h
    simp at this
    exact hη.ne' this
  have hint : Integrable (fun k => 1 / ((x + η * Complex.I : ℂ) - disp k)) μ := by
    refine Integrable.of_bound (by apply Measurable.aestronglyMeasurable; fun_prop) (1 / η) (Eventually.of_forall fun k => ?_)
    rw [norm_div, norm_one]
    refine one_div_le_one_div_of_le hη ?_
    have := Complex.abs_im_le_norm ((x + η * Complex.I : ℂ) - disp k)
    simp only [Complex.sub_im, Complex.add_im, Complex.ofReal_im, Complex.mul_im, Complex.ofReal_re, Complex.I_im,
      mul_one, Complex.I_re, mul_zero, add_zero, zero_add, sub_zero, abs_of_pos hη] at this
    exact this
  unfold bzGreen
  have h1 : (∫ k, 1 / ((x + η * Complex.I : ℂ) - disp k) ∂μ).im = ∫ k, (1 / ((x + η * Complex.I : ℂ) - disp k)).im ∂μ :=
    (integral_im hint).symm
  rw [h1, ← integral_neg]
  congr 1
  funext k
  rw [one_div, Complex.inv_im]
  have : Complex.normSq ((x + η * Complex.I : ℂ) - disp k) = (x - disp k) ^ 2 + η ^ 2 := by
    rw [Complex.normSq_apply]
    simp
    ring
  rw [this]
  simp
  ring

/-- The integral of the spectral function over an interval. -/
lemma integral_green_im {κ : Type*} [MeasurableSpace κ] {μ : Measure κ} [IsProbabilityMeasure μ] {disp : κ → ℝ}
    (hm : Measurable disp) {c d η : ℝ} (hη : 0 < η) :
    ∫ x in c..d, -(bzGreen μ disp (x + η * Complex.I)).im
      = ∫ k, (Real.arctan ((d - disp k) / η) - Real.arctan ((c - disp k) / η)) ∂μ := by
  simp_rw [green_im hm hη, ← integral_lorentz hη c d]
  rw [intervalIntegral_integral_swap]
  have : IsFiniteMeasure (volume.restrict (Set.uIoc c d)) := ⟨by simp [Set.uIoc]⟩
  refine Integrable.of_bound ?_ (1 / η) (Eventually.of_forall fun p => ?_)
  · apply Measurable.aestronglyMeasurable
    fun_prop
  · have h0 : 0 < (p.1 - disp p.2) ^ 2 + η ^ 2 := by positivity
    simp only [Function.uncurry]
    rw [Real.norm_eq_abs, abs_of_nonneg (by positivity), div_le_div_iff₀ h0 hη]
    nlinarith [sq_nonneg (p.1 - disp p.2)]

/-- The closed rectangle above an interval of the real axis. -/
def rect (a b : ℝ) : Set ℂ := {z | z.re ∈ Set.Icc a b ∧ z.im ∈ Set.Icc 0 1}

lemma isCompact_rect (a b : ℝ) : IsCompact (rect a b) := by
  have : rect a b = Set.Icc a b ×ℂ Set.Icc 0 1 := by
    ext z
    rfl
  rw [this]
  exact isCompact_Icc.reProdIm isCompact_Icc

section
variable {κ : Type*} [MeasurableSpace κ] {μ : Measure κ} [IsProbabilityMeasure μ] {disp : κ → ℝ} {H : ℂ → ℂ}
  {a b : ℝ}

lemma integral_halfStep (hm : Measurable disp) (hab : a ≤ b) (hH : ContinuousOn H (rect a b))
    (hG : ∀ z : ℂ, z.re ∈ Set.Icc a b → 0 < z.im → H z = bzGreen μ disp z) :
    ∫ k, (halfStep (b - disp k) - halfStep (a - disp k)) ∂μ = ∫ x in a..b, -(H x).im := by
  obtain ⟨C, hC⟩ : ∃ C, ∀ z ∈ rect a b, ‖H z‖ ≤ C := (isCompact_rect a b).exists_bound_of_continuousOn hH
  have hmem : ∀ x ∈ Set.Icc a b, ∀ η ∈ Set.Icc (0 : ℝ) 1, ((x : ℂ) + η * Complex.I) ∈ rect a b := by
    intro x hx η hη
    simp only [rect, Set.mem_ofPred_eq]
    simpa using ⟨hx, hη⟩
  have h01 : Set.Ioo (0 : ℝ) 1 ∈ 𝓝[>] (0 : ℝ) := Ioo_mem_nhdsGT one_pos
  have t1 : Tendsto (fun η : ℝ => ∫ x in a..b, -(H (x + η * Complex.I)).im) (𝓝[>] 0) (𝓝 (∫ x in a..b, -(H x).im)) := by
    refine intervalIntegral.tendsto_integral_filter_of_dominated_convergence (fun _ => C) ?_ ?_ (by simp) ?_
    · filter_upwards [h01] with η hη
      have hc : ContinuousOn (fun x : ℝ => -(H (x + η * Complex.I)).im) (Set.Icc a b) := by
        refine (Complex.continuous_im.comp_continuousOn (ContinuousOn.comp (t := rect a b) hH (by fun_prop) ?_)).neg
        intro x hx
        exact hmem x hx η ⟨hη.1.le, hη.2.le⟩
      rw [Set.uIoc_of_le hab]
      exact (hc.mono Set.Ioc_subset_Icc_self).aestronglyMeasurable measurableSet_Ioc
    · filter_upwards [h01] with η hη
      refine Eventually.of_forall fun x hx => ?_
      rw [Set.uIoc_of_le hab] at hx
      rw [norm_neg, Real.norm_eq_abs]
      exact (Complex.abs_im_le_norm _).trans (hC _ (hmem x ⟨hx.1.le, hx.2⟩ η ⟨hη.1.le, hη.2.le⟩))
    · refine Eventually.of_forall fun x hx => ?_
      rw [Set.uIoc_of_le hab] at hx
      have hx' : x ∈ Set.Icc a b := ⟨hx.1.le, hx.2⟩
      have h0 : (x : ℂ) ∈ rect a b := by
        have := hmem x hx' 0 ⟨le_rfl, zero_le_one⟩
        simpa using this
      have hpath : Tendsto (fun η : ℝ => (x : ℂ) + η * Complex.I) (𝓝[>] 0) (𝓝[rect a b] (x : ℂ)) := by
        refine tendsto_nhdsWithin_of_tendsto_nhds_of_eventually_within _ ?_ ?_
        · have : Tendsto (fun η : ℝ => (x : ℂ) + η * Complex.I) (𝓝 0) (𝓝 ((x : ℂ) + (0 : ℝ) * Complex.I)) := by
            apply Continuous.tendsto; fun_prop
          simp only [Complex.ofReal_zero, zero_mul, add_zero] at this
          exact this.mono_left nhdsWithin_le_nhds
        · filter_upwards [h01] with η hη
          exact hmem x hx' η ⟨hη.1.le, hη.2.le⟩
      have := ((hH _ h0).tendsto).comp hpath
      exact ((Complex.continuous_im.tendsto _).comp this).neg
  have t2 : Tendsto (fun η : ℝ => ∫ k, (Real.arctan ((b - disp k) / η) - Real.arctan ((a - disp k) / η)) ∂μ) (𝓝[>] 0)
      (𝓝 (∫ k, (halfStep (b - disp k) - halfStep (a - disp k)) ∂μ)) := by
    refine tendsto_integral_filter_of_dominated_convergence (fun _ => Real.pi) ?_ ?_ (integrable_const _) ?_
    · refine Eventually.of_forall fun η => ?_
      apply Measurable.aestronglyMeasurable
      have := Real.continuous_arctan.measurable
      fun_prop
    · refine Eventually.of_forall fun η => Eventually.of_forall fun k => ?_
      rw [Real.norm_eq_abs, abs_le]
      constructor <;>
      linarith [Real.arctan_lt_pi_div_two ((b - disp k) / η), Real.neg_pi_div_two_lt_arctan ((b - disp k) / η),
        Real.arctan_lt_pi_div_two ((a - disp k) / η), Real.neg_pi_div_two_lt_arctan ((a - disp k) / η)]
    · exact Eventually.of_forall fun k => (tendsto_arctan_div _).sub (tendsto_arctan_div _)
  refine tendsto_nhds_unique t2 (t1.congr' ?_)
  filter_upwards [self_mem_nhdsWithin] with η hη
  rw [← integral_green_im hm hη]
  refine intervalIntegral.integral_congr fun x hx => ?_
  rw [Set.uIcc_of_le hab] at hx
  rw [hG _ (by simpa using hx) (by simpa using hη)]

lemma measurable_halfStep : Measurable halfStep := by
  unfold halfStep
  refine Measurable.ite measurableSet_Iio measurable_const (Measurable.ite (measurableSet_singleton 0) ?_ ?_) <;>
  exact measurable_const

private lemma halfStep_bounds (x : ℝ) : -(Real.pi / 2) ≤ halfStep x ∧ halfStep x ≤ Real.pi / 2 := by
  have := Real.pi_pos
  unfold halfStep
  split_ifs <;> constructor <;> linarith

lemma halfStep_pointwise {a b : ℝ} (hab : a < b) (e : ℝ) :
    (Set.Ioo a b).indicator (fun _ => Real.pi) e ≤ halfStep (b - e) - halfStep (a - e) ∧
    halfStep (b - e) - halfStep (a - e) ≤ (Set.Icc a b).indicator (fun _ => Real.pi) e := by
  have hpi := Real.pi_pos
  have hneg : ∀ x : ℝ, x < 0 → halfStep x = -(Real.pi / 2) := fun x hx => by rw [halfStep, if_pos hx]
  have hzero : halfStep 0 = 0 := by simp [halfStep]
  have hpos : ∀ x : ℝ, 0 < x → halfStep x = Real.pi / 2 := fun x hx => by
    rw [halfStep, if_neg (not_lt.2 hx.le), if_neg hx.ne']
  rcases lt_trichotomy e a with h | h | h
  · have h1 : e ∉ Set.Ioo a b := fun h' => by linarith [h'.1]
    have h2 : e ∉ Set.Icc a b := fun h' => by linarith [h'.1]
    rw [Set.indicator_of_notMem h1, Set.indicator_of_notMem h2, hpos _ (by linarith), hpos _ (by linarith)]
    simp
  · subst h
    have h1 : e ∉ Set.Ioo e b := fun h' => by linarith [h'.1]
    have h2 : e ∈ Set.Icc e b := ⟨le_rfl, hab.le⟩
    rw [Set.indicator_of_notMem h1, Set.indicator_of_mem h2, hpos _ (by linarith), sub_self, hzero]
    constructor <;> linarith
  · rcases lt_trichotomy e b with h' | h' | h'
    · have h1 : e ∈ Set.Ioo a b := ⟨h, h'⟩
      have h2 : e ∈ Set.Icc a b := ⟨h.le, h'.le⟩
      rw [Set.indicator_of_mem h1, Set.indicator_of_mem h2, hpos _ (by linarith), hneg _ (by linarith)]
      constructor <;> linarith
    · subst h'
      have h1 : e ∉ Set.Ioo a e := fun h' => by linarith [h'.2]
      have h2 : e ∈ Set.Icc a e := ⟨h.le, le_rfl⟩
      rw [Set.indicator_of_notMem h1, Set.indicator_of_mem h2, hneg (a - e) (by linarith), sub_self, hzero]
      constructor <;> linarith
    · have h1 : e ∉ Set.Ioo a b := fun h' => by linarith [h'.2]
      have h2 : e ∉ Set.Icc a b := fun h' => by linarith [h'.2]
      rw [Set.indicator_of_notMem h1, Set.indicator_of_notMem h2, hneg _ (by linarith), hneg _ (by linarith)]
      simp

lemma measure_bounds (hm : Measurable disp) (hab : a < b) (hH : ContinuousOn H (rect a b))
    (hG : ∀ z : ℂ, z.re ∈ Set.Icc a b → 0 < z.im → H z = bzGreen μ disp z) :
    (μ.map disp).real (Set.Ioo a b) ≤ ∫ x in a..b, -(H x).im / Real.pi ∧
    ∫ x in a..b, -(H x).im / Real.pi ≤ (μ.map disp).real (Set.Icc a b) := by
  have hpi := Real.pi_pos
  have h := integral_halfStep hm hab.le hH hG
  have hms : ∀ t : ℝ, Measurable fun k => halfStep (t - disp k) := fun t => measurable_halfStep.comp (by fun_prop)
  have hint : Integrable (fun k => halfStep (b - disp k) - halfStep (a - disp k)) μ :=
    Integrable.of_bound ((hms b).sub (hms a)).aestronglyMeasurable Real.pi (Eventually.of_forall fun k => by
      rw [Real.norm_eq_abs, abs_le]
      have h1 := halfStep_bounds (b - disp k)
      have h2 := halfStep_bounds (a - disp k)
      constructor <;> linarith [h1.1, h1.2, h2.1, h2.2])
  have hind : ∀ s : Set ℝ, MeasurableSet s → (μ.map disp).real s * Real.pi
      = ∫ k, (disp ⁻¹' s).indicator (fun _ => Real.pi) k ∂μ := by
    intro s hs
    rw [integral_indicator (hm hs), setIntegral_const, smul_eq_mul, map_measureReal_apply hm hs]
  rw [intervalIntegral.integral_div, ← h, le_div_iff₀ hpi, div_le_iff₀ hpi, hind _ measurableSet_Ioo,
    hind _ measurableSet_Icc]
  constructor
  · refine integral_mono ((integrable_const _).indicator (hm measurableSet_Ioo)) hint fun k => ?_
    exact (halfStep_pointwise hab (disp k)).1
  · refine integral_mono hint ((integrable_const _).indicator (hm measurableSet_Icc)) fun k => ?_
    exact (halfStep_pointwise hab (disp k)).2

/-- Stieltjes inversion: where the Green's function has continuous boundary values `H`, the density of the
energies is `-Im H/π`. -/
lemma stieltjes_inversion (hm : Measurable disp) (hH : ContinuousOn H (rect a b))
    (hG : ∀ z : ℂ, z.re ∈ Set.Icc a b → 0 < z.im → H z = bzGreen μ disp z) {dos : ℝ → ℝ} (hdos : Measurable dos)
    (hd0 : ∀ e, 0 ≤ dos e) (hd : ∀ e ∈ Set.Ioo a b, dos e = -(H e).im / Real.pi) :
    (μ.map disp).restrict (Set.Ioo a b)
      = (volume.withDensity fun e => ENNReal.ofReal (dos e)).restrict (Set.Ioo a b) := by
  have hprob : IsProbabilityMeasure (μ.map disp) := Measure.isProbabilityMeasure_map hm.aemeasurable
  obtain ⟨C, hC⟩ : ∃ C, ∀ z ∈ rect a b, ‖H z‖ ≤ C := (isCompact_rect a b).exists_bound_of_continuousOn hH
  have hpi := Real.pi_pos
  have hHx : ContinuousOn (fun x : ℝ => -(H x).im / Real.pi) (Set.Icc a b) := by
    refine ContinuousOn.div_const (ContinuousOn.neg (Complex.continuous_im.comp_continuousOn
      (ContinuousOn.comp (t := rect a b) hH Complex.continuous_ofReal.continuousOn ?_))) _
    intro x hx
    simpa [rect] using hx
  have hbound : ∀ x ∈ Set.Icc a b, |-(H x).im / Real.pi| ≤ C / Real.pi := by
    intro x hx
    rw [abs_div, abs_neg, abs_of_pos hpi]
    have := (Complex.abs_im_le_norm _).trans (hC (x : ℂ) (by simpa [rect] using hx))
    gcongr
  -- the measure of the intervals
  have key : ∀ c d, a ≤ c → c < d → d ≤ b →
      (μ.map disp).real (Set.Ioo c d) = ∫ x in c..d, -(H x).im / Real.pi := by
    intro c d hac hcd hdb
    have hsub : ∀ c' d', c ≤ c' → d' ≤ d → rect c' d' ⊆ rect a b := fun c' d' h1 h2 z hz =>
      ⟨⟨by linarith [hz.1.1], by linarith [hz.1.2]⟩, hz.2⟩
    have hsubG : ∀ c' d', c ≤ c' → d' ≤ d → ∀ z : ℂ, z.re ∈ Set.Icc c' d' → 0 < z.im → H z = bzGreen μ disp z :=
      fun c' d' h1 h2 z hz => hG z ⟨by linarith [hz.1], by linarith [hz.2]⟩
    refine le_antisymm (measure_bounds hm hcd (hH.mono (hsub c d le_rfl le_rfl)) (hsubG c d le_rfl le_rfl)).1 ?_
    have hI : ∀ u v, u ∈ Set.Icc c d → v ∈ Set.Icc c d →
        IntervalIntegrable (fun x : ℝ => -(H x).im / Real.pi) volume u v := fun u v hu hv => by
      refine (hHx.mono ?_).intervalIntegrable
      intro x hx
      have := Set.uIcc_subset_Icc hu hv hx
      exact ⟨by linarith [this.1], by linarith [this.2]⟩
    have hlow : ∀ δ ∈ Set.Ioo 0 ((d - c) / 2),
        (∫ x in c..d, -(H x).im / Real.pi) - 2 * δ * (C / Real.pi) ≤ (μ.map disp).real (Set.Ioo c d) := by
      intro δ hδ
      have h1 := (measure_bounds hm (a := c + δ) (b := d - δ) (by linarith [hδ.2])
        (hH.mono (hsub _ _ (by linarith [hδ.1]) (by linarith [hδ.1])))
        (hsubG _ _ (by linarith [hδ.1]) (by linarith [hδ.1]))).2
      have h2 : (μ.map disp).real (Set.Icc (c + δ) (d - δ)) ≤ (μ.map disp).real (Set.Ioo c d) :=
        measureReal_mono fun x hx => ⟨by linarith [hx.1, hδ.1], by linarith [hx.2, hδ.1]⟩
      have e1 : (∫ x in c..d, -(H x).im / Real.pi) = (∫ x in c..(c + δ), -(H x).im / Real.pi)
          + (∫ x in (c + δ)..(d - δ), -(H x).im / Real.pi) + ∫ x in (d - δ)..d, -(H x).im / Real.pi := by
        rw [intervalIntegral.integral_add_adjacent_intervals, intervalIntegral.integral_add_adjacent_intervals]
        all_goals apply hI
        all_goals constructor <;> linarith [hδ.1, hδ.2]
      have b1 : ‖∫ x in c..(c + δ), -(H x).im / Real.pi‖ ≤ C / Real.pi * |c + δ - c| :=
        intervalIntegral.norm_integral_le_of_norm_le_const fun x hx => by
          rw [Set.uIoc_of_le (by linarith [hδ.1])] at hx
          exact hbound x ⟨by linarith [hx.1], by linarith [hx.2, hδ.2]⟩
      have b2 : ‖∫ x in (d - δ)..d, -(H x).im / Real.pi‖ ≤ C / Real.pi * |d - (d - δ)| :=
        intervalIntegral.norm_integral_le_of_norm_le_const fun x hx => by
          rw [Set.uIoc_of_le (by linarith [hδ.1])] at hx
          exact hbound x ⟨by linarith [hx.1, hδ.2], by linarith [hx.2]⟩
      rw [add_sub_cancel_left, abs_of_pos hδ.1] at b1
      rw [sub_sub_cancel, abs_of_pos hδ.1] at b2
      have b1' := (le_abs_self _).trans b1
      have b2' := (le_abs_self _).trans b2
      rw [e1]
      linarith
    have ht : Tendsto (fun δ : ℝ => (∫ x in c..d, -(H x).im / Real.pi) - 2 * δ * (C / Real.pi)) (𝓝[>] 0)
        (𝓝 (∫ x in c..d, -(H x).im / Real.pi)) := by
      have : Tendsto (fun δ : ℝ => (∫ x in c..d, -(H x).im / Real.pi) - 2 * δ * (C / Real.pi)) (𝓝 0)
          (𝓝 ((∫ x in c..d, -(H x).im / Real.pi) - 2 * 0 * (C / Real.pi))) := by
        apply Continuous.tendsto; fun_prop
      simp only [mul_zero, zero_mul, sub_zero] at this
      exact this.mono_left nhdsWithin_le_nhds
    refine le_of_tendsto ht ?_
    filter_upwards [Ioo_mem_nhdsGT (show (0 : ℝ) < (d - c) / 2 by linarith)] with δ hδ
    exact hlow δ hδ
  have hfin : ∀ c d, a ≤ c → c < d → d ≤ b →
      (μ.map disp) (Set.Ioo c d) = (volume.withDensity fun e => ENNReal.ofReal (dos e)) (Set.Ioo c d) := by
    intro c d hac hcd hdb
    have hsub : Set.Ioo c d ⊆ Set.Ioo a b := Set.Ioo_subset_Ioo hac hdb
    rw [withDensity_apply _ measurableSet_Ioo, ← ofReal_integral_eq_lintegral_ofReal]
    · rw [← ENNReal.ofReal_toReal (measure_ne_top (μ.map disp) _)]
      congr 1
      have := key c d hac hcd hdb
      rw [Measure.real] at this
      rw [this, intervalIntegral.integral_of_le hcd.le, integral_Ioc_eq_integral_Ioo]
      exact setIntegral_congr_fun measurableSet_Ioo fun x hx => (hd x (hsub hx)).symm
    · have h1 : IntegrableOn (fun x : ℝ => -(H x).im / Real.pi) (Set.Ioo c d) :=
        (hHx.integrableOn_Icc).mono_set fun x hx => ⟨by linarith [hx.1], by linarith [hx.2]⟩
      exact (integrableOn_congr_fun (fun x hx => hd x (hsub hx)) measurableSet_Ioo).2 h1
    · exact Eventually.of_forall fun e => hd0 e
  refine Real.measure_ext_Ioo_rat fun p q => ?_
  rw [Measure.restrict_apply measurableSet_Ioo, Measure.restrict_apply measurableSet_Ioo, Set.Ioo_inter_Ioo]
  by_cases h : max (p : ℝ) a < min (q : ℝ) b
  · exact hfin _ _ (le_max_right _ _) h (min_le_right _ _)
  · rw [Set.Ioo_eq_empty h]
    simp

end

end Gftool.Lemmas
