import Mathlib.MeasureTheory.Integral.Bochner.Set
import Mathlib.MeasureTheory.Integral.Bochner.ContinuousLinearMap
import Mathlib.MeasureTheory.Function.L1Space.Integrable
import Mathlib.Algebra.QuadraticDiscriminant
import Mathlib.Analysis.SpecificLimits.Basic
import Mathlib.Tactic

/-!
# Pick's inequality for Stieltjes transforms

For a probability measure `μ` and energies `e` in the closed lower half-plane, `stj μ e ξ = ∫ 1/(ξ - e) dμ`. The function
`1/stj - ξ` maps the upper half-plane to its closure and does not increase hyperbolic distances.
-/

namespace Gftool.Lemmas

open MeasureTheory

variable {Ω : Type*} [MeasurableSpace Ω] {μ : Measure Ω}

/-- Stieltjes transform. -/
noncomputable def stj (μ : Measure Ω) (e : Ω → ℂ) (ξ : ℂ) : ℂ := ∫ x, 1 / (ξ - e x) ∂μ

/-- The reciprocal of the Stieltjes transform, without its linear part. -/
noncomputable def stjRest (μ : Measure Ω) (e : Ω → ℂ) (ξ : ℂ) : ℂ := 1 / stj μ e ξ - ξ

/-- Cauchy-Schwarz inequality. -/
lemma norm_integral_mul_sq_le {a b : Ω → ℂ} (ha : Integrable (fun x => ‖a x‖ ^ 2) μ)
    (hb : Integrable (fun x => ‖b x‖ ^ 2) μ) (hab : Integrable (fun x => ‖a x‖ * ‖b x‖) μ) :
    ‖∫ x, a x * b x ∂μ‖ ^ 2 ≤ (∫ x, ‖a x‖ ^ 2 ∂μ) * ∫ x, ‖b x‖ ^ 2 ∂μ := by
  have h1 : ‖∫ x, a x * b x ∂μ‖ ≤ ∫ x, ‖a x‖ * ‖b x‖ ∂μ := by
    refine (norm_integral_le_integral_norm _).trans_eq ?_
    simp only [norm_mul]
  have h2 : ∀ t : ℝ, 0 ≤ (∫ x, ‖a x‖ ^ 2 ∂μ) * (t * t) + (-2 * ∫ x, ‖a x‖ * ‖b x‖ ∂μ) * t + ∫ x, ‖b x‖ ^ 2 ∂μ := by
    intro t
    have e1 : ∫ x, (t * ‖a x‖ - ‖b x‖) ^ 2 ∂μ = (∫ x, ‖a x‖ ^ 2 ∂μ) * (t * t)
        + (-2 * ∫ x, ‖a x‖ * ‖b x‖ ∂μ) * t + ∫ x, ‖b x‖ ^ 2 ∂μ := by
      have e2 : ∀ x, (t * ‖a x‖ - ‖b x‖) ^ 2 = t * t * ‖a x‖ ^ 2 + (-2 * t) * (‖a x‖ * ‖b x‖) + ‖b x‖ ^ 2 := fun x => by
        ring
      simp only [e2]
      have i1 : Integrable (fun x => t * t * ‖a x‖ ^ 2) μ := ha.const_mul _
      have i2 : Integrable (fun x => (-2 * t) * (‖a x‖ * ‖b x‖)) μ := hab.const_mul _
      have i3 : Integrable (fun x => t * t * ‖a x‖ ^ 2 + (-2 * t) * (‖a x‖ * ‖b x‖)) μ := i1.add i2
      rw [integral_add i3 hb, integral_add i1 i2, integral_const_mul, integral_const_mul]
      ring
    rw [← e1]
    exact integral_nonneg fun x => sq_nonneg _
  have h3 := discrim_le_zero h2
  unfold discrim at h3
  have h4 : ‖∫ x, a x * b x ∂μ‖ ^ 2 ≤ (∫ x, ‖a x‖ * ‖b x‖ ∂μ) ^ 2 := pow_le_pow_left₀ (norm_nonneg _) h1 2
  nlinarith

variable [IsProbabilityMeasure μ] {e : Ω → ℂ}

section

variable (he : Measurable e) (hl : ∀ x, (e x).im ≤ 0)

include hl

omit [MeasurableSpace Ω] in
lemma stj_ne {ξ : ℂ} (hξ : 0 < ξ.im) (x : Ω) : ξ - e x ≠ 0 := by
  intro h
  have := congrArg Complex.im h
  rw [Complex.sub_im, Complex.zero_im] at this
  linarith [hl x]

omit [MeasurableSpace Ω] in
lemma stj_bound {ξ : ℂ} (hξ : 0 < ξ.im) (x : Ω) : ‖1 / (ξ - e x)‖ ≤ 1 / ξ.im := by
  rw [norm_div, norm_one]
  refine one_div_le_one_div_of_le hξ ((?_ : ξ.im ≤ (ξ - e x).im).trans ((le_abs_self _).trans (Complex.abs_im_le_norm _)))
  rw [Complex.sub_im]
  linarith [hl x]

include he

lemma stj_integrable {ξ : ℂ} (hξ : 0 < ξ.im) : Integrable (fun x => 1 / (ξ - e x)) μ :=
  Integrable.of_bound (Measurable.aestronglyMeasurable (by fun_prop)) (1 / ξ.im)
    (Filter.Eventually.of_forall (stj_bound hl hξ))

lemma stj_sq_integrable {ξ : ℂ} (hξ : 0 < ξ.im) : Integrable (fun x => ‖1 / (ξ - e x)‖ ^ 2) μ :=
  Integrable.of_bound (Measurable.aestronglyMeasurable (by fun_prop)) ((1 / ξ.im) ^ 2)
    (Filter.Eventually.of_forall fun x => by
      rw [norm_pow, norm_norm]
      exact pow_le_pow_left₀ (norm_nonneg _) (stj_bound hl hξ x) 2)

lemma stj_sq_pos {ξ : ℂ} (hξ : 0 < ξ.im) : 0 < ∫ x, ‖1 / (ξ - e x)‖ ^ 2 ∂μ := by
  rw [integral_pos_iff_support_of_nonneg (fun x => by positivity) (stj_sq_integrable he hl hξ)]
  have : Function.support (fun x => ‖1 / (ξ - e x)‖ ^ 2) = Set.univ := by
    refine Set.eq_univ_of_forall fun x => ?_
    rw [Function.mem_support]
    exact pow_ne_zero 2 (norm_ne_zero_iff.2 (one_div_ne_zero (stj_ne hl hξ x)))
  rw [this]
  simp

lemma stj_im_le {ξ : ℂ} (hξ : 0 < ξ.im) : ξ.im * ∫ x, ‖1 / (ξ - e x)‖ ^ 2 ∂μ ≤ -(stj μ e ξ).im := by
  have hi := stj_integrable (μ := μ) he hl hξ
  rw [stj, show (∫ x, 1 / (ξ - e x) ∂μ).im = ∫ x, (1 / (ξ - e x)).im ∂μ from (integral_im hi).symm, ← integral_neg, ← integral_const_mul]
  refine integral_mono ((stj_sq_integrable he hl hξ).const_mul _) hi.im.neg fun x => ?_
  change _ ≤ -(1 / (ξ - e x)).im
  have hn := stj_ne hl hξ x
  have hpos : 0 < Complex.normSq (ξ - e x) := Complex.normSq_pos.2 hn
  rw [norm_div, norm_one, div_pow, one_pow, ← Complex.normSq_eq_norm_sq, one_div (ξ - e x), Complex.inv_im, neg_div, neg_neg,
    mul_one_div]
  refine div_le_div_of_nonneg_right ?_ hpos.le
  rw [Complex.sub_im]
  linarith [hl x]

lemma stj_im_neg {ξ : ℂ} (hξ : 0 < ξ.im) : (stj μ e ξ).im < 0 := by
  have := stj_im_le (μ := μ) he hl hξ
  have := mul_pos hξ (stj_sq_pos (μ := μ) he hl hξ)
  linarith

lemma stj_ne_zero {ξ : ℂ} (hξ : 0 < ξ.im) : stj μ e ξ ≠ 0 := fun h => by
  have := stj_im_neg (μ := μ) he hl hξ
  rw [h] at this
  simp at this

/-- The normalised kernel `1/((ξ - e) stj)` deviates from one by the imaginary part of the rest. -/
lemma stj_dev {ξ : ℂ} (hξ : 0 < ξ.im) :
    ∫ x, ‖1 / (ξ - e x) / stj μ e ξ - 1‖ ^ 2 ∂μ ≤ (stjRest μ e ξ).im / ξ.im := by
  have hg := stj_ne_zero (μ := μ) he hl hξ
  have hi := stj_integrable (μ := μ) he hl hξ
  have hs := stj_sq_integrable (μ := μ) he hl hξ
  set g := stj μ e ξ with hgdef
  have e1 : ∀ x, ‖1 / (ξ - e x) / g - 1‖ ^ 2 = 1 / ‖g‖ ^ 2 * ‖1 / (ξ - e x)‖ ^ 2
      + (-2) * (1 / (ξ - e x) / g).re + 1 := by
    intro x
    rw [show 1 / ‖g‖ ^ 2 * ‖1 / (ξ - e x)‖ ^ 2 = ‖1 / (ξ - e x) / g‖ ^ 2 by rw [norm_div _ g]; ring]
    generalize 1 / (ξ - e x) / g = u
    rw [← Complex.normSq_eq_norm_sq, ← Complex.normSq_eq_norm_sq, Complex.normSq_apply, Complex.normSq_apply]
    simp only [Complex.sub_re, Complex.sub_im, Complex.one_re, Complex.one_im]
    ring
  have hig : Integrable (fun x => 1 / (ξ - e x) / g) μ := hi.div_const g
  have i1 : Integrable (fun x => 1 / ‖g‖ ^ 2 * ‖1 / (ξ - e x)‖ ^ 2) μ := hs.const_mul _
  have i2 : Integrable (fun x => (-2) * (1 / (ξ - e x) / g).re) μ := hig.re.const_mul _
  have i3 : Integrable (fun x => 1 / ‖g‖ ^ 2 * ‖1 / (ξ - e x)‖ ^ 2 + (-2) * (1 / (ξ - e x) / g).re) μ := i1.add i2
  have hre : ∫ x, (1 / (ξ - e x) / g).re ∂μ = 1 := by
    have := integral_re hig
    simp only [RCLike.re_eq_complex_re] at this
    rw [this, integral_div]
    change (g / g).re = 1
    rw [div_self hg, Complex.one_re]
  simp only [e1]
  rw [integral_add i3 (integrable_const _), integral_add i1 i2, integral_const_mul, integral_const_mul, hre]
  simp only [integral_const, probReal_univ, smul_eq_mul, mul_one]
  have hle := stj_im_le (μ := μ) he hl hξ
  rw [← hgdef] at hle
  have hgn : 0 < ‖g‖ ^ 2 := by positivity
  rw [stjRest, ← hgdef, Complex.sub_im, one_div g, Complex.inv_im, Complex.normSq_eq_norm_sq, sub_div, div_self hξ.ne']
  have h3 : 1 / ‖g‖ ^ 2 * ∫ x, ‖1 / (ξ - e x)‖ ^ 2 ∂μ ≤ -g.im / ‖g‖ ^ 2 / ξ.im := by
    rw [le_div_iff₀ hξ, one_div_mul_eq_div, div_mul_eq_mul_div]
    refine div_le_div_of_nonneg_right ?_ hgn.le
    linarith
  linarith

lemma stjRest_im_nonneg {ξ : ℂ} (hξ : 0 < ξ.im) : 0 ≤ (stjRest μ e ξ).im := by
  have h := stj_dev (μ := μ) he hl hξ
  have h0 : 0 ≤ ∫ x, ‖1 / (ξ - e x) / stj μ e ξ - 1‖ ^ 2 ∂μ := integral_nonneg fun x => by positivity
  have := h0.trans h
  rwa [le_div_iff₀ hξ, zero_mul] at this

/-- Pick's inequality. -/
lemma stjRest_pick {ξ ξ' : ℂ} (hξ : 0 < ξ.im) (hξ' : 0 < ξ'.im) :
    ‖stjRest μ e ξ - stjRest μ e ξ'‖ ^ 2
      ≤ ‖ξ - ξ'‖ ^ 2 * ((stjRest μ e ξ).im / ξ.im * ((stjRest μ e ξ').im / ξ'.im)) := by
  have hg := stj_ne_zero (μ := μ) he hl hξ
  have hg' := stj_ne_zero (μ := μ) he hl hξ'
  have hi := stj_integrable (μ := μ) he hl hξ
  have hi' := stj_integrable (μ := μ) he hl hξ'
  have hd := stj_dev (μ := μ) he hl hξ
  have hd' := stj_dev (μ := μ) he hl hξ'
  set a : Ω → ℂ := fun x => 1 / (ξ - e x) / stj μ e ξ - 1 with ha
  set b : Ω → ℂ := fun x => 1 / (ξ' - e x) / stj μ e ξ' - 1 with hb
  have hma : Measurable a := by rw [ha]; fun_prop
  have hmb : Measurable b := by rw [hb]; fun_prop
  obtain ⟨A, hA⟩ : ∃ A, ∀ x, ‖a x‖ ≤ A := ⟨1 / ξ.im / ‖stj μ e ξ‖ + 1, fun x => (norm_sub_le _ _).trans (by
    rw [norm_div _ (stj μ e ξ), norm_one]
    gcongr
    exact stj_bound hl hξ x)⟩
  obtain ⟨B, hB⟩ : ∃ B, ∀ x, ‖b x‖ ≤ B := ⟨1 / ξ'.im / ‖stj μ e ξ'‖ + 1, fun x => (norm_sub_le _ _).trans (by
    rw [norm_div _ (stj μ e ξ'), norm_one]
    gcongr
    exact stj_bound hl hξ' x)⟩
  have ia : Integrable (fun x => ‖a x‖ ^ 2) μ :=
    Integrable.of_bound (Measurable.aestronglyMeasurable (by fun_prop)) (A ^ 2) (Filter.Eventually.of_forall fun x => by
      rw [norm_pow, norm_norm]
      exact pow_le_pow_left₀ (norm_nonneg _) (hA x) 2)
  have ib : Integrable (fun x => ‖b x‖ ^ 2) μ :=
    Integrable.of_bound (Measurable.aestronglyMeasurable (by fun_prop)) (B ^ 2) (Filter.Eventually.of_forall fun x => by
      rw [norm_pow, norm_norm]
      exact pow_le_pow_left₀ (norm_nonneg _) (hB x) 2)
  have iab : Integrable (fun x => ‖a x‖ * ‖b x‖) μ :=
    Integrable.of_bound (Measurable.aestronglyMeasurable (by fun_prop)) (A * B) (Filter.Eventually.of_forall fun x => by
      rw [norm_mul, norm_norm, norm_norm]
      exact mul_le_mul (hA x) (hB x) (norm_nonneg _) ((norm_nonneg _).trans (hA x)))
  have key : stjRest μ e ξ - stjRest μ e ξ' = (ξ - ξ') * ∫ x, a x * b x ∂μ := by
    have hprod : Integrable (fun x => 1 / (ξ - e x) * (1 / (ξ' - e x))) μ :=
      Integrable.of_bound (Measurable.aestronglyMeasurable (by fun_prop)) (1 / ξ.im * (1 / ξ'.im))
        (Filter.Eventually.of_forall fun x => by
          rw [norm_mul]
          exact mul_le_mul (stj_bound hl hξ x) (stj_bound hl hξ' x) (norm_nonneg _) (by positivity))
    have hdiff : stj μ e ξ' - stj μ e ξ = (ξ - ξ') * ∫ x, 1 / (ξ - e x) * (1 / (ξ' - e x)) ∂μ := by
      rw [stj, stj, ← integral_sub hi' hi, ← integral_const_mul]
      refine integral_congr_ae (Filter.Eventually.of_forall fun x => ?_)
      have := stj_ne hl hξ x
      have := stj_ne hl hξ' x
      simp only
      field_simp
      ring
    have hab : ∫ x, a x * b x ∂μ = (∫ x, 1 / (ξ - e x) * (1 / (ξ' - e x)) ∂μ) / (stj μ e ξ * stj μ e ξ') - 1 := by
      have e1 : ∀ x, a x * b x = 1 / (ξ - e x) * (1 / (ξ' - e x)) / (stj μ e ξ * stj μ e ξ')
          - 1 / (ξ - e x) / stj μ e ξ - 1 / (ξ' - e x) / stj μ e ξ' + 1 := by
        intro x
        simp only [ha, hb]
        generalize 1 / (ξ - e x) = u
        generalize 1 / (ξ' - e x) = v
        field_simp
        ring
      simp only [e1]
      have j1 : Integrable (fun x => 1 / (ξ - e x) * (1 / (ξ' - e x)) / (stj μ e ξ * stj μ e ξ')) μ := hprod.div_const _
      have j2 : Integrable (fun x => 1 / (ξ - e x) / stj μ e ξ) μ := hi.div_const _
      have j3 : Integrable (fun x => 1 / (ξ' - e x) / stj μ e ξ') μ := hi'.div_const _
      have j4 : Integrable (fun x => 1 / (ξ - e x) * (1 / (ξ' - e x)) / (stj μ e ξ * stj μ e ξ')
        - 1 / (ξ - e x) / stj μ e ξ) μ := j1.sub j2
      have j5 : Integrable (fun x => 1 / (ξ - e x) * (1 / (ξ' - e x)) / (stj μ e ξ * stj μ e ξ')
        - 1 / (ξ - e x) / stj μ e ξ - 1 / (ξ' - e x) / stj μ e ξ') μ := j4.sub j3
      rw [integral_add j5 (integrable_const _), integral_sub j4 j3, integral_sub j1 j2, integral_div, integral_div,
        integral_div]
      change _ - stj μ e ξ / stj μ e ξ - stj μ e ξ' / stj μ e ξ' + _ = _
      rw [div_self hg, div_self hg']
      simp
    rw [hab, stjRest, stjRest]
    have h1 : 1 / stj μ e ξ - 1 / stj μ e ξ' = (stj μ e ξ' - stj μ e ξ) / (stj μ e ξ * stj μ e ξ') := by
      field_simp
    rw [hdiff] at h1
    linear_combination h1
  rw [key, norm_mul, mul_pow]
  refine mul_le_mul_of_nonneg_left ((norm_integral_mul_sq_le ia ib iab).trans ?_) (sq_nonneg _)
  exact mul_le_mul hd hd' (integral_nonneg fun x => by positivity)
    (div_nonneg (stjRest_im_nonneg he hl hξ) hξ.le)

/-- For bounded energies the rest is bounded. -/
lemma stjRest_bound {r : ℝ} (hr : ∀ x, ‖e x‖ ≤ r) {ξ : ℂ} (hξ : 0 < ξ.im) :
    ‖stjRest μ e ξ‖ ≤ r + r ^ 2 / ξ.im := by
  have hg := stj_ne_zero (μ := μ) he hl hξ
  have hi := stj_integrable (μ := μ) he hl hξ
  have hs := stj_sq_integrable (μ := μ) he hl hξ
  obtain ⟨x0⟩ : Nonempty Ω := nonempty_of_isProbabilityMeasure μ
  have hr0 : 0 ≤ r := (norm_nonneg _).trans (hr x0)
  set g := stj μ e ξ with hgdef
  have h1 : stjRest μ e ξ = ∫ x, -(e x) * (1 / (ξ - e x) / g) ∂μ := by
    have e1 : ∀ x, -(e x) * (1 / (ξ - e x) / g) = 1 / g - ξ * (1 / (ξ - e x) / g) := by
      intro x
      have := stj_ne hl hξ x
      field_simp
      ring
    simp only [e1]
    have j1 : Integrable (fun x => ξ * (1 / (ξ - e x) / g)) μ := (hi.div_const _).const_mul _
    have j2 : ∫ x, 1 / (ξ - e x) / g ∂μ = g / g := integral_div _ _
    rw [integral_sub (integrable_const _) j1, integral_const_mul, j2, div_self hg, stjRest]
    simp [hgdef]
  have ie : Integrable (fun x => ‖-(e x)‖ ^ 2) μ :=
    Integrable.of_bound (Measurable.aestronglyMeasurable (by fun_prop)) (r ^ 2) (Filter.Eventually.of_forall fun x => by
      rw [norm_pow, norm_norm, norm_neg]
      exact pow_le_pow_left₀ (norm_nonneg _) (hr x) 2)
  have e2 : ∀ x, ‖1 / (ξ - e x) / g‖ ^ 2 = 1 / ‖g‖ ^ 2 * ‖1 / (ξ - e x)‖ ^ 2 := fun x => by
    rw [norm_div _ g]
    ring
  have ik : Integrable (fun x => ‖1 / (ξ - e x) / g‖ ^ 2) μ := by
    simp only [e2]
    exact hs.const_mul _
  have iek : Integrable (fun x => ‖-(e x)‖ * ‖1 / (ξ - e x) / g‖) μ :=
    Integrable.of_bound (Measurable.aestronglyMeasurable (by fun_prop)) (r * (1 / ξ.im / ‖g‖))
      (Filter.Eventually.of_forall fun x => by
        rw [norm_mul, norm_norm, norm_norm, norm_neg, norm_div _ g]
        have := stj_bound hl hξ x
        gcongr
        exact hr x)
  have h2 := norm_integral_mul_sq_le ie ik iek
  rw [← h1] at h2
  have h3 : ∫ x, ‖-(e x)‖ ^ 2 ∂μ ≤ r ^ 2 := by
    calc ∫ x, ‖-(e x)‖ ^ 2 ∂μ ≤ ∫ _, r ^ 2 ∂μ := integral_mono ie (integrable_const _) fun x => by
          simp only [norm_neg]
          exact pow_le_pow_left₀ (norm_nonneg _) (hr x) 2
      _ = r ^ 2 := by simp
  have h4 : ∫ x, ‖1 / (ξ - e x) / g‖ ^ 2 ∂μ ≤ 1 + ‖stjRest μ e ξ‖ / ξ.im := by
    simp only [e2]
    rw [integral_const_mul]
    have hle := stj_im_le (μ := μ) he hl hξ
    rw [← hgdef] at hle
    have hgn : 0 < ‖g‖ ^ 2 := by positivity
    have h5 : 1 / ‖g‖ ^ 2 * ∫ x, ‖1 / (ξ - e x)‖ ^ 2 ∂μ ≤ -g.im / ‖g‖ ^ 2 / ξ.im := by
      rw [le_div_iff₀ hξ, one_div_mul_eq_div, div_mul_eq_mul_div]
      refine div_le_div_of_nonneg_right ?_ hgn.le
      linarith
    have h6 : -g.im / ‖g‖ ^ 2 / ξ.im = 1 + (stjRest μ e ξ).im / ξ.im := by
      rw [stjRest, ← hgdef, Complex.sub_im, one_div g, Complex.inv_im, Complex.normSq_eq_norm_sq, sub_div, div_self hξ.ne']
      ring
    have h7 : (stjRest μ e ξ).im / ξ.im ≤ ‖stjRest μ e ξ‖ / ξ.im :=
      div_le_div_of_nonneg_right ((le_abs_self _).trans (Complex.abs_im_le_norm _)) hξ.le
    linarith
  set y := ‖stjRest μ e ξ‖ with hy
  have hy0 : 0 ≤ y := norm_nonneg _
  have h5 : y ^ 2 ≤ r ^ 2 * (1 + y / ξ.im) :=
    h2.trans (mul_le_mul h3 h4 (integral_nonneg fun x => by positivity) (sq_nonneg _))
  by_contra hcon
  push Not at hcon
  have hq : 0 ≤ r ^ 2 / ξ.im := by positivity
  have h6 : r ^ 2 * (1 + y / ξ.im) = r ^ 2 + r ^ 2 / ξ.im * y := by ring
  rw [h6] at h5
  nlinarith

end

end Gftool.Lemmas
