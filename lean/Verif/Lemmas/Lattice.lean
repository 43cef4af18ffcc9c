import Verif.Model.Lattice
import Verif.Spec.Lattice
import Mathlib.Analysis.SpecialFunctions.Integrals.Basic
import Mathlib.MeasureTheory.Integral.IntervalIntegral.FundThmCalculus
import Mathlib.MeasureTheory.Function.Jacobian
import Mathlib.Analysis.SpecialFunctions.Trigonometric.Deriv
import Mathlib.Analysis.SpecialFunctions.Pow.Deriv
import Mathlib.Tactic

/-!
# Lemmas on elementary lattice Green's functions
-/

namespace Gftool.Lemmas

open Gftool Model Spec
open Complex (I)
open MeasureTheory

lemma offBand_of_im {z : ℂ} (hz : z.im ≠ 0) (D : ℝ) : OffBand z D := by
  rintro e _ rfl
  simp at hz

lemma _root_.Gftool.Spec.OffBand.ne_zero {z : ℂ} {D : ℝ} (h : OffBand z D) (hD : 0 < D) : z ≠ 0 := by
  have := h 0 (by simpa using hD.le)
  simpa using this

lemma _root_.Gftool.Spec.OffBand.slit {z : ℂ} {D : ℝ} (h : OffBand z D) (hD : 0 < D) :
    1 - (D / z : ℂ) ^ 2 ∈ Complex.slitPlane := by
  have hz := h.ne_zero hD
  have hDc : (D : ℂ) ≠ 0 := by exact_mod_cast hD.ne'
  by_contra hn
  rw [Complex.mem_slitPlane_iff, not_or, not_lt, not_not] at hn
  set w : ℂ := D / z with hw
  obtain ⟨h1, h2⟩ := hn
  simp only [pow_two, Complex.sub_re, Complex.one_re, Complex.mul_re, Complex.sub_im, Complex.one_im,
    Complex.mul_im, zero_sub] at h1 h2
  have hab : w.re * w.im = 0 := by linarith
  rcases mul_eq_zero.1 hab with h0 | h0
  · rw [h0] at h1
    nlinarith [sq_nonneg w.im]
  · have hwr : w = (w.re : ℂ) := by
      apply Complex.ext <;> simp [h0]
    rw [h0] at h1
    have hre : w.re ≠ 0 := by
      intro h3
      rw [h3] at h1
      norm_num at h1
    have hzr : z = ((D / w.re : ℝ) : ℂ) := by
      have : z = D / w := by rw [hw]; field_simp
      rw [this, hwr]
      push_cast
      simp
    refine h (D / w.re) ?_ hzr
    rw [abs_div, abs_of_pos hD]
    have : 1 ≤ |w.re| := by
      have : 1 ≤ w.re ^ 2 := by nlinarith
      exact (one_le_sq_iff_one_le_abs _).1 this
    exact div_le_self hD.le this

lemma sqrt_sq' (x : ℂ) : Complex.sqrt x ^ 2 = x := by
  unfold Complex.sqrt
  exact_mod_cast Complex.cpow_nat_inv_pow x (n := 2) (by norm_num)

lemma sqrt_re_pos {x : ℂ} (hx : x ∈ Complex.slitPlane) : 0 < (Complex.sqrt x).re := by
  unfold Complex.sqrt
  rw [Complex.cpow_inv_two_re]
  apply Real.sqrt_pos.2
  have : -x.re < ‖x‖ := by
    rcases Complex.mem_slitPlane_iff.1 hx with h | h
    · have := norm_nonneg x
      linarith
    · have := Complex.abs_re_lt_norm.2 h
      exact (neg_le_abs _).trans_lt this
  linarith

/-- The inner root of `u + 1/u = 2 x`. -/
structure Inner (x s u : ℂ) : Prop where
  hs : s ^ 2 = 1 - (1 / x) ^ 2
  hre : 0 < s.re
  hx : x ≠ 0
  hu : u = x * (1 - s)

lemma Inner.mul {x s u : ℂ} (h : Inner x s u) : u * (x * (1 + s)) = 1 := by
  have hx := h.hx
  rw [h.hu]
  have : x * (1 - s) * (x * (1 + s)) = x ^ 2 * (1 - s ^ 2) := by ring
  rw [this, h.hs]
  field_simp
  ring

lemma Inner.ne_zero {x s u : ℂ} (h : Inner x s u) : u ≠ 0 := left_ne_zero_of_mul_eq_one h.mul

lemma Inner.inv {x s u : ℂ} (h : Inner x s u) : u⁻¹ = x * (1 + s) :=
  inv_eq_of_mul_eq_one_right h.mul

lemma Inner.add {x s u : ℂ} (h : Inner x s u) : u + u⁻¹ = 2 * x := by
  rw [h.inv, h.hu]; ring

lemma Inner.sub {x s u : ℂ} (h : Inner x s u) : u⁻¹ - u = 2 * x * s := by
  rw [h.inv, h.hu]; ring

lemma Inner.s_ne {x s u : ℂ} (h : Inner x s u) : s ≠ 0 := by
  intro h0
  have := h.hre
  rw [h0] at this
  simp at this

lemma Inner.norm_lt {x s u : ℂ} (h : Inner x s u) : ‖u‖ < 1 := by
  have h1 : ‖1 - s‖ < ‖1 + s‖ := by
    apply lt_of_pow_lt_pow_left₀ 2 (norm_nonneg _)
    rw [← Complex.normSq_eq_norm_sq, ← Complex.normSq_eq_norm_sq, Complex.normSq_apply, Complex.normSq_apply]
    simp
    nlinarith [h.hre]
  have hx : 0 < ‖x‖ := norm_pos_iff.2 h.hx
  have h2 : ‖u‖ < ‖u⁻¹‖ := by
    rw [h.inv, h.hu, norm_mul, norm_mul]
    exact mul_lt_mul_of_pos_left h1 hx
  rw [norm_inv] at h2
  have hu : 0 < ‖u‖ := norm_pos_iff.2 h.ne_zero
  by_contra hc
  have := inv_le_one_of_one_le₀ (not_lt.1 hc)
  linarith [not_lt.1 hc]

/-- Off the band the inner root is given by the principal square root. -/
lemma _root_.Gftool.Spec.OffBand.inner {z : ℂ} {D : ℝ} (h : OffBand z D) (hD : 0 < D) :
    Inner (z / D) (Complex.sqrt (1 - (D / z : ℂ) ^ 2))
      (z / D * (1 - Complex.sqrt (1 - (D / z : ℂ) ^ 2))) where
  hs := by
    rw [sqrt_sq']
    congr 2
    rw [one_div_div]
  hre := sqrt_re_pos (h.slit hD)
  hx := div_ne_zero (h.ne_zero hD) (by exact_mod_cast hD.ne')
  hu := rfl

/-- The points of the open punctured unit disc parametrise the points off the band. -/
lemma inner_of_norm_lt {u : ℂ} (hu : ‖u‖ < 1) (h0 : u ≠ 0) :
    OffBand ((u + u⁻¹) / 2) 1 := by
  rintro e he h
  have hq : u ^ 2 - 2 * e * u + 1 = 0 := by
    have : u + u⁻¹ = 2 * e := by linear_combination 2 * h
    field_simp at this
    linear_combination this
  -- the roots of the polynomial with |e| ≤ 1 lie on the unit circle
  have h1 : (u - e) ^ 2 = ((e ^ 2 - 1 : ℝ) : ℂ) := by
    push_cast
    linear_combination hq
  set a := u.re with ha
  set b := u.im with hb
  have hre := congrArg Complex.re h1
  have him := congrArg Complex.im h1
  simp [pow_two] at hre him
  have he2 : e * e ≤ 1 := by
    have := (abs_le.1 he)
    nlinarith
  have hn : u.re * u.re + u.im * u.im < 1 := by
    have := Complex.normSq_eq_norm_sq u
    rw [Complex.normSq_apply] at this
    rw [this]
    nlinarith [norm_nonneg u]
  rw [← ha, ← hb] at *
  have hprod : (a - e) * b = 0 := by linarith
  rcases mul_eq_zero.1 hprod with h2 | h2
  · have : a = e := by linarith
    rw [this] at hre hn
    nlinarith
  · rw [h2] at hre hn
    have h3 : e * e = 1 := by nlinarith [mul_self_nonneg (a - e)]
    have h4 : a = e := by
      have : (a - e) * (a - e) = 0 := by nlinarith
      nlinarith [mul_self_eq_zero.1 this]
    rw [h4] at hn
    nlinarith

/-- Poisson's integral over half a period. -/
lemma integral_poisson {u : ℂ} (hu : ‖u‖ < 1) :
    IntervalIntegrable (fun φ : ℝ => (1 - u ^ 2) / (1 - 2 * u * Complex.cos φ + u ^ 2)) volume 0 Real.pi ∧
    ∫ φ in (0 : ℝ)..Real.pi, (1 - u ^ 2) / (1 - 2 * u * Complex.cos φ + u ^ 2) = (Real.pi : ℂ) := by
  have hslit : ∀ y : ℂ, ‖y‖ = 1 → 1 - u * y ∈ Complex.slitPlane := by
    intro y hy
    rw [Complex.mem_slitPlane_iff]
    left
    have : (u * y).re ≤ ‖u * y‖ := Complex.re_le_norm _
    rw [norm_mul, hy, mul_one] at this
    simp only [Complex.sub_re, Complex.one_re]
    linarith
  have hne : ∀ y : ℂ, ‖y‖ = 1 → 1 - u * y ≠ 0 := fun y hy => Complex.slitPlane_ne_zero (hslit y hy)
  have n1 : ∀ φ : ℝ, ‖Complex.exp (φ * I)‖ = 1 := Complex.norm_exp_ofReal_mul_I
  have n2 : ∀ φ : ℝ, ‖Complex.exp (-(φ * I))‖ = 1 := by
    intro φ
    have := Complex.norm_exp_ofReal_mul_I (-φ)
    push_cast at this
    rwa [neg_mul] at this
  have hfac : ∀ φ : ℝ, 1 - 2 * u * Complex.cos φ + u ^ 2
      = (1 - u * Complex.exp (φ * I)) * (1 - u * Complex.exp (-(φ * I))) := by
    intro φ
    have he : Complex.exp (φ * I) * Complex.exp (-(φ * I)) = 1 := by
      rw [← Complex.exp_add]; simp
    rw [Complex.cos, neg_mul]
    linear_combination -u ^ 2 * he
  have hder : ∀ φ : ℝ, HasDerivAt (fun φ : ℝ => (φ : ℂ) + I * Complex.log (1 - u * Complex.exp (φ * I))
      - I * Complex.log (1 - u * Complex.exp (-(φ * I))))
      ((1 - u ^ 2) / (1 - 2 * u * Complex.cos φ + u ^ 2)) φ := by
    intro φ
    have d1 : HasDerivAt (fun z : ℂ => 1 - u * Complex.exp (z * I)) (-(u * (Complex.exp (φ * I) * I))) (φ : ℂ) := by
      have : HasDerivAt (fun z : ℂ => z * I) I (φ : ℂ) := by
        simpa using (hasDerivAt_id (φ : ℂ)).mul_const I
      exact (this.cexp.const_mul u).const_sub 1
    have d2 : HasDerivAt (fun z : ℂ => 1 - u * Complex.exp (-(z * I)))
        (-(u * (Complex.exp (-(φ * I)) * -I))) (φ : ℂ) := by
      have : HasDerivAt (fun z : ℂ => -(z * I)) (-I) (φ : ℂ) := by
        have h0 : HasDerivAt (fun z : ℂ => z * I) I (φ : ℂ) := by
          simpa using (hasDerivAt_id (φ : ℂ)).mul_const I
        exact h0.neg
      exact (this.cexp.const_mul u).const_sub 1
    have l1 := (d1.clog (hslit _ (n1 φ))).const_mul I
    have l2 := (d2.clog (hslit _ (n2 φ))).const_mul I
    have := (((hasDerivAt_id (φ : ℂ)).add l1).sub l2).comp_ofReal
    refine this.congr_deriv ?_
    rw [hfac]
    have he : Complex.exp (φ * I) * Complex.exp (-(φ * I)) = 1 := by
      rw [← Complex.exp_add]; simp
    have h1 := hne _ (n1 φ)
    have h2 := hne _ (n2 φ)
    generalize Complex.exp (φ * I) = e1 at *
    generalize Complex.exp (-(φ * I)) = e2 at *
    field_simp
    linear_combination (u * e1 * (1 - u * e2) + u * e2 * (1 - u * e1)) * (-Complex.I_sq) - u ^ 2 * he
  have hcont : Continuous fun φ : ℝ => (1 - u ^ 2) / (1 - 2 * u * Complex.cos φ + u ^ 2) := by
    apply Continuous.div (by fun_prop) (by fun_prop)
    intro φ
    rw [hfac]
    exact mul_ne_zero (hne _ (n1 φ)) (hne _ (n2 φ))
  refine ⟨hcont.intervalIntegrable _ _, ?_⟩
  rw [intervalIntegral.integral_eq_sub_of_hasDerivAt (fun φ _ => hder φ)
    (hcont.intervalIntegrable _ _)]
  have : Complex.exp (-(Real.pi * I)) = -1 := by
    rw [Complex.exp_neg, Complex.exp_pi_mul_I]; norm_num
  rw [this, Complex.exp_pi_mul_I]
  simp

/-- The integral behind the Green's function in one dimension. -/
lemma Inner.integral {x s u : ℂ} (h : Inner x s u) :
    IntervalIntegrable (fun φ : ℝ => 1 / (x - Complex.cos φ)) volume 0 Real.pi ∧
    ∫ φ in (0 : ℝ)..Real.pi, 1 / (x - Complex.cos φ) = (Real.pi : ℂ) / (x * s) := by
  have hu := h.ne_zero
  have hs := h.s_ne
  have hx := h.hx
  obtain ⟨hi, hp⟩ := integral_poisson h.norm_lt
  have h1 : 1 - u ^ 2 = 2 * x * s * u := by
    have := h.sub
    field_simp at this
    linear_combination this
  have h1' : 1 - u ^ 2 ≠ 0 := by rw [h1]; simp [hx, hs, hu]
  have heq : (fun φ : ℝ => 1 / (x - Complex.cos φ))
      = fun φ : ℝ => (1 / (x * s)) * ((1 - u ^ 2) / (1 - 2 * u * Complex.cos φ + u ^ 2)) := by
    funext φ
    have h2 : 1 - 2 * u * Complex.cos φ + u ^ 2 = 2 * u * (x - Complex.cos φ) := by
      have := h.add
      field_simp at this
      linear_combination this
    rw [h2, h1]
    field_simp
  rw [heq]
  refine ⟨hi.const_mul _, ?_⟩
  rw [intervalIntegral.integral_const_mul, hp]
  ring

/-- Substitution `ε = D cos φ`. -/
lemma integral_cos_subst {E : Type*} [NormedAddCommGroup E] [NormedSpace ℝ E] {D : ℝ} (hD : 0 < D)
    (f : ℝ → E) :
    ∫ e in Set.Ioo (-D) D, f e = ∫ φ in Set.Ioo 0 Real.pi, (D * Real.sin φ) • f (D * Real.cos φ) := by
  have himg : (fun φ => D * Real.cos φ) '' Set.Ioo 0 Real.pi = Set.Ioo (-D) D := by
    ext e
    constructor
    · rintro ⟨φ, ⟨h1, h2⟩, rfl⟩
      have hs := Real.sin_pos_of_pos_of_lt_pi h1 h2
      have h3 : Real.cos φ ^ 2 < 1 := by nlinarith [Real.sin_sq_add_cos_sq φ]
      have h4 : |Real.cos φ| < 1 := by
        rwa [sq_lt_one_iff_abs_lt_one] at h3
      obtain ⟨h5, h6⟩ := abs_lt.1 h4
      constructor <;> simp only <;> nlinarith
    · rintro ⟨h1, h2⟩
      have h3 : -1 < e / D := by rw [lt_div_iff₀ hD]; linarith
      have h4 : e / D < 1 := by rw [div_lt_iff₀ hD]; linarith
      refine ⟨Real.arccos (e / D), ⟨Real.arccos_pos.2 h4, ?_⟩, ?_⟩
      · rw [← Real.arccos_neg_one]
        exact Real.arccos_lt_arccos (by norm_num) h3 h4.le
      · simp only
        rw [Real.cos_arccos h3.le h4.le]
        field_simp
  rw [← himg, integral_image_eq_integral_abs_deriv_smul measurableSet_Ioo
    (f' := fun φ => D * -Real.sin φ) (fun φ _ => ((Real.hasDerivAt_cos φ).const_mul D).hasDerivWithinAt)]
  · refine setIntegral_congr_fun measurableSet_Ioo fun φ hφ => ?_
    have hs := Real.sin_pos_of_pos_of_lt_pi hφ.1 hφ.2
    rw [mul_neg, abs_neg, abs_of_pos (mul_pos hD hs)]
  · intro a ha b hb hab
    have : Real.cos a = Real.cos b := mul_left_cancel₀ hD.ne' hab
    exact Real.injOn_cos (Set.Ioo_subset_Icc_self ha) (Set.Ioo_subset_Icc_self hb) this

/-- Averages over a density of states on `[-D, D]` as integrals over the angle. -/
lemma dos_integral {E : Type*} [NormedAddCommGroup E] [NormedSpace ℝ E] {D : ℝ} (hD : 0 < D)
    {dos w : ℝ → ℝ} (h0 : ∀ e, D ≤ |e| → dos e = 0)
    (hw : ∀ φ ∈ Set.Ioo 0 Real.pi, D * Real.sin φ * dos (D * Real.cos φ) = w φ) (f : ℝ → E) :
    ∫ e, dos e • f e = ∫ φ in (0 : ℝ)..Real.pi, w φ • f (D * Real.cos φ) := by
  rw [← setIntegral_eq_integral_of_forall_compl_eq_zero (s := Set.Ioo (-D) D), integral_cos_subst hD,
    intervalIntegral.integral_of_le Real.pi_pos.le, integral_Ioc_eq_integral_Ioo]
  · refine setIntegral_congr_fun measurableSet_Ioo fun φ hφ => ?_
    rw [smul_smul, hw φ hφ]
  · intro e he
    rw [h0 e, zero_smul]
    by_contra hc
    exact he (abs_lt.1 (not_le.1 hc))

/-- A density of states and its Hilbert transform in terms of measures. -/
lemma isHilbert_of_dos {D : ℝ} {dos : ℝ → ℝ} {gf : ℂ → ℂ} (hd : IsDos dos D)
    (hgf : ∀ z, OffBand z D → ∫ e, (dos e : ℂ) / (z - e) = gf z) :
    IsHilbert (volume.withDensity fun e => ENNReal.ofReal (dos e)) (Set.Icc (-D) D) gf where
  prob := by
    constructor
    rw [withDensity_apply _ MeasurableSet.univ, Measure.restrict_univ,
      ← ofReal_integral_eq_lintegral_ofReal hd.integrable (Filter.Eventually.of_forall hd.nonneg), hd.norm]
    simp
  compact := isCompact_Icc
  support := by
    rw [withDensity_apply _ measurableSet_Icc.compl, setLIntegral_congr_fun (g := fun _ => 0)
      measurableSet_Icc.compl]
    · simp
    · intro e he
      simp only
      rw [hd.outside e, ENNReal.ofReal_zero]
      by_contra hc
      exact he (Set.mem_Icc.2 (abs_le.1 (not_lt.1 hc)))
  eq := by
    intro z hz
    rw [← hgf z (fun e he => hz e (abs_le.1 he)), integral_withDensity_eq_integral_toReal_smul
      hd.measurable.ennreal_ofReal (Filter.Eventually.of_forall fun _ => ENNReal.ofReal_lt_top)]
    refine integral_congr_ae (Filter.Eventually.of_forall fun e => ?_)
    simp only
    rw [ENNReal.toReal_ofReal (hd.nonneg e), Complex.real_smul]
    ring

end Gftool.Lemmas
