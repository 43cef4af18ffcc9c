import Verif.Lemmas.TriangularK
import Verif.Props.Triangular
import Verif.Props.Rectangular
import Verif.Props.Composite

/-!
# Triangular lattice: Green's function (C62)
-/

namespace Gftool.Props

open Gftool Model Spec Lemmas MeasureTheory ComplexConjugate

open scoped ENNReal Topology

lemma measurable_triangularDisp (D : ℝ) : Measurable (triangularDisp D) := by
  unfold triangularDisp
  have := Real.continuous_cos.measurable
  fun_prop

/-- The energies of the triangular lattice. -/
lemma triangularDisp_mem {D : ℝ} (hD : 0 < D) (k : ℝ × ℝ) : triangularDisp D k ∈ Set.Icc (-(2 / 3 * D)) (4 / 3 * D) := by
  unfold triangularDisp
  rw [Real.cos_two_mul]
  obtain ⟨a1, b1⟩ := abs_le.1 (Real.abs_cos_le_one k.1)
  obtain ⟨a2, b2⟩ := abs_le.1 (Real.abs_cos_le_one k.2)
  have h1 : -(3 / 2) ≤ 2 * Real.cos k.1 ^ 2 - 1 + 2 * Real.cos k.1 * Real.cos k.2 := by
    nlinarith [sq_nonneg (2 * Real.cos k.1 + Real.cos k.2)]
  have h2 : 2 * Real.cos k.1 ^ 2 - 1 + 2 * Real.cos k.1 * Real.cos k.2 ≤ 3 := by
    nlinarith [sq_nonneg (Real.cos k.1 - Real.cos k.2)]
  constructor <;> nlinarith

/-- C54: the moments of the dispersion are the moments of the DOS. -/
theorem triangular_moment_dos {D : ℝ} (hD : 0 < D) (m : ℕ) :
    ∫ e, e ^ m * triangularDos ellipKm1 e D = bandMoment bz2 (triangularDisp D) m := by
  have h := (triangular_dos hD).integral_smul (measurable_triangularDisp D) (f := fun e : ℝ => e ^ m) (by
    apply Measurable.stronglyMeasurable; fun_prop)
  unfold bandMoment
  rw [← h]
  congr 1
  funext e
  rw [smul_eq_mul, mul_comm]

/-- Above the band the Green's function is a real elliptic integral. -/
lemma triangular_real {x : ℝ} (hx : 3 < x) :
    bzGreen bz2 (triangularDisp (9 / 4)) x
      = 1 / Real.pi * triG (Complex.sqrt (2 * x + 3)) * ellipK (triK (Complex.sqrt (2 * x + 3)) ^ 2) := by
  have hpi := Real.pi_pos
  have hcos := Real.continuous_cos.measurable
  have hcosc := Real.continuous_cos
  have hsm : Measurable fun x : ℝ => √x := Real.continuous_sqrt.measurable
  set r := √(2 * x + 3) with hr
  have hr3 : 3 < r := by
    rw [hr, Real.lt_sqrt (by norm_num)]
    linarith
  have hr2 : r ^ 2 = 2 * x + 3 := Real.sq_sqrt (by linarith)
  have hfac : ∀ u : ℝ, (x + 1 - 2 * u) ^ 2 - 4 * u = 4 * (((r + 1) ^ 2 / 4 - u) * ((r - 1) ^ 2 / 4 - u)) := by
    intro u
    have : x = (r ^ 2 - 3) / 2 := by linarith
    rw [this]; ring
  -- the inner integral
  have hinner : ∀ p : ℝ, ∫ q, 1 / ((x : ℂ) - (triangularDisp (9 / 4) (p, q) : ℝ)) ∂bz
      = ((1 / √((x + 1 - 2 * Real.cos p ^ 2) ^ 2 - 4 * Real.cos p ^ 2) : ℝ) : ℂ) := by
    intro p
    have hc2 : Real.cos p ^ 2 ≤ 1 := Real.cos_sq_le_one p
    have hwp : 2 < x + 1 - 2 * Real.cos p ^ 2 := by linarith
    have hoff : OffBand ((x + 1 - 2 * Real.cos p ^ 2 : ℝ) : ℂ) 2 := by
      intro e he h
      have h1 : x + 1 - 2 * Real.cos p ^ 2 = e := by exact_mod_cast h
      have := (abs_le.1 he).2
      linarith
    have h1 := integral_one_cos hoff (by positivity) (x := Real.cos p) (Real.abs_cos_le_one p)
    have e1 : (fun q => 1 / ((x : ℂ) - (triangularDisp (9 / 4) (p, q) : ℝ)))
        = fun q => 1 / (((x + 1 - 2 * Real.cos p ^ 2 : ℝ) : ℂ) - ((2 * (Real.cos p * Real.cos q) : ℝ) : ℂ)) := by
      funext q
      congr 1
      rw [← Complex.ofReal_sub, ← Complex.ofReal_sub]
      congr 1
      unfold triangularDisp
      rw [Real.cos_two_mul]
      ring
    rw [e1, h1]
    set A := x + 1 - 2 * Real.cos p ^ 2 with hA
    have hA0 : 0 < A := by linarith
    have h2 : 0 ≤ 1 - (2 / A) ^ 2 * Real.cos p ^ 2 := by
      have h3 : (2 / A) ^ 2 ≤ 1 := pow_le_one₀ (by positivity) (by rw [div_le_one hA0]; linarith)
      nlinarith [sq_nonneg (Real.cos p), sq_nonneg (2 / A)]
    have e2 : (1 : ℂ) - (((2 : ℝ) : ℂ) / (A : ℂ)) ^ 2 * ((Real.cos p ^ 2 : ℝ) : ℂ)
        = ((1 - (2 / A) ^ 2 * Real.cos p ^ 2 : ℝ) : ℂ) := by push_cast; ring
    rw [e2, sqrt_ofReal h2, ← Complex.ofReal_mul, ← Complex.ofReal_one, ← Complex.ofReal_div]
    congr 2
    nth_rewrite 1 [← Real.sqrt_sq hA0.le]
    rw [← Real.sqrt_mul (sq_nonneg _)]
    congr 1
    field_simp
    ring
  set P := (r - 1) ^ 3 * (r + 3) with hP
  have hP0 : 0 < P := mul_pos (pow_pos (by linarith) 3) (by linarith)
  -- the outer integral
  have houter : ∫ p, 1 / √((x + 1 - 2 * Real.cos p ^ 2) ^ 2 - 4 * Real.cos p ^ 2) ∂bz
      = 1 / (2 * Real.pi) * (2 / √(P / 16) * ellipKR (r / (P / 16))) := by
    have hm : Measurable fun u : ℝ => 1 / √((x + 1 - 2 * u) ^ 2 - 4 * u) := by fun_prop
    have hm2 : Measurable fun p : ℝ => 1 / √((x + 1 - 2 * Real.cos p ^ 2) ^ 2 - 4 * Real.cos p ^ 2) :=
      hm.comp (hcos.pow_const 2)
    rw [integral_eq_lintegral_of_nonneg_ae (Filter.Eventually.of_forall fun p => by
      simp only [Pi.zero_apply]; positivity) hm2.aestronglyMeasurable]
    have h3 := lintegral_cos_sq (h := fun u : ℝ => ENNReal.ofReal (1 / √((x + 1 - 2 * u) ^ 2 - 4 * u))) hm.ennreal_ofReal
    rw [h3]
    have hind : ∀ u ∈ Set.Ioo (0 : ℝ) 1, ENNReal.ofReal (1 / (Real.pi * √((1 - u) * (u - 0))))
          * ENNReal.ofReal (1 / √((x + 1 - 2 * u) ^ 2 - 4 * u))
        = ENNReal.ofReal (1 / (2 * Real.pi))
          * ENNReal.ofReal (1 / √(((r + 1) ^ 2 / 4 - u) * ((r - 1) ^ 2 / 4 - u) * (1 - u) * (u - 0))) := by
      intro u hu
      rw [← ENNReal.ofReal_mul (by positivity), ← ENNReal.ofReal_mul (by positivity)]
      congr 1
      have p1 : 0 < (1 - u) * (u - 0) := mul_pos (by linarith [hu.2]) (by linarith [hu.1])
      have p2 : 0 < ((r + 1) ^ 2 / 4 - u) * ((r - 1) ^ 2 / 4 - u) :=
        mul_pos (by nlinarith [hu.2]) (by nlinarith [hu.2])
      rw [hfac u, show (4 : ℝ) * (((r + 1) ^ 2 / 4 - u) * ((r - 1) ^ 2 / 4 - u))
        = 2 ^ 2 * (((r + 1) ^ 2 / 4 - u) * ((r - 1) ^ 2 / 4 - u)) by norm_num, Real.sqrt_mul (sq_nonneg (2 : ℝ)),
        Real.sqrt_sq (by norm_num), mul_assoc (((r + 1) ^ 2 / 4 - u) * ((r - 1) ^ 2 / 4 - u)), Real.sqrt_mul p2.le]
      have q1 := Real.sqrt_pos.2 p1
      have q2 := Real.sqrt_pos.2 p2
      generalize √((1 - u) * (u - 0)) = s1 at *
      generalize √(((r + 1) ^ 2 / 4 - u) * ((r - 1) ^ 2 / 4 - u)) = s2 at *
      field_simp
    rw [setLIntegral_congr_fun measurableSet_Ioo hind, lintegral_const_mul' _ _ ENNReal.ofReal_ne_top,
      lintegral_quartic_low (by nlinarith) (by nlinarith) (by norm_num), ← ENNReal.ofReal_mul (by positivity),
      show ((r + 1) ^ 2 / 4 - 1) * ((r - 1) ^ 2 / 4 - 0) = P / 16 by rw [hP]; ring,
      show ((r + 1) ^ 2 / 4 - (r - 1) ^ 2 / 4) * (1 - 0) = r by ring, ENNReal.toReal_ofReal]
    have := ellipKR_nonneg (r / (P / 16))
    positivity
  have hint : Integrable (fun k : ℝ × ℝ => 1 / ((x : ℂ) - (triangularDisp (9 / 4) k : ℝ))) (bz.prod bz) := by
    have hm : Measurable fun k : ℝ × ℝ => 1 / ((x : ℂ) - (triangularDisp (9 / 4) k : ℝ)) := by
      have := measurable_triangularDisp (9 / 4)
      fun_prop
    refine Integrable.of_bound hm.aestronglyMeasurable (1 / (x - 3)) (Filter.Eventually.of_forall fun k => ?_)
    have hk := (triangularDisp_mem (D := 9 / 4) (by norm_num) k).2
    rw [← Complex.ofReal_sub, norm_div, norm_one, Complex.norm_real, Real.norm_of_nonneg (by linarith)]
    exact one_div_le_one_div_of_le (by linarith) (by linarith)
  unfold bzGreen
  rw [bz2, integral_prod _ hint]
  simp_rw [hinner]
  rw [integral_complex_ofReal, houter]
  have er : Complex.sqrt (2 * (x : ℂ) + 3) = (r : ℂ) := by
    rw [show 2 * (x : ℂ) + 3 = ((2 * x + 3 : ℝ) : ℂ) by push_cast; ring, sqrt_ofReal (by linarith)]
  have e1 : Complex.sqrt ((r : ℂ) - 1) = (√(r - 1) : ℝ) := by
    rw [show (r : ℂ) - 1 = ((r - 1 : ℝ) : ℂ) by push_cast; ring, sqrt_ofReal (by linarith)]
  have e3 : Complex.sqrt ((r : ℂ) + 3) = (√(r + 3) : ℝ) := by
    rw [show (r : ℂ) + 3 = ((r + 3 : ℝ) : ℂ) by push_cast; ring, sqrt_ofReal (by linarith)]
  have hm1 : r / (P / 16) < 1 := by
    rw [div_lt_one (by positivity), hP]
    have : (r - 1) ^ 3 * (r + 3) - 16 * r = (r + 1) ^ 3 * (r - 3) := by ring
    have : 0 < (r + 1) ^ 3 * (r - 3) := mul_pos (by positivity) (by linarith)
    linarith
  rw [er, triK_sq, show (16 : ℂ) * r / (((r : ℂ) - 1) ^ 3 * (r + 3)) = ((r / (P / 16) : ℝ) : ℂ) by
    rw [hP]; push_cast; field_simp, ellipK_ofReal hm1]
  unfold triG
  rw [e1, e3]
  have hs : √(P / 16) = √(r - 1) ^ 3 * √(r + 3) / 4 := by
    rw [Real.sqrt_div hP0.le, hP, Real.sqrt_mul (pow_nonneg (by linarith) 3), show (16 : ℝ) = 4 ^ 2 by norm_num,
      Real.sqrt_sq (by norm_num)]
    congr 2
    rw [Real.sqrt_eq_iff_mul_self_eq (by have : 0 ≤ r - 1 := by linarith
                                         positivity) (by positivity)]
    rw [← pow_two, ← pow_mul, mul_comm 3 2, pow_mul, Real.sq_sqrt (by linarith)]
  rw [hs]
  have q1 : √(r - 1) ≠ 0 := (Real.sqrt_pos.2 (by linarith)).ne'
  have q3 : √(r + 3) ≠ 0 := (Real.sqrt_pos.2 (by linarith)).ne'
  generalize ellipKR (r / (P / 16)) = K
  push_cast
  field_simp

/-- The Green's function of the triangular lattice with `t = 1`. -/
noncomputable def triGreen : ℂ → ℂ := bzGreen bz2 (triangularDisp (9 / 4))

lemma differentiableOn_triGreen : DifferentiableOn ℂ triGreen {z | ∀ e ∈ Set.Icc (-(3 / 2) : ℝ) 3, z ≠ (e : ℂ)} :=
  differentiableOn_bzGreen (measurable_triangularDisp _) fun k => by
    have := triangularDisp_mem (D := 9 / 4) (by norm_num) k
    exact ⟨by linarith [this.1], by linarith [this.2]⟩

lemma sqrt_im_pos {w : ℂ} (hw : 0 < w.im) : 0 < (Complex.sqrt w).re ∧ 0 < (Complex.sqrt w).im := by
  have h1 := sqrt_re_pos (Or.inr hw.ne' : w ∈ Complex.slitPlane)
  refine ⟨h1, ?_⟩
  have h2 := congrArg Complex.im (sqrt_sq' w)
  rw [im_sq] at h2
  by_contra hc
  push Not at hc
  nlinarith

lemma differentiableAt_triG {r : ℂ} (h1 : r - 1 ∈ Complex.slitPlane) (h3 : r + 3 ∈ Complex.slitPlane) :
    DifferentiableAt ℂ triG r := by
  unfold triG
  have d1 : DifferentiableAt ℂ (fun r : ℂ => Complex.sqrt (r - 1)) r :=
    DifferentiableAt.comp (g := Complex.sqrt) r (Complex.differentiableAt_sqrt h1) (by fun_prop)
  have d3 : DifferentiableAt ℂ (fun r : ℂ => Complex.sqrt (r + 3)) r :=
    DifferentiableAt.comp (g := Complex.sqrt) r (Complex.differentiableAt_sqrt h3) (by fun_prop)
  exact (differentiableAt_const 4).div ((d1.pow 3).mul d3)
    (mul_ne_zero (pow_ne_zero 3 (sqrt_ne_zero h1)) (sqrt_ne_zero h3))

lemma differentiableAt_triK {r : ℂ} (h0 : r ∈ Complex.slitPlane) (h1 : r - 1 ∈ Complex.slitPlane)
    (h3 : r + 3 ∈ Complex.slitPlane) : DifferentiableAt ℂ triK r := by
  unfold triK
  exact (Complex.differentiableAt_sqrt h0).mul (differentiableAt_triG h1 h3)

lemma slit_of_im {r : ℂ} (hr : 0 < r.im) :
    r ∈ Complex.slitPlane ∧ r - 1 ∈ Complex.slitPlane ∧ r + 3 ∈ Complex.slitPlane :=
  ⟨Or.inr hr.ne', Or.inr (by simpa using hr.ne'), Or.inr (by simpa using hr.ne')⟩

/-- The value of the Green's function as function of `r = √(2z+3)`. -/
noncomputable def triValue (r : ℂ) : ℂ := 1 / Real.pi * triG r * triKK (triK r)

lemma differentiableAt_triValue {r : ℂ} (h0 : 0 ≤ r.re) (hi : 0 < r.im) : DifferentiableAt ℂ triValue r := by
  obtain ⟨s0, s1, s3⟩ := slit_of_im hi
  unfold triValue
  refine ((differentiableAt_triG s1 s3).const_mul _).mul ?_
  refine DifferentiableAt.comp (g := triKK) r (differentiableAt_triKK (triK_quadrant hi) fun h => ?_)
    (differentiableAt_triK s0 s1 s3)
  linarith [triK_real h0 hi h]

/-- Upper half plane. -/
lemma triangular_upper {ζ : ℂ} (hζ : 0 < ζ.im) : triGreen ζ = triValue (Complex.sqrt (2 * ζ + 3)) := by
  have hw : ∀ {ζ : ℂ}, 0 < ζ.im → 0 < (2 * ζ + 3).im := fun h => by simpa using h
  have hopen : IsOpen {ζ : ℂ | 0 < ζ.im} := isOpen_lt continuous_const Complex.continuous_im
  have hconn : IsPreconnected {ζ : ℂ | 0 < ζ.im} := (convex_halfSpace_im_gt 0).isPreconnected
  have dG : DifferentiableOn ℂ triGreen {ζ : ℂ | 0 < ζ.im} := differentiableOn_triGreen.mono fun z hz e _ h => by
    rw [h] at hz
    simp at hz
  have dF : DifferentiableOn ℂ (fun ζ => triValue (Complex.sqrt (2 * ζ + 3))) {ζ : ℂ | 0 < ζ.im} := by
    intro ζ hζ
    apply DifferentiableAt.differentiableWithinAt
    obtain ⟨h1, h2⟩ := sqrt_im_pos (hw hζ)
    have d1 : DifferentiableAt ℂ (fun ζ : ℂ => Complex.sqrt (2 * ζ + 3)) ζ :=
      DifferentiableAt.comp (g := Complex.sqrt) ζ (Complex.differentiableAt_sqrt (Or.inr (hw hζ).ne')) (by fun_prop)
    exact DifferentiableAt.comp (g := triValue) ζ (differentiableAt_triValue h1.le h2) d1
  -- near a real point above the band
  set H : ℂ → ℂ := fun ζ => 1 / Real.pi * triG (Complex.sqrt (2 * ζ + 3)) * ellipK (triK (Complex.sqrt (2 * ζ + 3)) ^ 2)
    with hH
  set x₀ : ℂ := ((11 : ℝ) : ℂ) with hx₀
  have hr0 : Complex.sqrt (2 * x₀ + 3) = 5 := by
    apply sqrt_unique
    · rw [hx₀]; norm_num
    · norm_num
  have s1 : (5 : ℂ) - 1 ∈ Complex.slitPlane := by left; norm_num
  have s3 : (5 : ℂ) + 3 ∈ Complex.slitPlane := by left; norm_num
  have s0 : (5 : ℂ) ∈ Complex.slitPlane := by left; norm_num
  have hk0 : triK 5 ^ 2 = ((5 / 32 : ℝ) : ℂ) := by rw [triK_sq]; push_cast; norm_num
  have hdom : triK 5 ^ 2 ∈ ellipDom := by
    rw [hk0, ellipDom, Set.mem_ofPred_eq, ← Complex.ofReal_one, ← Complex.ofReal_sub, Complex.ofReal_mem_slitPlane]
    norm_num
  have hkre : 0 < (triK 5).re := by
    unfold triK triG
    rw [show (5 : ℂ) = ((5 : ℝ) : ℂ) by norm_num, show ((5 : ℝ) : ℂ) - 1 = ((4 : ℝ) : ℂ) by push_cast; norm_num,
      show ((5 : ℝ) : ℂ) + 3 = ((8 : ℝ) : ℂ) by push_cast; norm_num, sqrt_ofReal (by norm_num), sqrt_ofReal (by norm_num),
      sqrt_ofReal (by norm_num)]
    rw [show ((√5 : ℝ) : ℂ) * (4 / (((√4 : ℝ) : ℂ) ^ 3 * ((√8 : ℝ) : ℂ))) = ((√5 * (4 / (√4 ^ 3 * √8)) : ℝ) : ℂ) by
      push_cast; rfl, Complex.ofReal_re]
    positivity
  have hcs : ∀ᶠ ζ in 𝓝 x₀, 2 * ζ + 3 ∈ Complex.slitPlane := by
    have : ContinuousAt (fun ζ : ℂ => 2 * ζ + 3) x₀ := by fun_prop
    exact this.eventually_mem (Complex.isOpen_slitPlane.mem_nhds (by left; rw [hx₀]; norm_num))
  have dr : DifferentiableAt ℂ (fun ζ : ℂ => Complex.sqrt (2 * ζ + 3)) x₀ :=
    DifferentiableAt.comp (g := Complex.sqrt) x₀ (Complex.differentiableAt_sqrt hcs.self_of_nhds) (by fun_prop)
  have cr : Filter.Tendsto (fun ζ : ℂ => Complex.sqrt (2 * ζ + 3)) (𝓝 x₀) (𝓝 5) := by
    have := dr.continuousAt.tendsto
    rwa [hr0] at this
  have ck : Filter.Tendsto (fun ζ : ℂ => triK (Complex.sqrt (2 * ζ + 3))) (𝓝 x₀) (𝓝 (triK 5)) :=
    (differentiableAt_triK s0 s1 s3).continuousAt.tendsto.comp cr
  have hHd : ∀ᶠ ζ in 𝓝 x₀, DifferentiableAt ℂ H ζ := by
    have t1 : ∀ᶠ ζ in 𝓝 x₀, Complex.sqrt (2 * ζ + 3) - 1 ∈ Complex.slitPlane :=
      (cr.sub_const 1).eventually_mem (Complex.isOpen_slitPlane.mem_nhds s1)
    have t3 : ∀ᶠ ζ in 𝓝 x₀, Complex.sqrt (2 * ζ + 3) + 3 ∈ Complex.slitPlane :=
      (cr.add_const 3).eventually_mem (Complex.isOpen_slitPlane.mem_nhds s3)
    have t0 : ∀ᶠ ζ in 𝓝 x₀, Complex.sqrt (2 * ζ + 3) ∈ Complex.slitPlane :=
      cr.eventually_mem (Complex.isOpen_slitPlane.mem_nhds s0)
    have t2 : ∀ᶠ ζ in 𝓝 x₀, triK (Complex.sqrt (2 * ζ + 3)) ^ 2 ∈ ellipDom :=
      (ck.pow 2).eventually_mem (isOpen_ellipDom.mem_nhds hdom)
    filter_upwards [t0, t1, t2, t3, hcs] with ζ a0 a1 a2 a3 a4
    have d1 : DifferentiableAt ℂ (fun ζ : ℂ => Complex.sqrt (2 * ζ + 3)) ζ :=
      DifferentiableAt.comp (g := Complex.sqrt) ζ (Complex.differentiableAt_sqrt a4) (by fun_prop)
    have d2 : DifferentiableAt ℂ (fun ζ : ℂ => triG (Complex.sqrt (2 * ζ + 3))) ζ :=
      DifferentiableAt.comp (g := triG) ζ (differentiableAt_triG a1 a3) d1
    have d3 : DifferentiableAt ℂ (fun ζ : ℂ => triK (Complex.sqrt (2 * ζ + 3))) ζ :=
      DifferentiableAt.comp (g := triK) ζ (differentiableAt_triK a0 a1 a3) d1
    have d4 : DifferentiableAt ℂ (fun ζ : ℂ => ellipK (triK (Complex.sqrt (2 * ζ + 3)) ^ 2)) ζ :=
      DifferentiableAt.comp (g := ellipK) ζ (hasDerivAt_ellipK a2).differentiableAt (d3.pow 2)
    exact (d2.const_mul _).mul d4
  have hHa : AnalyticAt ℂ H x₀ := Complex.analyticAt_iff_eventually_differentiableAt.2 hHd
  have hmem : x₀ ∈ {z : ℂ | ∀ e ∈ Set.Icc (-(3 / 2) : ℝ) 3, z ≠ (e : ℂ)} := by
    intro e he h
    have : (11 : ℝ) = e := Complex.ofReal_injective h
    linarith [he.2]
  have hGa : AnalyticAt ℂ triGreen x₀ := differentiableOn_triGreen.analyticAt ((isOpen_offBand _ _).mem_nhds hmem)
  have hHG : ∀ᶠ ζ in 𝓝 x₀, H ζ = triGreen ζ := by
    rw [← hHa.frequently_eq_iff_eventually_eq hGa]
    have ht : Filter.Tendsto (fun x : ℝ => (x : ℂ)) (𝓝[>] (11 : ℝ)) (𝓝[≠] x₀) := by
      apply tendsto_nhdsWithin_of_tendsto_nhds_of_eventually_within
      · exact (Complex.continuous_ofReal.tendsto _).mono_left nhdsWithin_le_nhds
      · filter_upwards [self_mem_nhdsWithin] with x hx
        simp only [Set.mem_compl_iff, Set.mem_singleton_iff, hx₀]
        exact_mod_cast (ne_of_gt hx)
    refine ht.frequently (Filter.Eventually.frequently ?_)
    filter_upwards [self_mem_nhdsWithin] with x hx
    rw [hH, triGreen, triangular_real (by linarith [Set.mem_Ioi.1 hx])]
  have hkpos : ∀ᶠ ζ in 𝓝 x₀, 0 < (triK (Complex.sqrt (2 * ζ + 3))).re :=
    ((Complex.continuous_re.tendsto _).comp ck).eventually_mem (isOpen_Ioi.mem_nhds hkre)
  obtain ⟨δ, hδ, hball⟩ := Metric.eventually_nhds_iff_ball.1 (hHG.and hkpos)
  set u : ℂ := x₀ + (δ / 2 : ℝ) * Complex.I with hu
  have huim : 0 < u.im := by rw [hu, hx₀]; simpa using hδ
  have humem : u ∈ Metric.ball x₀ δ := by
    rw [Metric.mem_ball, dist_eq_norm, hu, add_sub_cancel_left, norm_mul, Complex.norm_I, mul_one, Complex.norm_real,
      Real.norm_of_nonneg (by positivity)]
    linarith
  have hev : ∀ᶠ ζ in 𝓝 u, triGreen ζ = triValue (Complex.sqrt (2 * ζ + 3)) := by
    filter_upwards [Metric.isOpen_ball.mem_nhds humem, hopen.mem_nhds huim] with ζ h1 h2
    obtain ⟨e1, e2⟩ := hball ζ h1
    rw [← e1, hH, triValue]
    simp only
    congr 1
    unfold triKK
    rw [if_pos]
    by_contra hc
    exact lt_irrefl _ (e2.trans (triK_quadrant (sqrt_im_pos (hw h2)).2 (not_lt.1 hc)))
  exact (dG.analyticOnNhd hopen).eqOn_of_preconnected_of_eventuallyEq (dF.analyticOnNhd hopen) hconn huim hev hζ

/-- Below the band. -/
lemma triangular_below {x : ℝ} (hx : x < -(3 / 2)) : triGreen x = triValue (Complex.sqrt (2 * x + 3)) := by
  set y := √(-(2 * x + 3)) with hy
  have hy0 : 0 < y := Real.sqrt_pos.2 (by linarith)
  have hy2 : y ^ 2 = -(2 * x + 3) := Real.sq_sqrt (by linarith)
  have hr : Complex.sqrt (2 * (x : ℂ) + 3) = y * Complex.I := by
    rw [show 2 * (x : ℂ) + 3 = -((-(2 * x + 3) : ℝ) : ℂ) by push_cast; ring, sqrt_neg_ofReal (by linarith), mul_comm]
  rw [hr]
  set r : ℝ → ℂ := fun δ => δ + y * Complex.I with hrd
  have hcr : Continuous r := by rw [hrd]; fun_prop
  have h0 : r 0 = y * Complex.I := by simp [hrd]
  have hz0 : (r 0 ^ 2 - 3) / 2 = (x : ℂ) := by
    rw [h0, mul_pow, Complex.I_sq, ← Complex.ofReal_pow, hy2]
    push_cast
    ring
  have hmem : (x : ℂ) ∈ {z : ℂ | ∀ e ∈ Set.Icc (-(3 / 2) : ℝ) 3, z ≠ (e : ℂ)} := by
    intro e he h
    have : x = e := by exact_mod_cast h
    linarith [he.1]
  have t1 : Filter.Tendsto (fun δ : ℝ => triGreen ((r δ ^ 2 - 3) / 2)) (𝓝[>] 0) (𝓝 (triGreen x)) := by
    have c1 : ContinuousAt triGreen ((r 0 ^ 2 - 3) / 2) := by
      rw [hz0]
      exact (differentiableOn_triGreen.differentiableAt ((isOpen_offBand _ _).mem_nhds hmem)).continuousAt
    have c2 : ContinuousAt (fun δ : ℝ => triGreen ((r δ ^ 2 - 3) / 2)) 0 :=
      ContinuousAt.comp (f := fun δ : ℝ => (r δ ^ 2 - 3) / 2) c1 (by fun_prop)
    have := c2.tendsto
    simp only [hz0] at this
    exact this.mono_left nhdsWithin_le_nhds
  have t2 : Filter.Tendsto (fun δ : ℝ => triValue (r δ)) (𝓝[>] 0) (𝓝 (triValue (y * Complex.I))) := by
    have c1 : ContinuousAt triValue (r 0) := by
      rw [h0]
      exact (differentiableAt_triValue (by simp) (by simpa using hy0)).continuousAt
    have c2 : ContinuousAt (fun δ : ℝ => triValue (r δ)) 0 := ContinuousAt.comp (f := r) c1 hcr.continuousAt
    have := c2.tendsto
    rw [h0] at this
    exact this.mono_left nhdsWithin_le_nhds
  refine tendsto_nhds_unique t1 (t2.congr' ?_)
  filter_upwards [self_mem_nhdsWithin] with δ hδ
  have hδ0 : 0 < δ := hδ
  have hre : (r δ).re = δ := by simp [hrd]
  have him : (r δ).im = y := by simp [hrd]
  rw [triangular_upper, show 2 * ((r δ ^ 2 - 3) / 2) + 3 = r δ ^ 2 by ring, sqrt_unique rfl (by rwa [hre])]
  have : ((r δ ^ 2 - 3) / 2).im = (r δ ^ 2).im / 2 := by
    simp
  rw [this, im_sq, hre, him]
  positivity

lemma ellipK_cut_J {m : ℝ} (hm : 1 < m) : conj (ellipK m) = ellipJ m + Complex.I * ellipK (1 - m) := by
  have hm0 : 0 < m := by linarith
  have hJ : ellipJ m = ((ellipKR (1 / m) / √m : ℝ) : ℂ) := by
    unfold ellipJ ellipKR
    rw [← intervalIntegral.integral_div, ← intervalIntegral.integral_ofReal]
    congr 1
    funext θ
    have h1 : 0 ≤ m - Real.sin θ ^ 2 := by linarith [Real.sin_sq_le_one θ]
    rw [← Complex.ofReal_sub, sqrt_ofReal h1, show m - Real.sin θ ^ 2 = (1 - 1 / m * Real.sin θ ^ 2) * m by
      field_simp, Real.sqrt_mul' _ hm0.le, ← Complex.ofReal_one, ← Complex.ofReal_div]
    congr 1
    rw [div_div]
  have hK : ellipK (1 - m) = ((ellipKR (1 - 1 / m) / √m : ℝ) : ℂ) := by
    have h := integral_reflect (fun s => 1 / Complex.sqrt (1 - (1 - m) * s))
    unfold ellipK ellipKR
    rw [← intervalIntegral.integral_div, ← intervalIntegral.integral_ofReal]
    simp only [Complex.ofReal_pow] at h
    rw [h]
    congr 1
    funext θ
    have h1 : 0 ≤ m - (m - 1) * Real.sin θ ^ 2 := by nlinarith [Real.sin_sq_le_one θ, sq_nonneg (Real.sin θ)]
    rw [show (1 : ℂ) - (1 - m) * ((1 - Real.sin θ ^ 2 : ℝ) : ℂ) = ((m - (m - 1) * Real.sin θ ^ 2 : ℝ) : ℂ) by
      push_cast; ring, sqrt_ofReal h1, show m - (m - 1) * Real.sin θ ^ 2 = (1 - (1 - 1 / m) * Real.sin θ ^ 2) * m by
      field_simp, Real.sqrt_mul' _ hm0.le, ← Complex.ofReal_one, ← Complex.ofReal_div]
    congr 1
    rw [div_div]
  rw [ellipK_cut hm, hJ, hK, map_sub, map_mul, Complex.conj_ofReal, Complex.conj_ofReal, Complex.conj_I]
  ring

lemma ellipKR_pos {m : ℝ} (hm : m < 1) : 0 < ellipKR m := by
  have hpi := Real.pi_pos
  have h1 : ∀ θ : ℝ, 0 < 1 - m * Real.sin θ ^ 2 := fun θ => by
    have := Real.sin_sq_le_one θ
    have := sq_nonneg (Real.sin θ)
    rcases le_or_gt m 0 with h | h <;> nlinarith
  unfold ellipKR
  apply intervalIntegral.intervalIntegral_pos_of_pos_on
  · apply Continuous.intervalIntegrable
    apply Continuous.div continuous_const (by fun_prop)
    exact fun θ => (Real.sqrt_pos.2 (h1 θ)).ne'
  · exact fun θ _ => one_div_pos.2 (Real.sqrt_pos.2 (h1 θ))
  · positivity

lemma signedSqrt_eq {z : ℂ} (hz : 0 ≤ z.im) : signedSqrt z = Complex.sqrt z := by
  unfold signedSqrt
  simp only
  rw [if_neg (fun h => absurd h.2 (not_lt.2 hz)), one_mul]

lemma sqrt_im_nonneg {w : ℂ} (hw : 0 ≤ w.im) : 0 ≤ (Complex.sqrt w).im := by
  rcases hw.lt_or_eq with h | h
  · exact (sqrt_im_pos h).2.le
  · have hw' : w = (w.re : ℂ) := by apply Complex.ext <;> simp [← h]
    rw [hw']
    rcases le_total 0 w.re with h0 | h0
    · rw [sqrt_ofReal h0]
      simp
    · rw [show (w.re : ℂ) = -((-w.re : ℝ) : ℂ) by push_cast; ring, sqrt_neg_ofReal (by linarith)]
      simp

lemma triangularGK_eq {ζ : ℂ} (hζ : 0 ≤ ζ.im) :
    triangularGK ζ = (triG (Complex.sqrt (2 * ζ + 3)), triK (Complex.sqrt (2 * ζ + 3))) := by
  have h0 : 0 ≤ (2 * ζ + 3).im := by simpa using hζ
  have h1 := sqrt_im_nonneg h0
  unfold triangularGK
  simp only
  rw [signedSqrt_eq h0, signedSqrt_eq h1, signedSqrt_eq (by simpa using h1), signedSqrt_eq (by simpa using h1)]
  unfold triK triG
  norm_num

/-- The elliptic integral of the code is called on its cut `m > 1`, or `m` is the value at infinity. -/
def triangularOnCut (ζ : ℂ) : Prop := ∃ m : ℝ, 1 < m ∧ (triangularGK ζ).2 ^ 2 = m

/-- The code for `t = 1` and retarded argument. -/
lemma triangular_code {ellipk : ℂ → ℂ} (hk : ∀ m, 1 - m ∈ Complex.slitPlane → ellipk m = ellipK m) {ζ : ℂ}
    (hi : 0 ≤ ζ.im) (hoff : ∀ e ∈ Set.Icc (-(3 / 2) : ℝ) 3, ζ ≠ (e : ℂ))
    (hcut : triangularOnCut ζ → ∀ m : ℝ, 1 < m → ellipk m = conj (ellipK m)) :
    1 / Real.pi * (triangularGK ζ).1 *
      (if 0 < (triangularGK ζ).2.im then
        ellipk ((triangularGK ζ).2 ^ 2) + 2 * Complex.I * ellipk (1 - (triangularGK ζ).2 ^ 2)
      else ellipk ((triangularGK ζ).2 ^ 2)) = triGreen ζ := by
  have hcut' : (∃ m : ℝ, 1 < m ∧ triK (Complex.sqrt (2 * ζ + 3)) ^ 2 = m) →
      ∀ m : ℝ, 1 < m → ellipk m = conj (ellipK m) := by
    intro h
    apply hcut
    rw [triangularOnCut, triangularGK_eq hi]
    exact h
  rw [triangularGK_eq hi]
  simp only
  -- above the band
  by_cases ha : ∃ x : ℝ, 3 < x ∧ ζ = x
  · obtain ⟨x, hx, rfl⟩ := ha
    rw [triGreen, triangular_real hx]
    have hr3 : 3 < √(2 * x + 3) := by
      rw [Real.lt_sqrt (by norm_num)]
      linarith
    have hr : Complex.sqrt (2 * (x : ℂ) + 3) = ((√(2 * x + 3) : ℝ) : ℂ) := by
      rw [← sqrt_ofReal (by linarith)]
      push_cast
      rfl
    rw [hr]
    generalize √(2 * x + 3) = r at hr3
    have hkr : triK r = ((√r * (4 / (√(r - 1) ^ 3 * √(r + 3))) : ℝ) : ℂ) := by
      unfold triK triG
      rw [← Complex.ofReal_one, ← Complex.ofReal_sub, show (r : ℂ) + 3 = ((r + 3 : ℝ) : ℂ) by push_cast; rfl,
        sqrt_ofReal (by linarith), sqrt_ofReal (by linarith), sqrt_ofReal (by linarith)]
      push_cast
      rfl
    have him : ¬ 0 < (triK r).im := by rw [hkr, Complex.ofReal_im]; exact lt_irrefl _
    rw [if_neg him, hk]
    rw [triK_sq, show (1 : ℂ) - 16 * r / ((r - 1) ^ 3 * (r + 3)) = ((1 - 16 * r / ((r - 1) ^ 3 * (r + 3)) : ℝ) : ℂ) by
      push_cast; rfl, Complex.ofReal_mem_slitPlane, sub_pos]
    have h1 : 0 < r - 1 := by linarith
    rw [div_lt_one (by positivity)]
    have h2 : 4 ≤ (r - 1) ^ 2 := by nlinarith
    have h3 : 0 < (r - 1) * (r + 3) - 4 * r := by nlinarith
    have h4 : (r - 1) ^ 3 * (r + 3) = (r - 1) ^ 2 * ((r - 1) * (r + 3)) := by ring
    have h5 : 0 < (r - 1) * (r + 3) := by positivity
    nlinarith
  -- elsewhere
  have hmain : triGreen ζ = triValue (Complex.sqrt (2 * ζ + 3)) ∧ 0 ≤ (Complex.sqrt (2 * ζ + 3)).re ∧
      0 < (Complex.sqrt (2 * ζ + 3)).im := by
    rcases hi.lt_or_eq with h | h
    · obtain ⟨a, b⟩ := sqrt_im_pos (w := 2 * ζ + 3) (by simpa using h)
      exact ⟨triangular_upper h, a.le, b⟩
    · have hz : ζ = (ζ.re : ℂ) := by apply Complex.ext <;> simp [← h]
      have hx : ζ.re < -(3 / 2) := by
        by_contra hc
        rcases le_or_gt ζ.re 3 with h3 | h3
        · exact hoff ζ.re ⟨not_lt.1 hc, h3⟩ hz
        · exact ha ⟨ζ.re, h3, hz⟩
      have hs : Complex.sqrt (2 * (ζ.re : ℂ) + 3) = Complex.I * (√(-(2 * ζ.re + 3)) : ℝ) := by
        rw [← sqrt_neg_ofReal (by linarith)]
        congr 1
        push_cast
        ring
      rw [hz]
      refine ⟨triangular_below hx, ?_, ?_⟩
      · rw [hs]
        simp
      · rw [hs]
        have : 0 < √(-(2 * ζ.re + 3)) := Real.sqrt_pos.2 (by linarith)
        rw [Complex.mul_im, Complex.I_re, Complex.I_im, Complex.ofReal_re, Complex.ofReal_im]
        linarith
  obtain ⟨hG, hre, him⟩ := hmain
  rw [hG, triValue]
  congr 1
  generalize Complex.sqrt (2 * ζ + 3) = r at *
  unfold triKK
  rcases lt_trichotomy (triK r).im 0 with h | h | h
  · rw [if_neg (not_lt.2 h.le), if_pos h, hk _ (sq_mem_ellipDom h.ne)]
  · have h2 := triK_real hre him h
    have hkr : triK r = ((triK r).re : ℂ) := by apply Complex.ext <;> simp [h]
    have hm : triK r ^ 2 = (((triK r).re ^ 2 : ℝ) : ℂ) := by
      nth_rewrite 1 [hkr]
      push_cast
      rfl
    rw [if_neg (by rw [h]; exact lt_irrefl _), if_neg (by rw [h]; exact lt_irrefl _), if_pos h, hm]
    have h1 : 1 < (triK r).re ^ 2 := by linarith
    rw [hcut' ⟨_, h1, hm⟩ _ h1, ellipK_cut_J h1]
  · have hn := triK_quadrant him h.le
    rw [if_pos h, if_neg (not_lt.2 h.le), if_neg h.ne', hk _ (sq_mem_ellipDom h.ne'), hk]
    rw [sub_sub_cancel]
    right
    rw [im_sq]
    have := mul_neg_of_neg_of_pos hn h
    linarith

lemma triangularDisp_scale (D : ℝ) (k : ℝ × ℝ) : triangularDisp D k = D * 4 / 9 * triangularDisp (9 / 4) k := by
  unfold triangularDisp
  ring

lemma bzGreen_conj {κ : Type*} [MeasurableSpace κ] (μ : Measure κ) (disp : κ → ℝ) (z : ℂ) :
    bzGreen μ disp (conj z) = conj (bzGreen μ disp z) := by
  unfold bzGreen
  rw [← integral_conj]
  congr 1
  funext k
  simp

lemma triGreen_scale {D : ℝ} (hD : 0 < D) (z : ℂ) :
    bzGreen bz2 (triangularDisp D) z = 1 / (D * 4 / 9 : ℂ) * triGreen (1 / (D * 4 / 9 : ℂ) * z) := by
  have hDc : (D : ℂ) ≠ 0 := by exact_mod_cast hD.ne'
  unfold triGreen bzGreen
  rw [← integral_const_mul]
  congr 1
  funext k
  rw [triangularDisp_scale D k]
  push_cast
  rw [one_div_mul_one_div, mul_sub]
  congr 2
  field_simp

/-- The rescaled and reflected argument at which `triangular.gf_z` evaluates its formula. -/
noncomputable def triangularArg (z : ℂ) (D : ℝ) : ℂ :=
  if z.im < 0 then conj (z / (D * 4 / 9)) else z / (D * 4 / 9)

/-- C62, with the value on the cut of the elliptic integral made explicit. -/
lemma triangular_gf_z_aux {ellipk : ℂ → ℂ} (hk : ∀ m, 1 - m ∈ Complex.slitPlane → ellipk m = ellipK m) {z : ℂ} {D : ℝ}
    (hD : 0 < D) (hz : ∀ e ∈ Set.Icc (-(2 / 3 * D)) (4 / 3 * D), z ≠ (e : ℂ)) (h1 : z ≠ -1)
    (hcut : triangularOnCut (triangularArg z D) → ∀ m : ℝ, 1 < m → ellipk m = conj (ellipK m)) :
    triangularGfZ ellipk z D = some (bzGreen bz2 (triangularDisp D) z) := by
  have hDc : (D : ℂ) ≠ 0 := by exact_mod_cast hD.ne'
  have hDD : (D : ℂ) * 4 / 9 ≠ 0 := by
    refine div_ne_zero (mul_ne_zero hDc ?_) ?_ <;> norm_num
  have hsc : (1.0 : ℂ) / ((D : ℂ) * 4 / 9) * z = z / (D * 4 / 9) := by
    rw [show (1.0 : ℂ) = 1 by norm_num, one_div_mul_eq_div]
  have him : ((z / (D * 4 / 9 : ℂ)).im < 0) = (z.im < 0) := by
    rw [show (D * 4 / 9 : ℂ) = ((D * 4 / 9 : ℝ) : ℂ) by push_cast; rfl, Complex.div_ofReal_im, eq_iff_iff,
      div_lt_iff₀ (by positivity), zero_mul]
  have hoff : ∀ e ∈ Set.Icc (-(3 / 2) : ℝ) 3, triangularArg z D ≠ (e : ℂ) := by
    intro e he h
    have h2 : z / (D * 4 / 9 : ℂ) = e := by
      unfold triangularArg at h
      split_ifs at h with h3
      · rw [← Complex.conj_conj (z / (D * 4 / 9 : ℂ)), h, Complex.conj_ofReal]
      · exact h
    rw [div_eq_iff hDD] at h2
    refine hz (e * (D * 4 / 9)) ⟨?_, ?_⟩ (by rw [h2]; push_cast; rfl)
    · nlinarith [he.1]
    · nlinarith [he.2]
  have hi : 0 ≤ (triangularArg z D).im := by
    unfold triangularArg
    split_ifs with h
    · rw [Complex.conj_im]
      rw [← him] at h
      linarith
    · rw [← him] at h
      exact not_lt.1 h
  have hcode := triangular_code hk hi hoff hcut
  have hne : (D : ℂ) * 4 / 9 * triangularArg z D ≠ -1 := by
    unfold triangularArg
    split_ifs with h
    · intro h2
      apply h1
      have h3 := congrArg conj h2
      simp only [map_mul, map_div₀, Complex.conj_conj, Complex.conj_ofReal, map_ofNat, map_neg, map_one] at h3
      rwa [mul_div_cancel₀ _ hDD] at h3
    · rwa [mul_div_cancel₀ _ hDD]
  unfold triangularGfZ
  simp only [hsc, him]
  have harg : (if z.im < 0 then conj (z / (D * 4 / 9 : ℂ)) else z / (D * 4 / 9)) = triangularArg z D := rfl
  simp only [harg]
  rw [if_neg hne]
  congr 1
  have hval : (1 : ℂ) / Real.pi / (D * 4 / 9) * (triangularGK (triangularArg z D)).1 *
      (if 0 < (triangularGK (triangularArg z D)).2.im then
        ellipk ((triangularGK (triangularArg z D)).2 ^ 2) + 2 * Complex.I * ellipk (1 - (triangularGK (triangularArg z D)).2 ^ 2)
      else ellipk ((triangularGK (triangularArg z D)).2 ^ 2)) = 1 / (D * 4 / 9) * triGreen (triangularArg z D) := by
    rw [← hcode]
    ring
  rw [hval, triGreen_scale hD, one_div_mul_eq_div _ z]
  unfold triangularArg
  split_ifs with h
  · rw [triGreen, bzGreen_conj, map_mul, Complex.conj_conj]
    congr 1
    rw [show (1 : ℂ) / (D * 4 / 9) = ((1 / (D * 4 / 9) : ℝ) : ℂ) by push_cast; rfl, Complex.conj_ofReal]
  · rfl

/-- C62 (partial): `triangular.gf_z` is the local Green's function of the dispersion
`ε(k) = 4D/9 (cos 2k₁ + 2 cos k₁ cos k₂)` for every frequency outside of the band `[-2D/3, 4D/3]`, where the elliptic
integral is not evaluated on its cut, if the frequency is not `-1`. For these cases see `triangular_gf_z_cut_wrong` and
`triangular_gf_z_singular_wrong`. -/
theorem triangular_gf_z_partial {ellipk : ℂ → ℂ} (hk : EllipkContract ellipk) {z : ℂ} {D : ℝ}
    (hD : 0 < D) (hz : ∀ e ∈ Set.Icc (-(2 / 3 * D)) (4 / 3 * D), z ≠ (e : ℂ)) (h1 : z ≠ -1)
    (hcut : ¬ triangularOnCut (triangularArg z D)) :
    triangularGfZ ellipk z D = some (bzGreen bz2 (triangularDisp D) z) ∧
      triangularHilbert ellipk z D = some (bzGreen bz2 (triangularDisp D) z) :=
  ⟨triangular_gf_z_aux hk.off hD hz h1 fun h => absurd h hcut, triangular_gf_z_aux hk.off hD hz h1 fun h => absurd h hcut⟩

/-- The elliptic integral with the boundary value from above on the cut. -/
noncomputable def ellipKUp (m : ℂ) : ℂ := conj (ellipK (conj m))

lemma ellipKUp_off {m : ℂ} (hm : 1 - m ∈ Complex.slitPlane) : ellipKUp m = ellipK m := by
  rw [ellipKUp, ellipK_conj hm, Complex.conj_conj]

lemma ellipKUp_contract : EllipkContract ellipKUp where
  off _ := ellipKUp_off
  cut m _ := Or.inr (by rw [ellipKUp, Complex.conj_ofReal])

/-- C62: with the boundary value from above on the cut of the elliptic integral `triangular.gf_z` is the Green's function
for all frequencies off the band except for `-1`. -/
theorem triangular_gf_z_up {z : ℂ} {D : ℝ} (hD : 0 < D)
    (hz : ∀ e ∈ Set.Icc (-(2 / 3 * D)) (4 / 3 * D), z ≠ (e : ℂ)) (h1 : z ≠ -1) :
    triangularGfZ ellipKUp z D = some (bzGreen bz2 (triangularDisp D) z) :=
  triangular_gf_z_aux (fun _ => ellipKUp_off) hD hz h1 fun _ m _ => by rw [ellipKUp, Complex.conj_ofReal]

/-- C62: `triangular.gf_z` returns `-i∞` at `z = -1` for every half-bandwidth, although the singularity of the lattice
lies at `-4D/9`; for `D < 3/2` the frequency `-1` is not even part of the band. -/
theorem triangular_gf_z_singular_wrong :
    (∀ (ellipk : ℂ → ℂ) (D : ℝ), D ≠ 0 → triangularGfZ ellipk (-1) D = none) ∧
    ∀ D : ℝ, 0 < D → D < 3 / 2 → ∀ e ∈ Set.Icc (-(2 / 3 * D)) (4 / 3 * D), (-1 : ℂ) ≠ (e : ℂ) := by
  refine ⟨fun ellipk D hD => ?_, fun D hD h e he h2 => ?_⟩
  · have hDc : (D : ℂ) ≠ 0 := by exact_mod_cast hD
    have him : ¬ ((1.0 : ℂ) / ((D : ℂ) * 4 / 9) * -1).im < 0 := by
      rw [show (1.0 : ℂ) / ((D : ℂ) * 4 / 9) * -1 = ((-(1 / (D * 4 / 9)) : ℝ) : ℂ) by
        rw [show (1.0 : ℂ) = 1 by norm_num]
        push_cast
        ring,
        Complex.ofReal_im]
      exact lt_irrefl _
    unfold triangularGfZ
    simp only
    rw [if_neg him, if_pos]
    rw [show (1.0 : ℂ) = 1 by norm_num]
    field_simp
  · have : (-1 : ℝ) = e := by exact_mod_cast h2
    linarith [he.1]

/-- Conversely the singularity is missed for other half-bandwidths: the check never applies at `-4D/9`. -/
theorem triangular_gf_z_singular_missed (ellipk : ℂ → ℂ) {D : ℝ} (hD : 0 < D) (h : D ≠ 9 / 4) :
    triangularGfZ ellipk (-(4 / 9 * D : ℝ)) D ≠ none := by
  have hDc : (D : ℂ) ≠ 0 := by exact_mod_cast hD.ne'
  have e1 : (1.0 : ℂ) / ((D : ℂ) * 4 / 9) * (-(4 / 9 * D : ℝ)) = ((-1 : ℝ) : ℂ) := by
    rw [show (1.0 : ℂ) = 1 by norm_num]
    push_cast
    field_simp
  unfold triangularGfZ
  simp only
  have e2 : ¬ ((-1 : ℝ) : ℂ).im < 0 := by rw [Complex.ofReal_im]; exact lt_irrefl _
  rw [e1, if_neg e2, if_neg]
  · exact Option.some_ne_none _
  · intro h2
    apply h
    have h3 : D * 4 / 9 * (-1 : ℝ) = (-1 : ℝ) := by
      apply Complex.ofReal_injective
      rw [show ((-1 : ℝ) : ℂ) = -1 by simp] at h2 ⊢
      rw [← h2]
      push_cast
      rfl
    linarith

/-- C62: on the cut `m > 1` the principal branch of the elliptic integral used by `mpmath`, continuous from below, is on
the wrong side: at `z = -√3`, below the band of `D = 9/4`, the result is wrong. -/
theorem triangular_gf_z_cut_wrong :
    triangularGfZ ellipK (-√3 : ℝ) (9 / 4) ≠ some (bzGreen bz2 (triangularDisp (9 / 4)) (-√3 : ℝ)) ∧
      ∀ e ∈ Set.Icc (-(2 / 3 * (9 / 4)) : ℝ) (4 / 3 * (9 / 4)), ((-√3 : ℝ) : ℂ) ≠ (e : ℂ) := by
  have h3 : √3 ^ 2 = 3 := Real.sq_sqrt (by norm_num)
  have h32 : 3 / 2 < √3 := by rw [Real.lt_sqrt (by norm_num)]; norm_num
  have hoff : ∀ e ∈ Set.Icc (-(2 / 3 * (9 / 4)) : ℝ) (4 / 3 * (9 / 4)), ((-√3 : ℝ) : ℂ) ≠ (e : ℂ) := by
    intro e he h
    have : -√3 = e := Complex.ofReal_injective h
    linarith [he.1]
  refine ⟨?_, hoff⟩
  have h1 : ((-√3 : ℝ) : ℂ) ≠ -1 := by
    intro h
    have : -√3 = (-1 : ℝ) := by exact_mod_cast h
    linarith
  rw [← triangular_gf_z_up (by norm_num) hoff h1]
  set y := √(2 * √3 - 3) with hy
  have hy0 : 0 < y := Real.sqrt_pos.2 (by linarith)
  have hy2 : y ^ 2 = 2 * √3 - 3 := Real.sq_sqrt (by linarith)
  have hr : Complex.sqrt (2 * ((-√3 : ℝ) : ℂ) + 3) = Complex.I * y := by
    rw [show 2 * ((-√3 : ℝ) : ℂ) + 3 = -((2 * √3 - 3 : ℝ) : ℂ) by push_cast; ring, sqrt_neg_ofReal (by linarith)]
  have hy4 : y ^ 4 + 6 * y ^ 2 - 3 = 0 := by
    rw [show y ^ 4 = (y ^ 2) ^ 2 by ring, hy2]
    nlinarith
  have hyc : (y : ℂ) ^ 4 + 6 * (y : ℂ) ^ 2 - 3 = 0 := by exact_mod_cast hy4
  have hyn : (y : ℂ) ≠ 0 := by exact_mod_cast hy0.ne'
  have hden : (Complex.I * y - 1) ^ 3 * (Complex.I * y + 3) = 8 * Complex.I * y := by
    have hI := Complex.I_sq
    have hI3 : Complex.I ^ 3 = -Complex.I := by rw [pow_succ, hI]; ring
    have hI4 : Complex.I ^ 4 = 1 := by rw [show 4 = 2 * 2 by norm_num, pow_mul, hI]; norm_num
    ring_nf
    rw [hI, hI4]
    linear_combination hyc
  have hk2 : triK (Complex.I * y) ^ 2 = 2 := by
    rw [triK_sq, hden]
    have := Complex.I_ne_zero
    field_simp
    norm_num
  have hkim : (triK (Complex.I * y)).im = 0 := by
    have a := congrArg Complex.im hk2
    have b := congrArg Complex.re hk2
    rw [im_sq] at a
    rw [pow_two, Complex.mul_re] at b
    simp only [Complex.im_ofNat, Complex.re_ofNat] at a b
    by_contra hc
    have hre : (triK (Complex.I * y)).re = 0 := by
      rcases mul_eq_zero.1 (mul_eq_zero.1 a |>.resolve_left (by norm_num)) with h | h
      · exact h
      · exact absurd h hc
    rw [hre] at b
    nlinarith [sq_nonneg (triK (Complex.I * y)).im]
  have hgg : triG (Complex.I * y) ≠ 0 := by
    intro h
    rw [triK, h] at hk2
    norm_num at hk2
  have hGK : triangularGK ((-√3 : ℝ) : ℂ) = (triG (Complex.I * y), triK (Complex.I * y)) := by
    rw [triangularGK_eq (by simp), hr]
  have hD : ((9 / 4 : ℝ) : ℂ) * 4 / 9 = 1 := by push_cast; norm_num
  have him : ¬ (((-√3 : ℝ) : ℂ)).im < 0 := by rw [Complex.ofReal_im]; exact lt_irrefl _
  have hk : ¬ 0 < (triK (Complex.I * y)).im := by rw [hkim]; exact lt_irrefl _
  have hc : ∀ ellipk, triangularGfZ ellipk ((-√3 : ℝ) : ℂ) (9 / 4) = some (1 / Real.pi * triG (Complex.I * y) * ellipk 2) := by
    intro ellipk
    unfold triangularGfZ
    simp only [hD]
    rw [show (1.0 : ℂ) = 1 by norm_num, div_one, one_mul]
    simp only [if_neg him, one_mul, if_neg h1, hGK, if_neg hk, hk2, div_one]
  rw [hc, hc]
  intro h
  have h2 := Option.some.inj h
  have hpi : (Real.pi : ℂ) ≠ 0 := by exact_mod_cast Real.pi_ne_zero
  have h4 := mul_left_cancel₀ (mul_ne_zero (one_div_ne_zero hpi) hgg) h2
  rw [ellipKUp, show (2 : ℂ) = ((2 : ℝ) : ℂ) by norm_num, Complex.conj_ofReal, ellipK_cut (by norm_num)] at h4
  have h5 := congrArg Complex.im h4
  have h6 : 0 < ellipKR (1 - 1 / 2) := ellipKR_pos (by norm_num)
  have h7 : 0 < ellipKR (1 - 1 / 2) / √2 := by positivity
  rw [Complex.conj_im, Complex.sub_im, Complex.mul_im, Complex.ofReal_im, Complex.ofReal_im, Complex.ofReal_re,
    Complex.I_re, Complex.I_im] at h5
  linarith

/-- C61, C62: density of states and Green's function of the triangular lattice are a Hilbert pair, if the half-bandwidth is
at least `3/2`. -/
theorem triangular_hilbert {D : ℝ} (hD : 3 / 2 ≤ D) :
    HilbertPair (fun e => triangularDos ellipKm1 e D) (fun z => (triangularGfZ ellipKUp z D).getD 0)
      (-(2 / 3 * D)) (4 / 3 * D) 1 :=
  ((triangular_dos (by linarith)).hilbertPair (measurable_triangularDisp D) fun e he =>
    triangular_dos_outside (by linarith) _ (by
      by_contra hc
      push Not at hc
      exact he hc)).congr fun z hz => by
      have h1 : z ≠ -1 := by
        have := hz (-1) ⟨by linarith, by linarith⟩
        exact_mod_cast this
      rw [triangular_gf_z_up (by linarith) hz h1, Option.getD_some]

/-- C56, C61, C62: the honeycomb lattice built from the triangular one. -/
theorem honeycomb_hilbert_triangular {D : ℝ} (hD : 0 < D) :
    HilbertPair (fun e => honeycombDos (triangularDos ellipKm1) e D)
      (fun z => honeycombGfZ (fun z D => (triangularGfZ ellipKUp z D).getD 0) z D) (-D) D 1 :=
  honeycomb_hilbert (triDos := triangularDos ellipKm1) (triGf := fun z D => (triangularGfZ ellipKUp z D).getD 0) (by
    have := triangular_hilbert (D := 9 / 4) (by norm_num)
    norm_num at this ⊢
    exact this) hD

/-- C56, C61, C62: the kagome lattice built from the triangular one. -/
theorem kagome_hilbert_triangular {D : ℝ} (hD : 0 < D) :
    HilbertPair (fun e => kagomeDos (triangularDos ellipKm1) e D)
      (fun z => kagomeGfZ (fun z D => (triangularGfZ ellipKUp z D).getD 0) z D - (1 / 3) / (z + 2 / 3 * D))
      (-(2 / 3 * D)) (4 / 3 * D) (2 / 3) :=
  kagome_hilbert (triDos := triangularDos ellipKm1) (triGf := fun z D => (triangularGfZ ellipKUp z D).getD 0) (by
    have := triangular_hilbert (D := 9 / 4) (by norm_num)
    norm_num at this ⊢
    exact this) hD

/-- The hypotheses of `triangular_gf_z_partial` hold for `z = 11`, `D = 9/4`. -/
example : triangularGfZ ellipK 11 (9 / 4) = some (bzGreen bz2 (triangularDisp (9 / 4)) 11) := by
  refine (triangular_gf_z_partial .exact (by norm_num) ?_ (by norm_num) ?_).1
  · intro e he h
    have : (11 : ℝ) = e := by exact_mod_cast h
    linarith [he.2]
  · have ha : triangularArg 11 (9 / 4) = 11 := by
      unfold triangularArg
      rw [if_neg (by norm_num)]
      push_cast
      norm_num
    have hr : Complex.sqrt (2 * 11 + 3) = 5 := sqrt_unique (by norm_num) (by norm_num)
    rw [ha, triangularOnCut, triangularGK_eq (by norm_num), hr]
    simp only
    rintro ⟨m, hm, h⟩
    rw [triK_sq] at h
    have h2 : ((5 / 32 : ℝ) : ℂ) = m := by
      rw [← h]
      push_cast
      norm_num
    have h3 : 5 / 32 = m := Complex.ofReal_injective h2
    linarith

/-- Also for the half-bandwidth `1` and the Matsubara-like frequency `10 i` the Green's function is the one of the lattice,
up to the choice of the boundary value. -/
example : triangularGfZ ellipKUp (10 * Complex.I) 1 = some (bzGreen bz2 (triangularDisp 1) (10 * Complex.I)) :=
  triangular_gf_z_up (by norm_num)
    (fun e _ h => by
      have := congrArg Complex.im h
      norm_num at this)
    (fun h => by
      have := congrArg Complex.im h
      norm_num at this)

end Gftool.Props
