import Verif.Lemmas.ScArc
import Verif.Lemmas.ScSeries
import Mathlib.Analysis.ODE.Gronwall

/-!
# The density of states of the simple cubic lattice around the band centre
-/

namespace Gftool.Lemmas

open Gftool Spec MeasureTheory

/-- The factor of the derivative of the energy. -/
noncomputable def arcG (θ : ℝ) : ℝ := (Real.cos θ + 3) * (3 * Real.cos θ + 1)

lemma arcG_eq (θ : ℝ) : arcG θ = (arcR θ ^ 4 - 64) / 12 := by
  have h := arcR_sq θ
  rw [show arcR θ ^ 4 = (arcR θ ^ 2) ^ 2 by ring, h, arcG]
  ring

lemma arcCos_eq (θ : ℝ) : Real.cos θ = (arcR θ ^ 2 - 10) / 6 := by
  have h := arcR_sq θ
  linarith

lemma arcSin_sq (θ : ℝ) : Real.sin θ ^ 2 = 1 - ((arcR θ ^ 2 - 10) / 6) ^ 2 := by
  rw [← arcCos_eq, Real.sin_sq]

lemma hasDerivAt_arcG (θ : ℝ) : HasDerivAt arcG (-Real.sin θ * arcR θ ^ 2) θ := by
  have h1 := (Real.hasDerivAt_cos θ).add_const 3
  have h2 := ((Real.hasDerivAt_cos θ).const_mul 3).add_const 1
  refine (h1.mul h2).congr_deriv ?_
  rw [arcR_sq]
  ring

lemma hasDerivAt_arcEn (θ : ℝ) : HasDerivAt arcEn (3 * arcG θ / arcR θ ^ 3) θ := by
  have hr := (arcR_pos θ).ne'
  refine (((Real.hasDerivAt_sin θ).const_mul 3).div (hasDerivAt_arcR θ) hr).congr_deriv ?_
  have hs := arcSin_sq θ
  rw [arcG_eq, arcCos_eq]
  generalize arcR θ = r at *
  generalize Real.sin θ = s at *
  field_simp
  linear_combination 216 * hs

/-- The components of the system for the power series. -/
noncomputable def serY (g : ℕ → ℝ) (θ : ℝ) : ℝ := pSum g (arcEn θ)

@[inherit_doc serY]
noncomputable def serZ1 (g : ℕ → ℝ) (θ : ℝ) : ℝ := arcG θ / arcR θ ^ 2 * pSum (derivCoeff g) (arcEn θ)

@[inherit_doc serY]
noncomputable def serZ2 (g : ℕ → ℝ) (θ : ℝ) : ℝ :=
  3 * arcG θ ^ 2 / arcR θ ^ 4 * pSum (derivCoeff (derivCoeff g)) (arcEn θ)
    + (3 * Real.sin θ * arcG θ / arcR θ ^ 3 - arcR θ * Real.sin θ) * pSum (derivCoeff g) (arcEn θ)
    - (Real.cos θ - (8 * Real.cos θ - 3 * Real.sin θ ^ 2) / arcR θ ^ 2) * pSum g (arcEn θ)

lemma hasDerivAt_serSystem {a b θ : ℝ} (he : |1.1 * arcEn θ| < 1) :
    HasDerivAt (serY (ctrCoeff a b)) (3 / arcR θ * serZ1 (ctrCoeff a b) θ) θ ∧
    HasDerivAt (serZ1 (ctrCoeff a b)) (1 / arcR θ * serZ2 (ctrCoeff a b) θ + 3 * Real.sin θ / arcR θ ^ 2 * serZ1 (ctrCoeff a b) θ
      + (Real.cos θ / arcR θ - (8 * Real.cos θ - 3 * Real.sin θ ^ 2) / arcR θ ^ 3) * serY (ctrCoeff a b) θ) θ ∧
    HasDerivAt (serZ2 (ctrCoeff a b)) (-3 * Real.sin θ / arcR θ ^ 2 * serZ2 (ctrCoeff a b) θ
      + -(16 + 24 * Real.cos θ) / arcR θ ^ 3 * serZ1 (ctrCoeff a b) θ
      + (24 * Real.cos θ - 16) * Real.sin θ / arcR θ ^ 4 * serY (ctrCoeff a b) θ) θ := by
  set C : ℝ := max |a| |b| with hC
  have hC0 : 0 ≤ C := (abs_nonneg a).trans (le_max_left _ _)
  have g0 := geoBound_ctrCoeff (a := a) (b := b) (C := C) (le_max_left _ _) (by have := le_max_right |a| |b|; linarith)
  have hq : (0 : ℝ) < 1.1 := by norm_num
  have g1 := g0.deriv hq hC0
  have g2 := g1.deriv hq (by positivity)
  have dE := hasDerivAt_arcEn θ
  have d0 : HasDerivAt (fun θ => pSum (ctrCoeff a b) (arcEn θ)) _ θ := (g0.hasDerivAt hq hC0 he).comp θ dE
  have d1 : HasDerivAt (fun θ => pSum (derivCoeff (ctrCoeff a b)) (arcEn θ)) _ θ := (g1.hasDerivAt hq (by positivity) he).comp θ dE
  have d2 : HasDerivAt (fun θ => pSum (derivCoeff (derivCoeff (ctrCoeff a b))) (arcEn θ)) _ θ :=
    (g2.hasDerivAt hq (by positivity) he).comp θ dE
  have hode := ctrCoeff_ode (a := a) (b := b) he
  have hr := (arcR_pos θ).ne'
  have dR := hasDerivAt_arcR θ
  have dG := hasDerivAt_arcG θ
  have dS := Real.hasDerivAt_sin θ
  have dC := Real.hasDerivAt_cos θ
  have hs := arcSin_sq θ
  have hc := arcCos_eq θ
  have hg := arcG_eq θ
  have dR2 : HasDerivAt (fun θ => arcR θ ^ 2) (-6 * Real.sin θ) θ := by
    refine (dR.pow 2).congr_deriv ?_
    push_cast
    field_simp
    ring
  have dR3 : HasDerivAt (fun θ => arcR θ ^ 3) (-9 * Real.sin θ * arcR θ) θ := by
    refine (dR.pow 3).congr_deriv ?_
    push_cast
    field_simp
    ring
  have dR4 : HasDerivAt (fun θ => arcR θ ^ 4) (-12 * Real.sin θ * arcR θ ^ 2) θ := by
    refine (dR.pow 4).congr_deriv ?_
    push_cast
    field_simp
    ring
  have dG2 : HasDerivAt (fun θ => arcG θ ^ 2) (-2 * arcG θ * Real.sin θ * arcR θ ^ 2) θ := by
    refine (dG.pow 2).congr_deriv ?_
    push_cast
    ring
  have dS2 : HasDerivAt (fun θ => Real.sin θ ^ 2) (2 * Real.sin θ * Real.cos θ) θ := by
    refine (dS.pow 2).congr_deriv ?_
    push_cast
    ring
  refine ⟨?_, ?_, ?_⟩
  · refine d0.congr_deriv ?_
    unfold serZ1
    field_simp
  · refine ((dG.div dR2 (pow_ne_zero 2 hr)).mul d1).congr_deriv ?_
    unfold serZ2 serZ1 serY
    simp only [Pi.div_apply]
    generalize pSum (ctrCoeff a b) (arcEn θ) = G0 at *
    generalize pSum (derivCoeff (ctrCoeff a b)) (arcEn θ) = G1 at *
    generalize pSum (derivCoeff (derivCoeff (ctrCoeff a b))) (arcEn θ) = G2 at *
    field_simp
    ring
  · have h := (((((dG2.const_mul 3).div dR4 (pow_ne_zero 4 hr)).mul d2).add
      (((((dS.const_mul 3).mul dG).div dR3 (pow_ne_zero 3 hr)).sub (dR.mul dS)).mul d1)).sub
      ((dC.sub (((dC.const_mul 8).sub (dS2.const_mul 3)).div dR2 (pow_ne_zero 2 hr))).mul d0))
    refine h.congr_deriv ?_
    unfold serZ2 serZ1 serY
    simp only [Pi.sub_apply, Pi.mul_apply, Pi.div_apply]
    have hode2 : 9 * arcG θ ^ 2 * pSum (derivCoeff (derivCoeff (derivCoeff (ctrCoeff a b)))) (arcEn θ)
        = (12 * arcR θ ^ 4 - 63 * Real.sin θ ^ 2 * arcR θ ^ 2) * pSum (derivCoeff (ctrCoeff a b)) (arcEn θ)
          + (90 * Real.sin θ * arcR θ ^ 3 - 162 * Real.sin θ ^ 3 * arcR θ) * pSum (derivCoeff (derivCoeff (ctrCoeff a b))) (arcEn θ)
          - 3 * Real.sin θ * arcR θ ^ 3 * pSum (ctrCoeff a b) (arcEn θ) := by
      have e1 : (1 - arcEn θ ^ 2) * (9 - arcEn θ ^ 2) = 9 * arcG θ ^ 2 / arcR θ ^ 4 := by
        rw [arcEn, div_pow, mul_pow, hs, hg]
        generalize arcR θ = r at *
        field_simp
        ring
      rw [e1] at hode
      generalize pSum (ctrCoeff a b) (arcEn θ) = G0 at *
      generalize pSum (derivCoeff (ctrCoeff a b)) (arcEn θ) = G1 at *
      generalize pSum (derivCoeff (derivCoeff (ctrCoeff a b))) (arcEn θ) = G2 at *
      generalize pSum (derivCoeff (derivCoeff (derivCoeff (ctrCoeff a b)))) (arcEn θ) = G3 at *
      rw [arcEn] at hode
      field_simp at hode
      linear_combination hode
    generalize pSum (ctrCoeff a b) (arcEn θ) = G0 at *
    generalize pSum (derivCoeff (ctrCoeff a b)) (arcEn θ) = G1 at *
    generalize pSum (derivCoeff (derivCoeff (ctrCoeff a b))) (arcEn θ) = G2 at *
    generalize pSum (derivCoeff (derivCoeff (derivCoeff (ctrCoeff a b)))) (arcEn θ) = G3 at *
    have k3 : 3 * arcG θ ^ 2 / arcR θ ^ 4 * (G3 * (3 * arcG θ / arcR θ ^ 3))
        = arcG θ / arcR θ ^ 7 * (9 * arcG θ ^ 2 * G3) := by
      field_simp
      ring
    rw [k3, hode2, hg, hc]
    generalize arcR θ = r at *
    generalize Real.sin θ = s at *
    clear hode k3 hode2 h dS dE hc hg d0 d1 d2 dC dR2 dS2 dR dG dR3 dR4 dG2
    field_simp
    linear_combination ((-23328) * G0 * r ^ 2 * s + (165888) * G1 * r + (-5184) * G1 * r ^ 5 + (-11664) * G2 * r ^ 4 * s + (746496) * G2 * s) * hs

/-! ## Equality of series and closed form -/

lemma pSum_zero (g : ℕ → ℝ) : pSum g 0 = g 0 := by
  rw [pSum, tsum_eq_single 0 (fun n hn => by simp [hn])]
  simp

/-- Density of states in the middle of the band, for the half-bandwidth 3. -/
noncomputable def ctrA : ℝ := 2 * √3 * rhoA / Real.pi ^ 3

/-- Second Taylor coefficient of the density of states in the middle of the band. -/
noncomputable def ctrB : ℝ := ctrA / 18 - 1 / (3 * Real.pi ^ 4 * ctrA)

lemma ctrA_pos : 0 < ctrA := by
  have := rhoA_pos
  rw [ctrA]
  positivity

/-- The density of states of the closed form on the arc. -/
noncomputable def arcIm (f : ℝ → ℂ) (θ : ℝ) : ℝ := -(4 / Real.pi ^ 3) * (f θ).im

lemma hasDerivAt_arcIm {f : ℝ → ℂ} {f' : ℂ} {θ : ℝ} (h : HasDerivAt f f' θ) :
    HasDerivAt (arcIm f) (-(4 / Real.pi ^ 3) * f'.im) θ :=
  (Complex.imCLM.hasFDerivAt.comp_hasDerivAt θ h).const_mul _

lemma arcEn_bound {θ : ℝ} (h : θ ∈ Set.Icc 0 (Real.pi / 3)) : |1.1 * arcEn θ| < 1 := by
  have hc : 1 / 2 ≤ Real.cos θ := by
    rw [← Real.cos_pi_div_three]
    exact Real.cos_le_cos_of_nonneg_of_le_pi h.1 (by linarith [Real.pi_pos]) h.2
  have hr := arcR_sq θ
  have hs := Real.sin_sq_add_cos_sq θ
  have hrp := arcR_pos θ
  rw [← sq_lt_one_iff_abs_lt_one, arcEn, mul_div_assoc', div_pow, div_lt_one (by positivity), hr]
  nlinarith

private lemma dist_sys {r s c : ℝ} (hr : 3 ≤ r) (hs : |s| ≤ 1) (hc : |c| ≤ 1) {y z w M : ℝ} (hy : |y| ≤ M) (hz : |z| ≤ M) (hw : |w| ≤ M) :
    |3 / r * z| ≤ 4 * M ∧ |1 / r * w + 3 * s / r ^ 2 * z + (c / r - (8 * c - 3 * s ^ 2) / r ^ 3) * y| ≤ 4 * M ∧
    |-3 * s / r ^ 2 * w + -(16 + 24 * c) / r ^ 3 * z + (24 * c - 16) * s / r ^ 4 * y| ≤ 4 * M := by
  have hM : 0 ≤ M := (abs_nonneg y).trans hy
  have hr0 : 0 < r := by linarith
  have hs2 : s ^ 2 ≤ 1 := by
    have := sq_le_one_iff_abs_le_one s |>.2 hs
    exact this
  have ⟨c1, c2⟩ := abs_le.1 hc
  have q2 : (9 : ℝ) ≤ r ^ 2 := by nlinarith
  have q3 : (27 : ℝ) ≤ r ^ 3 := by nlinarith [mul_le_mul hr q2 (by norm_num) hr0.le]
  have q4 : (81 : ℝ) ≤ r ^ 4 := by nlinarith
  have a1 : |3 / r| ≤ 1 := by rw [abs_div, abs_of_pos hr0, div_le_one hr0, abs_of_pos (by norm_num)]; exact hr
  have a2 : |1 / r| ≤ 1 := by rw [abs_div, abs_of_pos hr0, div_le_one hr0, abs_one]; linarith
  have a3 : |3 * s / r ^ 2| ≤ 1 := by
    rw [abs_div, abs_of_pos (by positivity : 0 < r ^ 2), div_le_one (by positivity), abs_mul, abs_of_pos (by norm_num : (0 : ℝ) < 3)]
    linarith
  have a3' : |-3 * s / r ^ 2| ≤ 1 := by
    rw [show -3 * s / r ^ 2 = -(3 * s / r ^ 2) by ring, abs_neg]
    exact a3
  have a4 : |c / r - (8 * c - 3 * s ^ 2) / r ^ 3| ≤ 2 := by
    have b1 : |c / r| ≤ 1 := by rw [abs_div, abs_of_pos hr0, div_le_one hr0]; linarith
    have b2 : |(8 * c - 3 * s ^ 2) / r ^ 3| ≤ 1 := by
      rw [abs_div, abs_of_pos (by positivity : 0 < r ^ 3), div_le_one (by positivity), abs_le]
      constructor <;> nlinarith [sq_nonneg s]
    linarith [abs_sub (c / r) ((8 * c - 3 * s ^ 2) / r ^ 3)]
  have a5 : |-(16 + 24 * c) / r ^ 3| ≤ 2 := by
    rw [abs_div, abs_of_pos (by positivity : 0 < r ^ 3), div_le_iff₀ (by positivity), abs_le]
    constructor <;> nlinarith
  have a6 : |(24 * c - 16) * s / r ^ 4| ≤ 1 := by
    rw [abs_div, abs_of_pos (by positivity : 0 < r ^ 4), div_le_one (by positivity), abs_mul]
    have b1 : |24 * c - 16| ≤ 40 := by rw [abs_le]; constructor <;> linarith
    have b2 := mul_le_mul b1 hs (abs_nonneg _) (by norm_num)
    linarith
  have key : ∀ {u v k : ℝ}, |u| ≤ k → |v| ≤ M → |u * v| ≤ k * M := fun {u v k} hu hv => by
    rw [abs_mul]
    exact mul_le_mul hu hv (abs_nonneg _) ((abs_nonneg _).trans hu)
  refine ⟨?_, ?_, ?_⟩
  · linarith [key a1 hz]
  · have := abs_add_three (1 / r * w) (3 * s / r ^ 2 * z) ((c / r - (8 * c - 3 * s ^ 2) / r ^ 3) * y)
    linarith [key a2 hw, key a3 hz, key a4 hy]
  · have := abs_add_three (-3 * s / r ^ 2 * w) (-(16 + 24 * c) / r ^ 3 * z) ((24 * c - 16) * s / r ^ 4 * y)
    linarith [key a3' hw, key a5 hz, key a6 hy]

/-- The power series is the density of states on the arc. -/
lemma serY_eq {θ : ℝ} (hθ : θ ∈ Set.Icc 0 (Real.pi / 3)) : arcIm arcY θ = serY (ctrCoeff ctrA ctrB) θ := by
  set g := ctrCoeff ctrA ctrB with hg
  set f : ℝ → ℝ × ℝ × ℝ := fun θ => (arcIm arcY θ - serY g θ, arcIm arcZ1 θ - serZ1 g θ, arcIm arcZ2 θ - serZ2 g θ) with hf
  set k : ℝ := -(4 / Real.pi ^ 3) with hk
  have hder : ∀ θ ∈ Set.Icc 0 (Real.pi / 3), ∃ f' : ℝ × ℝ × ℝ, HasDerivAt f f' θ ∧ ‖f'‖ ≤ 4 * ‖f θ‖ + 0 := by
    intro θ hθ
    obtain ⟨s0, s1, s2⟩ := hasDerivAt_serSystem (a := ctrA) (b := ctrB) (arcEn_bound hθ)
    obtain ⟨c0, c1, c2⟩ := hasDerivAt_arcSystem hθ.1 (by linarith [hθ.2, Real.pi_pos] : θ < Real.pi)
    have hd := ((hasDerivAt_arcIm c0).sub s0).prodMk (((hasDerivAt_arcIm c1).sub s1).prodMk ((hasDerivAt_arcIm c2).sub s2))
    refine ⟨_, hd, ?_⟩
    have hr : 3 ≤ arcR θ := by
      have h1 := arcR_sq θ
      have h2 : 0 ≤ Real.cos θ := Real.cos_nonneg_of_mem_Icc ⟨by linarith [hθ.1, Real.pi_pos], by linarith [hθ.2, Real.pi_pos]⟩
      nlinarith [arcR_pos θ]
    have n0 : |arcIm arcY θ - serY g θ| ≤ ‖f θ‖ := norm_fst_le (f θ)
    have n1 : |arcIm arcZ1 θ - serZ1 g θ| ≤ ‖f θ‖ := (norm_fst_le (f θ).2).trans (norm_snd_le (f θ))
    have n2 : |arcIm arcZ2 θ - serZ2 g θ| ≤ ‖f θ‖ := (norm_snd_le (f θ).2).trans (norm_snd_le (f θ))
    obtain ⟨b0, b1, b2⟩ := dist_sys hr (Real.abs_sin_le_one θ) (Real.abs_cos_le_one θ) n0 n1 n2
    rw [add_zero]
    refine norm_prod_le_iff.2 ⟨?_, norm_prod_le_iff.2 ⟨?_, ?_⟩⟩
    · rw [Real.norm_eq_abs]
      refine le_trans (le_of_eq (congrArg abs ?_)) b0
      simp only [arcIm, Complex.im_ofReal_mul]
      ring
    · rw [Real.norm_eq_abs]
      refine le_trans (le_of_eq (congrArg abs ?_)) b1
      simp only [arcIm, Complex.add_im, Complex.im_ofReal_mul]
      ring
    · rw [Real.norm_eq_abs]
      refine le_trans (le_of_eq (congrArg abs ?_)) b2
      simp only [arcIm, Complex.add_im, Complex.im_ofReal_mul]
      ring
  choose! f' hf' using hder
  have hz : f 0 = 0 := by
    have h3 := Real.sq_sqrt (show (0 : ℝ) ≤ 3 by norm_num)
    have h3p : 0 < √3 := Real.sqrt_pos.2 (by norm_num)
    have hA := rhoA_pos
    have hpi := Real.pi_pos
    have e0 : arcEn 0 = 0 := by simp [arcEn]
    have eG : arcG 0 = 16 := by simp [arcG]; norm_num
    have z1 : arcZ1 0 = ((2 * rhoH + 8 / 9 * (3 * √3 / 16 * rhoA) : ℝ) : ℂ) := by
      rw [arcZ1, arcH0_zero, arcH1_zero, Real.sin_zero]
      push_cast
      ring
    have y0 : (arcY 0).im = -(8 / 3) * (3 * √3 / 16 * rhoA) := by
      have : arcY 0 = Complex.I * ((-(8 / 3) * (3 * √3 / 16 * rhoA) : ℝ) : ℂ) := by
        rw [arcY, arcH0_zero, arcR_zero]
        push_cast
        ring
      rw [this]
      simp
    have z2 : (arcZ2 0).im = (9 * (16 / (3 * √3) * rhoH ^ 2 / rhoA) + 4 * (2 * rhoH + 8 / 9 * (3 * √3 / 16 * rhoA))) / 4 := by
      have : arcZ2 0 = Complex.I * (((9 * (16 / (3 * √3) * rhoH ^ 2 / rhoA)
          + 4 * (2 * rhoH + 8 / 9 * (3 * √3 / 16 * rhoA))) / 4 : ℝ) : ℂ) := by
        rw [arcZ2, z1, arcH0_zero, arcH2_zero, arcR_zero, Real.sin_zero]
        push_cast
        ring
      rw [this, Complex.I_mul_im, Complex.ofReal_re]
    simp only [hf, Prod.mk_eq_zero]
    refine ⟨?_, ?_, ?_⟩
    · rw [arcIm, serY, e0, pSum_zero, y0, hg, ctrCoeff, ctrA]
      ring
    · rw [arcIm, serZ1, e0, pSum_zero, z1, Complex.ofReal_im, derivCoeff, hg, ctrCoeff]
      ring
    · rw [arcIm, serZ2, e0, pSum_zero, pSum_zero, pSum_zero, z2, eG, arcR_zero, Real.sin_zero, Real.cos_zero]
      simp only [derivCoeff, hg, ctrCoeff]
      rw [ctrB, ctrA, rhoH]
      norm_num
      field_simp
      simp only [h3, mul_zero]
      ring
  have hcont : ContinuousOn f (Set.Icc 0 (Real.pi / 3)) := fun x hx => (hf' x hx).1.continuousAt.continuousWithinAt
  have h := norm_le_gronwallBound_of_norm_deriv_right_le (δ := 0) (K := 4) (ε := 0) hcont
    (fun x hx => (hf' x ⟨hx.1, hx.2.le⟩).1.hasDerivWithinAt) (by rw [hz, norm_zero])
    (fun x hx => (hf' x ⟨hx.1, hx.2.le⟩).2) θ hθ
  rw [gronwallBound_ε0_δ0] at h
  have h2 : f θ = 0 := norm_le_zero_iff.1 h
  have h3 := congrArg Prod.fst h2
  simp only [hf, Prod.fst_zero] at h3
  linarith

/-- Around the middle of the band, the density of states of the closed form is the power series. -/
theorem scForm_eq_pSum {e : ℝ} (h0 : 0 < e) (h1 : e ≤ 1 / 2) :
    -(scForm (e : ℂ)).im / Real.pi = pSum (ctrCoeff ctrA ctrB) e := by
  have hpi := Real.pi_pos
  have hsub : Set.Icc (arcEn 0) (arcEn (Real.pi / 3)) ⊆ arcEn '' Set.Icc 0 (Real.pi / 3) :=
    intermediate_value_Icc (by positivity) (fun x hx => (hasDerivAt_arcEn x).continuousAt.continuousWithinAt)
  have e0 : arcEn 0 = 0 := by simp [arcEn]
  have e1 : 1 / 2 ≤ arcEn (Real.pi / 3) := by
    have hr := arcR_sq (Real.pi / 3)
    have hrp := arcR_pos (Real.pi / 3)
    rw [Real.cos_pi_div_three] at hr
    rw [arcEn, Real.sin_pi_div_three, le_div_iff₀ hrp]
    have h3 := sqrt3_bounds.1
    nlinarith
  obtain ⟨θ, hθ, rfl⟩ := hsub ⟨by rw [e0]; exact h0.le, h1.trans e1⟩
  have hθ0 : 0 < θ := lt_of_le_of_ne hθ.1 (by rintro rfl; rw [e0] at h0; exact h0.false)
  have h := serY_eq hθ
  rw [serY] at h
  rw [← h, arc_scForm hθ0 (by linarith [hθ.2]), arcIm,
    show ((2 : ℂ) / Real.pi) ^ 2 = (((2 / Real.pi) ^ 2 : ℝ) : ℂ) by push_cast; ring, Complex.im_ofReal_mul]
  field_simp
  ring

/-! ## The remainder -/

lemma ctr_values (a b : ℝ) : ctrCoeff a b 0 = a ∧ ctrCoeff a b 1 = 0 ∧ ctrCoeff a b 2 = b ∧ ctrCoeff a b 3 = 0 ∧
    ctrCoeff a b 4 = (84 * b - a) / 216 ∧ ctrCoeff a b 5 = 0 ∧ ctrCoeff a b 6 = (648 * ((84 * b - a) / 216) - 27 * b) / 1080 ∧
    ctrCoeff a b 7 = 0 := by
  have h0 : ctrCoeff a b 0 = a := by rw [ctrCoeff]
  have h1 : ctrCoeff a b 1 = 0 := by rw [ctrCoeff]
  have h2 : ctrCoeff a b 2 = b := by rw [ctrCoeff]
  have h3 : ctrCoeff a b 3 = 0 := by rw [ctrCoeff]
  have h4 := ctrCoeff_step a b 0
  have h5 := ctrCoeff_step a b 1
  have h6 := ctrCoeff_step a b 2
  have h7 := ctrCoeff_step a b 3
  norm_num only at h4 h5 h6 h7
  have r4 : ctrCoeff a b 4 = (84 * b - a) / 216 := by rw [h0, h2] at h4; linarith
  have r5 : ctrCoeff a b 5 = 0 := by rw [h1, h3] at h5; linarith
  have r6 : ctrCoeff a b 6 = (648 * ((84 * b - a) / 216) - 27 * b) / 1080 := by rw [r4, h2] at h6; linarith
  have r7 : ctrCoeff a b 7 = 0 := by rw [r5, h3] at h7; linarith
  exact ⟨h0, h1, h2, h3, r4, r5, r6, r7⟩

lemma ellipKR_ge {m : ℝ} (h0 : 0 ≤ m) (h1 : m < 1) : Real.pi / 2 ≤ ellipKR m := by
  have hpi := Real.pi_pos
  have hc : Continuous fun θ : ℝ => 1 / √(1 - m * Real.sin θ ^ 2) := by
    have := Real.continuous_sin
    exact continuous_const.div (by fun_prop) fun θ => (Real.sqrt_pos.2 (one_sub_pos h1 θ)).ne'
  have h := intervalIntegral.integral_mono_on (μ := MeasureTheory.volume) (a := 0) (b := Real.pi / 2) (by positivity)
    (continuous_const (y := (1 : ℝ)).intervalIntegrable _ _) (hc.intervalIntegrable _ _) fun θ _ => by
      rw [le_div_iff₀ (Real.sqrt_pos.2 (one_sub_pos h1 θ)), one_mul, Real.sqrt_le_one]
      nlinarith [mul_nonneg h0 (sq_nonneg (Real.sin θ))]
  rw [intervalIntegral.integral_const, smul_eq_mul, mul_one, sub_zero] at h
  exact h

lemma ctrA_ge : 1 / (2 * Real.pi) ≤ ctrA := by
  have hpi := Real.pi_pos
  have h3 := sqrt3_bounds
  have h := mul_le_mul (ellipKR_ge (m := scKm2) (by rw [scKm2]; linarith) (by rw [scKm2]; linarith))
    (ellipKR_ge (m := 1 - scKm2) (by rw [scKm2]; linarith) (by rw [scKm2]; linarith)) (by positivity)
    ((by positivity : 0 ≤ Real.pi / 2).trans (ellipKR_ge (m := scKm2) (by rw [scKm2]; linarith) (by rw [scKm2]; linarith)))
  rw [km2_product] at h
  rw [ctrA, div_le_div_iff₀ (by positivity) (by positivity)]
  nlinarith [mul_le_mul_of_nonneg_left h hpi.le]

lemma ctrB_bound : |ctrB| ≤ ctrA * 1.21 := by
  have hpi := Real.pi_gt_three
  have hA := ctrA_pos
  have h1 := ctrA_ge
  have h2 : 1 / (3 * Real.pi ^ 4 * ctrA) ≤ ctrA := by
    rw [div_le_iff₀ (by positivity)]
    rw [div_le_iff₀ (by positivity)] at h1
    have h3 : 1 ≤ Real.pi * ctrA * 2 := by linarith
    have h4 : 1 ≤ (Real.pi * ctrA * 2) ^ 2 := one_le_pow₀ h3
    nlinarith [mul_pos hA hA, mul_le_mul_of_nonneg_left (show (9 : ℝ) ≤ Real.pi ^ 2 by nlinarith) (sq_nonneg (Real.pi * ctrA * 2))]
  have h0 : 0 ≤ 1 / (3 * Real.pi ^ 4 * ctrA) := by positivity
  rw [ctrB, abs_le]
  constructor <;> linarith

/-- The polynomial of degree 6 approximates the power series. -/
lemma pSum_remainder {a b C : ℝ} (ha : |a| ≤ C) (hb : |b| ≤ C * 1.21) {e : ℝ} (he : |e| ≤ 1 / 2) :
    |a + b * e ^ 2 + (84 * b - a) / 216 * e ^ 4 + (648 * ((84 * b - a) / 216) - 27 * b) / 1080 * e ^ 6
      - pSum (ctrCoeff a b) e| ≤ 5 * C * e ^ 8 := by
  have hC : 0 ≤ C := (abs_nonneg a).trans ha
  have hq : |1.1 * e| ≤ 0.55 := by
    rw [abs_mul, abs_of_pos (by norm_num : (0 : ℝ) < 1.1)]
    linarith
  have hq0 := abs_nonneg (1.1 * e)
  have hs := (geoBound_ctrCoeff ha hb).summable (by norm_num) hC (e := e) (by linarith)
  have h8 := hs.sum_add_tsum_nat_add 8
  obtain ⟨h0, h1, h2, h3, r4, r5, r6, r7⟩ := ctr_values a b
  simp only [Finset.sum_range_succ, Finset.sum_range_zero, h0, h1, h2, h3, r4, r5, r6, r7] at h8
  have hg : HasSum (fun n : ℕ => C * |1.1 * e| ^ 8 * |1.1 * e| ^ n) (C * |1.1 * e| ^ 8 * (1 - |1.1 * e|)⁻¹) :=
    (hasSum_geometric_of_lt_one hq0 (by linarith)).mul_left _
  have ht := tsum_of_norm_bounded (f := fun n => ctrCoeff a b (n + 8) * e ^ (n + 8)) hg (fun n => by
    rw [Real.norm_eq_abs, abs_mul, mul_assoc, ← pow_add, add_comm 8 n, abs_mul, mul_pow, abs_of_pos (by norm_num : (0 : ℝ) < 1.1),
      ← mul_assoc, abs_pow]
    exact mul_le_mul_of_nonneg_right (ctrCoeff_bound ha hb _) (by positivity))
  rw [Real.norm_eq_abs] at ht
  have hp : pSum (ctrCoeff a b) e = ∑' n, ctrCoeff a b n * e ^ n := rfl
  rw [hp, ← h8]
  refine le_trans (le_of_eq ?_) (ht.trans ?_)
  · rw [← abs_neg]
    congr 1
    ring
  · have hi : (1 - |1.1 * e|)⁻¹ ≤ 1 / 0.45 := by
      rw [inv_eq_one_div]
      exact one_div_le_one_div_of_le (by norm_num) (by linarith)
    have e8 : |1.1 * e| ^ 8 = 1.1 ^ 8 * e ^ 8 := by
      rw [show |1.1 * e| ^ 8 = (|1.1 * e| ^ 2) ^ 4 by ring, sq_abs]
      ring
    rw [e8]
    have hn : 0 ≤ C * (1.1 ^ 8 * e ^ 8) := by positivity
    refine (mul_le_mul_of_nonneg_left hi hn).trans ?_
    have : 0 ≤ C * e ^ 8 := by positivity
    nlinarith

end Gftool.Lemmas
