import Verif.Lemmas.ScMoments
import Verif.Lemmas.Clausen

/-!
# The generating function of the simple cubic moments
-/

namespace Gftool.Lemmas

open Gftool Spec MeasureTheory

/-- Polynomial with given coefficients. -/
def horner : List ℝ → ℝ → ℝ
  | [], _ => 0
  | a :: l, t => a + t * horner l t

/-- Derivative of the polynomial. -/
def hornerD : List ℝ → ℝ → ℝ
  | [], _ => 0
  | _ :: l, t => horner l t + t * hornerD l t

lemma hasDerivAt_horner (l : List ℝ) (t : ℝ) : HasDerivAt (horner l) (hornerD l t) t := by
  induction l with
  | nil => exact hasDerivAt_const t 0
  | cons a l ih =>
    have h := ((hasDerivAt_id t).mul ih).const_add a
    refine h.congr_deriv ?_
    simp only [hornerD, id]
    ring

lemma continuous_horner (l : List ℝ) : Continuous (horner l) :=
  continuous_iff_continuousAt.2 fun t => (hasDerivAt_horner l t).continuousAt

/-- Numerator. -/
noncomputable def scnB : List ℝ := [1, 0, -6, 8, -3]

/-- Numerator. -/
noncomputable def scnP0 : List ℝ := [0, 0, -2, 4, 12, 0, -42, -36]

/-- Numerator. -/
noncomputable def scnP1 : List ℝ := [1/3, 0, -20/3, 0, 18, 0, -60, 0, 27]

/-- Numerator. -/
noncomputable def scnQ0 : List ℝ := [0, 0, -4/3, 0, 88/3, -16, -260, 96, 1488, -192, -3348, -864, 3816, 3024, 324]

/-- Numerator. -/
noncomputable def scnQ1 : List ℝ := [0, 0, -52/9, 8/3, 1000/9, -160/3, -860, 120, 4208, 0, -8460, -1080, 11880, 4320, -5508, -1944]

/-- Numerator. -/
noncomputable def scnQ2 : List ℝ := [2/9, 0, -80/9, 0, 1016/9, 0, -560, 0, 2284, 0, -5040, 0, 9144, 0, -6480, 0, 1458]

/-- Denominator `1 - 9 t⁴`. -/
noncomputable def scnE : List ℝ := [1, 0, 0, 0, -9]


lemma scnB_eq (t : ℝ) : horner scnB t = (1 - t) ^ 3 * (1 + 3 * t) := by simp only [horner, scnB]; ring
lemma scnE_eq (t : ℝ) : horner scnE t = 1 - 9 * t ^ 4 := by simp only [horner, scnE]; ring

/-- `v'/v`. -/
noncomputable def scL (t : ℝ) : ℝ :=
  2 * (1 - 18 * t ^ 2 + 9 * t ^ 4) * (1 - 2 * t ^ 2 + 9 * t ^ 4)
    / (t * (1 - t) * (1 + t) * (1 - 3 * t) * (1 + 3 * t) * (1 - 9 * t ^ 4))

/-- `μ'/(μ (1 - μ))`. -/
noncomputable def scA (t : ℝ) : ℝ := 3 * (1 - t) ^ 2 / (t * (1 + t) * (1 - 3 * t))

/-- `μ'`. -/
noncomputable def scM' (t : ℝ) : ℝ := 48 * t ^ 2 * (1 + t) ^ 2 / ((1 - t) ^ 4 * (1 + 3 * t) ^ 2)

/-- Small positive arguments. -/
structure ScGood (t : ℝ) : Prop where
  h0 : t ≠ 0
  h1 : 1 - t ≠ 0
  h2 : 1 + t ≠ 0
  h3 : 1 - 3 * t ≠ 0
  h4 : 1 + 3 * t ≠ 0
  hE : 1 - 9 * t ^ 4 ≠ 0

/-- Derivative of `N/E`. -/
noncomputable def dq1 (N : List ℝ) (t : ℝ) : ℝ := (hornerD N t * horner scnE t - horner N t * hornerD scnE t) / horner scnE t ^ 2

/-- Derivative of `N/E²`. -/
noncomputable def dq2 (N : List ℝ) (t : ℝ) : ℝ := (hornerD N t * horner scnE t - 2 * horner N t * hornerD scnE t) / horner scnE t ^ 3

/-- Derivative of `N/(B E³)`. -/
noncomputable def dq3 (N : List ℝ) (t : ℝ) : ℝ :=
  (hornerD N t * horner scnB t * horner scnE t - horner N t * hornerD scnB t * horner scnE t
    - 3 * horner N t * horner scnB t * hornerD scnE t) / (horner scnB t ^ 2 * horner scnE t ^ 4)

lemma hasDerivAt_q1 (N : List ℝ) {t : ℝ} (h : horner scnE t ≠ 0) :
    HasDerivAt (fun t => horner N t / horner scnE t) (dq1 N t) t :=
  (hasDerivAt_horner N t).div (hasDerivAt_horner scnE t) h

lemma hasDerivAt_q2 (N : List ℝ) {t : ℝ} (h : horner scnE t ≠ 0) :
    HasDerivAt (fun t => horner N t / horner scnE t ^ 2) (dq2 N t) t := by
  refine ((hasDerivAt_horner N t).div ((hasDerivAt_horner scnE t).pow 2) (pow_ne_zero 2 h)).congr_deriv ?_
  simp only [Pi.pow_apply, dq2]
  field_simp
  norm_num
  ring

lemma hasDerivAt_q3 (N : List ℝ) {t : ℝ} (hB : horner scnB t ≠ 0) (h : horner scnE t ≠ 0) :
    HasDerivAt (fun t => horner N t / (horner scnB t * horner scnE t ^ 3)) (dq3 N t) t := by
  refine ((hasDerivAt_horner N t).div ((hasDerivAt_horner scnB t).mul ((hasDerivAt_horner scnE t).pow 3))
    (mul_ne_zero hB (pow_ne_zero 3 h))).congr_deriv ?_
  simp only [Pi.pow_apply, Pi.mul_apply, dq3]
  field_simp
  norm_num
  ring

lemma sc_id_b0 {t : ℝ} (h : ScGood t) :
    dq1 scnB t
      = 2 * scA t * (horner scnP0 t / horner scnE t ^ 2) := by
  obtain ⟨h0, h1, h2, h3, h4, hE⟩ := h
  simp only [dq1, dq2, dq3, scL, scA, scM']
  simp only [scnB_eq, scnE_eq]
  simp only [scnB, scnE, scnP0, scnP1, scnQ0, scnQ1, scnQ2, horner, hornerD, mul_zero, add_zero]
  generalize ha1 : 1 - t = a1 at *
  generalize ha2 : 1 + t = a2 at *
  generalize ha3 : 1 - 3 * t = a3 at *
  generalize ha4 : 1 + 3 * t = a4 at *
  generalize haE : 1 - 9 * t ^ 4 = aE at *
  field_simp
  subst ha1 ha2 ha3 ha4 haE
  ring

lemma sc_id_b1 {t : ℝ} (h : ScGood t) :
    horner scnB t / horner scnE t * scL t
      = 2 * scA t * (horner scnP1 t / horner scnE t ^ 2) := by
  obtain ⟨h0, h1, h2, h3, h4, hE⟩ := h
  simp only [dq1, dq2, dq3, scL, scA, scM']
  simp only [scnB_eq, scnE_eq]
  simp only [scnB, scnE, scnP0, scnP1, scnQ0, scnQ1, scnQ2, horner, hornerD, mul_zero, add_zero]
  generalize ha1 : 1 - t = a1 at *
  generalize ha2 : 1 + t = a2 at *
  generalize ha3 : 1 - 3 * t = a3 at *
  generalize ha4 : 1 + 3 * t = a4 at *
  generalize haE : 1 - 9 * t ^ 4 = aE at *
  field_simp
  subst ha1 ha2 ha3 ha4 haE
  ring

lemma sc_id_p0 {t : ℝ} (h : ScGood t) :
    dq2 scnP0 t
      = scM' t * (horner scnB t / horner scnE t) / 4 + scA t * (horner scnQ0 t / (horner scnB t * horner scnE t ^ 3)) := by
  obtain ⟨h0, h1, h2, h3, h4, hE⟩ := h
  simp only [dq1, dq2, dq3, scL, scA, scM']
  simp only [scnB_eq, scnE_eq]
  simp only [scnB, scnE, scnP0, scnP1, scnQ0, scnQ1, scnQ2, horner, hornerD, mul_zero, add_zero]
  generalize ha1 : 1 - t = a1 at *
  generalize ha2 : 1 + t = a2 at *
  generalize ha3 : 1 - 3 * t = a3 at *
  generalize ha4 : 1 + 3 * t = a4 at *
  generalize haE : 1 - 9 * t ^ 4 = aE at *
  field_simp
  subst ha1 ha2 ha3 ha4 haE
  ring

lemma sc_id_p1 {t : ℝ} (h : ScGood t) :
    horner scnP0 t / horner scnE t ^ 2 * scL t + dq2 scnP1 t
      = scA t * (horner scnQ1 t / (horner scnB t * horner scnE t ^ 3)) := by
  obtain ⟨h0, h1, h2, h3, h4, hE⟩ := h
  simp only [dq1, dq2, dq3, scL, scA, scM']
  simp only [scnB_eq, scnE_eq]
  simp only [scnB, scnE, scnP0, scnP1, scnQ0, scnQ1, scnQ2, horner, hornerD, mul_zero, add_zero]
  generalize ha1 : 1 - t = a1 at *
  generalize ha2 : 1 + t = a2 at *
  generalize ha3 : 1 - 3 * t = a3 at *
  generalize ha4 : 1 + 3 * t = a4 at *
  generalize haE : 1 - 9 * t ^ 4 = aE at *
  field_simp
  subst ha1 ha2 ha3 ha4 haE
  ring

lemma sc_id_p2 {t : ℝ} (h : ScGood t) :
    horner scnP1 t / horner scnE t ^ 2 * scL t
      = scA t * (horner scnQ2 t / (horner scnB t * horner scnE t ^ 3)) := by
  obtain ⟨h0, h1, h2, h3, h4, hE⟩ := h
  simp only [dq1, dq2, dq3, scL, scA, scM']
  simp only [scnB_eq, scnE_eq]
  simp only [scnB, scnE, scnP0, scnP1, scnQ0, scnQ1, scnQ2, horner, hornerD, mul_zero, add_zero]
  generalize ha1 : 1 - t = a1 at *
  generalize ha2 : 1 + t = a2 at *
  generalize ha3 : 1 - 3 * t = a3 at *
  generalize ha4 : 1 + 3 * t = a4 at *
  generalize haE : 1 - 9 * t ^ 4 = aE at *
  field_simp
  subst ha1 ha2 ha3 ha4 haE
  ring

lemma sc_id_q0 {t : ℝ} (h : ScGood t) :
    dq3 scnQ0 t + 4 / 9 * (1 - 18 * t ^ 2 + 9 * t ^ 4) * (1 - 2 * t ^ 2 + 9 * t ^ 4) * t * (6 * horner scnE t ^ 2 - 3 * (36 * (t ^ 2 * (1 - 9 * t ^ 2) * (1 - t ^ 2)))) / (horner scnB t * horner scnE t ^ 4)
      = scM' t * (horner scnP0 t / horner scnE t ^ 2) / 2 := by
  obtain ⟨h0, h1, h2, h3, h4, hE⟩ := h
  simp only [dq1, dq2, dq3, scL, scA, scM']
  simp only [scnB_eq, scnE_eq]
  simp only [scnB, scnE, scnP0, scnP1, scnQ0, scnQ1, scnQ2, horner, hornerD, mul_zero, add_zero]
  generalize ha1 : 1 - t = a1 at *
  generalize ha2 : 1 + t = a2 at *
  generalize ha3 : 1 - 3 * t = a3 at *
  generalize ha4 : 1 + 3 * t = a4 at *
  generalize haE : 1 - 9 * t ^ 4 = aE at *
  field_simp
  subst ha1 ha2 ha3 ha4 haE
  ring

lemma sc_id_q1 {t : ℝ} (h : ScGood t) :
    horner scnQ0 t / (horner scnB t * horner scnE t ^ 3) * scL t + dq3 scnQ1 t + 4 / 9 * (1 - 18 * t ^ 2 + 9 * t ^ 4) * (1 - 2 * t ^ 2 + 9 * t ^ 4) * t * (32 * horner scnE t ^ 2 - 11 * (36 * (t ^ 2 * (1 - 9 * t ^ 2) * (1 - t ^ 2)))) / (horner scnB t * horner scnE t ^ 4)
      = scM' t * (horner scnP1 t / horner scnE t ^ 2) / 2 := by
  obtain ⟨h0, h1, h2, h3, h4, hE⟩ := h
  simp only [dq1, dq2, dq3, scL, scA, scM']
  simp only [scnB_eq, scnE_eq]
  simp only [scnB, scnE, scnP0, scnP1, scnQ0, scnQ1, scnQ2, horner, hornerD, mul_zero, add_zero]
  generalize ha1 : 1 - t = a1 at *
  generalize ha2 : 1 + t = a2 at *
  generalize ha3 : 1 - 3 * t = a3 at *
  generalize ha4 : 1 + 3 * t = a4 at *
  generalize haE : 1 - 9 * t ^ 4 = aE at *
  field_simp
  subst ha1 ha2 ha3 ha4 haE
  ring

lemma sc_id_q2 {t : ℝ} (h : ScGood t) :
    horner scnQ1 t / (horner scnB t * horner scnE t ^ 3) * scL t + dq3 scnQ2 t + 4 / 9 * (1 - 18 * t ^ 2 + 9 * t ^ 4) * (1 - 2 * t ^ 2 + 9 * t ^ 4) * t * (60 * horner scnE t ^ 2 - 12 * (36 * (t ^ 2 * (1 - 9 * t ^ 2) * (1 - t ^ 2)))) / (horner scnB t * horner scnE t ^ 4)
      = 0 := by
  obtain ⟨h0, h1, h2, h3, h4, hE⟩ := h
  simp only [dq1, dq2, dq3, scL, scA, scM']
  simp only [scnB_eq, scnE_eq]
  simp only [scnB, scnE, scnP0, scnP1, scnQ0, scnQ1, scnQ2, horner, hornerD, mul_zero, add_zero]
  generalize ha1 : 1 - t = a1 at *
  generalize ha2 : 1 + t = a2 at *
  generalize ha3 : 1 - 3 * t = a3 at *
  generalize ha4 : 1 + 3 * t = a4 at *
  generalize haE : 1 - 9 * t ^ 4 = aE at *
  field_simp
  subst ha1 ha2 ha3 ha4 haE
  ring

/-! ## The differential equation -/

lemma scCoeff_eq_moment (n : ℕ) : scCoeff n = ∫ k, (scDisp 1 k) ^ (2 * n) ∂bz3 := by
  unfold scCoeff scDisp
  simp_rw [mul_pow]
  rw [integral_const_mul, scM_eq, pow_mul]
  push_cast
  norm_num

lemma measurable_scDisp (D : ℝ) : Measurable (scDisp D) := by
  unfold scDisp
  have := Real.continuous_cos.measurable
  fun_prop

lemma scDisp_abs {D : ℝ} (hD : 0 ≤ D) (k : ℝ × ℝ × ℝ) : |scDisp D k| ≤ D := by
  unfold scDisp
  have h1 := abs_le.1 (Real.abs_cos_le_one k.1)
  have h2 := abs_le.1 (Real.abs_cos_le_one k.2.1)
  have h3 := abs_le.1 (Real.abs_cos_le_one k.2.2)
  rw [abs_mul, abs_of_nonneg (by positivity)]
  have : |Real.cos k.1 + Real.cos k.2.1 + Real.cos k.2.2| ≤ 3 := by
    rw [abs_le]
    constructor <;> linarith [h1.1, h1.2, h2.1, h2.2, h3.1, h3.2]
  calc _ ≤ D / 3 * 3 := by gcongr
    _ = D := by ring

lemma scCoeff_bound (n : ℕ) : |scCoeff n| ≤ 1 := by
  rw [scCoeff_eq_moment]
  have h := norm_integral_le_of_norm_le_const (μ := bz3) (f := fun k => (scDisp 1 k) ^ (2 * n)) (C := 1)
    (Filter.Eventually.of_forall fun k => by
      rw [Real.norm_eq_abs]
      exact bounded_pow (scDisp_abs zero_le_one k) _)
  simpa using h

/-- The differential equation of the generating function. -/
lemma sc_ode {v : ℝ} (hv : |v| < 1) :
    4 * (9 - v) * (1 - v) * dser scCoeff 3 v
      = 2 * v * (30 * dser scCoeff 2 v + 16 * dser scCoeff 1 v + 3 * dser scCoeff 0 v)
        - v ^ 2 * (12 * dser scCoeff 2 v + 11 * dser scCoeff 1 v + 3 * dser scCoeff 0 v) := by
  have hs := fun j => summable_dser scCoeff_bound j hv
  set P : ℕ → ℝ := fun n => 2 * (2 * n + 1) * (10 * (n : ℝ) ^ 2 + 10 * n + 3) * scCoeff n * v ^ n with hP
  set Q : ℕ → ℝ := fun n => ((n : ℝ) + 1) * (2 * n + 1) * (2 * n + 3) * scCoeff n * v ^ n with hQ
  set S : ℕ → ℝ := fun n => 36 * (n : ℝ) ^ 3 * scCoeff n * v ^ n with hS
  have sP : HasSum P (2 * (20 * dser scCoeff 3 v + 30 * dser scCoeff 2 v + 16 * dser scCoeff 1 v + 3 * dser scCoeff 0 v)) := by
    have h := ((((((hs 3).hasSum.mul_left 20).add ((hs 2).hasSum.mul_left 30)).add ((hs 1).hasSum.mul_left 16)).add
      ((hs 0).hasSum.mul_left 3)).mul_left 2)
    have e : P = fun n => 2 * (20 * (scCoeff n * (n : ℝ) ^ 3 * v ^ n) + 30 * (scCoeff n * (n : ℝ) ^ 2 * v ^ n)
        + 16 * (scCoeff n * (n : ℝ) ^ 1 * v ^ n) + 3 * (scCoeff n * (n : ℝ) ^ 0 * v ^ n)) := by
      funext n
      simp only [hP]
      ring
    rw [e]
    exact h
  have sQ : HasSum Q (4 * dser scCoeff 3 v + 12 * dser scCoeff 2 v + 11 * dser scCoeff 1 v + 3 * dser scCoeff 0 v) := by
    have h := (((((hs 3).hasSum.mul_left 4).add ((hs 2).hasSum.mul_left 12)).add ((hs 1).hasSum.mul_left 11)).add
      ((hs 0).hasSum.mul_left 3))
    have e : Q = fun n => 4 * (scCoeff n * (n : ℝ) ^ 3 * v ^ n) + 12 * (scCoeff n * (n : ℝ) ^ 2 * v ^ n)
        + 11 * (scCoeff n * (n : ℝ) ^ 1 * v ^ n) + 3 * (scCoeff n * (n : ℝ) ^ 0 * v ^ n) := by
      funext n
      simp only [hQ]
      ring
    rw [e]
    exact h
  have sS : HasSum S (36 * dser scCoeff 3 v) := by
    have h := (hs 3).hasSum.mul_left 36
    have e : S = fun n => 36 * (scCoeff n * (n : ℝ) ^ 3 * v ^ n) := by
      funext n
      simp only [hS]
      ring
    rw [e]
    exact h
  have step : ∀ n, S (n + 2) = v * P (n + 1) - v ^ 2 * Q n := by
    intro n
    have h := scCoeff_rec n
    simp only [hS, hP, hQ]
    push_cast
    rw [pow_add, pow_succ]
    linear_combination v ^ n * v ^ 2 * h
  have hS2 := (sS.summable.sum_add_tsum_nat_add 2)
  have hP1 := sP.summable.tsum_eq_zero_add
  have hPs : Summable fun n => P (n + 1) := (summable_nat_add_iff 1).2 sP.summable
  rw [sS.tsum_eq, Finset.sum_range_succ, Finset.sum_range_one] at hS2
  simp_rw [step] at hS2
  rw [(hPs.mul_left v).tsum_sub (sQ.summable.mul_left (v ^ 2)), tsum_mul_left, tsum_mul_left, sQ.tsum_eq] at hS2
  rw [sP.tsum_eq] at hP1
  have e0 : S 0 = 0 := by simp [hS]
  have e1 : S 1 = 6 * v := by simp only [hS, scCoeff_one]; norm_num
  have e2 : P 0 = 6 := by simp only [hP, scCoeff_zero]; norm_num
  rw [e0, e1] at hS2
  rw [e2] at hP1
  linear_combination -hS2 - v * hP1

/-! ## The elliptic integral -/

/-- The square of the inverse energy. -/
noncomputable def scV (t : ℝ) : ℝ := 36 * (t ^ 2 * (1 - 9 * t ^ 2) * (1 - t ^ 2)) / horner scnE t ^ 2

/-- The parameter of the elliptic integral. -/
noncomputable def scMu (t : ℝ) : ℝ := 16 * t ^ 3 / horner scnB t

lemma hasDerivAt_scV {t : ℝ} (h : ScGood t) : HasDerivAt scV (scV t * scL t) t := by
  have hE : horner scnE t ≠ 0 := by rw [scnE_eq]; exact h.hE
  have h1 := hasDerivAt_q2 [0, 0, 36, 0, -360, 0, 324] hE
  have e : scV = fun t => horner [0, 0, 36, 0, -360, 0, 324] t / horner scnE t ^ 2 := by
    funext t
    unfold scV
    congr 1
    simp only [horner]
    ring
  rw [e]
  refine h1.congr_deriv ?_
  obtain ⟨h0, h1, h2, h3, h4, hE⟩ := h
  simp only [dq2, scL]
  simp only [scnE_eq]
  simp only [scnE, horner, hornerD, mul_zero, add_zero]
  generalize ha1 : 1 - t = a1 at *
  generalize ha2 : 1 + t = a2 at *
  generalize ha3 : 1 - 3 * t = a3 at *
  generalize ha4 : 1 + 3 * t = a4 at *
  generalize haE : 1 - 9 * t ^ 4 = aE at *
  field_simp
  subst ha1 ha2 ha3 ha4 haE
  ring

lemma hasDerivAt_scMu {t : ℝ} (h : ScGood t) : HasDerivAt scMu (scM' t) t := by
  have hB : horner scnB t ≠ 0 := by rw [scnB_eq]; exact mul_ne_zero (pow_ne_zero 3 h.h1) h.h4
  have h1 := (hasDerivAt_horner [0, 0, 0, 16] t).div (hasDerivAt_horner scnB t) hB
  have e : scMu = fun t => horner [0, 0, 0, 16] t / horner scnB t := by
    funext t
    unfold scMu
    congr 1
    simp only [horner]
    ring
  rw [e]
  refine h1.congr_deriv ?_
  obtain ⟨h0, h1, h2, h3, h4, hE⟩ := h
  simp only [scM']
  simp only [scnB_eq]
  simp only [scnB, horner, hornerD, mul_zero, add_zero]
  generalize ha1 : 1 - t = a1 at *
  generalize ha2 : 1 + t = a2 at *
  generalize ha3 : 1 - 3 * t = a3 at *
  generalize ha4 : 1 + 3 * t = a4 at *
  generalize haE : 1 - 9 * t ^ 4 = aE at *
  field_simp
  subst ha1 ha2 ha3 ha4 haE
  ring

lemma one_sub_scMu {t : ℝ} (h : ScGood t) : 1 - scMu t = (1 + t) ^ 3 * (1 - 3 * t) / ((1 - t) ^ 3 * (1 + 3 * t)) := by
  unfold scMu
  rw [scnB_eq, eq_div_iff (mul_ne_zero (pow_ne_zero 3 h.h1) h.h4), sub_mul,
    div_mul_cancel₀ _ (mul_ne_zero (pow_ne_zero 3 h.h1) h.h4)]
  ring

lemma scA_eq {t : ℝ} (h : ScGood t) : scM' t / (scMu t * (1 - scMu t)) = scA t := by
  rw [one_sub_scMu h]
  unfold scMu
  obtain ⟨h0, h1, h2, h3, h4, hE⟩ := h
  simp only [scA, scM']
  simp only [scnB_eq]
  generalize ha1 : 1 - t = a1 at *
  generalize ha2 : 1 + t = a2 at *
  generalize ha3 : 1 - 3 * t = a3 at *
  generalize ha4 : 1 + 3 * t = a4 at *
  field_simp
  norm_num

lemma scGood_of {t : ℝ} (h0 : 0 < t) (h1 : t ≤ 1 / 16) : ScGood t := by
  have h4 : t ^ 4 ≤ (1 / 16) ^ 4 := by gcongr
  refine ⟨h0.ne', ?_, ?_, ?_, ?_, ?_⟩
  all_goals apply ne_of_gt; linarith

lemma scnE_pos {t : ℝ} (ht : t ∈ Set.Icc (0 : ℝ) (1 / 16)) : 1 / 2 < horner scnE t := by
  rw [scnE_eq]
  have h4 : t ^ 4 ≤ (1 / 16) ^ 4 := by gcongr; exacts [ht.1, ht.2]
  linarith

lemma scnB_pos {t : ℝ} (ht : t ∈ Set.Icc (0 : ℝ) (1 / 16)) : 1 / 2 < horner scnB t := by
  rw [scnB_eq]
  have h1 : (15 / 16 : ℝ) ^ 3 ≤ (1 - t) ^ 3 := by gcongr; linarith [ht.2]
  nlinarith [ht.1]

lemma scV_abs {t : ℝ} (ht : t ∈ Set.Icc (0 : ℝ) (1 / 16)) : |scV t| < 1 := by
  have hE := scnE_pos ht
  have h2 : t ^ 2 ≤ (1 / 16) ^ 2 := by gcongr; exacts [ht.1, ht.2]
  have h2' : 0 ≤ t ^ 2 := sq_nonneg t
  unfold scV
  have ha : 0 ≤ (1 - 9 * t ^ 2) * (1 - t ^ 2) := mul_nonneg (by linarith) (by linarith)
  have hb : (1 - 9 * t ^ 2) * (1 - t ^ 2) ≤ 1 := by nlinarith
  have hn : 36 * (t ^ 2 * (1 - 9 * t ^ 2) * (1 - t ^ 2)) ≤ 36 * (1 / 16) ^ 2 := by
    rw [mul_assoc (t ^ 2)]
    nlinarith
  have hn0 : 0 ≤ 36 * (t ^ 2 * (1 - 9 * t ^ 2) * (1 - t ^ 2)) := by
    rw [mul_assoc (t ^ 2)]
    positivity
  rw [abs_of_nonneg (by positivity), div_lt_one (by positivity)]
  nlinarith

/-- The generating function of the moments as square of an elliptic integral. -/
lemma joyce : ∃ r : ℝ, 0 < r ∧ r ≤ 1 / 16 ∧ ∀ t ∈ Set.Ioo 0 r,
    ((horner scnB t / horner scnE t * dser scCoeff 0 (scV t) : ℝ) : ℂ) = (2 / Real.pi * ellipK (scMu t)) ^ 2 := by
  have hgood : ∀ t ∈ Set.Ioo (0 : ℝ) (1 / 16), ScGood t := fun t ht => scGood_of ht.1 ht.2.le
  have hIcc : ∀ t ∈ Set.Ioo (0 : ℝ) (1 / 16), t ∈ Set.Icc (0 : ℝ) (1 / 16) := fun t ht => ⟨ht.1.le, ht.2.le⟩
  set F : ℕ → ℝ → ℝ := fun j t => dser scCoeff j (scV t) with hF
  have hVne : ∀ t ∈ Set.Ioo (0 : ℝ) (1 / 16), scV t ≠ 0 := by
    intro t ht
    have hg := hgood t ht
    have hE := scnE_pos (hIcc t ht)
    unfold scV
    have e : t ^ 2 * (1 - 9 * t ^ 2) * (1 - t ^ 2) = t ^ 2 * ((1 - 3 * t) * (1 + 3 * t)) * ((1 - t) * (1 + t)) := by ring
    rw [e]
    have := mul_ne_zero (mul_ne_zero (pow_ne_zero 2 hg.h0) (mul_ne_zero hg.h3 hg.h4)) (mul_ne_zero hg.h1 hg.h2)
    exact div_ne_zero (mul_ne_zero (by norm_num) this) (by positivity)
  have hFd : ∀ j, ∀ t ∈ Set.Ioo (0 : ℝ) (1 / 16), HasDerivAt (F j) (F (j + 1) t * scL t) t := by
    intro j t ht
    have h := (hasDerivAt_dser scCoeff_bound j (hVne t ht) (scV_abs (hIcc t ht))).comp t (hasDerivAt_scV (hgood t ht))
    refine h.congr_deriv ?_
    have := hVne t ht
    simp only [hF]
    field_simp
  have cE := continuous_horner scnE
  have cB := continuous_horner scnB
  have hVc : ∀ t ∈ Set.Icc (0 : ℝ) (1 / 16), ContinuousAt scV t := by
    intro t ht
    have hE := scnE_pos ht
    unfold scV
    exact ContinuousAt.div (by fun_prop) (by fun_prop) (by positivity)
  have hFc : ∀ j, ContinuousOn (F j) (Set.Icc 0 (1 / 16)) := fun j t ht =>
    (ContinuousAt.comp (f := scV) (continuousAt_dser scCoeff_bound j (scV_abs ht)) (hVc t ht)).continuousWithinAt
  have c1 : ∀ N : List ℝ, ContinuousOn (fun t => horner N t / horner scnE t) (Set.Icc 0 (1 / 16)) := fun N =>
    ContinuousOn.div (continuous_horner N).continuousOn cE.continuousOn fun t ht => by have := scnE_pos ht; positivity
  have c2 : ∀ N : List ℝ, ContinuousOn (fun t => horner N t / horner scnE t ^ 2) (Set.Icc 0 (1 / 16)) := fun N =>
    ContinuousOn.div (continuous_horner N).continuousOn (cE.pow 2).continuousOn fun t ht => by have := scnE_pos ht; positivity
  have c3 : ∀ N : List ℝ, ContinuousOn (fun t => horner N t / (horner scnB t * horner scnE t ^ 3)) (Set.Icc 0 (1 / 16)) :=
    fun N => ContinuousOn.div (continuous_horner N).continuousOn (cB.mul (cE.pow 3)).continuousOn fun t ht => by
      have := scnE_pos ht; have := scnB_pos ht; positivity
  set W : ℝ → ℝ := fun t => horner scnB t / horner scnE t * F 0 t with hW
  set S : ℝ → ℝ := fun t => horner scnP0 t / horner scnE t ^ 2 * F 0 t + horner scnP1 t / horner scnE t ^ 2 * F 1 t with hS
  set Q : ℝ → ℝ := fun t => horner scnQ0 t / (horner scnB t * horner scnE t ^ 3) * F 0 t
    + horner scnQ1 t / (horner scnB t * horner scnE t ^ 3) * F 1 t
    + horner scnQ2 t / (horner scnB t * horner scnE t ^ 3) * F 2 t with hQ
  have ne : ∀ t ∈ Set.Ioo (0 : ℝ) (1 / 16), horner scnE t ≠ 0 ∧ horner scnB t ≠ 0 := fun t ht => by
    have := scnE_pos (hIcc t ht); have := scnB_pos (hIcc t ht)
    exact ⟨by positivity, by positivity⟩
  have hWd : ∀ t ∈ Set.Ioo (0 : ℝ) (1 / 16), HasDerivAt W (2 * scA t * S t) t := by
    intro t ht
    refine ((hasDerivAt_q1 scnB (ne t ht).1).mul (hFd 0 t ht)).congr_deriv ?_
    have i0 := sc_id_b0 (hgood t ht)
    have i1 := sc_id_b1 (hgood t ht)
    simp only [hS, zero_add]
    linear_combination F 0 t * i0 + F 1 t * i1
  have hSd : ∀ t ∈ Set.Ioo (0 : ℝ) (1 / 16), HasDerivAt S (scM' t * W t / 4 + scA t * Q t) t := by
    intro t ht
    refine (((hasDerivAt_q2 scnP0 (ne t ht).1).mul (hFd 0 t ht)).add
      ((hasDerivAt_q2 scnP1 (ne t ht).1).mul (hFd 1 t ht))).congr_deriv ?_
    have i0 := sc_id_p0 (hgood t ht)
    have i1 := sc_id_p1 (hgood t ht)
    have i2 := sc_id_p2 (hgood t ht)
    simp only [hQ, hW, zero_add, Nat.reduceAdd]
    linear_combination F 0 t * i0 + F 1 t * i1 + F 2 t * i2
  have hQd : ∀ t ∈ Set.Ioo (0 : ℝ) (1 / 16), HasDerivAt Q (scM' t * S t / 2) t := by
    intro t ht
    refine ((((hasDerivAt_q3 scnQ0 (ne t ht).2 (ne t ht).1).mul (hFd 0 t ht)).add
      ((hasDerivAt_q3 scnQ1 (ne t ht).2 (ne t ht).1).mul (hFd 1 t ht))).add
      ((hasDerivAt_q3 scnQ2 (ne t ht).2 (ne t ht).1).mul (hFd 2 t ht))).congr_deriv ?_
    have i0 := sc_id_q0 (hgood t ht)
    have i1 := sc_id_q1 (hgood t ht)
    have i2 := sc_id_q2 (hgood t ht)
    have hode := sc_ode (scV_abs (hIcc t ht))
    have hE := (ne t ht).1
    have hBn := (ne t ht).2
    have h9 : (9 - scV t) * horner scnE t ^ 2 = 9 * (1 - 2 * t ^ 2 + 9 * t ^ 4) ^ 2 := by
      unfold scV
      rw [sub_mul, div_mul_cancel₀ _ (pow_ne_zero 2 hE), scnE_eq]
      ring
    have h1 : (1 - scV t) * horner scnE t ^ 2 = (1 - 18 * t ^ 2 + 9 * t ^ 4) ^ 2 := by
      unfold scV
      rw [sub_mul, div_mul_cancel₀ _ (pow_ne_zero 2 hE), scnE_eq]
      ring
    have hV : scV t * horner scnE t ^ 2 = 36 * (t ^ 2 * (1 - 9 * t ^ 2) * (1 - t ^ 2)) := by
      unfold scV
      rw [div_mul_cancel₀ _ (pow_ne_zero 2 hE)]
    have key : horner scnQ2 t / (horner scnB t * horner scnE t ^ 3) * scL t * F 3 t
        = 4 / 9 * (1 - 18 * t ^ 2 + 9 * t ^ 4) * (1 - 2 * t ^ 2 + 9 * t ^ 4) * t
          * (horner scnE t ^ 2 * (60 * F 2 t + 32 * F 1 t + 6 * F 0 t)
            - 36 * (t ^ 2 * (1 - 9 * t ^ 2) * (1 - t ^ 2)) * (12 * F 2 t + 11 * F 1 t + 3 * F 0 t))
          / (horner scnB t * horner scnE t ^ 4) := by
      have hg := hgood t ht
      have hq2 : horner scnQ2 t = 2 / 9 * ((1 - 18 * t ^ 2 + 9 * t ^ 4) ^ 2 * (1 - 2 * t ^ 2 + 9 * t ^ 4) ^ 2) := by
        simp only [scnQ2, horner]
        ring
      have hτ : t ^ 2 * (1 - 9 * t ^ 2) * (1 - t ^ 2) = t * (t * (1 - t) * (1 + t) * (1 - 3 * t) * (1 + 3 * t)) := by ring
      have hκ : t * (1 - t) * (1 + t) * (1 - 3 * t) * (1 + 3 * t) ≠ 0 :=
        mul_ne_zero (mul_ne_zero (mul_ne_zero (mul_ne_zero hg.h0 hg.h1) hg.h2) hg.h3) hg.h4
      have h3 : (1 - 18 * t ^ 2 + 9 * t ^ 4) ^ 2 * (1 - 2 * t ^ 2 + 9 * t ^ 4) ^ 2 * F 3 t
          = t ^ 2 * (1 - 9 * t ^ 2) * (1 - t ^ 2) * (horner scnE t ^ 2 * (60 * F 2 t + 32 * F 1 t + 6 * F 0 t)
            - 36 * (t ^ 2 * (1 - 9 * t ^ 2) * (1 - t ^ 2)) * (12 * F 2 t + 11 * F 1 t + 3 * F 0 t)) := by
        have hode' : 4 * (9 - scV t) * (1 - scV t) * F 3 t = 2 * scV t * (30 * F 2 t + 16 * F 1 t + 3 * F 0 t)
            - scV t ^ 2 * (12 * F 2 t + 11 * F 1 t + 3 * F 0 t) := hode
        have : 4 * ((9 - scV t) * horner scnE t ^ 2) * ((1 - scV t) * horner scnE t ^ 2) * F 3 t
            = 2 * (scV t * horner scnE t ^ 2) * horner scnE t ^ 2 * (30 * F 2 t + 16 * F 1 t + 3 * F 0 t)
            - (scV t * horner scnE t ^ 2) ^ 2 * (12 * F 2 t + 11 * F 1 t + 3 * F 0 t) := by
          linear_combination horner scnE t ^ 4 * hode'
        rw [h9, h1, hV] at this
        linear_combination this / 36
      rw [hτ] at h3 ⊢
      rw [hq2]
      unfold scL
      rw [← scnE_eq]
      generalize horner scnE t = E at *
      generalize horner scnB t = B at *
      generalize 1 - 18 * t ^ 2 + 9 * t ^ 4 = a at *
      generalize 1 - 2 * t ^ 2 + 9 * t ^ 4 = b at *
      generalize t * (1 - t) * (1 + t) * (1 - 3 * t) * (1 + 3 * t) = κ at *
      generalize 60 * F 2 t + 32 * F 1 t + 6 * F 0 t = X at *
      generalize 12 * F 2 t + 11 * F 1 t + 3 * F 0 t = Y at *
      generalize F 3 t = G at *
      clear * - h3 hE hBn hκ
      have e : 2 / 9 * (a ^ 2 * b ^ 2) / (B * E ^ 3) * (2 * a * b / (κ * E)) * G
          = 4 / 9 * a * b / (κ * (B * E ^ 4)) * (a ^ 2 * b ^ 2 * G) := by
        field_simp
        ring
      rw [e, h3]
      field_simp
    simp only [hS, zero_add, Nat.reduceAdd]
    linear_combination F 0 t * i0 + F 1 t * i1 + F 2 t * i2 + key
  have hSc : ContinuousOn S (Set.Icc 0 (1 / 16)) := ((c2 _).mul (hFc 0)).add ((c2 _).mul (hFc 1))
  have hWc : ContinuousOn W (Set.Icc 0 (1 / 16)) := (c1 _).mul (hFc 0)
  have hQc : ContinuousOn Q (Set.Icc 0 (1 / 16)) :=
    (((c3 _).mul (hFc 0)).add ((c3 _).mul (hFc 1))).add ((c3 _).mul (hFc 2))
  have hV0 : scV 0 = 0 := by simp [scV]
  have hF0 : F 0 0 = 1 := by simp only [hF, hV0, dser_zero, scCoeff_zero]
  have hFj : ∀ j, F (j + 1) 0 = 0 := fun j => by simp only [hF, hV0, dser_succ_zero]
  have hcont : Continuous fun x : ℝ => (x : ℂ) := Complex.continuous_ofReal
  have hMuc : ContinuousOn scMu (Set.Icc 0 (1 / 16)) := by
    unfold scMu
    exact ContinuousOn.div (by fun_prop) cB.continuousOn fun t ht => by have := scnB_pos ht; positivity
  have hMu1 : ∀ t ∈ Set.Icc (0 : ℝ) (1 / 16), scMu t < 1 := by
    intro t ht
    have := scnB_pos ht
    unfold scMu
    rw [div_lt_one (by positivity)]
    have h3 : t ^ 3 ≤ (1 / 16) ^ 3 := by gcongr; exacts [ht.1, ht.2]
    linarith
  have hMu0 : ∀ t ∈ Set.Ioo (0 : ℝ) (1 / 16), 0 < scMu t := by
    intro t ht
    have := scnB_pos (hIcc t ht)
    have := ht.1
    unfold scMu
    positivity
  have eA : ∀ t ∈ Set.Ioo (0 : ℝ) (1 / 16), (scM' t : ℂ) / ((scMu t : ℂ) * (1 - scMu t)) = ((scA t : ℝ) : ℂ) := by
    intro t ht
    rw [← scA_eq (hgood t ht)]
    push_cast
    rfl
  obtain ⟨r, hr0, hrR, hr⟩ := eq_kW_of_system (w := fun t => (W t : ℂ)) (s := fun t => (S t : ℂ)) (q := fun t => (Q t : ℂ))
    (μ := fun t => (scMu t : ℂ)) (μ' := fun t => (scM' t : ℂ)) (R := 1 / 16) (A := 6) (B := 100) (by norm_num) (by norm_num)
    (by norm_num)
    (hcont.comp_continuousOn hWc) (hcont.comp_continuousOn hSc) (hcont.comp_continuousOn hQc)
    (by simp only [hW, hF0, scnB_eq, scnE_eq]; norm_num)
    (by simp only [hS, hF0, hFj 0]; norm_num [horner, scnP0])
    (by simp only [hQ, hF0, hFj 0, hFj 1]; norm_num [horner, scnQ0])
    (hcont.comp_continuousOn hMuc) (by simp [scMu])
    (fun t ht => by
      simp only [ellipDom, Set.mem_ofPred_eq]
      rw [← Complex.ofReal_one, ← Complex.ofReal_sub, Complex.ofReal_mem_slitPlane]
      linarith [hMu1 t ht])
    (fun t ht => by
      have h1 := (hMu0 t ht).ne'
      have h2 : 1 - scMu t ≠ 0 := by linarith [hMu1 t (hIcc t ht)]
      exact_mod_cast mul_ne_zero h1 h2)
    (fun t ht => (hasDerivAt_scMu (hgood t ht)).ofReal_comp)
    (fun t ht => by
      rw [eA t ht, Complex.norm_real, Real.norm_eq_abs]
      have h0 := ht.1
      have h1 := ht.2
      unfold scA
      have hd : 0 < t * (1 + t) * (1 - 3 * t) := by
        have : 0 < 1 - 3 * t := by linarith
        positivity
      rw [abs_of_nonneg (by positivity), div_le_div_iff₀ hd h0]
      have h2 : (1 - t) ^ 2 ≤ 1 := by nlinarith
      have h3 : 1 / 2 ≤ (1 + t) * (1 - 3 * t) := by nlinarith
      nlinarith)
    (fun t ht => by
      rw [Complex.norm_real, Real.norm_eq_abs]
      have h0 := ht.1
      have h1 := ht.2
      unfold scM'
      have h2 : (15 / 16 : ℝ) ^ 4 ≤ (1 - t) ^ 4 := by gcongr; linarith
      have h3 : 1 ≤ (1 + 3 * t) ^ 2 := by nlinarith
      have hd : 1 / 2 ≤ (1 - t) ^ 4 * (1 + 3 * t) ^ 2 := by nlinarith
      have h4 : t ^ 2 ≤ (1 / 16) ^ 2 := by gcongr
      have h5 : (1 + t) ^ 2 ≤ 4 := by nlinarith
      rw [abs_of_nonneg (by positivity), div_le_iff₀ (by linarith)]
      nlinarith [sq_nonneg t])
    (fun t ht => by
      rw [eA t ht]
      refine (hWd t ht).ofReal_comp.congr_deriv ?_
      push_cast
      ring)
    (fun t ht => by
      rw [eA t ht]
      refine (hSd t ht).ofReal_comp.congr_deriv ?_
      push_cast
      ring)
    (fun t ht => by
      refine (hQd t ht).ofReal_comp.congr_deriv ?_
      push_cast
      ring)
  exact ⟨r, hr0, hrR, hr⟩

end Gftool.Lemmas
