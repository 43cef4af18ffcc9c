import Verif.Lemmas.FccMoments
import Verif.Lemmas.ScSystem

/-!
# The generating function of the face-centred cubic moments
-/

namespace Gftool.Lemmas

open Gftool Spec MeasureTheory

/-- The differential equation of the generating function. -/
lemma fcc_ode {v : ℝ} (hv : |v| < 1) :
    2 * (1 - v) * (4 - v) * dser fccCoeff 3 v
      = v * (15 * dser fccCoeff 2 v + 9 * dser fccCoeff 1 v + 2 * dser fccCoeff 0 v)
        - 2 * v ^ 2 * (3 * dser fccCoeff 2 v + 3 * dser fccCoeff 1 v + dser fccCoeff 0 v) := by
  have hs := fun j => summable_dser fccCoeff_bound j hv
  set P : ℕ → ℝ := fun n => (2 * n + 1) * (5 * (n : ℝ) ^ 2 + 5 * n + 2) * fccCoeff n * v ^ n with hP
  set Q : ℕ → ℝ := fun n => 2 * ((n : ℝ) + 1) ^ 3 * fccCoeff n * v ^ n with hQ
  set S : ℕ → ℝ := fun n => 8 * (n : ℝ) ^ 3 * fccCoeff n * v ^ n with hS
  have sP : HasSum P (10 * dser fccCoeff 3 v + 15 * dser fccCoeff 2 v + 9 * dser fccCoeff 1 v + 2 * dser fccCoeff 0 v) := by
    have h := (((((hs 3).hasSum.mul_left 10).add ((hs 2).hasSum.mul_left 15)).add ((hs 1).hasSum.mul_left 9)).add
      ((hs 0).hasSum.mul_left 2))
    have e : P = fun n => 10 * (fccCoeff n * (n : ℝ) ^ 3 * v ^ n) + 15 * (fccCoeff n * (n : ℝ) ^ 2 * v ^ n)
        + 9 * (fccCoeff n * (n : ℝ) ^ 1 * v ^ n) + 2 * (fccCoeff n * (n : ℝ) ^ 0 * v ^ n) := by
      funext n
      simp only [hP]
      ring
    rw [e]
    exact h
  have sQ : HasSum Q (2 * dser fccCoeff 3 v + 6 * dser fccCoeff 2 v + 6 * dser fccCoeff 1 v + 2 * dser fccCoeff 0 v) := by
    have h := (((((hs 3).hasSum.mul_left 2).add ((hs 2).hasSum.mul_left 6)).add ((hs 1).hasSum.mul_left 6)).add
      ((hs 0).hasSum.mul_left 2))
    have e : Q = fun n => 2 * (fccCoeff n * (n : ℝ) ^ 3 * v ^ n) + 6 * (fccCoeff n * (n : ℝ) ^ 2 * v ^ n)
        + 6 * (fccCoeff n * (n : ℝ) ^ 1 * v ^ n) + 2 * (fccCoeff n * (n : ℝ) ^ 0 * v ^ n) := by
      funext n
      simp only [hQ]
      ring
    rw [e]
    exact h
  have sS : HasSum S (8 * dser fccCoeff 3 v) := by
    have h := (hs 3).hasSum.mul_left 8
    have e : S = fun n => 8 * (fccCoeff n * (n : ℝ) ^ 3 * v ^ n) := by
      funext n
      simp only [hS]
      ring
    rw [e]
    exact h
  have step : ∀ n, S (n + 2) = v * P (n + 1) - v ^ 2 * Q n := by
    intro n
    have h := fccCoeff_rec n
    simp only [hS, hP, hQ]
    push_cast
    rw [pow_add, pow_succ]
    linear_combination v ^ n * v ^ 2 * h
  have hS2 := (sS.summable.sum_add_tsum_nat_add 2)
  have hP1 := sP.summable.tsum_eq_zero_add
  have hPs : Summable fun n => P (n + 1) := (summable_nat_add_iff 1).2 sP.summable
  rw [sS.tsum_eq, Finset.sum_range_succ, Finset.sum_range_one] at hS2
  simp_rw [step] at hS2
  rw [(hPs.mul_left v).tsum_sub (sQ.summable.mul_left (v ^ 2)), tsum_mul_left, tsum_mul_left, sQ.tsum_eq] at hS2
  rw [sP.tsum_eq] at hP1
  have e0 : S 0 = 0 := by simp [hS]
  have e1 : S 1 = 2 * v := by simp only [hS, fccCoeff_one]; norm_num
  have e2 : P 0 = 2 := by simp only [hP, fccCoeff_zero]; norm_num
  rw [e0, e1] at hS2
  rw [e2] at hP1
  linear_combination -hS2 - v * hP1

/-! ## Rational functions -/

/-- Rational functions with powers as denominator. -/
noncomputable def rat (N : List ℝ) (m : ℕ) (t : ℝ) : ℝ := horner N (1 + t) / (1 + t) ^ m

/-- Derivative of the rational function. -/
noncomputable def ratD (N : List ℝ) (m : ℕ) (t : ℝ) : ℝ :=
  (hornerD N (1 + t) * (1 + t) - m * horner N (1 + t)) / (1 + t) ^ (m + 1)

lemma hasDerivAt_rat (N : List ℝ) (m : ℕ) {t : ℝ} (h : 1 + t ≠ 0) : HasDerivAt (rat N m) (ratD N m t) t := by
  have hs : HasDerivAt (fun t : ℝ => 1 + t) 1 t := by simpa using (hasDerivAt_id t).const_add 1
  have h1 := (hasDerivAt_horner N (1 + t)).comp t hs
  have h2 := hs.pow m
  refine (h1.div h2 (pow_ne_zero m h)).congr_deriv ?_
  simp only [Pi.pow_apply, Function.comp, ratD, mul_one]
  rcases m with _ | m
  · simp
    field_simp
  · simp only [Nat.add_sub_cancel]
    push_cast
    field_simp
    ring

lemma continuousOn_rat (N : List ℝ) (m : ℕ) : ContinuousOn (rat N m) (Set.Icc 0 (1 / 16)) := by
  have := continuous_horner N
  unfold rat
  refine ContinuousOn.div (by fun_prop) (by fun_prop) fun t ht => ?_
  have : 0 < 1 + t := by linarith [ht.1]
  positivity

/-- The inverse energy, scaled to `[0, 1]`. -/
noncomputable def fccV (t : ℝ) : ℝ := rat [-9/4, 0, 10/4, 0, -1/4] 2 t

/-- `V'/V`. -/
noncomputable def fccL (t : ℝ) : ℝ :=
  2 * (((1 + t) ^ 2 - 3) * ((1 + t) ^ 2 + 3)) / ((1 + t) * ((1 + t) ^ 2 - 1) * ((1 + t) ^ 2 - 9))

/-- Small positive arguments. -/
structure FccGood (q : ℝ) : Prop where
  h0 : q ≠ 0
  h1 : q ^ 2 - 1 ≠ 0
  h9 : q ^ 2 - 9 ≠ 0
  hm : q ^ 2 - 3 ≠ 0
  hp : q ^ 2 + 3 ≠ 0

lemma fccGood_of {t : ℝ} (h0 : 0 < t) (h1 : t ≤ 1 / 16) : FccGood (1 + t) := by
  refine ⟨by linarith, ?_, ?_, ?_, ?_⟩
  · apply ne_of_gt; nlinarith
  · apply ne_of_lt; nlinarith
  · apply ne_of_lt; nlinarith
  · apply ne_of_gt; nlinarith

lemma fccV_eq {t : ℝ} (h : 1 + t ≠ 0) : fccV t = ((1 + t) ^ 2 - 1) * (9 - (1 + t) ^ 2) / (4 * (1 + t) ^ 2) := by
  unfold fccV rat
  simp only [horner]
  generalize 1 + t = q at *
  field_simp
  ring

lemma fccV_abs {t : ℝ} (ht : t ∈ Set.Icc (0 : ℝ) (1 / 16)) : |fccV t| < 1 := by
  have h0 := ht.1
  have h1 := ht.2
  have hq : 0 < 1 + t := by linarith
  rw [fccV_eq hq.ne']
  have a1 : 1 ≤ (1 + t) ^ 2 := by nlinarith
  have a2 : (1 + t) ^ 2 ≤ 1 + 1 / 7 := by nlinarith
  generalize (1 + t) ^ 2 = x at *
  rw [abs_of_nonneg (div_nonneg (mul_nonneg (by linarith) (by linarith)) (by linarith)), div_lt_one (by linarith)]
  nlinarith

lemma hasDerivAt_fccV {t : ℝ} (h : FccGood (1 + t)) : HasDerivAt fccV (fccV t * fccL t) t := by
  refine (hasDerivAt_rat [-9/4, 0, 10/4, 0, -1/4] 2 h.h0).congr_deriv ?_
  rw [fccV_eq h.h0]
  unfold fccL ratD
  simp only [horner, hornerD]
  generalize 1 + t = q at *
  obtain ⟨h0, h1, h9, hm, hp⟩ := h
  generalize ha1 : q ^ 2 - 1 = a1 at *
  generalize ha9 : q ^ 2 - 9 = a9 at *
  field_simp
  subst ha1 ha9
  norm_num
  ring

lemma fcc_ode' {t : ℝ} (h : FccGood (1 + t)) (hv : |fccV t| < 1) :
    dser fccCoeff 3 (fccV t) = (((1 + t) ^ 2 - 1) * (9 - (1 + t) ^ 2))
        / ((((1 + t) ^ 2 - 3) * ((1 + t) ^ 2 + 3)) ^ 2)
      * (2 * (1 + t) ^ 2 * (15 * dser fccCoeff 2 (fccV t) + 9 * dser fccCoeff 1 (fccV t) + 2 * dser fccCoeff 0 (fccV t))
        - ((1 + t) ^ 2 - 1) * (9 - (1 + t) ^ 2) * (3 * dser fccCoeff 2 (fccV t) + 3 * dser fccCoeff 1 (fccV t) + dser fccCoeff 0 (fccV t))) := by
  have ho := fcc_ode hv
  generalize dser fccCoeff 3 (fccV t) = F3 at *
  generalize 15 * dser fccCoeff 2 (fccV t) + 9 * dser fccCoeff 1 (fccV t) + 2 * dser fccCoeff 0 (fccV t) = X at *
  generalize 3 * dser fccCoeff 2 (fccV t) + 3 * dser fccCoeff 1 (fccV t) + dser fccCoeff 0 (fccV t) = Y at *
  rw [fccV_eq h.h0] at ho
  generalize 1 + t = q at *
  obtain ⟨h0, h1, h9, hm, hp⟩ := h
  have hmp := mul_ne_zero hm hp
  rw [div_mul_eq_mul_div, eq_div_iff (pow_ne_zero 2 hmp)]
  have e1 : 1 - (q ^ 2 - 1) * (9 - q ^ 2) / (4 * q ^ 2) = (q ^ 2 - 3) ^ 2 / (4 * q ^ 2) := by
    field_simp; ring
  have e4 : 4 - (q ^ 2 - 1) * (9 - q ^ 2) / (4 * q ^ 2) = (q ^ 2 + 3) ^ 2 / (4 * q ^ 2) := by
    field_simp; ring
  rw [e1, e4] at ho
  have hq4 : q ^ 4 ≠ 0 := pow_ne_zero 4 h0
  have := congrArg (fun x => x * (8 * q ^ 4)) ho
  field_simp at this
  linear_combination this / 2

/-! ## Clausen's formula -/

/-- Solutions of the differential equation as squares of elliptic integrals. -/
lemma fcc_clausen {b p0 p1 g0 g1 g2 b' p0' p1' g0' g1' g2' mu mu' A : ℝ → ℝ}
    (cb : ContinuousOn b (Set.Icc 0 (1 / 16))) (cp0 : ContinuousOn p0 (Set.Icc 0 (1 / 16)))
    (cp1 : ContinuousOn p1 (Set.Icc 0 (1 / 16))) (cg0 : ContinuousOn g0 (Set.Icc 0 (1 / 16)))
    (cg1 : ContinuousOn g1 (Set.Icc 0 (1 / 16))) (cg2 : ContinuousOn g2 (Set.Icc 0 (1 / 16)))
    (cmu : ContinuousOn mu (Set.Icc 0 (1 / 16)))
    (db : ∀ t ∈ Set.Ioo (0 : ℝ) (1 / 16), HasDerivAt b (b' t) t)
    (dp0 : ∀ t ∈ Set.Ioo (0 : ℝ) (1 / 16), HasDerivAt p0 (p0' t) t)
    (dp1 : ∀ t ∈ Set.Ioo (0 : ℝ) (1 / 16), HasDerivAt p1 (p1' t) t)
    (dg0 : ∀ t ∈ Set.Ioo (0 : ℝ) (1 / 16), HasDerivAt g0 (g0' t) t)
    (dg1 : ∀ t ∈ Set.Ioo (0 : ℝ) (1 / 16), HasDerivAt g1 (g1' t) t)
    (dg2 : ∀ t ∈ Set.Ioo (0 : ℝ) (1 / 16), HasDerivAt g2 (g2' t) t)
    (dmu : ∀ t ∈ Set.Ioo (0 : ℝ) (1 / 16), HasDerivAt mu (mu' t) t)
    (b0 : b 0 = 1) (p00 : p0 0 = 0) (g00 : g0 0 = 0) (mu0 : mu 0 = 0)
    (mupos : ∀ t ∈ Set.Ioo (0 : ℝ) (1 / 16), 0 < mu t) (mulo : ∀ t ∈ Set.Icc (0 : ℝ) (1 / 16), mu t < 1)
    (eA : ∀ t ∈ Set.Ioo (0 : ℝ) (1 / 16), mu' t / (mu t * (1 - mu t)) = A t)
    (bA : ∀ t ∈ Set.Ioo (0 : ℝ) (1 / 16), |A t| ≤ 6 / t) (bM : ∀ t ∈ Set.Ioo (0 : ℝ) (1 / 16), |mu' t| ≤ 100)
    (ib0 : ∀ t ∈ Set.Ioo (0 : ℝ) (1 / 16), b' t = 2 * A t * p0 t)
    (ib1 : ∀ t ∈ Set.Ioo (0 : ℝ) (1 / 16), b t * fccL t = 2 * A t * p1 t)
    (ip0 : ∀ t ∈ Set.Ioo (0 : ℝ) (1 / 16), p0' t = mu' t * b t / 4 + A t * g0 t)
    (ip1 : ∀ t ∈ Set.Ioo (0 : ℝ) (1 / 16), p0 t * fccL t + p1' t = A t * g1 t)
    (ip2 : ∀ t ∈ Set.Ioo (0 : ℝ) (1 / 16), p1 t * fccL t = A t * g2 t)
    (iq : ∀ t ∈ Set.Ioo (0 : ℝ) (1 / 16), ∀ x0 x1 x2 : ℝ,
      g0' t * x0 + g0 t * fccL t * x1 + (g1' t * x1 + g1 t * fccL t * x2) + (g2' t * x2 + g2 t * fccL t *
        ((((1 + t) ^ 2 - 1) * (9 - (1 + t) ^ 2)) / ((((1 + t) ^ 2 - 3) * ((1 + t) ^ 2 + 3)) ^ 2)
          * (2 * (1 + t) ^ 2 * (15 * x2 + 9 * x1 + 2 * x0)
        - ((1 + t) ^ 2 - 1) * (9 - (1 + t) ^ 2) * (3 * x2 + 3 * x1 + x0))))
      = mu' t * (p0 t * x0 + p1 t * x1) / 2) :
    ∃ r : ℝ, 0 < r ∧ r ≤ 1 / 16 ∧ ∀ t ∈ Set.Ioo 0 r,
      ((b t * dser fccCoeff 0 (fccV t) : ℝ) : ℂ) = (2 / Real.pi * ellipK (mu t)) ^ 2 := by
  have hgood : ∀ t ∈ Set.Ioo (0 : ℝ) (1 / 16), FccGood (1 + t) := fun t ht => fccGood_of ht.1 ht.2.le
  have hIcc : ∀ t ∈ Set.Ioo (0 : ℝ) (1 / 16), t ∈ Set.Icc (0 : ℝ) (1 / 16) := fun t ht => ⟨ht.1.le, ht.2.le⟩
  set F : ℕ → ℝ → ℝ := fun j t => dser fccCoeff j (fccV t) with hF
  have hVne : ∀ t ∈ Set.Ioo (0 : ℝ) (1 / 16), fccV t ≠ 0 := by
    intro t ht
    have hg := hgood t ht
    rw [fccV_eq hg.h0]
    have h9 : 9 - (1 + t) ^ 2 ≠ 0 := by
      intro h; exact hg.h9 (by linarith)
    exact div_ne_zero (mul_ne_zero hg.h1 h9) (mul_ne_zero (by norm_num) (pow_ne_zero 2 hg.h0))
  have hFd : ∀ j, ∀ t ∈ Set.Ioo (0 : ℝ) (1 / 16), HasDerivAt (F j) (F (j + 1) t * fccL t) t := by
    intro j t ht
    have h := (hasDerivAt_dser fccCoeff_bound j (hVne t ht) (fccV_abs (hIcc t ht))).comp t (hasDerivAt_fccV (hgood t ht))
    refine h.congr_deriv ?_
    have := hVne t ht
    simp only [hF]
    field_simp
  have hVc : ContinuousOn fccV (Set.Icc 0 (1 / 16)) := continuousOn_rat _ _
  have hFc : ∀ j, ContinuousOn (F j) (Set.Icc 0 (1 / 16)) := fun j t ht =>
    (ContinuousAt.comp_continuousWithinAt (f := fccV) (continuousAt_dser fccCoeff_bound j (fccV_abs ht)) (hVc t ht))
  set W : ℝ → ℝ := fun t => b t * F 0 t with hW
  set S : ℝ → ℝ := fun t => p0 t * F 0 t + p1 t * F 1 t with hS
  set Q : ℝ → ℝ := fun t => g0 t * F 0 t + g1 t * F 1 t + g2 t * F 2 t with hQ
  have hWd : ∀ t ∈ Set.Ioo (0 : ℝ) (1 / 16), HasDerivAt W (2 * A t * S t) t := by
    intro t ht
    refine ((db t ht).mul (hFd 0 t ht)).congr_deriv ?_
    simp only [hS, zero_add]
    linear_combination F 0 t * ib0 t ht + F 1 t * ib1 t ht
  have hSd : ∀ t ∈ Set.Ioo (0 : ℝ) (1 / 16), HasDerivAt S (mu' t * W t / 4 + A t * Q t) t := by
    intro t ht
    refine (((dp0 t ht).mul (hFd 0 t ht)).add ((dp1 t ht).mul (hFd 1 t ht))).congr_deriv ?_
    simp only [hQ, hW, zero_add, Nat.reduceAdd]
    linear_combination F 0 t * ip0 t ht + F 1 t * ip1 t ht + F 2 t * ip2 t ht
  have hQd : ∀ t ∈ Set.Ioo (0 : ℝ) (1 / 16), HasDerivAt Q (mu' t * S t / 2) t := by
    intro t ht
    refine ((((dg0 t ht).mul (hFd 0 t ht)).add ((dg1 t ht).mul (hFd 1 t ht))).add
      ((dg2 t ht).mul (hFd 2 t ht))).congr_deriv ?_
    have h := iq t ht (F 0 t) (F 1 t) (F 2 t)
    have ho : F 3 t = _ := fcc_ode' (hgood t ht) (fccV_abs (hIcc t ht))
    simp only [hS, zero_add, Nat.reduceAdd]
    rw [← h, ho]
    simp only [hF]
    ring
  have hSc : ContinuousOn S (Set.Icc 0 (1 / 16)) := (cp0.mul (hFc 0)).add (cp1.mul (hFc 1))
  have hWc : ContinuousOn W (Set.Icc 0 (1 / 16)) := cb.mul (hFc 0)
  have hQc : ContinuousOn Q (Set.Icc 0 (1 / 16)) :=
    ((cg0.mul (hFc 0)).add (cg1.mul (hFc 1))).add (cg2.mul (hFc 2))
  have hV0 : fccV 0 = 0 := by rw [fccV_eq (by norm_num)]; norm_num
  have hF0 : F 0 0 = 1 := by simp only [hF, hV0, dser_zero, fccCoeff_zero]
  have hFj : ∀ j, F (j + 1) 0 = 0 := fun j => by simp only [hF, hV0, dser_succ_zero]
  have hcont : Continuous fun x : ℝ => (x : ℂ) := Complex.continuous_ofReal
  have eA' : ∀ t ∈ Set.Ioo (0 : ℝ) (1 / 16), (mu' t : ℂ) / ((mu t : ℂ) * (1 - mu t)) = ((A t : ℝ) : ℂ) := by
    intro t ht
    rw [← eA t ht]
    push_cast
    rfl
  obtain ⟨r, hr0, hrR, hr⟩ := eq_kW_of_system (w := fun t => (W t : ℂ)) (s := fun t => (S t : ℂ)) (q := fun t => (Q t : ℂ))
    (μ := fun t => (mu t : ℂ)) (μ' := fun t => (mu' t : ℂ)) (R := 1 / 16) (A := 6) (B := 100) (by norm_num) (by norm_num)
    (by norm_num)
    (hcont.comp_continuousOn hWc) (hcont.comp_continuousOn hSc) (hcont.comp_continuousOn hQc)
    (by simp only [hW, hF0, b0]; norm_num)
    (by simp only [hS, hF0, hFj 0, p00]; norm_num)
    (by simp only [hQ, hF0, hFj 0, hFj 1, g00]; norm_num)
    (hcont.comp_continuousOn cmu) (by simp [mu0])
    (fun t ht => by
      simp only [ellipDom, Set.mem_ofPred_eq]
      rw [← Complex.ofReal_one, ← Complex.ofReal_sub, Complex.ofReal_mem_slitPlane]
      linarith [mulo t ht])
    (fun t ht => by
      have h1 := (mupos t ht).ne'
      have h2 : 1 - mu t ≠ 0 := by linarith [mulo t (hIcc t ht)]
      exact_mod_cast mul_ne_zero h1 h2)
    (fun t ht => (dmu t ht).ofReal_comp)
    (fun t ht => by
      rw [eA' t ht, Complex.norm_real, Real.norm_eq_abs]
      exact bA t ht)
    (fun t ht => by
      rw [Complex.norm_real, Real.norm_eq_abs]
      exact bM t ht)
    (fun t ht => by
      rw [eA' t ht]
      refine (hWd t ht).ofReal_comp.congr_deriv ?_
      push_cast
      ring)
    (fun t ht => by
      rw [eA' t ht]
      refine (hSd t ht).ofReal_comp.congr_deriv ?_
      push_cast
      ring)
    (fun t ht => by
      refine (hQd t ht).ofReal_comp.congr_deriv ?_
      push_cast
      ring)
  exact ⟨r, hr0, hrR, hr⟩

/-- Parameter of the elliptic integral. -/
noncomputable def fccMB (t : ℝ) : ℝ := rat [-3/16, 1/2, -3/8, 0, 1/16] 1 t

/-- `μ'/(μ (1 - μ))`. -/
noncomputable def fccAB (t : ℝ) : ℝ := 48 / (((1 + t) ^ 2 - 1) * (9 - (1 + t) ^ 2))

lemma fccMB_eq {t : ℝ} (h : 1 + t ≠ 0) : fccMB t = t ^ 3 * (4 + t) / (16 * (1 + t)) := by
  unfold fccMB rat
  simp only [horner]
  obtain ⟨q, rfl⟩ : ∃ q, t = q - 1 := ⟨t + 1, by ring⟩
  rw [show 1 + (q - 1) = q by ring] at *
  field_simp
  ring

lemma one_sub_fccMB {t : ℝ} (h : 1 + t ≠ 0) : 1 - fccMB t = (2 + t) ^ 3 * (2 - t) / (16 * (1 + t)) := by
  rw [fccMB_eq h]
  field_simp
  ring

/-- The generating function of the moments as square of an elliptic integral. -/
lemma fcc_joyceB : ∃ r : ℝ, 0 < r ∧ r ≤ 1 / 16 ∧ ∀ t ∈ Set.Ioo 0 r,
    ((rat [1] 1 t * dser fccCoeff 0 (fccV t) : ℝ) : ℂ) = (2 / Real.pi * ellipK (fccMB t)) ^ 2 := by
  have hgood : ∀ t ∈ Set.Ioo (0 : ℝ) (1 / 16), FccGood (1 + t) := fun t ht => fccGood_of ht.1 ht.2.le
  refine fcc_clausen (b := (rat [1] 1)) (p0 := (rat [3/32, 0, -5/48, 0, 1/96] 2)) (p1 := (rat [3/16, 0, 0, 0, -1/48] 2))
    (g0 := (rat [45/1024, 0, -17/256, 0, 15/512, 0, -17/2304, 0, 5/9216] 3))
    (g1 := (rat [27/256, 0, -15/128, 0, 1/64, 0, -5/1152, 0, 1/2304] 3))
    (g2 := (rat [9/128, 0, 0, 0, -1/64, 0, 0, 0, 1/1152] 3))
    (b' := (ratD [1] 1)) (p0' := (ratD [3/32, 0, -5/48, 0, 1/96] 2)) (p1' := (ratD [3/16, 0, 0, 0, -1/48] 2))
    (g0' := (ratD [45/1024, 0, -17/256, 0, 15/512, 0, -17/2304, 0, 5/9216] 3))
    (g1' := (ratD [27/256, 0, -15/128, 0, 1/64, 0, -5/1152, 0, 1/2304] 3))
    (g2' := (ratD [9/128, 0, 0, 0, -1/64, 0, 0, 0, 1/1152] 3))
    (mu := fccMB) (mu' := (ratD [-3/16, 1/2, -3/8, 0, 1/16] 1)) (A := fccAB)
    (continuousOn_rat _ _) (continuousOn_rat _ _) (continuousOn_rat _ _) (continuousOn_rat _ _) (continuousOn_rat _ _)
    (continuousOn_rat _ _) (continuousOn_rat _ _) (fun t ht => hasDerivAt_rat _ _ (hgood t ht).h0)
    (fun t ht => hasDerivAt_rat _ _ (hgood t ht).h0) (fun t ht => hasDerivAt_rat _ _ (hgood t ht).h0)
    (fun t ht => hasDerivAt_rat _ _ (hgood t ht).h0) (fun t ht => hasDerivAt_rat _ _ (hgood t ht).h0)
    (fun t ht => hasDerivAt_rat _ _ (hgood t ht).h0) (fun t ht => hasDerivAt_rat _ _ (hgood t ht).h0)
    (by norm_num [rat, horner]) (by norm_num [rat, horner]) (by norm_num [rat, horner]) (by norm_num [fccMB, rat, horner])
    ?_ ?_ ?_ ?_ ?_ ?_ ?_ ?_ ?_ ?_ ?_
  · intro t ht
    have h0 := ht.1
    rw [fccMB_eq (by linarith)]
    positivity
  · intro t ht
    have h0 := ht.1
    have h1 := ht.2
    have := one_sub_fccMB (t := t) (by linarith)
    have h2 : 0 < 2 - t := by linarith
    have : 0 < 1 - fccMB t := by
      rw [this]
      positivity
    linarith
  · intro t ht
    have hg := hgood t ht
    have h0 := ht.1
    have h1 := ht.2
    rw [one_sub_fccMB hg.h0, fccMB_eq hg.h0]
    unfold ratD fccAB
    simp only [horner, hornerD]
    have e1 : (1 + t) ^ 2 - 1 = t * (2 + t) := by ring
    have e9 : 9 - (1 + t) ^ 2 = (4 + t) * (2 - t) := by ring
    rw [e1, e9]
    have a0 : t ≠ 0 := h0.ne'
    have a1 : 2 + t ≠ 0 := by linarith
    have a2 : 4 + t ≠ 0 := by linarith
    have a3 : 2 - t ≠ 0 := by linarith
    have a4 : 1 + t ≠ 0 := by linarith
    generalize hb1 : 2 + t = b1 at *
    generalize hb2 : 4 + t = b2 at *
    generalize hb3 : 2 - t = b3 at *
    generalize hb4 : 1 + t = b4 at *
    field_simp
    subst hb1 hb2 hb3 hb4
    norm_num
    ring
  · intro t ht
    have h0 := ht.1
    have h1 := ht.2
    unfold fccAB
    have e1 : (1 + t) ^ 2 - 1 = t * (2 + t) := by ring
    have e9 : 9 - (1 + t) ^ 2 = (4 + t) * (2 - t) := by ring
    have h2 : 0 < 2 - t := by linarith
    rw [e1, e9, abs_of_nonneg (by positivity), div_le_div_iff₀ (by positivity) h0]
    have : 7 ≤ (4 + t) * (2 - t) := by nlinarith
    have : 14 ≤ (2 + t) * ((4 + t) * (2 - t)) := by nlinarith
    nlinarith
  · intro t ht
    have h0 := ht.1
    have h1 := ht.2
    unfold ratD
    have e : (hornerD [-3/16, 1/2, -3/8, 0, 1/16] (1 + t) * (1 + t) - (1 : ℕ) * horner [-3/16, 1/2, -3/8, 0, 1/16] (1 + t)) = 3 / 16 * ((1 + t) ^ 2 - 1) ^ 2 := by
      simp only [horner, hornerD]
      norm_num
      ring
    rw [e, abs_of_nonneg (by positivity), div_le_iff₀ (by positivity)]
    have a1 : 1 ≤ (1 + t) ^ 2 := one_le_pow₀ (by linarith)
    have a2 : 0 ≤ (1 + t) ^ 2 := by positivity
    have a3 : (1 + t) ^ 2 ≤ 2 := by nlinarith
    nlinarith
  · intro t ht
    have hg := hgood t ht
    simp only [rat, ratD, fccAB, fccL, horner, hornerD]
    generalize 1 + t = q at *
    obtain ⟨h0, h1, h9, hm, hp⟩ := hg
    have h9' : 9 - q ^ 2 ≠ 0 := fun h => h9 (by linarith)
    have e9 : 9 - q ^ 2 = -(q ^ 2 - 9) := by ring
    rw [e9]
    generalize ha1 : q ^ 2 - 1 = a1 at *
    generalize ha9 : q ^ 2 - 9 = a9 at *
    field_simp
    subst ha1 ha9
    norm_num
    ring
  · intro t ht
    have hg := hgood t ht
    simp only [rat, ratD, fccAB, fccL, horner, hornerD]
    generalize 1 + t = q at *
    obtain ⟨h0, h1, h9, hm, hp⟩ := hg
    have h9' : 9 - q ^ 2 ≠ 0 := fun h => h9 (by linarith)
    have e9 : 9 - q ^ 2 = -(q ^ 2 - 9) := by ring
    rw [e9]
    generalize ha1 : q ^ 2 - 1 = a1 at *
    generalize ha9 : q ^ 2 - 9 = a9 at *
    field_simp
    subst ha1 ha9
    norm_num
    ring
  · intro t ht
    have hg := hgood t ht
    simp only [rat, ratD, fccAB, fccL, horner, hornerD]
    generalize 1 + t = q at *
    obtain ⟨h0, h1, h9, hm, hp⟩ := hg
    have h9' : 9 - q ^ 2 ≠ 0 := fun h => h9 (by linarith)
    have e9 : 9 - q ^ 2 = -(q ^ 2 - 9) := by ring
    rw [e9]
    generalize ha1 : q ^ 2 - 1 = a1 at *
    generalize ha9 : q ^ 2 - 9 = a9 at *
    field_simp
    subst ha1 ha9
    norm_num
    ring
  · intro t ht
    have hg := hgood t ht
    simp only [rat, ratD, fccAB, fccL, horner, hornerD]
    generalize 1 + t = q at *
    obtain ⟨h0, h1, h9, hm, hp⟩ := hg
    have h9' : 9 - q ^ 2 ≠ 0 := fun h => h9 (by linarith)
    have e9 : 9 - q ^ 2 = -(q ^ 2 - 9) := by ring
    rw [e9]
    generalize ha1 : q ^ 2 - 1 = a1 at *
    generalize ha9 : q ^ 2 - 9 = a9 at *
    field_simp
    subst ha1 ha9
    norm_num
    ring
  · intro t ht
    have hg := hgood t ht
    simp only [rat, ratD, fccAB, fccL, horner, hornerD]
    generalize 1 + t = q at *
    obtain ⟨h0, h1, h9, hm, hp⟩ := hg
    have h9' : 9 - q ^ 2 ≠ 0 := fun h => h9 (by linarith)
    have e9 : 9 - q ^ 2 = -(q ^ 2 - 9) := by ring
    rw [e9]
    generalize ha1 : q ^ 2 - 1 = a1 at *
    generalize ha9 : q ^ 2 - 9 = a9 at *
    field_simp
    subst ha1 ha9
    norm_num
    ring
  · intro t ht x0 x1 x2
    have hg := hgood t ht
    have e2 : rat [9/128, 0, 0, 0, -1/64, 0, 0, 0, 1/1152] 3 t * fccL t
        * ((((1 + t) ^ 2 - 1) * (9 - (1 + t) ^ 2)) / ((((1 + t) ^ 2 - 3) * ((1 + t) ^ 2 + 3)) ^ 2)
          * (2 * (1 + t) ^ 2 * (15 * x2 + 9 * x1 + 2 * x0) - ((1 + t) ^ 2 - 1) * (9 - (1 + t) ^ 2) * (3 * x2 + 3 * x1 + x0)))
        = -(2 * 1 / 1152) * (((1 + t) ^ 2 - 3) * ((1 + t) ^ 2 + 3)) / (1 + t) ^ 4
          * (2 * (1 + t) ^ 2 * (15 * x2 + 9 * x1 + 2 * x0) - ((1 + t) ^ 2 - 1) * (9 - (1 + t) ^ 2) * (3 * x2 + 3 * x1 + x0)) := by
      have eN : horner [9/128, 0, 0, 0, -1/64, 0, 0, 0, 1/1152] (1 + t) = 1 / 1152 * (((1 + t) ^ 2 - 3) * ((1 + t) ^ 2 + 3)) ^ 2 := by
        simp only [horner]
        ring
      unfold rat fccL
      rw [eN]
      generalize 2 * (1 + t) ^ 2 * (15 * x2 + 9 * x1 + 2 * x0) - ((1 + t) ^ 2 - 1) * (9 - (1 + t) ^ 2) * (3 * x2 + 3 * x1 + x0) = X
      generalize 1 + t = q at *
      obtain ⟨h0, h1, h9, hm, hp⟩ := hg
      have e9 : 9 - q ^ 2 = -(q ^ 2 - 9) := by ring
      rw [e9]
      generalize ha1 : q ^ 2 - 1 = a1 at *
      generalize ha9 : q ^ 2 - 9 = a9 at *
      generalize ham : q ^ 2 - 3 = am at *
      generalize hap : q ^ 2 + 3 = ap at *
      field_simp
      try ring
    rw [e2]
    simp only [rat, ratD, fccL, horner, hornerD]
    generalize 1 + t = q at *
    obtain ⟨h0, h1, h9, hm, hp⟩ := hg
    generalize ha1 : q ^ 2 - 1 = a1 at *
    generalize ha9 : q ^ 2 - 9 = a9 at *
    field_simp
    subst ha1 ha9
    norm_num
    ring

/-- Parameter of the elliptic integral. -/
noncomputable def fccMA (t : ℝ) : ℝ := rat [-27/16, 0, 9/8, 1/2, 1/16] 3 t

/-- `μ'/(μ (1 - μ))`. -/
noncomputable def fccAA (t : ℝ) : ℝ := 16 * (1 + t) ^ 2 / (((1 + t) ^ 2 - 1) * (9 - (1 + t) ^ 2))

lemma fccMA_eq {t : ℝ} (h : 1 + t ≠ 0) : fccMA t = t * (4 + t) ^ 3 / (16 * (1 + t) ^ 3) := by
  unfold fccMA rat
  simp only [horner]
  obtain ⟨q, rfl⟩ : ∃ q, t = q - 1 := ⟨t + 1, by ring⟩
  rw [show 1 + (q - 1) = q by ring] at *
  field_simp
  ring

lemma one_sub_fccMA {t : ℝ} (h : 1 + t ≠ 0) : 1 - fccMA t = (2 + t) * (2 - t) ^ 3 / (16 * (1 + t) ^ 3) := by
  rw [fccMA_eq h]
  field_simp
  ring

/-- The generating function of the moments as square of an elliptic integral. -/
lemma fcc_joyceA : ∃ r : ℝ, 0 < r ∧ r ≤ 1 / 16 ∧ ∀ t ∈ Set.Ioo 0 r,
    ((rat [0, 1] 0 t * dser fccCoeff 0 (fccV t) : ℝ) : ℂ) = (2 / Real.pi * ellipK (fccMA t)) ^ 2 := by
  have hgood : ∀ t ∈ Set.Ioo (0 : ℝ) (1 / 16), FccGood (1 + t) := fun t ht => fccGood_of ht.1 ht.2.le
  refine fcc_clausen (b := (rat [0, 1] 0)) (p0 := (rat [-9/32, 0, 5/16, 0, -1/32] 2)) (p1 := (rat [9/16, 0, 0, 0, -1/16] 2))
    (g0 := (rat [405/1024, 0, -153/256, 0, 135/512, 0, -17/256, 0, 5/1024] 5))
    (g1 := (rat [81/256, 0, -45/128, 0, 9/64, 0, -15/128, 0, 3/256] 5))
    (g2 := (rat [81/128, 0, 0, 0, -9/64, 0, 0, 0, 1/128] 5))
    (b' := (ratD [0, 1] 0)) (p0' := (ratD [-9/32, 0, 5/16, 0, -1/32] 2)) (p1' := (ratD [9/16, 0, 0, 0, -1/16] 2))
    (g0' := (ratD [405/1024, 0, -153/256, 0, 135/512, 0, -17/256, 0, 5/1024] 5))
    (g1' := (ratD [81/256, 0, -45/128, 0, 9/64, 0, -15/128, 0, 3/256] 5))
    (g2' := (ratD [81/128, 0, 0, 0, -9/64, 0, 0, 0, 1/128] 5))
    (mu := fccMA) (mu' := (ratD [-27/16, 0, 9/8, 1/2, 1/16] 3)) (A := fccAA)
    (continuousOn_rat _ _) (continuousOn_rat _ _) (continuousOn_rat _ _) (continuousOn_rat _ _) (continuousOn_rat _ _)
    (continuousOn_rat _ _) (continuousOn_rat _ _) (fun t ht => hasDerivAt_rat _ _ (hgood t ht).h0)
    (fun t ht => hasDerivAt_rat _ _ (hgood t ht).h0) (fun t ht => hasDerivAt_rat _ _ (hgood t ht).h0)
    (fun t ht => hasDerivAt_rat _ _ (hgood t ht).h0) (fun t ht => hasDerivAt_rat _ _ (hgood t ht).h0)
    (fun t ht => hasDerivAt_rat _ _ (hgood t ht).h0) (fun t ht => hasDerivAt_rat _ _ (hgood t ht).h0)
    (by norm_num [rat, horner]) (by norm_num [rat, horner]) (by norm_num [rat, horner]) (by norm_num [fccMA, rat, horner])
    ?_ ?_ ?_ ?_ ?_ ?_ ?_ ?_ ?_ ?_ ?_
  · intro t ht
    have h0 := ht.1
    rw [fccMA_eq (by linarith)]
    positivity
  · intro t ht
    have h0 := ht.1
    have h1 := ht.2
    have := one_sub_fccMA (t := t) (by linarith)
    have h2 : 0 < 2 - t := by linarith
    have : 0 < 1 - fccMA t := by
      rw [this]
      positivity
    linarith
  · intro t ht
    have hg := hgood t ht
    have h0 := ht.1
    have h1 := ht.2
    rw [one_sub_fccMA hg.h0, fccMA_eq hg.h0]
    unfold ratD fccAA
    simp only [horner, hornerD]
    have e1 : (1 + t) ^ 2 - 1 = t * (2 + t) := by ring
    have e9 : 9 - (1 + t) ^ 2 = (4 + t) * (2 - t) := by ring
    rw [e1, e9]
    have a0 : t ≠ 0 := h0.ne'
    have a1 : 2 + t ≠ 0 := by linarith
    have a2 : 4 + t ≠ 0 := by linarith
    have a3 : 2 - t ≠ 0 := by linarith
    have a4 : 1 + t ≠ 0 := by linarith
    generalize hb1 : 2 + t = b1 at *
    generalize hb2 : 4 + t = b2 at *
    generalize hb3 : 2 - t = b3 at *
    generalize hb4 : 1 + t = b4 at *
    field_simp
    subst hb1 hb2 hb3 hb4
    norm_num
    ring
  · intro t ht
    have h0 := ht.1
    have h1 := ht.2
    unfold fccAA
    have e1 : (1 + t) ^ 2 - 1 = t * (2 + t) := by ring
    have e9 : 9 - (1 + t) ^ 2 = (4 + t) * (2 - t) := by ring
    have h2 : 0 < 2 - t := by linarith
    rw [e1, e9, abs_of_nonneg (by positivity), div_le_div_iff₀ (by positivity) h0]
    have : 7 ≤ (4 + t) * (2 - t) := by nlinarith
    have : 14 ≤ (2 + t) * ((4 + t) * (2 - t)) := by nlinarith
    nlinarith
  · intro t ht
    have h0 := ht.1
    have h1 := ht.2
    unfold ratD
    have e : (hornerD [-27/16, 0, 9/8, 1/2, 1/16] (1 + t) * (1 + t) - (3 : ℕ) * horner [-27/16, 0, 9/8, 1/2, 1/16] (1 + t)) = ((1 + t) ^ 2 - 9) ^ 2 / 16 := by
      simp only [horner, hornerD]
      norm_num
      ring
    rw [e, abs_of_nonneg (by positivity), div_le_iff₀ (by positivity)]
    have a1 : 1 ≤ (1 + t) ^ 4 := one_le_pow₀ (by linarith)
    have a2 : 0 ≤ (1 + t) ^ 2 := by positivity
    have a3 : (1 + t) ^ 2 ≤ 2 := by nlinarith
    nlinarith
  · intro t ht
    have hg := hgood t ht
    simp only [rat, ratD, fccAA, fccL, horner, hornerD]
    generalize 1 + t = q at *
    obtain ⟨h0, h1, h9, hm, hp⟩ := hg
    have h9' : 9 - q ^ 2 ≠ 0 := fun h => h9 (by linarith)
    have e9 : 9 - q ^ 2 = -(q ^ 2 - 9) := by ring
    rw [e9]
    generalize ha1 : q ^ 2 - 1 = a1 at *
    generalize ha9 : q ^ 2 - 9 = a9 at *
    field_simp
    subst ha1 ha9
    norm_num
    ring
  · intro t ht
    have hg := hgood t ht
    simp only [rat, ratD, fccAA, fccL, horner, hornerD]
    generalize 1 + t = q at *
    obtain ⟨h0, h1, h9, hm, hp⟩ := hg
    have h9' : 9 - q ^ 2 ≠ 0 := fun h => h9 (by linarith)
    have e9 : 9 - q ^ 2 = -(q ^ 2 - 9) := by ring
    rw [e9]
    generalize ha1 : q ^ 2 - 1 = a1 at *
    generalize ha9 : q ^ 2 - 9 = a9 at *
    field_simp
    subst ha1 ha9
    norm_num
    ring
  · intro t ht
    have hg := hgood t ht
    simp only [rat, ratD, fccAA, fccL, horner, hornerD]
    generalize 1 + t = q at *
    obtain ⟨h0, h1, h9, hm, hp⟩ := hg
    have h9' : 9 - q ^ 2 ≠ 0 := fun h => h9 (by linarith)
    have e9 : 9 - q ^ 2 = -(q ^ 2 - 9) := by ring
    rw [e9]
    generalize ha1 : q ^ 2 - 1 = a1 at *
    generalize ha9 : q ^ 2 - 9 = a9 at *
    field_simp
    subst ha1 ha9
    norm_num
    ring
  · intro t ht
    have hg := hgood t ht
    simp only [rat, ratD, fccAA, fccL, horner, hornerD]
    generalize 1 + t = q at *
    obtain ⟨h0, h1, h9, hm, hp⟩ := hg
    have h9' : 9 - q ^ 2 ≠ 0 := fun h => h9 (by linarith)
    have e9 : 9 - q ^ 2 = -(q ^ 2 - 9) := by ring
    rw [e9]
    generalize ha1 : q ^ 2 - 1 = a1 at *
    generalize ha9 : q ^ 2 - 9 = a9 at *
    field_simp
    subst ha1 ha9
    norm_num
    ring
  · intro t ht
    have hg := hgood t ht
    simp only [rat, ratD, fccAA, fccL, horner, hornerD]
    generalize 1 + t = q at *
    obtain ⟨h0, h1, h9, hm, hp⟩ := hg
    have h9' : 9 - q ^ 2 ≠ 0 := fun h => h9 (by linarith)
    have e9 : 9 - q ^ 2 = -(q ^ 2 - 9) := by ring
    rw [e9]
    generalize ha1 : q ^ 2 - 1 = a1 at *
    generalize ha9 : q ^ 2 - 9 = a9 at *
    field_simp
    subst ha1 ha9
    norm_num
    ring
  · intro t ht x0 x1 x2
    have hg := hgood t ht
    have e2 : rat [81/128, 0, 0, 0, -9/64, 0, 0, 0, 1/128] 5 t * fccL t
        * ((((1 + t) ^ 2 - 1) * (9 - (1 + t) ^ 2)) / ((((1 + t) ^ 2 - 3) * ((1 + t) ^ 2 + 3)) ^ 2)
          * (2 * (1 + t) ^ 2 * (15 * x2 + 9 * x1 + 2 * x0) - ((1 + t) ^ 2 - 1) * (9 - (1 + t) ^ 2) * (3 * x2 + 3 * x1 + x0)))
        = -(2 * 1 / 128) * (((1 + t) ^ 2 - 3) * ((1 + t) ^ 2 + 3)) / (1 + t) ^ 6
          * (2 * (1 + t) ^ 2 * (15 * x2 + 9 * x1 + 2 * x0) - ((1 + t) ^ 2 - 1) * (9 - (1 + t) ^ 2) * (3 * x2 + 3 * x1 + x0)) := by
      have eN : horner [81/128, 0, 0, 0, -9/64, 0, 0, 0, 1/128] (1 + t) = 1 / 128 * (((1 + t) ^ 2 - 3) * ((1 + t) ^ 2 + 3)) ^ 2 := by
        simp only [horner]
        ring
      unfold rat fccL
      rw [eN]
      generalize 2 * (1 + t) ^ 2 * (15 * x2 + 9 * x1 + 2 * x0) - ((1 + t) ^ 2 - 1) * (9 - (1 + t) ^ 2) * (3 * x2 + 3 * x1 + x0) = X
      generalize 1 + t = q at *
      obtain ⟨h0, h1, h9, hm, hp⟩ := hg
      have e9 : 9 - q ^ 2 = -(q ^ 2 - 9) := by ring
      rw [e9]
      generalize ha1 : q ^ 2 - 1 = a1 at *
      generalize ha9 : q ^ 2 - 9 = a9 at *
      generalize ham : q ^ 2 - 3 = am at *
      generalize hap : q ^ 2 + 3 = ap at *
      field_simp
      try ring
    rw [e2]
    simp only [rat, ratD, fccL, horner, hornerD]
    generalize 1 + t = q at *
    obtain ⟨h0, h1, h9, hm, hp⟩ := hg
    generalize ha1 : q ^ 2 - 1 = a1 at *
    generalize ha9 : q ^ 2 - 9 = a9 at *
    field_simp
    subst ha1 ha9
    norm_num
    ring

end Gftool.Lemmas
