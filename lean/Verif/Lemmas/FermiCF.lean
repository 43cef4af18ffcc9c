import Verif.Lemmas.PadeFreq
import Verif.Spec.Statistics
import Mathlib.Analysis.SpecialFunctions.Trigonometric.Series
import Mathlib.Analysis.SpecificLimits.Basic
import Mathlib.Tactic

/-!
# Lambert's continued fraction of the hyperbolic tangent

`besselC m y = ∑ₖ y^(2k) / (2^k k! (2(m+k)-1)!!)`, so that `besselC 0 y = cosh y` and `y * besselC 1 y = sinh y`.
-/

namespace Gftool.Lemmas

open Gftool

/-- `(2m-1)!! = 1·3·5⋯(2m-1)`. -/
noncomputable def oddFac (m : ℕ) : ℝ := ∏ i ∈ Finset.range m, (2 * (i : ℝ) + 1)

lemma oddFac_succ (m : ℕ) : oddFac (m + 1) = oddFac m * (2 * m + 1) := Finset.prod_range_succ _ _

lemma oddFac_pos (m : ℕ) : 0 < oddFac m := Finset.prod_pos fun i _ => by positivity

lemma oddFac_ge (m : ℕ) : 1 ≤ oddFac m := by
  induction m with
  | zero => simp [oddFac]
  | succ m ih =>
    rw [oddFac_succ]
    have : (0 : ℝ) ≤ m := Nat.cast_nonneg m
    nlinarith

lemma two_pow_factorial_oddFac (k : ℕ) : 2 ^ k * (k.factorial : ℝ) * oddFac k = ((2 * k).factorial : ℝ) := by
  induction k with
  | zero => simp [oddFac]
  | succ k ih =>
    rw [show 2 * (k + 1) = 2 * k + 1 + 1 by ring, Nat.factorial_succ, Nat.factorial_succ, Nat.factorial_succ, oddFac_succ]
    push_cast
    rw [← ih]
    ring

/-- Terms of the series. -/
noncomputable def besselTerm (m : ℕ) (y : ℝ) (k : ℕ) : ℝ := y ^ (2 * k) / (2 ^ k * k.factorial * oddFac (m + k))

lemma besselTerm_nonneg (m : ℕ) (y : ℝ) (k : ℕ) : 0 ≤ besselTerm m y k := by
  unfold besselTerm
  have := oddFac_pos (m + k)
  have : 0 ≤ y ^ (2 * k) := by rw [pow_mul]; positivity
  positivity

lemma besselTerm_summable (m : ℕ) (y : ℝ) : Summable (besselTerm m y) := by
  refine Summable.of_nonneg_of_le (besselTerm_nonneg m y) (fun k => ?_) (Real.summable_pow_div_factorial (y ^ 2))
  unfold besselTerm
  rw [pow_mul]
  refine div_le_div_of_nonneg_left (by positivity) (by positivity) ?_
  have h1 := oddFac_ge (m + k)
  have h2 : (1 : ℝ) ≤ 2 ^ k := one_le_pow₀ (by norm_num)
  have h3 : (0 : ℝ) < k.factorial := by positivity
  calc (k.factorial : ℝ) = 1 * k.factorial * 1 := by ring
    _ ≤ 2 ^ k * k.factorial * oddFac (m + k) := by gcongr

/-- The modified spherical Bessel functions, up to a power. -/
noncomputable def besselC (m : ℕ) (y : ℝ) : ℝ := ∑' k, besselTerm m y k

lemma besselC_pos (m : ℕ) (y : ℝ) : 0 < besselC m y := by
  refine (besselTerm_summable m y).tsum_pos (besselTerm_nonneg m y) 0 ?_
  unfold besselTerm
  have := oddFac_pos (m + 0)
  simp only [mul_zero, pow_zero, Nat.factorial_zero, Nat.cast_one, one_mul]
  positivity

lemma besselC_zero (y : ℝ) : besselC 0 y = Real.cosh y := by
  rw [← (Real.hasSum_cosh y).tsum_eq]
  refine tsum_congr fun k => ?_
  rw [besselTerm, zero_add, two_pow_factorial_oddFac]

lemma besselC_one (y : ℝ) : y * besselC 1 y = Real.sinh y := by
  rw [← (Real.hasSum_sinh y).tsum_eq, besselC, ← tsum_mul_left]
  refine tsum_congr fun k => ?_
  rw [besselTerm, add_comm 1 k, oddFac_succ, Nat.factorial_succ, Nat.cast_mul, ← two_pow_factorial_oddFac]
  push_cast
  rw [pow_succ]
  have := (oddFac_pos k).ne'
  have : (2 * (k : ℝ) + 1) ≠ 0 := by positivity
  field_simp

/-- The three-term recursion. -/
lemma besselC_rec (m : ℕ) (y : ℝ) : besselC m y = (2 * m + 1) * besselC (m + 1) y + y ^ 2 * besselC (m + 2) y := by
  have hs0 := (besselTerm_summable m y)
  have hs1 := (besselTerm_summable (m + 1) y)
  have hs2 := (besselTerm_summable (m + 2) y)
  have e : ∀ k, besselTerm m y (k + 1) - (2 * m + 1) * besselTerm (m + 1) y (k + 1) = y ^ 2 * besselTerm (m + 2) y k := by
    intro k
    unfold besselTerm
    rw [show m + 1 + (k + 1) = m + (k + 1) + 1 by ring, show m + 2 + k = m + (k + 1) + 1 by ring, oddFac_succ,
      Nat.factorial_succ]
    have h1 := (oddFac_pos (m + (k + 1))).ne'
    have h2 : 2 * ((m + (k + 1) : ℕ) : ℝ) + 1 ≠ 0 := by positivity
    push_cast at h2 ⊢
    have h3 : (k : ℝ) + 1 ≠ 0 := by positivity
    have h4 : (k.factorial : ℝ) ≠ 0 := by positivity
    field_simp
    ring
  have e0 : besselTerm m y 0 = (2 * m + 1) * besselTerm (m + 1) y 0 := by
    unfold besselTerm
    simp only [add_zero, mul_zero, pow_zero]
    rw [oddFac_succ]
    have h1 := (oddFac_pos m).ne'
    have h2 : 2 * (m : ℝ) + 1 ≠ 0 := by positivity
    field_simp
  have h : besselC m y - (2 * m + 1) * besselC (m + 1) y = y ^ 2 * besselC (m + 2) y := by
    unfold besselC
    rw [← tsum_mul_left, ← tsum_mul_left, ← hs0.tsum_sub (hs1.mul_left _)]
    rw [(hs0.sub (hs1.mul_left _)).tsum_eq_zero_add, e0, sub_self, zero_add]
    exact tsum_congr e
  linarith

/-- Tails of the infinite continued fraction. -/
noncomputable def cfTail (x : ℝ) (j : ℕ) : ℝ := besselC j (x / 2) / besselC (j + 1) (x / 2)

lemma cfTail_pos (x : ℝ) (j : ℕ) : 0 < cfTail x j := div_pos (besselC_pos _ _) (besselC_pos _ _)

lemma cfTail_rec (x : ℝ) (j : ℕ) : cfTail x j = 2 * j + 1 + (x / 2) ^ 2 / cfTail x (j + 1) := by
  unfold cfTail
  rw [besselC_rec j (x / 2)]
  have h1 := (besselC_pos (j + 1) (x / 2)).ne'
  have h2 := (besselC_pos (j + 2) (x / 2)).ne'
  rw [show j + 1 + 1 = j + 2 by ring]
  field_simp

lemma cfTail_ge (x : ℝ) (j : ℕ) : 2 * (j : ℝ) + 1 ≤ cfTail x j := by
  rw [cfTail_rec]
  have := cfTail_pos x (j + 1)
  have : 0 ≤ (x / 2) ^ 2 / cfTail x (j + 1) := by positivity
  linarith

lemma fermiCF_ge (x : ℝ) (j k : ℕ) : 2 * (j : ℝ) + 1 ≤ Spec.fermiCF x j k := by
  cases k with
  | zero => exact le_rfl
  | succ k =>
    simp only [Spec.fermiCF]
    have := fermiCF_pos x (j + 1) k
    have : 0 ≤ (x / 2) ^ 2 / Spec.fermiCF x (j + 1) k := by positivity
    linarith

/-- Truncation error of the continued fraction. -/
lemma fermiCF_error (x : ℝ) (j k : ℕ) :
    |cfTail x j - Spec.fermiCF x j k| ≤ (x / 2) ^ (2 * (k + 1)) * (2 * (j : ℝ) + 2 * k + 3) * (oddFac (j + 1) / oddFac (j + k + 2)) ^ 2 := by
  induction k generalizing j with
  | zero =>
    rw [cfTail_rec, Spec.fermiCF, add_sub_cancel_left, abs_of_nonneg (by have := cfTail_pos x (j + 1); positivity)]
    have h1 := cfTail_ge x (j + 1)
    have h2 := (oddFac_pos (j + 1)).ne'
    rw [show j + 0 + 2 = j + 1 + 1 by ring, oddFac_succ (j + 1)]
    push_cast at h1 ⊢
    have h3 : (0 : ℝ) < 2 * ((j : ℝ) + 1) + 1 := by positivity
    rw [show (2 * (j : ℝ) + 2 * 0 + 3) = 2 * ((j : ℝ) + 1) + 1 by ring]
    have h4 : (x / 2) ^ 2 * (2 * ((j : ℝ) + 1) + 1) * (oddFac (j + 1) / (oddFac (j + 1) * (2 * ((j : ℝ) + 1) + 1))) ^ 2
        = (x / 2) ^ 2 / (2 * ((j : ℝ) + 1) + 1) := by
      field_simp
    rw [h4]
    exact div_le_div_of_nonneg_left (sq_nonneg _) h3 h1
  | succ k ih =>
    have ha := cfTail_pos x (j + 1)
    have hb := fermiCF_pos x (j + 1) k
    have h1 := cfTail_ge x (j + 1)
    have h2 := fermiCF_ge x (j + 1) k
    have h3 := ih (j + 1)
    rw [cfTail_rec, Spec.fermiCF, add_sub_add_left_eq_sub]
    have e1 : (x / 2) ^ 2 / cfTail x (j + 1) - (x / 2) ^ 2 / Spec.fermiCF x (j + 1) k
        = -((x / 2) ^ 2 / (cfTail x (j + 1) * Spec.fermiCF x (j + 1) k)) * (cfTail x (j + 1) - Spec.fermiCF x (j + 1) k) := by
      field_simp
      ring
    rw [e1, abs_mul, abs_neg, abs_of_nonneg (by positivity)]
    push_cast at h1 h2 h3 ⊢
    have h4 : (0 : ℝ) < 2 * ((j : ℝ) + 1) + 1 := by positivity
    have h5 : (x / 2) ^ 2 / (cfTail x (j + 1) * Spec.fermiCF x (j + 1) k)
        ≤ (x / 2) ^ 2 / ((2 * ((j : ℝ) + 1) + 1) * (2 * ((j : ℝ) + 1) + 1)) :=
      div_le_div_of_nonneg_left (sq_nonneg _) (by positivity) (mul_le_mul h1 h2 h4.le ha.le)
    refine (mul_le_mul h5 h3 (abs_nonneg _) (by positivity)).trans_eq ?_
    rw [oddFac_succ (j + 1), show j + 1 + k + 2 = j + (k + 1) + 2 by ring]
    push_cast
    rw [show 2 * (k + 1 + 1) = 2 * (k + 1) + 2 by ring, pow_add]
    field_simp
    ring

/-- The Fermi function by the infinite continued fraction. -/
lemma fermi_eq_cfTail (x : ℝ) : Spec.fermi 1 x = 1 / 2 - x / 4 / cfTail x 0 := by
  have h1 : x / 4 / cfTail x 0 = 1 / 2 * (Real.sinh (x / 2) / Real.cosh (x / 2)) := by
    rw [← besselC_zero, ← besselC_one, cfTail]
    have h1 := (besselC_pos 0 (x / 2)).ne'
    have h2 := (besselC_pos 1 (x / 2)).ne'
    rw [show 0 + 1 = 1 by norm_num]
    field_simp
    ring
  rw [h1, Spec.fermi, one_mul, Real.sinh_eq, Real.cosh_eq]
  have h2 : Real.exp x = Real.exp (x / 2) * Real.exp (x / 2) := by rw [← Real.exp_add]; ring_nf
  rw [h2, Real.exp_neg]
  have h3 := Real.exp_pos (x / 2)
  field_simp
  ring

/-- Error bound of the approximation of the Fermi function. -/
lemma fermiApprox_error (x : ℝ) (n : ℕ) :
    |Spec.fermiApprox (n + 1) x - Spec.fermi 1 x|
      ≤ (2 * n + 3) / 2 * |x / 2| ^ (2 * n + 3) / oddFac (n + 2) ^ 2 := by
  rw [fermi_eq_cfTail, Spec.fermiApprox, Nat.add_sub_cancel]
  have ha := cfTail_pos x 0
  have hb := fermiCF_pos x 0 n
  have h1 := cfTail_ge x 0
  have h2 := fermiCF_ge x 0 n
  have h3 := fermiCF_error x 0 n
  norm_num at h1 h2
  have e1 : 1 / 2 - x / 4 / Spec.fermiCF x 0 n - (1 / 2 - x / 4 / cfTail x 0)
      = -(x / 4 / (cfTail x 0 * Spec.fermiCF x 0 n)) * (cfTail x 0 - Spec.fermiCF x 0 n) := by
    field_simp
    ring
  rw [e1, abs_mul, abs_neg, abs_div, abs_of_pos (mul_pos ha hb)]
  have h4 : |x / 4| / (cfTail x 0 * Spec.fermiCF x 0 n) ≤ |x / 2| / 2 := by
    rw [show |x / 4| = |x / 2| / 2 by rw [show x / 4 = x / 2 / 2 by ring, abs_div (x / 2)]; norm_num]
    refine div_le_self (by positivity) ?_
    nlinarith
  refine (mul_le_mul h4 h3 (abs_nonneg _) (by positivity)).trans_eq ?_
  have h5 : oddFac (0 + 1) = 1 := by simp [oddFac]
  rw [h5, show 0 + n + 2 = n + 2 by ring, pow_mul, ← sq_abs (x / 2), ← pow_mul, show 2 * n + 3 = 2 * (n + 1) + 1 by ring,
    pow_succ]
  push_cast
  ring

/-- The bound tends to zero. -/
lemma fermiApprox_bound_tendsto (y : ℝ) :
    Filter.Tendsto (fun n : ℕ => (2 * (n : ℝ) + 3) / 2 * |y| ^ (2 * n + 3) / oddFac (n + 2) ^ 2) Filter.atTop (nhds 0) := by
  have h0 : Filter.Tendsto (fun n : ℕ => |y| * ((y ^ 2) ^ (n + 1) / ((n + 1).factorial : ℝ))) Filter.atTop (nhds 0) := by
    have := ((Real.summable_pow_div_factorial (y ^ 2)).tendsto_atTop_zero.comp (Filter.tendsto_add_atTop_nat 1)).const_mul |y|
    rwa [mul_zero] at this
  refine squeeze_zero (fun n => ?_) (fun n => ?_) h0
  · have := oddFac_pos (n + 2)
    positivity
  · have hfac : ((n + 1).factorial : ℝ) ≤ oddFac (n + 2) := by
      induction n with
      | zero => simp [oddFac, Finset.prod_range_succ]
      | succ n ih =>
        rw [Nat.factorial_succ, oddFac_succ (n + 2)]
        push_cast
        have := oddFac_pos (n + 2)
        have h2 : (0 : ℝ) < (n + 1).factorial := by positivity
        have h3 : (0 : ℝ) ≤ n := Nat.cast_nonneg n
        nlinarith
    have h1 : oddFac (n + 2) = oddFac (n + 1) * (2 * (n : ℝ) + 3) := by
      rw [oddFac_succ (n + 1)]
      push_cast
      ring
    have h2 := oddFac_ge (n + 1)
    have h3 : (0 : ℝ) < (n + 1).factorial := by positivity
    have h4 := oddFac_pos (n + 2)
    have h5 : (2 * (n : ℝ) + 3) / oddFac (n + 2) ≤ 1 := by
      rw [h1, div_le_one (by positivity)]
      exact le_mul_of_one_le_left (by positivity) h2
    rw [show 2 * n + 3 = 2 * (n + 1) + 1 by ring, pow_succ, pow_mul, sq_abs]
    calc (2 * (n : ℝ) + 3) / 2 * ((y ^ 2) ^ (n + 1) * |y|) / oddFac (n + 2) ^ 2
        = (|y| * ((y ^ 2) ^ (n + 1) / oddFac (n + 2))) * (((2 * (n : ℝ) + 3) / oddFac (n + 2)) / 2) := by
          field_simp
      _ ≤ (|y| * ((y ^ 2) ^ (n + 1) / (n + 1).factorial)) * 1 := by
          have : ((2 * (n : ℝ) + 3) / oddFac (n + 2)) / 2 ≤ 1 := by linarith
          gcongr
      _ = _ := mul_one _

end Gftool.Lemmas
