import Verif.Lemmas.FermiCF
import Verif.Lemmas.PadeFreq
import Mathlib.Algebra.Polynomial.Derivative
import Mathlib.Algebra.Polynomial.Roots
import Mathlib.Algebra.Polynomial.BigOperators
import Mathlib.Analysis.Normed.Group.Tannery
import Mathlib.Analysis.SpecialFunctions.Trigonometric.Series
import Mathlib.LinearAlgebra.Lagrange

/-!
# Numerators and denominators of the continued fraction of the Fermi function

They are Lommel polynomials, whose coefficients are known; they converge to the power series of `cos` and `sin`.
-/

namespace Gftool.Lemmas

open Gftool Polynomial Filter Topology

/-- Coefficient of `z^k` in the Lommel polynomial with `m` levels starting at level `j`. -/
noncomputable def lomC (j m k : ℕ) : ℝ := ((m - k).choose k : ℝ) * oddFac (j + m - k) / oddFac (j + k)

lemma lomC_nonneg (j m k : ℕ) : 0 ≤ lomC j m k := by
  have := oddFac_pos (j + m - k)
  have := oddFac_pos (j + k)
  unfold lomC
  positivity

lemma lomC_zero (j m : ℕ) : lomC j m 0 = oddFac (j + m) / oddFac j := by simp [lomC]

lemma lomC_eq_zero {j m k : ℕ} (h : m / 2 < k) : lomC j m k = 0 := by
  unfold lomC
  rw [Nat.choose_eq_zero_of_lt (by omega)]
  simp

lemma lomC_rec_zero (j m : ℕ) : lomC j (m + 2) 0 = (2 * j + 1) * lomC (j + 1) (m + 1) 0 := by
  rw [lomC_zero, lomC_zero, show j + 1 + (m + 1) = j + (m + 2) by omega, oddFac_succ j]
  have := (oddFac_pos j).ne'
  have : (2 * (j : ℝ) + 1) ≠ 0 := by positivity
  field_simp

lemma choose_real (M k : ℕ) : (M.choose (k + 1) : ℝ) * (k + 1) = M.choose k * ((M : ℝ) - k) := by
  rcases le_or_gt k M with h | h
  · rw [← Nat.cast_sub h]
    exact_mod_cast Nat.choose_succ_right_eq M k
  · rw [Nat.choose_eq_zero_of_lt h, Nat.choose_eq_zero_of_lt (by omega)]
    simp

lemma lomC_rec_succ (j m k : ℕ) :
    lomC j (m + 2) (k + 1) = (2 * j + 1) * lomC (j + 1) (m + 1) (k + 1) + lomC (j + 2) m k := by
  unfold lomC
  rcases le_or_gt k m with h | h
  · obtain ⟨M, rfl⟩ := Nat.exists_eq_add_of_le h
    rw [show k + M + 2 - (k + 1) = M + 1 by omega, show k + M + 1 - (k + 1) = M by omega,
      show k + M - k = M by omega, show j + (k + M + 2) - (k + 1) = j + M + 1 by omega,
      show j + 1 + (k + M + 1) - (k + 1) = j + M + 1 by omega, show j + 2 + (k + M) - k = j + M + 1 + 1 by omega,
      show j + (k + 1) = j + k + 1 by omega, show j + 1 + (k + 1) = j + k + 1 + 1 by omega,
      show j + 2 + k = j + k + 1 + 1 by omega, oddFac_succ (j + M + 1), oddFac_succ (j + k + 1), Nat.choose_succ_succ]
    have h1 := (oddFac_pos (j + k + 1)).ne'
    have h2 : (2 * ((j + k + 1 : ℕ) : ℝ) + 1) ≠ 0 := by positivity
    have h3 := choose_real M k
    rw [Nat.cast_add]
    generalize (M.choose k : ℝ) = a at *
    generalize (M.choose (k + 1) : ℝ) = b at *
    generalize oddFac (j + k + 1) = O at *
    generalize oddFac (j + M + 1) = Q at *
    field_simp
    push_cast
    linear_combination 2 * Q * h3
  · rw [Nat.choose_eq_zero_of_lt (show m + 2 - (k + 1) < k + 1 by omega),
      Nat.choose_eq_zero_of_lt (show m + 1 - (k + 1) < k + 1 by omega), Nat.choose_eq_zero_of_lt (show m - k < k by omega)]
    simp

/-- Lommel polynomial. -/
noncomputable def lomP (j m : ℕ) : ℝ[X] := ∑ k ∈ Finset.range (m / 2 + 1), C (lomC j m k) * X ^ k

lemma lomP_natDegree (j m : ℕ) : (lomP j m).natDegree ≤ m / 2 := by
  refine natDegree_sum_le_of_forall_le _ _ fun k hk => ?_
  exact (natDegree_C_mul_X_pow_le _ _).trans (by have := Finset.mem_range.1 hk; omega)

lemma lomP_eval (j m : ℕ) (z : ℝ) {K : ℕ} (hK : m / 2 < K) :
    (lomP j m).eval z = ∑ k ∈ Finset.range K, lomC j m k * z ^ k := by
  rw [lomP, eval_finsetSum]
  simp only [eval_mul, eval_C, eval_pow, eval_X]
  refine Finset.sum_subset (Finset.range_subset_range.2 hK) fun k _ hk => ?_
  rw [lomC_eq_zero (by simpa using hk), zero_mul]

lemma lomP_rec (j m : ℕ) (z : ℝ) :
    (lomP j (m + 2)).eval z = (2 * j + 1) * (lomP (j + 1) (m + 1)).eval z + z * (lomP (j + 2) m).eval z := by
  rw [lomP_eval j (m + 2) z (show (m + 2) / 2 < m + 1 + 1 by omega),
    lomP_eval (j + 1) (m + 1) z (show (m + 1) / 2 < m + 1 + 1 by omega),
    lomP_eval (j + 2) m z (show m / 2 < m + 1 by omega), Finset.sum_range_succ', Finset.sum_range_succ' _ (m + 1), lomC_rec_zero,
    mul_add, Finset.mul_sum, Finset.mul_sum, add_right_comm, ← Finset.sum_add_distrib]
  congr 1
  · refine Finset.sum_congr rfl fun k _ => ?_
    rw [lomC_rec_succ]
    ring
  · ring

lemma lomP_pos (j m : ℕ) {z : ℝ} (hz : 0 ≤ z) : 0 < (lomP j m).eval z := by
  rw [lomP_eval j m z (Nat.lt_succ_self _), Finset.sum_range_succ']
  refine add_pos_of_nonneg_of_pos (Finset.sum_nonneg fun k _ => mul_nonneg (lomC_nonneg _ _ _) (pow_nonneg hz _)) ?_
  rw [lomC_zero, pow_zero, mul_one]
  exact div_pos (oddFac_pos _) (oddFac_pos _)

lemma fermiCF_lomP (x : ℝ) (j m : ℕ) :
    Spec.fermiCF x j m = (lomP j (m + 1)).eval ((x / 2) ^ 2) / (lomP (j + 1) m).eval ((x / 2) ^ 2) := by
  induction m generalizing j with
  | zero =>
    rw [lomP_eval j (0 + 1) _ (show (0 + 1) / 2 < 1 by norm_num), lomP_eval (j + 1) 0 _ (show 0 / 2 < 1 by norm_num)]
    simp only [Finset.sum_range_one, lomC_zero, pow_zero, mul_one, Spec.fermiCF]
    rw [show j + (0 + 1) = j + 1 by omega, show j + 1 + 0 = j + 1 by omega, oddFac_succ]
    have h1 := (oddFac_pos j).ne'
    have h2 : (2 * (j : ℝ) + 1) ≠ 0 := by positivity
    field_simp
  | succ m ih =>
    rw [Spec.fermiCF, ih, show m + 1 + 1 = m + 2 by omega, lomP_rec]
    have h1 := (lomP_pos (j + 1) (m + 1) (sq_nonneg (x / 2))).ne'
    have h2 := (lomP_pos (j + 2) m (sq_nonneg (x / 2))).ne'
    rw [show j + 1 + 1 = j + 2 by omega]
    generalize (lomP (j + 1) (m + 1)).eval ((x / 2) ^ 2) = u at *
    generalize (lomP (j + 2) m).eval ((x / 2) ^ 2) = v at *
    field_simp

/-! ### Factorisation -/

/-- Denominators and numerators of the continued fraction, normalised, as polynomials in `x^2`. -/
noncomputable def denP (n : ℕ) : ℝ[X] := C (1 / oddFac n) * (lomP 0 n).comp (C (1 / 4) * X)
noncomputable def numP (n : ℕ) : ℝ[X] := C (1 / oddFac n) * (lomP 1 (n - 1)).comp (C (1 / 4) * X)

lemma denP_eval (n : ℕ) (t : ℝ) : (denP n).eval t = (lomP 0 n).eval (t / 4) / oddFac n := by
  simp only [denP, eval_mul, eval_C, eval_comp, eval_X]
  rw [one_div_mul_eq_div, one_div_mul_eq_div]

lemma numP_eval (n : ℕ) (t : ℝ) : (numP n).eval t = (lomP 1 (n - 1)).eval (t / 4) / oddFac n := by
  simp only [numP, eval_mul, eval_C, eval_comp, eval_X]
  rw [one_div_mul_eq_div, one_div_mul_eq_div]

lemma denP_zero (n : ℕ) : (denP n).eval 0 = 1 := by
  rw [denP_eval, lomP_eval 0 n _ (Nat.lt_succ_self _), Finset.sum_range_succ']
  simp only [zero_div, pow_succ, mul_zero, Finset.sum_const_zero, zero_add, pow_zero, mul_one, lomC_zero]
  have := (oddFac_pos n).ne'
  have h0 : oddFac 0 = 1 := by simp [oddFac]
  rw [h0, div_one, div_self this]

lemma denP_natDegree (num : ℕ) : (denP (2 * num)).natDegree ≤ num := by
  unfold denP
  refine (natDegree_C_mul_le _ _).trans ?_
  refine natDegree_comp_le.trans ?_
  have h1 := lomP_natDegree 0 (2 * num)
  have h2 : (C (1 / 4 : ℝ) * X).natDegree ≤ 1 := (natDegree_C_mul_le _ _).trans natDegree_X_le
  calc _ ≤ num * 1 := Nat.mul_le_mul (by omega) h2
    _ = num := mul_one _

/-- Frequencies and residues of a partial fraction decomposition of the continued fraction. -/
structure IsPadeDecomp (num : ℕ) (lam rp : Fin num → ℝ) : Prop where
  pos : ∀ i, 0 < lam i
  inj : StrictMono lam
  rpos : ∀ i, 0 < rp i
  eq : ∀ x : ℝ, x / 4 / Spec.fermiCF x 0 (2 * num - 1) = ∑ i, rp i * (2 * x / (x ^ 2 + lam i ^ 2))

namespace IsPadeDecomp

variable {num : ℕ} {lam rp : Fin num → ℝ} (h : IsPadeDecomp num lam rp)
include h

lemma frac (hn : 0 < num) {t : ℝ} (ht : 0 < t) :
    (numP (2 * num)).eval t = (denP (2 * num)).eval t * ∑ i, 8 * rp i / (t + lam i ^ 2) := by
  have hx := h.eq (Real.sqrt t)
  have hs : 0 < Real.sqrt t := Real.sqrt_pos.2 ht
  have hsq : (Real.sqrt t / 2) ^ 2 = t / 4 := by rw [div_pow, Real.sq_sqrt ht.le]; norm_num
  rw [fermiCF_lomP, hsq, Real.sq_sqrt ht.le, show 2 * num - 1 + 1 = 2 * num by omega] at hx
  have h1 := lomP_pos 0 (2 * num) (show 0 ≤ t / 4 by positivity)
  have h2 := lomP_pos 1 (2 * num - 1) (show 0 ≤ t / 4 by positivity)
  have h3 := oddFac_pos (2 * num)
  rw [denP_eval, numP_eval]
  have e : ∑ i, rp i * (2 * Real.sqrt t / (t + lam i ^ 2)) = Real.sqrt t / 4 * ∑ i, 8 * rp i / (t + lam i ^ 2) := by
    rw [Finset.mul_sum]
    refine Finset.sum_congr rfl fun i _ => ?_
    ring
  rw [e, zero_add] at hx
  generalize ∑ i, 8 * rp i / (t + lam i ^ 2) = S at *
  have h4 : (lomP 1 (2 * num - 1)).eval (t / 4) = (lomP 0 (2 * num)).eval (t / 4) * S := by
    generalize (lomP 1 (2 * num - 1)).eval (t / 4) = u at *
    generalize (lomP 0 (2 * num)).eval (t / 4) = v at *
    field_simp at hx
    linarith
  rw [h4]
  ring

/-- Polynomial identity. -/
lemma poly (hn : 0 < num) : numP (2 * num) * ∏ i, (X + C (lam i ^ 2))
    = denP (2 * num) * ∑ i, C (8 * rp i) * ∏ j ∈ Finset.univ.erase i, (X + C (lam j ^ 2)) := by
  refine eq_of_infinite_eval_eq _ _ ((Set.Ioi_infinite (0 : ℝ)).mono fun t ht => ?_)
  have ht : 0 < t := ht
  simp only [Set.mem_ofPred_eq, eval_mul, eval_prod, eval_add, eval_X, eval_C, eval_finsetSum]
  rw [h.frac hn ht, mul_assoc, Finset.sum_mul]
  congr 1
  refine Finset.sum_congr rfl fun i _ => ?_
  rw [← Finset.mul_prod_erase _ _ (Finset.mem_univ i)]
  have : t + lam i ^ 2 ≠ 0 := by positivity
  field_simp

lemma erase_ne (i : Fin num) : ∏ j ∈ Finset.univ.erase i, (-lam i ^ 2 + lam j ^ 2) ≠ 0 := by
  refine Finset.prod_ne_zero_iff.2 fun j hj => ?_
  have hne : lam j ≠ lam i := fun e => (Finset.ne_of_mem_erase hj) (h.inj.injective e)
  intro h0
  have : (lam j - lam i) * (lam j + lam i) = 0 := by linear_combination h0
  rcases mul_eq_zero.1 this with h1 | h1
  · exact hne (by linarith)
  · have := h.pos i; have := h.pos j; linarith

omit h in
lemma sum_erase (i : Fin num) :
    (∑ k, C (8 * rp k) * ∏ j ∈ Finset.univ.erase k, (X + C (lam j ^ 2))).eval (-lam i ^ 2)
      = 8 * rp i * ∏ j ∈ Finset.univ.erase i, (-lam i ^ 2 + lam j ^ 2) := by
  rw [eval_finsetSum, Finset.sum_eq_single i]
  · simp only [eval_mul, eval_C, eval_prod, eval_add, eval_X]
  · intro k _ hk
    simp only [eval_mul, eval_C, eval_prod, eval_add, eval_X]
    rw [Finset.prod_eq_zero (i := i) (Finset.mem_erase.2 ⟨hk.symm, Finset.mem_univ _⟩) (by ring), mul_zero]
  · simp

lemma den_root (hn : 0 < num) (i : Fin num) : (denP (2 * num)).eval (-lam i ^ 2) = 0 := by
  have h1 := congrArg (eval (-lam i ^ 2)) (h.poly hn)
  rw [eval_mul, eval_mul, sum_erase, eval_prod,
    Finset.prod_eq_zero (Finset.mem_univ i) (by simp only [eval_add, eval_X, eval_C]; ring), mul_zero] at h1
  rcases mul_eq_zero.1 h1.symm with h2 | h2
  · exact h2
  · have := h.rpos i
    exact absurd h2 (mul_ne_zero (by positivity) (h.erase_ne i))

lemma den_eq (hn : 0 < num) : denP (2 * num) = ∏ i, (1 + C (1 / lam i ^ 2) * X) := by
  classical
  have hl : ∀ i, lam i ^ 2 ≠ 0 := fun i => (pow_pos (h.pos i) 2).ne'
  set s : Finset ℝ := insert 0 (Finset.univ.image fun i => -lam i ^ 2) with hs
  have hcard : s.card = num + 1 := by
    rw [hs, Finset.card_insert_of_notMem, Finset.card_image_of_injective, Finset.card_univ, Fintype.card_fin]
    · intro i j hij
      have : (lam i - lam j) * (lam i + lam j) = 0 := by
        have : -lam i ^ 2 = -lam j ^ 2 := hij
        linear_combination -this
      rcases mul_eq_zero.1 this with h1 | h1
      · exact h.inj.injective (by linarith)
      · have := h.pos i; have := h.pos j; linarith
    · intro hm
      obtain ⟨i, -, hi⟩ := Finset.mem_image.1 hm
      exact hl i (by linarith)
  have hdeg : (∏ i : Fin num, (1 + C (1 / lam i ^ 2) * X)).natDegree ≤ num := by
    refine (natDegree_prod_le _ _).trans ?_
    calc ∑ i : Fin num, (1 + C (1 / lam i ^ 2) * X).natDegree ≤ ∑ i : Fin num, 1 := by
          refine Finset.sum_le_sum fun i _ => ?_
          refine (natDegree_add_le _ _).trans (max_le (by simp) ((natDegree_C_mul_le _ _).trans natDegree_X_le))
      _ = num := by simp
  refine eq_of_degrees_lt_of_eval_finset_eq s ?_ ?_ ?_
  · rw [hcard]
    exact lt_of_le_of_lt degree_le_natDegree (by exact_mod_cast Nat.lt_succ_of_le (denP_natDegree num))
  · rw [hcard]
    exact lt_of_le_of_lt degree_le_natDegree (by exact_mod_cast Nat.lt_succ_of_le hdeg)
  · intro t ht
    rcases Finset.mem_insert.1 ht with rfl | ht
    · rw [denP_zero, eval_prod]
      simp
    · obtain ⟨i, -, rfl⟩ := Finset.mem_image.1 ht
      rw [h.den_root hn, eval_prod, Finset.prod_eq_zero (Finset.mem_univ i)]
      simp only [eval_add, eval_one, eval_mul, eval_C, eval_X]
      rw [mul_neg, one_div_mul_cancel (hl i)]
      ring

lemma den_eval (hn : 0 < num) (t : ℝ) : (denP (2 * num)).eval t = ∏ i, (1 + t / lam i ^ 2) := by
  rw [h.den_eq hn, eval_prod]
  refine Finset.prod_congr rfl fun i _ => ?_
  simp only [eval_add, eval_one, eval_mul, eval_C, eval_X]
  ring

/-- Residues are ratios of the numerator and the derivative of the denominator. -/
lemma num_eq (hn : 0 < num) (i : Fin num) :
    (numP (2 * num)).eval (-lam i ^ 2) = 8 * rp i * (derivative (denP (2 * num))).eval (-lam i ^ 2) := by
  have hl : ∀ i, lam i ^ 2 ≠ 0 := fun i => (pow_pos (h.pos i) 2).ne'
  have e1 : denP (2 * num) = C (∏ i, 1 / lam i ^ 2) * ∏ i, (X + C (lam i ^ 2)) := by
    rw [h.den_eq hn, map_prod, ← Finset.prod_mul_distrib]
    refine Finset.prod_congr rfl fun i _ => ?_
    rw [mul_add, ← C_mul, one_div_mul_cancel (hl i), C_1, add_comm]
  have hP : (∏ i, (X + C (lam i ^ 2)) : ℝ[X]) ≠ 0 := Finset.prod_ne_zero_iff.2 fun i _ => X_add_C_ne_zero _
  have e2 : numP (2 * num)
      = C (∏ i, 1 / lam i ^ 2) * ∑ i, C (8 * rp i) * ∏ j ∈ Finset.univ.erase i, (X + C (lam j ^ 2)) := by
    refine mul_right_cancel₀ hP ?_
    rw [h.poly hn, e1]
    ring
  rw [e2, eval_mul, sum_erase, e1, derivative_C_mul, eval_mul, derivative_prod_finset, eval_finsetSum,
    Finset.sum_eq_single i]
  · simp only [eval_mul, eval_prod, eval_add, eval_X, eval_C, derivative_add, derivative_X, derivative_C, add_zero, eval_one,
      mul_one]
    ring
  · intro k _ hk
    rw [eval_mul, eval_prod, Finset.prod_eq_zero (i := i) (Finset.mem_erase.2 ⟨hk.symm, Finset.mem_univ _⟩), zero_mul]
    simp only [eval_add, eval_X, eval_C]
    ring
  · simp

end IsPadeDecomp

end Gftool.Lemmas
