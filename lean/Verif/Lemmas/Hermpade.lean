import Verif.Model.Hermpade
import Verif.Spec.Series
import Mathlib.RingTheory.PowerSeries.Basic
import Mathlib.RingTheory.Polynomial.Basic
import Mathlib.Tactic

/-!
# Coefficient lists, polynomials and power series
-/

namespace Gftool.Lemmas

open Gftool Model Spec Polynomial

lemma getD_of_le (l : List ℂ) {i : ℕ} (h : l.length ≤ i) : l.getD i 0 = 0 := by
  rw [List.getD_eq_getElem?_getD, List.getElem?_eq_none h]
  rfl

lemma getD_of_lt (l : List ℂ) {i : ℕ} (h : i < l.length) : l.getD i 0 = l[i] := by
  rw [List.getD_eq_getElem?_getD, List.getElem?_eq_getElem h]
  rfl

lemma toPoly_coeff (l : List ℂ) (i : ℕ) : (toPoly l).coeff i = l.getD i 0 := by
  unfold toPoly
  rw [finsetSum_coeff]
  simp only [coeff_C_mul_X_pow]
  by_cases h : i < l.length
  · rw [Finset.sum_eq_single i]
    · simp
    · intro j _ hj; rw [if_neg (Ne.symm hj)]
    · intro h'; exact absurd (Finset.mem_range.2 h) h'
  · rw [getD_of_le _ (not_lt.1 h)]
    apply Finset.sum_eq_zero
    intro j hj
    rw [if_neg]
    rintro rfl
    exact h (Finset.mem_range.1 hj)

lemma toPoly_eval (l : List ℂ) (z : ℂ) : (toPoly l).eval z = polyval l z := by
  unfold toPoly
  rw [eval_finsetSum]
  simp only [eval_mul, eval_C, eval_pow, eval_X]
  induction l with
  | nil => simp [polyval]
  | cons a l ih =>
    rw [List.length_cons, Finset.sum_range_succ']
    simp only [List.getD_cons_succ, List.getD_cons_zero, pow_zero, mul_one]
    have : polyval (a :: l) z = a + z * polyval l z := rfl
    rw [this, ← ih, Finset.mul_sum, add_comm]
    congr 1
    refine Finset.sum_congr rfl fun i _ => ?_
    ring

lemma toPoly_natDegree_lt (l : List ℂ) (n : ℕ) (hl : l.length ≤ n + 1) :
    (toPoly l).natDegree ≤ n := by
  rw [natDegree_le_iff_coeff_eq_zero]
  intro i hi
  rw [toPoly_coeff, getD_of_le]
  omega

lemma getD_ofFn {n : ℕ} (f : Fin n → ℂ) (i : ℕ) :
    (List.ofFn f).getD i 0 = if h : i < n then f ⟨i, h⟩ else 0 := by
  rw [List.getD_eq_getElem?_getD, List.getElem?_ofFn]
  split_ifs <;> rfl

/-- Coefficients of the product of a polynomial and a series are rows of a Toeplitz matrix. -/
lemma coeff_toPoly_mul {n : ℕ} (q : Fin n → ℂ) (an : ℕ → ℂ) (k : ℕ) :
    PowerSeries.coeff k ((toPoly (List.ofFn q) : PowerSeries ℂ) * PowerSeries.mk an)
      = ∑ j : Fin n, toeplitz an (fun _ => 0) k j * q j := by
  rw [PowerSeries.coeff_mul,
    Finset.Nat.sum_antidiagonal_eq_sum_range_succ (fun i j =>
      PowerSeries.coeff i (toPoly (List.ofFn q) : PowerSeries ℂ)
        * PowerSeries.coeff j (PowerSeries.mk an))]
  simp only [Polynomial.coeff_coe, toPoly_coeff, getD_ofFn, PowerSeries.coeff_mk]
  have h1 : ∑ j : Fin n, toeplitz an (fun _ => 0) k j * q j
      = ∑ j ∈ Finset.range n, (if h : j < n then toeplitz an (fun _ => 0) k j * q ⟨j, h⟩ else 0) := by
    rw [Finset.sum_range]
    refine Finset.sum_congr rfl fun j _ => ?_
    simp
  have h2 : ∀ j ∈ Finset.range k.succ, (if h : j < n then q ⟨j, h⟩ else 0) * an (k - j)
      = if h : j < n then toeplitz an (fun _ => 0) k j * q ⟨j, h⟩ else 0 := by
    intro j hj
    have hj' : j ≤ k := Nat.lt_succ_iff.1 (Finset.mem_range.1 hj)
    unfold toeplitz
    rw [if_pos hj']
    split_ifs
    · ring
    · ring
  rw [h1, Finset.sum_congr rfl h2,
    Finset.sum_subset (Finset.range_subset_range.2 (le_max_left n (k + 1))),
    Finset.sum_subset (Finset.range_subset_range.2 (le_max_right n k.succ))]
  · intro j _ hj
    simp only [Finset.mem_range, not_lt] at hj
    unfold toeplitz
    rw [if_neg (by omega)]
    simp
  · intro j _ hj
    simp only [Finset.mem_range] at hj
    rw [dif_neg hj]

/-- The square of a series. -/
lemma coeff_sq_toeplitz {n : ℕ} (r : Fin n → ℂ) (an : ℕ → ℂ) (L k : ℕ) (hk : k < L) :
    PowerSeries.coeff k ((toPoly (List.ofFn r) : PowerSeries ℂ)
      * (PowerSeries.mk an * PowerSeries.mk an)) = ∑ j : Fin n, amat2 an L k j * r j := by
  have h1 : (PowerSeries.mk an * PowerSeries.mk an : PowerSeries ℂ)
      = PowerSeries.mk fun m => ∑ i ∈ Finset.range (m + 1), an i * an (m - i) := by
    ext m
    rw [PowerSeries.coeff_mul,
      Finset.Nat.sum_antidiagonal_eq_sum_range_succ (fun i j =>
      PowerSeries.coeff i (PowerSeries.mk an) * PowerSeries.coeff j (PowerSeries.mk an))]
    simp
  rw [h1, coeff_toPoly_mul]
  refine Finset.sum_congr rfl fun j _ => ?_
  congr 1
  unfold amat2 fullAmat toeplitz
  by_cases hj : (j : ℕ) ≤ k
  · rw [if_pos hj]
    -- only `j ≤ t ≤ k` contribute
    have h2 : ∀ t ∈ Finset.range L, ((if t ≤ k then an (k - t) else 0)
        * if (j : ℕ) ≤ t then an (t - j) else 0)
        = if t ∈ Finset.Ico (j : ℕ) (k + 1) then an (k - t) * an (t - j) else 0 := by
      intro t _
      simp only [Finset.mem_Ico]
      split_ifs <;> simp_all <;> omega
    rw [Finset.sum_congr rfl h2, ← Finset.sum_filter]
    have h3 : (Finset.range L).filter (· ∈ Finset.Ico (j : ℕ) (k + 1)) = Finset.Ico (j : ℕ) (k + 1) := by
      ext t
      simp only [Finset.mem_filter, Finset.mem_range, Finset.mem_Ico]
      omega
    rw [h3, Finset.sum_Ico_eq_sum_range, show k + 1 - (j : ℕ) = k - j + 1 by omega]
    refine Finset.sum_congr rfl fun i hi => ?_
    have := Finset.mem_range.1 hi
    rw [show k - (j + i) = k - j - i by omega, show (j : ℕ) + i - j = i by omega, mul_comm]
  · rw [if_neg hj]
    symm
    apply Finset.sum_eq_zero
    intro t _
    split_ifs <;> simp
    omega

end Gftool.Lemmas
