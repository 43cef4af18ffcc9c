import Verif.Lemmas.BzMoments
import Mathlib.Data.Nat.Choose.Central
import Mathlib.Tactic

/-!
# Moments of the simple cubic dispersion
-/

namespace Gftool.Lemmas

open Gftool Spec MeasureTheory

/-! ## Sums of squares of trinomial coefficients -/

/-- Summands `binom(n, k)² binom(2k, k)`. -/
def triTerm (n k : ℕ) : ℚ := (n.choose k : ℚ) ^ 2 * (Nat.centralBinom k : ℚ)

/-- Sums of the squares of the trinomial coefficients. -/
def triSum (n : ℕ) : ℚ := ∑ k ∈ Finset.range (n + 1), triTerm n k

lemma triTerm_zero {n k : ℕ} (h : n < k) : triTerm n k = 0 := by
  unfold triTerm
  rw [Nat.choose_eq_zero_of_lt h]
  simp

lemma triSum_eq {n m : ℕ} (h : n ≤ m) : triSum n = ∑ k ∈ Finset.range (m + 1), triTerm n k := by
  unfold triSum
  refine Finset.sum_subset (Finset.range_subset_range.2 (by omega)) fun k _ hk => triTerm_zero ?_
  rw [Finset.mem_range] at hk
  omega

lemma choose_pred (n k : ℕ) : (n.choose k : ℚ) * ((n : ℚ) + 1) = ((n + 1).choose k : ℚ) * ((n : ℚ) + 1 - k) := by
  rcases Nat.lt_or_ge n k with h | h
  · rcases Nat.lt_or_ge (n + 1) k with h' | h'
    · rw [Nat.choose_eq_zero_of_lt h, Nat.choose_eq_zero_of_lt h']
      simp
    · obtain rfl : k = n + 1 := by omega
      rw [Nat.choose_eq_zero_of_lt h]
      push_cast
      ring
  · have := Nat.choose_mul_succ_eq n k
    rw [← Nat.cast_inj (R := ℚ)] at this
    push_cast [Nat.cast_sub (show k ≤ n + 1 by omega)] at this
    exact this

lemma choose_next (n k : ℕ) : (n.choose (k + 1) : ℚ) * ((k : ℚ) + 1) = (n.choose k : ℚ) * ((n : ℚ) - k) := by
  rcases Nat.lt_or_ge n k with h | h
  · rw [Nat.choose_eq_zero_of_lt h, Nat.choose_eq_zero_of_lt (by omega)]
    simp
  · have := Nat.choose_succ_right_eq n k
    rw [← Nat.cast_inj (R := ℚ)] at this
    push_cast [Nat.cast_sub h] at this
    exact this

lemma central_next (k : ℕ) :
    (Nat.centralBinom (k + 1) : ℚ) * ((k : ℚ) + 1) = 2 * (2 * k + 1) * (Nat.centralBinom k : ℚ) := by
  have := Nat.succ_mul_centralBinom_succ k
  rw [← Nat.cast_inj (R := ℚ)] at this
  push_cast at this
  linarith

lemma triTerm_pred (n k : ℕ) : triTerm n k = triTerm (n + 1) k * (((n : ℚ) + 1 - k) / ((n : ℚ) + 1)) ^ 2 := by
  have h : (n : ℚ) + 1 ≠ 0 := by positivity
  have e : (n.choose k : ℚ) = ((n + 1).choose k : ℚ) * (((n : ℚ) + 1 - k) / ((n : ℚ) + 1)) := by
    rw [← mul_div_assoc, eq_div_iff h]
    exact choose_pred n k
  unfold triTerm
  rw [e]
  ring

lemma triTerm_next (n k : ℕ) :
    triTerm n (k + 1) = triTerm n k * (((n : ℚ) - k) ^ 2 * (2 * (2 * k + 1)) / ((k : ℚ) + 1) ^ 3) := by
  have h : (k : ℚ) + 1 ≠ 0 := by positivity
  have e : (n.choose (k + 1) : ℚ) = (n.choose k : ℚ) * ((n : ℚ) - k) / ((k : ℚ) + 1) := by
    rw [eq_div_iff h]
    exact choose_next n k
  have e2 : (Nat.centralBinom (k + 1) : ℚ) = 2 * (2 * k + 1) * (Nat.centralBinom k : ℚ) / ((k : ℚ) + 1) := by
    rw [eq_div_iff h]
    exact central_next k
  unfold triTerm
  rw [e, e2]
  field_simp

/-- Telescoping part of the recursion. -/
def triCert (n k : ℕ) : ℚ := (k : ℚ) ^ 3 * (3 * k - 4 * (n + 2)) * triTerm (n + 2) k / ((n : ℚ) + 2) ^ 2

lemma triTerm_rec (n k : ℕ) :
    ((n : ℚ) + 2) ^ 2 * triTerm (n + 2) k - (10 * (n : ℚ) ^ 2 + 30 * n + 23) * triTerm (n + 1) k
      + 9 * ((n : ℚ) + 1) ^ 2 * triTerm n k = triCert n (k + 1) - triCert n k := by
  have h1 : (n : ℚ) + 1 ≠ 0 := by positivity
  have h2 : (n : ℚ) + 2 ≠ 0 := by positivity
  have hk : (k : ℚ) + 1 ≠ 0 := by positivity
  unfold triCert
  rw [triTerm_pred n k, triTerm_pred (n + 1) k, triTerm_next (n + 2) k]
  push_cast
  have e : (n : ℚ) + 1 + 1 = n + 2 := by ring
  rw [e]
  generalize triTerm (n + 1 + 1) k = T
  field_simp
  ring

lemma triSum_rec (n : ℕ) :
    ((n : ℚ) + 2) ^ 2 * triSum (n + 2) = (10 * (n : ℚ) ^ 2 + 30 * n + 23) * triSum (n + 1)
      - 9 * ((n : ℚ) + 1) ^ 2 * triSum n := by
  have h : ∑ k ∈ Finset.range (n + 2 + 1), (triCert n (k + 1) - triCert n k) = 0 := by
    rw [Finset.sum_range_sub, triCert, triCert, triTerm_zero (by omega)]
    simp
  simp_rw [← triTerm_rec] at h
  rw [Finset.sum_add_distrib, Finset.sum_sub_distrib, ← Finset.mul_sum, ← Finset.mul_sum, ← Finset.mul_sum,
    ← triSum_eq (by omega), ← triSum_eq (by omega), ← triSum_eq (by omega)] at h
  linarith

lemma triSum_zero : triSum 0 = 1 := by simp [triSum, triTerm]
lemma triSum_one : triSum 1 = 3 := by
  norm_num [triSum, triTerm, Finset.sum_range_succ, Nat.centralBinom]

/-! ## Moments -/

lemma sum_square (l : ℕ) :
    ∑ j ∈ Finset.range (l + 1), (l.choose j : ℚ) * (arcsineMoment j * arcsineMoment (l - j)) = 2 ^ l * arcsineMoment l ^ 2 := by
  have h := (mean2 (Finset.range (l + 1)) (fun j => (l.choose j : ℚ)) (fun j => j) (fun j => l - j)).2
  have e : (fun k : ℝ × ℝ => ∑ j ∈ Finset.range (l + 1), (((l.choose j : ℚ)) : ℝ) * (Real.cos k.1 ^ j * Real.cos k.2 ^ (l - j)))
      = fun k => 2 ^ l * ((Real.cos k.1 + Real.cos k.2) / 2) ^ l := by
    funext k
    rw [← mul_pow, mul_div_cancel₀ _ (by norm_num), add_pow]
    refine Finset.sum_congr rfl fun j _ => ?_
    push_cast
    ring
  rw [e, integral_const_mul, (squareM_eq l).2, squareM] at h
  exact_mod_cast h.symm

lemma scM_fold (m : ℕ) :
    scM m = ∑ i ∈ Finset.range (m + 1), (m.choose i : ℚ) * (arcsineMoment i * (2 ^ (m - i) * arcsineMoment (m - i) ^ 2)) := by
  unfold scM
  refine Finset.sum_congr rfl fun i _ => ?_
  rw [← sum_square, Finset.mul_sum, Finset.mul_sum]
  refine Finset.sum_congr rfl fun j _ => ?_
  ring

/-- Even and odd summands. -/
lemma sum_range_even (f : ℕ → ℚ) (n : ℕ) (hf : ∀ i, i % 2 ≠ 0 → f i = 0) :
    ∑ i ∈ Finset.range (2 * n + 1), f i = ∑ k ∈ Finset.range (n + 1), f (2 * k) := by
  induction n with
  | zero => simp
  | succ n ih =>
    rw [show 2 * (n + 1) + 1 = 2 * n + 1 + 1 + 1 by ring, Finset.sum_range_succ, Finset.sum_range_succ, ih,
      hf (2 * n + 1) (by omega), Finset.sum_range_succ _ (n + 1)]
    ring_nf

/-- The even moments of the simple cubic dispersion. -/
lemma scM_two_mul (n : ℕ) : scM (2 * n) = (Nat.centralBinom n : ℚ) / 4 ^ n * triSum n := by
  rw [scM_fold, sum_range_even _ _ fun i hi => by rw [arcsineMoment_odd hi]; ring, triSum, Finset.mul_sum,
    ← Finset.sum_range_reflect]
  refine Finset.sum_congr rfl fun k hk => ?_
  rw [Finset.mem_range] at hk
  obtain ⟨l, rfl⟩ : ∃ l, n = k + l := ⟨n - k, by omega⟩
  rw [show k + l + 1 - 1 - k = l by omega, show 2 * (k + l) - 2 * l = 2 * k by omega, arcsineMoment_two_mul,
    arcsineMoment_two_mul, triTerm, Nat.choose_symm_add]
  have f := fun a => Nat.cast_ne_zero (R := ℚ).2 (Nat.factorial_ne_zero a)
  have cb : ∀ a, (Nat.centralBinom a : ℚ) = ((2 * a).factorial : ℚ) / ((a.factorial : ℚ) ^ 2) := fun a => by
    rw [Nat.centralBinom_eq_two_mul_choose, Nat.cast_choose ℚ (by omega), show 2 * a - a = a by omega, sq]
  have c1 : ((2 * (k + l)).choose (2 * l) : ℚ) = ((2 * (k + l)).factorial : ℚ) / (((2 * l).factorial : ℚ) * ((2 * k).factorial : ℚ)) := by
    rw [Nat.cast_choose ℚ (by omega), show 2 * (k + l) - 2 * l = 2 * k by omega]
  have c2 : ((k + l).choose l : ℚ) = ((k + l).factorial : ℚ) / ((l.factorial : ℚ) * (k.factorial : ℚ)) := by
    rw [Nat.cast_choose ℚ (by omega), show k + l - l = k by omega]
  rw [c1, c2, cb, cb, cb, pow_mul 2 2 k, show (2 : ℚ) ^ 2 = 4 by norm_num]
  have := f (2 * (k + l)); have := f (2 * l); have := f (2 * k); have := f k; have := f l; have := f (k + l)
  rw [pow_add]
  field_simp

/-- Coefficients of the Green's function for unit half-bandwidth. -/
noncomputable def scCoeff (n : ℕ) : ℝ := (((1 / 9) ^ n * scM (2 * n) : ℚ) : ℝ)

lemma scCoeff_eq (n : ℕ) : scCoeff n = (((Nat.centralBinom n : ℚ) / 36 ^ n * triSum n : ℚ) : ℝ) := by
  rw [scCoeff, scM_two_mul, show (36 : ℚ) = 9 * 4 by norm_num, mul_pow, one_div, inv_pow]
  congr 1
  field_simp

lemma scCoeff_zero : scCoeff 0 = 1 := by
  rw [scCoeff_eq, triSum_zero]
  simp

lemma scCoeff_one : scCoeff 1 = 1 / 6 := by
  rw [scCoeff_eq, triSum_one]
  norm_num [Nat.centralBinom]

/-- Recursion of the moments. -/
lemma scCoeff_rec (n : ℕ) :
    36 * ((n : ℝ) + 2) ^ 3 * scCoeff (n + 2) = 2 * (2 * n + 3) * (10 * (n : ℝ) ^ 2 + 30 * n + 23) * scCoeff (n + 1)
      - ((n : ℝ) + 1) * (2 * n + 1) * (2 * n + 3) * scCoeff n := by
  rw [scCoeff_eq, scCoeff_eq, scCoeff_eq]
  have h1 : (n : ℚ) + 1 ≠ 0 := by positivity
  have h2 : (n : ℚ) + 2 ≠ 0 := by positivity
  have e1 : (Nat.centralBinom (n + 1) : ℚ) = 2 * (2 * n + 1) * (Nat.centralBinom n : ℚ) / ((n : ℚ) + 1) := by
    rw [eq_div_iff h1]
    exact central_next n
  have e2 : (Nat.centralBinom (n + 2) : ℚ) = 2 * (2 * n + 3) * (Nat.centralBinom (n + 1) : ℚ) / ((n : ℚ) + 2) := by
    rw [eq_div_iff h2]
    have := central_next (n + 1)
    push_cast at this
    linear_combination this
  have e3 : triSum (n + 2) = ((10 * (n : ℚ) ^ 2 + 30 * n + 23) * triSum (n + 1)
      - 9 * ((n : ℚ) + 1) ^ 2 * triSum n) / ((n : ℚ) + 2) ^ 2 := by
    rw [eq_div_iff (pow_ne_zero _ h2), mul_comm]
    exact triSum_rec n
  have key : 36 * ((n : ℚ) + 2) ^ 3 * ((Nat.centralBinom (n + 2) : ℚ) / 36 ^ (n + 2) * triSum (n + 2))
      = 2 * (2 * n + 3) * (10 * (n : ℚ) ^ 2 + 30 * n + 23) * ((Nat.centralBinom (n + 1) : ℚ) / 36 ^ (n + 1) * triSum (n + 1))
      - ((n : ℚ) + 1) * (2 * n + 1) * (2 * n + 3) * ((Nat.centralBinom n : ℚ) / 36 ^ n * triSum n) := by
    rw [e3, e2, e1, pow_succ, pow_succ]
    field_simp
    ring
  exact_mod_cast key

end Gftool.Lemmas
