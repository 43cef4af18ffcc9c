import Verif.Lemmas.LommelCF

/-!
# Residues of the Padé frequencies

The Lommel polynomials satisfy the Riccati equation of `tanh` up to one monomial.
At the roots of the denominator it shows that the residues exceed one.
-/

namespace Gftool.Lemmas

open Gftool Polynomial

lemma lomP_rec_poly (j m : ℕ) : lomP j (m + 2) = C (2 * (j : ℝ) + 1) * lomP (j + 1) (m + 1) + X * lomP (j + 2) m := by
  refine Polynomial.funext fun z => ?_
  rw [lomP_rec]
  simp only [eval_add, eval_mul, eval_C, eval_X]

lemma lomP_zero (j : ℕ) : lomP j 0 = 1 := by
  have := (oddFac_pos j).ne'
  simp [lomP, lomC, this]

lemma lomP_one (j : ℕ) : lomP j 1 = C (2 * (j : ℝ) + 1) := by
  have h := (oddFac_pos j).ne'
  simp only [lomP, Nat.reduceDiv, zero_add, Finset.sum_range_one, pow_zero, mul_one, lomC_zero, oddFac_succ]
  congr 1
  field_simp

/-- Riccati equation of the convergents of the continued fraction. -/
lemma lomP_riccati (j k : ℕ) :
    2 * X * (derivative (lomP j (k + 1)) * lomP (j + 1) k - lomP j (k + 1) * derivative (lomP (j + 1) k))
      = X * lomP (j + 1) k ^ 2 + C (2 * (j : ℝ) + 1) * lomP j (k + 1) * lomP (j + 1) k - lomP j (k + 1) ^ 2
        + (-X) ^ (k + 1) := by
  induction k generalizing j with
  | zero =>
    rw [zero_add, lomP_one, lomP_zero]
    simp
    ring
  | succ k ih =>
    have h := ih (j + 1)
    rw [show j + 1 + 1 = j + 2 by omega] at h
    rw [show k + 1 + 1 = k + 2 by omega, lomP_rec_poly]
    have e : (C (2 * ((j + 1 : ℕ) : ℝ) + 1) : ℝ[X]) = C (2 * (j : ℝ) + 1) + 2 := by
      rw [show (2 : ℝ[X]) = C 2 from rfl, ← C_add]; congr 1; push_cast; ring
    rw [e] at h
    simp only [derivative_add, derivative_mul, derivative_C, derivative_X, zero_mul, zero_add, one_mul]
    generalize lomP (j + 1) (k + 1) = B at *
    generalize lomP (j + 2) k = D at *
    generalize (C (2 * (j : ℝ) + 1) : ℝ[X]) = a at *
    linear_combination -X * h

namespace IsPadeDecomp

variable {num : ℕ} {lam rp : Fin num → ℝ} (h : IsPadeDecomp num lam rp)
include h

lemma resid_gt_one (hn : 0 < num) (i : Fin num) : 1 < rp i := by
  have h1 := h.den_root hn i
  have h2 := h.num_eq hn i
  have ho := oddFac_pos (2 * num)
  have hl := h.pos i
  have hr := h.rpos i
  have h3 := congrArg (eval (-lam i ^ 2 / 4)) (lomP_riccati 0 (2 * num - 1))
  rw [show 2 * num - 1 + 1 = 2 * num by omega] at h3
  have hd : (derivative (denP (2 * num))).eval (-lam i ^ 2)
      = (derivative (lomP 0 (2 * num))).eval (-lam i ^ 2 / 4) / 4 / oddFac (2 * num) := by
    simp only [denP, derivative_C_mul, derivative_comp, derivative_X, eval_mul, eval_C, eval_comp, eval_X, mul_one]
    rw [one_div_mul_eq_div 4]
    ring
  rw [hd, numP_eval] at h2
  rw [denP_eval] at h1
  have hA : (lomP 0 (2 * num)).eval (-lam i ^ 2 / 4) = 0 := by
    rcases div_eq_zero_iff.1 h1 with h | h
    · exact h
    · exact absurd h ho.ne'
  simp only [eval_mul, eval_sub, eval_add, eval_pow, eval_neg, eval_X, hA, zero_add, Even.neg_pow (even_two_mul num)] at h3
  have hp : 0 < (-lam i ^ 2 / 4) ^ (2 * num) := by
    refine (even_two_mul num).pow_pos ?_
    have : 0 < lam i ^ 2 := by positivity
    intro h0
    linarith
  have e3 : ∀ x : ℝ, (2 : ℝ[X]).eval x = 2 := fun x => by simp
  rw [e3] at h3
  have hB : (lomP 1 (2 * num - 1)).eval (-lam i ^ 2 / 4)
      = 2 * rp i * (derivative (lomP 0 (2 * num))).eval (-lam i ^ 2 / 4) := by
    rw [div_eq_iff ho.ne'] at h2
    rw [h2]
    field_simp
    ring
  rw [hB] at h3
  generalize (derivative (lomP 0 (2 * num))).eval (-lam i ^ 2 / 4) = d at *
  by_contra hle
  push Not at hle
  have : 0 ≤ lam i ^ 2 * d ^ 2 * (rp i * (1 - rp i)) := by
    have : 0 ≤ 1 - rp i := by linarith
    positivity
  nlinarith

/-- Value at zero. -/
lemma sum_inv_sq (hn : 0 < num) : ∑ i, rp i / lam i ^ 2 = 1 / 8 := by
  have h1 := congrArg (eval 0) (h.poly hn)
  simp only [eval_mul, eval_prod, eval_add, eval_X, eval_C, eval_finsetSum, zero_add, denP_zero, one_mul] at h1
  have h2 : (numP (2 * num)).eval 0 = 1 := by
    rw [numP_eval, lomP_eval 1 _ _ (Nat.lt_succ_self _), Finset.sum_range_succ']
    simp only [zero_div, pow_succ, mul_zero, Finset.sum_const_zero, zero_add, pow_zero, mul_one, lomC_zero]
    rw [show 1 + (2 * num - 1) = 2 * num by omega]
    have := (oddFac_pos (2 * num)).ne'
    have h0 : oddFac 1 = 1 := by simp [oddFac]
    rw [h0, div_one, div_self this]
  have hl : ∀ i, lam i ^ 2 ≠ 0 := fun i => (pow_pos (h.pos i) 2).ne'
  have hP : ∏ i, lam i ^ 2 ≠ 0 := Finset.prod_ne_zero_iff.2 fun i _ => hl i
  rw [h2, one_mul] at h1
  have e : ∑ i, 8 * rp i * ∏ j ∈ Finset.univ.erase i, lam j ^ 2 = 8 * (∑ i, rp i / lam i ^ 2) * ∏ i, lam i ^ 2 := by
    rw [Finset.mul_sum, Finset.sum_mul]
    refine Finset.sum_congr rfl fun i _ => ?_
    rw [← Finset.mul_prod_erase _ _ (Finset.mem_univ i)]
    have := (h.pos i).ne'
    field_simp
  rw [e] at h1
  have := mul_right_cancel₀ hP ((one_mul _).trans h1)
  linarith

/-- Value at infinity. -/
lemma sum_resid (hn : 0 < num) : ∑ i, rp i = num * (2 * num + 1) / 2 := by
  classical
  have hm : ∀ s : Finset (Fin num), (∏ j ∈ s, (X + C (lam j ^ 2))).coeff s.card = 1 := by
    intro s
    have h1 : (∏ j ∈ s, (X + C (lam j ^ 2))).natDegree = s.card := by
      rw [natDegree_prod_of_monic _ _ fun j _ => monic_X_add_C _]
      simp only [natDegree_X_add_C, Finset.sum_const, smul_eq_mul, mul_one]
    have h2 : (∏ j ∈ s, (X + C (lam j ^ 2))).Monic := monic_prod_of_monic _ _ fun j _ => monic_X_add_C _
    rw [← h1]
    exact h2
  have hnd : (numP (2 * num)).natDegree ≤ num - 1 := by
    unfold numP
    refine (natDegree_C_mul_le _ _).trans (natDegree_comp_le.trans ?_)
    have h1 := lomP_natDegree 1 (2 * num - 1)
    have h2 : (C (1 / 4 : ℝ) * X).natDegree ≤ 1 := (natDegree_C_mul_le _ _).trans natDegree_X_le
    calc _ ≤ (num - 1) * 1 := Nat.mul_le_mul (by omega) h2
      _ = _ := mul_one _
  have hcoef : ∀ (j m k : ℕ), k ≤ m / 2 → ((lomP j m).comp (C (1 / 4) * X)).coeff k = lomC j m k * (1 / 4) ^ k := by
    intro j m k hk
    rw [comp_C_mul_X_coeff, lomP, finsetSum_coeff, Finset.sum_eq_single k]
    · simp
    · intro b _ hb
      rw [coeff_C_mul, coeff_X_pow, if_neg hb.symm, mul_zero]
    · intro hk'
      exact absurd (Finset.mem_range.2 (by omega)) hk'
  have hP := hm Finset.univ
  rw [Finset.card_univ, Fintype.card_fin] at hP
  have e1 : (numP (2 * num) * ∏ i, (X + C (lam i ^ 2))).coeff (num - 1 + num) = (numP (2 * num)).coeff (num - 1) := by
    rw [coeff_mul_add_eq_of_natDegree_le hnd, hP, mul_one]
    refine (natDegree_prod_le _ _).trans ?_
    simp only [natDegree_X_add_C, Finset.sum_const, smul_eq_mul, mul_one, Finset.card_univ, Fintype.card_fin, le_refl]
  have e2 : (denP (2 * num) * ∑ i, C (8 * rp i) * ∏ j ∈ Finset.univ.erase i, (X + C (lam j ^ 2))).coeff (num + (num - 1))
      = (denP (2 * num)).coeff num * (8 * ∑ i, rp i) := by
    rw [coeff_mul_add_eq_of_natDegree_le (denP_natDegree num), finsetSum_coeff]
    · congr 1
      rw [Finset.mul_sum]
      refine Finset.sum_congr rfl fun i _ => ?_
      have := hm (Finset.univ.erase i)
      rw [Finset.card_erase_of_mem (Finset.mem_univ _), Finset.card_univ, Fintype.card_fin] at this
      rw [coeff_C_mul, this, mul_one]
    · refine natDegree_sum_le_of_forall_le _ _ fun i _ => (natDegree_C_mul_le _ _).trans ((natDegree_prod_le _ _).trans ?_)
      rw [Finset.sum_congr rfl fun j _ => natDegree_X_add_C _, Finset.sum_const, smul_eq_mul, mul_one,
        Finset.card_erase_of_mem (Finset.mem_univ _), Finset.card_univ, Fintype.card_fin]
  have e3 := congrArg (fun p => p.coeff (num - 1 + num)) (h.poly hn)
  simp only at e3
  rw [e1, add_comm (num - 1) num, e2, numP, denP, coeff_C_mul, coeff_C_mul, hcoef _ _ _ (by omega), hcoef _ _ _ (by omega)] at e3
  have hA : lomC 0 (2 * num) num = 1 := by
    unfold lomC
    rw [show 2 * num - num = num by omega, show 0 + 2 * num - num = 0 + num by omega, Nat.choose_self]
    have := (oddFac_pos (0 + num)).ne'
    field_simp
    simp
  have hB : lomC 1 (2 * num - 1) (num - 1) = num * (2 * num + 1) := by
    unfold lomC
    rw [show 2 * num - 1 - (num - 1) = num by omega, show 1 + (2 * num - 1) - (num - 1) = num + 1 by omega,
      show 1 + (num - 1) = num by omega, oddFac_succ, Nat.choose_symm_of_eq_add (show num = (num - 1) + 1 by omega), Nat.choose_one_right]
    have := (oddFac_pos num).ne'
    field_simp
  rw [hA, hB] at e3
  have ho := (oddFac_pos (2 * num)).ne'
  obtain ⟨m, rfl⟩ : ∃ m, num = m + 1 := ⟨num - 1, by omega⟩
  rw [Nat.add_sub_cancel, pow_succ] at e3
  have h4 : ((1 / 4 : ℝ)) ^ m ≠ 0 := by positivity
  generalize ((1 / 4 : ℝ)) ^ m = q at *
  generalize ∑ i, rp i = S at *
  field_simp at e3
  push_cast at e3 ⊢
  linarith

end IsPadeDecomp

end Gftool.Lemmas
