import Verif.Lemmas.PadeFreq

/-!
# Property C06: Padé frequencies

`scipy.linalg.eig(a, b)` is trusted to return `eig`, `V` with `a V = b V diag(eig)` and `V`
invertible (`np.linalg.inv(v)` is taken in the code).  Everything else is proved, for every
matrix size.
-/

namespace Gftool.Props

open Gftool Model Lemmas Matrix Complex

/-- C06: no generalized eigenvalue vanishes. -/
theorem pade_eig_ne_zero {N : ℕ} {lam : ℂ} {v : Fin N → ℂ} (hv : v ≠ 0)
    (h : padeAC N *ᵥ v = lam • (padeBC N *ᵥ v)) : lam ≠ 0 := by
  exact eig_ne_zero hv h

/-- C06: with `lam` also `-lam` is an eigenvalue; the eigenvector has alternating signs. -/
theorem pade_eig_neg {N : ℕ} {lam : ℂ} {v : Fin N → ℂ}
    (h : padeAC N *ᵥ v = lam • (padeBC N *ᵥ v)) :
    padeAC N *ᵥ (altD N *ᵥ v) = (-lam) • (padeBC N *ᵥ (altD N *ᵥ v)) := by
  exact eig_neg h

/-- C06: all generalized eigenvalues are real. -/
theorem pade_eig_real {N : ℕ} {lam : ℂ} {v : Fin N → ℂ} (hv : v ≠ 0)
    (h : padeAC N *ᵥ v = lam • (padeBC N *ᵥ v)) : lam.im = 0 := by
  -- `star v ⬝ A v` is real and negative, `star v ⬝ B v` is real
  set a : ℂ := star v ⬝ᵥ (padeAC N *ᵥ v) with ha
  set b : ℂ := star v ⬝ᵥ (padeBC N *ᵥ v) with hb
  have hab : a = lam * b := by rw [ha, h, dotProduct_smul, smul_eq_mul]
  have key : ∀ M : Matrix (Fin N) (Fin N) ℂ, Mᴴ = M →
      (starRingEnd ℂ) (star v ⬝ᵥ (M *ᵥ v)) = star v ⬝ᵥ (M *ᵥ v) := by
    intro M hM
    conv_lhs => rw [starRingEnd_apply, star_dotProduct, star_star, star_mulVec, hM]
    rw [← dotProduct_mulVec]
  have hAr : (padeAC N)ᴴ = padeAC N := by
    ext i j
    simp only [padeAC, padeA, conjTranspose_apply, map_apply, diagonal_apply]
    by_cases hij : i = j
    · subst hij; simp
    · simp [hij, Ne.symm hij]
  have hBr : (padeBC N)ᴴ = padeBC N := by
    ext i j
    simp only [padeBC, padeB, conjTranspose_apply, map_apply, of_apply, or_comm]
    split_ifs <;> simp
  have hbim : b.im = 0 := Complex.conj_eq_iff_im.1 (key _ hBr)
  have haim : a.im = 0 := Complex.conj_eq_iff_im.1 (key _ hAr)
  have hare : a.re < 0 := by
    have : a = ((-∑ i : Fin N, (2 * (i : ℝ) + 1) * Complex.normSq (v i) : ℝ) : ℂ) := by
      rw [ha]
      simp only [dotProduct, padeAC, padeA, mulVec, map_apply, diagonal_apply]
      push_cast
      rw [← Finset.sum_neg_distrib]
      apply Finset.sum_congr rfl
      intro i _
      rw [Finset.sum_eq_single i]
      · simp only [if_true, Pi.star_apply, Complex.normSq_eq_conj_mul_self]
        push_cast
        simp only [RCLike.star_def]
        ring
      · intro c _ hc; simp [Ne.symm hc]
      · simp
    rw [this, Complex.ofReal_re, neg_lt_zero]
    obtain ⟨i, hi⟩ := Function.ne_iff.1 hv
    apply Finset.sum_pos'
    · intro j _
      have : (0 : ℝ) ≤ (j : ℕ) := Nat.cast_nonneg _
      exact mul_nonneg (by linarith) (Complex.normSq_nonneg _)
    · refine ⟨i, Finset.mem_univ _, ?_⟩
      have : (0 : ℝ) ≤ (i : ℕ) := Nat.cast_nonneg _
      exact mul_pos (by linarith) (Complex.normSq_pos.2 hi)
  have hbre : b.re ≠ 0 := by
    intro h0
    have : b = 0 := Complex.ext h0 hbim
    rw [this, mul_zero] at hab
    rw [hab] at hare
    simp at hare
  have him : a.im = lam.re * b.im + lam.im * b.re := by rw [hab, Complex.mul_im]
  rw [haim, hbim, mul_zero, zero_add] at him
  rcases mul_eq_zero.1 him.symm with h1 | h1
  · exact h1
  · exact absurd h1 hbre

/-- C06: the frequencies returned for eigenvalues are purely imaginary and non-zero. -/
theorem pade_freq_imag {N : ℕ} {lam : ℂ} {v : Fin N → ℂ} {beta : ℝ} (hb : 0 < beta) (hv : v ≠ 0)
    (h : padeAC N *ᵥ v = lam • (padeBC N *ᵥ v)) :
    (padeFreq lam beta).re = 0 ∧ padeFreq lam beta ≠ 0 := by
  have hr := pade_eig_real hv h
  have h0 := pade_eig_ne_zero hv h
  have hbc : (beta : ℂ) ≠ 0 := by exact_mod_cast hb.ne'
  constructor
  · have : lam = (lam.re : ℂ) := Complex.ext (by simp) (by simp [hr])
    rw [padeFreq, this, one_div, ← Complex.ofReal_inv]
    simp
  · rw [padeFreq]
    simp [hbc, h0]

/-- C06: eigenvalues are pairwise distinct, so frequencies are. -/
theorem pade_eig_injective {N : ℕ} (E : PadeEig N) : Function.Injective E.eig :=
  E.eig_injective

/-- C06: every frequency has a partner with opposite sign and the same residue; so the upper
half of the sorted list carries all information. -/
theorem pade_partner {N : ℕ} (E : PadeEig N) (hN : 0 < N) (k : Fin N) :
    ∃ l, E.eig l = -E.eig k ∧
      padeResid (E.V ⟨0, hN⟩ l) (E.W l ⟨0, hN⟩) (E.eig l)
        = padeResid (E.V ⟨0, hN⟩ k) (E.W k ⟨0, hN⟩) (E.eig k) := by
  refine ⟨E.partner k, E.partner_eig k, ?_⟩
  have := E.partner_weight hN k
  unfold padeResid
  rw [E.partner_eig, mul_assoc (1 / 4 : ℂ), this]
  ring

/-- C06: the frequencies are the poles and `-resids` the residues of the truncated
continued-fraction representation of the Fermi function, at every real argument. -/
theorem pade_fermi_expansion {N : ℕ} (E : PadeEig N) (hN : 0 < N) (x : ℝ) :
    (Spec.fermiApprox N x : ℂ)
      = 1 / 2 - ∑ k, padeResid (E.V ⟨0, hN⟩ k) (E.W k ⟨0, hN⟩) (E.eig k)
          / (x - I * E.eig k) := by
  have him : ∀ k, (E.eig k).im = 0 := fun k => pade_eig_real (E.col_ne_zero k) (E.col_eig k)
  have hne := E.ne_zero
  have hre : ∀ k, (E.eig k).re ≠ 0 := fun k h => hne k (Complex.ext h (him k))
  have hx : ∀ k, I * x - E.eig k ≠ 0 := by
    intro k h
    have := congrArg Complex.re h
    simp at this
    exact hre k this
  have hx2 : ∀ k, (x : ℂ) + I * E.eig k ≠ 0 := by
    intro k h
    apply hx k
    linear_combination I * h - E.eig k * I_sq
  have hsum0 : ∑ k, E.V ⟨0, hN⟩ k * E.W k ⟨0, hN⟩ * E.eig k = 0 := by
    have := E.sum_partner hN (fun w l => w * l)
    simp only [mul_neg, Finset.sum_neg_distrib] at this
    exact self_eq_neg.1 this
  have hflip := E.sum_partner hN (fun w l => 1 / 4 * w * l ^ 2 / (x - I * l))
  simp only [mul_neg, sub_neg_eq_add, neg_sq] at hflip
  have hres : ∑ k, padeResid (E.V ⟨0, hN⟩ k) (E.W k ⟨0, hN⟩) (E.eig k) / (x - I * E.eig k)
      = ∑ k, 1 / 4 * (E.V ⟨0, hN⟩ k * E.W k ⟨0, hN⟩) * E.eig k ^ 2 / (x + I * E.eig k) := by
    rw [← hflip]
    apply Finset.sum_congr rfl
    intro k _
    rw [padeResid]; ring
  rw [hres, Spec.fermiApprox]
  push_cast
  have hcf := E.cf_eq_sum hN x hx
  rw [div_eq_mul_one_div _ (Spec.fermiCF x 0 (N - 1) : ℂ), hcf, mul_neg, sub_neg_eq_add,
    Finset.mul_sum, sub_eq_add_neg, ← Finset.sum_neg_distrib]
  congr 1
  rw [← sub_eq_zero, ← Finset.sum_sub_distrib]
  have : ∑ k, (-I / 4) * (E.V ⟨0, hN⟩ k * E.W k ⟨0, hN⟩ * E.eig k) = 0 := by
    rw [← Finset.mul_sum, hsum0, mul_zero]
  rw [← this]
  apply Finset.sum_congr rfl
  intro k _
  have h1 := hx2 k
  have h2 : I * (x : ℂ) - E.eig k = I * (x + I * E.eig k) := by
    linear_combination -(E.eig k) * I_sq
  rw [h2]
  have hxd : (x : ℂ) = (x + I * E.eig k) - I * E.eig k := by ring
  have aux : ∀ d l w y : ℂ, d ≠ 0 → y = d - I * l →
      y / 4 * (w * l / (I * d)) - -(1 / 4 * w * l ^ 2 / d) = -I / 4 * (w * l) := by
    intro d l w y hd hy
    rw [hy, div_mul_eq_div_div, div_I]
    field_simp
    linear_combination (w * l ^ 2) * I_sq
  exact aux _ _ _ _ h1 hxd

/-- C06, in terms of what the API returns: the Fermi function approximation at temperature
`1/beta` has its poles at `± izp` with residues `-resids/beta`, and the frequencies in the
upper half-plane suffice to write it down. -/
theorem pade_frequencies_fermi {N : ℕ} (E : PadeEig N) (hN : 0 < N) {beta : ℝ} (hb : 0 < beta)
    (eps : ℝ) :
    (Spec.fermiApprox N (beta * eps) : ℂ)
      = 1 / 2 + ∑ k with 0 < (padeFreq (E.eig k) beta).im,
          -(padeResid (E.V ⟨0, hN⟩ k) (E.W k ⟨0, hN⟩) (E.eig k)) / beta
            * (1 / (eps - padeFreq (E.eig k) beta) + 1 / (eps + padeFreq (E.eig k) beta)) := by
  have hbc : (beta : ℂ) ≠ 0 := by exact_mod_cast hb.ne'
  have him : ∀ k, (E.eig k).im = 0 := fun k => pade_eig_real (E.col_ne_zero k) (E.col_eig k)
  have hfim : ∀ k, (padeFreq (E.eig k) beta).im = (E.eig k).re / beta := by
    intro k
    have : E.eig k = ((E.eig k).re : ℂ) := Complex.ext (by simp) (by simp [him k])
    rw [padeFreq, this, one_div, ← Complex.ofReal_inv]
    simp [div_eq_inv_mul]
    left; field_simp
  have hpos : ∀ k, 0 < (padeFreq (E.eig k) beta).im ↔ 0 < (E.eig k).re := by
    intro k; rw [hfim]; exact ⟨fun h => by
      by_contra hc
      push Not at hc
      exact absurd h (not_lt.2 (div_nonpos_of_nonpos_of_nonneg hc hb.le)), fun h => div_pos h hb⟩
  set F : ℂ → ℂ → ℂ := fun w l => 1 / 4 * w * l ^ 2 / (((beta * eps : ℝ) : ℂ) - I * l) with hF
  have hexp := pade_fermi_expansion E hN (beta * eps)
  have hF1 : ∀ k, padeResid (E.V ⟨0, hN⟩ k) (E.W k ⟨0, hN⟩) (E.eig k)
      / (((beta * eps : ℝ) : ℂ) - I * E.eig k) = F (E.V ⟨0, hN⟩ k * E.W k ⟨0, hN⟩) (E.eig k) := by
    intro k; simp only [hF, padeResid]; ring
  rw [hexp, sub_eq_add_neg, Finset.sum_congr rfl (fun k _ => hF1 k)]
  congr 1
  -- split the sum in positive and negative eigenvalues
  have hsplit := Finset.sum_filter_add_sum_filter_not (Finset.univ : Finset (Fin N))
    (fun k => 0 < (padeFreq (E.eig k) beta).im)
    (fun k => F (E.V ⟨0, hN⟩ k * E.W k ⟨0, hN⟩) (E.eig k))
  have hneg : ∑ k with ¬ 0 < (padeFreq (E.eig k) beta).im,
        F (E.V ⟨0, hN⟩ k * E.W k ⟨0, hN⟩) (E.eig k)
      = ∑ k with 0 < (padeFreq (E.eig k) beta).im,
        F (E.V ⟨0, hN⟩ k * E.W k ⟨0, hN⟩) (-E.eig k) := by
    have := E.sum_partner hN (fun w l => if 0 < l.re then 0 else F w l)
    have hne : ∀ k, (E.eig k).re ≠ 0 := fun k h => E.ne_zero k (Complex.ext h (him k))
    rw [Finset.sum_filter, Finset.sum_filter]
    simp only [hpos]
    have e1 : ∀ k, (if ¬ 0 < (E.eig k).re then F (E.V ⟨0, hN⟩ k * E.W k ⟨0, hN⟩) (E.eig k) else 0)
        = if 0 < (E.eig k).re then 0 else F (E.V ⟨0, hN⟩ k * E.W k ⟨0, hN⟩) (E.eig k) := by
      intro k; split_ifs <;> simp_all
    rw [Finset.sum_congr rfl (fun k _ => e1 k), this]
    apply Finset.sum_congr rfl
    intro k _
    rw [Complex.neg_re]
    rcases lt_or_gt_of_ne (hne k) with h | h
    · rw [if_pos (by linarith), if_neg (by linarith)]
    · rw [if_neg (by linarith), if_pos h]
  rw [← hsplit, hneg, ← Finset.sum_add_distrib, ← Finset.sum_neg_distrib]
  apply Finset.sum_congr rfl
  intro k _
  have g1 : ((beta * eps : ℝ) : ℂ) - I * E.eig k = beta * (eps - padeFreq (E.eig k) beta) := by
    rw [padeFreq]; push_cast; field_simp
  have g2 : ((beta * eps : ℝ) : ℂ) - I * -E.eig k = beta * (eps + padeFreq (E.eig k) beta) := by
    rw [padeFreq]; push_cast; field_simp; ring
  simp only [hF, padeResid]
  rw [g1, g2]
  generalize (eps : ℂ) - padeFreq (E.eig k) beta = a
  generalize (eps : ℂ) + padeFreq (E.eig k) beta = b
  rw [div_mul_eq_div_div, div_mul_eq_div_div]
  ring

/-- C06 non-vacuity: the contract is met for `num = 1` (matrix size 2), eigenvalues `±√12`. -/
noncomputable example : PadeEig 2 where
  eig := ![((Real.sqrt 12 : ℝ) : ℂ), -((Real.sqrt 12 : ℝ) : ℂ)]
  V := !![-6, -6; ((Real.sqrt 12 : ℝ) : ℂ), -((Real.sqrt 12 : ℝ) : ℂ)]
  W := !![-1/12, 1/(2*((Real.sqrt 12 : ℝ) : ℂ)); -1/12, -1/(2*((Real.sqrt 12 : ℝ) : ℂ))]
  hVW := by
    have h : ((Real.sqrt 12 : ℝ) : ℂ) ≠ 0 := by
      exact_mod_cast (Real.sqrt_pos.2 (by norm_num : (0 : ℝ) < 12)).ne'
    ext i j
    fin_cases i <;> fin_cases j <;> simp [mul_apply, Fin.sum_univ_two] <;> field_simp <;> ring
  hAV := by
    have h : ((Real.sqrt 12 : ℝ) : ℂ) * ((Real.sqrt 12 : ℝ) : ℂ) = 12 := by
      exact_mod_cast Real.mul_self_sqrt (by norm_num : (0 : ℝ) ≤ 12)
    ext i j
    fin_cases i <;> fin_cases j <;>
      simp [mul_apply, Fin.sum_univ_two, padeAC, padeBC, padeA, padeB, diagonal_apply] <;>
      first
        | ring1
        | linear_combination (-1 / 2 : ℂ) * h

end Gftool.Props
