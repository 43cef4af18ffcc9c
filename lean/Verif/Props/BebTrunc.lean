import Verif.Props.Beb

/-!
# C25: error of the truncation of the hopping matrix
-/

namespace Gftool.Props

open Gftool Model Lemmas Matrix Spec

variable {n : ℕ}

/-- Cauchy-Schwarz for two rows of a unitary matrix. -/
lemma unitary_rows_le {u : Matrix (Fin n) (Fin n) ℂ} (hu : u ∈ Matrix.unitaryGroup (Fin n) ℂ) (a b : Fin n) :
    ∑ i, ‖u a i‖ * ‖u b i‖ ≤ 1 := by
  have hrow : ∀ a, ∑ i, ‖u a i‖ ^ 2 = 1 := by
    intro a
    have h := congrFun (congrFun (Matrix.mem_unitaryGroup_iff.1 hu) a) a
    rw [Matrix.mul_apply, Matrix.one_apply_eq] at h
    have h2 : ∀ i, u a i * (star u) i a = ((‖u a i‖ ^ 2 : ℝ) : ℂ) := by
      intro i
      rw [star_apply, RCLike.star_def, RCLike.mul_conj]
      norm_cast
    rw [Finset.sum_congr rfl fun i _ => h2 i] at h
    exact_mod_cast h
  have h := Finset.sum_le_sum fun i (_ : i ∈ Finset.univ) => two_mul_le_add_sq ‖u a i‖ ‖u b i‖
  rw [Finset.sum_add_distrib, hrow a, hrow b] at h
  have h2 : ∑ i, 2 * ‖u a i‖ * ‖u b i‖ = 2 * ∑ i, ‖u a i‖ * ‖u b i‖ := by
    rw [Finset.mul_sum]
    exact Finset.sum_congr rfl fun i _ => mul_assoc _ _ _
  rw [h2] at h
  linarith

open scoped Classical in
/-- C25: truncating the spectral decomposition changes every element of the hopping matrix at most by `rcond` times the
largest modulus of the eigenvalues; a mode is discarded only if its eigenvalue is that small. By default `rcond` is the
machine precision times the number of components. -/
theorem beb_truncate_error (ext : EigExt) (hopping : Matrix (Fin n) (Fin n) ℂ)
    (hh : hopping.IsHermitian) (rcond : Option ℝ) (hr : ∀ r, rcond = some r → 0 ≤ r) :
    ∃ dec, decomposeHer ext hopping true = .ok dec ∧ IsDecomposition hopping dec ∧ ∀ a b,
      ‖hopping a b - ((truncate dec.rv (fun i => (dec.eig i).re) dec.rvInv rcond).us
          * (truncate dec.rv (fun i => (dec.eig i).re) dec.rvInv rcond).suh) a b‖
        ≤ rcond.getD ((2 : ℝ) ^ (-52 : ℤ) * n) * ⨆ j, ‖dec.eig j‖ := by
  obtain ⟨dec, hdec, hD, him, hinv, hu⟩ := decompose_her_correct ext hopping hh true
  refine ⟨dec, hdec, hD, fun a b => ?_⟩
  have hre : ∀ i, (((dec.eig i).re : ℝ) : ℂ) = dec.eig i := fun i =>
    Complex.ext (by simp) (by simp [him i])
  have habs : ∀ i, |(dec.eig i).re| = ‖dec.eig i‖ := fun i => by
    rw [← Real.norm_eq_abs, ← Complex.norm_real, hre]
  set R := rcond.getD ((2 : ℝ) ^ (-52 : ℤ) * n) with hR
  have hR0 : 0 ≤ R := by
    rw [hR]
    cases rcond with
    | none => simp only [Option.getD_none]; positivity
    | some r => exact hr r rfl
  set M := ⨆ j, ‖dec.eig j‖ with hM
  have hM0 : 0 ≤ M := Real.iSup_nonneg fun _ => norm_nonneg _
  have hsig : ∀ i, ¬ Significant (fun i => (dec.eig i).re) rcond i → ‖dec.eig i‖ ≤ R * M := by
    intro i hi
    unfold Significant at hi
    simp only [habs] at hi
    have := not_lt.1 hi
    rw [mul_comm] at this
    exact this
  have hdiff : hopping a b - ((truncate dec.rv (fun i => (dec.eig i).re) dec.rvInv rcond).us
          * (truncate dec.rv (fun i => (dec.eig i).re) dec.rvInv rcond).suh) a b
      = ∑ i with ¬ Significant (fun i => (dec.eig i).re) rcond i, dec.rv a i * dec.eig i * dec.rvInv i b := by
    rw [us_mul_suh]
    conv_lhs => lhs; rw [hD.eq]
    rw [Matrix.mul_apply, Matrix.mul_apply]
    simp only [truncate, mul_diagonal, of_apply, hre]
    rw [← Finset.sum_filter_add_sum_filter_not Finset.univ
      (fun i => Significant (fun i => (dec.eig i).re) rcond i)
      (fun i => dec.rv a i * dec.eig i * dec.rvInv i b),
      Finset.sum_subtype (Finset.univ.filter fun i =>
      Significant (fun i => (dec.eig i).re) rcond i)
      (p := Significant (fun i => (dec.eig i).re) rcond) (by simp), add_sub_cancel_left]
  rw [hdiff]
  calc ‖∑ i with ¬ Significant (fun i => (dec.eig i).re) rcond i, dec.rv a i * dec.eig i * dec.rvInv i b‖
      ≤ ∑ i with ¬ Significant (fun i => (dec.eig i).re) rcond i, ‖dec.rv a i * dec.eig i * dec.rvInv i b‖ :=
        norm_sum_le _ _
    _ ≤ ∑ i with ¬ Significant (fun i => (dec.eig i).re) rcond i, (R * M) * (‖dec.rv a i‖ * ‖dec.rv b i‖) := by
        refine Finset.sum_le_sum fun i hi => ?_
        rw [hinv, conjTranspose_apply, norm_mul, norm_mul, norm_star]
        have := hsig i (Finset.mem_filter.1 hi).2
        calc ‖dec.rv a i‖ * ‖dec.eig i‖ * ‖dec.rv b i‖ = ‖dec.eig i‖ * (‖dec.rv a i‖ * ‖dec.rv b i‖) := by ring
          _ ≤ _ := mul_le_mul_of_nonneg_right this (by positivity)
    _ ≤ ∑ i, (R * M) * (‖dec.rv a i‖ * ‖dec.rv b i‖) :=
        Finset.sum_le_sum_of_subset_of_nonneg (Finset.filter_subset _ _) fun i _ _ => by positivity
    _ = (R * M) * ∑ i, ‖dec.rv a i‖ * ‖dec.rv b i‖ := by rw [Finset.mul_sum]
    _ ≤ (R * M) * 1 := mul_le_mul_of_nonneg_left (unitary_rows_le hu a b) (mul_nonneg hR0 hM0)
    _ = R * M := mul_one _

/-- The default value for two components. -/
example : (none : Option ℝ).getD ((2 : ℝ) ^ (-52 : ℤ) * (2 : ℕ)) = (2 : ℝ) ^ (-51 : ℤ) := by
  norm_num

end Gftool.Props
