import Verif.Model.Matrix
import Mathlib.Analysis.Matrix.Spectrum
import Mathlib.Tactic

/-!
# The contract `EigExt` of the external eigenvalue routines can be met
-/

namespace Gftool.Lemmas

open Gftool.Model Matrix

lemma lowerHer_isHermitian {n : ℕ} (a : Matrix (Fin n) (Fin n) ℂ) : (lowerHer a).IsHermitian := by
  ext i j
  simp only [conjTranspose_apply, lowerHer, of_apply]
  rcases lt_trichotomy i j with h | h | h
  · simp [h, h.not_gt]
  · subst h; simp
  · simp [h, h.not_gt]

/-- A Hermitian matrix is determined by its lower triangle. -/
lemma lowerHer_eq {n : ℕ} {a : Matrix (Fin n) (Fin n) ℂ} (h : a.IsHermitian) : lowerHer a = a := by
  ext i j
  simp only [lowerHer, of_apply]
  have hij := h.apply
  split_ifs with h1 h2
  · rfl
  · exact hij i j
  · have : i = j := le_antisymm (not_lt.1 h1) (not_lt.1 h2)
    subst this
    exact Complex.conj_eq_iff_re.1 (hij i i)

open scoped Classical in
/-- The contract can be met (for `eig`: with a regular eigenvector matrix whenever there is
one). -/
noncomputable def eigExt : EigExt where
  eigh a := ((lowerHer_isHermitian a).eigenvalues, (lowerHer_isHermitian a).eigenvectorUnitary)
  eigh_unitary a := (lowerHer_isHermitian a).eigenvectorUnitary.2
  eigh_eig a := by
    have h := (lowerHer_isHermitian a).spectral_theorem
    have hu := Matrix.mem_unitaryGroup_iff'.1 (lowerHer_isHermitian a).eigenvectorUnitary.2
    have h2 := congrArg
      (· * ((lowerHer_isHermitian a).eigenvectorUnitary : Matrix (Fin _) (Fin _) ℂ)) h
    simp only [Unitary.conjStarAlgAut_apply, Matrix.mul_assoc] at h2
    rw [hu, Matrix.mul_one] at h2
    exact h2
  eig {n} _ _ a := if h : ∃ p : (n → ℂ) × Matrix n n ℂ,
      p.2.det ≠ 0 ∧ a * p.2 = p.2 * Matrix.diagonal p.1 then h.choose else (0, 0)
  eig_eig {n} _ _ a := by
    split_ifs with h
    · exact h.choose_spec.2
    · simp

end Gftool.Lemmas
