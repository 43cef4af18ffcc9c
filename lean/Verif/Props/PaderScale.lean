import Verif.Props.Hermpade

/-!
# The numerical rank in `pader` does not depend on the scale of the series (C35)
-/

namespace Gftool.Props

open Gftool Model

/-- What is required of the singular values: they scale with the matrix, and they come in descending order. -/
structure SvdVals.Contract (svd : SvdVals) : Prop where
  smul : ∀ {n : ℕ} (c : ℂ) (m : Matrix (Fin n) (Fin (n + 1)) ℂ), svd.vals (c • m) = (svd.vals m).map (‖c‖ * ·)
  sorted : ∀ {n : ℕ} (m : Matrix (Fin n) (Fin (n + 1)) ℂ), (svd.vals m).Pairwise (· ≥ ·)

lemma paderMat_smul (c : ℂ) (an : ℕ → ℂ) (m n : ℕ) : paderMat (fun k => c * an k) m n = c • paderMat an m n := by
  ext i j
  simp only [paderMat, Matrix.of_apply, Matrix.smul_apply, smul_eq_mul, toeplitz]
  split_ifs <;> simp

/-- C35: the numerical rank is the number of singular values larger than `rcond` times the largest one, so the
decision of `pader` to reduce the degrees does not depend on the scale of the series. -/
theorem pader_rho_scale {svd : SvdVals} (hsvd : SvdVals.Contract svd) {c : ℂ} (hc : c ≠ 0) (an : ℕ → ℂ) (rcond : ℝ) (m n : ℕ) :
    paderRho svd (fun k => c * an k) rcond m n = paderRho svd an rcond m n := by
  classical
  unfold paderRho
  simp only
  rw [paderMat_smul, hsvd.smul, List.countP_map]
  have hpos : 0 < ‖c‖ := norm_pos_iff.2 hc
  congr 1
  funext x
  simp only [Function.comp_apply, decide_eq_decide]
  cases svd.vals (paderMat an m n) with
  | nil => simp [hpos]
  | cons a l =>
    simp only [List.map_cons, List.headD_cons]
    rw [show rcond * (‖c‖ * a) = ‖c‖ * (rcond * a) by ring, mul_lt_mul_iff_right₀ hpos]

/-- C35: with a tolerance below one, no degree is reduced exactly if all singular values are larger than `rcond` times
each other one. -/
theorem pader_rho_full_iff {svd : SvdVals} (hsvd : SvdVals.Contract svd) (an : ℕ → ℂ) {rcond : ℝ} (hr : 0 ≤ rcond) (m n : ℕ) :
    paderRho svd an rcond m n = n ↔ ∀ x ∈ svd.vals (paderMat an m n), ∀ y ∈ svd.vals (paderMat an m n), rcond * y < x := by
  classical
  unfold paderRho
  simp only
  have hlen := svd.length (paderMat an m n)
  have hs := hsvd.sorted (paderMat an m n)
  generalize svd.vals (paderMat an m n) = s at hlen hs
  have h1 : (List.countP (fun x => decide (rcond * s.headD 0 < x)) s = n) ↔ ∀ x ∈ s, rcond * s.headD 0 < x := by
    rw [← hlen, List.countP_eq_length]
    simp
  rw [h1]
  refine forall₂_congr fun x _ => ?_
  cases s with
  | nil => simp at *
  | cons a l =>
    simp only [List.headD_cons]
    constructor
    · intro h y hy
      have : y ≤ a := by
        rcases List.mem_cons.1 hy with rfl | hy
        · exact le_rfl
        · exact (List.pairwise_cons.1 hs).1 y hy
      nlinarith
    · intro h
      exact h a (by simp)

example : ∃ svd : SvdVals, SvdVals.Contract svd ∧ ∃ m : Matrix (Fin 1) (Fin 2) ℂ, svd.vals m = [1] := by
  refine ⟨⟨fun {n} m => List.replicate n (∑ i, ∑ j, ‖m i j‖), fun {n} m => by simp⟩, ⟨?_, ?_⟩, fun _ j => if j = 0 then 1 else 0, ?_⟩
  · intro n c m
    simp [Finset.mul_sum]
  · intro n m
    exact List.pairwise_replicate.2 (Or.inr le_rfl)
  · simp [Fin.sum_univ_succ]

end Gftool.Props
