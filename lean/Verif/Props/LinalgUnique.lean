import Verif.Props.Linalg
import Verif.Lemmas.LstsqLinear

/-!
# Property C15: `lstsq_ec` is determined by its specification
-/

namespace Gftool.Props

open Gftool Model Lemmas Matrix

variable {𝕜 : Type*} [RCLike 𝕜]

/-- C15: with a full-rank constraint matrix there is only one vector that meets the constraints with minimal residual
and smallest norm, and `lstsq_ec` returns it. -/
theorem lstsq_ec_unique (ext : LinalgExt 𝕜) {m n l : ℕ} (a : Matrix (Fin m) (Fin n) 𝕜)
    (b : Fin m → 𝕜) (c : Matrix (Fin l) (Fin n) 𝕜) (d : Fin l → 𝕜) (hn : n ≠ 0)
    (hc : c.rank = l) (y : Fin n → 𝕜) (hy : c *ᵥ y = d)
    (h1 : ∀ x, c *ᵥ x = d → sqNorm (a *ᵥ y - b) ≤ sqNorm (a *ᵥ x - b))
    (h2 : ∀ x, c *ᵥ x = d → sqNorm (a *ᵥ x - b) = sqNorm (a *ᵥ y - b) → sqNorm y ≤ sqNorm x) :
    lstsqEc ext a b c d = .ok y := by
  obtain ⟨x, hx, hcx, hopt⟩ := lstsq_ec_optimal ext a b c d hn hc
  have hnorm := lstsq_ec_min_norm ext a b c d hn hc hx
  rw [hx]
  congr 1
  have r1 : sqNorm (a *ᵥ y - b) = sqNorm (a *ᵥ x - b) := le_antisymm (h1 x hcx) (hopt y hy)
  have hmid : a *ᵥ ((1 / 2 : 𝕜) • (y + x)) - b = (1 / 2 : 𝕜) • ((a *ᵥ y - b) + (a *ᵥ x - b)) := by
    rw [mulVec_smul, mulVec_add, smul_add, smul_add, smul_sub, smul_sub]
    have : b = (1 / 2 : 𝕜) • b + (1 / 2 : 𝕜) • b := by rw [← add_smul]; norm_num
    nth_rw 1 [this]
    abel
  have hmidc : c *ᵥ ((1 / 2 : 𝕜) • (y + x)) = d := by
    rw [mulVec_smul, mulVec_add, hy, hcx, ← two_smul 𝕜, smul_smul]
    norm_num
  have hA : a *ᵥ y - b = a *ᵥ x - b := by
    have h3 := h1 ((1 / 2 : 𝕜) • (y + x)) hmidc
    rw [hmid, sqNorm_midpoint, r1] at h3
    exact sub_eq_zero.1 (sqNorm_eq_zero' (by linarith))
  have r2 : sqNorm y = sqNorm x := le_antisymm (h2 x hcx r1.symm) (hnorm y hy r1)
  have h4 := h2 ((1 / 2 : 𝕜) • (y + x)) hmidc (by
    rw [hmid, hA, ← two_smul 𝕜, smul_smul]; norm_num)
  rw [sqNorm_midpoint, r2] at h4
  exact (sub_eq_zero.1 (sqNorm_eq_zero' (by linarith))).symm

/-- C15: the result does not depend on the details of the QR decomposition and of the least squares routine. -/
theorem lstsq_ec_ext_independent (ext ext' : LinalgExt 𝕜) {m n l : ℕ} (a : Matrix (Fin m) (Fin n) 𝕜)
    (b : Fin m → 𝕜) (c : Matrix (Fin l) (Fin n) 𝕜) (d : Fin l → 𝕜) (hn : n ≠ 0) (hc : c.rank = l) :
    lstsqEc ext a b c d = lstsqEc ext' a b c d := by
  obtain ⟨x, hx, hcx, hopt⟩ := lstsq_ec_optimal ext' a b c d hn hc
  rw [hx]
  exact lstsq_ec_unique ext a b c d hn hc x hcx hopt (lstsq_ec_min_norm ext' a b c d hn hc hx)

/-- C15: the result only depends on the set of vectors that meet the constraints and on the residuals up to a common
positive factor. -/
theorem lstsq_ec_congr (ext : LinalgExt 𝕜) {m m' n l : ℕ} (a : Matrix (Fin m) (Fin n) 𝕜) (b : Fin m → 𝕜)
    (c : Matrix (Fin l) (Fin n) 𝕜) (d : Fin l → 𝕜) (a' : Matrix (Fin m') (Fin n) 𝕜) (b' : Fin m' → 𝕜)
    (c' : Matrix (Fin l) (Fin n) 𝕜) (d' : Fin l → 𝕜) (hn : n ≠ 0) (hc : c.rank = l) (hc' : c'.rank = l)
    {r : ℝ} (hr : 0 < r) (h1 : ∀ x, sqNorm (a' *ᵥ x - b') = r * sqNorm (a *ᵥ x - b))
    (h2 : ∀ x, c' *ᵥ x = d' ↔ c *ᵥ x = d) : lstsqEc ext a' b' c' d' = lstsqEc ext a b c d := by
  obtain ⟨x, hx, hcx, hopt⟩ := lstsq_ec_optimal ext a b c d hn hc
  rw [hx]
  refine lstsq_ec_unique ext a' b' c' d' hn hc' x ((h2 x).2 hcx) (fun y hy => ?_) fun y hy hyx => ?_
  · rw [h1, h1]
    exact mul_le_mul_of_nonneg_left (hopt y ((h2 y).1 hy)) hr.le
  · rw [h1, h1] at hyx
    exact lstsq_ec_min_norm ext a b c d hn hc hx y ((h2 y).1 hy) (mul_left_cancel₀ hr.ne' hyx)

/-- The smallest vector is chosen: one constraint `x₀ + x₁ = 2` for two unknowns, nothing to fit. -/
example (ext : LinalgExt ℝ) :
    lstsqEc ext (0 : Matrix (Fin 1) (Fin 2) ℝ) ![0] !![(1 : ℝ), 1] ![2] = .ok ![1, 1] := by
  have hc : (!![(1 : ℝ), 1] : Matrix (Fin 1) (Fin 2) ℝ).rank = 1 := by
    refine le_antisymm (by simpa using Matrix.rank_le_height _) ?_
    have h : (!![(1 : ℝ), 1] : Matrix (Fin 1) (Fin 2) ℝ) * !![(1 : ℝ); 0] = 1 := by
      ext i j; fin_cases i; fin_cases j; simp
    have h2 := Matrix.rank_mul_le_left (!![(1 : ℝ), 1] : Matrix (Fin 1) (Fin 2) ℝ) !![(1 : ℝ); 0]
    rw [h, Matrix.rank_one] at h2
    simpa using h2
  have e : ∀ x : Fin 2 → ℝ, !![(1 : ℝ), 1] *ᵥ x = ![2] ↔ x 0 + x 1 = 2 := fun x => by
    constructor
    · intro h
      have := congrFun h 0
      simpa [mulVec, dotProduct, Fin.sum_univ_two] using this
    · intro h
      funext i
      fin_cases i
      simpa [mulVec, dotProduct, Fin.sum_univ_two] using h
  refine lstsq_ec_unique ext _ _ _ _ (by norm_num) hc _ ((e _).2 (by norm_num)) (fun x hx => by simp) fun x hx _ => ?_
  have := (e x).1 hx
  simp only [sqNorm, Fin.sum_univ_two, Real.norm_eq_abs, sq_abs]
  norm_num
  nlinarith [sq_nonneg (x 0 - x 1)]

end Gftool.Props
