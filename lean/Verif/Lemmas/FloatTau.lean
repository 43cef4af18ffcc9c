import Verif.Model.Float
import Verif.Lemmas.FloatRel
import Mathlib.Analysis.SpecialFunctions.Exp

/-!
# Rounding errors of decaying exponentials: helper lemmas
-/

namespace Gftool.Lemmas

open Gftool Model Spec

/-- Decaying exponentials damp relative errors of the exponent. -/
lemma exp_perturb {u X e : ℝ} (hu : 0 < u) (hu' : u ≤ 1 / 16) (hX : 0 ≤ X) (h : |e - -X| ≤ 3 * u * X + u) :
    |Real.exp e - Real.exp (-X)| ≤ 14 * u := by
  set d := 3 * u * X + u with hd
  have hd0 : 0 ≤ d := by positivity
  obtain ⟨a1, a2⟩ := abs_le.1 h
  -- both exponents lie below -X/2 + 1/16
  have hdX : d ≤ X / 2 + 1 / 16 := by nlinarith
  have hm : ∀ x y : ℝ, x ≤ y → y ≤ -X + d → y - x ≤ d → Real.exp y - Real.exp x ≤ 14 * u := by
    intro x y hxy hy hyx
    have h1 : Real.exp y - Real.exp x ≤ Real.exp y * (y - x) := by
      have h2 := Real.add_one_le_exp (x - y)
      have h3 : Real.exp x = Real.exp y * Real.exp (x - y) := by rw [← Real.exp_add]; ring_nf
      rw [h3]
      nlinarith [Real.exp_pos y]
    have h4 : Real.exp y ≤ 2 * Real.exp (-(X / 2)) := by
      have h5 : Real.exp (1 / 16 : ℝ) ≤ 2 := by
        have h6 := Real.add_one_le_exp (-(1 / 16) : ℝ)
        have h7 : Real.exp (-(1 / 16) : ℝ) * Real.exp (1 / 16) = 1 := by rw [← Real.exp_add]; simp
        nlinarith [Real.exp_pos (1 / 16 : ℝ)]
      calc Real.exp y ≤ Real.exp (1 / 16 + -(X / 2)) := Real.exp_le_exp.2 (by linarith)
        _ = Real.exp (1 / 16) * Real.exp (-(X / 2)) := Real.exp_add _ _
        _ ≤ _ := mul_le_mul_of_nonneg_right h5 (Real.exp_pos _).le
    have h8 : Real.exp (-(X / 2)) * (X / 2 + 1) ≤ 1 := by
      have h9 : Real.exp (-(X / 2)) * Real.exp (X / 2) = 1 := by rw [← Real.exp_add]; simp
      have h11 := mul_le_mul_of_nonneg_left (Real.add_one_le_exp (X / 2)) (Real.exp_pos (-(X / 2))).le
      rwa [h9] at h11
    have h10 := Real.exp_pos (-(X / 2))
    calc Real.exp y - Real.exp x ≤ Real.exp y * (y - x) := h1
      _ ≤ 2 * Real.exp (-(X / 2)) * d := mul_le_mul h4 hyx (by linarith) (by positivity)
      _ ≤ 2 * Real.exp (-(X / 2)) * (6 * u * (X / 2 + 1)) := by
          refine mul_le_mul_of_nonneg_left ?_ (by positivity)
          rw [hd]
          nlinarith
      _ = 12 * u * (Real.exp (-(X / 2)) * (X / 2 + 1)) := by ring
      _ ≤ 12 * u * 1 := mul_le_mul_of_nonneg_left h8 (by positivity)
      _ ≤ 14 * u := by linarith
  rw [abs_le]
  rcases le_total e (-X) with hc | hc
  · have h1 := hm e (-X) hc (by linarith) (by linarith)
    have h2 := Real.exp_le_exp.2 hc
    constructor <;> linarith
  · have h1 := hm (-X) e hc (by linarith) (by linarith)
    have h2 := Real.exp_le_exp.2 hc
    constructor <;> linarith

/-- Rounded product of two factors with absolute errors, for exact factors of modulus at most one. -/
lemma prod_err {E E' F F' a b u η : ℝ} (hE : |E| ≤ 1) (hF : |F| ≤ 1) (ha : |E' - E| ≤ a) (hb : |F' - F| ≤ b) (ha1 : a ≤ 1)
    (hb1 : b ≤ 1) (hu : 0 < u) (hη : η ≤ u) (R : ℝ) (hR : |R - E' * F'| ≤ u * |E' * F'| + η) :
    |R - E * F| ≤ 2 * a + b + 5 * u := by
  have hE' : |E'| ≤ 2 := by have := abs_sub_abs_le_abs_sub E' E; linarith
  have hF' : |F'| ≤ 2 := by have := abs_sub_abs_le_abs_sub F' F; linarith
  have h1 : |E' * F'| ≤ 4 := by
    rw [abs_mul]
    nlinarith [abs_nonneg E', abs_nonneg F']
  have h2 : |E' * F' - E * F| ≤ 2 * a + b := by
    rw [show E' * F' - E * F = (E' - E) * F' + E * (F' - F) by ring]
    refine (abs_add_le _ _).trans ?_
    rw [abs_mul, abs_mul]
    nlinarith [abs_nonneg (E' - E), abs_nonneg F', abs_nonneg E, abs_nonneg (F' - F)]
  have h3 := abs_sub_le R (E' * F') (E * F)
  nlinarith

end Gftool.Lemmas
