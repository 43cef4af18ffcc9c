import Verif.Lemmas.FloatTau
import Mathlib.Analysis.SpecialFunctions.Trigonometric.Bounds
import Mathlib.Analysis.Complex.Trigonometric

/-!
# Rounding errors of phase factors: helper lemmas
-/

namespace Gftool.Lemmas

open Gftool Model Spec

/-- Phase factors of neighbouring phases. -/
lemma cis_sub (x y : ℝ) : ‖Complex.exp (-Complex.I * x) - Complex.exp (-Complex.I * y)‖ ≤ |x - y| := by
  have h1 : Complex.exp (-Complex.I * x) - Complex.exp (-Complex.I * y) =
      Complex.exp ((-y : ℝ) * Complex.I) * (Complex.exp (Complex.I * (y - x : ℝ)) - 1) := by
    rw [mul_sub, ← Complex.exp_add, mul_one]
    congr 2
    · push_cast
      ring
    · push_cast
      ring
  rw [h1, norm_mul, Complex.norm_exp_ofReal_mul_I, one_mul, abs_sub_comm, ← Real.norm_eq_abs]
  exact Real.norm_exp_I_mul_ofReal_sub_one_le

/-- Rounding of both components. -/
lemma rnd_comp_err (A : FloatArith) (z : ℂ) : ‖(⟨A.rnd z.re, A.rnd z.im⟩ : ℂ) - z‖ ≤ 2 * A.u * ‖z‖ + 2 * A.eta := by
  refine (Complex.norm_le_abs_re_add_abs_im _).trans ?_
  have h1 := rnd_err' A z.re
  have h2 := rnd_err' A z.im
  have h3 := mul_le_mul_of_nonneg_left (Complex.abs_re_le_norm z) (u_pos A).le
  have h4 := mul_le_mul_of_nonneg_left (Complex.abs_im_le_norm z) (u_pos A).le
  simp only [Complex.sub_re, Complex.sub_im]
  linarith

end Gftool.Lemmas
