import Mathlib.Analysis.SpecialFunctions.Exp
import Mathlib.Analysis.SpecialFunctions.Trigonometric.Basic

/-!
# Exponential functions with a limited range

In floating point arithmetic `exp(x)` overflows for `x > 709.78…`.
-/

namespace Gftool.Spec

/-- The exponential functions of the numerical libraries, for complex and real numbers. -/
structure ExpLib where
  exp : ℂ → ℂ
  expm1 : ℂ → ℂ
  rexp : ℝ → ℝ
  rexpm1 : ℝ → ℝ

/-- The functions are only right as long as the real part of the argument is at most `m`; the result for larger arguments, which may
overflow, is arbitrary. -/
structure ExpLib.RightUpTo (L : ExpLib) (m : ℝ) : Prop where
  exp : ∀ a : ℂ, a.re ≤ m → L.exp a = Complex.exp a
  expm1 : ∀ a : ℂ, a.re ≤ m → L.expm1 a = Complex.exp a - 1
  rexp : ∀ a : ℝ, a ≤ m → L.rexp a = Real.exp a
  rexpm1 : ∀ a : ℝ, a ≤ m → L.rexpm1 a = Real.exp a - 1

/-- The exact functions. -/
noncomputable def exactLib : ExpLib := ⟨Complex.exp, fun a => Complex.exp a - 1, Real.exp, fun a => Real.exp a - 1⟩

open scoped Classical in
/-- Functions which return `0` for every argument larger than `m`. -/
noncomputable def brokenLib (m : ℝ) : ExpLib where
  exp a := if a.re ≤ m then Complex.exp a else 0
  expm1 a := if a.re ≤ m then Complex.exp a - 1 else 0
  rexp a := if a ≤ m then Real.exp a else 0
  rexpm1 a := if a ≤ m then Real.exp a - 1 else 0

end Gftool.Spec
