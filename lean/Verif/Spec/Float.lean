import Mathlib.Data.Real.Basic
import Mathlib.Data.Int.Log
import Mathlib.Analysis.SpecialFunctions.Pow.Real
import Mathlib.Tactic

/-!
# Floating point numbers

Binary floating point numbers with `p` digits and smallest spacing `2^kmin` (gradual underflow), and rounding to nearest.
Doubles are `p = 53`, `kmin = -1074`; the 80-bit extended format is `p = 64`, `kmin = -16445`. Overflow is not part of the
specification: there is no largest number.
-/

namespace Gftool.Spec

/-- `x` is a floating point number. (`|m| = 2^p` gives the same numbers as `|m| < 2^p`, because `k` can be increased.) -/
def IsFloat (p : ℕ) (kmin : ℤ) (x : ℝ) : Prop :=
  ∃ m k : ℤ, kmin ≤ k ∧ |m| ≤ 2 ^ p ∧ x = m * (2 : ℝ) ^ k

/-- Rounding to a nearest floating point number, with any rule for ties. -/
structure FloatArith where
  p : ℕ
  kmin : ℤ
  rnd : ℝ → ℝ
  float : ∀ x, IsFloat p kmin (rnd x)
  nearest : ∀ x y, IsFloat p kmin y → |rnd x - x| ≤ |y - x|

/-- Unit roundoff. -/
noncomputable def FloatArith.u (A : FloatArith) : ℝ := (1 / 2) ^ A.p

/-- Largest rounding error in the range of underflow. -/
noncomputable def FloatArith.eta (A : FloatArith) : ℝ := (2 : ℝ) ^ A.kmin / 2

/-- Contract of an elementary function `gFl` of the numerical libraries: `g` with a relative error of `κ` roundings, up to
underflow. -/
def Accurate (A : FloatArith) (κ : ℝ) (g gFl : ℝ → ℝ) (s : Set ℝ) : Prop :=
  ∀ x ∈ s, |gFl x - g x| ≤ κ * A.u * |g x| + A.eta

end Gftool.Spec
