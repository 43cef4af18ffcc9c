import Mathlib.Analysis.SpecialFunctions.Exp

/-!
# Textbook definitions for the distribution functions
-/

namespace Gftool.Spec

/-- Fermi-Dirac distribution. -/
noncomputable def fermi (β ε : ℝ) : ℝ := 1 / (Real.exp (β * ε) + 1)

/-- Fermi-Dirac distribution for complex energies. -/
noncomputable def fermiC (β : ℝ) (ε : ℂ) : ℂ := 1 / (Complex.exp (β * ε) + 1)

/-- Bose-Einstein distribution. -/
noncomputable def bose (β ε : ℝ) : ℝ := 1 / (Real.exp (β * ε) - 1)

end Gftool.Spec
