import Verif.Spec.Statistics
import Mathlib.Data.Complex.BigOperators

/-!
# Textbook formulas for Green's functions with finitely many poles
-/

namespace Gftool.Spec

variable {ι : Type*} [Fintype ι]

/-- Lehmann form of the imaginary time Green's function,
`G(τ) = -∑ w_i (1 - f(p_i)) exp(-p_i τ)`. -/
noncomputable def lehmannTau (β : ℝ) (p w : ι → ℝ) (τ : ℝ) : ℝ :=
  -∑ i, w i * ((1 - fermi β (p i)) * Real.exp (-(p i) * τ))

/-- The same with complex poles and weights. -/
noncomputable def lehmannTauC (β : ℝ) (p w : ι → ℂ) (τ : ℝ) : ℂ :=
  -∑ i, w i * ((1 - fermiC β (p i)) * Complex.exp (-(p i) * τ))

end Gftool.Spec
