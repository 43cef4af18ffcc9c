import Mathlib.Analysis.SpecialFunctions.Integrals.Basic

/-!
# Specification for Fourier and Laplace transforms of sampled functions
-/

namespace Gftool.Spec

/-- `h` is the linear spline through the `T + 1` values `g` at the points `a, a + d, a + 2d, …`. -/
def IsLinSpline {T : ℕ} (g : Fin (T + 1) → ℂ) (a d : ℝ) (h : ℝ → ℂ) : Prop :=
  ∀ k : Fin T, ∀ τ ∈ Set.uIcc (a + (k : ℕ) * d) (a + ((k : ℕ) + 1) * d),
    h τ = g k.castSucc + ((τ : ℂ) - (a + (k : ℕ) * d)) / d * (g k.succ - g k.castSucc)

/-- Trapezoidal rule for `T + 1` values at equidistant points with spacing `d`. -/
noncomputable def trapz {T : ℕ} (f : Fin (T + 1) → ℂ) (d : ℝ) : ℂ :=
  ∑ k : Fin T, d * (f k.castSucc + f k.succ) / 2

end Gftool.Spec
