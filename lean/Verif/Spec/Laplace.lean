import Mathlib.Analysis.SpecialFunctions.Integrals.Basic

/-!
# Specification for quadrature rules
-/

namespace Gftool.Spec

/-- Trapezoidal rule for the values `f` at the `n` points `t`. -/
noncomputable def trapezoid (n : ℕ) (t : ℕ → ℝ) (f : ℕ → ℂ) : ℂ :=
  ∑ k ∈ Finset.range (n - 1), ((t (k + 1) - t k : ℝ) : ℂ) * ((f k + f (k + 1)) / 2)

/-- Simpson's rule for `2 m + 1` equidistant values with spacing `d`. -/
noncomputable def simpson (m : ℕ) (d : ℝ) (f : ℕ → ℂ) : ℂ :=
  ∑ i ∈ Finset.range m, (d : ℂ) / 3 * (f (2 * i) + 4 * f (2 * i + 1) + f (2 * i + 2))

/-- `h` interpolates the values `g` at the points `t` linearly on every interval. -/
def IsPiecewiseLinear (n : ℕ) (t : ℕ → ℝ) (g : ℕ → ℂ) (h : ℝ → ℂ) : Prop :=
  ∀ k < n - 1, ∀ x ∈ Set.uIcc (t k) (t (k + 1)),
    h x = g k + ((x : ℂ) - t k) / ((t (k + 1) - t k : ℝ) : ℂ) * (g (k + 1) - g k)

end Gftool.Spec
