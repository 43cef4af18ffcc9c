import Verif.Spec.Pole
import Verif.Model.Pole

/-!
# Specification: quality of pole fits
-/

namespace Gftool.Spec

/-- Distance of the function `f` from the data `gf` at the points `z`. -/
noncomputable def fitDistance {k : ℕ} (z gf : Fin k → ℂ) (f : ℂ → ℂ) : ℝ := Real.sqrt (∑ i, ‖gf i - f (z i)‖ ^ 2)

/-- Distance of the function `f` from the data `g` at the `T + 1` equidistant points from 0 to `β`. -/
noncomputable def fitDistanceTau {T : ℕ} (β : ℝ) (g : Fin (T + 1) → ℝ) (f : ℝ → ℝ) : ℝ :=
  Real.sqrt (∑ i, (g i - f (β * (i : ℕ) / T)) ^ 2)

/-- The function with residues `r` and poles at the `n` Chebyshev points in the interval from -1 to 1. -/
noncomputable def chebFct {n : ℕ} (r : Fin n → ℝ) (z : ℂ) : ℂ := ∑ j, (r j : ℂ) / (z - (Model.chebyshevPoints n j : ℝ))

/-- The `m`-th moment of `∑ j, r j / (z - p j)`, starting with the coefficient of `1/z` for `m = 0`. -/
def momentOf {n : ℕ} (p r : Fin n → ℝ) (m : ℕ) : ℝ := ∑ j, r j * p j ^ m

end Gftool.Spec
