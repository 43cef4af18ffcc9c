import Mathlib.Analysis.SpecialFunctions.Trigonometric.Basic

/-!
# Change of the unit of energy

Measured in a unit that is smaller by the factor `c > 0`, energies and frequencies are `c` times larger; times and inverse
temperatures are `c` times smaller; occupations and functions of time are the same; Green's functions of a frequency
are `c` times smaller, moments of order `k` (the coefficient of `z ^ -(k + 1)`) are `c ^ k` times larger.
-/

namespace Gftool.Spec

/-- The moments in the new unit. -/
def scaleMoments {𝕜 : Type*} [RCLike 𝕜] (c : ℝ) {l : ℕ} (m : Fin l → 𝕜) (k : Fin l) : 𝕜 := (c : 𝕜) ^ (k : ℕ) * m k

/-- The Hilbert transform (local Green's function as function of the frequency) of the same lattice in the new unit. -/
noncomputable def scaleHilbert (c : ℝ) (h : ℂ → ℂ) (z : ℂ) : ℂ := h (z / c) / c

end Gftool.Spec
