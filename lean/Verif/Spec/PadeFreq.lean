import Mathlib.Analysis.SpecialFunctions.Exp

/-!
# Truncated continued fraction of the Fermi function

`f(x) = 1/2 - (x/4) / (1 + (x/2)²/(3 + (x/2)²/(5 + …)))`  (Ozaki 2007).
-/

namespace Gftool.Spec

/-- `fermiCF x j k` is the continued fraction
`(2j+1) + (x/2)²/((2j+3) + (x/2)²/(… + (x/2)²/(2(j+k)+1)))` with `k` nested levels. -/
noncomputable def fermiCF (x : ℝ) : ℕ → ℕ → ℝ
  | j, 0 => 2 * j + 1
  | j, k + 1 => 2 * j + 1 + (x / 2) ^ 2 / fermiCF x (j + 1) k

/-- Continued-fraction approximation of the Fermi function at `β ε = x` with `N` levels. -/
noncomputable def fermiApprox (N : ℕ) (x : ℝ) : ℝ := 1 / 2 - x / 4 / fermiCF x 0 (N - 1)

end Gftool.Spec
