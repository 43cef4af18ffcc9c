import Mathlib.Analysis.SpecialFunctions.Log.Basic
import Mathlib.Analysis.SpecialFunctions.Trigonometric.Basic
import Mathlib.Data.Matrix.Basic

/-!
# Model of `gftool/statistics.py`

Exact real/complex arithmetic; one array element at a time (numpy applies the scalar
function to every element).
-/

namespace Gftool.Model

open Complex (I)

/-- `scipy.special.expit`, used in statistics.py:98 (trusted: the defining formula). -/
noncomputable def expit (x : ℝ) : ℝ := 1 / (1 + Real.exp (-x))

/-- `scipy.special.logit`, used in statistics.py:178 (trusted: the defining formula). -/
noncomputable def logit (p : ℝ) : ℝ := Real.log (p / (1 - p))

/-- `numpy.expm1`, used in statistics.py:55,57 (trusted: the defining formula). -/
noncomputable def expm1 (x : ℝ) : ℝ := Real.exp x - 1

/-- `bose_fct` for float input, statistics.py:49-58: below the threshold `700` the direct
formula, otherwise the formula with negative exponents. -/
noncomputable def boseFct (eps beta : ℝ) : ℝ :=
  let betaeps := beta * eps
  if betaeps < 700 then 1 / expm1 betaeps
  else -Real.exp (-betaeps) / expm1 (-betaeps)

/-- C-style conversion float → int (truncation towards zero), the cast numpy performs when
assigning floats into an integer array (statistics.py:55). -/
noncomputable def truncInt (x : ℝ) : ℤ := if 0 ≤ x then ⌊x⌋ else ⌈x⌉

/-- `bose_fct` for *integer* `eps` and `beta`, statistics.py:49-58: `res` is created by
`np.empty_like(betaeps)` (line 50) and hence has the integer dtype of `beta*eps`; the
assignments in lines 55 and 57 cast to that dtype. -/
noncomputable def boseFctInt (eps beta : ℤ) : ℤ :=
  truncInt (boseFct (eps : ℝ) (beta : ℝ))

/-- `fermi_fct` for real input, statistics.py:96-98. -/
noncomputable def fermiFct (eps beta : ℝ) : ℝ :=
  let z := eps * beta
  expit (-z)

/-- `fermi_fct` for complex input (`expit` raises `TypeError`), statistics.py:96,101-107:
mask `pos`, direct formula where `~pos`, negative exponents where `pos`. -/
noncomputable def fermiFctC (eps : ℂ) (beta : ℝ) : ℂ :=
  let z := eps * beta
  if 0 < z.re then
    let exp_m := Complex.exp (-z)
    exp_m / (1 + exp_m)
  else 1 / (Complex.exp z + 1)

/-- `fermi_fct_d1`, statistics.py:145-146. -/
noncomputable def fermiFctD1 (eps beta : ℝ) : ℝ :=
  let fermi := fermiFct eps beta;
  -beta * fermi * (1 - fermi)

/-- `fermi_fct_inv`, statistics.py:178. -/
noncomputable def fermiFctInv (fermi beta : ℝ) : ℝ := -logit fermi / beta

/-- `matsubara_frequencies`, statistics.py:205 (one index). -/
noncomputable def matsubaraFrequencies (n : ℤ) (beta : ℝ) : ℂ :=
  I * Real.pi / beta * (2 * n + 1)

/-- `matsubara_frequencies_b`, statistics.py:232 (one index). -/
noncomputable def matsubaraFrequenciesB (n : ℤ) (beta : ℝ) : ℂ :=
  2 * I * Real.pi / beta * n

/-- Matrix `a = -diag(1, 3, 5, …)` of `_pade_frequencies`, statistics.py:238.
`N` is the doubled size (`num = 2*num`, statistics.py:237). -/
def padeA (N : ℕ) : Matrix (Fin N) (Fin N) ℝ :=
  Matrix.diagonal fun i => -(2 * (i : ℝ) + 1)

/-- Matrix `b` of `_pade_frequencies`, statistics.py:239-241: `0.5` on the first sub- and
super-diagonal, zero elsewhere. -/
noncomputable def padeB (N : ℕ) : Matrix (Fin N) (Fin N) ℝ :=
  Matrix.of fun i j => if (i : ℕ) = j + 1 ∨ (j : ℕ) = i + 1 then 1 / 2 else 0

/-- The residue formula of `_pade_frequencies`, statistics.py:245, for one eigenvalue
`lam`, with `v0 = v[0]` the first component of the right eigenvector and
`w0 = inv(v)[:, 0]` the corresponding component of the inverse. -/
noncomputable def padeResid (v0 w0 lam : ℂ) : ℂ := 1 / 4 * v0 * w0 * lam ^ 2

/-- `pade_frequencies`, statistics.py:244 and 305, for one (generalized) eigenvalue. -/
noncomputable def padeFreq (lam : ℂ) (beta : ℝ) : ℂ := 1 / (beta : ℂ) * (I * lam)

end Gftool.Model
