import Verif.Spec.Float
import Verif.Model.Statistics
import Verif.Model.Lattice
import Verif.Model.Pole

/-!
# Functions in floating point arithmetic

The functions with every operation rounded, in the order in which Python evaluates them. `A` is the arithmetic (doubles, except
where noted); elementary functions of numpy and scipy are parameters. Negation and multiplication by powers of two are exact
and not rounded. Infinities and NaNs are not modelled.
-/

namespace Gftool.Model

open Gftool.Spec

variable (A : FloatArith)

/-- `fermi_fct` for real energies, statistics.py:96-98; `expit` is `scipy.special.expit`. -/
noncomputable def fermiFctFl (expit : ℝ → ℝ) (eps beta : ℝ) : ℝ :=
  let z := A.rnd (eps * beta)
  expit (-z)

/-- `fermi_fct_d1`, statistics.py:145-146: `(-beta*fermi)*(1-fermi)`. -/
noncomputable def fermiFctD1Fl (expit : ℝ → ℝ) (eps beta : ℝ) : ℝ :=
  let fermi := fermiFctFl A expit eps beta
  A.rnd (A.rnd (-beta * fermi) * A.rnd (1 - fermi))

/-- `fermi_fct_inv`, statistics.py:178; `logit` is `scipy.special.logit`. -/
noncomputable def fermiFctInvFl (logit : ℝ → ℝ) (fermi beta : ℝ) : ℝ :=
  A.rnd (-logit fermi / beta)

/-- `bose_fct` for float energies, statistics.py:49-58; `exp` and `expm1` are the functions of numpy. -/
noncomputable def boseFctFl (exp expm1 : ℝ → ℝ) (eps beta : ℝ) : ℝ :=
  let betaeps := A.rnd (beta * eps)
  if betaeps < 700 then A.rnd (1 / expm1 betaeps)
  else A.rnd (-exp (-betaeps) / expm1 (-betaeps))

/-- Imaginary part of `matsubara_frequencies`, statistics.py:205: `np.pi` is `π` rounded, `1j*np.pi` is exact, the division
of an imaginary number by the real `beta` and the product with the integer (converted to a float) round once. -/
noncomputable def matsubaraFl (n : ℤ) (beta : ℝ) : ℝ :=
  A.rnd (A.rnd (A.rnd Real.pi / beta) * A.rnd (2 * n + 1 : ℤ))

/-- Imaginary part of `matsubara_frequencies_b`, statistics.py:232: `2j*np.pi` is exact. -/
noncomputable def matsubaraBFl (n : ℤ) (beta : ℝ) : ℝ :=
  A.rnd (A.rnd (2 * A.rnd Real.pi / beta) * A.rnd (n : ℤ))

/-- Imaginary part of `lattice.bethe.gf_z` at the imaginary frequency `iω` (the real part is zero), lattice/bethe.py:63-69: the
quotient (line 63, external `div`) and `2./half_bandwidth` are doubles in `A`, the remaining operations `complex256` numbers
in `B`, and the result is converted to `A`. `powm2 t` is the power `(it)**-2`, a negative number, and `sqrt` the square
root of a positive number (line 68, external). -/
noncomputable def betheGfFl (B : FloatArith) (div : ℝ → ℝ → ℝ) (powm2 sqrt : ℝ → ℝ) (omega D : ℝ) : ℝ :=
  let zRel := div omega D
  A.rnd (B.rnd (B.rnd (A.rnd (2 / D) * zRel) * B.rnd (1 - sqrt (B.rnd (1 - powm2 zRel)))))

/-- `lattice.bethe.dos` for real energies, lattice/bethe.py:250-254: `np.pi` is `π` rounded; `sqrt` is `np.sqrt`. -/
noncomputable def betheDosFl (sqrt : ℝ → ℝ) (eps D : ℝ) : ℝ :=
  let epsRel := A.rnd (eps / D)
  if |epsRel| < 1 then A.rnd (A.rnd (2 / A.rnd (A.rnd Real.pi * D)) * sqrt (A.rnd (1 - A.rnd (epsRel ^ 2)))) else 0

/-- `lattice.onedim.dos` for real energies, lattice/onedim.py:142-146. At the edges of the band, where python divides by
zero, the model says nothing about the infinite value. -/
noncomputable def onedimDosFl (sqrt : ℝ → ℝ) (eps D : ℝ) : ℝ :=
  let epsRel := A.rnd (eps / D)
  if |epsRel| ≤ 1 then A.rnd (A.rnd (1 / A.rnd (A.rnd Real.pi * D)) / sqrt (A.rnd (1 - A.rnd (epsRel ^ 2)))) else 0

/-- Order of the additions of a sum: `np.sum` (_util.py:42) adds blocks pairwise. -/
inductive SumTree (ι : Type*)
  | leaf (i : ι)
  | node (l r : SumTree ι)

namespace SumTree

variable {ι : Type*}

/-- The summands. -/
def leaves : SumTree ι → List ι
  | leaf i => [i]
  | node l r => l.leaves ++ r.leaves

/-- Number of additions a summand passes. -/
def depth : SumTree ι → ℕ
  | leaf _ => 0
  | node l r => max l.depth r.depth + 1

/-- Floating point sum, rounding real and imaginary parts. -/
noncomputable def sum (f : ι → ℂ) : SumTree ι → ℂ
  | leaf i => f i
  | node l r => ⟨A.rnd ((l.sum f).re + (r.sum f).re), A.rnd ((l.sum f).im + (r.sum f).im)⟩

end SumTree

/-- `basis.pole.gf_z` for real poles, basis/pole.py:308-310 and _util.py:42; `div` is the complex division. Subtraction of a real
pole does not change the imaginary part. -/
noncomputable def poleGfFl {ι : Type*} (div : ℝ → ℂ → ℂ) (z : ℂ) (poles weights : ι → ℝ) (t : SumTree ι) : ℂ :=
  t.sum A fun i => div (weights i) ⟨A.rnd (z.re - poles i), z.im⟩

/-- `_single_pole_gf_tau` for a real pole, basis/pole.py:343-348 (the `assert` is checked in `poleGfTauFl`); `exp` is `np.exp`.
The product with the sign is exact. -/
noncomputable def singlePoleGfTauFl (exp expit : ℝ → ℝ) (tau pole beta : ℝ) : ℝ :=
  let exponent := A.rnd ((if 0 ≤ pole then -tau else A.rnd (-tau + beta)) * pole)
  A.rnd (-exp exponent * fermiFctFl A expit (-npSign pole * pole) beta)

open scoped Classical in
/-- `basis.pole.gf_tau` for real poles and weights, basis/pole.py:374-378 and _util.py:42; real sums are complex sums with
vanishing imaginary parts. -/
noncomputable def poleGfTauFl {ι : Type*} (exp expit : ℝ → ℝ) (tau : ℝ) (poles weights : ι → ℝ) (beta : ℝ) (t : SumTree ι) :
    Except Err ℝ :=
  if 0 ≤ tau ∧ tau ≤ beta then
    .ok (t.sum A fun i => (A.rnd (weights i * singlePoleGfTauFl A exp expit tau (poles i) beta) : ℂ)).re
  else .error .assertionError

/-- `_single_pole_gf_ret_t` for a real pole, basis/pole.py:381-383; `cis y` is `np.exp(-1j*y)`. The products with `-1j` are
exact. -/
noncomputable def singlePoleGfRetTFl (cis : ℝ → ℂ) (tt pole : ℝ) : ℂ :=
  if 0 ≤ tt then -Complex.I * cis (A.rnd (pole * tt)) else 0

/-- `basis.pole.gf_ret_t` for real poles and weights, basis/pole.py:406-408 and _util.py:42. -/
noncomputable def poleGfRetTFl {ι : Type*} (cis : ℝ → ℂ) (tt : ℝ) (poles weights : ι → ℝ) (t : SumTree ι) : ℂ :=
  t.sum A fun i =>
    let g := singlePoleGfRetTFl A cis tt (poles i)
    ⟨A.rnd (weights i * g.re), A.rnd (weights i * g.im)⟩

/-- `basis.pole.moments` for real poles and weights and one order, basis/pole.py:441-443 and _util.py:42; `pow` is the power
function of numpy. -/
noncomputable def poleMomentsFl {ι : Type*} (pow : ℝ → ℤ → ℝ) (poles weights : ι → ℝ) (order : ℤ) (t : SumTree ι) : ℝ :=
  (t.sum A fun i => (A.rnd (weights i * pow (poles i) (order - 1)) : ℂ)).re

/-- `PoleGf.occ` for real poles and weights, basis/pole.py:226 and _util.py:42. -/
noncomputable def poleOccFl {ι : Type*} (expit : ℝ → ℝ) (poles weights : ι → ℝ) (beta : ℝ) (t : SumTree ι) : ℝ :=
  (t.sum A fun i => (A.rnd (weights i * fermiFctFl A expit (poles i) beta) : ℂ)).re

end Gftool.Model
