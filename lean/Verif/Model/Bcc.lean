import Verif.Model.Statistics
import Verif.Model.Lattice
import Mathlib.Algebra.Order.Round

/-!
# Model of the body-centred cubic lattice

`gftool/lattice/bcc.py`. `ellipk` is the parameter `_u_ellipk` (in `dos_mp`: `mp.ellipk`), mpmath's complete
elliptic integral for complex arguments. The value `np.inf` (`mp.inf`) is `⊤`.
-/

namespace Gftool.Model

/-- `gf_z`, lattice/bcc.py:63-66. `scimath.sqrt` is the principal square root, also for negative real arguments.
Division by zero (`z = 0`) is totalised. -/
noncomputable def bccGfZ (ellipk : ℂ → ℂ) (z : ℂ) (halfBandwidth : ℝ) : ℂ :=
  let zRel := z / halfBandwidth
  let m := 0.5 * (1 - Complex.sqrt (1 - zRel ^ (-2 : ℤ)))
  4 / (Real.pi ^ 2 * z) * ellipk m ^ 2

/-- `hilbert_transform`, lattice/bcc.py:102. -/
noncomputable def bccHilbert (ellipk : ℂ → ℂ) (xi : ℂ) (halfBandwidth : ℝ) : ℂ :=
  bccGfZ ellipk xi halfBandwidth

/-- The value assigned for finite energies, lattice/bcc.py:154-156. -/
noncomputable def bccDosFinite (ellipk : ℂ → ℂ) (eps halfBandwidth : ℝ) : ℝ :=
  let epsRel := eps / halfBandwidth
  let m : ℂ := 0.5 - 0.5 * Complex.I * (√(epsRel ^ (-2 : ℤ) - 1) : ℝ)
  let ksqr := ellipk m ^ 2;
  -4 / (Real.pi ^ 3 * |eps|) * ksqr.im

/-- `dos`, lattice/bcc.py:148-158, for a single energy of floating point type. -/
noncomputable def bccDos (ellipk : ℂ → ℂ) (eps halfBandwidth : ℝ) : WithTop ℝ :=
  let epsRel := eps / halfBandwidth
  if epsRel = 0 then ⊤
  else if |epsRel| ≤ 1 then (bccDosFinite ellipk eps halfBandwidth : ℝ)
  else ((0 : ℝ) : WithTop ℝ)

/-- `dos_[mask] = np.inf` for an array of integers, lattice/bcc.py:157 and lattice/fcc.py:181. NumPy converts the value
to the type of the array before it looks at the mask, so the assignment raises `OverflowError` (`none`) for every
mask. -/
def intAssignInf (_value : ℤ) (_mask : Bool) : Option ℤ := none

/-- Array `dos_` of `dos`, lattice/bcc.py:148-156, for a single energy of integer type: `np.zeros_like(eps)` is an array
of integers, so the values are truncated on assignment. -/
noncomputable def bccDosIntFinite (ellipk : ℂ → ℂ) (eps : ℤ) (halfBandwidth : ℝ) : ℤ :=
  let epsRel : ℝ := eps / halfBandwidth
  if |epsRel| ≤ 1 ∧ ¬epsRel = 0 then truncInt (bccDosFinite ellipk eps halfBandwidth) else 0

/-- `dos`, lattice/bcc.py:148-158, for a single energy of integer type. -/
noncomputable def bccDosInt (ellipk : ℂ → ℂ) (eps : ℤ) (halfBandwidth : ℝ) : Option ℤ :=
  intAssignInf (bccDosIntFinite ellipk eps halfBandwidth) (decide ((eps : ℝ) / halfBandwidth = 0))

/-- `dos_mp`, lattice/bcc.py:271-279. `mp.powm1(x, y)` is `x**y - 1`. -/
noncomputable def bccDosMp (ellipk : ℂ → ℂ) (eps halfBandwidth : ℝ) : WithTop ℝ :=
  if |eps| > halfBandwidth then ((0 : ℝ) : WithTop ℝ)
  else if eps = 0 then ⊤
  else
    let epsRel := eps / halfBandwidth
    let m : ℂ := 0.5 - 0.5 * Complex.I * Complex.sqrt ((epsRel ^ (-2 : ℤ) - 1 : ℝ) : ℂ)
    let ksqr := ellipk m ^ 2
    ((-4 / (Real.pi ^ 3 * |eps|) * ksqr.im : ℝ) : WithTop ℝ)

end Gftool.Model
