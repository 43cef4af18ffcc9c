import Verif.Model.Lattice

/-!
# Model of the rectangular lattice

`gftool/lattice/rectangular.py`. `ellipk` is the parameter `_u_ellipk`, mpmath's complete elliptic
integral for complex arguments.
-/

namespace Gftool.Model

open ComplexConjugate

/-- `gf_z`, lattice/rectangular.py:76-83. `scimath.sqrt` is the principal square root. -/
noncomputable def rectangularGfZ (ellipk : ℂ → ℂ) (z : ℂ) (halfBandwidth scale : ℝ) : ℂ :=
  let D : ℂ := halfBandwidth / (1 + scale)
  let z := z / D
  let sm1p2 : ℂ := (scale - 1) ^ 2
  let k1 := 4 * scale / (z ^ 2 - sm1p2)
  let elliptic := ellipk k1
  let zInv := 1 / z
  let k1sqrt := 1 / Complex.sqrt (1 - sm1p2 * zInv ^ 2)
  2 / Real.pi / D * zInv * k1sqrt * elliptic

/-- `hilbert_transform`, lattice/rectangular.py:124. -/
noncomputable def rectangularHilbert (ellipk : ℂ → ℂ) (xi : ℂ) (halfBandwidth scale : ℝ) : ℂ :=
  rectangularGfZ ellipk xi halfBandwidth scale

/-- `dos`, lattice/rectangular.py:165-175, for a single energy. At the band edges the argument is replaced by
`1 - np.finfo(float).eps`. -/
noncomputable def rectangularDos (ellipk : ℂ → ℂ) (eps halfBandwidth scale : ℝ) : ℝ :=
  let eps := eps / halfBandwidth
  let eps := if |eps| = 1 then 1 - 2 ^ (-52 : ℤ) else eps
  if |eps| ≤ 1 then
    let kmod : ℝ := 4 * scale / (scale + 1) ^ 2 / (1 - eps ^ 2)
    let elliptic := ellipk (kmod : ℂ)
    let factor := 1.0 / Real.pi ^ 2 * (1 + scale) / √scale / halfBandwidth
    |factor * √kmod * (conj elliptic).re|
  else 0

end Gftool.Model
