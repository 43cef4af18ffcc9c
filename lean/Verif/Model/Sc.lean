import Verif.Model.Lattice

/-!
# Model of the simple cubic lattice

`gftool/lattice/sc.py`. `ellipk` is the parameter `_u_ellipk` (in the `_mp` functions: `mp.ellipk`), mpmath's complete
elliptic integral for complex arguments. `scimath.sqrt` and `mp.sqrt` are the principal square root, also for negative
real arguments. Divisions by zero (`z = 0`) are totalised.
-/

namespace Gftool.Model

/-- `gf_z`, lattice/sc.py:68-75. -/
noncomputable def scGfZ (ellipk : ℂ → ℂ) (z : ℂ) (halfBandwidth : ℝ) : ℂ :=
  let dInv : ℂ := 3 / halfBandwidth
  let z := dInv * z
  let zSqr := z ^ (-2 : ℤ)
  let xi := Complex.sqrt (1 - Complex.sqrt (1 - zSqr)) / Complex.sqrt (1 + Complex.sqrt (1 - 9 * zSqr))
  let denomInv := 1 / ((1 - xi) ^ 3 * (1 + 3 * xi))
  let k2 := 16 * xi ^ 3 * denomInv
  let gf := (1 - 9 * xi ^ 4) * (2 / Real.pi * ellipk k2) ^ 2 * denomInv / z
  dInv * gf

/-- `hilbert_transform`, lattice/sc.py:111. -/
noncomputable def scHilbert (ellipk : ℂ → ℂ) (xi : ℂ) (halfBandwidth : ℝ) : ℂ :=
  scGfZ ellipk xi halfBandwidth

/-- `dos0` of `_gen_dos_eps0_expansinon`, lattice/sc.py:117-118. -/
noncomputable def scDosZero (ellipk : ℂ → ℂ) : ℝ :=
  let km2 : ℂ := 0.25 * (2 - (√3 : ℝ))
  ((2 / Real.pi ^ 2) * ellipk km2 * ellipk (1 - km2) / Real.pi).re

/-- The arrays `d0` and `d1`, lattice/sc.py:119-120. -/
noncomputable def scD0 : List ℝ := [1, 1 / 18, 11 / 648, 19 / 2160]

@[inherit_doc scD0]
noncomputable def scD1 : List ℝ := [0, 1, 7 / 18, 5 / 24]

/-- `_dos_eps0_expansion`, lattice/sc.py:122-127: the sum over the four even orders. -/
noncomputable def scDosExpansion (ellipk : ℂ → ℂ) (eps halfBandwidth : ℝ) : ℝ :=
  let d := halfBandwidth / 3;
  let dos0 := scDosZero ellipk;
  (((scD0.zip scD1).zipIdx.map fun c =>
    (dos0 * c.1.1 - 1 / (3 * Real.pi ^ 4 * dos0) * c.1.2) * (d * eps) ^ (2 * c.2)).sum) / d

/-- Value assigned inside of the band, lattice/sc.py:197-202, for the rescaled energy. -/
noncomputable def scDosFinite (ellipk : ℂ → ℂ) (eps : ℝ) : ℝ :=
  let epsSqr : ℂ := ((eps ^ (-2 : ℤ) : ℝ) : ℂ)
  let xi := Complex.sqrt (1 - Complex.sqrt (1 - epsSqr)) / Complex.sqrt (1 + Complex.sqrt (1 - 9 * epsSqr))
  let denomInv := 1 / ((1 - xi) ^ 3 * (1 + 3 * xi))
  let k2 := 16 * xi ^ 3 * denomInv
  let gf := (1 - 9 * xi ^ 4) * (2 / Real.pi * ellipk k2) ^ 2 * denomInv / eps;
  -1.0 / Real.pi * gf.im

/-- `dos`, lattice/sc.py:185-203, for a single energy. The parameter `tol` is `np.finfo(eps.dtype).eps**0.25`, `2**-13`
for double precision. -/
noncomputable def scDos (ellipk : ℂ → ℂ) (tol eps halfBandwidth : ℝ) : ℝ :=
  let dInv := 3 / halfBandwidth
  let eps := |dInv * eps|
  dInv * (if eps < tol then scDosExpansion ellipk eps 3.0 else if eps < 3 then scDosFinite ellipk eps else 0)

/-- `gf_z_mp`, lattice/sc.py:307-314. -/
noncomputable def scGfZMp (ellipk : ℂ → ℂ) (z : ℂ) (halfBandwidth : ℝ) : ℂ :=
  let dInv : ℂ := 3 / halfBandwidth
  let z := dInv * z
  let zSqr := 1 / z ^ 2
  let xi := Complex.sqrt (1 - Complex.sqrt (1 - zSqr)) / Complex.sqrt (1 + Complex.sqrt (1 - 9 * zSqr))
  let k2 := 16 * xi ^ 3 / ((1 - xi) ^ 3 * (1 + 3 * xi))
  let green := (1 - 9 * xi ^ 4) * (2 * ellipk k2 / Real.pi) ^ 2 / ((1 - xi) ^ 3 * (1 + 3 * xi)) / z
  dInv * green

/-- `dos_mp`, lattice/sc.py:367-381. The parameter `tol` is `10**(-mp.dps/4)`. The polynomial `mp.polyval` of the
coefficients interlaced with zeros is the sum over the even orders. -/
noncomputable def scDosMp (ellipk : ℂ → ℂ) (tol eps halfBandwidth : ℝ) : ℝ :=
  let dInv := 3 / halfBandwidth
  let eps := |eps|
  if eps < tol then
    let dos0 := dInv * scDosZero ellipk
    let dos1 := 1 / (3 * Real.pi ^ 4 * dos0)
    ((scD0.zip scD1).zipIdx.map fun c => (dos0 * c.1.1 - dos1 * c.1.2) * eps ^ (2 * c.2)).sum
  else -(scGfZMp ellipk eps halfBandwidth).im / Real.pi

end Gftool.Model
