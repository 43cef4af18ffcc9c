import Verif.Model.Lattice

/-!
# Model of the triangular lattice

`gftool/lattice/triangular.py`. The complete elliptic integrals are parameters: `ellipk` is `_u_ellipk`
(mpmath's elliptic integral for complex arguments), `ellipkm1` is `scipy.special.ellipkm1`, `ellipkMp` is
`mpmath.ellipk` for real arguments.
-/

namespace Gftool.Model

open ComplexConjugate

/-- `_signed_sqrt`, lattice/triangular.py:21-24. `scimath.sqrt` is the principal square root. -/
noncomputable def signedSqrt (z : ℂ) : ℂ :=
  let sign : ℂ := if z.re < 0 ∧ z.im < 0 then -1 else 1
  sign * Complex.sqrt z

/-- Factors `gg` and `kk`, lattice/triangular.py:81-83. -/
noncomputable def triangularGK (z : ℂ) : ℂ × ℂ :=
  let rr := signedSqrt (2 * z + 3)
  let gg := 4.0 / (signedSqrt (rr - 1) ^ 3 * signedSqrt (rr + 3))
  let kk := signedSqrt rr * gg
  (gg, kk)

/-- `gf_z`, lattice/triangular.py:73-90, for a single frequency. `none` is the value `0 - 1j*np.inf`. The value at
the mock frequency `0` of line 80 is not modelled, as it is overwritten in line 89. -/
noncomputable def triangularGfZ (ellipk : ℂ → ℂ) (z : ℂ) (halfBandwidth : ℝ) : Option ℂ :=
  let D : ℂ := halfBandwidth * 4 / 9
  let z := 1.0 / D * z
  let advanced : Prop := z.im < 0
  open Classical in
  let z := if advanced then conj z else z
  open Classical in
  if D * z = -1 then none
  else
    let gg := (triangularGK z).1
    let kk := (triangularGK z).2
    let mm := kk ^ 2
    let K := if 0 < kk.im then ellipk mm + 2 * Complex.I * ellipk (1 - mm) else ellipk mm
    let gf := 1 / Real.pi / D * gg * K
    some (if advanced then conj gf else gf)

/-- `hilbert_transform`, lattice/triangular.py:126. -/
noncomputable def triangularHilbert (ellipk : ℂ → ℂ) (xi : ℂ) (halfBandwidth : ℝ) : Option ℂ :=
  triangularGfZ ellipk xi halfBandwidth

/-- `dos`, lattice/triangular.py:178-192, for a single energy. At `eps = -1` the second assignment overwrites the
first one. -/
noncomputable def triangularDos (ellipkm1 : ℝ → ℝ) (eps halfBandwidth : ℝ) : ℝ :=
  let D := halfBandwidth * 4 / 9
  let eps := 1.0 / D * eps
  let dos : ℝ := 0
  let dos :=
    if -1.5 ≤ eps ∧ eps ≤ -1 then
      let rr := √(2 * eps + 3)
      let denom := (rr + 1) ^ 3 * (3 - rr)
      let numer := (rr - 1) ^ 3 * (3 + rr)
      2 / √denom * ellipkm1 (-numer / denom)
    else dos
  let dos :=
    if -1 ≤ eps ∧ eps ≤ 3 then
      let rr := √(2 * eps + 3)
      let numer := (rr - 1) ^ 3 * (3 + rr)
      0.5 / √rr * ellipkm1 (1 / 16 * numer / rr)
    else dos
  2 / Real.pi ^ 2 / D * dos

/-- `dos_mp`, lattice/triangular.py:318-337. `npPi` is the double precision number `np.pi` used in line 337. -/
noncomputable def triangularDosMp (ellipkMp : ℝ → ℝ) (npPi eps halfBandwidth : ℝ) : Except Err ℝ :=
  let D := halfBandwidth * (4 / 9)
  let eps := eps / D
  if eps < -1.5 ∨ eps > 3 then .ok 0
  else if -1.5 ≤ eps ∧ eps ≤ -1 then
    let rr := √(2 * eps + 3)
    let z0 := (rr + 1) ^ 3 * (3 - rr) / 4
    let z1 := 4 * rr
    let dos := 1 / √z0 * ellipkMp (z1 / z0)
    .ok (2 / npPi ^ 2 / D * dos)
  else if -1 ≤ eps ∧ eps ≤ 3 then
    let rr := √(2 * eps + 3)
    let z0 := 4 * rr
    let z1 := (rr + 1) ^ 3 * (3 - rr) / 4
    let dos := 1 / √z0 * ellipkMp (z1 / z0)
    .ok (2 / npPi ^ 2 / D * dos)
  else .error .runtimeError

/-- The double precision number `np.pi`. -/
def npPi : ℚ := 884279719003555 / 281474976710656

end Gftool.Model
