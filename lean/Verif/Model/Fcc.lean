import Verif.Model.Bcc

/-!
# Model of the face-centred cubic lattice

`gftool/lattice/fcc.py`. `ellipk` is the parameter `_u_ellipk` (in `dos_mp`: also `mp.ellipk`), mpmath's complete
elliptic integral for complex arguments. `scimath.sqrt` is the principal square root. The value `np.inf` (`mp.inf`)
is `⊤`. Divisions by zero (`z = -half_bandwidth/2`) are totalised.
-/

namespace Gftool.Model

open ComplexConjugate

/-- `_signed_sqrt`, lattice/fcc.py:22-27. -/
noncomputable def fccSignedSqrt (z : ℂ) : ℂ :=
  let sign : ℤ := if z.re < 0 then -1 else 1
  let factor : ℂ := if sign = 1 then 1 else -Complex.I
  factor * Complex.sqrt (sign * z)

/-- `m_p` for the rescaled energy, lattice/fcc.py:82-86. -/
noncomputable def fccMp (z : ℂ) : ℂ :=
  let zp1 := z + 1
  let zp1Pow := fccSignedSqrt zp1 ^ (-3 : ℤ)
  let sum1 := 4 * fccSignedSqrt z * zp1Pow
  let sum2 := (z - 1) * fccSignedSqrt (z - 3) * zp1Pow
  0.5 * (1 + sum1 - sum2)

/-- `m_m` for the rescaled energy, lattice/fcc.py:82-87. -/
noncomputable def fccMm (z : ℂ) : ℂ :=
  let zp1 := z + 1
  let zp1Pow := fccSignedSqrt zp1 ^ (-3 : ℤ)
  let sum1 := 4 * fccSignedSqrt z * zp1Pow
  let sum2 := (z - 1) * fccSignedSqrt (z - 3) * zp1Pow
  0.5 * (1 - sum1 - sum2)

/-- `kii`, lattice/fcc.py:88-89. -/
noncomputable def fccKiiOf (ellipk : ℂ → ℂ) (mp : ℂ) : ℂ :=
  let kii := ellipk mp
  if mp.im < 0 then kii + 2 * Complex.I * ellipk (1 - mp) else kii

/-- The rescaled energy in the lower half-plane, lattice/fcc.py:78-81. -/
noncomputable def fccEnergy (z : ℂ) (halfBandwidth : ℝ) : ℂ :=
  let d : ℂ := halfBandwidth / 2
  let z := 1 / d * z
  if 0 < z.im then conj z else z

/-- `gf_z`, lattice/fcc.py:78-91. -/
noncomputable def fccGfZ (ellipk : ℂ → ℂ) (z : ℂ) (halfBandwidth : ℝ) : ℂ :=
  let d : ℂ := halfBandwidth / 2
  let retarded := 0 < (1 / d * z).im
  let z := fccEnergy z halfBandwidth
  let gf := 4 / (Real.pi ^ 2 * d * (z + 1)) * ellipk (fccMm z) * fccKiiOf ellipk (fccMp z)
  if retarded then conj gf else gf

/-- `hilbert_transform`, lattice/fcc.py:127. -/
noncomputable def fccHilbert (ellipk : ℂ → ℂ) (xi : ℂ) (halfBandwidth : ℝ) : ℂ :=
  fccGfZ ellipk xi halfBandwidth

/-- `dos`, lattice/fcc.py:176-182, for a single energy of floating point type. -/
noncomputable def fccDos (ellipk : ℂ → ℂ) (eps halfBandwidth : ℝ) : WithTop ℝ :=
  if eps = -0.5 * halfBandwidth then ⊤
  else if -0.5 * halfBandwidth < eps ∧ eps < 1.5 * halfBandwidth then
    ((|1 / Real.pi * (fccGfZ ellipk eps halfBandwidth).im| : ℝ) : WithTop ℝ)
  else ((0 : ℝ) : WithTop ℝ)

/-- `dos`, lattice/fcc.py:176-182, for a single energy of integer type: `np.zeros_like(eps)` is an array of integers.
See `intAssignInf`. -/
noncomputable def fccDosInt (ellipk : ℂ → ℂ) (eps : ℤ) (halfBandwidth : ℝ) : Option ℤ :=
  let singular := (eps : ℝ) = -0.5 * halfBandwidth
  let finite := -0.5 * halfBandwidth < (eps : ℝ) ∧ (eps : ℝ) < 1.5 * halfBandwidth ∧ ¬singular
  let dos := if finite then truncInt (1 / Real.pi * (fccGfZ ellipk ((eps : ℝ) : ℂ) halfBandwidth).im) else 0
  (intAssignInf dos (decide singular)).map fun x => |x|

/-- `_signed_mp_sqrt`, lattice/fcc.py:250-254. -/
noncomputable def fccSignedMpSqrt (eps : ℝ) : ℂ :=
  if 0 ≤ eps then Complex.sqrt eps else -Complex.I * Complex.sqrt ((-eps : ℝ) : ℂ)

/-- `dos_mp`, lattice/fcc.py:316-331. -/
noncomputable def fccDosMp (ellipk : ℂ → ℂ) (eps halfBandwidth : ℝ) : WithTop ℝ :=
  let d := halfBandwidth * (1 / 2)
  let eps := eps / d
  if 3 < eps ∧ eps < -1 then ((0 : ℝ) : WithTop ℝ)
  else if eps = -1 then ⊤
  else
    let epsp1 := eps + 1
    let epsp1Pow := fccSignedMpSqrt epsp1 ^ (-3 : ℤ)
    let sum1 := 4 * fccSignedMpSqrt eps * epsp1Pow
    let sum2 := ((eps - 1 : ℝ) : ℂ) * fccSignedMpSqrt (eps - 3) * epsp1Pow
    let mp := 0.5 * (1 + sum1 - sum2)
    let mm := 0.5 * (1 - sum1 - sum2)
    let kii := if mp.im < 0 then ellipk mp + 2 * Complex.I * ellipk (1 - mp) else ellipk mp
    ((|4 / (Real.pi ^ 3 * d * epsp1) * (ellipk mm * kii).im| : ℝ) : WithTop ℝ)

end Gftool.Model
