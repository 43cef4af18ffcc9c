import Verif.Model.Basic
import Mathlib.Analysis.RCLike.Sqrt
import Mathlib.Analysis.SpecialFunctions.Complex.LogDeriv
import Mathlib.Analysis.SpecialFunctions.Trigonometric.Basic

/-!
# Model of the lattices with elementary Green's functions

`gftool/lattice/{bethe,bethez,box,onedim}.py` and `surface_gf_zeps` of `gftool/__init__.py`. Numbers are
exact: the precision of the intermediate `complex256` numbers is not modelled. `numpy.sqrt` of complex
numbers, `scimath.sqrt` and `emath.log` are the principal branches. Frequencies are complex numbers; signed
zeros, which select the side of the branch cut for real frequencies inside the band, are not modelled.
-/

namespace Gftool.Model

open Complex (I)

/-! ## Bethe lattice -/

/-- `gf_z`, lattice/bethe.py:63-69. -/
noncomputable def betheGfZ (z : ℂ) (D : ℝ) : ℂ :=
  let zRel := z / D
  2 / D * zRel * (1 - Complex.sqrt (1 - zRel ^ (-2 : ℤ)))

/-- `gf_d1_z`, lattice/bethe.py:93-100. -/
noncomputable def betheGfD1Z (z : ℂ) (D : ℝ) : ℂ :=
  let zRelInv := (D : ℂ) / z
  2 / (D : ℂ) ^ 2 * (1 - 1 / Complex.sqrt (1 - zRelInv ^ 2))

/-- `gf_d2_z`, lattice/bethe.py:124-131. -/
noncomputable def betheGfD2Z (z : ℂ) (D : ℝ) : ℂ :=
  let zRel := z / D
  2 / (D : ℂ) ^ 3 * zRel * Complex.sqrt (1 - zRel ^ (-2 : ℤ)) / (1 - zRel ^ 2) ^ 2

/-- `gf_z_inv`, lattice/bethe.py:171. -/
noncomputable def betheGfZInv (gf : ℂ) (D : ℝ) : ℂ := (0.5 * D) ^ 2 * gf + 1 / gf

/-- `hilbert_transform`, lattice/bethe.py:207. -/
noncomputable def betheHilbert (xi : ℂ) (D : ℝ) : ℂ := betheGfZ xi D

/-- `dos`, lattice/bethe.py:250-254, for real energies. -/
noncomputable def betheDos (eps D : ℝ) : ℝ :=
  let epsRel := eps / D
  if |epsRel| < 1 then 2 / (Real.pi * D) * √(1 - epsRel ^ 2) else 0

/-- `dos_moment_coefficients`, lattice/bethe.py:263-274. -/
def betheMomentTable : List (ℤ × ℚ) :=
  [(2, 0.25), (4, 0.125), (6, 5 / 64), (8, 7 / 128), (10, 21 / 512), (12, 0.0322265625),
   (14, 0.02618408203125), (16, 0.021820068359375), (18, 0.01854705810546875),
   (20, 0.016017913818359375)]

/-- Body of all functions `dos_moment` with vanishing odd moments, e.g. lattice/bethe.py:304-310. -/
noncomputable def momentFromTable (table : List (ℤ × ℚ)) (m : ℤ) (D : ℝ) : Except Err ℝ :=
  if m % 2 ≠ 0 then .ok 0
  else
    match table.lookup m with
    | some c => .ok ((c : ℝ) * D ^ m)
    | none => .error .notImplemented

/-- `dos_moment`, lattice/bethe.py:304-310. -/
noncomputable def betheDosMoment (m : ℤ) (D : ℝ) : Except Err ℝ := momentFromTable betheMomentTable m D

/-- `dos_mp`, lattice/bethe.py:363-366 (`powm1(x, 2) = x² - 1`). -/
noncomputable def betheDosMp (eps D : ℝ) : ℝ :=
  if |eps| > D then 0 else 2 / (Real.pi * D) * √(-((eps / D) ^ 2 - 1))

/-- `_SMALL = finfo(float64).eps**0.25 = 2⁻¹³`, lattice/bethe.py:17, lattice/box.py:10. -/
noncomputable def retSmall : ℝ := 1 / 2 ^ 13

open scoped Classical in
/-- `gf_ret_t`, lattice/bethe.py:409-420; `jv1` is the Bessel function `J₁` (`scipy.special.jv`). -/
noncomputable def betheGfRetT (jv1 : ℝ → ℝ) (tt D center : ℝ) : ℂ :=
  let tt := D * tt
  let gf : ℂ :=
    if 0 ≤ tt then
      if |tt| < retSmall then -I * (1 - 1 / 8 * tt ^ 2 + 1 / 192 * (tt ^ 2) ^ 2)
      else -2 * I * jv1 tt / tt
    else 0
  if center ≠ 0 then gf * Complex.exp (-I * center * tt) else gf

/-- `surface_gf_zeps`, __init__.py:191. -/
noncomputable def surfaceGfZeps (z : ℂ) (eps hopping : ℝ) : ℂ := betheGfZ (z - eps) (2 * hopping)

/-! ## Bethe lattice with finite coordination -/

/-- `gf_z`, lattice/bethez.py:59-63. -/
noncomputable def bethezGfZ (z : ℂ) (D Z : ℝ) : Except Err ℂ :=
  if ¬ Z > 1 then .error .assertionError
  else
    let zRelInv := (D : ℂ) / z
    let sqrt := Complex.sqrt (1 - zRelInv ^ 2)
    .ok (2 * (Z - 1) / D * zRelInv / ((Z - 2) + Z * sqrt))

/-- `dos`, lattice/bethez.py:103-111, for real energies. -/
noncomputable def bethezDos (eps D Z : ℝ) : Except Err ℝ :=
  if ¬ Z > 1 then .error .assertionError
  else
    let epsRel := eps / D
    let factor := 2 * Z * (Z - 1) / (D * Real.pi)
    .ok (if |epsRel| ≤ 1 then factor * √(1 - epsRel ^ 2) / (Z ^ 2 - 4 * (Z - 1) * epsRel ^ 2) else 0)

/-! ## Box -/

/-- `gf_z`, lattice/box.py:46-47. -/
noncomputable def boxGfZ (z : ℂ) (D : ℝ) : ℂ :=
  let zRel := z / D
  0.5 / D * Complex.log ((zRel + 1) / (zRel - 1))

/-- `dos`, lattice/box.py:80. -/
noncomputable def boxDos (eps D : ℝ) : ℝ := if |eps| < D then 0.5 / D else 0

/-- `dos_moment`, lattice/box.py:105-107. -/
noncomputable def boxDosMoment (m : ℤ) (D : ℝ) : ℝ :=
  if m % 2 ≠ 0 then 0 else D ^ m / (m + 1)

open scoped Classical in
/-- `gf_ret_t`, lattice/box.py:148-159. -/
noncomputable def boxGfRetT (tt D center : ℝ) : ℂ :=
  let tt := D * tt
  let gf : ℂ :=
    if 0 ≤ tt then
      if |tt| < retSmall then -I * (1 - 1 / 6 * tt ^ 2 + 1 / 120 * (tt ^ 2) ^ 2)
      else -I * Real.sin tt / tt
    else 0
  if center ≠ 0 then gf * Complex.exp (-I * center * tt) else gf

/-! ## One dimension -/

/-- `gf_z`, lattice/onedim.py:60-61. -/
noncomputable def onedimGfZ (z : ℂ) (D : ℝ) : ℂ :=
  let zRelInv := (D : ℂ) / z
  1 / D * zRelInv / Complex.sqrt (1 - zRelInv ^ 2)

/-- `dos`, lattice/onedim.py:142-146, for real energies. At the band edges the code divides by zero
(infinite value, here `0`). -/
noncomputable def onedimDos (eps D : ℝ) : ℝ :=
  let epsRel := eps / D
  if |epsRel| ≤ 1 then 1 / (Real.pi * D) / √(1 - epsRel ^ 2) else 0

/-- `dos_moment_coefficients`, lattice/onedim.py:155-167. -/
def onedimMomentTable : List (ℤ × ℚ) :=
  [(0, 1), (2, 0.5), (4, 3 / 8), (6, 5 / 16), (8, 35 / 128), (10, 63 / 256), (12, 0.2255859375),
   (14, 0.20947265625), (16, 0.196380615234375), (18, 0.185470581054687), (20, 0.176197052001953)]

/-- `dos_moment`, lattice/onedim.py:197-203. -/
noncomputable def onedimDosMoment (m : ℤ) (D : ℝ) : Except Err ℝ := momentFromTable onedimMomentTable m D

/-- `dos_mp`, lattice/onedim.py:266-270; mpmath raises `ZeroDivisionError` for a vanishing denominator. -/
noncomputable def onedimDosMp (eps D : ℝ) : Except Err ℝ :=
  if |eps| > D then .ok 0
  else
    let denom := Real.pi * D * √(-((eps / D) ^ 2 - 1))
    if denom = 0 then .error .zeroDivision else .ok (1 / denom)

end Gftool.Model
