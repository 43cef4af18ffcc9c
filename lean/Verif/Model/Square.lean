import Verif.Model.Lattice

/-!
# Model of the square lattice

`gftool/lattice/square.py`. The complete elliptic integrals are parameters: `ellipk` is `_u_ellipk`
(mpmath's `ellipk` for complex arguments), `ellipkm1` is `scipy.special.ellipkm1`, `ellipkMp` is
`mpmath.ellipk` for real arguments.
-/

namespace Gftool.Model

/-- `gf_z`, lattice/square.py:64-66. -/
noncomputable def squareGfZ (ellipk : ℂ → ℂ) (z : ℂ) (D : ℝ) : ℂ :=
  let zRelInv := (D : ℂ) / z
  let elliptic := ellipk (zRelInv ^ 2)
  2 / Real.pi / D * zRelInv * elliptic

/-- `hilbert_transform`, lattice/square.py:102. -/
noncomputable def squareHilbert (ellipk : ℂ → ℂ) (xi : ℂ) (D : ℝ) : ℂ := squareGfZ ellipk xi D

/-- `dos`, lattice/square.py:147-152. -/
noncomputable def squareDos (ellipkm1 : ℝ → ℝ) (eps D : ℝ) : ℝ :=
  let epsRel := eps / D
  if |epsRel| ≤ 1 then 2 / Real.pi ^ 2 / D * ellipkm1 (epsRel ^ 2) else 0

/-- `dos_moment_coefficients`, lattice/square.py:161-172. -/
def squareMomentTable : List (ℤ × ℚ) :=
  [(2, 0.25), (4, 9 / 64), (6, 25 / 256), (8, (35 / 128) ^ 2), (10, (63 / 256) ^ 2), (12, 0.0508890151977539),
   (14, 0.0438787937164307), (16, 0.0385653460398316), (18, 0.0343993364367634), (20, 0.031045401134179)]

/-- `dos_moment`, lattice/square.py:202-208. -/
noncomputable def squareDosMoment (m : ℤ) (D : ℝ) : Except Err ℝ := momentFromTable squareMomentTable m D

/-- `dos_mp`, lattice/square.py:264-270 (`powm1(x, 2) = x² - 1`). -/
noncomputable def squareDosMp (ellipkMp : ℝ → ℝ) (eps D : ℝ) : ℝ :=
  if |eps| > D then 0
  else
    let mm := -((eps / D) ^ 2 - 1)
    2 / (Real.pi ^ 2 * D) * ellipkMp mm

/-- `stress_trafo`, lattice/square.py:304. -/
noncomputable def squareStressTrafo (ellipk : ℂ → ℂ) (xi : ℂ) (D : ℝ) : ℂ :=
  -0.5 * (xi * squareGfZ ellipk xi D - 1)

end Gftool.Model
