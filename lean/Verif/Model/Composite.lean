import Verif.Model.Basic
import Mathlib.Analysis.SpecialFunctions.Pow.Real

/-!
# Model of the composite two-dimensional lattices

`gftool/lattice/{honeycomb,kagome,lieb}.py`. The Green's function and the DOS of the underlying triangular
or square lattice are parameters.
-/

namespace Gftool.Model

/-- `gf_z`, lattice/honeycomb.py:65-67; `tri` is `triangular.gf_z`. -/
noncomputable def honeycombGfZ (tri : ℂ → ℝ → ℂ) (z : ℂ) (D : ℝ) : ℂ :=
  let D' : ℝ := D / 1.5
  let zRel := z / D'
  2 / D' * zRel * tri (2 * zRel ^ 2 - 1.5) (9 / 4)

/-- `dos`, lattice/honeycomb.py:119-121; `tri` is `triangular.dos`. -/
noncomputable def honeycombDos (tri : ℝ → ℝ → ℝ) (eps D : ℝ) : ℝ :=
  let D' := D / 1.5
  let epsRel := eps / D'
  2 / D' * |epsRel| * tri (2 * epsRel ^ 2 - 1.5) (9 / 4)

/-- `dos_mp`, lattice/honeycomb.py:281-284; `tri` is `triangular.dos_mp`. -/
noncomputable def honeycombDosMp (tri : ℝ → ℝ → ℝ) (eps D : ℝ) : ℝ :=
  let DInv := 1.5 / D
  let epsRel := eps * DInv
  let tDos := tri (2 * epsRel ^ 2 - 1.5) (9 / 4)
  2 * DInv * |epsRel| * tDos

/-- `gf_z`, lattice/kagome.py:75-77. -/
noncomputable def kagomeGfZ (tri : ℂ → ℝ → ℂ) (z : ℂ) (D : ℝ) : ℂ :=
  let peak := 1 / (3 * z + 2 * D)
  peak + 2 / 3 * honeycombGfZ tri (z - D / 3) D

/-- `dos`, lattice/kagome.py:140-141. -/
noncomputable def kagomeDos (tri : ℝ → ℝ → ℝ) (eps D : ℝ) : ℝ :=
  2 * honeycombDos tri (3 * eps - D) (3 * D)

/-- `dos_mp`, lattice/kagome.py:307-308. -/
noncomputable def kagomeDosMp (tri : ℝ → ℝ → ℝ) (eps D : ℝ) : ℝ :=
  2 * honeycombDosMp tri (3 * eps - D) (3 * D)

/-- `gf_z`, lattice/lieb.py:66-69; `sq` is `square.gf_z`. -/
noncomputable def liebGfZ (sq : ℂ → ℝ → ℂ) (z : ℂ) (D : ℝ) : ℂ :=
  let D' : ℝ := D * (2 : ℝ) ^ (-1.5 : ℝ)
  let zRel := z / D'
  let peak := (1 / 3) / z
  peak + 2 / (3 * D') * zRel * sq (zRel ^ 2 - 4) 4

/-- `dos`, lattice/lieb.py:124-126; `sq` is `square.dos`. -/
noncomputable def liebDos (sq : ℝ → ℝ → ℝ) (eps D : ℝ) : ℝ :=
  let epsRel := eps / D
  4 / (3 * D) * |epsRel| * sq (2 * epsRel ^ 2 - 1) 1

/-- `dos_mp`, lattice/lieb.py:291-294; `sq` is `square.dos_mp`. -/
noncomputable def liebDosMp (sq : ℝ → ℝ → ℝ) (eps D : ℝ) : ℝ :=
  let DInv := (2 : ℝ) ^ (1.5 : ℝ) / D
  let epsRel := eps * DInv
  2 / 3 * DInv * |epsRel| * sq (epsRel ^ 2 - 4) 4

end Gftool.Model
