import Verif.Model.Basic
import Verif.Model.Statistics
import Mathlib.Analysis.SpecialFunctions.Pow.Real
import Mathlib.Analysis.SpecialFunctions.Complex.LogDeriv

/-!
# Model of model Green's functions in `gftool/__init__.py`
-/

namespace Gftool.Model

open scoped Classical in
/-- `hubbard_dimer_gf_z`, __init__.py:235-245, for real scalar parameters: `W = 0` is a
`ZeroDivisionError` of Python's floats. At its poles the result is not finite (not modelled, Lean's
`x / 0 = 0`). -/
noncomputable def hubbardDimerGfZ (z : ℂ) (hopping interaction : ℝ) (kind : String) : Except Err ℂ :=
  if ¬ (kind = "+" ∨ kind = "-") then .error .valueError
  else
    let s : ℝ := if kind = "+" then 1 else -1
    let t := hopping
    let U := interaction
    let W := (0.25 * U * U + 4 * t * t) ^ (0.5 : ℝ)
    if W = 0 then .error .zeroDivision
    else
      let E0 := 0.5 * U - W
      .ok (((0.5 + s * t / W : ℝ) : ℂ) / (z - ((E0 + s * t : ℝ) : ℂ))
        + ((0.5 - s * t / W : ℝ) : ℂ) / (z - ((U + s * t - E0 : ℝ) : ℂ)))

/-- `hubbard_I_self_z`, __init__.py:285-286. -/
noncomputable def hubbardISelfZ (z U occ : ℂ) : ℂ :=
  let hartree := U * occ
  hartree * z / (z - U + hartree)

open scoped Classical in
/-- `pole_gf_tau_b`, __init__.py:337-345, for float poles and `beta`. A pole at zero (or `beta = 0`)
gives a division by zero in `bose_fct`, i.e. a non-finite result: `none`. -/
noncomputable def poleGfTauB {n : ℕ} (tau : ℝ) (poles weights : Fin n → ℝ) (beta : ℝ) :
    Except Err (Option ℝ) :=
  if ¬ (0 ≤ tau ∧ tau ≤ beta) then .error .assertionError
  else if ∃ i, poles i < 0 then .error .valueError
  else if ∃ i, -beta * poles i = 0 then .ok none
  else .ok (some (∑ i, weights i * boseFct (poles i) (-beta) * Real.exp (-tau * poles i)))

end Gftool.Model
