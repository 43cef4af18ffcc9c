import Verif.Model.Pole

/-!
# Model of `gftool/density.py`
-/

namespace Gftool.Model

/-- `density_iw`, density.py:89-99, for one data set with `k` frequencies and `l` moments.
`weights` is the already broadcast array of residues. -/
noncomputable def densityIw (ext : LinalgExt ℝ) {k l : ℕ} (iws gfIw : Fin k → ℂ) (beta : ℝ)
    (weights : Fin k → ℝ) (moments : Fin l → ℝ) (nFit : ℕ) : Except Err ℝ :=
  let finish (n : ℕ) (mom : PoleFct ℝ n) : ℝ :=
    2 / beta * (∑ i, weights i * ((gfIw i).re
        - (poleGfZ (iws i) (fun j => (mom.poles j : ℂ)) (fun j => (mom.residues j : ℂ))).re))
      + poleOcc mom.poles mom.residues beta
  if nFit ≠ 0 then
    match gfFromZ ext iws gfIw (nFit + l) moments none
        (some fun i => (iws i).im ^ (l + nFit)) with
    | .ok mom => .ok (finish _ mom)
    | .error e => .error e
  else
    match gfFromMoments moments none with
    | .ok mom => .ok (finish _ mom)
    | .error e => .error e

/-- Result of the external `scipy.optimize.root_scalar`: root and convergence flag. -/
structure RootResult where
  root : ℝ
  converged : Bool

/-- The bracketing loop of `chemical_potential`, density.py:166-174. `fuel = 100 - loops`:
with `fuel = 0` another doubling makes `loops > 100` and raises. Returns `(mu1, step)` at
the exit of the loop. The callback is a total function: exceptions it raises would simply
propagate. -/
noncomputable def bracketLoop (occRoot : ℝ → ℝ) (mu0 sign0 : ℝ) : ℕ → ℝ → ℝ → Except Err (ℝ × ℝ)
  | 0, mu1, step =>
    if npSign (occRoot (mu0 + step)) = sign0 then .error .runtimeError else .ok (mu1, step)
  | fuel + 1, mu1, step =>
    if npSign (occRoot (mu0 + step)) = sign0 then
      bracketLoop occRoot mu0 sign0 fuel (mu0 + step) (step * 2)
    else .ok (mu1, step)

/-- The first part of `chemical_potential`, density.py:160-175: `none` if the starting guess is
returned, else the sorted bracket. -/
noncomputable def chemBracket (occRoot : ℝ → ℝ) (mu0 step0 : ℝ) : Except Err (Option (ℝ × ℝ)) :=
  let delta0 := occRoot mu0
  if delta0 = 0 then .ok none
  else
    match bracketLoop occRoot mu0 (npSign delta0) 100 mu0 (-step0 * delta0) with
    | .ok (mu1, step) => .ok (some (min mu1 (mu0 + step), max mu1 (mu0 + step)))
    | .error e => .error e

/-- `chemical_potential`, density.py:160-186. `rootScalar f a b` is the external
`scipy.optimize.root_scalar(f, bracket=[a, b])`. -/
noncomputable def chemicalPotential (rootScalar : (ℝ → ℝ) → ℝ → ℝ → Except Err RootResult)
    (occRoot : ℝ → ℝ) (mu0 step0 : ℝ) : Except Err ℝ :=
  match chemBracket occRoot mu0 step0 with
  | .error e => .error e
  | .ok none => .ok mu0
  | .ok (some (a, b)) =>
    match rootScalar occRoot a b with
    | .error e => .error e
    | .ok res => if res.converged then .ok res.root else .error .runtimeError

end Gftool.Model
