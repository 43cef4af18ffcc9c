import Verif.Model.Density

/-!
# Model of `gftool/cpa.py`

`ι` indexes the components (last axis), `κ` the frequencies and all other axes, already
broadcast.
-/

namespace Gftool.Model

/-- An `numpy` array of floats: shape and flattened data. -/
structure NdArray where
  shape : List ℕ
  data : List ℝ
  size_eq : data.length = shape.prod

/-- `_join`, cpa.py:46-49: concatenated flattened data and the shapes. `np.concatenate` raises
`ValueError` for an empty list. -/
def cpaJoin (args : List NdArray) : Except Err (List ℝ × List (List ℕ)) :=
  if args = [] then .error .valueError
  else .ok ((args.map NdArray.data).flatten, args.map NdArray.shape)

/-- `np.split(l, cumsum(sizes))` for the sizes of all parts but the last one, which gets the
rest. -/
def npSplit : List ℝ → List ℕ → List (List ℝ)
  | l, [] => [l]
  | l, s :: sizes => l.take s :: npSplit (l.drop s) sizes

/-- `array.reshape(shape)`; `ValueError` if the sizes differ. -/
def reshape (data : List ℝ) (shape : List ℕ) : Except Err NdArray :=
  if h : data.length = shape.prod then .ok ⟨shape, data, h⟩ else .error .valueError

/-- `_split`, cpa.py:54-56. -/
def cpaSplit (joined : List ℝ) (shapes : List (List ℕ)) : Except Err (List NdArray) :=
  (List.zip (npSplit joined (shapes.dropLast.map List.prod)) shapes).mapM fun p => reshape p.1 p.2

variable {ι κ : Type*} [Fintype ι]

/-- `gf_cmpt_z`, cpa.py:79-80, for one frequency. -/
noncomputable def gfCmptZ (z selfCpa : ℂ) (eOnsite : ι → ℂ) (hilbert : ℂ → ℂ) (i : ι) : ℂ :=
  let gfCoher := hilbert (z - selfCpa)
  gfCoher / (1 - (eOnsite i - selfCpa) * gfCoher)

/-- The average T-matrix, cpa.py:111-113. -/
noncomputable def cpaT (selfCpa z : ℂ) (eOnsite : ι → ℂ) (conc : ι → ℝ) (hilbert : ℂ → ℂ) : ℂ :=
  let gfCoher := hilbert (z - selfCpa)
  ∑ i, (conc i : ℂ) * (eOnsite i - selfCpa) / (1 - (eOnsite i - selfCpa) * gfCoher)

/-- `self_root_eq`, cpa.py:111-114, for one frequency. -/
noncomputable def selfRootEq (selfCpa z : ℂ) (eOnsite : ι → ℂ) (conc : ι → ℝ) (hilbert : ℂ → ℂ) :
    ℂ :=
  let gfCoher := hilbert (z - selfCpa)
  let T := cpaT selfCpa z eOnsite conc hilbert
  T / (1 + T * gfCoher)

/-- `self_fxdpnt_eq`, cpa.py:145-146, for one frequency. -/
noncomputable def selfFxdpntEq (selfCpa z : ℂ) (eOnsite : ι → ℂ) (conc : ι → ℝ)
    (hilbert : ℂ → ℂ) : ℂ :=
  selfCpa + selfRootEq selfCpa z eOnsite conc hilbert

/-- Enlarge the residue at an unphysical entry, cpa.py:158-161 (and beb.py:280-283):
`root *= 1 + distance`, then push real and imaginary part away from zero. -/
noncomputable def enlarge (root : ℂ) (distance : ℝ) : ℂ :=
  let root := root * (1 + distance)
  ⟨root.re + 1e-3 * distance * (if 0 ≤ root.re then 1 else -1),
   root.im + 1e-3 * distance * (if 0 ≤ root.im then 1 else -1)⟩

open scoped Classical in
/-- Removal of positive imaginary parts, cpa.py:156. -/
noncomputable def clip (x : ℂ) : ℂ := if 0 < x.im then ⟨x.re, 0⟩ else x

open scoped Classical in
/-- `restrict_self_root_eq`, cpa.py:151-162, for an arbitrary root equation. Line 156 changes
the argument in place, so the model returns the value and the array `self_cpa_z` after the
call. -/
noncomputable def restrictSelfRootEq (rootEq : (κ → ℂ) → κ → ℂ) (selfCpa : κ → ℂ) :
    (κ → ℂ) × (κ → ℂ) :=
  if ∀ k, ¬ 0 < (selfCpa k).im then (rootEq selfCpa, selfCpa)
  else
    let clipped := fun k => clip (selfCpa k)
    let root := rootEq clipped
    (fun k => if 0 < (selfCpa k).im then enlarge (root k) (selfCpa k).im else root k, clipped)

/-- Result of the external `scipy.optimize.root`. -/
structure SolverResult (X : Type*) where
  x : X
  success : Bool

/-- Signature of `scipy.optimize.root`. The function returns the residual and its (possibly
changed in place) argument. -/
abbrev Solver (X : Type*) := (X → X × X) → X → SolverResult X

/-- `solve_root`, cpa.py:232-247, starting from `x0`. -/
noncomputable def solveRoot (solver : Solver (κ → ℂ)) (z : κ → ℂ) (eOnsite : κ → ι → ℂ)
    (conc : κ → ι → ℝ) (hilbert : ℂ → ℂ) (x0 : Option (κ → ℂ)) (restricted : Bool) :
    Except Err (κ → ℂ) :=
  let x0 := x0.getD fun k => ∑ i, eOnsite k i * conc k i
  let rootEq := fun (s : κ → ℂ) k => selfRootEq (s k) (z k) (eOnsite k) (conc k) hilbert
  let sol := solver (if restricted then restrictSelfRootEq rootEq else fun s => (rootEq s, s)) x0
  if sol.success then .ok sol.x else .error .runtimeError

/-- `_occ_diff` in `solve_fxdocc_root`, cpa.py:375-380, for `k + 1` frequencies. `density_iw`
never raises for these arguments (`Props.occ_density_ok`), the default `0` is never used. -/
noncomputable def occDiff (ext : LinalgExt ℝ) {k : ℕ} (iws : Fin (k + 1) → ℂ) (hilbert : ℂ → ℂ)
    (beta : ℝ) (weights : Fin (k + 1) → ℝ) (nFit : ℕ) (occ : ℝ) (x : Fin (k + 1) → ℂ) : ℝ :=
  match densityIw ext iws (fun i => hilbert (iws i - x i)) beta weights
      ![1, (x (Fin.last k)).re] nFit with
  | .ok d => d - occ
  | .error _ => 0 - occ

/-- The arguments of `solve_fxdocc_root` that stay fixed. -/
structure FxdOccArgs (ι : Type*) (k : ℕ) where
  iws : Fin (k + 1) → ℂ
  eOnsite : Fin (k + 1) → ι → ℂ
  conc : ι → ℝ
  hilbert : ℂ → ℂ
  beta : ℝ
  occ : ℝ
  weights : Fin (k + 1) → ℝ
  nFit : ℕ

/-- The CPA root equation with shifted energies, cpa.py:397. -/
noncomputable def FxdOccArgs.rootEq {k : ℕ} (a : FxdOccArgs ι k) (mu : ℝ) (s : Fin (k + 1) → ℂ) :
    Fin (k + 1) → ℂ :=
  fun j => selfRootEq (s j) (a.iws j) (fun i => a.eOnsite j i - mu) a.conc a.hilbert

/-- The joined unknowns of `solve_fxdocc_root`: chemical potential, real and imaginary part of
the self-energy. (`_join` flattens and concatenates, which is lossless:
`Props.cpa_split_join`.) -/
structure FxdOccVec (k : ℕ) where
  mu : ℝ
  re : Fin (k + 1) → ℝ
  im : Fin (k + 1) → ℝ

/-- `self_cpa = self_cpa_re + 1j*self_cpa_im - mu`, cpa.py:396 and 415. -/
noncomputable def FxdOccVec.selfCpa {k : ℕ} (x : FxdOccVec k) (j : Fin (k + 1)) : ℂ :=
  x.re j + Complex.I * x.im j - x.mu

/-- `root_eq` in `solve_fxdocc_root`, cpa.py:394-400. The occupation is evaluated after the
restricted equation has changed `self_cpa` in place. -/
noncomputable def FxdOccArgs.system {k : ℕ} (a : FxdOccArgs ι k) (ext : LinalgExt ℝ)
    (restricted : Bool) (x : FxdOccVec k) : FxdOccVec k :=
  let r := if restricted then restrictSelfRootEq (a.rootEq x.mu) x.selfCpa
    else (a.rootEq x.mu x.selfCpa, x.selfCpa)
  ⟨((k + 1 : ℕ) : ℝ) * occDiff ext a.iws a.hilbert a.beta a.weights a.nFit a.occ r.2,
    fun j => (r.1 j).re, fun j => (r.1 j).im⟩

/-- `solve_fxdocc_root`, cpa.py:365-417. `solver` is `scipy.optimize.root`; `_split` returns
copies combined into a new array, so `root_eq` does not change its argument. -/
noncomputable def solveFxdoccRoot (ext : LinalgExt ℝ)
    (rootScalar : (ℝ → ℝ) → ℝ → ℝ → Except Err RootResult)
    {k : ℕ} (solver : (FxdOccVec k → FxdOccVec k) → FxdOccVec k → SolverResult (FxdOccVec k))
    (a : FxdOccArgs ι k) (selfCpa0 : Option (Fin (k + 1) → ℂ)) (mu0 : ℝ) (restricted : Bool) :
    Except Err ((Fin (k + 1) → ℂ) × ℝ) :=
  let self0 := selfCpa0.getD fun j => (∑ i, a.eOnsite j i * a.conc i) - mu0
  let nomu : Fin (k + 1) → ℂ := fun j => self0 j + mu0
  let diff := occDiff ext a.iws a.hilbert a.beta a.weights a.nFit a.occ
  match chemicalPotential rootScalar (fun mu => diff fun j => nomu j - mu) mu0 1 with
  | .error e => .error e
  | .ok mu1 =>
    let nomu1 : Fin (k + 1) → ℂ := fun j =>
      selfFxdpntEq (nomu j - mu1) (a.iws j) (fun i => a.eOnsite j i - mu1) a.conc a.hilbert + mu1
    match chemicalPotential rootScalar (fun mu => diff fun j => nomu1 j - mu) mu1 1 with
    | .error e => .error e
    | .ok mu2 =>
      let sol := solver (a.system ext restricted)
        ⟨mu2, fun j => (nomu1 j).re, fun j => (nomu1 j).im⟩
      if sol.success then .ok (sol.x.selfCpa, sol.x.mu) else .error .runtimeError

end Gftool.Model
