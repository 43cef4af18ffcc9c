import Verif.Model.Nd
import Verif.Model.Pade

/-!
# Model of `gftool/pade.py` for stacks of functions

`coefficients` and `calc_iterator` for arrays with any number of axes, and the filters and averages for `c` functions at once
(the leading axes are flattened to one axis of length `c`: everything below iterates over all elements or indexes axis `0`, which
enumerates the approximants).  The modelled precision is exact; `x / 0 = 0` stands for non-finite numbers.
-/

namespace Gftool.Model

/-! ### Coefficients -/

/-- `a[..., k:] = v` for a given `k`: `ValueError` if `v` cannot be broadcast to the shape of the slice; `IndexError` for 0-d arrays. -/
def Nd.setFrom {α : Type} (k : ℕ) (a v : Nd α) : Except Err (Nd α) :=
  match a.dims with
  | [] => .error .indexError
  | n :: s =>
    if bcast v.dims ((n - k) :: s) = some ((n - k) :: s) then
      .ok ⟨n :: s, fun i => if k ≤ i.headD 0 then v.at ((i.headD 0 - k) :: i.tail) else a.get i⟩
    else .error .valueError

/-- Iteration `ii` of the loop of `coefficients`, pade.py:296, for `N` points `z`. -/
noncomputable def coefStepNd (N : ℕ) (z res : Nd ℂ) (ii : ℕ) : Except Err (Nd ℂ) := do
  let a ← res.slice 1 fun _ => ii
  let b ← res.slice (N - (ii + 1)) fun j => ii + 1 + j
  let q ← Nd.map2 (fun x y : ℂ => x / y) a b
  let q := q.map fun x => x - 1
  let z1 ← z.slice (N - (ii + 1)) fun j => ii + 1 + j
  let d ← Nd.map2 (fun x y : ℂ => x - y) z1 (Nd.scalar (z.get [ii]))
  let v ← Nd.map2 (fun x y : ℂ => x / y) q d
  res.setFrom (ii + 1) v

/-- `coefficients`, pade.py:291-300, for a 1-d array `z` and `fct_z` of any shape. -/
noncomputable def coefficientsNd (z fct : Nd ℂ) : Except Err (Nd ℂ) :=
  if z.dims ≠ fct.dims.take 1 then .error .valueError
  else
    let N := z.dims.headD 1
    (List.range (N - 1)).foldlM (fun res ii => coefStepNd N z res ii) fct

/-! ### Evaluation -/

/-- Iterating over `np.moveaxis(a, -2, 0)`, pade.py:395-396. -/
def Nd.iterAxis2 {α : Type} (a : Nd α) : List (Nd α) :=
  match a.dims with
  | l :: n :: s => (List.range n).map fun k => ⟨l :: s, fun i => a.get (i.headD 0 :: k :: i.tail)⟩
  | _ => []

/-- The loop of `calc_iterator`, pade.py:398-403, yielding the list of all values. -/
noncomputable def calcLoopNd : List (Nd ℂ) → Nd ℂ → Nd ℂ → Nd ℂ → Except Err (List (Nd ℂ))
  | [], _, _, _ => .ok []
  | multiplier :: ms, pade, padePrev, b2 => do
    let multIm ← Nd.map2 (fun x y : ℂ => x / y) multiplier b2
    let b2' := multIm.map fun x => 1 + x
    let t ← Nd.map2 (fun x y : ℂ => x * y) multIm padePrev
    let t ← Nd.map2 (fun x y : ℂ => x + y) pade t
    let p ← Nd.map2 (fun x y : ℂ => x / y) t b2'
    let rest ← calcLoopNd ms p pade b2'
    .ok (p :: rest)

/-- `calc_iterator`, pade.py:384-403, for a 1-d array `z_out` (in the code it is flattened, and the results are reshaped back),
1-d `z_in` and `coeff` of any shape (`IndexError` for 0-d arrays). -/
noncomputable def calcIteratorNd (zOut zin coeff : Nd ℂ) : Except Err (List (Nd ℂ)) :=
  match coeff.dims with
  | [] => .error .indexError
  | N :: _ =>
    if N ≠ zin.dims.headD 1 then .error .assertionError
    else do
      let id1 := zOut.map fun _ => (1 : ℂ)
      let padePrev := id1.map fun x => 0 * x
      let c0 ← coeff.slice (min 1 N) id
      let pade ← Nd.map2 (fun x y : ℂ => x * y) c0 id1
      let zi ← zin.slice (N - 1) id
      let d ← Nd.map2 (fun x y : ℂ => x - y) zOut zi.newaxis
      let c1 ← coeff.slice (N - 1) fun j => j + 1
      let mult ← Nd.map2 (fun x y : ℂ => x * y) d c1.newaxis
      calcLoopNd mult.iterAxis2 pade padePrev id1

/-! ### Filters

Rows enumerate the approximants, `Fin c` the functions. -/

open scoped Classical in
/-- `FilterNegImag(threshold)` for `c` functions, pade.py:147. -/
noncomputable def filterNegImagStack {c : ℕ} (threshold : ℝ) (pades : List (Fin c → PadeVals)) : List (Fin c → Bool) :=
  pades.map fun p i => decide (∀ x ∈ p i, x.im < threshold)

open scoped Classical in
/-- `FilterNegImagNum(abs_num)` for `c` functions, pade.py:169-187, for given `badness` values: `keep` has one column of indices
per function; `is_valid[keep] = True` (pade.py:182) uses them as indices of axis `0` only, and sets whole rows. -/
noncomputable def filterNegImagNumStack {c : ℕ} (as : ArgSort) (absNum : ℕ) (badness : List (Fin c → ℝ)) :
    Except Err (List (Fin c → Bool)) :=
  if absNum ≥ badness.length then .ok (badness.map fun _ _ => true)
  else
    let keep : Fin c → List ℕ := fun i => (as.sort (badness.map (· i))).take absNum
    let isValid : List (Fin c → Bool) := (List.range badness.length).map fun r i =>
      decide (∃ i', r ∈ keep i') || decide ((badness.map (· i)).getD r 0 ≤ 0)
    if ∀ i, (isValid.map (· i)).count true ≥ absNum then .ok isValid else .error .assertionError

/-- Column `i` of `badness`, pade.py:237-239: the order of the approximants for function `i`, worst first. -/
noncomputable def highVarianceColumn (as : ArgSort) {N c m : ℕ} (pade : Fin N → Fin c → Fin m → ℂ)
    (bad : List (Fin N)) (nn : ℕ) (i : Fin c) : List ℕ :=
  highVarianceOrder as (fun r x => pade r i x) bad nn

/-- The loop of `filter_high_variance` for `c` functions, pade.py:235-242. `badness[np.isin(…)]` (pade.py:240) is the flattened
array of allowed indices, row by row; its first element is removed for **all** functions (pade.py:242). -/
noncomputable def highVarianceLoopStack (as : ArgSort) {N c m : ℕ} (pade : Fin N → Fin c → Fin m → ℂ) :
    ℕ → ℕ → List (Fin N) → (Fin c → List ℕ) → Except Err (Fin c → List ℕ)
  | 0, _, _, last => .ok last
  | k + 1, nn, bad, _ =>
    let badness := highVarianceColumn as pade bad nn
    let flat := (List.range N).flatMap fun r => (List.finRange c).map fun i => (badness i).getD r 0
    match flat.find? fun r => decide (r ∉ bad.map Fin.val) with
    | some r => highVarianceLoopStack as pade k (nn - 1) (if h : r < N then bad ++ [⟨r, h⟩] else bad) badness
    | none => .error .indexError

/-- `FilterHighVariance` for `c` functions, pade.py:228-251: `is_valid[badness[:-abs_num_]] = False` (pade.py:248) again sets
whole rows. -/
noncomputable def filterHighVarianceStack (as : ArgSort) {N c m : ℕ} (pade : Fin N → Fin c → Fin m → ℂ)
    (absNum : ℕ) : Except Err (List (Fin c → Bool)) :=
  if N ≤ absNum then .ok ((List.range N).map fun _ _ => true)
  else do
    let badness ← highVarianceLoopStack as pade (N - absNum) N [] fun _ => []
    .ok ((List.range N).map fun r _ => decide (∀ i', r ∉ sliceNeg (badness i') absNum))

/-- A filter: its results for the approximants of one function and for those of `c` functions. -/
structure StackFilter (c : ℕ) where
  flat : List PadeVals → List Bool
  stack : List (Fin c → PadeVals) → Except Err (List (Fin c → Bool))

/-- `FilterNegImag(threshold)`. -/
noncomputable def stackNegImag (c : ℕ) (threshold : ℝ) : StackFilter c :=
  ⟨filterNegImag threshold, fun p => .ok (filterNegImagStack threshold p)⟩

/-- `FilterHighVariance(abs_num)` for `m` points. -/
noncomputable def stackHighVariance (c : ℕ) (as : ArgSort) (m absNum : ℕ) : StackFilter c :=
  ⟨fun l => filterHighVariance as (N := l.length) (m := m) (fun r x => l[r].getD x 0) absNum,
   fun l => filterHighVarianceStack as (N := l.length) (m := m) (fun r i x => (l[r] i).getD x 0) absNum⟩

/-- `apply_filter` for `c` functions, pade.py:648-667: a single filter gets the whole stack, several filters are applied
function by function (`np.moveaxis`, `reshape`, and back). -/
def applyFilterStack {c : ℕ} (filters : List (StackFilter c)) (pades : List (Fin c → PadeVals)) :
    Except Err (List (Fin c → Bool)) :=
  match filters with
  | [filt] => filt.stack pades
  | filters => do
    let cols ← (List.finRange c).mapM fun i =>
      applyFilterLoop (pades.map (· i)) (filters.map StackFilter.flat) (pades.map fun _ => true)
    .ok ((List.range pades.length).map fun r i => (cols.getD i []).getD r false)

/-! ### Averages -/

/-- `Averager` for one function at one point, pade.py:482-491, with `none` for approximants which are NaN:
the rejected approximants are dropped before looking for NaNs. -/
noncomputable def averagerNan (kind : KindSelector) (valid : List Bool) (pades : List (Option ℂ)) : Except Err AvgResult :=
  if ¬ valid.any id then .error .runtimeError
  else
    let sel := ((kind.islice pades).zip valid).filterMap fun p => if p.2 then some p.1 else none
    if sel.any Option.isNone then .error .runtimeError else .ok (avgStat (sel.filterMap id))

/-- `Averager` for `c` functions at one point, pade.py:492-497, with `none` for NaN: all approximants are searched for NaNs. -/
noncomputable def averagerNanStack {c : ℕ} (kind : KindSelector) (valid : List (Fin c → Bool))
    (pades : List (Fin c → Option ℂ)) : Except Err (Fin c → AvgResult) :=
  if ¬ ∀ i, valid.any (· i) then .error .runtimeError
  else if ∃ i, (kind.islice pades).any fun p => (p i).isNone then .error .runtimeError
  else if (kind.islice pades).length ≠ valid.length then .error .indexError
  else .ok fun i => avgStat (((kind.islice pades).zip valid).filterMap fun p => if p.2 i then p.1 i else none)

/-- `averaged` for `c` functions at one output point with filters, pade.py:715-735; the boolean array returned by the filters
has one row per approximant. -/
noncomputable def averagedStack {c : ℕ} (kind : KindSelector) (zOut : ℂ) (N : ℕ) (zin : ℕ → ℂ) (f : Fin c → ℕ → ℂ)
    (validZ : List ℂ) (filters : List (StackFilter c)) : Except Err (Fin c → AvgResult) := do
  let M := min N kind.stop
  let coeff ← (List.finRange c).mapM fun i =>
    match coefficients M M zin (f i) with
    | .error e => .error e
    | .ok none => .error .runtimeError
    | .ok (some a) => .ok a
  let a : Fin c → ℕ → ℂ := fun i => coeff.getD i fun _ => 0
  let vals : List (Fin c → PadeVals) := (List.range (M - 1)).map fun k i =>
    validZ.map fun v => (padeState v zin (a i) (k + 1)).pade
  let valid ← applyFilterStack filters (kind.islice vals)
  averager2d kind valid ((List.range (M - 1)).map fun k i => (padeState zOut zin (a i) (k + 1)).pade)

end Gftool.Model
