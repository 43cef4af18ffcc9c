import Verif.Model.Basic
import Mathlib.Analysis.Complex.Basic
import Mathlib.Data.List.Sort

/-!
# Model of `gftool/pade.py`

Arrays along the axis of the Matsubara frequencies are sequences `ℕ → ℂ` of which only the first
`N` entries are used. Everything is for one function (no leading axes) unless stated otherwise.
The modelled precision is exact (the code uses quad precision and casts back).
-/

namespace Gftool.Model

/-! ### Coefficients -/

/-- The array `res` after `k` iterations of the loop of `coefficients`, pade.py:294-296:
iteration `ii` replaces all entries with index `> ii`. -/
noncomputable def coefRes (z f : ℕ → ℂ) : ℕ → ℕ → ℂ
  | 0, j => f j
  | ii + 1, j =>
    if ii < j then (coefRes z f ii ii / coefRes z f ii j - 1) / (z j - z ii) else coefRes z f ii j

/-- No division by zero in `coefficients` for `N` points; otherwise numpy puts non-finite numbers
into the result. -/
def CoefRegular (z f : ℕ → ℂ) (N : ℕ) : Prop :=
  ∀ ii j, ii < j → j < N → coefRes z f ii j ≠ 0 ∧ z j - z ii ≠ 0

open scoped Classical in
/-- `coefficients`, pade.py:291-300, for `N` points `z` and `M` values; `none` stands for a result
with non-finite numbers. -/
noncomputable def coefficients (N M : ℕ) (z f : ℕ → ℂ) : Except Err (Option (ℕ → ℂ)) :=
  if N ≠ M then .error .valueError
  else if CoefRegular z f N then .ok (some (coefRes z f (N - 1))) else .ok none

/-! ### Evaluation -/

/-- Variables of the loop of `calc_iterator`. -/
structure PadeState where
  pade : ℂ
  padePrev : ℂ
  b2 : ℂ

/-- `calc_iterator` after `k` iterations for one point `z`, pade.py:390-401. -/
noncomputable def padeState (z : ℂ) (zin coeff : ℕ → ℂ) : ℕ → PadeState
  | 0 => ⟨coeff 0, 0, 1⟩
  | k + 1 =>
    let s := padeState z zin coeff k
    let multIm := (z - zin k) * coeff (k + 1) / s.b2
    let b2 := 1 + multIm
    ⟨(s.pade + multIm * s.padePrev) / b2, s.pade, b2⟩

/-- The values yielded by `calc_iterator`, pade.py:398-403, for `N` coefficients and `M` points
(the assertion pade.py:384). -/
noncomputable def calcIterator (z : ℂ) (M N : ℕ) (zin coeff : ℕ → ℂ) : Except Err (List ℂ) :=
  if N ≠ M then .error .assertionError
  else .ok ((List.range (N - 1)).map fun k => (padeState z zin coeff (k + 1)).pade)

/-! ### Selection of approximants -/

/-- `KindSelector`, pade.py:51-83: `start`, `stop` and `step`. -/
structure KindSelector where
  start : ℕ
  stop : ℕ
  step : ℕ
  deriving DecidableEq

/-- `KindSelector.__init__`, pade.py:53-61, with the `step` of the derived classes. -/
def kindInit (nMin nMax : ℤ) : Except Err KindSelector :=
  if nMin < 1 then .error .valueError
  else if nMax ≤ nMin then .error .valueError
  else .ok ⟨(nMin - 1).toNat, (nMax - 1).toNat, 2⟩

/-- `KindGf.__init__`, pade.py:96-101. -/
def kindGf (nMin nMax : ℤ) : Except Err KindSelector :=
  kindInit (if nMin % 2 = 0 then nMin + 1 else nMin) nMax

/-- `KindSelf.__init__`, pade.py:114-119. -/
def kindSelf (nMin nMax : ℤ) : Except Err KindSelector :=
  kindInit (if nMin % 2 ≠ 0 then nMin + 1 else nMin) nMax

/-- `len(range(start, stop, step))`. -/
def rangeLen (start stop step : ℕ) : ℕ := (stop - start + (step - 1)) / step

/-- `list(range(start, stop, step))`. -/
def pyRange (start stop step : ℕ) : List ℕ :=
  (List.range (rangeLen start stop step)).map fun i => start + i * step

/-- `KindSelector.__len__`, pade.py:76-78. -/
def KindSelector.len (k : KindSelector) : ℕ := rangeLen k.start k.stop k.step

/-- `KindSelector.__getitem__` for non-negative indices, pade.py:72-74. -/
def KindSelector.getitem (k : KindSelector) (i : ℕ) : Except Err ℕ :=
  match (pyRange k.start k.stop k.step)[i]? with
  | some x => .ok x
  | none => .error .indexError

/-- `KindSelector.islice`, pade.py:63-65: `itertools.islice` walks through the iterable and picks
the elements at `start, start+step, …` below `stop`, as long as there are any. -/
def KindSelector.islice {α : Type*} (k : KindSelector) (l : List α) : List α :=
  (pyRange k.start k.stop k.step).filterMap fun i => l[i]?

/-! ### Filters -/

/-- An approximant at the validation points. -/
abbrev PadeVals := List ℂ

open scoped Classical in
/-- `FilterNegImag(threshold)`, pade.py:147. -/
noncomputable def filterNegImag (threshold : ℝ) (pades : List PadeVals) : List Bool :=
  pades.map fun p => decide (∀ x ∈ p, x.im < threshold)

/-- `np.max(pade.imag, axis=-1)`; raises `ValueError` for no points. -/
noncomputable def maxImag : PadeVals → Except Err ℝ
  | [] => .error .valueError
  | x :: xs => .ok (xs.foldl (fun m y => max m y.im) x.im)

/-- External `np.argsort`: some permutation of the indices that sorts the values. -/
structure ArgSort where
  sort : List ℝ → List ℕ
  perm : ∀ l, (sort l).Perm (List.range l.length)
  sorted : ∀ l, (sort l).Pairwise fun i j => l.getD i 0 ≤ l.getD j 0

open scoped Classical in
/-- `FilterNegImagNum(abs_num=…)` resp. `(rel_num=…)`, pade.py:169-187, for given `badness` values:
`num = .inl abs_num` or `.inr rel_num`. With `rel_num`, the slice index is a float. -/
noncomputable def filterNegImagNum (as : ArgSort) (num : ℕ ⊕ ℝ) (badness : List ℝ) :
    Except Err (List Bool) :=
  match num with
  | .inr rel =>
    if rel * badness.length ≥ badness.length then .ok (badness.map fun _ => true)
    else .error .typeError
  | .inl absNum =>
    if absNum ≥ badness.length then .ok (badness.map fun _ => true)
    else
      let keep := (as.sort badness).take absNum
      let isValid := (List.range badness.length).map fun i =>
        decide (i ∈ keep) || decide (badness.getD i 0 ≤ 0)
      if isValid.count true ≥ absNum then .ok isValid else .error .assertionError

/-- `FilterNegImagNum(abs_num=…)` resp. `(rel_num=…)` applied to the approximants, pade.py:169-187: the badness is the
largest imaginary part. -/
noncomputable def filterNegImagNumPades (as : ArgSort) (num : ℕ ⊕ ℝ) (pades : List PadeVals) :
    Except Err (List Bool) :=
  match pades.mapM maxImag with
  | .error e => .error e
  | .ok badness => filterNegImagNum as num badness

/-- One iteration of `filter_high_variance`, pade.py:236-242, with `nn` remaining approximants and
the indices `bad` removed so far. `pade i x` is approximant `i` at point `x`. Returns the ordering
`badness` (worst first) and the next bad index. -/
noncomputable def highVarianceOrder (as : ArgSort) {N m : ℕ} (pade : Fin N → Fin m → ℂ)
    (bad : List (Fin N)) (nn : ℕ) : List ℕ :=
  let padeSum := fun x => ∑ i, pade i x - (bad.map fun i => pade i x).sum
  let distance := (List.finRange N).map fun i =>
    ∑ x, Complex.normSq ((nn : ℂ) * pade i x - padeSum x)
  (as.sort distance).reverse

/-- The loop of `filter_high_variance`, pade.py:235-242: `k` more iterations, starting with `nn`.
Returns the last `badness`. -/
noncomputable def highVarianceLoop (as : ArgSort) {N m : ℕ} (pade : Fin N → Fin m → ℂ) :
    ℕ → ℕ → List (Fin N) → List ℕ → List ℕ
  | 0, _, _, last => last
  | k + 1, nn, bad, _ =>
    let badness := highVarianceOrder as pade bad nn
    let newbad := badness.find? fun i => decide (i ∉ bad.map Fin.val)
    let bad' := match newbad with
      | some i => if h : i < N then bad ++ [⟨i, h⟩] else bad
      | none => bad
    highVarianceLoop as pade k (nn - 1) bad' badness

/-- `list[:-n]`: everything but the last `n` elements; for `n = 0` this is `list[:0]`. -/
def sliceNeg {α : Type*} (l : List α) (n : ℕ) : List α := if n = 0 then [] else l.take (l.length - n)

/-- `FilterHighVariance(abs_num)` resp. `(rel_num)` after computing `abs_num_`, pade.py:228-251. -/
noncomputable def filterHighVariance (as : ArgSort) {N m : ℕ} (pade : Fin N → Fin m → ℂ)
    (absNum : ℕ) : List Bool :=
  if N ≤ absNum then (List.range N).map fun _ => true
  else
    let badness := highVarianceLoop as pade (N - absNum) N [] []
    let drop := sliceNeg badness absNum
    (List.range N).map fun i => decide (i ∉ drop)

/-- `int(rel_num*N_pades)`, pade.py:234, for `0 < rel_num < 1`. -/
noncomputable def relNum (rel : ℝ) (N : ℕ) : ℕ := ⌊rel * N⌋₊

/-- `i_valid[i_valid] = new`: write the entries of `new` to the positions that are `True`. -/
def maskSet : List Bool → List Bool → List Bool
  | [], _ => []
  | false :: v, new => false :: maskSet v new
  | true :: v, b :: new => b :: maskSet v new
  | true :: v, [] => true :: v

/-- `array[i_valid]`: select the entries where the mask is `True`. -/
def maskGet {α : Type*} : List Bool → List α → List α
  | true :: v, x :: xs => x :: maskGet v xs
  | false :: v, _ :: xs => maskGet v xs
  | _, _ => []

/-- Loop over the filters in `apply_filter`, pade.py:655-666, for one data set. -/
def applyFilterLoop {α : Type*} (pades : List α) :
    List (List α → List Bool) → List Bool → Except Err (List Bool)
  | [], valid => .ok valid
  | filt :: filters, valid =>
    let valid' := maskSet valid (filt (maskGet valid pades))
    if valid'.count true = 0 then .error .runtimeError else applyFilterLoop pades filters valid'

/-- `apply_filter`, pade.py:648-667, for one data set. -/
def applyFilter {α : Type*} (filters : List (List α → List Bool)) (pades : List α) :
    Except Err (List Bool) :=
  match filters with
  | [filt] => .ok (filt pades)
  | filters => applyFilterLoop pades filters (pades.map fun _ => true)

/-! ### Averages -/

/-- `np.nanmean` of the accepted approximants at one point; `none` is NaN. -/
noncomputable def meanC (l : List ℂ) : Option ℂ := if l = [] then none else some (l.sum / l.length)

/-- `np.nanstd(..., ddof=1)`, pade.py:37; `none` is NaN (at most one number). -/
noncomputable def stdR (l : List ℝ) : Option ℝ :=
  if l.length ≤ 1 then none
  else
    let mean := l.sum / l.length
    some (Real.sqrt ((l.map fun x => (x - mean) ^ 2).sum / (l.length - 1)))

/-- Result of an average at one point: value and deviation. -/
structure AvgResult where
  x : Option ℂ
  err : Option (ℝ × ℝ)

/-- The statistics of pade.py:499-502. -/
noncomputable def avgStat (l : List ℂ) : AvgResult :=
  ⟨meanC l, match stdR (l.map Complex.re), stdR (l.map Complex.im) with
    | some a, some b => some (a, b)
    | _, _ => none⟩

/-- `Averager` for one function (1d `valid_pades`), pade.py:438-503, evaluated at one point.
`pades` are the finite values `calc_iterator` yields (NaNs raise `RuntimeError`). -/
noncomputable def averager (kind : KindSelector) (valid : List Bool) (pades : List ℂ) :
    Except Err AvgResult :=
  if ¬ valid.any id then .error .runtimeError
  else .ok (avgStat (((kind.islice pades).zip valid).filterMap fun p =>
    if p.2 then some p.1 else none))

/-- `Averager` for several functions (2d `valid_pades`, pade.py:492-497). Rows are approximants,
`c` functions; the boolean index has to match the number of approximants. -/
noncomputable def averager2d {c : ℕ} (kind : KindSelector) (valid : List (Fin c → Bool))
    (pades : List (Fin c → ℂ)) : Except Err (Fin c → AvgResult) :=
  if ¬ ∀ i, valid.any (· i) then .error .runtimeError
  else if (kind.islice pades).length ≠ valid.length then .error .indexError
  else .ok fun i => avgStat (((kind.islice pades).zip valid).filterMap fun p =>
    if p.2 i then some (p.1 i) else none)

/-- `averaged`, pade.py:715-735, for one function at one output point, given coefficients computed
from `fct_z`, and without (`none`) or with filters (applied to the approximants at the
validation points `validZ`). `none` means that the coefficients are not finite, in which case
`Averager` raises `RuntimeError`. -/
noncomputable def averaged (kind : KindSelector) (zOut : ℂ) (N : ℕ) (zin f : ℕ → ℂ)
    (validZ : List ℂ) (filters : Option (List (List PadeVals → List Bool))) :
    Except Err AvgResult :=
  let M := min N kind.stop
  match coefficients M M zin f with
  | .error e => .error e
  | .ok none => .error .runtimeError
  | .ok (some coeff) =>
    match calcIterator zOut M M zin coeff with
    | .error e => .error e
    | .ok pades =>
      match filters with
      | none => averager kind (List.replicate kind.len true) pades
      | some filters =>
        let vals : List PadeVals := (List.range (M - 1)).map fun k =>
          validZ.map fun v => (padeState v zin coeff (k + 1)).pade
        match applyFilter filters (kind.islice vals) with
        | .error e => .error e
        | .ok valid => averager kind valid pades

end Gftool.Model
