import Verif.Model.Generator

/-!
# The functions returned by `Averager` in memory

`Averager` returns a function, which is called later, any number of times. The function refers to the arrays `z_in` and
`coeff` of the caller, and to a private copy of `valid_pades`.

Modelled for a single Green's function (`coeff` has one axis) and one-dimensional `valid_pades`.
-/

namespace Gftool.Model

open MM

variable {ι : Type} {N M L : ℕ}

/-- The function `average` returned by `Averager`, pade.py:455: the variables it refers to. -/
structure AvgFct (N M L : ℕ) where
  kind : KindSelector
  zIn : Arr (Fin M)
  coeff : Arr (Unit × Fin (N + 1))
  valid : Arr (Fin L)

open scoped Classical in
/-- `Averager`, pade.py:438-453 and 503. The elements of the boolean array are numbers, zero is `False`; other types than
`bool` (line 439) are not modelled. -/
noncomputable def averagerNew (kind : KindSelector) (zIn : Arr (Fin M)) (coeff : Arr (Unit × Fin (N + 1)))
    (validPades : Arr (Fin L)) : MM ℂ (AvgFct N M L) := do
  let v ← read validPades
  let valid ← new v
  let v ← read valid
  if ∃ l, v l ≠ 0 then pure ⟨kind, zIn, coeff, valid⟩ else raise .runtimeError

/-- Calling `next` of the generator until it stops, but at most `n` times. -/
noncomputable def padeGenTake [Encodable ι] : ℕ → PadeGen Unit ι N M → MM ℂ (List (Arr (Unit × ι)))
  | 0, _ => pure []
  | n + 1, g => do
    let r ← padeGenNext g
    match r.1 with
    | none => pure []
    | some y => do
      let ys ← padeGenTake n r.2
      pure (y :: ys)

/-- Read several arrays. -/
def readAll {κ : Type} : List (Arr κ) → MM ℂ (List (κ → ℂ))
  | [] => pure []
  | a :: l => do
    let x ← read a
    let r ← readAll l
    pure (x :: r)

open scoped Classical in
/-- A call `average(z)`, pade.py:482-502. `itertools.islice` (line 484) draws at most `kind.stop` elements. The means and
deviations are returned in new arrays, given here as values; non-finite approximants (line 488) are not modelled. -/
noncomputable def AvgFct.call [Encodable ι] (f : AvgFct N M L) (z : Arr ι) : MM ℂ (ι → AvgResult) := do
  let padeIter ← padeGenTake f.kind.stop (.created z f.zIn f.coeff)
  let v ← read f.valid
  let pades ← readAll (((f.kind.islice padeIter).zip (List.ofFn v)).filterMap fun p => if p.2 ≠ 0 then some p.1 else none)
  pure fun i => avgStat (pades.map fun pade => pade ((), i))

/-- The memory and the results of the calls up to now. -/
structure AvgSession (ι : Type) where
  mem : Mem ℂ
  out : List (Except Err (ι → AvgResult))

/-- A history: `k` times the caller executes code, which may depend on everything obtained up to now, and calls
`average` with an array of their choice. -/
noncomputable def avgSession [Encodable ι] (f : AvgFct N M L)
    (act : List (Except Err (ι → AvgResult)) → Mem ℂ → Mem ℂ × Arr ι) (m : Mem ℂ) : ℕ → AvgSession ι
  | 0 => ⟨m, []⟩
  | k + 1 =>
    let s := avgSession f act m k
    let c := act s.out s.mem
    let r := f.call c.2 c.1
    ⟨r.2, s.out ++ [r.1]⟩

end Gftool.Model
