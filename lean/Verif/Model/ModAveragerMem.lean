import Verif.Model.AveragerMem
import Verif.Model.PadeMod

/-!
# The functions returned by `Mod_Averager` in memory

As in `Model.AveragerMem`. The function `mod_fct` of the user may write to the arrays it is given.
-/

namespace Gftool.Model

open MM

variable {ι : Type} {N M L : ℕ}

/-- The argument `mod_fct` of `Mod_Averager` as code, with `vectorized=True` or `False`. The array of all approximants is
the list of its rows. -/
inductive ModMem (ι : Type) where
  | vectorized (fct : Arr ι → List (Arr ι) → MM ℂ (List (Arr ι)))
  | single (fct : Arr ι → Arr ι → MM ℂ (Arr ι))

/-- `np.array([...])`, row by row: the rows of the new array do not overlap. -/
def newAll [Encodable ι] : List (ι → ℂ) → MM ℂ (List (Arr ι))
  | [] => pure []
  | x :: l => do
    let a ← new x
    let as ← newAll l
    pure (a :: as)

/-- The list `[mod_fct(z, pade_ii) for pade_ii in pades]`, pade.py:618-619. -/
def modEach (fct : Arr ι → Arr ι → MM ℂ (Arr ι)) (z : Arr ι) : List (Arr ι) → MM ℂ (List (Arr ι))
  | [] => pure []
  | a :: l => do
    let r ← fct z a
    let rs ← modEach fct z l
    pure (r :: rs)

/-- `mod_pade`, pade.py:615-619. -/
def ModMem.apply (mod : ModMem ι) (z : Arr ι) (pades : List (Arr ι)) : MM ℂ (List (Arr ι)) :=
  match mod with
  | .vectorized fct => fct z pades
  | .single fct => modEach fct z pades

open scoped Classical in
/-- A call `mod_average(z)`, pade.py:598-627, of the function returned by `Mod_Averager`, whose checks (551-565) are those of
`Averager` (`averagerNew`). Line 598 (`np.asarray`) does not copy `z`. Non-finite approximants are not modelled. -/
noncomputable def modAvgCall [Encodable ι] (f : AvgFct N M L) (mod : ModMem ι) (z : Arr ι) : MM ℂ (ι → AvgResult) := do
  let padeIter ← padeGenTake f.kind.stop (.created z f.zIn f.coeff)
  let v ← read f.valid
  let vals ← readAll (((f.kind.islice padeIter).zip (List.ofFn v)).filterMap fun p => if p.2 ≠ 0 then some p.1 else none)
  let pades ← newAll (vals.map fun x i => x ((), i))
  let modPade ← mod.apply z pades
  let vals ← readAll modPade
  pure fun i => avgStat (vals.map fun x => x i)

/-- A history of calls, as `avgSession`. -/
noncomputable def modSession [Encodable ι] (f : AvgFct N M L) (mod : ModMem ι)
    (act : List (Except Err (ι → AvgResult)) → Mem ℂ → Mem ℂ × Arr ι) (m : Mem ℂ) : ℕ → AvgSession ι
  | 0 => ⟨m, []⟩
  | k + 1 =>
    let s := modSession f mod act m k
    let c := act s.out s.mem
    let r := modAvgCall f mod c.2 c.1
    ⟨r.2, s.out ++ [r.1]⟩

end Gftool.Model
