import Verif.Model.AveragerMem
import Verif.Spec.Generator

/-!
# Specification of histories of functions returned by `Averager`
-/

namespace Gftool.Spec

open Gftool Model

variable {ι : Type} [Encodable ι] {N M L : ℕ} (f : AvgFct N M L)
  (act : List (Except Err (ι → AvgResult)) → Mem ℂ → Mem ℂ × Arr ι) (m : Mem ℂ)

/-- The memory after `k` calls of the function. -/
noncomputable def avgMemAfter (k : ℕ) : Mem ℂ := (avgSession f act m k).mem

/-- The memory when the function is called the `k`-th time (counted from 0). -/
noncomputable def avgMemBefore (k : ℕ) : Mem ℂ := (act (avgSession f act m k).out (avgSession f act m k).mem).1

/-- The argument of the `k`-th call (counted from 0). -/
noncomputable def avgArgument (k : ℕ) : Arr ι := (act (avgSession f act m k).out (avgSession f act m k).mem).2

/-- The result of the `k`-th call (counted from 0). -/
noncomputable def avgOutcome (k : ℕ) : Except Err (ι → AvgResult) :=
  ((avgSession f act m (k + 1)).out[k]?).getD (.error .notImplemented)

/-- The caller never writes to the buffers in `s`. -/
def LeavesAlone (s : Set ℕ) : Prop :=
  ∀ k, (avgMemAfter f act m k).next ≤ (avgMemBefore f act m k).next ∧
    ∀ a ∈ s, (avgMemBefore f act m k).buf a = (avgMemAfter f act m k).buf a

open scoped Classical in
/-- The list of booleans in an array. -/
noncomputable def bools (m : Mem ℂ) (valid : Arr (Fin L)) : List Bool := List.ofFn fun l => decide (contents m valid l ≠ 0)

/-- The averages for given contents of `z_in`, `coeff` and `valid_pades` at the point `z`, without memory. -/
noncomputable def averageAt (kind : KindSelector) (valid : List Bool) (zin : Fin M → ℂ) (coeff : Fin (N + 1) → ℂ) (z : ℂ) :
    Except Err AvgResult :=
  match calcIterator z M (N + 1) (extend zin) (extend coeff) with
  | .ok pades => averager kind valid pades
  | .error e => .error e

end Gftool.Spec
