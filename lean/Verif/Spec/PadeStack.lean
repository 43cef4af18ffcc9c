import Verif.Model.PadeStack

/-!
# Padé continuation of several functions at once

A filter treats a stack of functions correctly if every function gets the verdict it gets on its own.
-/

namespace Gftool.Spec

open Model

/-- The filter judges the approximants of each of the `c` functions as if it was the only one. -/
def PerFunction {c : ℕ} (F : StackFilter c) : Prop :=
  ∀ pades : List (Fin c → PadeVals), ∃ v, F.stack pades = .ok v ∧ v.length = pades.length ∧
    ∀ i, v.map (· i) = F.flat (pades.map (· i))

end Gftool.Spec
