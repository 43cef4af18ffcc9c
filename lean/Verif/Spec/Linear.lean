import Verif.Model.Basic
import Mathlib.Algebra.Module.Basic

/-!
# Superposition principle
-/

namespace Gftool.Spec

/-- `f` obeys the superposition principle: the result of a linear combination is the linear combination of the results. -/
def Linear (K : Type*) {V W : Type*} [Add V] [Add W] [SMul K V] [SMul K W] (f : V → Except Err W) : Prop :=
  ∀ (a b : K) (g h : V) (x y : W), f g = .ok x → f h = .ok y → f (a • g + b • h) = .ok (a • x + b • y)

/-- Whether and how `f` fails does not depend on the data. -/
def SameErrors {V W : Type*} (f : V → Except Err W) : Prop := ∀ (g h : V) (e : Err), f g = .error e → f h = .error e

end Gftool.Spec
