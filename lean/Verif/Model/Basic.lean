import Mathlib.LinearAlgebra.Matrix.NonsingularInverse

/-!
# Common parts of the model: exceptions and the linear solver

Python exceptions are values of `Err`; a function that may raise returns `Except Err α`.
-/

namespace Gftool.Model

/-- The Python exceptions that occur in the modelled code. -/
inductive Err
  | valueError
  | assertionError
  | runtimeError
  | linAlgError
  | notImplemented
  | typeError
  | indexError
  | zeroDivision
  deriving DecidableEq, Repr

open scoped Classical in
/-- `_vecsolve`, gftool/_util.py (a call of `numpy.linalg.solve`), external. Contract:
returns the exact solution for a regular matrix and raises `LinAlgError` for a singular one. -/
noncomputable def vecsolve {𝕜 : Type*} [Field 𝕜] {n : ℕ} (A : Matrix (Fin n) (Fin n) 𝕜)
    (b : Fin n → 𝕜) : Except Err (Fin n → 𝕜) :=
  if A.det = 0 then .error .linAlgError else .ok (A⁻¹.mulVec b)

end Gftool.Model
