import Verif.Model.Basic
import Verif.Model.Statistics
import Mathlib.LinearAlgebra.Matrix.NonsingularInverse
import Mathlib.Data.Fin.Tuple.Sort
import Mathlib.Data.Prod.Lex

/-!
# Model of `pade_frequencies` of `gftool/statistics.py`
-/

namespace Gftool.Model

open Complex

/-- `np.allclose(a, b)` with the default tolerances. -/
def npAllclose {n : ℕ} (a b : Fin n → ℂ) : Prop := ∀ i, ‖a i - b i‖ ≤ 1e-8 + 1e-5 * ‖b i‖

/-- Signature of the external `scipy.linalg.eig(a, b=b)`: generalised eigenvalues and matrix of right eigenvectors. -/
abbrev GEig := ∀ N : ℕ, Matrix (Fin N) (Fin N) ℝ → Matrix (Fin N) (Fin N) ℝ → (Fin N → ℂ) × Matrix (Fin N) (Fin N) ℂ

/-- `np.argsort` of complex numbers, lexicographic in real and imaginary part. -/
noncomputable def argsortC {N : ℕ} (a : Fin N → ℂ) : Equiv.Perm (Fin N) := Tuple.sort fun k => toLex ((a k).re, (a k).im)

open scoped Classical in
/-- `_pade_frequencies`, statistics.py:235-249. The size of the matrices is `num + num`; `x[:num//2][::-1]` has the elements
`x[num - 1 - i]` and `x[num//2:]` the elements `x[num + i]`. -/
noncomputable def padeFrequencies0 (geig : GEig) (num : ℕ) : Except Err ((Fin num → ℂ) × (Fin num → ℝ)) :=
  let r := geig (num + num) (padeA (num + num)) (padeB (num + num))
  let eig := r.1
  let v := r.2
  let sort := argsortC eig
  let izp : Fin (num + num) → ℂ := fun k => I * eig (sort k)
  let resids : Fin (num + num) → ℂ := fun k =>
    if h : 0 < num + num then padeResid (v ⟨0, h⟩ (sort k)) (v⁻¹ (sort k) ⟨0, h⟩) (eig (sort k)) else 0
  if ¬ npAllclose (fun i => -izp (Fin.castAdd num i.rev)) (fun i => izp (Fin.natAdd num i)) then .error .assertionError
  else if ¬ npAllclose (fun i => resids (Fin.castAdd num i.rev)) (fun i => resids (Fin.natAdd num i)) then
    .error .assertionError
  else if ¬ ∀ k, (resids k).im = 0 then .error .assertionError
  else .ok (fun i => izp (Fin.natAdd num i), fun i => (resids (Fin.natAdd num i)).re)

/-- `pade_frequencies`, statistics.py:304-305. -/
noncomputable def padeFrequencies (geig : GEig) (num : ℕ) (beta : ℝ) : Except Err ((Fin num → ℂ) × (Fin num → ℝ)) :=
  match padeFrequencies0 geig num with
  | .error e => .error e
  | .ok (izp, resids) => .ok (fun i => 1 / (beta : ℂ) * izp i, resids)

end Gftool.Model
