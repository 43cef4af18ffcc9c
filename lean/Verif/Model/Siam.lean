import Verif.Model.Matrix
import Verif.Model.Pole

/-!
# Model of `gftool/siam.py`
-/

namespace Gftool.Model

open Matrix

/-- `hybrid_z`, siam.py:206. -/
noncomputable def hybridZ {n : ℕ} (z : ℂ) (eBath : Fin n → ℝ) (hoppingSqr : Fin n → ℂ) : ℂ :=
  ∑ k, hoppingSqr k / (z - eBath k)

/-- `gf0_loc_z`, siam.py:61. -/
noncomputable def siamGf0LocZ {n : ℕ} (z : ℂ) (eOnsite : ℝ) (eBath : Fin n → ℝ)
    (hoppingSqr : Fin n → ℂ) : ℂ :=
  1 / (z - eOnsite - hybridZ z eBath hoppingSqr)

/-- `hamiltonian_matrix`, siam.py:177-184. `cast` is the conversion to the dtype of `hopping`
done by the assignments into `ham` (line 179 allocates `ham` with that dtype): the identity
for complex hopping, the truncation to integers for an integer array. -/
def siamHamiltonian {n : ℕ} (cast : ℂ → ℂ) (eOnsite : ℝ) (eBath : Fin n → ℝ)
    (hopping : Fin n → ℂ) : Matrix (Fin (n + 1)) (Fin (n + 1)) ℂ :=
  Matrix.of fun i j =>
    Fin.cases (Fin.cases (cast eOnsite) (fun k => cast (hopping k)) j)
      (fun k => Fin.cases (cast (star (hopping k)))
        (fun k' => if k = k' then cast (eBath k) else 0) j) i

/-- The common part of `gf0_loc_ret_t`, `gf0_loc_gr_t` and `gf0_loc_le_t`, siam.py:84-89,
114-119, 144-149: decompose the Hamiltonian, slice to the impurity, reconstruct the diagonal
with the single-pole functions `f` of the eigenvalues, element `0`. -/
noncomputable def siamLocal (ext : EigExt) {n : ℕ} (eOnsite : ℝ) (eBath : Fin n → ℝ)
    (hopping : Fin n → ℂ) (f : ℂ → ℂ) : Except Err ℂ :=
  match decomposeHer ext (siamHamiltonian id eOnsite eBath hopping) true with
  | .error e => .error e
  | .ok dec =>
    let sliced : Decomposition (Fin 1) (Fin (n + 1)) :=
      ⟨Matrix.of fun i j => dec.rv (Fin.castLE (by omega) i) j, dec.eig,
       Matrix.of fun i j => dec.rvInv i (Fin.castLE (by omega) j)⟩
    .ok (sliced.reconstructDiag (some fun i => f (dec.eig i)) 0)

/-- `gf0_loc_ret_t`, siam.py:84-89. -/
noncomputable def siamRetT (ext : EigExt) {n : ℕ} (tt : ℝ) (eOnsite : ℝ) (eBath : Fin n → ℝ)
    (hopping : Fin n → ℂ) : Except Err ℂ :=
  siamLocal ext eOnsite eBath hopping fun p => singlePoleGfRetT tt p

/-- `gf0_loc_gr_t`, siam.py:114-119 (the eigenvalues are real floats). -/
noncomputable def siamGrT (ext : EigExt) {n : ℕ} (tt : ℝ) (eOnsite : ℝ) (eBath : Fin n → ℝ)
    (hopping : Fin n → ℂ) (beta : ℝ) : Except Err ℂ :=
  siamLocal ext eOnsite eBath hopping fun p => singlePoleGfGrT tt p.re beta

/-- `gf0_loc_le_t`, siam.py:144-149 (the eigenvalues are real floats). -/
noncomputable def siamLeT (ext : EigExt) {n : ℕ} (tt : ℝ) (eOnsite : ℝ) (eBath : Fin n → ℝ)
    (hopping : Fin n → ℂ) (beta : ℝ) : Except Err ℂ :=
  siamLocal ext eOnsite eBath hopping fun p => singlePoleGfLeT tt p.re beta

end Gftool.Model
