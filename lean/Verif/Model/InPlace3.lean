import Verif.Model.InPlace
import Verif.Model.Laplace

/-!
# `tt2z_lin` in memory

As in `Model.InPlace`.
-/

namespace Gftool.Model

open MM
open Complex (I)

variable {ι : Type} [Encodable ι]

/-- The elements of a one-dimensional array by number. -/
def nth {n : ℕ} (x : Fin n → ℂ) (k : ℕ) : ℂ := if h : k < n then x ⟨k, h⟩ else 0

open scoped Classical in
/-- `tt2z_lin`, fourier.py:1320-1336, for one Green's function. Line 1326 gives the name `z` to a new array (`np.where`), line
1335 writes to the array allocated in line 1333. For `tt[1] = tt[0]` see `tt2zLin`. -/
noncomputable def tt2zLinArr {n : ℕ} (tt gfT : Arr (Fin n)) (z : Arr ι) : MM ℂ (Arr ι) := do
  if n < 2 then raise .indexError
  else
    let t ← read tt
    let deltaTt := (nth t 1).re - (nth t 0).re
    if ¬ equidistant n fun k => (nth t k).re then raise .valueError
    else
      let x ← read z
      let zero := fun i => x i = 0
      let z ← if ∃ i, zero i then new fun i => if zero i then 1 else x i else pure z
      let x ← read z
      let izdt ← new fun i => I * x i * deltaTt
      let x ← read z
      let t ← read tt
      let phases ← new fun p : ι × Fin (n - 1) => phase (x p.1) (nth t p.2).re
      let g ← read gfT
      let ph ← read phases
      let gDft ← new fun i => ∑ k, ph (i, k) * nth g k
      let g ← read gfT
      let ph ← read phases
      let dgDft ← new fun i => ∑ k, ph (i, k) * (nth g (k + 1) - nth g k)
      let y ← read izdt
      let weight1 ← new fun i => (Complex.exp (y i) - 1) / y i
      let w1 ← read weight1
      let weight2 ← new fun i => (Complex.exp (y i) - w1 i) / y i
      let w1 ← read weight1
      let w2 ← read weight2
      let a ← read gDft
      let b ← read dgDft
      let gfZ ← new fun i => deltaTt * (w1 i * a i + w2 i * b i)
      if ∃ i, zero i then
        let t ← read tt
        let g ← read gfT
        assign gfZ zero fun _ => ∑ k ∈ Finset.range (n - 1),
          (((nth t (k + 1)).re - (nth t k).re : ℝ) : ℂ) * (nth g (k + 1) + nth g k) / 2
        return gfZ
      else return gfZ

end Gftool.Model
