import Mathlib.Analysis.Complex.Basic
import Mathlib.Combinatorics.SimpleGraph.Finite
import Mathlib.Data.Finset.Image
import Mathlib.Data.Int.Basic
import Mathlib.Tactic

/-!
# Specification: electrons hopping on an infinite lattice in real space

A lattice is given by its sites, for every site the finite list of the neighbours, and the hopping amplitudes. The
Hamiltonian is `(H ψ)(v) = ∑_{w neighbour of v} t(v, w) ψ(w)`. The local Green's function `⟨r|(z - H)⁻¹|r⟩` is the value at
`r` of the only square-summable solution `ψ` of `(z - H) ψ = δ_r`.
-/

namespace Gftool.Spec

/-- Neighbours and hopping amplitudes. -/
structure Hopping (V : Type*) where
  nb : V → Finset V
  amp : V → V → ℝ

/-- The Hamiltonian `(H ψ)(v) = ∑_{w neighbour of v} t(v, w) ψ(w)`. -/
noncomputable def Hopping.ham {V : Type*} (H : Hopping V) (ψ : V → ℂ) (v : V) : ℂ := ∑ w ∈ H.nb v, (H.amp v w : ℂ) * ψ w

/-- `ψ` is a square-summable solution of `(z - H) ψ = δ_r`. -/
structure IsResolvent {V : Type*} [DecidableEq V] (H : Hopping V) (r : V) (z : ℂ) (ψ : V → ℂ) : Prop where
  summable : Summable fun v => ‖ψ v‖ ^ 2
  eq : ∀ v, z * ψ v - H.ham ψ v = if v = r then 1 else 0

/-- `g = ⟨r|(z - H)⁻¹|r⟩`: the equation `(z - H) ψ = δ_r` has exactly one square-summable solution, and its value at `r`
is `g`. -/
def LocalGreen {V : Type*} [DecidableEq V] (H : Hopping V) (r : V) (z g : ℂ) : Prop :=
  ∃ ψ, IsResolvent H r z ψ ∧ ψ r = g ∧ ∀ φ, IsResolvent H r z φ → φ = ψ

/-- Hopping with amplitude `t` along the edges of a graph. -/
def graphHopping {V : Type*} (G : SimpleGraph V) [G.LocallyFinite] (t : ℝ) : Hopping V :=
  ⟨fun v => G.neighborFinset v, fun _ _ => t⟩

/-- Hopping between the points of a Bravais lattice whose difference `o` is one of `offs`, with the amplitude `t o`. -/
def bravaisHopping {A : Type*} [AddCommGroup A] [DecidableEq A] (offs : Finset A) (t : A → ℝ) : Hopping A :=
  ⟨fun v => offs.image (v + ·), fun v w => t (w - v)⟩

/-- Hopping between the points of the lattice `L` whose difference is one of `offs`, with the amplitude `t`. -/
def sublatticeHopping {A : Type*} [AddCommGroup A] [DecidableEq A] (L : AddSubgroup A) [DecidablePred (· ∈ L)]
    (offs : Finset A) (t : ℝ) : Hopping L :=
  ⟨fun v => (offs.image (v.1 + ·)).subtype (· ∈ L), fun _ _ => t⟩

/-- Hopping on a lattice with several sites `ι` in the unit cell. From site `i` of the cell `v` electrons hop to the site
`j` of the cell `v + a` for `(a, j)` in `bonds i`, with the amplitude `t`. -/
def crystalHopping {A ι : Type*} [AddCommGroup A] [DecidableEq A] [DecidableEq ι] (bonds : ι → Finset (A × ι)) (t : ℝ) :
    Hopping (A × ι) :=
  ⟨fun v => (bonds v.2).image fun b => (v.1 + b.1, b.2), fun _ _ => t⟩

/-! ## The lattices -/

/-- Chain: two neighbours. -/
def chainOffs : Finset ℤ := {1, -1}

/-- Square and rectangular lattice: four neighbours. -/
def squareOffs : Finset (ℤ × ℤ) := {(1, 0), (-1, 0), (0, 1), (0, -1)}

/-- Amplitude `t` along the first and `γ t` along the second axis. -/
def rectangularAmp (t γ : ℝ) (o : ℤ × ℤ) : ℝ := if o.2 = 0 then t else γ * t

/-- The triangular lattice in units of half the lattice constant and of half the height of two triangles: the points
`(x, y)` with `x + y` even. -/
def triangularLattice : AddSubgroup (ℤ × ℤ) where
  carrier := {v | Even (v.1 + v.2)}
  zero_mem' := by simp
  add_mem' {a b} ha hb := by
    have := Even.add ha hb
    simp only [Set.mem_ofPred_eq, Prod.fst_add, Prod.snd_add]
    rwa [add_add_add_comm] at this
  neg_mem' {a} ha := by
    have := Even.neg ha
    simp only [Set.mem_ofPred_eq, Prod.fst_neg, Prod.snd_neg]
    rwa [neg_add] at this

instance : DecidablePred (· ∈ triangularLattice) := fun v => inferInstanceAs (Decidable (Even (v.1 + v.2)))

/-- The six neighbours. -/
def triangularOffs : Finset (ℤ × ℤ) := {(2, 0), (-2, 0), (1, 1), (-1, -1), (1, -1), (-1, 1)}

/-- Simple cubic lattice: six neighbours. -/
def scOffs : Finset (ℤ × ℤ × ℤ) := {(1, 0, 0), (-1, 0, 0), (0, 1, 0), (0, -1, 0), (0, 0, 1), (0, 0, -1)}

/-- Body-centred cubic lattice in units of half the lattice constant: the coordinates are all even or all odd. -/
def bccLattice : AddSubgroup (ℤ × ℤ × ℤ) where
  carrier := {v | Even (v.1 + v.2.1) ∧ Even (v.1 + v.2.2)}
  zero_mem' := by simp
  add_mem' {a b} ha hb := by
    have h1 := Even.add ha.1 hb.1
    have h2 := Even.add ha.2 hb.2
    simp only [Set.mem_ofPred_eq, Prod.fst_add, Prod.snd_add]
    rw [add_add_add_comm] at h1 h2
    exact ⟨h1, h2⟩
  neg_mem' {a} ha := by
    have h1 := Even.neg ha.1
    have h2 := Even.neg ha.2
    simp only [Set.mem_ofPred_eq, Prod.fst_neg, Prod.snd_neg]
    rw [neg_add] at h1 h2
    exact ⟨h1, h2⟩

instance : DecidablePred (· ∈ bccLattice) := fun v =>
  inferInstanceAs (Decidable (Even (v.1 + v.2.1) ∧ Even (v.1 + v.2.2)))

/-- The eight neighbours. -/
def bccOffs : Finset (ℤ × ℤ × ℤ) :=
  {(1, 1, 1), (1, 1, -1), (1, -1, 1), (1, -1, -1), (-1, 1, 1), (-1, 1, -1), (-1, -1, 1), (-1, -1, -1)}

/-- Face-centred cubic lattice in units of half the lattice constant: the sum of the coordinates is even. -/
def fccLattice : AddSubgroup (ℤ × ℤ × ℤ) where
  carrier := {v | Even (v.1 + (v.2.1 + v.2.2))}
  zero_mem' := by simp
  add_mem' {a b} ha hb := by
    have := Even.add ha hb
    simp only [Set.mem_ofPred_eq, Prod.fst_add, Prod.snd_add]
    rwa [add_add_add_comm, add_add_add_comm a.2.1] at this
  neg_mem' {a} ha := by
    have := Even.neg ha
    simp only [Set.mem_ofPred_eq, Prod.fst_neg, Prod.snd_neg]
    rwa [neg_add, neg_add] at this

instance : DecidablePred (· ∈ fccLattice) := fun v => inferInstanceAs (Decidable (Even (v.1 + (v.2.1 + v.2.2))))

/-- The twelve neighbours. -/
def fccOffs : Finset (ℤ × ℤ × ℤ) :=
  {(1, 1, 0), (1, -1, 0), (-1, 1, 0), (-1, -1, 0), (1, 0, 1), (1, 0, -1), (-1, 0, 1), (-1, 0, -1),
    (0, 1, 1), (0, 1, -1), (0, -1, 1), (0, -1, -1)}

/-- Honeycomb lattice: two sites per unit cell with three neighbours each; the cells `(m, n)` stand for
`m a₁ + n a₂` with the primitive translations `a₁`, `a₂` of the triangular lattice. -/
def honeycombBonds : Fin 2 → Finset ((ℤ × ℤ) × Fin 2)
  | 0 => {((0, 0), 1), ((-1, 0), 1), ((0, -1), 1)}
  | 1 => {((0, 0), 0), ((1, 0), 0), ((0, 1), 0)}

/-- Kagome lattice: three sites per unit cell, `0`, `a₁/2` and `a₂/2`, with four neighbours each. -/
def kagomeBonds : Fin 3 → Finset ((ℤ × ℤ) × Fin 3)
  | 0 => {((0, 0), 1), ((-1, 0), 1), ((0, 0), 2), ((0, -1), 2)}
  | 1 => {((0, 0), 0), ((1, 0), 0), ((0, 0), 2), ((1, -1), 2)}
  | 2 => {((0, 0), 0), ((0, 1), 0), ((0, 0), 1), ((-1, 1), 1)}

/-- Lieb lattice: the square lattice, site `0`, with additional sites `1` and `2` on the middle of the bonds. -/
def liebBonds : Fin 3 → Finset ((ℤ × ℤ) × Fin 3)
  | 0 => {((0, 0), 1), ((-1, 0), 1), ((0, 0), 2), ((0, -1), 2)}
  | 1 => {((0, 0), 0), ((1, 0), 0)}
  | 2 => {((0, 0), 0), ((0, 1), 0)}

end Gftool.Spec
