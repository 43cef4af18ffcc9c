import Mathlib.Analysis.Complex.Basic
import Mathlib.Data.Fintype.BigOperators
import Mathlib.Tactic

/-!
# Specification: fermions on a dimer and on an atom

Second quantisation for four fermionic modes (two sites, two spins). A state assigns an amplitude to every
occupation `(n₁↑, n₂↑, n₁↓, n₂↓)`; the annihilators carry the Jordan-Wigner signs of the modes in front. The canonical
anticommutation relations are proved in `Verif.Props.Fock`.
-/

namespace Gftool.Spec

/-- Occupations of the four modes `1↑, 2↑, 1↓, 2↓`. -/
abbrev Occ := Bool × Bool × Bool × Bool

/-- States of four fermionic modes. -/
abbrev Fock := Occ → ℂ

/-- Sign of passing an operator in front of a mode with occupation `n`. -/
def jw (n : Bool) : ℂ := if n then -1 else 1

/-- The annihilators of the modes `1↑, 2↑, 1↓, 2↓`. -/
def ann (i : Fin 4) (ψ : Fock) : Fock := fun (a, b, c, d) =>
  match i with
  | 0 => if a then 0 else ψ (true, b, c, d)
  | 1 => if b then 0 else jw a * ψ (a, true, c, d)
  | 2 => if c then 0 else jw a * jw b * ψ (a, b, true, d)
  | 3 => if d then 0 else jw a * jw b * jw c * ψ (a, b, c, true)

/-- The creators of the modes `1↑, 2↑, 1↓, 2↓`. -/
def cre (i : Fin 4) (ψ : Fock) : Fock := fun (a, b, c, d) =>
  match i with
  | 0 => if a then ψ (false, b, c, d) else 0
  | 1 => if b then jw a * ψ (a, false, c, d) else 0
  | 2 => if c then jw a * jw b * ψ (a, b, false, d) else 0
  | 3 => if d then jw a * jw b * jw c * ψ (a, b, c, false) else 0

/-- Scalar product. -/
noncomputable def braket (φ ψ : Fock) : ℂ := ∑ n, (starRingEnd ℂ) (φ n) * ψ n

/-- The number operator of a mode. -/
def num (i : Fin 4) (ψ : Fock) : Fock := cre i (ann i ψ)

/-- Index of the mode at `site` with spin `σ`. -/
def mode (site : Fin 2) (σ : Fin 2) : Fin 4 := ⟨site + 2 * σ, by omega⟩

/-- The Hamiltonian of the Hubbard dimer
`H = -t ∑_σ (c†_{1σ} c_{2σ} + c†_{2σ} c_{1σ}) + U ∑_i n_{i↑} n_{i↓}`. -/
noncomputable def dimerH (t U : ℝ) (ψ : Fock) : Fock :=
  (-(t : ℂ)) • ∑ σ : Fin 2, (cre (mode 0 σ) (ann (mode 1 σ) ψ) + cre (mode 1 σ) (ann (mode 0 σ) ψ))
    + (U : ℂ) • ∑ i : Fin 2, num (mode i 0) (num (mode i 1) ψ)

/-- The operators `c_{±σ} = (c_{1σ} ± c_{2σ})/√2` with the sign `s`. -/
noncomputable def annPM (s : ℂ) (σ : Fin 2) (ψ : Fock) : Fock :=
  (1 / (√2 : ℂ)) • (ann (mode 0 σ) ψ + s • ann (mode 1 σ) ψ)

/-- The adjoints of `annPM` (for a real sign `s`). -/
noncomputable def crePM (s : ℂ) (σ : Fin 2) (ψ : Fock) : Fock :=
  (1 / (√2 : ℂ)) • (cre (mode 0 σ) ψ + s • cre (mode 1 σ) ψ)

/-- The total number of electrons. -/
def numTot (ψ : Fock) : Fock := ∑ i : Fin 4, num i ψ

/-- `ψ` is a normalised ground state with `N` electrons and energy `E` of the Hamiltonian `H`. -/
structure IsGroundState (H : Fock → Fock) (N : ℕ) (E : ℝ) (ψ : Fock) : Prop where
  norm : braket ψ ψ = 1
  number : numTot ψ = (N : ℂ) • ψ
  energy : H ψ = (E : ℂ) • ψ
  minimal : ∀ φ, numTot φ = (N : ℂ) • φ → E * (braket φ φ).re ≤ (braket φ (H φ)).re

/-- `g` is the zero-temperature Green's function of the operators `a`, `a†` in the state `ψ` of energy `E`
at the complex frequency `z`:
`g = ⟨ψ| a (z - (H - E))⁻¹ a† |ψ⟩ + ⟨ψ| a† (z + (H - E))⁻¹ a |ψ⟩`.
The resolvents are given by the solutions `x` and `y` of the linear equations. -/
def IsGreen (H a aDag : Fock → Fock) (E : ℝ) (ψ : Fock) (z g : ℂ) : Prop :=
  (∃ x y, z • x - (H x - (E : ℂ) • x) = aDag ψ ∧ z • y + (H y - (E : ℂ) • y) = a ψ) ∧
  ∀ x y, z • x - (H x - (E : ℂ) • x) = aDag ψ → z • y + (H y - (E : ℂ) • y) = a ψ →
    g = braket ψ (a x) + braket ψ (aDag y)

/-- Occupation of a mode. -/
def occOf (i : Fin 4) : Occ → ℕ := fun (a, b, c, d) => (![a, b, c, d] i).toNat

/-- The state with occupation `n`. -/
noncomputable def basisState (n : Occ) : Fock := Pi.single n 1

end Gftool.Spec
