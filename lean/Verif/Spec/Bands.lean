import Verif.Spec.Dispersion

/-!
# Specification: dispersions of the lattices

The formulas are those of the documentation of the lattice modules (square.py:4-6, rectangular.py:4-13, triangular.py:4-6,
sc.py:4-6, bcc.py:4-6, fcc.py:4-8) with the hopping expressed by the half-bandwidth `D`. The bands of the
honeycomb, kagome and Lieb lattices are the eigenvalues of their nearest-neighbour hopping matrices, scaled
to half-bandwidth `D`.
-/

namespace Gftool.Spec

open MeasureTheory

/-- Square lattice `2t [cos kx + cos ky]`, `t = D/4`. -/
noncomputable def squareDisp (D : ℝ) (k : ℝ × ℝ) : ℝ := D / 2 * (Real.cos k.1 + Real.cos k.2)

/-- Rectangular lattice `2t [cos kx + γ cos ky]`, `t = D/2/(γ + 1)`. -/
noncomputable def rectangularDisp (D γ : ℝ) (k : ℝ × ℝ) : ℝ := D / (1 + γ) * (Real.cos k.1 + γ * Real.cos k.2)

/-- Triangular lattice `t [cos 2kx + 2 cos kx cos ky]`, `t = 4D/9`. -/
noncomputable def triangularDisp (D : ℝ) (k : ℝ × ℝ) : ℝ :=
  4 * D / 9 * (Real.cos (2 * k.1) + 2 * Real.cos k.1 * Real.cos k.2)

/-- Simple cubic lattice `2t [cos kx + cos ky + cos kz]`, `t = D/6`. -/
noncomputable def scDisp (D : ℝ) (k : ℝ × ℝ × ℝ) : ℝ := D / 3 * (Real.cos k.1 + Real.cos k.2.1 + Real.cos k.2.2)

/-- Body-centred cubic lattice `8t cos kx cos ky cos kz`, `t = D/8`. -/
noncomputable def bccDisp (D : ℝ) (k : ℝ × ℝ × ℝ) : ℝ := D * (Real.cos k.1 * Real.cos k.2.1 * Real.cos k.2.2)

/-- Face-centred cubic lattice
`4t [cos kx/2 cos ky/2 + cos kx/2 cos kz/2 + cos ky/2 cos kz/2]`, `t = D/8`. -/
noncomputable def fccDisp (D : ℝ) (k : ℝ × ℝ × ℝ) : ℝ :=
  D / 2 * (Real.cos (k.1 / 2) * Real.cos (k.2.1 / 2) + Real.cos (k.1 / 2) * Real.cos (k.2.2 / 2)
    + Real.cos (k.2.1 / 2) * Real.cos (k.2.2 / 2))

/-- The bands of the honeycomb lattice are `±` this energy. -/
noncomputable def honeycombBand (D : ℝ) (k : ℝ × ℝ) : ℝ :=
  D / 3 * √(3 + 2 * (Real.cos (2 * k.1) + 2 * Real.cos k.1 * Real.cos k.2))

/-- The dispersive bands of the Lieb lattice are `±` this energy, the third one is flat at `0`. -/
noncomputable def liebBand (D : ℝ) (k : ℝ × ℝ) : ℝ := D / √2 * √(1 + (Real.cos k.1 + Real.cos k.2) / 2)

/-- Moment of the energies of a single band. -/
noncomputable def bandMoment {κ : Type*} [MeasurableSpace κ] (μ : Measure κ) (disp : κ → ℝ) (m : ℕ) : ℝ :=
  ∫ k, disp k ^ m ∂μ

/-- Moment of the honeycomb lattice, the average over both bands. -/
noncomputable def honeycombMoment (D : ℝ) (m : ℕ) : ℝ :=
  ∫ k, (honeycombBand D k ^ m + (-honeycombBand D k) ^ m) / 2 ∂bz2

/-- Moment of the kagome lattice: a flat band at `-2D/3` and the shifted honeycomb bands. -/
noncomputable def kagomeMoment (D : ℝ) (m : ℕ) : ℝ :=
  ∫ k, ((-(2 * D / 3)) ^ m + (D / 3 + honeycombBand D k) ^ m + (D / 3 - honeycombBand D k) ^ m) / 3 ∂bz2

/-- Moment of the Lieb lattice: a flat band at `0` and two dispersive bands. -/
noncomputable def liebMoment (D : ℝ) (m : ℕ) : ℝ :=
  ∫ k, (0 ^ m + liebBand D k ^ m + (-liebBand D k) ^ m) / 3 ∂bz2

end Gftool.Spec
