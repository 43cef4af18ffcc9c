import Verif.Model.Siam
import Verif.Props.Matrix
import Verif.Props.Pole
import Mathlib.Analysis.Normed.Algebra.MatrixExponential
import Mathlib.Tactic

/-!
# Properties C20 and C21: the non-interacting single impurity Anderson model
-/

namespace Gftool.Props

open Gftool Model Lemmas Matrix
open Complex (I)

/-! ## C20 -/

/-- C20: the elements of the Hamiltonian matrix: impurity first, then the bath. -/
theorem siam_hamiltonian_entries {n : ℕ} (e0 : ℝ) (eb : Fin n → ℝ) (V : Fin n → ℂ) :
    siamHamiltonian id e0 eb V 0 0 = e0 ∧
    (∀ k : Fin n, siamHamiltonian id e0 eb V 0 k.succ = V k ∧
      siamHamiltonian id e0 eb V k.succ 0 = star (V k) ∧
      siamHamiltonian id e0 eb V k.succ k.succ = eb k) ∧
    ∀ k k' : Fin n, k ≠ k' → siamHamiltonian id e0 eb V k.succ k'.succ = 0 := by
  refine ⟨rfl, fun k => ⟨rfl, rfl, ?_⟩, fun k k' h => ?_⟩
  · simp [siamHamiltonian]
  · simp [siamHamiltonian, h]

/-- C20: the Hamiltonian is Hermitian. -/
theorem siam_hamiltonian_hermitian {n : ℕ} (e0 : ℝ) (eb : Fin n → ℝ) (V : Fin n → ℂ) :
    (siamHamiltonian id e0 eb V).IsHermitian := by
  ext i j
  rw [conjTranspose_apply]
  refine Fin.cases ?_ (fun k => ?_) i <;> refine Fin.cases ?_ (fun k' => ?_) j
  · simp [siamHamiltonian]
  · simp [siamHamiltonian]
  · simp [siamHamiltonian]
  · by_cases h : k = k'
    · subst h; simp [siamHamiltonian]
    · simp [siamHamiltonian, h, Ne.symm h]

/-- The first column of the resolvent, up to normalization. -/
private noncomputable def resCol {n : ℕ} (z : ℂ) (eb : Fin n → ℝ) (V : Fin n → ℂ) :
    Fin (n + 1) → ℂ :=
  Fin.cons 1 fun k => star (V k) / (z - eb k)

private lemma res_mul_col {n : ℕ} (z : ℂ) (e0 : ℝ) (eb : Fin n → ℝ) (V : Fin n → ℂ)
    (hz : ∀ k, z ≠ eb k) :
    (z • (1 : Matrix (Fin (n + 1)) (Fin (n + 1)) ℂ) - siamHamiltonian id e0 eb V) *ᵥ resCol z eb V
      = Pi.single 0 (z - e0 - hybridZ z eb fun k => ((‖V k‖ ^ 2 : ℝ) : ℂ)) := by
  have hsq : ∀ k, ((‖V k‖ ^ 2 : ℝ) : ℂ) = V k * star (V k) := by
    intro k
    rw [show star (V k) = (starRingEnd ℂ) (V k) from rfl, Complex.mul_conj, Complex.normSq_eq_norm_sq]
  funext i
  simp only [mulVec, dotProduct, Fin.sum_univ_succ]
  refine Fin.cases ?_ (fun k => ?_) i
  · simp only [resCol, siamHamiltonian, Fin.cons_zero, Fin.cons_succ, Pi.single_eq_same]
    simp only [Matrix.sub_apply, Matrix.smul_apply, Matrix.one_apply_eq, of_apply, Fin.cases_zero,
      Fin.cases_succ, id, smul_eq_mul, mul_one, hybridZ, hsq]
    rw [sub_eq_add_neg (z - (e0 : ℂ)), ← Finset.sum_neg_distrib]
    congr 1
    refine Finset.sum_congr rfl fun k _ => ?_
    rw [Matrix.one_apply_ne (Fin.succ_ne_zero k).symm]
    ring
  · have hk := sub_ne_zero.2 (hz k)
    simp only [resCol, siamHamiltonian, Fin.cons_zero, Fin.cons_succ]
    rw [Pi.single_eq_of_ne (Fin.succ_ne_zero k), Finset.sum_eq_single k]
    · simp
      field_simp
      ring
    · intro b _ hb
      simp [Ne.symm hb]
    · simp

/-- C20: the impurity Green's function is the impurity element of the resolvent, for every
number of bath sites, all `z` off the spectrum (and different from the bath energies, where
the hybridization function diverges). -/
theorem siam_resolvent {n : ℕ} (z : ℂ) (e0 : ℝ) (eb : Fin n → ℝ) (V : Fin n → ℂ)
    (hz : ∀ k, z ≠ eb k)
    (hdet : (z • (1 : Matrix (Fin (n + 1)) (Fin (n + 1)) ℂ) - siamHamiltonian id e0 eb V).det ≠ 0) :
    siamGf0LocZ z e0 eb (fun k => ((‖V k‖ ^ 2 : ℝ) : ℂ))
      = (z • (1 : Matrix (Fin (n + 1)) (Fin (n + 1)) ℂ) - siamHamiltonian id e0 eb V)⁻¹ 0 0 := by
  set M := z • (1 : Matrix (Fin (n + 1)) (Fin (n + 1)) ℂ) - siamHamiltonian id e0 eb V with hM
  set d := z - e0 - hybridZ z eb fun k => ((‖V k‖ ^ 2 : ℝ) : ℂ) with hd
  have h1 : M *ᵥ resCol z eb V = Pi.single 0 d := res_mul_col z e0 eb V hz
  have h2 : M⁻¹ *ᵥ (Pi.single 0 d) = resCol z eb V := by
    rw [← h1, mulVec_mulVec, Matrix.nonsing_inv_mul _ (isUnit_iff_ne_zero.2 hdet), one_mulVec]
  have h3 := congrFun h2 0
  rw [mulVec_single] at h3
  simp only [resCol, Fin.cons_zero] at h3
  have h4 : M⁻¹ 0 0 * d = 1 := by simpa using h3
  unfold siamGf0LocZ
  rw [← hd]
  have hd0 : d ≠ 0 := right_ne_zero_of_mul_eq_one h4
  rw [div_eq_iff hd0, h4]

/-- C20: for complex frequencies nothing else is needed. -/
theorem siam_resolvent_complex {n : ℕ} (z : ℂ) (e0 : ℝ) (eb : Fin n → ℝ) (V : Fin n → ℂ)
    (hz : z.im ≠ 0) :
    siamGf0LocZ z e0 eb (fun k => ((‖V k‖ ^ 2 : ℝ) : ℂ))
      = (z • (1 : Matrix (Fin (n + 1)) (Fin (n + 1)) ℂ) - siamHamiltonian id e0 eb V)⁻¹ 0 0 := by
  apply siam_resolvent
  · rintro k rfl; simp at hz
  · obtain ⟨dec, -, hdec, him, -, -⟩ := decompose_her_correct eigExt _
      (siam_hamiltonian_hermitian e0 eb V) true
    have hne : ∀ i, z - dec.eig i ≠ 0 := by
      intro i h
      have := him i
      rw [← sub_eq_zero.1 h] at this
      exact hz this
    have hsub : z • (1 : Matrix (Fin (n + 1)) (Fin (n + 1)) ℂ) - siamHamiltonian id e0 eb V
        = dec.reconstructFull (some fun i => z - dec.eig i) := by
      have := reconstruct_add dec (fun _ => z) dec.eig (-1)
      rw [reconstruct_one hdec, (reconstruct_default hdec).2] at this
      rw [show (fun i => z - dec.eig i) = fun i => z + -1 * dec.eig i by funext i; ring, this]
      simp [sub_eq_add_neg]
    intro h0
    have h1 := reconstruct_mul hdec (fun i => z - dec.eig i) fun i => (z - dec.eig i)⁻¹
    rw [← hsub] at h1
    have h2 : (fun i => (z - dec.eig i) * (z - dec.eig i)⁻¹) = fun _ => (1 : ℂ) := by
      funext i; exact mul_inv_cancel₀ (hne i)
    rw [h2, reconstruct_one hdec, one_smul] at h1
    have h3 := congrArg det h1
    rw [det_one, det_mul, h0, zero_mul] at h3
    exact one_ne_zero h3

example : (siamGf0LocZ I 0 (fun _ : Fin 1 => 0) fun _ => 1) = -I / 2 := by
  simp [siamGf0LocZ, hybridZ]
  rw [show I + I = 2 * I by ring, mul_inv, Complex.inv_I]; ring

/-- Truncation towards zero: conversion of floats to an integer dtype. -/
noncomputable def castInt (x : ℂ) : ℂ :=
  ((if 0 ≤ x.re then ⌊x.re⌋ else ⌈x.re⌉ : ℤ) : ℂ)

/-- C20 (violation): for an integer array `hopping` the energies are truncated, the
Hamiltonian is wrong. -/
theorem siam_hamiltonian_int_wrong :
    ∃ (e0 : ℝ) (eb : Fin 1 → ℝ) (V : Fin 1 → ℂ), (∀ k, castInt (V k) = V k) ∧
      siamHamiltonian castInt e0 eb V ≠ siamHamiltonian id e0 eb V := by
  refine ⟨1 / 2, 0, fun _ => 1, fun k => ?_, fun h => ?_⟩
  · simp [castInt]
  · have h0 := Matrix.ext_iff.mpr h 0 0
    have hf : ⌊(1 / 2 : ℝ)⌋ = 0 := by norm_num
    simp only [siamHamiltonian, of_apply, Fin.cases_zero, castInt, Complex.ofReal_re, id] at h0
    rw [if_pos (by norm_num), hf] at h0
    norm_num at h0

/-! ## C21 -/

/-- The value computed by all three real-time functions. -/
private lemma siamLocal_eq (ext : EigExt) {n : ℕ} (e0 : ℝ) (eb : Fin n → ℝ) (V : Fin n → ℂ)
    (f : ℂ → ℂ) :
    ∃ dec, IsDecomposition (siamHamiltonian id e0 eb V) dec ∧ (∀ i, (dec.eig i).im = 0) ∧
      dec.rvInv = dec.rvᴴ ∧
      siamLocal ext e0 eb V f = .ok (dec.reconstructFull (some fun i => f (dec.eig i)) 0 0) := by
  obtain ⟨dec, hok, hdec, him, hinv, -⟩ := decompose_her_correct ext _
    (siam_hamiltonian_hermitian e0 eb V) true
  refine ⟨dec, hdec, him, hinv, ?_⟩
  unfold siamLocal
  rw [hok]
  simp only
  rw [← reconstruct_diag]
  rfl

/-- Exponentials of the eigenvalues reconstruct to the matrix exponential. -/
theorem reconstruct_exp {n : Type*} [Fintype n] [DecidableEq n] {A : Matrix n n ℂ}
    {dec : Decomposition n n} (h : IsDecomposition A dec) (c : ℂ) :
    dec.reconstructFull (some fun i => Complex.exp (c * dec.eig i)) = NormedSpace.exp (c • A) := by
  have hu : IsUnit dec.rv := IsUnit.of_mul_eq_one _ h.inv'
  have hinv : dec.rv⁻¹ = dec.rvInv := Matrix.inv_eq_left_inv h.inv
  have h1 : c • A = dec.rv * diagonal (fun i => c * dec.eig i) * dec.rv⁻¹ := by
    have : (diagonal fun i => c * dec.eig i) = c • diagonal dec.eig := by
      ext i j
      by_cases hij : i = j
      · subst hij; simp
      · simp [hij]
    rw [this, hinv, Matrix.mul_smul, Matrix.smul_mul, ← h.eq]
  rw [h1, Matrix.exp_conj _ _ hu, Matrix.exp_diagonal, hinv, full_eq]
  congr 3
  funext i
  rw [Pi.coe_exp, Complex.exp_eq_exp_ℂ]

/-- C21: the retarded function is `-i ⟨0| exp(-iHt) |0⟩`. -/
theorem siam_ret_eq (ext : EigExt) {n : ℕ} (tt e0 : ℝ) (eb : Fin n → ℝ) (V : Fin n → ℂ)
    (ht : 0 ≤ tt) :
    siamRetT ext tt e0 eb V
      = .ok (-I * NormedSpace.exp ((-I * tt) • siamHamiltonian id e0 eb V) 0 0) := by
  obtain ⟨dec, hdec, -, -, hval⟩ := siamLocal_eq ext e0 eb V fun p => singlePoleGfRetT tt p
  rw [siamRetT, hval, ← reconstruct_exp hdec]
  have h1 := reconstruct_add dec (fun _ => 0) (fun i => Complex.exp ((-I * tt) * dec.eig i)) (-I)
  rw [reconstruct_one hdec, zero_smul, zero_add] at h1
  have h2 : (fun i => singlePoleGfRetT tt (dec.eig i))
      = fun i => 0 + -I * Complex.exp ((-I * tt) * dec.eig i) := by
    funext i
    simp only [singlePoleGfRetT, if_pos ht, zero_add]
    ring_nf
  rw [h2, h1]
  rfl

/-- C21: the retarded function vanishes for negative times. -/
theorem siam_ret_neg (ext : EigExt) {n : ℕ} (tt e0 : ℝ) (eb : Fin n → ℝ) (V : Fin n → ℂ)
    (ht : tt < 0) : siamRetT ext tt e0 eb V = .ok 0 := by
  obtain ⟨dec, hdec, -, -, hval⟩ := siamLocal_eq ext e0 eb V fun p => singlePoleGfRetT tt p
  rw [siamRetT, hval]
  simp only [singlePoleGfRetT, if_neg (not_le.2 ht)]
  rw [reconstruct_one hdec]
  simp

/-- C21: normalization at time zero. -/
theorem siam_ret_zero (ext : EigExt) {n : ℕ} (e0 : ℝ) (eb : Fin n → ℝ) (V : Fin n → ℂ) :
    siamRetT ext 0 e0 eb V = .ok (-I) := by
  rw [siam_ret_eq ext 0 e0 eb V le_rfl]
  simp

/-- C21: the retarded function is bounded by one. -/
theorem siam_ret_norm_le (ext : EigExt) {n : ℕ} (tt e0 : ℝ) (eb : Fin n → ℝ) (V : Fin n → ℂ) :
    ∃ g, siamRetT ext tt e0 eb V = .ok g ∧ ‖g‖ ≤ 1 := by
  obtain ⟨dec, hdec, him, hinv, hval⟩ := siamLocal_eq ext e0 eb V fun p => singlePoleGfRetT tt p
  refine ⟨_, by rw [siamRetT, hval], ?_⟩
  have h1 : ∀ i, dec.rv 0 i * dec.rvInv i 0 = ((‖dec.rv 0 i‖ ^ 2 : ℝ) : ℂ) := by
    intro i
    rw [hinv, conjTranspose_apply, show star (dec.rv 0 i) = (starRingEnd ℂ) (dec.rv 0 i) from rfl,
      Complex.mul_conj, Complex.normSq_eq_norm_sq]
  have hsum : ∑ i, ‖dec.rv 0 i‖ ^ 2 = 1 := by
    have h2 := Matrix.ext_iff.mpr hdec.inv' 0 0
    rw [mul_apply, one_apply_eq] at h2
    simp only [h1] at h2
    exact_mod_cast h2
  rw [full_eq, mul_apply]
  refine (norm_sum_le _ _).trans ?_
  rw [← hsum]
  refine Finset.sum_le_sum fun i _ => ?_
  rw [mul_diagonal, mul_right_comm, h1, norm_mul, Complex.norm_real, Real.norm_of_nonneg (by positivity)]
  have h3 : ‖singlePoleGfRetT tt (dec.eig i)‖ ≤ 1 := by
    unfold singlePoleGfRetT
    split_ifs
    · rw [norm_mul, norm_neg, Complex.norm_I, one_mul, Complex.norm_exp]
      have : (-I * dec.eig i * tt).re = 0 := by simp [him i]
      rw [this, Real.exp_zero]
    · simp
  calc ‖dec.rv 0 i‖ ^ 2 * ‖singlePoleGfRetT tt (dec.eig i)‖ ≤ ‖dec.rv 0 i‖ ^ 2 * 1 := by gcongr
    _ = _ := mul_one _

private lemma fermi_matrix {n : Type*} [Fintype n] [DecidableEq n] {A : Matrix n n ℂ}
    {dec : Decomposition n n} (h : IsDecomposition A dec) (him : ∀ i, (dec.eig i).im = 0)
    (beta : ℝ) :
    dec.reconstructFull (some fun i => ((fermiFct (dec.eig i).re beta : ℝ) : ℂ))
      = (1 + NormedSpace.exp ((beta : ℂ) • A))⁻¹ := by
  symm
  apply Matrix.inv_eq_right_inv
  have h0 := reconstruct_add dec (fun _ => 1) (fun i => Complex.exp (beta * dec.eig i)) 1
  rw [reconstruct_one h, reconstruct_exp h, one_smul, one_smul] at h0
  rw [← h0, ← reconstruct_mul h]
  have h2 : (fun i => (1 + 1 * Complex.exp (beta * dec.eig i))
      * ((fermiFct (dec.eig i).re beta : ℝ) : ℂ)) = fun _ => (1 : ℂ) := by
    funext i
    have hr : dec.eig i = ((dec.eig i).re : ℂ) := Complex.ext rfl (by simp [him i])
    rw [hr, ← Complex.ofReal_mul, ← Complex.ofReal_exp, Complex.ofReal_re, fermi_fct_eq, Spec.fermi]
    have hp := Real.exp_pos (beta * (dec.eig i).re)
    rw [← Complex.ofReal_one, ← Complex.ofReal_mul, ← Complex.ofReal_add, ← Complex.ofReal_mul,
      Complex.ofReal_inj]
    field_simp
    ring
  rw [h2, reconstruct_one h, one_smul]

/-- C21: the lesser function is `i ⟨0| exp(-iHt) (1 + exp(βH))⁻¹ |0⟩` … -/
theorem siam_le_eq (ext : EigExt) {n : ℕ} (tt e0 : ℝ) (eb : Fin n → ℝ) (V : Fin n → ℂ)
    (beta : ℝ) :
    siamLeT ext tt e0 eb V beta
      = .ok (I * (NormedSpace.exp ((-I * tt) • siamHamiltonian id e0 eb V)
          * (1 + NormedSpace.exp ((beta : ℂ) • siamHamiltonian id e0 eb V))⁻¹) 0 0) := by
  obtain ⟨dec, hdec, him, -, hval⟩ := siamLocal_eq ext e0 eb V fun p => singlePoleGfLeT tt p.re beta
  rw [siamLeT, hval, ← reconstruct_exp hdec, ← fermi_matrix hdec him, ← reconstruct_mul hdec]
  have h1 := reconstruct_add dec (fun _ => 0) (fun i => Complex.exp ((-I * tt) * dec.eig i)
    * ((fermiFct (dec.eig i).re beta : ℝ) : ℂ)) I
  rw [reconstruct_one hdec, zero_smul, zero_add] at h1
  have h2 : (fun i => singlePoleGfLeT tt (dec.eig i).re beta) = fun i => 0 + I *
      (Complex.exp ((-I * tt) * dec.eig i) * ((fermiFct (dec.eig i).re beta : ℝ) : ℂ)) := by
    funext i
    have hr : dec.eig i = ((dec.eig i).re : ℂ) := Complex.ext rfl (by simp [him i])
    simp only [singlePoleGfLeT]
    rw [← hr]
    ring_nf
  rw [h2, h1]
  rfl

/-- C21: … and the greater function `-i ⟨0| exp(-iHt) (1 - (1 + exp(βH))⁻¹) |0⟩`. -/
theorem siam_gr_eq (ext : EigExt) {n : ℕ} (tt e0 : ℝ) (eb : Fin n → ℝ) (V : Fin n → ℂ)
    (beta : ℝ) :
    siamGrT ext tt e0 eb V beta
      = .ok (-I * (NormedSpace.exp ((-I * tt) • siamHamiltonian id e0 eb V)
          * (1 - (1 + NormedSpace.exp ((beta : ℂ) • siamHamiltonian id e0 eb V))⁻¹)) 0 0) := by
  obtain ⟨dec, hdec, him, -, hval⟩ := siamLocal_eq ext e0 eb V fun p => singlePoleGfGrT tt p.re beta
  rw [siamGrT, hval, ← reconstruct_exp hdec, ← fermi_matrix hdec him, Matrix.mul_sub,
    ← reconstruct_mul hdec, Matrix.mul_one]
  have h1 := reconstruct_add dec (fun i => -I * Complex.exp ((-I * tt) * dec.eig i))
    (fun i => Complex.exp ((-I * tt) * dec.eig i) * ((fermiFct (dec.eig i).re beta : ℝ) : ℂ)) I
  have h3 := reconstruct_add dec (fun _ => 0) (fun i => Complex.exp ((-I * tt) * dec.eig i)) (-I)
  rw [reconstruct_one hdec, zero_smul, zero_add] at h3
  simp only [zero_add] at h3
  rw [h3] at h1
  have h2 : (fun i => singlePoleGfGrT tt (dec.eig i).re beta)
      = fun i => -I * Complex.exp ((-I * tt) * dec.eig i) + I *
      (Complex.exp ((-I * tt) * dec.eig i) * ((fermiFct (dec.eig i).re beta : ℝ) : ℂ)) := by
    funext i
    have hr : dec.eig i = ((dec.eig i).re : ℂ) := Complex.ext rfl (by simp [him i])
    simp only [singlePoleGfGrT]
    rw [← hr]
    ring_nf
  rw [h2, h1]
  simp only [Matrix.add_apply, Matrix.smul_apply, Matrix.sub_apply, smul_eq_mul]
  congr 1
  ring

/-- C21: for non-negative times the retarded function is the difference of greater and
lesser. -/
theorem siam_ret_eq_gr_sub_le (ext : EigExt) {n : ℕ} (tt e0 : ℝ) (eb : Fin n → ℝ) (V : Fin n → ℂ)
    (beta : ℝ) (ht : 0 ≤ tt) :
    ∃ r g l, siamRetT ext tt e0 eb V = .ok r ∧ siamGrT ext tt e0 eb V beta = .ok g ∧
      siamLeT ext tt e0 eb V beta = .ok l ∧ r = g - l := by
  refine ⟨_, _, _, siam_ret_eq ext tt e0 eb V ht, siam_gr_eq ext tt e0 eb V beta,
    siam_le_eq ext tt e0 eb V beta, ?_⟩
  rw [Matrix.mul_sub, Matrix.mul_one, Matrix.sub_apply]
  ring

/-- The external routines exist. -/
example : siamRetT eigExt 0 1 (fun _ : Fin 2 => 3) (fun _ => I) = .ok (-I) :=
  siam_ret_zero _ _ _ _

end Gftool.Props
