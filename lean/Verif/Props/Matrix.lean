import Verif.Model.Matrix
import Verif.Lemmas.Matrix
import Mathlib.LinearAlgebra.Matrix.NonsingularInverse
import Mathlib.Tactic

/-!
# Properties C14 and C17-C19: rational functions and matrix decompositions
-/

namespace Gftool.Props

open Gftool Model Lemmas Matrix

/-! ## C14 -/

/-- C14: the reciprocal inverts the function away from zeros and poles. -/
theorem zeropole_reciprocal {n m : ℕ} (f : ZeroPole n m) (z : ℂ) (ha : f.amplitude ≠ 0)
    (hz : ∀ i, z ≠ f.zeros i) (hp : ∀ i, z ≠ f.poles i) :
    f.eval z * f.reciprocal z = 1 := by
  have h1 : ∏ i, (z - f.zeros i) ≠ 0 := Finset.prod_ne_zero_iff.2 fun i _ => sub_ne_zero.2 (hz i)
  have h2 : ∏ i, (z - f.poles i) ≠ 0 := Finset.prod_ne_zero_iff.2 fun i _ => sub_ne_zero.2 (hp i)
  simp only [ZeroPole.eval, ZeroPole.reciprocal]
  field_simp

/-- C14: zeros and poles are what their names say. -/
theorem zeropole_zero {n m : ℕ} (f : ZeroPole n m) (i : Fin n) : f.eval (f.zeros i) = 0 := by
  have : ∏ j, (f.zeros i - f.zeros j) = 0 :=
    Finset.prod_eq_zero (Finset.mem_univ i) (sub_self _)
  simp [ZeroPole.eval, this]

example : (⟨![1], ![2], 3⟩ : ZeroPole 1 1).eval 0 = 3 / 2 := by
  simp [ZeroPole.eval]

private lemma polyval_zipWith_sub (a b : List ℂ) (h : a.length = b.length) (z : ℂ) :
    polyval (List.zipWith (· - ·) a b) z = polyval a z - polyval b z := by
  induction a generalizing b with
  | nil =>
    cases b with
    | nil => simp [polyval]
    | cons _ _ => simp at h
  | cons x a ih =>
    cases b with
    | nil => simp at h
    | cons y b =>
      have := ih b (by simpa using h)
      simp only [polyval] at this
      simp only [polyval, List.zipWith_cons_cons, List.foldr_cons, this]
      ring

private lemma polyval_map_mul (r : ℂ) (c : List ℂ) (z : ℂ) :
    polyval (c.map (r * ·)) z = r * polyval c z := by
  induction c with
  | nil => simp [polyval]
  | cons x c ih =>
    simp only [polyval] at ih
    simp only [polyval, List.map_cons, List.foldr_cons, ih]; ring

private lemma polyval_append_zero (c : List ℂ) (z : ℂ) : polyval (c ++ [0]) z = polyval c z := by
  simp [polyval]

private lemma polyval_mulLinear (r : ℂ) (c : List ℂ) (z : ℂ) :
    polyval (mulLinear r c) z = (z - r) * polyval c z := by
  unfold mulLinear
  rw [polyval_zipWith_sub _ _ (by simp), polyval_append_zero, polyval_map_mul]
  simp only [polyval, List.foldr_cons]
  ring

private lemma polyval_fromroots (l : List ℂ) (z : ℂ) :
    polyval (fromroots l) z = (l.map (z - ·)).prod := by
  induction l with
  | nil => simp [fromroots, polyval]
  | cons r l ih =>
    have : fromroots (r :: l) = mulLinear r (fromroots l) := rfl
    rw [this, polyval_mulLinear, ih]
    simp

/-- C14: conversion to numerator and denominator polynomials keeps the function. -/
theorem zeropole_to_ratpol {n m : ℕ} (f : ZeroPole n m) (z : ℂ) :
    f.toRatpol.eval z = f.eval z := by
  have h : ∀ c : List ℂ, polyval (c.map (· * f.amplitude)) z = f.amplitude * polyval c z := by
    intro c
    rw [← polyval_map_mul]
    congr 1
    exact List.map_congr_left fun x _ => mul_comm _ _
  have h2 : ∀ {k : ℕ} (g : Fin k → ℂ), (List.map (z - ·) (List.ofFn g)).prod = ∏ i, (z - g i) := by
    intro k g
    rw [List.map_ofFn, List.prod_ofFn]
    rfl
  simp only [ZeroPole.toRatpol, RatPol.eval, ZeroPole.eval, h, polyval_fromroots, h2]

/-! ## C17 -/

section reconstruct

variable {n : Type*} [Fintype n] [DecidableEq n]

/-- `dec` is an eigendecomposition of `A`: `A = rv diag(eig) rv_inv` and `rv_inv` is the
inverse of `rv`. -/
structure IsDecomposition (A : Matrix n n ℂ) (dec : Decomposition n n) : Prop where
  eq : A = dec.rv * Matrix.diagonal dec.eig * dec.rvInv
  inv : dec.rvInv * dec.rv = 1

lemma full_eq (dec : Decomposition n n) (f : n → ℂ) :
    dec.reconstructFull (some f) = dec.rv * Matrix.diagonal f * dec.rvInv := by
  have h : (Matrix.of fun i j => dec.rv i j * f j) = dec.rv * Matrix.diagonal f := by
    ext i j
    rw [Matrix.mul_diagonal, Matrix.of_apply]
  rw [← h]
  rfl

lemma IsDecomposition.inv' {A : Matrix n n ℂ} {dec : Decomposition n n} (h : IsDecomposition A dec) :
    dec.rv * dec.rvInv = 1 := mul_eq_one_comm.1 h.inv

/-- C17: `reconstruct` with no argument gives the matrix back. -/
theorem reconstruct_default {A : Matrix n n ℂ} {dec : Decomposition n n}
    (h : IsDecomposition A dec) :
    dec.reconstructFull none = A ∧ dec.reconstructFull (some dec.eig) = A := by
  have h1 : dec.reconstructFull (some dec.eig) = A := by rw [full_eq, h.eq]
  exact ⟨h1, h1⟩

/-- C17: `reconstruct` is multiplicative … -/
theorem reconstruct_mul {A : Matrix n n ℂ} {dec : Decomposition n n} (h : IsDecomposition A dec)
    (f g : n → ℂ) :
    dec.reconstructFull (some fun i => f i * g i)
      = dec.reconstructFull (some f) * dec.reconstructFull (some g) := by
  simp only [full_eq]
  have : dec.rv * diagonal f * dec.rvInv * (dec.rv * diagonal g * dec.rvInv)
      = dec.rv * diagonal f * (dec.rvInv * dec.rv) * diagonal g * dec.rvInv := by
    simp only [Matrix.mul_assoc]
  rw [this, h.inv, Matrix.mul_one, Matrix.mul_assoc dec.rv (diagonal f), diagonal_mul_diagonal]

/-- C17: … additive … -/
theorem reconstruct_add (dec : Decomposition n n) (f g : n → ℂ) (c : ℂ) :
    dec.reconstructFull (some fun i => f i + c * g i)
      = dec.reconstructFull (some f) + c • dec.reconstructFull (some g) := by
  simp only [full_eq]
  have : (diagonal fun i => f i + c * g i) = diagonal f + c • diagonal g := by
    ext i j
    by_cases hij : i = j
    · subst hij; simp
    · simp [hij]
  rw [this, Matrix.mul_add, Matrix.add_mul, Matrix.mul_smul, Matrix.smul_mul]

/-- C17: … and unital. -/
theorem reconstruct_one {A : Matrix n n ℂ} {dec : Decomposition n n} (h : IsDecomposition A dec)
    (c : ℂ) : dec.reconstructFull (some fun _ => c) = c • 1 := by
  rw [full_eq]
  have : (diagonal fun _ : n => c) = c • 1 := by ext i j; simp [diagonal_apply, Matrix.one_apply]
  rw [this, Matrix.mul_smul, Matrix.mul_one, Matrix.smul_mul, h.inv']

/-- C17: powers of the eigenvalues give powers of the matrix. -/
theorem reconstruct_pow {A : Matrix n n ℂ} {dec : Decomposition n n} (h : IsDecomposition A dec)
    (k : ℕ) : dec.reconstructFull (some fun i => dec.eig i ^ k) = A ^ k := by
  induction k with
  | zero =>
    have := reconstruct_one h 1
    simpa using this
  | succ k ih =>
    have := reconstruct_mul h (fun i => dec.eig i ^ k) dec.eig
    rw [ih, (reconstruct_default h).2] at this
    rw [pow_succ, ← this]
    congr 2

/-- C17: reciprocal eigenvalues give the inverse matrix. -/
theorem reconstruct_inv {A : Matrix n n ℂ} {dec : Decomposition n n} (h : IsDecomposition A dec)
    (he : ∀ i, dec.eig i ≠ 0) :
    dec.reconstructFull (some fun i => 1 / dec.eig i) = A⁻¹ := by
  symm
  apply Matrix.inv_eq_right_inv
  have h1 := reconstruct_mul h dec.eig fun i => 1 / dec.eig i
  rw [(reconstruct_default h).2] at h1
  rw [← h1]
  have h2 : (fun i => dec.eig i * (1 / dec.eig i)) = fun _ => (1 : ℂ) := by
    funext i; have := he i; field_simp
  rw [h2]
  simpa using reconstruct_one h 1

/-- C17: the resolvent, i.e. the Green's function matrix. -/
theorem reconstruct_resolvent {A : Matrix n n ℂ} {dec : Decomposition n n}
    (h : IsDecomposition A dec) (z : ℂ) (hz : ∀ i, z ≠ dec.eig i) :
    dec.reconstructFull (some fun i => 1 / (z - dec.eig i)) = (z • 1 - A)⁻¹ := by
  symm
  apply Matrix.inv_eq_right_inv
  have h0 : z • 1 - A = dec.reconstructFull (some fun i => z - dec.eig i) := by
    have := reconstruct_add dec (fun _ => z) dec.eig (-1)
    rw [reconstruct_one h, (reconstruct_default h).2] at this
    rw [show (fun i => z - dec.eig i) = fun i => z + -1 * dec.eig i by funext i; ring, this]
    simp [sub_eq_add_neg]
  rw [h0, ← reconstruct_mul h]
  have h2 : (fun i => (z - dec.eig i) * (1 / (z - dec.eig i))) = fun _ => (1 : ℂ) := by
    funext i; have := sub_ne_zero.2 (hz i); field_simp
  rw [h2]
  simpa using reconstruct_one h 1

omit [DecidableEq n] in
/-- C17: `kind='diag'` is the diagonal of `kind='full'` (for any decomposition, also sliced). -/
theorem reconstruct_diag {m : Type*} (dec : Decomposition m n) (eig : Option (n → ℂ)) (i : m) :
    dec.reconstructDiag eig i = dec.reconstructFull eig i i := by
  simp only [Decomposition.reconstructDiag, Decomposition.reconstructFull, Matrix.mul_apply,
    mulVec, dotProduct, of_apply, transpose_apply]
  exact Finset.sum_congr rfl fun j _ => by ring

/-- C17: `construct_gf` is `reconstruct` of the full matrix. -/
theorem construct_gf_eq (dec : Decomposition n n) (f : n → ℂ) :
    constructGf dec.rv f dec.rvInv = dec.reconstructFull (some f) := by
  rw [full_eq]; rfl

/-- A decomposition with non-trivial eigenvectors: the Pauli matrix `σ_x`. -/
example : IsDecomposition !![0, 1; 1, (0 : ℂ)]
    ⟨!![1, 1; 1, -1], ![1, -1], !![1 / 2, 1 / 2; 1 / 2, -1 / 2]⟩ := by
  constructor
  · ext i j
    fin_cases i <;> fin_cases j <;>
      simp [Matrix.mul_apply, Fin.sum_univ_two, Matrix.vecMul_diagonal] <;> norm_num
  · ext i j
    fin_cases i <;> fin_cases j <;> simp [Matrix.mul_apply, Fin.sum_univ_two] <;> norm_num

end reconstruct

/-- C17: any non-empty abbreviation of `'diag'` or `'full'` selects that kind (in any
capitalization), the empty string selects `'diag'`, everything else goes to `einsum`. -/
theorem kind_dispatch (kind : List Char) :
    kindOf kind =
      if kind.map Char.toLower ∈ [[], ['d'], ['d', 'i'], ['d', 'i', 'a'], ['d', 'i', 'a', 'g']]
      then .diag
      else if kind.map Char.toLower ∈ [['f'], ['f', 'u'], ['f', 'u', 'l'], ['f', 'u', 'l', 'l']]
      then .full
      else .einsum (kind.map Char.toLower) := by
  unfold kindOf
  simp only
  generalize kind.map Char.toLower = k
  have h1 : k.isPrefixOf ['d', 'i', 'a', 'g'] = true ↔
      k ∈ [[], ['d'], ['d', 'i'], ['d', 'i', 'a'], ['d', 'i', 'a', 'g']] := by
    rw [List.isPrefixOf_iff_prefix, ← List.mem_inits]
    rfl
  have h2 : k.isPrefixOf ['f', 'u', 'l', 'l'] = true ↔
      k ∈ [[], ['f'], ['f', 'u'], ['f', 'u', 'l'], ['f', 'u', 'l', 'l']] := by
    rw [List.isPrefixOf_iff_prefix, ← List.mem_inits]
    rfl
  by_cases hd : k ∈ [[], ['d'], ['d', 'i'], ['d', 'i', 'a'], ['d', 'i', 'a', 'g']]
  · rw [if_pos (h1.2 hd), if_pos hd]
  · rw [if_neg (fun h => hd (h1.1 h)), if_neg hd]
    have hne : k ≠ [] := fun h => hd (by simp [h])
    by_cases hf : k ∈ [['f'], ['f', 'u'], ['f', 'u', 'l'], ['f', 'u', 'l', 'l']]
    · rw [if_pos (h2.2 (List.mem_cons_of_mem _ hf)), if_pos hf]
    · rw [if_neg, if_neg hf]
      intro h
      rcases List.mem_cons.1 (h2.1 h) with h | h
      · exact hne h
      · exact hf h

/-! ## C18 -/

/-- C18: `decompose_mat` returns an eigendecomposition of its argument or raises
`LinAlgError`; the latter only if the eigenvectors are linearly dependent. -/
theorem decompose_mat_correct (ext : EigExt) {n : Type} [Fintype n] [DecidableEq n]
    (mat : Matrix n n ℂ) :
    (∃ dec, decomposeMat ext mat = .ok dec ∧ IsDecomposition mat dec) ∨
      (decomposeMat ext mat = .error .linAlgError ∧ (ext.eig mat).2.det = 0) := by
  by_cases h : (ext.eig mat).2.det = 0
  · right
    simp [decomposeMat, npInv, h]
  · left
    refine ⟨⟨(ext.eig mat).2, (ext.eig mat).1, (ext.eig mat).2⁻¹⟩, by simp [decomposeMat, npInv, h], ?_, ?_⟩
    · have hu : IsUnit (ext.eig mat).2.det := isUnit_iff_ne_zero.2 h
      simp only
      rw [← ext.eig_eig, Matrix.mul_assoc, Matrix.mul_nonsing_inv _ hu, Matrix.mul_one]
    · exact Matrix.nonsing_inv_mul _ (isUnit_iff_ne_zero.2 h)

/-- C18: a Hermitian matrix is accepted, and its decomposition has real eigenvalues and
unitary eigenvectors with `rv_inv = rv†`. -/
theorem decompose_her_correct (ext : EigExt) {n : ℕ} (mat : Matrix (Fin n) (Fin n) ℂ)
    (hmat : mat.IsHermitian) (check : Bool) :
    ∃ dec, decomposeHer ext mat check = .ok dec ∧ IsDecomposition mat dec ∧
      (∀ i, (dec.eig i).im = 0) ∧ dec.rvInv = dec.rvᴴ ∧ dec.rv ∈ Matrix.unitaryGroup (Fin n) ℂ := by
  have hcheck : ∀ i j, ‖mat i j - star (mat j i)‖ ≤ allcloseAtol := by
    intro i j
    rw [hmat.apply i j, sub_self, norm_zero]
    unfold allcloseAtol; positivity
  have hu := ext.eigh_unitary mat
  have huu := Matrix.mem_unitaryGroup_iff.1 hu
  refine ⟨⟨(ext.eigh mat).2, fun i => ((ext.eigh mat).1 i : ℂ), (ext.eigh mat).2ᴴ⟩, ?_,
    ⟨?_, ?_⟩, fun i => by simp, rfl, hu⟩
  · unfold decomposeHer
    rw [if_neg (fun h => h.2 hcheck)]
  · have h := ext.eigh_eig mat
    rw [lowerHer_eq hmat] at h
    simp only
    rw [← h, Matrix.mul_assoc, ← star_eq_conjTranspose, huu, Matrix.mul_one]
  · exact Matrix.mem_unitaryGroup_iff'.1 hu

/-- C18: whatever passes the check differs from the decomposed (Hermitian) matrix by at most
the tolerance in each element. -/
theorem decompose_her_close (ext : EigExt) {n : ℕ} (mat : Matrix (Fin n) (Fin n) ℂ)
    {dec : Decomposition (Fin n) (Fin n)} (h : decomposeHer ext mat true = .ok dec) :
    (dec.reconstructFull none).IsHermitian ∧
      ∀ i j, ‖mat i j - dec.reconstructFull none i j‖ ≤ allcloseAtol := by
  unfold decomposeHer at h
  split_ifs at h with hc
  simp only [true_and, not_not] at hc
  have hd := Except.ok.inj h
  have hrec : dec.reconstructFull none = lowerHer mat := by
    have huu := Matrix.mem_unitaryGroup_iff.1 (ext.eigh_unitary mat)
    have h1 : dec.reconstructFull none = dec.reconstructFull (some dec.eig) := rfl
    rw [h1, full_eq, ← hd]
    simp only
    rw [← ext.eigh_eig, Matrix.mul_assoc, ← star_eq_conjTranspose, huu, Matrix.mul_one]
  rw [hrec]
  refine ⟨lowerHer_isHermitian mat, fun i j => ?_⟩
  have h0 : (0 : ℝ) ≤ allcloseAtol := by unfold allcloseAtol; positivity
  simp only [lowerHer, of_apply]
  split_ifs with h1 h2
  · simpa using h0
  · exact hc i j
  · have hij : i = j := le_antisymm (not_lt.1 h1) (not_lt.1 h2)
    subst hij
    have h3 := hc i i
    have h4 : mat i i - star (mat i i) = 2 * (mat i i - ((mat i i).re : ℂ)) := by
      apply Complex.ext <;> simp
      ring
    rw [h4, norm_mul] at h3
    simp only [Complex.norm_ofNat] at h3
    have := norm_nonneg (mat i i - ((mat i i).re : ℂ))
    linarith

/-- C18, error branch: a matrix that is not Hermitian within the tolerance is rejected. -/
theorem decompose_her_error_iff (ext : EigExt) {n : ℕ} (mat : Matrix (Fin n) (Fin n) ℂ)
    (check : Bool) (e : Err) :
    decomposeHer ext mat check = .error e ↔
      e = .valueError ∧ check = true ∧ ∃ i j, allcloseAtol < ‖mat i j - star (mat j i)‖ := by
  unfold decomposeHer
  split_ifs with h
  · push Not at h
    constructor
    · intro he; cases he; exact ⟨rfl, h⟩
    · rintro ⟨rfl, _⟩; rfl
  · push Not at h
    constructor
    · intro he; cases he
    · rintro ⟨_, hc, i, j, hij⟩
      exact absurd (h hc i j) (not_le.2 hij)

/-- C18: real functions of the eigenvalues reconstruct to Hermitian matrices, unimodular ones
to unitary matrices. -/
theorem decompose_her_structure (ext : EigExt) {n : ℕ} (mat : Matrix (Fin n) (Fin n) ℂ)
    {check : Bool} {dec : Decomposition (Fin n) (Fin n)} (h : decomposeHer ext mat check = .ok dec)
    (f : Fin n → ℂ) :
    ((∀ i, (f i).im = 0) → (dec.reconstructFull (some f)).IsHermitian) ∧
    ((∀ i, ‖f i‖ = 1) → dec.reconstructFull (some f) ∈ Matrix.unitaryGroup (Fin n) ℂ) := by
  unfold decomposeHer at h
  split_ifs at h
  have hd := Except.ok.inj h
  have hu := ext.eigh_unitary mat
  have hu1 := Matrix.mem_unitaryGroup_iff'.1 hu
  have hu2 := Matrix.mem_unitaryGroup_iff.1 hu
  rw [star_eq_conjTranspose] at hu1 hu2
  rw [full_eq, ← hd]
  simp only
  constructor
  · intro hf
    have hdiag : (diagonal f)ᴴ = diagonal f := by
      rw [diagonal_conjTranspose]
      congr 1
      funext i
      exact Complex.conj_eq_iff_im.2 (hf i)
    unfold Matrix.IsHermitian
    rw [conjTranspose_mul, conjTranspose_mul, conjTranspose_conjTranspose, hdiag, Matrix.mul_assoc]
  · intro hf
    rw [Matrix.mem_unitaryGroup_iff, star_eq_conjTranspose, conjTranspose_mul, conjTranspose_mul,
      conjTranspose_conjTranspose, diagonal_conjTranspose]
    have hdd : diagonal f * diagonal (star f) = 1 := by
      rw [diagonal_mul_diagonal, ← diagonal_one]
      congr 1
      funext i
      simp only [Pi.star_apply]
      rw [show star (f i) = (starRingEnd ℂ) (f i) from rfl, Complex.mul_conj, Complex.normSq_eq_norm_sq,
        hf i]
      simp
    set u := (ext.eigh mat).2
    calc u * diagonal f * uᴴ * (u * (diagonal (star f) * uᴴ))
        = u * diagonal f * (uᴴ * u) * diagonal (star f) * uᴴ := by simp only [Matrix.mul_assoc]
      _ = u * (diagonal f * diagonal (star f)) * uᴴ := by
          rw [hu1, Matrix.mul_one]; simp only [Matrix.mul_assoc]
      _ = 1 := by rw [hdd, Matrix.mul_one, hu2]

example : (!![1, Complex.I; -Complex.I, 2] : Matrix (Fin 2) (Fin 2) ℂ).IsHermitian := by
  ext i j; fin_cases i <;> fin_cases j <;> simp

/-- Scaling the columns keeps the eigenvector equation. -/
private lemma symScale_eq {n : ℕ} (rv : Matrix (Fin n) (Fin n) ℂ) :
    symScale rv = rv * diagonal fun j => (∑ k, rv k j ^ 2) ^ (-(1 / 2) : ℂ) := by
  ext i j; simp [symScale, mul_diagonal]

/-- C18: for a symmetric matrix with independent eigenvectors and non-degenerate
normalization, `decompose_sym` returns an eigendecomposition with normalized columns. -/
theorem decompose_sym_correct (ext : EigExt) {n : ℕ} (mat : Matrix (Fin n) (Fin n) ℂ)
    (hmat : matᵀ = mat) (check : Bool) (hdet : (ext.eig mat).2.det ≠ 0)
    (hnorm : ∀ j, ∑ k, (ext.eig mat).2 k j ^ 2 ≠ 0) :
    ∃ dec, decomposeSym ext mat check = .ok dec ∧ IsDecomposition mat dec ∧
      ∀ j, ∑ k, dec.rv k j ^ 2 = 1 := by
  have hcheck : ∀ i j, ‖mat i j - mat j i‖ ≤ allcloseAtol := by
    intro i j
    have := Matrix.ext_iff.mpr hmat j i
    rw [transpose_apply] at this
    rw [this, sub_self, norm_zero]
    unfold allcloseAtol; positivity
  set v := (ext.eig mat).2 with hv
  set s : Fin n → ℂ := fun j => (∑ k, v k j ^ 2) ^ (-(1 / 2) : ℂ) with hs
  have hs0 : ∀ j, s j ≠ 0 := by
    intro j
    simp only [hs]
    rw [Ne, Complex.cpow_eq_zero_iff]
    exact fun h => hnorm j h.1
  have hsc : symScale v = v * diagonal s := symScale_eq v
  have hdet' : (symScale v).det ≠ 0 := by
    rw [hsc, det_mul, det_diagonal]
    exact mul_ne_zero hdet (Finset.prod_ne_zero_iff.2 fun j _ => hs0 j)
  refine ⟨⟨symScale v, (ext.eig mat).1, (symScale v)⁻¹⟩, ?_, ⟨?_, ?_⟩, ?_⟩
  · simp [decomposeSym, hcheck, npInv, ← hv, hdet']
  · simp only
    have h1 : mat * symScale v = symScale v * diagonal (ext.eig mat).1 := by
      rw [hsc, ← Matrix.mul_assoc, ext.eig_eig, Matrix.mul_assoc, Matrix.mul_assoc,
        diagonal_mul_diagonal, diagonal_mul_diagonal]
      congr 2
      funext j; ring
    rw [← h1, Matrix.mul_assoc, Matrix.mul_nonsing_inv _ (isUnit_iff_ne_zero.2 hdet'),
      Matrix.mul_one]
  · exact Matrix.nonsing_inv_mul _ (isUnit_iff_ne_zero.2 hdet')
  · intro j
    simp only [symScale, of_apply, mul_pow]
    rw [← Finset.sum_mul, ← Complex.cpow_nat_mul]
    have : ((2 : ℕ) : ℂ) * (-(1 / 2) : ℂ) = -1 := by push_cast; norm_num
    rw [this, Complex.cpow_neg_one, mul_inv_cancel₀ (hnorm j)]

/-- C18: if moreover the eigenvalues are pairwise different, the normalization is never
degenerate and the decomposition is (complex) orthogonal: `rv_inv = rvᵀ`. -/
theorem decompose_sym_orthogonal (ext : EigExt) {n : ℕ} (mat : Matrix (Fin n) (Fin n) ℂ)
    (hmat : matᵀ = mat) (check : Bool) (hdet : (ext.eig mat).2.det ≠ 0)
    (hdist : Function.Injective (ext.eig mat).1) :
    ∃ dec, decomposeSym ext mat check = .ok dec ∧ IsDecomposition mat dec ∧
      dec.rvInv = dec.rvᵀ := by
  set v := (ext.eig mat).2 with hv
  set e := (ext.eig mat).1 with he
  have hA : mat * v = v * diagonal e := ext.eig_eig mat
  -- columns to different eigenvalues are orthogonal with respect to the bilinear form
  have hcomm : vᵀ * v * diagonal e = diagonal e * (vᵀ * v) := by
    have h1 : vᵀ * mat * v = vᵀ * v * diagonal e := by
      rw [Matrix.mul_assoc, hA, ← Matrix.mul_assoc]
    have h2 : (vᵀ * mat * v)ᵀ = vᵀ * mat * v := by
      rw [transpose_mul, transpose_mul, transpose_transpose, hmat, Matrix.mul_assoc]
    rw [← h1, ← h2, h1, transpose_mul, transpose_mul, transpose_transpose, diagonal_transpose]
  have horth : ∀ i j, i ≠ j → (vᵀ * v) i j = 0 := by
    intro i j hij
    have := Matrix.ext_iff.mpr hcomm i j
    rw [mul_diagonal, diagonal_mul] at this
    have h3 : (e j - e i) * (vᵀ * v) i j = 0 := by linear_combination this
    rcases mul_eq_zero.1 h3 with h | h
    · exact absurd (hdist (sub_eq_zero.1 h)).symm hij
    · exact h
  have hdiag : vᵀ * v = diagonal fun j => ∑ k, v k j ^ 2 := by
    ext i j
    by_cases hij : i = j
    · subst hij
      rw [diagonal_apply_eq, mul_apply]
      exact Finset.sum_congr rfl fun k _ => by rw [transpose_apply, pow_two]
    · rw [horth i j hij, diagonal_apply_ne _ hij]
  have hnorm : ∀ j, ∑ k, v k j ^ 2 ≠ 0 := by
    have h4 : (vᵀ * v).det ≠ 0 := by
      rw [det_mul, det_transpose]; exact mul_ne_zero hdet hdet
    rw [hdiag, det_diagonal] at h4
    intro j
    exact Finset.prod_ne_zero_iff.1 h4 j (Finset.mem_univ j)
  obtain ⟨dec, hdec, hd, _⟩ := decompose_sym_correct ext mat hmat check hdet hnorm
  refine ⟨dec, hdec, hd, ?_⟩
  -- the scaled matrix
  have hrv : dec.rv = symScale v := by
    unfold decomposeSym at hdec
    split_ifs at hdec
    simp only at hdec
    split at hdec
    · exact (congrArg Decomposition.rv (Except.ok.inj hdec)).symm
    · cases hdec
  set s : Fin n → ℂ := fun j => (∑ k, v k j ^ 2) ^ (-(1 / 2) : ℂ) with hs
  have hs2 : ∀ j, s j * s j * ∑ k, v k j ^ 2 = 1 := by
    intro j
    rw [← pow_two, hs, ← Complex.cpow_nat_mul]
    have : ((2 : ℕ) : ℂ) * (-(1 / 2) : ℂ) = -1 := by push_cast; norm_num
    rw [this, Complex.cpow_neg_one, inv_mul_cancel₀ (hnorm j)]
  have hone : dec.rvᵀ * dec.rv = 1 := by
    rw [hrv, symScale_eq, transpose_mul, diagonal_transpose, Matrix.mul_assoc,
      ← Matrix.mul_assoc vᵀ, hdiag, diagonal_mul_diagonal, diagonal_mul_diagonal, ← diagonal_one]
    congr 1
    funext j
    have := hs2 j
    simp only [hs] at this
    linear_combination this
  have h5 : dec.rvᵀ * dec.rv * dec.rvInv = dec.rvInv := by rw [hone, Matrix.one_mul]
  rw [Matrix.mul_assoc, mul_eq_one_comm.1 hd.inv, Matrix.mul_one] at h5
  exact h5.symm

open scoped Classical in
/-- The contracts used above can be met, with the hypotheses of `decompose_sym_orthogonal`
satisfied by `diag(1, 2)`. -/
example : ∃ ext : EigExt, (ext.eig !![1, 0; 0, (2 : ℂ)]).2.det ≠ 0 ∧
    Function.Injective (ext.eig !![1, 0; 0, (2 : ℂ)]).1 ∧
    (!![1, 0; 0, (2 : ℂ)])ᵀ = !![1, 0; 0, (2 : ℂ)] := by
  have hd : !![1, 0; 0, (2 : ℂ)] = diagonal ![1, 2] := by
    ext i j; fin_cases i <;> fin_cases j <;> simp
  refine ⟨{ eigExt with
    eig := fun {n} _ _ a => if diagonal a.diag = a then (a.diag, 1) else eigExt.eig a
    eig_eig := fun {n} _ _ a => by
      split_ifs with h
      · simp [h]
      · exact eigExt.eig_eig a }, ?_⟩
  simp only [hd, diag_diagonal, if_true, det_one, ne_eq, one_ne_zero, not_false_eq_true, true_and,
    diagonal_transpose, and_true]
  intro i j h
  fin_cases i <;> fin_cases j <;> simp_all

/-! ## C19 -/

/-- The Hamiltonian of the two-level system. -/
def ham2x2 (eps0 eps1 hopping : ℂ) : Matrix (Fin 2) (Fin 2) ℂ :=
  !![eps0, hopping; star hopping, eps1]

private lemma sqrt_sq (x : ℂ) : (x ^ (1 / 2 : ℂ)) ^ 2 = x := by
  rw [← Complex.cpow_nat_mul]; norm_num

/-- C19: without Hilbert transform, `gf_2x2_z` returns the diagonal of the resolvent,
whenever the square root does not vanish (the two eigenvalues are different). -/
theorem gf_2x2_resolvent (z eps0 eps1 hopping : ℂ)
    (hs : 0.25 * (eps0 - eps1) ^ 2 + hopping * star hopping ≠ 0)
    (hz : (z • (1 : Matrix (Fin 2) (Fin 2) ℂ) - ham2x2 eps0 eps1 hopping).det ≠ 0) :
    gf2x2z z eps0 eps1 hopping none
      = some fun i => (z • (1 : Matrix (Fin 2) (Fin 2) ℂ) - ham2x2 eps0 eps1 hopping)⁻¹ i i := by
  set s := (0.25 * (eps0 - eps1) ^ 2 + hopping * star hopping) ^ (1 / 2 : ℂ) with hsd
  have hs2 : s ^ 2 = 0.25 * (eps0 - eps1) ^ 2 + hopping * star hopping := sqrt_sq _
  have hs0 : s ≠ 0 := by
    intro h; rw [h] at hs2; apply hs; rw [← hs2]; norm_num
  have hdet : (z • (1 : Matrix (Fin 2) (Fin 2) ℂ) - ham2x2 eps0 eps1 hopping).det
      = (z - (eps0 + eps1) / 2 - s) * (z - (eps0 + eps1) / 2 + s) := by
    rw [det_fin_two]
    simp [ham2x2]
    have hs2' : s ^ 2 = 0.25 * (eps0 - eps1) ^ 2 + hopping * (starRingEnd ℂ) hopping := hs2
    ring_nf at hs2' ⊢
    linear_combination hs2'
  rw [hdet] at hz
  have hp : z - (eps0 + eps1) / 2 - s ≠ 0 := left_ne_zero_of_mul hz
  have hm : z - (eps0 + eps1) / 2 + s ≠ 0 := right_ne_zero_of_mul hz
  simp only [gf2x2z, ← hsd, if_neg hs0, Option.getD_none]
  set p := z - (eps0 + eps1) / 2 - s with hpd
  set m := z - (eps0 + eps1) / 2 + s with hmd
  congr 1
  funext i
  rw [Matrix.inv_def, hdet, Matrix.adjugate_fin_two]
  simp only [Matrix.smul_apply, smul_eq_mul, Ring.inverse_eq_inv']
  fin_cases i
  · simp [ham2x2]
    field_simp
    rw [hpd, hmd]
    ring
  · simp [ham2x2]
    field_simp
    rw [hpd, hmd]
    ring

/-- C19: with a Hilbert transform `h`, `gf_2x2_z` returns the diagonal of `h(z - H)` in the
sense of the functional calculus: for *every* eigendecomposition of the Hamiltonian it agrees
with `reconstruct(h(z - eig), kind='diag')`. -/
theorem gf_2x2_hilbert (z eps0 eps1 hopping : ℂ) (h : ℂ → ℂ)
    (hs : 0.25 * (eps0 - eps1) ^ 2 + hopping * star hopping ≠ 0)
    (dec : Decomposition (Fin 2) (Fin 2))
    (hdec : IsDecomposition (ham2x2 eps0 eps1 hopping) dec) :
    gf2x2z z eps0 eps1 hopping (some h)
      = some (dec.reconstructDiag (some fun i => h (z - dec.eig i))) := by
  set H := ham2x2 eps0 eps1 hopping with hH
  set s := (0.25 * (eps0 - eps1) ^ 2 + hopping * star hopping) ^ (1 / 2 : ℂ) with hsd
  have hs2 : s ^ 2 = 0.25 * (eps0 - eps1) ^ 2 + hopping * star hopping := sqrt_sq _
  have hs0 : s ≠ 0 := by
    intro h; rw [h] at hs2; apply hs; rw [← hs2]; norm_num
  set mu := (eps0 + eps1) / 2 with hmu
  -- Cayley-Hamilton
  have hCH : (H - (mu + s) • 1) * (H - (mu - s) • 1) = 0 := by
    have hs2' : s ^ 2 = 0.25 * (eps0 - eps1) ^ 2 + hopping * (starRingEnd ℂ) hopping := hs2
    ext i j
    fin_cases i <;> fin_cases j <;>
      simp [hH, ham2x2, Matrix.mul_apply, Fin.sum_univ_two, hmu] <;> ring_nf at hs2' ⊢
    · linear_combination -hs2'
    · linear_combination -hs2'
  have heig : ∀ i, dec.eig i = mu + s ∨ dec.eig i = mu - s := by
    intro i
    have h1 : (H - (mu + s) • 1) * (H - (mu - s) • 1)
        = dec.reconstructFull (some fun i => (dec.eig i - (mu + s)) * (dec.eig i - (mu - s))) := by
      rw [reconstruct_mul hdec]
      have hsub : ∀ c : ℂ, H - c • 1 = dec.reconstructFull (some fun i => dec.eig i - c) := by
        intro c
        have h2 := reconstruct_add dec dec.eig (fun _ => c) (-1)
        rw [reconstruct_one hdec, (reconstruct_default hdec).2] at h2
        rw [show (fun i => dec.eig i - c) = fun i => dec.eig i + -1 * c by funext i; ring, h2]
        simp [sub_eq_add_neg]
      rw [hsub, hsub]
    rw [hCH, full_eq] at h1
    have h3 : dec.rvInv * 0 * dec.rv = diagonal
        (fun i => (dec.eig i - (mu + s)) * (dec.eig i - (mu - s))) := by
      rw [h1]
      simp only [Matrix.mul_assoc, hdec.inv, Matrix.mul_one]
      rw [← Matrix.mul_assoc, hdec.inv, Matrix.one_mul]
    have h4 := Matrix.ext_iff.mpr h3 i i
    rw [Matrix.mul_zero, Matrix.zero_mul, Matrix.zero_apply, diagonal_apply_eq] at h4
    rcases mul_eq_zero.1 h4.symm with h5 | h5
    · exact Or.inl (sub_eq_zero.1 h5)
    · exact Or.inr (sub_eq_zero.1 h5)
  -- interpolation of `h(z - λ)` on the two eigenvalues
  set hp := h (z - mu - s) with hhp
  set hm := h (z - mu + s) with hhm
  set b := (hp - hm) / (2 * s) with hb
  set a := (hp + hm) / 2 - b * mu with ha
  have hint : (fun i => h (z - dec.eig i)) = fun i => a + b * dec.eig i := by
    funext i
    rcases heig i with h6 | h6
    · rw [h6, show z - (mu + s) = z - mu - s by ring, ← hhp, ha, hb]
      field_simp; ring
    · rw [h6, show z - (mu - s) = z - mu + s by ring, ← hhm, ha, hb]
      field_simp; ring
  have hrec : dec.reconstructFull (some fun i => h (z - dec.eig i)) = a • 1 + b • H := by
    rw [hint, reconstruct_add dec (fun _ => a) dec.eig b, reconstruct_one hdec,
      (reconstruct_default hdec).2]
  simp only [gf2x2z, ← hsd, if_neg hs0, Option.getD_some, ← hmu, ← hhp, ← hhm]
  congr 1
  funext i
  rw [reconstruct_diag, hrec]
  fin_cases i
  · simp [hH, ham2x2, ha, hb]
    field_simp
    ring
  · simp [hH, ham2x2, ha, hb]
    field_simp
    ring

example : (0.25 * ((1 : ℂ) - 2) ^ 2 + Complex.I * star Complex.I) ≠ 0 := by
  simp; norm_num

/-- C19 (violation): in the degenerate case of equal energies and no hopping the result is
not finite, although the resolvent exists. -/
theorem gf_2x2_degenerate_fails (z eps : ℂ) (hilbert : Option (ℂ → ℂ)) :
    gf2x2z z eps eps 0 hilbert = none := by
  simp [gf2x2z]

end Gftool.Props
