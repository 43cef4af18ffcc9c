import Verif.Model.Beb
import Verif.Lemmas.Beb
import Verif.Props.Cpa
import Verif.Props.Matrix
import Mathlib.Tactic

/-!
# Properties C23 (BEB part) and C25: Blackman, Esterling, Berk formalism
-/

namespace Gftool.Props

open Gftool Model Lemmas Matrix MeasureTheory Spec

variable {n : ℕ} {σ : Type} [Fintype σ] [DecidableEq σ]

/-! ## The decomposition of the hopping matrix -/

/-- A compact spectral decomposition: orthonormal vectors and non-zero eigenvalues. -/
structure CompactDec (d : SpecDec n σ) : Prop where
  uh_eq : d.uh = d.uᴴ
  orth : d.uᴴ * d.u = 1
  eig_ne : ∀ j, d.eig j ≠ 0

omit [Fintype σ] [DecidableEq σ] in
lemma sqrtEig_mul_self (d : SpecDec n σ) (j : σ) : d.sqrtEig j * d.sqrtEig j = d.eig j := by
  unfold SpecDec.sqrtEig
  rw [← pow_two, ← Complex.cpow_nat_mul]
  norm_num

omit [Fintype σ] in
lemma us_eq [Fintype σ] (d : SpecDec n σ) : d.us = d.u * diagonal d.sqrtEig := by
  ext i j; simp [SpecDec.us, mul_diagonal]

lemma suh_eq (d : SpecDec n σ) : d.suh = diagonal d.sqrtEig * d.uh := by
  ext i j; simp [SpecDec.suh, diagonal_mul]

/-- C25: the symmetric partition gives the (truncated) hopping back. -/
theorem us_mul_suh (d : SpecDec n σ) :
    d.us * d.suh = d.u * diagonal (fun j => (d.eig j : ℂ)) * d.uh := by
  rw [us_eq, suh_eq, Matrix.mul_assoc, ← Matrix.mul_assoc (diagonal _), diagonal_mul_diagonal,
    ← Matrix.mul_assoc]
  simp only [sqrtEig_mul_self]

lemma us_mul_suh_hermitian {d : SpecDec n σ} (hd : CompactDec d) : (d.us * d.suh).IsHermitian := by
  rw [us_mul_suh, hd.uh_eq, Matrix.IsHermitian, conjTranspose_mul, conjTranspose_mul,
    conjTranspose_conjTranspose, diagonal_conjTranspose, Matrix.mul_assoc]
  congr 2
  ext i j; simp [diagonal_apply, Pi.star_apply]

open scoped Classical in
/-- C25: for a Hermitian hopping, truncation with `rcond ≥ 0` gives a compact decomposition; if
only zero eigenvalues are discarded, it is a decomposition of the hopping itself. -/
theorem truncate_correct (ext : EigExt) (hopping : Matrix (Fin n) (Fin n) ℂ)
    (hh : hopping.IsHermitian) (rcond : Option ℝ) (hr : 0 ≤ bebRcond n rcond) :
    ∃ dec, decomposeHer ext hopping true = .ok dec ∧
      CompactDec (truncate dec.rv (fun i => (dec.eig i).re) dec.rvInv rcond) ∧
      ((∀ i, ¬ Significant (fun i => (dec.eig i).re) rcond i → dec.eig i = 0) →
        (truncate dec.rv (fun i => (dec.eig i).re) dec.rvInv rcond).us
          * (truncate dec.rv (fun i => (dec.eig i).re) dec.rvInv rcond).suh = hopping) := by
  obtain ⟨dec, hdec, hD, him, hinv, hu⟩ := decompose_her_correct ext hopping hh true
  refine ⟨dec, hdec, ⟨?_, ?_, ?_⟩, ?_⟩
  · ext i j
    simp [truncate, hinv]
  · ext i j
    have := Matrix.ext_iff.mpr hD.inv i.1 j.1
    rw [hinv, Matrix.mul_apply] at this
    simp only [Matrix.mul_apply, truncate, conjTranspose_apply, of_apply] at this ⊢
    rw [this, Matrix.one_apply, Matrix.one_apply]
    simp only [Subtype.ext_iff]
  · intro j h0
    have h1 : (⨆ j, |(dec.eig j).re|) * bebRcond n rcond < |(dec.eig j.1).re| := j.2
    have h2 : 0 ≤ (⨆ j, |(dec.eig j).re|) := Real.iSup_nonneg fun _ => abs_nonneg _
    have h3 : (dec.eig j.1).re = 0 := h0
    rw [h3, abs_zero] at h1
    exact absurd h1 (not_lt.2 (mul_nonneg h2 hr))
  · intro h0
    have hre : ∀ i, (((dec.eig i).re : ℝ) : ℂ) = dec.eig i := fun i =>
      Complex.ext (by simp) (by simp [him i])
    rw [us_mul_suh, hD.eq]
    ext a b
    rw [Matrix.mul_apply, Matrix.mul_apply]
    simp only [truncate, mul_diagonal, of_apply, hre]
    rw [← Finset.sum_filter_add_sum_filter_not Finset.univ
      (fun i => Significant (fun i => (dec.eig i).re) rcond i)
      (fun i => dec.rv a i * dec.eig i * dec.rvInv i b)]
    have hz : ∑ i with ¬ Significant (fun i => (dec.eig i).re) rcond i,
        dec.rv a i * dec.eig i * dec.rvInv i b = 0 := by
      refine Finset.sum_eq_zero fun i hi => ?_
      rw [h0 i (Finset.mem_filter.1 hi).2, mul_zero, zero_mul]
    rw [hz, add_zero, Finset.sum_subtype (Finset.univ.filter fun i =>
      Significant (fun i => (dec.eig i).re) rcond i)
      (p := Significant (fun i => (dec.eig i).re) rcond) (by simp)]

/-! ## C25: the local Green's function -/

/-- The low-rank structure behind `gf_loc_z`. -/
private lemma lowRank_of {ext : EigExt} {d : SpecDec n σ} {M : Matrix (Fin n) (Fin n) ℂ}
    (hM : M.det ≠ 0) {dec : Decomposition σ σ}
    (hdec : decomposeMat ext (d.suh * M⁻¹ * d.us) = .ok dec) :
    LowRank M M⁻¹ d.us d.suh dec.rv dec.rvInv dec.eig := by
  have hD : IsDecomposition (d.suh * M⁻¹ * d.us) dec := by
    rcases decompose_mat_correct ext (d.suh * M⁻¹ * d.us) with ⟨dec', h1, h2⟩ | ⟨h1, -⟩
    · rw [hdec] at h1
      rw [Except.ok.inj h1]
      exact h2
    · rw [hdec] at h1
      exact absurd h1 (by simp)
  exact ⟨Matrix.mul_nonsing_inv _ (isUnit_iff_ne_zero.2 hM), hD.inv, hD.eq⟩

lemma full_eq' {m : Type*} (dec : Decomposition m σ) (f : σ → ℂ) :
    dec.reconstructFull (some f) = dec.rv * diagonal f * dec.rvInv := by
  have h : (Matrix.of fun i j => dec.rv i j * f j) = dec.rv * diagonal f := by
    ext i j
    rw [Matrix.mul_diagonal, Matrix.of_apply]
  rw [← h]
  rfl

/-- In the untruncated case the factors of the hopping are regular. -/
private lemma full_rank {d : SpecDec n σ} (hd : CompactDec d) (hcard : Fintype.card σ = n) :
    d.suh * (Matrix.of fun i j => d.uhᴴ i j / d.sqrtEig j) = 1 ∧
    (Matrix.of fun i j => d.uhᴴ i j / d.sqrtEig j) * d.suh = 1 ∧
    d.us * (Matrix.of fun j i => d.uᴴ j i / d.sqrtEig j) = 1 ∧
    (Matrix.of fun j i => d.uᴴ j i / d.sqrtEig j) * d.us = 1 := by
  have hs : ∀ j, d.sqrtEig j ≠ 0 := by
    intro j h0
    have := sqrtEig_mul_self d j
    rw [h0, mul_zero] at this
    exact hd.eig_ne j (by exact_mod_cast this.symm)
  have hcard' : Fintype.card σ = Fintype.card (Fin n) := by simpa using hcard
  have h1 : (Matrix.of fun i j => d.uhᴴ i j / d.sqrtEig j)
      = d.u * diagonal fun j => (d.sqrtEig j)⁻¹ := by
    ext i j; simp [mul_diagonal, hd.uh_eq, div_eq_mul_inv]
  have h2 : (Matrix.of fun j i => d.uᴴ j i / d.sqrtEig j)
      = (diagonal fun j => (d.sqrtEig j)⁻¹) * d.uᴴ := by
    ext i j; simp [diagonal_mul, div_eq_mul_inv, mul_comm]
  have hdd : diagonal d.sqrtEig * diagonal (fun j => (d.sqrtEig j)⁻¹) = 1 := by
    rw [diagonal_mul_diagonal, ← diagonal_one]
    congr 1; funext j; exact mul_inv_cancel₀ (hs j)
  have hdd' : diagonal (fun j => (d.sqrtEig j)⁻¹) * diagonal d.sqrtEig = 1 := by
    rw [diagonal_mul_diagonal, ← diagonal_one]
    congr 1; funext j; exact inv_mul_cancel₀ (hs j)
  have ha : d.suh * (d.u * diagonal fun j => (d.sqrtEig j)⁻¹) = 1 := by
    rw [suh_eq, hd.uh_eq, Matrix.mul_assoc, ← Matrix.mul_assoc d.uᴴ, hd.orth, Matrix.one_mul, hdd]
  have hb : ((diagonal fun j => (d.sqrtEig j)⁻¹) * d.uᴴ) * d.us = 1 := by
    rw [us_eq, Matrix.mul_assoc, ← Matrix.mul_assoc d.uᴴ, hd.orth, Matrix.one_mul, hdd']
  rw [h1, h2]
  exact ⟨ha, (mul_eq_one_comm_of_card_eq _ _ _ hcard').1 ha,
    (mul_eq_one_comm_of_card_eq _ _ _ hcard').1 hb, hb⟩

/-- C25: both branches (full and truncated hopping) return the same formula. -/
theorem gf_loc_dec_eq {ext : EigExt} {d : SpecDec n σ} (hd : CompactDec d) (z : ℂ)
    (s : Matrix (Fin n) (Fin n) ℂ) (hilbert : ℂ → ℂ) (hM : (zMSelf z s).det ≠ 0)
    {dec : Decomposition σ σ}
    (hdec : decomposeMat ext (d.suh * (zMSelf z s)⁻¹ * d.us) = .ok dec) (he : ∀ i, dec.eig i ≠ 0) :
    gfLocDec ext d z s hilbert = .ok ((zMSelf z s)⁻¹ + (zMSelf z s)⁻¹
      * mid d.us d.suh dec.rv dec.rvInv
        (fun i => (1 / dec.eig i * hilbert (1 / dec.eig i) - 1) * (1 / dec.eig i))
      * (zMSelf z s)⁻¹) := by
  have hL := lowRank_of hM hdec
  simp only [gfLocDec, npInv, if_neg hM, hdec]
  by_cases ht : IsTruncated n σ
  · rw [if_neg (not_not.2 ht), full_eq']
    simp only [mid, Matrix.mul_assoc]
  · rw [if_pos ht, full_eq']
    obtain ⟨h1, h2, h3, h4⟩ := full_rank hd (not_not.1 ht)
    set A' := (Matrix.of fun i j => d.uhᴴ i j / d.sqrtEig j) with hA'
    set A := (Matrix.of fun j i => d.uᴴ j i / d.sqrtEig j) with hA
    congr 1
    have hW : (zMSelf z s)⁻¹ = A' * (dec.rv * diagonal dec.eig * dec.rvInv) * A := by
      rw [← hL.eig]
      have : A' * (d.suh * (zMSelf z s)⁻¹ * d.us) * A
          = (A' * d.suh) * (zMSelf z s)⁻¹ * (d.us * A) := by simp only [Matrix.mul_assoc]
      rw [this, h2, h3, Matrix.one_mul, Matrix.mul_one]
    generalize (zMSelf z s)⁻¹ = W at *
    have key : W * mid d.us d.suh dec.rv dec.rvInv
          (fun i => (1 / dec.eig i * hilbert (1 / dec.eig i) - 1) * (1 / dec.eig i)) * W
        = A' * dec.rv * diagonal (fun i => dec.eig i *
          ((1 / dec.eig i * hilbert (1 / dec.eig i) - 1) * (1 / dec.eig i)) * dec.eig i)
          * (dec.rvInv * A) := by
      conv_lhs => rw [hW]
      unfold mid
      have : ∀ f : σ → ℂ, A' * (dec.rv * diagonal dec.eig * dec.rvInv) * A
          * (d.us * dec.rv * diagonal f * (dec.rvInv * d.suh))
          * (A' * (dec.rv * diagonal dec.eig * dec.rvInv) * A)
          = A' * dec.rv * (diagonal dec.eig * (dec.rvInv * (A * d.us) * dec.rv) * diagonal f
            * (dec.rvInv * (d.suh * A') * dec.rv) * diagonal dec.eig) * (dec.rvInv * A) := by
        intro f; simp only [Matrix.mul_assoc]
      rw [this, h4, h1, Matrix.mul_one, hL.reg, Matrix.mul_one, Matrix.mul_one,
        diagonal_mul_diagonal, diagonal_mul_diagonal]
    rw [key]
    conv_rhs => rw [hW]
    have h5 : A' * (dec.rv * diagonal dec.eig * dec.rvInv) * A
        = A' * dec.rv * diagonal dec.eig * (dec.rvInv * A) := by simp only [Matrix.mul_assoc]
    rw [h5, ← Matrix.add_mul, ← Matrix.mul_add, diagonal_add]
    congr 2
    congr 1
    funext i
    have := he i
    field_simp
    ring

/-- C25: with `diag=True` the diagonal of the matrix is returned, and the same exceptions. -/
theorem gf_loc_diag (ext : EigExt) (d : SpecDec n σ) (z : ℂ) (s : Matrix (Fin n) (Fin n) ℂ)
    (hilbert : ℂ → ℂ) :
    gfLocDecDiag ext d z s hilbert
      = (gfLocDec ext d z s hilbert).map fun g => fun i => g i i := by
  unfold gfLocDecDiag gfLocDec
  cases npInv (zMSelf z s) with
  | error e => rfl
  | ok inv =>
    simp only
    cases decomposeMat ext (d.suh * inv * d.us) with
    | error e => rfl
    | ok dec =>
      simp only
      split_ifs
      · simp only [Except.map, Except.ok.injEq]
        funext i
        rw [reconstruct_diag, Matrix.add_apply]
      · simp only [Except.map, Except.ok.injEq]
        funext i
        rw [reconstruct_diag]

/-- C25: `gf_loc_z` is the average of the lattice Green's function `(z - Σ - ε T)⁻¹` over the
density of states, whenever the inverse exists on the band. -/
theorem gf_loc_dec_lattice {ext : EigExt} {d : SpecDec n σ} (hd : CompactDec d) (z : ℂ)
    (s : Matrix (Fin n) (Fin n) ℂ) {dos : Measure ℝ} {band : Set ℝ} {hilbert : ℂ → ℂ}
    (hH : IsHilbert dos band hilbert) (hM : (zMSelf z s).det ≠ 0)
    (hband : ∀ eps ∈ band, (zMSelf z s - (eps : ℂ) • (d.us * d.suh)).det ≠ 0)
    {dec : Decomposition σ σ}
    (hdec : decomposeMat ext (d.suh * (zMSelf z s)⁻¹ * d.us) = .ok dec) (he : ∀ i, dec.eig i ≠ 0) :
    ∃ g, gfLocDec ext d z s hilbert = .ok g ∧
      ∀ a b, g a b = ∫ eps : ℝ, (zMSelf z s - (eps : ℂ) • (d.us * d.suh))⁻¹ a b ∂dos :=
  ⟨_, gf_loc_dec_eq hd z s hilbert hM hdec he,
    fun a b => (lowRank_of hM hdec).integral hH he hband a b⟩

/-- Specification: `Σ` is physical (its anti-Hermitian part is not positive). -/
def PhysicalSelf (s : Matrix (Fin n) (Fin n) ℂ) : Prop :=
  ∀ v : Fin n → ℂ, (star v ⬝ᵥ s *ᵥ v).im ≤ 0

lemma retarded_zMSelf {z : ℂ} (hz : 0 < z.im) {s : Matrix (Fin n) (Fin n) ℂ}
    (hs : PhysicalSelf s) : Retarded (zMSelf z s) := by
  intro v hv
  unfold zMSelf
  rw [Matrix.sub_mulVec, dotProduct_sub, Matrix.smul_mulVec, one_mulVec, dotProduct_smul]
  have h1 := hs v
  have h2 : star v ⬝ᵥ v = ((∑ i, ‖v i‖ ^ 2 : ℝ) : ℂ) := by
    simp only [dotProduct, Pi.star_apply, Complex.ofReal_sum]
    refine Finset.sum_congr rfl fun i _ => ?_
    rw [Complex.star_def, Complex.conj_mul']
    push_cast
    rfl
  have h3 : 0 < ∑ i, ‖v i‖ ^ 2 := by
    obtain ⟨i, hi⟩ := Function.ne_iff.1 hv
    exact Finset.sum_pos' (fun i _ => by positivity)
      ⟨i, Finset.mem_univ i, by have := norm_pos_iff.2 hi; positivity⟩
  rw [h2, smul_eq_mul, Complex.sub_im, Complex.im_mul_ofReal]
  nlinarith [mul_pos hz h3]

/-- The guards hold in the upper half-plane. -/
lemma retarded_guards {ext : EigExt} {d : SpecDec n σ} (hd : CompactDec d) {z : ℂ}
    (hz : 0 < z.im) {s : Matrix (Fin n) (Fin n) ℂ} (hs : PhysicalSelf s) :
    (zMSelf z s).det ≠ 0 ∧
    (∀ eps : ℝ, (zMSelf z s - (eps : ℂ) • (d.us * d.suh)).det ≠ 0) ∧
    ∀ dec, decomposeMat ext (d.suh * (zMSelf z s)⁻¹ * d.us) = .ok dec →
      (∀ i, dec.eig i ≠ 0) ∧ ∀ i, (1 / dec.eig i).im ≠ 0 := by
  have hR := retarded_zMSelf hz hs
  have hdet : ∀ eps : ℝ, (zMSelf z s - (eps : ℂ) • (d.us * d.suh)).det ≠ 0 :=
    fun eps => hR.det_ne_zero (us_mul_suh_hermitian hd) eps
  have hM : (zMSelf z s).det ≠ 0 := by simpa using hdet 0
  refine ⟨hM, hdet, fun dec hdec => ?_⟩
  have hL := lowRank_of hM hdec
  have hne : ∀ i, dec.eig i ≠ 0 := by
    intro i hi
    have hcol : (d.suh * (zMSelf z s)⁻¹ * d.us) *ᵥ (fun k => dec.rv k i) = 0 := by
      have h1 : d.suh * (zMSelf z s)⁻¹ * d.us * dec.rv = dec.rv * diagonal dec.eig := by
        rw [hL.eig, Matrix.mul_assoc, hL.reg, Matrix.mul_one]
      funext k
      have := Matrix.ext_iff.mpr h1 k i
      rw [mul_diagonal, hi, mul_zero, Matrix.mul_apply] at this
      simpa [mulVec, dotProduct] using this
    set q : σ → ℂ := fun k => d.sqrtEig k * dec.rv k i with hq
    have hsq : ∀ j, d.sqrtEig j ≠ 0 := by
      intro j h0
      have := sqrtEig_mul_self d j
      rw [h0, mul_zero] at this
      exact hd.eig_ne j (by exact_mod_cast this.symm)
    have h2 : (d.uᴴ * (zMSelf z s)⁻¹ * d.u) *ᵥ q = 0 := by
      have h3 : d.suh * (zMSelf z s)⁻¹ * d.us
          = diagonal d.sqrtEig * ((d.uᴴ * (zMSelf z s)⁻¹ * d.u) * diagonal d.sqrtEig) := by
        rw [us_eq, suh_eq, hd.uh_eq]; simp only [Matrix.mul_assoc]
      have h4 : diagonal d.sqrtEig *ᵥ (fun k => dec.rv k i) = q := by
        funext k; rw [mulVec_diagonal]
      rw [h3, ← mulVec_mulVec, ← mulVec_mulVec, h4] at hcol
      funext k
      have := congrFun hcol k
      rw [mulVec_diagonal] at this
      exact (mul_eq_zero.1 this).resolve_left (hsq k)
    have h5 := hR.compress (Matrix.mul_nonsing_inv _ (isUnit_iff_ne_zero.2 hM)) d.u hd.orth q h2
    have h6 : ∀ k, dec.rv k i = 0 := fun k =>
      (mul_eq_zero.1 (congrFun h5 k)).resolve_left (hsq k)
    have h7 := Matrix.ext_iff.mpr hL.reg i i
    rw [Matrix.mul_apply, Matrix.one_apply_eq] at h7
    simp [h6] at h7
  refine ⟨hne, fun i hi => ?_⟩
  have h8 := hdet (1 / dec.eig i).re
  rw [hL.det_update] at h8
  apply h8
  have h9 : (((1 / dec.eig i).re : ℝ) : ℂ) = 1 / dec.eig i := Complex.ext rfl (by rw [hi, Complex.ofReal_im])
  rw [Finset.prod_eq_zero (Finset.mem_univ i), mul_zero]
  rw [h9, one_div, inv_mul_cancel₀ (hne i), sub_self]

/-- C25: in the upper half-plane, for a Hermitian hopping matrix of which only zero eigenvalues
are discarded and any physical self-energy, `gf_loc_z` is the lattice average of
`(z - Σ - ε T)⁻¹`; the only exception is `LinAlgError` for a non-diagonalizable matrix. -/
theorem gf_loc_z_lattice (ext : EigExt) {z : ℂ} (hz : 0 < z.im)
    {s hopping : Matrix (Fin n) (Fin n) ℂ} (hn : n ≠ 0) (hs : PhysicalSelf s)
    (hh : hopping.IsHermitian) (rcond : Option ℝ) (hr : 0 ≤ bebRcond n rcond)
    (hzero : ∀ dec, decomposeHer ext hopping true = .ok dec →
      ∀ i, ¬ Significant (fun i => (dec.eig i).re) rcond i → dec.eig i = 0)
    {dos : Measure ℝ} {band : Set ℝ} {hilbert : ℂ → ℂ} (hH : IsHilbert dos band hilbert) :
    (∃ g, gfLocZ ext z s hopping hilbert rcond = .ok g ∧
      ∀ a b, g a b = ∫ eps : ℝ, (z • (1 : Matrix (Fin n) (Fin n) ℂ) - s
        - (eps : ℂ) • hopping)⁻¹ a b ∂dos) ∨
    gfLocZ ext z s hopping hilbert rcond = .error .linAlgError := by
  classical
  obtain ⟨dec, hdec, hC, hT⟩ := truncate_correct ext hopping hh rcond hr
  have hT := hT (hzero dec hdec)
  unfold gfLocZ
  simp only [hdec, if_neg hn]
  set d := truncate dec.rv (fun i => (dec.eig i).re) dec.rvInv rcond with hd
  obtain ⟨hM, hband, hguard⟩ := retarded_guards (ext := ext) hC hz hs
  rcases decompose_mat_correct ext (d.suh * (zMSelf z s)⁻¹ * d.us) with ⟨dec', h1, -⟩ | ⟨h1, -⟩
  · left
    obtain ⟨g, hg, hgab⟩ := gf_loc_dec_lattice hC z s hH hM (fun eps _ => hband eps) h1
      (hguard dec' h1).1
    refine ⟨g, hg, fun a b => ?_⟩
    rw [hgab, hT]
    rfl
  · right
    simp only [gfLocDec, npInv, if_neg hM, h1]

/-! ## C25: the root equation -/

/-- C25: the matrix computed in the root equation is the inverse of the local Green's
function. -/
theorem gf_loc_inv_correct {ext : EigExt} {d : SpecDec n σ} (hd : CompactDec d) (z : ℂ)
    (s : Matrix (Fin n) (Fin n) ℂ) (hilbert : ℂ → ℂ) (hM : (zMSelf z s).det ≠ 0)
    {dec : Decomposition σ σ}
    (hdec : decomposeMat ext (d.suh * (zMSelf z s)⁻¹ * d.us) = .ok dec) (he : ∀ i, dec.eig i ≠ 0)
    (hg : ∀ i, hilbert (1 / dec.eig i) ≠ 0) :
    ∃ g ginv, gfLocDec ext d z s hilbert = .ok g ∧ gfLocInv ext d z s hilbert = .ok ginv ∧
      g * ginv = 1 := by
  have hL := lowRank_of hM hdec
  refine ⟨_, zMSelf z s + mid d.us d.suh dec.rv dec.rvInv
      (fun i => 1 / hilbert (1 / dec.eig i) - 1 / dec.eig i),
    gf_loc_dec_eq hd z s hilbert hM hdec he, ?_, ?_⟩
  · simp only [gfLocInv, npInv, if_neg hM, hdec]
    by_cases ht : IsTruncated n σ
    · rw [if_neg (not_not.2 ht), full_eq']
      rfl
    · rw [if_pos ht, full_eq']
      congr 1
      obtain ⟨h1, h2, h3, h4⟩ := full_rank hd (not_not.1 ht)
      set A' := (Matrix.of fun i j => d.uhᴴ i j / d.sqrtEig j) with hA'
      set A := (Matrix.of fun j i => d.uᴴ j i / d.sqrtEig j) with hA
      -- `M = S P diag(1/lam) P⁻¹ S'`
      have hMeq : zMSelf z s = mid d.us d.suh dec.rv dec.rvInv (fun i => 1 / dec.eig i) := by
        have hW : (zMSelf z s)⁻¹ = A' * (dec.rv * diagonal dec.eig * dec.rvInv) * A := by
          rw [← hL.eig]
          have : A' * (d.suh * (zMSelf z s)⁻¹ * d.us) * A
              = (A' * d.suh) * (zMSelf z s)⁻¹ * (d.us * A) := by simp only [Matrix.mul_assoc]
          rw [this, h2, h3, Matrix.one_mul, Matrix.mul_one]
        have h5 : (zMSelf z s)⁻¹ * mid d.us d.suh dec.rv dec.rvInv (fun i => 1 / dec.eig i) = 1 := by
          rw [hW]
          unfold mid
          have : A' * (dec.rv * diagonal dec.eig * dec.rvInv) * A
              * (d.us * dec.rv * diagonal (fun i => 1 / dec.eig i) * (dec.rvInv * d.suh))
              = A' * (dec.rv * (diagonal dec.eig * (dec.rvInv * (A * d.us) * dec.rv)
                * diagonal (fun i => 1 / dec.eig i)) * dec.rvInv) * d.suh := by
            simp only [Matrix.mul_assoc]
          rw [this, h4, Matrix.mul_one, hL.reg, Matrix.mul_one, diagonal_mul_diagonal]
          have h6 : (diagonal fun i => dec.eig i * (1 / dec.eig i)) = (1 : Matrix σ σ ℂ) := by
            rw [← diagonal_one]; congr 1; funext i; exact mul_one_div_cancel (he i)
          rw [h6, Matrix.mul_one, mul_eq_one_comm.1 hL.reg, Matrix.mul_one, h2]
        calc zMSelf z s = zMSelf z s * ((zMSelf z s)⁻¹
              * mid d.us d.suh dec.rv dec.rvInv (fun i => 1 / dec.eig i)) := by
              rw [h5, Matrix.mul_one]
          _ = _ := by rw [← Matrix.mul_assoc, hL.inv, Matrix.one_mul]
      conv_rhs => rw [hMeq]
      rw [← mid_add]
      unfold mid
      congr 2
      congr 1
      funext i
      ring
  · apply hL.update_inv
    intro i
    have h1 := he i
    have h2 := hg i
    generalize hilbert (1 / dec.eig i) = H at *
    field_simp
    ring

/-- C25: the root equation vanishes iff the local Green's function `g` is diagonal in the
components and its elements are the concentrations times the component Green's functions,
`g_ii = c_i / (1/g_ii + Σ_ii - e_i)`. -/
theorem beb_root_iff {ext : EigExt} {d : SpecDec n σ} (hd : CompactDec d) (z : ℂ)
    (s : Matrix (Fin n) (Fin n) ℂ) (e : Fin n → ℂ) (c : Fin n → ℝ) (hc : ∀ i, c i ≠ 0)
    (hilbert : ℂ → ℂ) (hM : (zMSelf z s).det ≠ 0) {dec : Decomposition σ σ}
    (hdec : decomposeMat ext (d.suh * (zMSelf z s)⁻¹ * d.us) = .ok dec) (he : ∀ i, dec.eig i ≠ 0)
    (hg : ∀ i, hilbert (1 / dec.eig i) ≠ 0) :
    ∃ g r, gfLocDec ext d z s hilbert = .ok g ∧ bebSelfRootEq ext d s z e c hilbert = .ok r ∧
      (r = 0 ↔ (∀ i j, i ≠ j → g i j = 0) ∧
        ∀ i, g i i = (c i : ℂ) / (1 / g i i + s i i - e i)) := by
  obtain ⟨g, gi, h1, h2, h3⟩ := gf_loc_inv_correct hd z s hilbert hM hdec he hg
  refine ⟨g, _, h1, by simp only [bebSelfRootEq, h2]; rfl, ?_⟩
  have h3' : gi * g = 1 := mul_eq_one_comm.1 h3
  have hc' : ∀ i, (c i : ℂ) ≠ 0 := fun i => by exact_mod_cast hc i
  rw [sub_eq_zero]
  -- a diagonal matrix has a diagonal inverse
  have hdiag : ∀ (A B : Matrix (Fin n) (Fin n) ℂ), A * B = 1 → (∀ i j, i ≠ j → A i j = 0) →
      (∀ i j, i ≠ j → B i j = 0) ∧ ∀ i, A i i ≠ 0 ∧ B i i = 1 / A i i := by
    intro A B hAB hA
    have hmul : ∀ i j, A i i * B i j = (1 : Matrix (Fin n) (Fin n) ℂ) i j := by
      intro i j
      rw [← hAB, Matrix.mul_apply, Finset.sum_eq_single i]
      · intro k _ hk
        rw [hA i k (Ne.symm hk), zero_mul]
      · simp
    have hne : ∀ i, A i i ≠ 0 := by
      intro i h0
      have := hmul i i
      rw [h0, zero_mul, Matrix.one_apply_eq] at this
      exact zero_ne_one this
    refine ⟨fun i j hij => ?_, fun i => ⟨hne i, ?_⟩⟩
    · have := hmul i j
      rw [Matrix.one_apply_ne hij] at this
      exact (mul_eq_zero.1 this).resolve_left (hne i)
    · have := hmul i i
      rw [Matrix.one_apply_eq] at this
      rw [eq_div_iff (hne i), mul_comm]
      exact this
  constructor
  · intro h
    have hoff : ∀ i j, i ≠ j → gi i j = 0 := by
      intro i j hij
      have := Matrix.ext_iff.mpr h i j
      rwa [diagonal_apply_ne _ hij] at this
    obtain ⟨h4, h5⟩ := hdiag gi g h3' hoff
    refine ⟨h4, fun i => ?_⟩
    have h6 := Matrix.ext_iff.mpr h i i
    rw [diagonal_apply_eq, eq_div_iff (hc' i)] at h6
    obtain ⟨h7, h8⟩ := h5 i
    rw [h8, one_div_one_div, ← h6]
    have := hc' i
    field_simp
  · rintro ⟨h4, h5⟩
    obtain ⟨h6, h7⟩ := hdiag g gi h3 h4
    ext i j
    by_cases hij : i = j
    · subst hij
      rw [diagonal_apply_eq]
      obtain ⟨h8, h9⟩ := h7 i
      rw [h9, eq_div_iff (hc' i)]
      have h10 := h5 i
      have h11 : 1 / g i i + s i i - e i ≠ 0 := by
        intro h0
        rw [h0, div_zero] at h10
        exact h8 h10
      rw [eq_div_iff h11] at h10
      rw [← h10, ← mul_assoc, one_div, inv_mul_cancel₀ h8, one_mul]
    · rw [diagonal_apply_ne _ hij, h6 i j hij]

/-- C25: in the upper half-plane and for a lattice Hilbert transform all guards of the root
equation hold, except that the matrix has to be diagonalizable. -/
theorem beb_root_iff_physical {ext : EigExt} {d : SpecDec n σ} (hd : CompactDec d) {z : ℂ}
    (hz : 0 < z.im) {s : Matrix (Fin n) (Fin n) ℂ} (hs : PhysicalSelf s) (e : Fin n → ℂ)
    (c : Fin n → ℝ) (hc : ∀ i, c i ≠ 0) {dos : Measure ℝ} {band : Set ℝ} {hilbert : ℂ → ℂ}
    (hH : IsHilbert dos band hilbert) :
    (∃ g r, gfLocDec ext d z s hilbert = .ok g ∧ bebSelfRootEq ext d s z e c hilbert = .ok r ∧
      (r = 0 ↔ (∀ i j, i ≠ j → g i j = 0) ∧
        ∀ i, g i i = (c i : ℂ) / (1 / g i i + s i i - e i))) ∨
    (gfLocDec ext d z s hilbert = .error .linAlgError ∧
      bebSelfRootEq ext d s z e c hilbert = .error .linAlgError) := by
  obtain ⟨hM, -, hguard⟩ := retarded_guards (ext := ext) hd hz hs
  rcases decompose_mat_correct ext (d.suh * (zMSelf z s)⁻¹ * d.us) with ⟨dec', h1, -⟩ | ⟨h1, -⟩
  · left
    refine beb_root_iff hd z s e c hc hilbert hM h1 (hguard dec' h1).1 fun i => ?_
    exact hilbert_ne_zero hH ((hguard dec' h1).2 i)
  · right
    constructor
    · simp only [gfLocDec, npInv, if_neg hM, h1]
    · simp only [bebSelfRootEq, gfLocInv, npInv, if_neg hM, h1]

/-! ## C23: the restricted root equation -/

variable {κ : Type*}

omit [Fintype σ] [DecidableEq σ]

lemma bebClip_physical (s : κ → Matrix (Fin n) (Fin n) ℂ) :
    (∀ k i, (bebClip s k i i).im ≤ 0) ∧ ((∀ k i, (s k i i).im ≤ 0) → bebClip s = s) := by
  constructor
  · intro k i
    simp only [bebClip, of_apply, if_true]
    exact (clip_physical _).1
  · intro h
    funext k
    ext i j
    simp only [bebClip, of_apply]
    split_ifs with hij
    · subst hij; exact (clip_physical _).2.2 (h k i)
    · rfl

/-- C23: BEB, physical self-energies: nothing is changed. -/
theorem beb_restrict_physical
    (rootEq : (κ → Matrix (Fin n) (Fin n) ℂ) → Except Err (κ → Matrix (Fin n) (Fin n) ℂ))
    (s : κ → Matrix (Fin n) (Fin n) ℂ) (h : ∀ k i, (s k i i).im ≤ 0) :
    bebRestrict rootEq s = (rootEq s).map fun r => (r, s) := by
  unfold bebRestrict
  rw [if_pos fun k i => not_lt.2 (h k i)]

/-- C23: BEB, unphysical self-energies have a residual; in any case it dominates the residual
of the clipped self-energy, which the argument is overwritten with. -/
theorem beb_restrict_residual
    (rootEq : (κ → Matrix (Fin n) (Fin n) ℂ) → Except Err (κ → Matrix (Fin n) (Fin n) ℂ))
    (s : κ → Matrix (Fin n) (Fin n) ℂ) {r s' : κ → Matrix (Fin n) (Fin n) ℂ}
    (h : bebRestrict rootEq s = .ok (r, s')) :
    s' = bebClip s ∧
    (∀ k i, 0 < (s k i i).im → 1e-3 * (s k i i).im ≤ |(r k i i).re| ∧
      1e-3 * (s k i i).im ≤ |(r k i i).im|) ∧
    ∃ r', rootEq (bebClip s) = .ok r' ∧ ∀ k i j, ‖r' k i j‖ ≤ ‖r k i j‖ := by
  by_cases hp : ∀ k i, ¬ 0 < (s k i i).im
  · have hcl := (bebClip_physical s).2 fun k i => not_lt.1 (hp k i)
    rw [beb_restrict_physical rootEq s fun k i => not_lt.1 (hp k i)] at h
    cases hr : rootEq s with
    | error e => rw [hr] at h; exact absurd h (by simp [Except.map])
    | ok r'' =>
      rw [hr] at h
      obtain ⟨rfl, rfl⟩ := Prod.mk.inj (Except.ok.inj h)
      refine ⟨hcl.symm, fun k i hk => absurd hk (hp k i), r'', by rw [hcl, hr], fun k i j => le_rfl⟩
  · unfold bebRestrict at h
    rw [if_neg hp] at h
    cases hr : rootEq (bebClip s) with
    | error e => rw [hr] at h; exact absurd h (by simp [Except.map])
    | ok r'' =>
      rw [hr] at h
      obtain ⟨rfl, rfl⟩ := Prod.mk.inj (Except.ok.inj h)
      refine ⟨rfl, fun k i hk => ?_, r'', rfl, fun k i j => ?_⟩
      · simp only [of_apply, hk, and_self, if_true]
        exact enlarge_re_im _ hk
      · simp only [of_apply]
        split_ifs with hij
        · obtain ⟨rfl, hk⟩ := hij
          exact norm_le_enlarge _ hk.le
        · exact le_rfl

/-- C23: BEB, the roots of the restricted equation are exactly the physical roots. -/
theorem beb_restrict_root_iff
    (rootEq : (κ → Matrix (Fin n) (Fin n) ℂ) → Except Err (κ → Matrix (Fin n) (Fin n) ℂ))
    (s : κ → Matrix (Fin n) (Fin n) ℂ) :
    (∃ s', bebRestrict rootEq s = .ok (0, s')) ↔
      rootEq s = .ok 0 ∧ ∀ k i, (s k i i).im ≤ 0 := by
  constructor
  · rintro ⟨s', h⟩
    obtain ⟨-, hun, -⟩ := beb_restrict_residual rootEq s h
    have hp : ∀ k i, (s k i i).im ≤ 0 := by
      intro k i
      by_contra hc
      have h1 := (hun k i (not_le.1 hc)).1
      have h2 := not_le.1 hc
      simp only [Pi.zero_apply, Matrix.zero_apply, Complex.zero_re, abs_zero] at h1
      linarith
    refine ⟨?_, hp⟩
    rw [beb_restrict_physical rootEq s hp] at h
    cases hr : rootEq s with
    | error e => rw [hr] at h; exact absurd h (by simp [Except.map])
    | ok r =>
      rw [hr] at h
      rw [(Prod.mk.inj (Except.ok.inj h)).1]
  · rintro ⟨h, hp⟩
    refine ⟨s, ?_⟩
    rw [beb_restrict_physical rootEq s hp, h]
    rfl

example : bebRestrict (n := 1) (fun s : Unit → Matrix (Fin 1) (Fin 1) ℂ => .ok s) (fun _ => 0)
    = .ok (0, fun _ => 0) := by
  rw [beb_restrict_physical _ _ (by simp)]
  rfl

/-! ## C25: `solve_root` -/

/-- Contract of the external root search for a function that may raise: success means that the
function was evaluated at a point with residual below the tolerance, which is returned
(possibly after the function changed it). -/
def HonestExceptSolver (solver : ExceptSolver (κ → Matrix (Fin n) (Fin n) ℂ)) (tol : ℝ) : Prop :=
  ∀ F x0 res, solver F x0 = .ok res → res.success = true →
    ∃ x r x', F x = .ok (r, x') ∧ (∀ k i j, ‖r k i j‖ ≤ tol) ∧ (res.x = x ∨ res.x = x')

lemma forAll_ok {α : Type*} {f : κ → Except Err α} {a : κ → α} :
    forAll f = .ok a ↔ ∀ k, f k = .ok (a k) := by
  unfold forAll
  split_ifs with h
  · constructor
    · intro ha k
      rw [← Except.ok.inj ha]
      exact (h k).choose_spec
    · intro ha
      congr 1
      funext k
      exact Except.ok.inj ((h k).choose_spec.symm.trans (ha k))
  · constructor
    · intro h'; exact absurd h' (by simp)
    · intro ha; exact absurd (fun k => ⟨a k, ha k⟩) h

/-- C25: a self-energy returned by `solve_root` solves the BEB equations: exactly the returned one
without restriction, and with restriction the one with the remaining (at most `1000 tol`)
positive imaginary parts removed. -/
theorem beb_solve_root_correct [Fintype σ] [DecidableEq σ] (ext : EigExt)
    (solver : ExceptSolver (κ → Matrix (Fin n) (Fin n) ℂ)) {tol : ℝ} (htol : 0 ≤ tol)
    (hs : HonestExceptSolver solver tol) (d : SpecDec n σ) (z : κ → ℂ) (e : κ → Fin n → ℂ)
    (c : κ → Fin n → ℝ) (hilbert : ℂ → ℂ) (x0 : Option (κ → Matrix (Fin n) (Fin n) ℂ))
    (restricted : Bool) {s : κ → Matrix (Fin n) (Fin n) ℂ}
    (h : bebSolveRoot ext solver d z e c hilbert x0 restricted = .ok s) :
    let s' := if restricted then bebClip s else s
    (restricted = true → ∀ k i, (s k i i).im ≤ 1000 * tol) ∧
    ∀ k, ∃ r, bebSelfRootEq ext d (s' k) (z k) (e k) (c k) hilbert = .ok r ∧
      ∀ i j, ‖r i j‖ ≤ tol := by
  simp only [bebSolveRoot] at h
  split at h
  · exact absurd h (by simp)
  split at h
  · exact absurd h (by simp)
  rename_i sol hsol
  split_ifs at h with hsucc
  have hsx := Except.ok.inj h
  obtain ⟨x, r, x', hF, hr, hx⟩ := hs _ _ _ hsol hsucc
  cases restricted with
  | false =>
    simp only [Bool.false_eq_true, if_false] at hF ⊢
    refine ⟨fun h => absurd h (by simp), ?_⟩
    cases hro : forAll fun k => bebSelfRootEq ext d (x k) (z k) (e k) (c k) hilbert with
    | error e => rw [hro] at hF; exact absurd hF (by simp [Except.map])
    | ok r' =>
      rw [hro] at hF
      obtain ⟨rfl, rfl⟩ := Prod.mk.inj (Except.ok.inj hF)
      have hsx' : s = x := by rw [← hsx]; rcases hx with hx | hx <;> exact hx
      rw [hsx']
      exact fun k => ⟨r' k, forAll_ok.1 hro k, hr k⟩
  | true =>
    simp only [if_true] at hF ⊢
    obtain ⟨hx', hun, r', hr', hle⟩ := beb_restrict_residual _ x hF
    have hcl : bebClip s = bebClip x := by
      rcases hx with hx | hx
      · rw [← hsx, hx]
      · rw [← hsx, hx, hx']
        exact (bebClip_physical _).2 (bebClip_physical x).1
    refine ⟨fun _ k i => ?_, fun k => ⟨r' k, ?_, fun i j => (hle k i j).trans (hr k i j)⟩⟩
    · rcases hx with hx | hx
      · rw [← hsx, hx]
        by_contra hc
        have hpos : 0 < (x k i i).im := lt_of_le_of_lt (by positivity) (not_le.1 hc)
        have h1 := (hun k i hpos).1
        have h2 := (Complex.abs_re_le_norm _).trans (hr k i i)
        have h3 := not_le.1 hc
        norm_num at h1
        linarith
      · rw [← hsx, hx, hx']
        exact ((bebClip_physical x).1 k i).trans (by positivity)
    · rw [hcl]
      exact forAll_ok.1 hr' k

/-- C25: the assertion in the starting guess never fails, and for `Im z ≥ 0` the guess is
physical on the diagonal. -/
theorem beb_start_physical (z : κ → ℂ)
    (rootEq : (κ → Matrix (Fin n) (Fin n) ℂ) → Except Err (κ → Matrix (Fin n) (Fin n) ℂ))
    {r : κ → Matrix (Fin n) (Fin n) ℂ} (hr : rootEq 0 = .ok r) :
    ∃ s, bebStart z rootEq none = .ok s ∧
      ((∀ k, 0 ≤ (z k).im) → ∀ k i, (s k i i).im ≤ 0) := by
  simp only [bebStart, hr]
  split_ifs with hz hs
  · exact ⟨_, rfl, fun _ => hs⟩
  · exfalso
    apply hs
    intro k i
    simp only [of_apply, if_true]
    split_ifs with h
    · exact h.le
    · simpa using h
  · exact ⟨_, rfl, fun h => absurd h hz⟩

/-- A solver that meets the contract: it succeeds if the start is good enough. -/
example : HonestExceptSolver (κ := Unit) (n := 1)
    (fun F x0 => (F x0).map fun p => ⟨x0, decide (‖p.1 () 0 0‖ ≤ 1)⟩) 1 := by
  intro F x0 res h hs
  simp only at h
  cases hF : F x0 with
  | error e => rw [hF] at h; exact absurd h (by simp [Except.map])
  | ok p =>
    rw [hF] at h
    rw [← Except.ok.inj h] at hs ⊢
    refine ⟨x0, p.1, p.2, hF, fun k i j => ?_, Or.inl rfl⟩
    obtain rfl : i = 0 := Subsingleton.elim _ _
    obtain rfl : j = 0 := Subsingleton.elim _ _
    simpa using hs

/-- A rank-one decomposition of a `2 × 2` hopping with eigenvalue `2`. -/
example : CompactDec (n := 2) (σ := Fin 1) ⟨!![1; 0], fun _ => 2, !![1, 0]⟩ := by
  refine ⟨?_, ?_, fun _ => by norm_num⟩
  · ext i j; fin_cases i; fin_cases j <;> simp
  · ext i j; fin_cases i; fin_cases j; simp [Matrix.mul_apply]

/-- The Hilbert transform of the atomic limit: all energies are zero. -/
example : IsHilbert (Measure.dirac 0) {0} (fun x => 1 / x) := by
  refine ⟨inferInstance, isCompact_singleton, ?_, fun x _ => ?_⟩
  · rw [Measure.dirac_apply' _ (by measurability)]; simp
  · rw [integral_dirac]; simp

/-- A physical self-energy. -/
example : PhysicalSelf (n := 2) !![1, 2; 2, 0] := by
  intro v
  rw [hermitian_im]
  ext i j; fin_cases i <;> fin_cases j <;> simp

end Gftool.Props
