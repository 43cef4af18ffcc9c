import Verif.Model.Linalg
import Verif.Lemmas.Linalg
import Mathlib.LinearAlgebra.Matrix.Rank
import Mathlib.Tactic

/-!
# Properties C15 and C16: `linalg.lstsq_ec` and `linalg.orth_compl`
-/

namespace Gftool.Props

open Gftool Model Lemmas Matrix

variable {𝕜 : Type*} [RCLike 𝕜]

/-! ## Helpers -/

private lemma sum_split {n l : ℕ} (h : l ≤ n) {M : Type*} [AddCommMonoid M] (f : Fin n → M) :
    ∑ i, f i = ∑ i : Fin l, f ⟨i, by omega⟩ + ∑ i : Fin (n - l), f ⟨l + i, by omega⟩ := by
  obtain ⟨k, rfl⟩ := Nat.exists_eq_add_of_le h
  rw [Fin.sum_univ_add]
  congr 1
  have hk : l + k - l = k := by omega
  refine (Fintype.sum_equiv (finCongr hk) _ _ fun i => ?_).symm
  congr 1

omit [RCLike 𝕜] in
private lemma concat_top {n l : ℕ} (h : l ≤ n) (y : Fin l → 𝕜) (z : Fin (n - l) → 𝕜) (i : Fin l) :
    concatVec y z (⟨i, by omega⟩ : Fin n) = y i := by
  simp [concatVec]

omit [RCLike 𝕜] in
private lemma concat_bot {n l : ℕ} (y : Fin l → 𝕜) (z : Fin (n - l) → 𝕜)
    (i : Fin (n - l)) : concatVec y z (⟨l + i, by omega⟩ : Fin n) = z i := by
  simp [concatVec]

/-- `Rᴴ w` only involves the first entries of `w` for upper triangular `R`. -/
private lemma upper_mulVec {n l : ℕ} (h : l ≤ n) (r : Matrix (Fin n) (Fin l) 𝕜)
    (hr : ∀ (i : Fin n) (j : Fin l), (j : ℕ) < i → r i j = 0) (w : Fin n → 𝕜) :
    rᴴ *ᵥ w = (topRows h r)ᴴ *ᵥ fun i => w ⟨i, by omega⟩ := by
  funext j
  simp only [mulVec, dotProduct, conjTranspose_apply]
  rw [sum_split h]
  have : ∑ i : Fin (n - l), star (r ⟨l + i, by omega⟩ j) * w ⟨l + i, by omega⟩ = 0 :=
    Finset.sum_eq_zero fun i _ => by
      rw [hr _ _ (by have := j.2; simp; omega)]; simp
  rw [this, add_zero]
  rfl

private lemma conj_eq_qr (ext : LinalgExt 𝕜) {n l : ℕ} (c : Matrix (Fin l) (Fin n) 𝕜) :
    c = (ext.qr cᴴ).2ᴴ * (ext.qr cᴴ).1ᴴ := by
  rw [← conjTranspose_mul, ext.qr_mul, conjTranspose_conjTranspose]

private lemma unitary_left (ext : LinalgExt 𝕜) {n l : ℕ} (A : Matrix (Fin n) (Fin l) 𝕜) :
    (ext.qr A).1ᴴ * (ext.qr A).1 = 1 := by
  have := Matrix.mem_unitaryGroup_iff'.1 (ext.qr_unitary A)
  rwa [star_eq_conjTranspose] at this

private lemma unitary_right (ext : LinalgExt 𝕜) {n l : ℕ} (A : Matrix (Fin n) (Fin l) 𝕜) :
    (ext.qr A).1 * (ext.qr A).1ᴴ = 1 := by
  have := Matrix.mem_unitaryGroup_iff.1 (ext.qr_unitary A)
  rwa [star_eq_conjTranspose] at this

/-- Constraint in the rotated basis. -/
private lemma constraint_rot (ext : LinalgExt 𝕜) {n l : ℕ} (h : l ≤ n)
    (c : Matrix (Fin l) (Fin n) 𝕜) (w : Fin n → 𝕜) :
    c *ᵥ ((ext.qr cᴴ).1 *ᵥ w)
      = (topRows h (ext.qr cᴴ).2)ᴴ *ᵥ fun i => w ⟨i, by omega⟩ := by
  have h1 : c * (ext.qr cᴴ).1 = (ext.qr cᴴ).2ᴴ := by
    have h2 := congrArg (fun M => M * (ext.qr cᴴ).1) (conj_eq_qr ext c)
    simp only [Matrix.mul_assoc, unitary_left, Matrix.mul_one] at h2
    exact h2
  rw [mulVec_mulVec, h1]
  exact upper_mulVec h _ (ext.qr_upper _) w

/-- Full row rank makes the triangular factor regular. -/
private lemma det_ne_zero_of_rank (ext : LinalgExt 𝕜) {n l : ℕ} (h : l ≤ n)
    (c : Matrix (Fin l) (Fin n) 𝕜) (hc : c.rank = l) :
    (topRows h (ext.qr cᴴ).2).det ≠ 0 := by
  have hsurj : Function.Surjective fun w => (topRows h (ext.qr cᴴ).2)ᴴ *ᵥ w := by
    intro d
    have htop : LinearMap.range c.mulVecLin = ⊤ := by
      apply Submodule.eq_top_of_finrank_eq
      rw [Module.finrank_fin_fun]
      exact hc
    obtain ⟨x, hx⟩ := LinearMap.range_eq_top.1 htop d
    refine ⟨fun i => ((ext.qr cᴴ).1ᴴ *ᵥ x) ⟨i, by omega⟩, ?_⟩
    simp only
    rw [← constraint_rot ext h c, mulVec_mulVec _ (ext.qr cᴴ).1, unitary_right, one_mulVec]
    exact hx
  have hu := Matrix.mulVec_surjective_iff_isUnit.1 hsurj
  rw [Matrix.isUnit_iff_isUnit_det, det_conjTranspose, isUnit_iff_ne_zero] at hu
  intro h0
  rw [h0] at hu
  simp at hu

/-! ## C15 -/

/-- C15: with a full-rank constraint matrix the constraints are met exactly and the residual
is minimal among all vectors that meet them. -/
theorem lstsq_ec_optimal (ext : LinalgExt 𝕜) {m n l : ℕ} (a : Matrix (Fin m) (Fin n) 𝕜)
    (b : Fin m → 𝕜) (c : Matrix (Fin l) (Fin n) 𝕜) (d : Fin l → 𝕜) (hn : n ≠ 0)
    (hc : c.rank = l) :
    ∃ x, lstsqEc ext a b c d = .ok x ∧ c *ᵥ x = d ∧
      ∀ x', c *ᵥ x' = d → sqNorm (a *ᵥ x - b) ≤ sqNorm (a *ᵥ x' - b) := by
  have hln : l ≤ n := by
    rw [← hc]; simpa using c.rank_le_width
  by_cases hl : l = 0
  · subst hl
    refine ⟨ext.lstsq a b, by simp [lstsqEc, hn], by funext i; exact i.elim0, ?_⟩
    intro x' _
    exact ext.lstsq_min a b x'
  · have hdet := det_ne_zero_of_rank ext hln c hc
    simp only [lstsqEc, if_neg hn, if_neg hl, hln, and_self, dif_pos, if_neg hdet,
      Fin.cast_refl, id]
    set q := (ext.qr cᴴ).1 with hq
    set r := topRows hln (ext.qr cᴴ).2 with hr
    set y := (rᴴ)⁻¹ *ᵥ fun i => d i with hy
    have hdetH : IsUnit (rᴴ).det := by
      rw [det_conjTranspose, isUnit_iff_ne_zero]
      simpa using hdet
    have hry : rᴴ *ᵥ y = d := by
      rw [hy, mulVec_mulVec, Matrix.mul_nonsing_inv _ hdetH, one_mulVec]
    set aqTop : Matrix (Fin m) (Fin l) 𝕜 := Matrix.of fun i j => (a * q) i ⟨j, by omega⟩ with ht
    set aqBot : Matrix (Fin m) (Fin (n - l)) 𝕜 :=
      Matrix.of fun i j => (a * q) i ⟨l + j, by omega⟩ with hbt
    set z := ext.lstsq aqBot (b - aqTop *ᵥ y) with hz
    have hsplit : ∀ w : Fin n → 𝕜, a *ᵥ (q *ᵥ w)
        = aqTop *ᵥ (fun i => w ⟨i, by omega⟩) + aqBot *ᵥ fun i => w ⟨l + i, by omega⟩ := by
      intro w
      rw [mulVec_mulVec]
      funext i
      simp only [mulVec, dotProduct, Pi.add_apply]
      rw [sum_split hln]
      rfl
    refine ⟨q *ᵥ concatVec y z, rfl, ?_, ?_⟩
    · rw [constraint_rot ext hln c]
      simp only [concat_top hln]
      exact hry
    · intro x' hx'
      have hx'' : q *ᵥ (qᴴ *ᵥ x') = x' := by
        rw [mulVec_mulVec, hq, unitary_right, one_mulVec]
      rw [← hx''] at hx' ⊢
      set w := qᴴ *ᵥ x'
      rw [constraint_rot ext hln c] at hx'
      have hwy : (fun i : Fin l => w ⟨i, by omega⟩) = y := by
        have h1 : (rᴴ)⁻¹ *ᵥ (rᴴ *ᵥ fun i : Fin l => w ⟨i, by omega⟩) = (rᴴ)⁻¹ *ᵥ d := by
          rw [hx']
        rwa [mulVec_mulVec, Matrix.nonsing_inv_mul _ hdetH, one_mulVec] at h1
      rw [hsplit, hsplit, hwy]
      simp only [concat_top hln, concat_bot]
      have := ext.lstsq_min aqBot (b - aqTop *ᵥ y) fun i => w ⟨l + i, by omega⟩
      have e1 : ∀ v, aqTop *ᵥ y + aqBot *ᵥ v - b = aqBot *ᵥ v - (b - aqTop *ᵥ y) := by
        intro v; abel
      rw [e1, e1]
      exact this

/-- A unitary transformation does not change the norm. -/
private lemma sqNorm_unitary {n : ℕ} (q : Matrix (Fin n) (Fin n) 𝕜) (hq : qᴴ * q = 1) (w : Fin n → 𝕜) :
    sqNorm (q *ᵥ w) = sqNorm w := by
  have h : ∀ v : Fin n → 𝕜, ((sqNorm v : ℝ) : 𝕜) = star v ⬝ᵥ v := fun v => by
    simp only [sqNorm, dotProduct, Pi.star_apply, RCLike.ofReal_sum, RCLike.ofReal_pow]
    refine Finset.sum_congr rfl fun i _ => ?_
    rw [← RCLike.conj_mul]
    rfl
  have h1 : ((sqNorm (q *ᵥ w) : ℝ) : 𝕜) = ((sqNorm w : ℝ) : 𝕜) := by
    rw [h, h, star_mulVec, dotProduct_mulVec, vecMul_vecMul, hq, vecMul_one]
  exact_mod_cast h1

private lemma sqNorm_concat {n l : ℕ} (hln : l ≤ n) (w : Fin n → 𝕜) :
    sqNorm w = sqNorm (fun i : Fin l => w ⟨i, by omega⟩) + sqNorm fun i : Fin (n - l) => w ⟨l + i, by omega⟩ := by
  unfold sqNorm
  exact sum_split hln _

/-- C15: among all vectors that meet the constraints with minimal residual, the result has the smallest norm. -/
theorem lstsq_ec_min_norm (ext : LinalgExt 𝕜) {m n l : ℕ} (a : Matrix (Fin m) (Fin n) 𝕜)
    (b : Fin m → 𝕜) (c : Matrix (Fin l) (Fin n) 𝕜) (d : Fin l → 𝕜) (hn : n ≠ 0)
    (hc : c.rank = l) {x : Fin n → 𝕜} (hx : lstsqEc ext a b c d = .ok x) (x' : Fin n → 𝕜) (hx' : c *ᵥ x' = d)
    (hres : sqNorm (a *ᵥ x' - b) = sqNorm (a *ᵥ x - b)) : sqNorm x ≤ sqNorm x' := by
  have hln : l ≤ n := by
    rw [← hc]; simpa using c.rank_le_width
  by_cases hl : l = 0
  · subst hl
    obtain rfl : ext.lstsq a b = x := by simpa [lstsqEc, hn] using hx
    exact ext.lstsq_norm a b x' hres
  · have hdet := det_ne_zero_of_rank ext hln c hc
    simp only [lstsqEc, if_neg hn, if_neg hl, hln, and_self, dif_pos, if_neg hdet,
      Fin.cast_refl, id] at hx
    set q := (ext.qr cᴴ).1 with hq
    set r := topRows hln (ext.qr cᴴ).2 with hr
    set y := (rᴴ)⁻¹ *ᵥ fun i => d i with hy
    have hdetH : IsUnit (rᴴ).det := by
      rw [det_conjTranspose, isUnit_iff_ne_zero]
      simpa using hdet
    set aqTop : Matrix (Fin m) (Fin l) 𝕜 := Matrix.of fun i j => (a * q) i ⟨j, by omega⟩ with ht
    set aqBot : Matrix (Fin m) (Fin (n - l)) 𝕜 :=
      Matrix.of fun i j => (a * q) i ⟨l + j, by omega⟩ with hbt
    set z := ext.lstsq aqBot (b - aqTop *ᵥ y) with hz
    have hsplit : ∀ w : Fin n → 𝕜, a *ᵥ (q *ᵥ w)
        = aqTop *ᵥ (fun i => w ⟨i, by omega⟩) + aqBot *ᵥ fun i => w ⟨l + i, by omega⟩ := by
      intro w
      rw [mulVec_mulVec]
      funext i
      simp only [mulVec, dotProduct, Pi.add_apply]
      rw [sum_split hln]
      rfl
    obtain rfl := Except.ok.inj hx
    have hx'' : q *ᵥ (qᴴ *ᵥ x') = x' := by
      rw [mulVec_mulVec, hq, unitary_right, one_mulVec]
    rw [← hx''] at hx' hres ⊢
    set w := qᴴ *ᵥ x'
    rw [constraint_rot ext hln c] at hx'
    have hwy : (fun i : Fin l => w ⟨i, by omega⟩) = y := by
      have h1 : (rᴴ)⁻¹ *ᵥ (rᴴ *ᵥ fun i : Fin l => w ⟨i, by omega⟩) = (rᴴ)⁻¹ *ᵥ d := by
        rw [hx']
      rwa [mulVec_mulVec, Matrix.nonsing_inv_mul _ hdetH, one_mulVec] at h1
    rw [hsplit, hsplit, hwy] at hres
    simp only [concat_top hln, concat_bot] at hres
    have e1 : ∀ v, aqTop *ᵥ y + aqBot *ᵥ v - b = aqBot *ᵥ v - (b - aqTop *ᵥ y) := by
      intro v; abel
    rw [e1, e1] at hres
    have hu := unitary_left ext cᴴ
    rw [← hq] at hu
    rw [sqNorm_unitary q hu, sqNorm_unitary q hu, sqNorm_concat hln, sqNorm_concat hln w, hwy]
    simp only [concat_top hln, concat_bot]
    exact add_le_add_right (ext.lstsq_norm aqBot (b - aqTop *ᵥ y) _ hres) _

/-- A constraint of full rank: fix the first of two unknowns. -/
example : (!![(1 : ℝ), 0] : Matrix (Fin 1) (Fin 2) ℝ).rank = 1 := by
  refine le_antisymm (by simpa using Matrix.rank_le_height _) ?_
  have h : (!![(1 : ℝ), 0] : Matrix (Fin 1) (Fin 2) ℝ) * !![(1 : ℝ); 0] = 1 := by
    ext i j; fin_cases i; fin_cases j; simp
  have h2 := Matrix.rank_mul_le_left (!![(1 : ℝ), 0] : Matrix (Fin 1) (Fin 2) ℝ) !![(1 : ℝ); 0]
  rw [h, Matrix.rank_one] at h2
  simpa using h2

/-- C15: for any constraint matrix (also rank deficient, then by the fall back), consistent
constraints are met exactly. Optimality is missing here and is false in general, see
`lstsq_ec_singular_not_optimal`. -/
theorem lstsq_ec_constraint (ext : LinalgExt 𝕜) {m n l : ℕ} (a : Matrix (Fin m) (Fin n) 𝕜)
    (b : Fin m → 𝕜) (c : Matrix (Fin l) (Fin n) 𝕜) (d : Fin l → 𝕜) (hn : n ≠ 0) (hln : l ≤ n)
    (hd : ∃ x0, c *ᵥ x0 = d) :
    ∃ x, lstsqEc ext a b c d = .ok x ∧ c *ᵥ x = d := by
  by_cases hl : l = 0
  · subst hl
    exact ⟨ext.lstsq a b, by simp [lstsqEc, hn], by funext i; exact i.elim0⟩
  · simp only [lstsqEc, if_neg hn, if_neg hl, hln, and_self, dif_pos, Fin.cast_refl, id]
    refine ⟨_, rfl, ?_⟩
    rw [constraint_rot ext hln c]
    simp only [concat_top hln]
    obtain ⟨x0, hx0⟩ := hd
    have hsol : ∃ w, (topRows hln (ext.qr cᴴ).2)ᴴ *ᵥ w = d := by
      refine ⟨fun i => ((ext.qr cᴴ).1ᴴ *ᵥ x0) ⟨i, by omega⟩, ?_⟩
      rw [← constraint_rot ext hln c, mulVec_mulVec _ (ext.qr cᴴ).1, unitary_right, one_mulVec, hx0]
    split_ifs with hdet
    · exact lstsq_solves ext _ _ hsol
    · have hdetH : IsUnit ((topRows hln (ext.qr cᴴ).2)ᴴ).det := by
        rw [det_conjTranspose, isUnit_iff_ne_zero]
        simpa using hdet
      rw [mulVec_mulVec, Matrix.mul_nonsing_inv _ hdetH, one_mulVec]

/-- C15: without constraint rows the result is the ordinary least squares solution. -/
theorem lstsq_ec_unconstrained (ext : LinalgExt 𝕜) {m n : ℕ} (a : Matrix (Fin m) (Fin n) 𝕜)
    (b : Fin m → 𝕜) (c : Matrix (Fin 0) (Fin n) 𝕜) (d : Fin 0 → 𝕜) (hn : n ≠ 0) :
    ∃ x, lstsqEc ext a b c d = .ok x ∧
      (∀ x', sqNorm (a *ᵥ x - b) ≤ sqNorm (a *ᵥ x' - b)) := by
  refine ⟨ext.lstsq a b, by simp [lstsqEc, hn], ext.lstsq_min a b⟩

/-- C15: no unknowns give the empty vector. -/
theorem lstsq_ec_empty (ext : LinalgExt 𝕜) {m l l' : ℕ} (a : Matrix (Fin m) (Fin 0) 𝕜)
    (b : Fin m → 𝕜) (c : Matrix (Fin l) (Fin 0) 𝕜) (d : Fin l' → 𝕜) :
    lstsqEc ext a b c d = .ok 0 := by
  simp [lstsqEc]

/-- C15, error branch: exactly mismatched shapes or more constraints than unknowns raise. -/
theorem lstsq_ec_error_iff (ext : LinalgExt 𝕜) {m n l l' : ℕ} (a : Matrix (Fin m) (Fin n) 𝕜)
    (b : Fin m → 𝕜) (c : Matrix (Fin l) (Fin n) 𝕜) (d : Fin l' → 𝕜) (e : Err) :
    lstsqEc ext a b c d = .error e ↔ e = .valueError ∧ n ≠ 0 ∧ (l ≠ l' ∨ n < l) := by
  unfold lstsqEc
  by_cases hn : n = 0
  · simp [hn]
  by_cases hl : l = 0
  · by_cases hll : l = l'
    · subst hll; simp [hn, hl]
    · simp [hn, hl]
      subst hl
      simp [hll]
      exact ⟨fun h => h.symm, fun h => h.symm⟩
  · by_cases h : l' = l ∧ l ≤ n
    · simp [hn, hl, h]
    · simp only [hn, hl, h, if_false, dif_neg, not_false_eq_true]
      constructor
      · intro he
        cases he
        refine ⟨rfl, hn, ?_⟩
        by_contra h'
        push Not at h'
        exact h ⟨h'.1.symm, h'.2⟩
      · rintro ⟨rfl, _⟩; rfl

/-- C15 (violation): contradictory constraints do not raise although the code tries to
detect them: `0 x = 1` silently returns a vector that violates the constraint. -/
theorem lstsq_ec_contradiction_accepted (ext : LinalgExt ℝ) :
    ∃ x, lstsqEc ext (1 : Matrix (Fin 1) (Fin 1) ℝ) ![0] (0 : Matrix (Fin 1) (Fin 1) ℝ) ![1] = .ok x
      ∧ (0 : Matrix (Fin 1) (Fin 1) ℝ) *ᵥ x ≠ ![1] := by
  have h : ∀ e, lstsqEc ext (1 : Matrix (Fin 1) (Fin 1) ℝ) ![0]
      (0 : Matrix (Fin 1) (Fin 1) ℝ) ![1] ≠ .error e := by
    intro e he
    rw [lstsq_ec_error_iff] at he
    omega
  rcases hx : lstsqEc ext (1 : Matrix (Fin 1) (Fin 1) ℝ) ![0]
      (0 : Matrix (Fin 1) (Fin 1) ℝ) ![1] with e | x
  · exact absurd hx (h e)
  · refine ⟨x, rfl, fun h' => ?_⟩
    have := congrFun h' 0
    simp at this

/-- C15 (violation): for a rank deficient (but consistent) constraint the result is not
optimal. With the void constraint `0 x = 0` on two unknowns there is a right-hand side for
which `x = b` has residual zero but the returned vector has not. -/
theorem lstsq_ec_singular_not_optimal (ext : LinalgExt ℝ) :
    ∃ (b : Fin 2 → ℝ) (x : Fin 2 → ℝ),
      lstsqEc ext (1 : Matrix (Fin 2) (Fin 2) ℝ) b (0 : Matrix (Fin 1) (Fin 2) ℝ) ![0] = .ok x ∧
      (0 : Matrix (Fin 1) (Fin 2) ℝ) *ᵥ b = ![0] ∧
      sqNorm ((1 : Matrix (Fin 2) (Fin 2) ℝ) *ᵥ b - b) < sqNorm ((1 : Matrix (Fin 2) (Fin 2) ℝ) *ᵥ x - b) := by
  set c : Matrix (Fin 1) (Fin 2) ℝ := 0 with hc
  set q := (ext.qr cᴴ).1 with hq
  have hR : (ext.qr cᴴ).2 = 0 := by
    have h1 : q * (ext.qr cᴴ).2 = 0 := by rw [hq, ext.qr_mul, hc]; simp
    have h2 : qᴴ * (q * (ext.qr cᴴ).2) = 0 := by rw [h1, Matrix.mul_zero]
    rwa [← Matrix.mul_assoc, hq, unitary_left, Matrix.one_mul] at h2
  let b : Fin 2 → ℝ := q *ᵥ ![1, 0]
  have hln : 1 ≤ 2 := by norm_num
  have hr0 : topRows hln (ext.qr cᴴ).2 = 0 := by rw [hR]; ext i j; simp [topRows]
  let y : Fin 1 → ℝ := ext.lstsq (0 : Matrix (Fin 1) (Fin 1) ℝ)ᴴ ![0]
  have hy : y = 0 := by
    apply sqNorm_eq_zero
    refine le_antisymm ?_ (sqNorm_nonneg _)
    have := ext.lstsq_norm (0 : Matrix (Fin 1) (Fin 1) ℝ)ᴴ ![0] 0 (by simp)
    rw [sqNorm_zero] at this
    exact this
  obtain ⟨z, hz⟩ : ∃ z : Fin (2 - 1) → ℝ,
      lstsqEc ext (1 : Matrix (Fin 2) (Fin 2) ℝ) b c ![0] = .ok (q *ᵥ concatVec (n := 2) y z) := by
    simp only [lstsqEc, hln, and_self, dif_pos, Fin.cast_refl, id, OfNat.ofNat_ne_zero, if_false,
      one_ne_zero, hr0]
    rw [if_pos (by simp)]
    exact ⟨_, rfl⟩
  refine ⟨b, _, hz, by ext i; fin_cases i; simp [hc], ?_⟩
  rw [one_mulVec, one_mulVec, sub_self, sqNorm_zero]
  refine lt_of_le_of_ne (sqNorm_nonneg _) fun h0 => ?_
  have h1 := sqNorm_eq_zero h0.symm
  have h2 : q *ᵥ concatVec (n := 2) y z = q *ᵥ ![1, 0] := sub_eq_zero.1 h1
  have h3 := congrArg (fun v => qᴴ *ᵥ v) h2
  simp only [mulVec_mulVec] at h3
  rw [hq, unitary_left, one_mulVec, one_mulVec] at h3
  have h4 := congrFun h3 0
  rw [show (0 : Fin 2) = ⟨((0 : Fin 1) : ℕ), by norm_num⟩ from rfl, concat_top hln, hy] at h4
  simp at h4

/-- The contract used above can be met. -/
example : Nonempty (LinalgExt ℝ) := ⟨linalgExt ℝ⟩

/-! ## C16 -/

/-- C16, error branch: exactly input that is not tall raises. -/
theorem orth_compl_error_iff (ext : LinalgExt 𝕜) {n m : ℕ} (mat : Matrix (Fin n) (Fin m) 𝕜)
    (e : Err) : orthCompl ext mat = .error e ↔ e = .valueError ∧ n ≤ m := by
  unfold orthCompl
  split_ifs with h
  · constructor
    · intro he; cases he; exact ⟨rfl, h⟩
    · rintro ⟨rfl, _⟩; rfl
  · simp [h]

/-- C16: the rows are orthonormal and annihilate the matrix. -/
theorem orth_compl_orthonormal (ext : LinalgExt 𝕜) {n m : ℕ} {mat : Matrix (Fin n) (Fin m) 𝕜}
    {p : Matrix (Fin (n - m)) (Fin n) 𝕜} (h : orthCompl ext mat = .ok p) :
    p * pᴴ = 1 ∧ p * mat = 0 := by
  unfold orthCompl at h
  split_ifs at h with hnm
  have h := Except.ok.inj h
  subst h
  constructor
  · ext i j
    have h1 := Matrix.ext_iff.mpr (unitary_left ext mat) ⟨m + i, by omega⟩ ⟨m + j, by omega⟩
    simp only [mul_apply, conjTranspose_apply, Matrix.one_apply, Fin.mk.injEq] at h1
    simp only [mul_apply, conjTranspose_apply, map_apply, transpose_apply, of_apply, star_star,
      Matrix.one_apply]
    rw [h1]
    by_cases hij : i = j
    · simp [hij]
    · have : (i : ℕ) ≠ j := fun h' => hij (Fin.ext h')
      simp [hij, this]
  · ext i j
    have h1 : (ext.qr mat).1ᴴ * mat = (ext.qr mat).2 := by
      have := congrArg (fun M => (ext.qr mat).1ᴴ * M) (ext.qr_mul mat)
      rw [← this, ← Matrix.mul_assoc, unitary_left, Matrix.one_mul]
    have h2 := Matrix.ext_iff.mpr h1 ⟨m + i, by omega⟩ j
    rw [ext.qr_upper mat _ _ (by have := j.2; simp; omega)] at h2
    simp only [mul_apply, conjTranspose_apply] at h2
    simp only [mul_apply, map_apply, transpose_apply, of_apply, Matrix.zero_apply]
    exact h2

open scoped ComplexOrder in
/-- C16: if the columns of the matrix are linearly independent, every (row) vector that
annihilates it is a linear combination of the returned rows. -/
theorem orth_compl_spans_partial (ext : LinalgExt 𝕜) {n m : ℕ} {mat : Matrix (Fin n) (Fin m) 𝕜}
    {p : Matrix (Fin (n - m)) (Fin n) 𝕜} (h : orthCompl ext mat = .ok p)
    (hrank : mat.rank = m) (v : Fin n → 𝕜) (hv : v ᵥ* mat = 0) :
    ∃ u : Fin (n - m) → 𝕜, v = u ᵥ* p := by
  unfold orthCompl at h
  split_ifs at h with hnm
  have h := Except.ok.inj h
  subst h
  have hmn : m ≤ n := by omega
  have hdet : (topRows hmn (ext.qr mat).2).det ≠ 0 := by
    have hr : matᴴ.rank = m := by
      rw [rank_conjTranspose, hrank]
    have := det_ne_zero_of_rank ext hmn matᴴ hr
    rwa [conjTranspose_conjTranspose] at this
  -- coefficients in the basis `q`
  set q := (ext.qr mat).1 with hq
  set w := v ᵥ* q with hw
  have hvw : v = w ᵥ* qᴴ := by
    rw [hw, vecMul_vecMul, hq, unitary_right, vecMul_one]
  have h1 : w ᵥ* (ext.qr mat).2 = 0 := by
    rw [hw, vecMul_vecMul, hq, ext.qr_mul, hv]
  have h2 : (fun i : Fin m => w ⟨i, by omega⟩) ᵥ* topRows hmn (ext.qr mat).2 = 0 := by
    funext j
    have h3 := congrFun h1 j
    simp only [vecMul, dotProduct] at h3
    rw [sum_split hmn] at h3
    have h4 : ∑ i : Fin (n - m), w ⟨m + i, by omega⟩ * (ext.qr mat).2 ⟨m + i, by omega⟩ j = 0 :=
      Finset.sum_eq_zero fun i _ => by
        rw [ext.qr_upper mat _ _ (by have := j.2; simp; omega), mul_zero]
    rw [h4, add_zero] at h3
    exact h3
  have h5 : (fun i : Fin m => w ⟨i, by omega⟩) = 0 := by
    have h6 := congrArg (fun x => x ᵥ* (topRows hmn (ext.qr mat).2)⁻¹) h2
    simp only [vecMul_vecMul, zero_vecMul] at h6
    rwa [Matrix.mul_nonsing_inv _ (isUnit_iff_ne_zero.2 hdet), vecMul_one] at h6
  refine ⟨fun i => w ⟨m + i, by omega⟩, ?_⟩
  funext j
  rw [hvw]
  simp only [vecMul, dotProduct]
  rw [sum_split hmn]
  have h7 : ∑ i : Fin m, w ⟨i, by omega⟩ * qᴴ ⟨i, by omega⟩ j = 0 :=
    Finset.sum_eq_zero fun i _ => by
      have := congrFun h5 i
      simp only [Pi.zero_apply] at this
      rw [this, zero_mul]
  rw [h7, zero_add]
  rfl

/-- C16 (violation): without the rank condition the returned rows do not span the orthogonal
complement; e.g. for the zero column vector in two dimensions. -/
theorem orth_compl_not_span (ext : LinalgExt ℝ) :
    ∃ p, orthCompl ext (0 : Matrix (Fin 2) (Fin 1) ℝ) = .ok p ∧
      ∃ v : Fin 2 → ℝ, v ᵥ* (0 : Matrix (Fin 2) (Fin 1) ℝ) = 0 ∧ ∀ u : Fin (2 - 1) → ℝ, v ≠ u ᵥ* p := by
  have hok : ∃ p, orthCompl ext (0 : Matrix (Fin 2) (Fin 1) ℝ) = .ok p := by
    unfold orthCompl; simp
  obtain ⟨p, hp⟩ := hok
  refine ⟨p, hp, ?_⟩
  by_contra hcon
  push Not at hcon
  -- every vector would be a multiple of the single row of `p`
  obtain ⟨u0, h0⟩ := hcon ![1, 0] (by simp)
  obtain ⟨u1, h1⟩ := hcon ![0, 1] (by simp)
  have a00 := congrFun h0 0
  have a01 := congrFun h0 1
  have a10 := congrFun h1 0
  have a11 := congrFun h1 1
  simp [vecMul, dotProduct] at a00 a01 a10 a11
  rcases a01 with h | h
  · rw [h] at a00; simp at a00
  · rw [h] at a11; simp at a11

end Gftool.Props
