import Verif.Model.Linalg
import Mathlib.Analysis.InnerProductSpace.GramSchmidtOrtho
import Mathlib.Analysis.InnerProductSpace.Projection.Basic
import Mathlib.Analysis.InnerProductSpace.PiL2
import Mathlib.Tactic

/-!
# The contract `LinalgExt` of the external linear algebra routines can be met
-/

namespace Gftool.Lemmas

open Gftool.Model Matrix WithLp

variable {𝕜 : Type*} [RCLike 𝕜]

lemma sqNorm_eq {n : ℕ} (v : Fin n → 𝕜) : sqNorm v = ‖(toLp 2 v : EuclideanSpace 𝕜 (Fin n))‖ ^ 2 := by
  rw [EuclideanSpace.norm_sq_eq]; rfl

lemma exists_qr {n l : ℕ} (A : Matrix (Fin n) (Fin l) 𝕜) :
    ∃ p : Matrix (Fin n) (Fin n) 𝕜 × Matrix (Fin n) (Fin l) 𝕜,
      p.1 * p.2 = A ∧ p.1 ∈ Matrix.unitaryGroup (Fin n) 𝕜 ∧
      ∀ (i : Fin n) (j : Fin l), (j : ℕ) < i → p.2 i j = 0 := by
  let f : Fin n → EuclideanSpace 𝕜 (Fin n) := fun j =>
    toLp 2 fun i => if h : (j : ℕ) < l then A i ⟨j, h⟩ else 0
  have hcard : Module.finrank 𝕜 (EuclideanSpace 𝕜 (Fin n)) = Fintype.card (Fin n) := by simp
  let B := InnerProductSpace.gramSchmidtOrthonormalBasis hcard f
  let Q : Matrix (Fin n) (Fin n) 𝕜 := Matrix.of fun i k => B k i
  have hQ : Q ∈ Matrix.unitaryGroup (Fin n) 𝕜 := by
    rw [Matrix.mem_unitaryGroup_iff']
    ext i j
    have h := (orthonormal_iff_ite.1 B.orthonormal) i j
    rw [Matrix.one_apply, ← h, PiLp.inner_apply]
    simp only [Matrix.mul_apply, Matrix.star_apply, Q, Matrix.of_apply, RCLike.inner_apply]
    exact Finset.sum_congr rfl fun k _ => by rw [mul_comm]; rfl
  refine ⟨(Q, Qᴴ * A), ?_, hQ, ?_⟩
  · rw [← Matrix.mul_assoc]
    have := (Matrix.mem_unitaryGroup_iff).1 hQ
    rw [star_eq_conjTranspose] at this
    rw [this, Matrix.one_mul]
  · intro i j hij
    have hjn : (j : ℕ) < n := by omega
    have h := InnerProductSpace.gramSchmidtOrthonormalBasis_inv_triangular (𝕜 := 𝕜) hcard f
      (i := ⟨j, hjn⟩) (j := i) (by simpa [Fin.lt_def] using hij)
    rw [PiLp.inner_apply] at h
    simp only [Matrix.mul_apply, Matrix.conjTranspose_apply]
    rw [← h]
    refine Finset.sum_congr rfl fun k _ => ?_
    simp only [RCLike.inner_apply, f, Q, Matrix.of_apply, j.2, dif_pos]
    rw [mul_comm]; rfl

lemma exists_lstsq {m n : ℕ} (A : Matrix (Fin m) (Fin n) 𝕜) (b : Fin m → 𝕜) :
    ∃ x : Fin n → 𝕜, (∀ y, sqNorm (A *ᵥ x - b) ≤ sqNorm (A *ᵥ y - b)) ∧
      ∀ y, sqNorm (A *ᵥ y - b) = sqNorm (A *ᵥ x - b) → sqNorm x ≤ sqNorm y := by
  let T := Matrix.toEuclideanLin A
  let bb : EuclideanSpace 𝕜 (Fin m) := toLp 2 b
  let U := LinearMap.range T
  let K := LinearMap.ker T
  obtain ⟨x0, hx0⟩ : ∃ x0, T x0 = U.starProjection bb :=
    LinearMap.mem_range.1 (Submodule.starProjection_apply_mem U bb)
  let x := x0 - K.starProjection x0
  have hx : T x = U.starProjection bb := by
    have : T (K.starProjection x0) = 0 := LinearMap.mem_ker.1 (Submodule.starProjection_apply_mem K x0)
    simp only [x, map_sub, this, sub_zero, hx0]
  have hxK : x ∈ Kᗮ := Submodule.sub_starProjection_mem_orthogonal (K := K) x0
  have hres : ∀ y : EuclideanSpace 𝕜 (Fin n),
      ‖T y - bb‖ ^ 2 = ‖T (y - x)‖ ^ 2 + ‖T x - bb‖ ^ 2 := by
    intro y
    have h1 : T y - bb = T (y - x) + (T x - bb) := by rw [map_sub]; abel
    have h2 : inner 𝕜 (T (y - x)) (T x - bb) = 0 := by
      rw [hx]
      have h3 : bb - U.starProjection bb ∈ Uᗮ := Submodule.sub_starProjection_mem_orthogonal bb
      have h4 := (Submodule.mem_orthogonal U _).1 h3 (T (y - x)) (LinearMap.mem_range_self T _)
      rw [← neg_sub bb, inner_neg_right, h4, neg_zero]
    rw [h1, pow_two, pow_two, pow_two, norm_add_sq_eq_norm_sq_add_norm_sq_of_inner_eq_zero _ _ h2]
  have hconv : ∀ y : Fin n → 𝕜, sqNorm (A *ᵥ y - b) = ‖T (toLp 2 y) - bb‖ ^ 2 := by
    intro y; rw [sqNorm_eq]; rfl
  have hxx : (toLp 2 (ofLp x) : EuclideanSpace 𝕜 (Fin n)) = x := rfl
  refine ⟨ofLp x, fun y => ?_, fun y hy => ?_⟩
  · rw [hconv, hconv, hxx, hres (toLp 2 y)]
    nlinarith [sq_nonneg ‖T (toLp 2 y - x)‖]
  · rw [hconv, hconv, hxx, hres (toLp 2 y)] at hy
    have h0 : T (toLp 2 y - x) = 0 := by
      have : ‖T (toLp 2 y - x)‖ ^ 2 = 0 := by linarith
      simpa using this
    have hk : (toLp 2 y - x) ∈ K := LinearMap.mem_ker.2 h0
    have h5 : inner 𝕜 (toLp 2 y - x) x = 0 := (Submodule.mem_orthogonal K _).1 hxK _ hk
    rw [sqNorm_eq, sqNorm_eq, hxx]
    have h6 : (toLp 2 y : EuclideanSpace 𝕜 (Fin n)) = (toLp 2 y - x) + x := by abel
    rw [h6, pow_two, pow_two, norm_add_sq_eq_norm_sq_add_norm_sq_of_inner_eq_zero _ _ h5]
    nlinarith [mul_self_nonneg ‖(toLp 2 y : EuclideanSpace 𝕜 (Fin n)) - x‖]

/-- The contract of the external routines can be met. -/
noncomputable def linalgExt (𝕜 : Type*) [RCLike 𝕜] : LinalgExt 𝕜 where
  qr A := (exists_qr A).choose
  qr_mul A := (exists_qr A).choose_spec.1
  qr_unitary A := (exists_qr A).choose_spec.2.1
  qr_upper A := (exists_qr A).choose_spec.2.2
  lstsq A b := (exists_lstsq A b).choose
  lstsq_min A b := (exists_lstsq A b).choose_spec.1
  lstsq_norm A b := (exists_lstsq A b).choose_spec.2

lemma sqNorm_nonneg {n : ℕ} (v : Fin n → 𝕜) : 0 ≤ sqNorm v :=
  Finset.sum_nonneg fun _ _ => sq_nonneg _

lemma sqNorm_eq_zero {n : ℕ} {v : Fin n → 𝕜} (h : sqNorm v = 0) : v = 0 := by
  funext i
  have := (Finset.sum_eq_zero_iff_of_nonneg (fun i _ => sq_nonneg ‖v i‖)).1 h i (Finset.mem_univ i)
  simpa using this

lemma sqNorm_zero {n : ℕ} : sqNorm (0 : Fin n → 𝕜) = 0 := by simp [sqNorm]

/-- A solvable system is solved by `lstsq`. -/
lemma lstsq_solves (ext : LinalgExt 𝕜) {m n : ℕ} (A : Matrix (Fin m) (Fin n) 𝕜) (b : Fin m → 𝕜)
    (h : ∃ x, A *ᵥ x = b) : A *ᵥ ext.lstsq A b = b := by
  obtain ⟨x, hx⟩ := h
  have h1 := ext.lstsq_min A b x
  rw [hx, sub_self, sqNorm_zero] at h1
  exact sub_eq_zero.1 (sqNorm_eq_zero (le_antisymm h1 (sqNorm_nonneg _)))

end Gftool.Lemmas
