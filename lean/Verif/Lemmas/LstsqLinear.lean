import Verif.Lemmas.Linalg

/-!
# Least squares solutions are linear in the right-hand side
-/

namespace Gftool.Lemmas

open Gftool.Model Matrix WithLp

variable {𝕜 : Type*} [RCLike 𝕜]

/-- The minimal solution solves the projected system and is orthogonal to the null space. -/
lemma lstsq_char (ext : LinalgExt 𝕜) {m n : ℕ} (A : Matrix (Fin m) (Fin n) 𝕜) (b : Fin m → 𝕜) :
    Matrix.toEuclideanLin A (toLp 2 (ext.lstsq A b))
        = (LinearMap.range (Matrix.toEuclideanLin A)).starProjection (toLp 2 b) ∧
      (toLp 2 (ext.lstsq A b) : EuclideanSpace 𝕜 (Fin n)) ∈ (LinearMap.ker (Matrix.toEuclideanLin A))ᗮ := by
  let T := Matrix.toEuclideanLin A
  let bb : EuclideanSpace 𝕜 (Fin m) := toLp 2 b
  let U := LinearMap.range T
  let K := LinearMap.ker T
  obtain ⟨x0, hx0⟩ : ∃ x0, T x0 = U.starProjection bb :=
    LinearMap.mem_range.1 (Submodule.starProjection_apply_mem U bb)
  let x := x0 - K.starProjection x0
  have hx : T x = U.starProjection bb := by
    have : T (K.starProjection x0) = 0 := LinearMap.mem_ker.1 (Submodule.starProjection_apply_mem K x0)
    simp only [x, map_sub, this, sub_zero, hx0]
  have hxK : x ∈ Kᗮ := Submodule.sub_starProjection_mem_orthogonal (K := K) x0
  have hres : ∀ y : EuclideanSpace 𝕜 (Fin n),
      ‖T y - bb‖ ^ 2 = ‖T (y - x)‖ ^ 2 + ‖T x - bb‖ ^ 2 := by
    intro y
    have h1 : T y - bb = T (y - x) + (T x - bb) := by rw [map_sub]; abel
    have h2 : inner 𝕜 (T (y - x)) (T x - bb) = 0 := by
      rw [hx]
      have h3 : bb - U.starProjection bb ∈ Uᗮ := Submodule.sub_starProjection_mem_orthogonal bb
      have h4 := (Submodule.mem_orthogonal U _).1 h3 (T (y - x)) (LinearMap.mem_range_self T _)
      rw [← neg_sub bb, inner_neg_right, h4, neg_zero]
    rw [h1, pow_two, pow_two, pow_two, norm_add_sq_eq_norm_sq_add_norm_sq_of_inner_eq_zero _ _ h2]
  have hconv : ∀ y : Fin n → 𝕜, sqNorm (A *ᵥ y - b) = ‖T (toLp 2 y) - bb‖ ^ 2 := by
    intro y; rw [sqNorm_eq]; rfl
  have hxx : (toLp 2 (ofLp x) : EuclideanSpace 𝕜 (Fin n)) = x := rfl
  have hmin := ext.lstsq_min A b (ofLp x)
  rw [hconv, hconv, hxx, hres (toLp 2 (ext.lstsq A b))] at hmin
  have h0 : T (toLp 2 (ext.lstsq A b) - x) = 0 := by
    have : ‖T (toLp 2 (ext.lstsq A b) - x)‖ ^ 2 = 0 :=
      le_antisymm (by linarith) (sq_nonneg _)
    simpa using this
  have hn := ext.lstsq_norm A b (ofLp x) (by
    rw [hconv, hconv, hxx, hres (toLp 2 (ext.lstsq A b)), h0]; simp)
  have hk : (toLp 2 (ext.lstsq A b) - x) ∈ K := LinearMap.mem_ker.2 h0
  have h5 : inner 𝕜 (toLp 2 (ext.lstsq A b) - x) x = 0 := (Submodule.mem_orthogonal K _).1 hxK _ hk
  have hy : (toLp 2 (ext.lstsq A b) : EuclideanSpace 𝕜 (Fin n)) = x := by
    rw [sqNorm_eq, sqNorm_eq, hxx] at hn
    have h6 : (toLp 2 (ext.lstsq A b) : EuclideanSpace 𝕜 (Fin n)) = (toLp 2 (ext.lstsq A b) - x) + x := by abel
    rw [h6, pow_two, pow_two, norm_add_sq_eq_norm_sq_add_norm_sq_of_inner_eq_zero _ _ h5] at hn
    have h7 : ‖(toLp 2 (ext.lstsq A b) : EuclideanSpace 𝕜 (Fin n)) - x‖ = 0 := by
      have := norm_nonneg ((toLp 2 (ext.lstsq A b) : EuclideanSpace 𝕜 (Fin n)) - x)
      nlinarith
    exact sub_eq_zero.1 (norm_eq_zero.1 h7)
  rw [hy]
  exact ⟨hx, hxK⟩

lemma lstsq_linear (ext : LinalgExt 𝕜) {m n : ℕ} (A : Matrix (Fin m) (Fin n) 𝕜) (a b : 𝕜) (u v : Fin m → 𝕜) :
    ext.lstsq A (a • u + b • v) = a • ext.lstsq A u + b • ext.lstsq A v := by
  obtain ⟨h1, k1⟩ := lstsq_char ext A u
  obtain ⟨h2, k2⟩ := lstsq_char ext A v
  obtain ⟨h3, k3⟩ := lstsq_char ext A (a • u + b • v)
  have e : ∀ {k : ℕ} (x y : Fin k → 𝕜), (toLp 2 (a • x + b • y) : EuclideanSpace 𝕜 (Fin k))
      = a • toLp 2 x + b • toLp 2 y := fun x y => rfl
  set T := Matrix.toEuclideanLin A
  have hT : T (toLp 2 (ext.lstsq A (a • u + b • v)) - toLp 2 (a • ext.lstsq A u + b • ext.lstsq A v)) = 0 := by
    rw [map_sub, h3, e, e]
    simp only [map_add, map_smul, h1, h2, sub_self]
  have hK : toLp 2 (ext.lstsq A (a • u + b • v)) - toLp 2 (a • ext.lstsq A u + b • ext.lstsq A v) ∈ (LinearMap.ker T)ᗮ := by
    rw [e]
    exact Submodule.sub_mem _ k3 (Submodule.add_mem _ (Submodule.smul_mem _ _ k1) (Submodule.smul_mem _ _ k2))
  have h0 : toLp 2 (ext.lstsq A (a • u + b • v)) - toLp 2 (a • ext.lstsq A u + b • ext.lstsq A v) = 0 := by
    have := (Submodule.mem_orthogonal _ _).1 hK _ (LinearMap.mem_ker.2 hT)
    exact inner_self_eq_zero.1 this
  exact WithLp.toLp_injective 2 (sub_eq_zero.1 h0)

lemma concatVec_linear {n l : ℕ} (a b : 𝕜) (y y' : Fin l → 𝕜) (z z' : Fin (n - l) → 𝕜) :
    concatVec (a • y + b • y') (a • z + b • z') = a • concatVec y z + b • concatVec y' z' := by
  funext i
  simp only [concatVec, Pi.add_apply, Pi.smul_apply]
  split_ifs <;> rfl

lemma sqNorm_midpoint {n : ℕ} (u v : Fin n → 𝕜) :
    sqNorm ((1 / 2 : 𝕜) • (u + v)) = (sqNorm u + sqNorm v) / 2 - sqNorm (u - v) / 4 := by
  have h := parallelogram_law_with_norm 𝕜 (toLp 2 u : EuclideanSpace 𝕜 (Fin n)) (toLp 2 v)
  have e1 : (toLp 2 ((1 / 2 : 𝕜) • (u + v)) : EuclideanSpace 𝕜 (Fin n)) = (1 / 2 : 𝕜) • (toLp 2 u + toLp 2 v) := rfl
  have e2 : (toLp 2 (u - v) : EuclideanSpace 𝕜 (Fin n)) = toLp 2 u - toLp 2 v := rfl
  simp only [sqNorm_eq, e1, e2, norm_smul]
  have e3 : ‖(1 / 2 : 𝕜)‖ = 1 / 2 := by simp
  rw [e3]
  nlinarith

lemma sqNorm_eq_zero' {n : ℕ} {u : Fin n → 𝕜} (h : sqNorm u ≤ 0) : u = 0 := by
  rw [sqNorm_eq] at h
  have h0 : ‖(toLp 2 u : EuclideanSpace 𝕜 (Fin n))‖ = 0 := by
    have := norm_nonneg (toLp 2 u : EuclideanSpace 𝕜 (Fin n))
    nlinarith
  exact WithLp.toLp_injective 2 (norm_eq_zero.1 h0)

/-- The minimal least squares solution is unique. -/
lemma lstsq_unique (ext : LinalgExt 𝕜) {m n : ℕ} (A : Matrix (Fin m) (Fin n) 𝕜) (b : Fin m → 𝕜) (y : Fin n → 𝕜)
    (h1 : ∀ x, sqNorm (A *ᵥ y - b) ≤ sqNorm (A *ᵥ x - b))
    (h2 : ∀ x, sqNorm (A *ᵥ x - b) = sqNorm (A *ᵥ y - b) → sqNorm y ≤ sqNorm x) : y = ext.lstsq A b := by
  set l := ext.lstsq A b with hl
  have r1 : sqNorm (A *ᵥ y - b) = sqNorm (A *ᵥ l - b) := le_antisymm (h1 _) (ext.lstsq_min A b y)
  have hmid : A *ᵥ ((1 / 2 : 𝕜) • (y + l)) - b = (1 / 2 : 𝕜) • ((A *ᵥ y - b) + (A *ᵥ l - b)) := by
    rw [mulVec_smul, mulVec_add, smul_add, smul_add, smul_sub, smul_sub]
    have : b = (1 / 2 : 𝕜) • b + (1 / 2 : 𝕜) • b := by rw [← add_smul]; norm_num
    nth_rw 1 [this]
    abel
  have hA : A *ᵥ y - b = A *ᵥ l - b := by
    have h3 := h1 ((1 / 2 : 𝕜) • (y + l))
    rw [hmid, sqNorm_midpoint, r1] at h3
    exact sub_eq_zero.1 (sqNorm_eq_zero' (by linarith))
  have r2 : sqNorm y = sqNorm l :=
    le_antisymm (h2 l r1.symm) (ext.lstsq_norm A b y (by rw [r1]))
  have h4 := h2 ((1 / 2 : 𝕜) • (y + l)) (by
    rw [hmid, hA, ← two_smul 𝕜, smul_smul]; norm_num)
  rw [sqNorm_midpoint, r2] at h4
  exact sub_eq_zero.1 (sqNorm_eq_zero' (by linarith))

/-- Norm preserving transformations of the problem transform the solution. -/
lemma lstsq_map (ext : LinalgExt 𝕜) {m n m' n' : ℕ} (A : Matrix (Fin m) (Fin n) 𝕜) (b : Fin m → 𝕜)
    (A' : Matrix (Fin m') (Fin n') 𝕜) (b' : Fin m' → 𝕜) (φ : (Fin n → 𝕜) → (Fin n' → 𝕜)) (hφ : Function.Surjective φ)
    {r : ℝ} (hr : 0 < r) (h1 : ∀ y, sqNorm (A' *ᵥ φ y - b') = r * sqNorm (A *ᵥ y - b))
    (h2 : ∀ y, sqNorm (φ y) = sqNorm y) : ext.lstsq A' b' = φ (ext.lstsq A b) := by
  refine (lstsq_unique ext A' b' _ (fun x => ?_) fun x hx => ?_).symm
  · obtain ⟨y, rfl⟩ := hφ x
    rw [h1, h1]
    exact mul_le_mul_of_nonneg_left (ext.lstsq_min A b y) hr.le
  · obtain ⟨y, rfl⟩ := hφ x
    rw [h1, h1] at hx
    rw [h2, h2]
    exact ext.lstsq_norm A b y (mul_left_cancel₀ hr.ne' hx)

end Gftool.Lemmas
