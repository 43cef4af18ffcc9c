import Verif.Props.Linalg
import Verif.Model.Pole

/-!
# `lstsq_ec` with contradictory constraints
-/

namespace Gftool.Lemmas

open Gftool Model Matrix

variable {𝕜 : Type*} [RCLike 𝕜]

private lemma sum_split {n l : ℕ} (h : l ≤ n) {M : Type*} [AddCommMonoid M] (f : Fin n → M) :
    ∑ i, f i = ∑ i : Fin l, f ⟨i, by omega⟩ + ∑ i : Fin (n - l), f ⟨l + i, by omega⟩ := by
  obtain ⟨k, rfl⟩ := Nat.exists_eq_add_of_le h
  rw [Fin.sum_univ_add]
  congr 1
  have hk : l + k - l = k := by omega
  refine (Fintype.sum_equiv (finCongr hk) _ _ fun i => ?_).symm
  congr 1

private lemma upper_mulVec {n l : ℕ} (h : l ≤ n) (r : Matrix (Fin n) (Fin l) 𝕜)
    (hr : ∀ (i : Fin n) (j : Fin l), (j : ℕ) < i → r i j = 0) (w : Fin n → 𝕜) :
    rᴴ *ᵥ w = (topRows h r)ᴴ *ᵥ fun i => w ⟨i, by omega⟩ := by
  funext j
  simp only [mulVec, dotProduct, conjTranspose_apply]
  rw [sum_split h]
  have : ∑ i : Fin (n - l), star (r ⟨l + i, by omega⟩ j) * w ⟨l + i, by omega⟩ = 0 :=
    Finset.sum_eq_zero fun i _ => by
      rw [hr _ _ (by have := j.2; simp; omega)]; simp
  rw [this, add_zero]
  rfl

private lemma unitary_left (ext : LinalgExt 𝕜) {n l : ℕ} (A : Matrix (Fin n) (Fin l) 𝕜) :
    (ext.qr A).1ᴴ * (ext.qr A).1 = 1 := by
  have := Matrix.mem_unitaryGroup_iff'.1 (ext.qr_unitary A)
  rwa [star_eq_conjTranspose] at this

private lemma unitary_right (ext : LinalgExt 𝕜) {n l : ℕ} (A : Matrix (Fin n) (Fin l) 𝕜) :
    (ext.qr A).1 * (ext.qr A).1ᴴ = 1 := by
  have := Matrix.mem_unitaryGroup_iff.1 (ext.qr_unitary A)
  rwa [star_eq_conjTranspose] at this

private lemma constraint_rot (ext : LinalgExt 𝕜) {n l : ℕ} (h : l ≤ n)
    (c : Matrix (Fin l) (Fin n) 𝕜) (w : Fin n → 𝕜) :
    c *ᵥ ((ext.qr cᴴ).1 *ᵥ w)
      = (topRows h (ext.qr cᴴ).2)ᴴ *ᵥ fun i => w ⟨i, by omega⟩ := by
  have h0 : c = (ext.qr cᴴ).2ᴴ * (ext.qr cᴴ).1ᴴ := by
    rw [← conjTranspose_mul, ext.qr_mul, conjTranspose_conjTranspose]
  have h1 : c * (ext.qr cᴴ).1 = (ext.qr cᴴ).2ᴴ := by
    have h2 := congrArg (fun M => M * (ext.qr cᴴ).1) h0
    simp only [Matrix.mul_assoc, unitary_left, Matrix.mul_one] at h2
    exact h2
  rw [mulVec_mulVec, h1]
  exact upper_mulVec h _ (ext.qr_upper _) w

/-- For all constraint matrices with not more rows than columns, the result of `lstsq_ec` meets the constraints as well as
possible. -/
lemma lstsqEc_closest (ext : LinalgExt 𝕜) {m n l : ℕ} (a : Matrix (Fin m) (Fin n) 𝕜)
    (b : Fin m → 𝕜) (c : Matrix (Fin l) (Fin n) 𝕜) (d : Fin l → 𝕜) (hn : n ≠ 0) (hln : l ≤ n) :
    ∃ x, lstsqEc ext a b c d = .ok x ∧ ∀ x', sqNorm (c *ᵥ x - d) ≤ sqNorm (c *ᵥ x' - d) := by
  by_cases hl : l = 0
  · subst hl
    exact ⟨ext.lstsq a b, by simp [lstsqEc, hn], fun x' => by simp [sqNorm]⟩
  · simp only [lstsqEc, if_neg hn, if_neg hl, hln, and_self, dif_pos, Fin.cast_refl, id]
    refine ⟨_, rfl, fun x' => ?_⟩
    rw [constraint_rot ext hln c]
    have hx' : c *ᵥ x' = (topRows hln (ext.qr cᴴ).2)ᴴ *ᵥ fun i => ((ext.qr cᴴ).1ᴴ *ᵥ x') ⟨i, by omega⟩ := by
      rw [← constraint_rot ext hln c, mulVec_mulVec _ (ext.qr cᴴ).1, unitary_right, one_mulVec]
    rw [hx']
    have htop : ∀ (y : Fin l → 𝕜) (z : Fin (n - l) → 𝕜), (fun i : Fin l => concatVec y z (⟨i, by omega⟩ : Fin n)) = y := by
      intro y z
      funext i
      simp [concatVec]
    rw [htop]
    split_ifs with hdet
    · exact ext.lstsq_min _ _ _
    · have hdetH : IsUnit ((topRows hln (ext.qr cᴴ).2)ᴴ).det := by
        rw [det_conjTranspose, isUnit_iff_ne_zero]
        simpa using hdet
      rw [mulVec_mulVec, Matrix.mul_nonsing_inv _ hdetH, one_mulVec, sub_self]
      have : sqNorm (0 : Fin l → 𝕜) = 0 := by simp [sqNorm]
      rw [this]
      exact Finset.sum_nonneg fun i _ => by positivity

/-- If all poles vanish, only the constraint for the first moment is met. -/
lemma lstsqEc_zero_poles (ext : LinalgExt ℝ) {m n l : ℕ} (a : Matrix (Fin m) (Fin n) ℝ) (b : Fin m → ℝ)
    (d : Fin l → ℝ) (hl : 0 < l) (hln : l ≤ n) :
    ∃ x, lstsqEc ext a b (vanderT ℝ l fun _ : Fin n => (0 : ℝ)) d = .ok x ∧ ∑ j, x j = d ⟨0, hl⟩ := by
  obtain ⟨x, hx, hmin⟩ := lstsqEc_closest ext a b (vanderT ℝ l fun _ : Fin n => (0 : ℝ)) d (by omega) hln
  refine ⟨x, hx, ?_⟩
  obtain ⟨l, rfl⟩ : ∃ l', l = l' + 1 := ⟨l - 1, by omega⟩
  have hn : (n : ℝ) ≠ 0 := by
    have : n ≠ 0 := by omega
    exact_mod_cast this
  have hs : ∀ y : Fin n → ℝ, sqNorm (vanderT ℝ (l + 1) (fun _ : Fin n => (0 : ℝ)) *ᵥ y - d) =
      (∑ j, y j - d 0) ^ 2 + ∑ i : Fin l, d i.succ ^ 2 := by
    intro y
    unfold sqNorm
    rw [Fin.sum_univ_succ]
    congr 1
    · simp [vanderT, mulVec, dotProduct]
    · refine Finset.sum_congr rfl fun i _ => ?_
      simp [vanderT, mulVec, dotProduct]
  have h := hmin fun _ => d 0 / n
  rw [hs, hs] at h
  have h0 : ∑ _j : Fin n, d 0 / n = d 0 := by
    rw [Finset.sum_const, Finset.card_univ, Fintype.card_fin, nsmul_eq_mul]
    field_simp
  rw [h0] at h
  have h1 : (∑ j, x j - d 0) ^ 2 ≤ 0 := by nlinarith
  have h2 : ∑ j, x j - d 0 = 0 := by
    have := sq_nonneg (∑ j, x j - d 0)
    exact pow_eq_zero_iff (two_ne_zero) |>.1 (le_antisymm h1 this)
  exact sub_eq_zero.1 h2

end Gftool.Lemmas
