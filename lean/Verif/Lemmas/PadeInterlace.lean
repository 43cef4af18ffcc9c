import Verif.Lemmas.PadeFreqSort
import Mathlib.LinearAlgebra.Dimension.Constructions

/-! # Interlacing of the eigenvalues for different numbers of Padé frequencies -/

namespace Gftool.Lemmas

open Gftool Model Matrix Complex

namespace PadeEig

variable {N : ℕ} (E : PadeEig N)

theorem padeAC_herm (N : ℕ) : (padeAC N)ᴴ = padeAC N := by
  ext i j
  simp only [conjTranspose_apply, padeAC, padeA, map_apply, diagonal_apply]
  by_cases h : i = j
  · subst h; simp
  · rw [if_neg h, if_neg (Ne.symm h)]; simp

theorem padeBC_herm (N : ℕ) : (padeBC N)ᴴ = padeBC N := by
  ext i j
  simp only [conjTranspose_apply, padeBC, padeB, map_apply, of_apply]
  rw [Complex.star_def, Complex.conj_ofReal]
  simp only [or_comm]

/-- (Negative) norms of the eigenvectors. -/
noncomputable def nrm (k : Fin N) : ℝ := ∑ i : Fin N, (2 * (i : ℝ) + 1) * ‖E.V i k‖ ^ 2

theorem nrm_pos (k : Fin N) : 0 < E.nrm k := by
  obtain ⟨i, hi⟩ := Function.ne_iff.1 (E.col_ne_zero k)
  refine Finset.sum_pos' (fun j _ => by positivity) ⟨i, Finset.mem_univ _, ?_⟩
  have : 0 < ‖E.V i k‖ := norm_pos_iff.2 hi
  positivity

/-- Both matrices are diagonal in the basis of the eigenvectors. -/
theorem diag_form (x : ℝ) : (E.V)ᴴ * (padeAC N - (x : ℂ) • padeBC N) * E.V
    = diagonal fun k => ((E.nrm k * (x / (E.eig k).re - 1) : ℝ) : ℂ) := by
  have hreal : ∀ k, E.eig k = ((E.eig k).re : ℂ) := fun k => Complex.ext rfl (by simp [E.im_eq_zero])
  set G := (E.V)ᴴ * padeBC N * E.V with hG
  have hGh : Gᴴ = G := by
    rw [hG, conjTranspose_mul, conjTranspose_mul, conjTranspose_conjTranspose, padeBC_herm, mul_assoc]
  have hA : (E.V)ᴴ * padeAC N * E.V = G * diagonal E.eig := by
    rw [mul_assoc, E.hAV, hG]; simp only [mul_assoc]
  have hAh : (G * diagonal E.eig)ᴴ = G * diagonal E.eig := by
    rw [← hA, conjTranspose_mul, conjTranspose_mul, conjTranspose_conjTranspose, padeAC_herm, mul_assoc]
  have hoff : ∀ i j, i ≠ j → G i j = 0 := by
    intro i j hij
    have h1 := congrFun (congrFun hAh i) j
    rw [conjTranspose_mul, hGh, diagonal_conjTranspose, diagonal_mul, mul_diagonal, Pi.star_apply, Complex.star_def,
      hreal i, Complex.conj_ofReal, ← hreal i] at h1
    have h2 : G i j * (E.eig j - E.eig i) = 0 := by linear_combination -h1
    exact (mul_eq_zero.1 h2).resolve_right (sub_ne_zero.2 fun h => hij (E.eig_injective h).symm)
  have hdiag : ∀ k, G k k * E.eig k = -((E.nrm k : ℝ) : ℂ) := by
    intro k
    have h1 := congrFun (congrFun hA k) k
    rw [mul_diagonal, mul_assoc, mul_apply] at h1
    rw [← h1, nrm]
    push_cast
    rw [← Finset.sum_neg_distrib]
    refine Finset.sum_congr rfl fun i _ => ?_
    have h2 : (padeAC N * E.V) i k = -(2 * (i : ℂ) + 1) * E.V i k := padeAC_mulVec (fun j => E.V j k) i
    rw [h2, conjTranspose_apply, Complex.star_def, ← Complex.conj_mul']
    ring
  ext i j
  rw [mul_sub, sub_mul, hA, Matrix.mul_smul, Matrix.smul_mul, ← hG, Matrix.sub_apply, mul_diagonal, Matrix.smul_apply,
    smul_eq_mul]
  by_cases hij : i = j
  · subst hij
    rw [diagonal_apply_eq]
    have hne := E.ne_zero i
    have h3 : G i i = -((E.nrm i : ℝ) : ℂ) / E.eig i := by rw [← hdiag, mul_div_cancel_right₀ _ hne]
    rw [h3]
    push_cast
    rw [← hreal i]
    field_simp
    ring
  · rw [hoff i j hij, diagonal_apply_ne _ hij]
    ring

/-- The quadratic form in terms of the coefficients with respect to the eigenvectors. -/
theorem form_eq (x : ℝ) (c : Fin N → ℂ) :
    star (E.V *ᵥ c) ⬝ᵥ ((padeAC N - (x : ℂ) • padeBC N) *ᵥ (E.V *ᵥ c))
      = ((∑ k, E.nrm k * (x / (E.eig k).re - 1) * ‖c k‖ ^ 2 : ℝ) : ℂ) := by
  rw [star_mulVec, ← dotProduct_mulVec, mulVec_mulVec, mulVec_mulVec, E.diag_form]
  simp only [dotProduct, mulVec_diagonal, Pi.star_apply, Complex.star_def]
  push_cast
  refine Finset.sum_congr rfl fun k _ => ?_
  rw [← Complex.conj_mul']
  ring

end PadeEig

/-- Embedding of the first components. -/
noncomputable def padeEmb (N M : ℕ) (v : Fin N → ℂ) (i : Fin M) : ℂ := ext0 v i

theorem padeEmb_form {N M : ℕ} (h : N ≤ M) (x : ℝ) (v : Fin N → ℂ) :
    star (padeEmb N M v) ⬝ᵥ ((padeAC M - (x : ℂ) • padeBC M) *ᵥ padeEmb N M v)
      = star v ⬝ᵥ ((padeAC N - (x : ℂ) • padeBC N) *ᵥ v) := by
  have hM : ∀ i : Fin M, ((padeAC M - (x : ℂ) • padeBC M) *ᵥ padeEmb N M v) i
      = -(2 * ((i : ℕ) : ℂ) + 1) * ext0 v i
        - x * (1 / 2 * ((if (i : ℕ) = 0 then 0 else ext0 v (i - 1)) + ext0 v (i + 1))) := by
    intro i
    rw [sub_mulVec, smul_mulVec, Pi.sub_apply, padeAC_mulVec, Pi.smul_apply, smul_eq_mul,
      ← padeBC_mulVec (ext0 v) (fun n hn => ext0_ge v n (h.trans hn)) i]
    rfl
  have hN : ∀ i : Fin N, ((padeAC N - (x : ℂ) • padeBC N) *ᵥ v) i
      = -(2 * ((i : ℕ) : ℂ) + 1) * ext0 v i
        - x * (1 / 2 * ((if (i : ℕ) = 0 then 0 else ext0 v (i - 1)) + ext0 v (i + 1))) := by
    intro i
    rw [sub_mulVec, smul_mulVec, Pi.sub_apply, padeAC_mulVec, Pi.smul_apply, smul_eq_mul,
      ← padeBC_mulVec (ext0 v) (ext0_ge v) i, ext0_apply]
    simp [ext0]
  set f : ℕ → ℂ := fun i => star (ext0 v i) * (-(2 * (i : ℂ) + 1) * ext0 v i
        - x * (1 / 2 * ((if i = 0 then 0 else ext0 v (i - 1)) + ext0 v (i + 1)))) with hf
  have h1 : star (padeEmb N M v) ⬝ᵥ ((padeAC M - (x : ℂ) • padeBC M) *ᵥ padeEmb N M v) = ∑ i : Fin M, f i := by
    refine Finset.sum_congr rfl fun i _ => ?_
    rw [hM, Pi.star_apply]
    rfl
  have h2 : star v ⬝ᵥ ((padeAC N - (x : ℂ) • padeBC N) *ᵥ v) = ∑ i : Fin N, f i := by
    refine Finset.sum_congr rfl fun i _ => ?_
    rw [hN, Pi.star_apply, hf]
    simp [ext0]
  rw [h1, h2, Fin.sum_univ_eq_sum_range f, Fin.sum_univ_eq_sum_range f]
  refine (Finset.sum_subset (Finset.range_subset_range.2 h) fun i _ hi => ?_).symm
  have : ext0 v i = 0 := ext0_ge v i (by simpa using hi)
  simp [hf, this]

/-- An eigenvector whose last component vanishes is zero. -/
theorem padeEmb_eig {N M : ℕ} (h : N < M) {x : ℝ} (hx : x ≠ 0) {v : Fin N → ℂ}
    (hv : (padeAC M - (x : ℂ) • padeBC M) *ᵥ padeEmb N M v = 0) : v = 0 := by
  have hrec : ∀ i : ℕ, i + 1 < M → ext0 v (i + 1) = 0 → ext0 v (i + 2) = 0 → ext0 v i = 0 := by
    intro i hi h1 h2
    have h3 := congrFun hv ⟨i + 1, hi⟩
    rw [sub_mulVec, smul_mulVec, Pi.sub_apply, padeAC_mulVec, Pi.smul_apply, smul_eq_mul,
      show padeEmb N M v = fun k : Fin M => ext0 v k from rfl,
      padeBC_mulVec (ext0 v) (fun n hn => ext0_ge v n (h.le.trans hn))] at h3
    simp only [h1, h2, Nat.add_sub_cancel, mul_zero, add_zero, zero_sub, Pi.zero_apply, Nat.add_eq_zero_iff, one_ne_zero,
      and_false, if_false] at h3
    have hx' : (x : ℂ) ≠ 0 := by exact_mod_cast hx
    simpa [hx'] using h3
  have hall : ∀ k i : ℕ, N ≤ i + k → ext0 v i = 0 := by
    intro k
    induction k using Nat.strong_induction_on with
    | _ k ih =>
      intro i hik
      by_cases hiN : N ≤ i
      · exact ext0_ge v i hiN
      · have hk : 1 ≤ k := by omega
        refine hrec i (by omega) (ih (k - 1) (by omega) _ (by omega)) ?_
        by_cases h2 : N ≤ i + 2
        · exact ext0_ge v _ h2
        · exact ih (k - 2) (by omega) _ (by omega)
  funext i
  have := hall N i (by omega)
  simpa [ext0] using this

/-- The numbers of positive eigenvalues up to a given value, for different sizes. -/
theorem padeEig_count {N M : ℕ} (h : N < M) (E : PadeEig N) (F : PadeEig M) {x : ℝ} (hx : 0 < x) :
    (Finset.univ.filter fun i => 0 < (E.eig i).re ∧ (E.eig i).re ≤ x).card
      ≤ (Finset.univ.filter fun i => 0 < (F.eig i).re ∧ (F.eig i).re < x).card := by
  classical
  by_contra hcon
  push Not at hcon
  set S := Finset.univ.filter fun i => 0 < (E.eig i).re ∧ (E.eig i).re ≤ x with hS
  set S' := Finset.univ.filter fun i => 0 < (F.eig i).re ∧ (F.eig i).re < x with hS'
  let ex : (S → ℂ) →ₗ[ℂ] (Fin N → ℂ) :=
    { toFun := fun c i => if hi : i ∈ S then c ⟨i, hi⟩ else 0
      map_add' := fun c c' => by funext i; by_cases hi : i ∈ S <;> simp [hi]
      map_smul' := fun a c => by funext i; by_cases hi : i ∈ S <;> simp [hi] }
  let em : (Fin N → ℂ) →ₗ[ℂ] (Fin M → ℂ) :=
    { toFun := padeEmb N M
      map_add' := fun c c' => by funext i; by_cases hi : (i : ℕ) < N <;> simp [padeEmb, ext0, hi]
      map_smul' := fun a c => by funext i; by_cases hi : (i : ℕ) < N <;> simp [padeEmb, ext0, hi] }
  let re : (Fin M → ℂ) →ₗ[ℂ] (S' → ℂ) := LinearMap.funLeft ℂ ℂ (fun i : S' => (i : Fin M))
  let T : (S → ℂ) →ₗ[ℂ] (S' → ℂ) := re ∘ₗ F.W.mulVecLin ∘ₗ em ∘ₗ E.V.mulVecLin ∘ₗ ex
  have hker : LinearMap.ker T ≠ ⊥ := by
    apply LinearMap.ker_ne_bot_of_finrank_lt
    simpa using hcon
  obtain ⟨c, hc, hc0⟩ := (Submodule.ne_bot_iff _).1 hker
  set ct := ex c with hct
  set v := E.V *ᵥ ct with hv
  set d := F.W *ᵥ padeEmb N M v with hd
  have hd0 : ∀ i ∈ S', d i = 0 := fun i hi => congrFun (LinearMap.mem_ker.1 hc) ⟨i, hi⟩
  have hVd : F.V *ᵥ d = padeEmb N M v := by rw [hd, mulVec_mulVec, F.hVW, one_mulVec]
  have hct0 : ∀ i, i ∉ S → ct i = 0 := fun i hi => by simp [hct, ex, hi]
  have e1 := padeEmb_form h.le x v
  rw [← hVd, F.form_eq, hv, E.form_eq] at e1
  have e2 : ∑ k, F.nrm k * (x / (F.eig k).re - 1) * ‖d k‖ ^ 2
      = ∑ k, E.nrm k * (x / (E.eig k).re - 1) * ‖ct k‖ ^ 2 := by exact_mod_cast e1
  have hpos : 0 ≤ ∑ k, E.nrm k * (x / (E.eig k).re - 1) * ‖ct k‖ ^ 2 := by
    refine Finset.sum_nonneg fun k _ => ?_
    by_cases hk : k ∈ S
    · have hk' := (Finset.mem_filter.1 hk).2
      have : 1 ≤ x / (E.eig k).re := (one_le_div hk'.1).2 hk'.2
      have := E.nrm_pos k
      exact mul_nonneg (mul_nonneg this.le (by linarith)) (by positivity)
    · rw [hct0 k hk]; simp
  have hneg : ∀ k, F.nrm k * (x / (F.eig k).re - 1) * ‖d k‖ ^ 2 ≤ 0 := by
    intro k
    by_cases hk : k ∈ S'
    · rw [hd0 k hk]; simp
    · have h1 : x / (F.eig k).re - 1 ≤ 0 := by
        by_cases h2 : 0 < (F.eig k).re
        · have h3 : x ≤ (F.eig k).re := by
            by_contra h4
            exact hk (Finset.mem_filter.2 ⟨Finset.mem_univ _, h2, not_le.1 h4⟩)
          have := (div_le_one h2).2 h3
          linarith
        · have := div_nonpos_of_nonneg_of_nonpos hx.le (not_lt.1 h2)
          linarith
      have h5 := F.nrm_pos k
      nlinarith [mul_nonneg h5.le (sq_nonneg ‖d k‖)]
  have hzero : ∀ k, F.nrm k * (x / (F.eig k).re - 1) * ‖d k‖ ^ 2 = 0 := by
    have h1 : ∑ k, F.nrm k * (x / (F.eig k).re - 1) * ‖d k‖ ^ 2 = 0 :=
      le_antisymm (Finset.sum_nonpos fun k _ => hneg k) (e2 ▸ hpos)
    intro k
    exact (Finset.sum_eq_zero_iff_of_nonpos fun k _ => hneg k).1 h1 k (Finset.mem_univ _)
  have hdeig : ∀ k, d k * (F.eig k - x) = 0 := by
    intro k
    have h1 := hzero k
    rcases mul_eq_zero.1 h1 with h2 | h2
    · have h3 := (mul_eq_zero.1 h2).resolve_left (F.nrm_pos k).ne'
      have hne : (F.eig k).re ≠ 0 := fun h0 => F.ne_zero k (Complex.ext h0 (F.im_eq_zero k))
      have h4 : (F.eig k).re = x := by
        field_simp at h3
        linarith
      rw [show F.eig k = (x : ℂ) from Complex.ext (by simp [h4]) (by simp [F.im_eq_zero]), sub_self, mul_zero]
    · rw [show d k = 0 by simpa using h2, zero_mul]
  have hvz : (padeAC M - (x : ℂ) • padeBC M) *ᵥ padeEmb N M v = 0 := by
    rw [← hVd, sub_mulVec, mulVec_mulVec, F.hAV, ← mulVec_mulVec, smul_mulVec, ← mulVec_mulVec, ← mulVec_smul, ← mulVec_smul,
      ← mulVec_sub, ← mulVec_sub]
    have : diagonal F.eig *ᵥ d - (x : ℂ) • d = 0 := by
      funext k
      rw [Pi.sub_apply, mulVec_diagonal, Pi.smul_apply, smul_eq_mul, Pi.zero_apply]
      linear_combination hdeig k
    rw [this, mulVec_zero, mulVec_zero]
  have hv0 := padeEmb_eig h hx.ne' hvz
  have hct1 : ct = 0 := by
    have := congrArg (E.W *ᵥ ·) hv0
    simpa [hv, mulVec_mulVec, E.hWV] using this
  apply hc0
  funext i
  have := congrFun hct1 i
  simpa [hct, ex] using this

end Gftool.Lemmas
