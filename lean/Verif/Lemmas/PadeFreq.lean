import Verif.Model.Statistics
import Verif.Spec.PadeFreq
import Mathlib.LinearAlgebra.Matrix.NonsingularInverse
import Mathlib.Data.Complex.BigOperators
import Mathlib.Tactic

/-! # Helper lemmas for the Padé frequencies -/

namespace Gftool.Lemmas

open Gftool Model Matrix Complex

/-- Complexified matrices of the generalized eigenproblem. -/
noncomputable abbrev padeAC (N : ℕ) : Matrix (Fin N) (Fin N) ℂ := (padeA N).map ((↑) : ℝ → ℂ)
noncomputable abbrev padeBC (N : ℕ) : Matrix (Fin N) (Fin N) ℂ := (padeB N).map ((↑) : ℝ → ℂ)

/-- The alternating sign matrix. -/
def altD (N : ℕ) : Matrix (Fin N) (Fin N) ℂ := diagonal fun i => (-1 : ℂ) ^ (i : ℕ)

theorem altD_sq (N : ℕ) : altD N * altD N = 1 := by
  rw [altD, diagonal_mul_diagonal, ← diagonal_one]
  congr 1
  funext i
  rw [← mul_pow]; simp

theorem altD_A (N : ℕ) : altD N * padeAC N = padeAC N * altD N := by
  ext i j
  simp only [altD, padeAC, padeA, mul_diagonal, diagonal_mul, map_apply, diagonal_apply]
  split_ifs with h
  · subst h; ring
  · simp

theorem altD_B (N : ℕ) : altD N * padeBC N = -(padeBC N * altD N) := by
  ext i j
  simp only [altD, padeBC, padeB, mul_diagonal, diagonal_mul, map_apply, of_apply, Matrix.neg_apply]
  split_ifs with h
  · rcases h with h | h <;> rw [h, pow_succ] <;> ring
  · simp

theorem fermiCF_pos (x : ℝ) (j k : ℕ) : 0 < Spec.fermiCF x j k := by
  induction k generalizing j with
  | zero => simp only [Spec.fermiCF]; positivity
  | succ k ih =>
    simp only [Spec.fermiCF]
    have := ih (j + 1)
    positivity

theorem padeAC_inv_col (N : ℕ) (w : Fin N → ℂ) (h : padeAC N *ᵥ w = 0) : w = 0 := by
  funext i
  have := congrFun h i
  simp only [padeAC, padeA, mulVec, dotProduct, map_apply, diagonal_apply, Pi.zero_apply] at this
  rw [Finset.sum_eq_single i] at this
  · simp only [if_true] at this
    rcases mul_eq_zero.1 this with h1 | h1
    · exfalso
      have h2 : (-(2 * (i : ℝ) + 1) : ℝ) = 0 := by exact_mod_cast h1
      have : (0 : ℝ) ≤ (i : ℕ) := Nat.cast_nonneg _
      linarith
    · exact h1
  · intro b _ hb; simp [Ne.symm hb]
  · simp


/-- Contract of `scipy.linalg.eig(a, b)` together with `np.linalg.inv(v)`,
statistics.py:242,245. -/
structure PadeEig (N : ℕ) where
  eig : Fin N → ℂ
  V : Matrix (Fin N) (Fin N) ℂ
  W : Matrix (Fin N) (Fin N) ℂ
  hVW : V * W = 1
  hAV : padeAC N * V = padeBC N * V * diagonal eig


/-- `(B v)_i = (v_{i-1} + v_{i+1})/2` with out-of-range entries zero. -/
theorem padeBC_mulVec {N : ℕ} (g : ℕ → ℂ) (hg : ∀ n, N ≤ n → g n = 0) (i : Fin N) :
    (padeBC N *ᵥ (fun k => g k)) i
      = 1 / 2 * ((if (i : ℕ) = 0 then 0 else g (i - 1)) + g (i + 1)) := by
  have h1 : ∀ k : Fin N, (padeBC N) i k * g k
      = 1 / 2 * ((if (k : ℕ) + 1 = i then g k else 0) + if (k : ℕ) = i + 1 then g k else 0) := by
    intro k
    simp only [padeBC, padeB, map_apply, of_apply]
    by_cases h1 : (k : ℕ) + 1 = i
    · have h2 : ¬ (k : ℕ) = i + 1 := by omega
      simp [h1]
      omega
    · by_cases h2 : (k : ℕ) = i + 1
      · rw [if_neg h1, if_pos h2, if_pos (Or.inr h2)]; simp
      · have h3 : ¬ ((i : ℕ) = k + 1 ∨ (k : ℕ) = i + 1) := by omega
        rw [if_neg h3]; simp [h1, h2]
  simp only [mulVec, dotProduct]
  rw [Finset.sum_congr rfl (fun k _ => h1 k), ← Finset.mul_sum, Finset.sum_add_distrib]
  congr 2
  · by_cases h0 : (i : ℕ) = 0
    · rw [if_pos h0]
      apply Finset.sum_eq_zero
      intro k _
      rw [if_neg (by omega)]
    · rw [if_neg h0, Finset.sum_eq_single (⟨(i : ℕ) - 1, by omega⟩ : Fin N)]
      · rw [if_pos (by simp; omega)]
      · intro k _ hk
        rw [if_neg]
        intro h; apply hk; ext; simp; omega
      · simp
  · by_cases h0 : (i : ℕ) + 1 < N
    · rw [Finset.sum_eq_single (⟨(i : ℕ) + 1, h0⟩ : Fin N)]
      · simp
      · intro k _ hk
        rw [if_neg]
        intro h; apply hk; ext; simp [h]
      · simp
    · rw [hg _ (by omega)]
      apply Finset.sum_eq_zero
      intro k _
      rw [if_neg (by omega)]

theorem padeAC_mulVec {N : ℕ} (v : Fin N → ℂ) (i : Fin N) :
    (padeAC N *ᵥ v) i = -(2 * (i : ℂ) + 1) * v i := by
  simp only [padeAC, padeA, mulVec, dotProduct, map_apply, diagonal_apply]
  rw [Finset.sum_eq_single i]
  · simp
  · intro b _ hb; simp [Ne.symm hb]
  · simp

/-- zero extension -/
noncomputable def ext0 {N : ℕ} (v : Fin N → ℂ) (n : ℕ) : ℂ := if h : n < N then v ⟨n, h⟩ else 0

theorem ext0_apply {N : ℕ} (v : Fin N → ℂ) : (fun k : Fin N => ext0 v k) = v := by
  funext k; simp [ext0]

theorem ext0_ge {N : ℕ} (v : Fin N → ℂ) (n : ℕ) (h : N ≤ n) : ext0 v n = 0 := by
  simp [ext0, not_lt.2 h]

/-- An eigenvector is determined by its first component. -/
theorem pade_eigvec_first {N : ℕ} {lam : ℂ} {v : Fin N → ℂ} (hlam : lam ≠ 0)
    (h : padeAC N *ᵥ v = lam • (padeBC N *ᵥ v)) (hv : ext0 v 0 = 0) : v = 0 := by
  have hB : ∀ i : Fin N, -(2 * (i : ℂ) + 1) * ext0 v i
      = lam * (1 / 2 * ((if (i : ℕ) = 0 then 0 else ext0 v (i - 1)) + ext0 v (i + 1))) := by
    intro i
    rw [← padeBC_mulVec (ext0 v) (ext0_ge v) i, ext0_apply]
    have := congrFun h i
    rw [padeAC_mulVec, Pi.smul_apply, smul_eq_mul] at this
    rw [← this]
    congr 1
    simp [ext0]
  have hz : ∀ n, ext0 v n = 0 ∧ ext0 v (n + 1) = 0 := by
    intro n
    induction n with
    | zero =>
      refine ⟨hv, ?_⟩
      by_cases hN : 0 < N
      · have := hB ⟨0, hN⟩
        simp only [hv, if_true, zero_add, mul_zero] at this
        have h2 := this.symm
        simpa [hlam] using h2
      · exact ext0_ge v _ (by omega)
    | succ n ih =>
      refine ⟨ih.2, ?_⟩
      by_cases hN : n + 1 < N
      · have := hB ⟨n + 1, hN⟩
        simp only [ih.2, mul_zero, Nat.add_eq_zero_iff, one_ne_zero, and_false, if_false,
          Nat.add_sub_cancel, ih.1, zero_add] at this
        have h2 := this.symm
        simpa [hlam] using h2
      · exact ext0_ge v _ (by omega)
  rw [← ext0_apply v]
  funext k
  exact (hz k).1

theorem eig_ne_zero {N : ℕ} {lam : ℂ} {v : Fin N → ℂ} (hv : v ≠ 0)
    (h : padeAC N *ᵥ v = lam • (padeBC N *ᵥ v)) : lam ≠ 0 := by
  rintro rfl
  rw [zero_smul] at h
  exact hv (padeAC_inv_col N v h)

theorem eig_neg {N : ℕ} {lam : ℂ} {v : Fin N → ℂ}
    (h : padeAC N *ᵥ v = lam • (padeBC N *ᵥ v)) :
    padeAC N *ᵥ (altD N *ᵥ v) = (-lam) • (padeBC N *ᵥ (altD N *ᵥ v)) := by
  have hB : padeBC N * altD N = -(altD N * padeBC N) := by rw [altD_B, neg_neg]
  rw [mulVec_mulVec, mulVec_mulVec, ← altD_A, hB, ← mulVec_mulVec, h, neg_mulVec, neg_smul,
    smul_neg, neg_neg, ← mulVec_mulVec, mulVec_smul]

namespace PadeEig

variable {N : ℕ} (E : PadeEig N)

theorem hWV : E.W * E.V = 1 := mul_eq_one_comm.1 E.hVW

theorem col_ne_zero (k : Fin N) : (fun i => E.V i k) ≠ 0 := by
  intro h
  have h1 := Matrix.ext_iff.mpr E.hWV k k
  simp only [mul_apply, one_apply_eq] at h1
  have : ∑ j, E.W k j * E.V j k = 0 := by
    apply Finset.sum_eq_zero
    intro j _
    have := congrFun h j
    simp only [Pi.zero_apply] at this
    rw [this, mul_zero]
  rw [this] at h1
  exact zero_ne_one h1

theorem col_eig (k : Fin N) :
    padeAC N *ᵥ (fun i => E.V i k) = E.eig k • (padeBC N *ᵥ (fun i => E.V i k)) := by
  funext i
  have := Matrix.ext_iff.mpr E.hAV i k
  rw [mul_diagonal] at this
  simp only [mul_apply] at this
  simp only [mulVec, dotProduct, Pi.smul_apply, smul_eq_mul]
  rw [this, mul_comm]

theorem ne_zero (k : Fin N) : E.eig k ≠ 0 := eig_ne_zero (E.col_ne_zero k) (E.col_eig k)

/-- `B V` is injective as a consequence of the contract. -/
theorem BV_inj {w : Fin N → ℂ} (h : padeBC N *ᵥ (E.V *ᵥ w) = 0) : w = 0 := by
  have h1 : padeAC N *ᵥ (E.V *ᵥ (fun k => (E.eig k)⁻¹ * w k)) = 0 := by
    rw [mulVec_mulVec, E.hAV, ← mulVec_mulVec]
    have : diagonal E.eig *ᵥ (fun k => (E.eig k)⁻¹ * w k) = w := by
      funext k
      rw [mulVec_diagonal, mul_inv_cancel_left₀ (E.ne_zero k)]
    rw [this, ← mulVec_mulVec, h]
  have h2 := padeAC_inv_col N _ h1
  have h3 : (fun k => (E.eig k)⁻¹ * w k) = 0 := by
    have := congrArg (E.W *ᵥ ·) h2
    simpa [mulVec_mulVec, E.hWV] using this
  funext k
  have := congrFun h3 k
  simp only [Pi.zero_apply, mul_eq_zero, inv_eq_zero] at this
  rcases this with h | h
  · exact absurd h (E.ne_zero k)
  · exact h

theorem eig_injective : Function.Injective E.eig := by
  intro k l hkl
  by_contra hne
  -- combination with vanishing first component
  set a := ext0 (fun i => E.V i k) 0
  set b := ext0 (fun i => E.V i l) 0
  have hcomb : ∀ i, b * E.V i k - a * E.V i l = 0 := by
    have hz : (fun i => b * E.V i k - a * E.V i l) = 0 := by
      have hs : (fun i => b * E.V i k - a * E.V i l)
          = b • (fun i => E.V i k) - a • (fun i => E.V i l) := by
        funext i; simp
      apply pade_eigvec_first (E.ne_zero k)
      · rw [hs, mulVec_sub, mulVec_sub, mulVec_smul, mulVec_smul, mulVec_smul, mulVec_smul,
          E.col_eig, E.col_eig, ← hkl, smul_sub, smul_comm b, smul_comm a]
      · have hN : 0 < N := lt_of_le_of_lt (Nat.zero_le _) k.2
        simp only [a, b, ext0, hN, dif_pos]
        ring
    intro i; exact congrFun hz i
  have hrow : ∀ m : Fin N, ∑ i, E.W m i * (b * E.V i k - a * E.V i l)
      = b * (1 : Matrix (Fin N) (Fin N) ℂ) m k - a * (1 : Matrix (Fin N) (Fin N) ℂ) m l := by
    intro m
    rw [← E.hWV, mul_apply, mul_apply, Finset.mul_sum, Finset.mul_sum, ← Finset.sum_sub_distrib]
    apply Finset.sum_congr rfl; intros; ring
  have hb : b = 0 := by
    have := hrow k
    simp only [hcomb, mul_zero, Finset.sum_const_zero, one_apply_eq, one_apply_ne hne] at this
    simpa using this.symm
  have := pade_eigvec_first (E.ne_zero l) (E.col_eig l) hb
  exact E.col_ne_zero l this

/-- The `±` partner of each eigenpair. -/
theorem exists_partner (k : Fin N) : ∃ l : Fin N, ∃ c : ℂ, E.eig l = -E.eig k ∧
    altD N *ᵥ (fun i => E.V i k) = c • (fun i => E.V i l) := by
  set u := altD N *ᵥ (fun i => E.V i k) with hu
  set c := E.W *ᵥ u with hc
  have hVc : E.V *ᵥ c = u := by rw [hc, mulVec_mulVec, E.hVW, one_mulVec]
  have hu0 : u ≠ 0 := by
    intro h
    apply E.col_ne_zero k
    have := congrArg (altD N *ᵥ ·) h
    simpa [hu, mulVec_mulVec, altD_sq] using this
  have hzero : ∀ l, c l * (E.eig l + E.eig k) = 0 := by
    have h1 : padeBC N *ᵥ (E.V *ᵥ (fun l => c l * (E.eig l + E.eig k))) = 0 := by
      have h2 : (fun l => c l * (E.eig l + E.eig k)) = diagonal E.eig *ᵥ c + E.eig k • c := by
        funext l; simp [mulVec_diagonal]; ring
      rw [h2, mulVec_add, mulVec_add, mulVec_mulVec, mulVec_mulVec, ← E.hAV,
        ← mulVec_mulVec, mulVec_smul, mulVec_smul, hVc, eig_neg (E.col_eig k)]
      rw [← hu, neg_smul, neg_add_cancel]
    intro l
    exact congrFun (E.BV_inj h1) l
  have hex : ∃ l, c l ≠ 0 := by
    by_contra hcon
    push Not at hcon
    apply hu0
    rw [← hVc]
    have : c = 0 := funext hcon
    rw [this, mulVec_zero]
  obtain ⟨l, hl⟩ := hex
  have hel : E.eig l = -E.eig k := by
    rcases mul_eq_zero.1 (hzero l) with h | h
    · exact absurd h hl
    · exact eq_neg_of_add_eq_zero_left h
  refine ⟨l, c l, hel, ?_⟩
  rw [← hVc]
  funext i
  simp only [mulVec, dotProduct, Pi.smul_apply, smul_eq_mul]
  rw [Finset.sum_eq_single l]
  · ring
  · intro m _ hm
    rcases mul_eq_zero.1 (hzero m) with h | h
    · rw [h, mul_zero]
    · exfalso
      apply hm
      apply E.eig_injective
      rw [hel]
      exact eq_neg_of_add_eq_zero_left h
  · simp

/-- The partner index. -/
noncomputable def partner (k : Fin N) : Fin N := (E.exists_partner k).choose

theorem partner_eig (k : Fin N) : E.eig (E.partner k) = -E.eig k :=
  (E.exists_partner k).choose_spec.choose_spec.1

theorem partner_injective : Function.Injective E.partner := by
  intro k l h
  apply E.eig_injective
  have := E.partner_eig k
  rw [h, E.partner_eig l] at this
  exact (neg_injective this).symm

/-- The residue weight `v[0] * inv(v)[:,0]` is the same for both partners. -/
theorem partner_weight (hN : 0 < N) (k : Fin N) :
    E.V ⟨0, hN⟩ (E.partner k) * E.W (E.partner k) ⟨0, hN⟩
      = E.V ⟨0, hN⟩ k * E.W k ⟨0, hN⟩ := by
  choose c hc using fun k => (E.exists_partner k).choose_spec
  have hc2 : ∀ (k i : Fin N), (-1 : ℂ) ^ (i : ℕ) * E.V i k = c k * E.V i (E.partner k) := by
    intro k i
    have := congrFun (hc k).2 i
    simp only [altD, mulVec_diagonal, Pi.smul_apply, smul_eq_mul] at this
    exact this
  -- `W (σ k) D = c k * W k`
  have hW : ∀ i : Fin N, E.W (E.partner k) i * (-1 : ℂ) ^ (i : ℕ) = c k * E.W k i := by
    have h1 : ∀ m, ∑ i, (E.W (E.partner k) i * (-1 : ℂ) ^ (i : ℕ) - c k * E.W k i) * E.V i m
        = 0 := by
      intro m
      have e1 : ∑ i, E.W (E.partner k) i * E.V i (E.partner m)
          = (1 : Matrix (Fin N) (Fin N) ℂ) (E.partner k) (E.partner m) := by
        rw [← E.hWV, mul_apply]
      have e2 : ∑ i, E.W k i * E.V i m = (1 : Matrix (Fin N) (Fin N) ℂ) k m := by
        rw [← E.hWV, mul_apply]
      have e3 : ∑ i, (E.W (E.partner k) i * (-1 : ℂ) ^ (i : ℕ) - c k * E.W k i) * E.V i m
          = c m * (∑ i, E.W (E.partner k) i * E.V i (E.partner m))
            - c k * ∑ i, E.W k i * E.V i m := by
        rw [Finset.mul_sum, Finset.mul_sum, ← Finset.sum_sub_distrib]
        apply Finset.sum_congr rfl
        intro i _
        have := hc2 m i
        calc _ = E.W (E.partner k) i * ((-1 : ℂ) ^ (i : ℕ) * E.V i m)
              - c k * (E.W k i * E.V i m) := by ring
          _ = _ := by rw [this]; ring
      rw [e3, e1, e2]
      by_cases hkm : k = m
      · subst hkm; simp
      · rw [one_apply_ne hkm, one_apply_ne (fun h => hkm (E.partner_injective h))]; simp
    set r : Fin N → ℂ := fun i => E.W (E.partner k) i * (-1 : ℂ) ^ (i : ℕ) - c k * E.W k i with hr
    have h2 : r ᵥ* E.V = 0 := by
      funext m; simpa [vecMul, dotProduct] using h1 m
    have h3 : r = 0 := by
      have := congrArg (· ᵥ* E.W) h2
      simpa [vecMul_vecMul, E.hVW] using this
    intro i
    have := congrFun h3 i
    simp only [hr, Pi.zero_apply] at this
    exact sub_eq_zero.1 this
  have h0 := hW ⟨0, hN⟩
  have h1 := hc2 k ⟨0, hN⟩
  simp only [pow_zero, one_mul, mul_one] at h0 h1
  rw [h0, h1]; ring

theorem sum_partner (hN : 0 < N) (f : ℂ → ℂ → ℂ) :
    ∑ k, f (E.V ⟨0, hN⟩ k * E.W k ⟨0, hN⟩) (E.eig k)
      = ∑ k, f (E.V ⟨0, hN⟩ k * E.W k ⟨0, hN⟩) (-E.eig k) := by
  have hb : Function.Bijective E.partner :=
    Finite.injective_iff_bijective.1 E.partner_injective
  rw [← Function.Bijective.sum_comp hb (fun k => f (E.V ⟨0, hN⟩ k * E.W k ⟨0, hN⟩) (E.eig k))]
  apply Finset.sum_congr rfl
  intro k _
  rw [E.partner_weight hN, E.partner_eig]

/-- Solution of the tridiagonal system `(-A + i x B) u = e₀` by continued fractions. -/
noncomputable def cfVec (N : ℕ) (x : ℝ) : ℕ → ℂ
  | 0 => 1 / (Spec.fermiCF x 0 (N - 1) : ℂ)
  | n + 1 => if n + 1 < N then
      -(I * x / 2) / (Spec.fermiCF x (n + 1) (N - 1 - (n + 1)) : ℂ) * cfVec N x n else 0

theorem cfVec_ge (hN : 0 < N) (x : ℝ) (n : ℕ) (h : N ≤ n) : cfVec N x n = 0 := by
  cases n with
  | zero => omega
  | succ n => simp [cfVec, not_lt.2 h]

theorem cfVec_solves (hN : 0 < N) (x : ℝ) :
    -(padeAC N *ᵥ (fun k : Fin N => cfVec N x k))
      + (I * x) • (padeBC N *ᵥ (fun k : Fin N => cfVec N x k))
      = fun i : Fin N => if (i : ℕ) = 0 then 1 else 0 := by
  have hcf : ∀ j k, (Spec.fermiCF x j k : ℂ) ≠ 0 := fun j k => by
    exact_mod_cast (fermiCF_pos x j k).ne'
  funext i
  simp only [Pi.add_apply, Pi.neg_apply, Pi.smul_apply, smul_eq_mul, padeAC_mulVec]
  rw [padeBC_mulVec (cfVec N x) (cfVec_ge hN x)]
  -- the diagonal plus upper neighbour collapses to the continued fraction
  have hcol : ∀ n, n < N → (2 * (n : ℂ) + 1) * cfVec N x n + I * x / 2 * cfVec N x (n + 1)
      = (Spec.fermiCF x n (N - 1 - n) : ℂ) * cfVec N x n := by
    intro n hn
    by_cases h1 : n + 1 < N
    · rw [show cfVec N x (n + 1) = -(I * x / 2) /
        (Spec.fermiCF x (n + 1) (N - 1 - (n + 1)) : ℂ) * cfVec N x n from by simp [cfVec, h1]]
      obtain ⟨m, hm⟩ : ∃ m, N - 1 - n = m + 1 := ⟨N - 1 - n - 1, by omega⟩
      have hm' : N - 1 - (n + 1) = m := by omega
      rw [hm, hm']
      simp only [Spec.fermiCF]
      push_cast
      have := hcf (n + 1) m
      field_simp
      rw [I_sq]; ring
    · rw [show cfVec N x (n + 1) = 0 from by simp [cfVec, h1]]
      have : N - 1 - n = 0 := by omega
      rw [this]
      simp [Spec.fermiCF]
  have hi := hcol i i.2
  by_cases h0 : (i : ℕ) = 0
  · rw [if_pos h0, if_pos h0]
    rw [h0] at hi ⊢
    have e0 : cfVec N x 0 = 1 / (Spec.fermiCF x 0 (N - 1) : ℂ) := rfl
    have h2 := hcf 0 (N - 1)
    have : (Spec.fermiCF x 0 (N - 1 - 0) : ℂ) * cfVec N x 0 = 1 := by
      rw [e0, Nat.sub_zero]; field_simp
    rw [this] at hi
    push_cast at hi ⊢
    linear_combination hi
  · rw [if_neg h0, if_neg h0]
    obtain ⟨m, hm⟩ : ∃ m, (i : ℕ) = m + 1 := ⟨i - 1, by omega⟩
    have hlt : m + 1 < N := hm ▸ i.2
    rw [hm] at hi ⊢
    have e1 : cfVec N x (m + 1) = -(I * x / 2) /
        (Spec.fermiCF x (m + 1) (N - 1 - (m + 1)) : ℂ) * cfVec N x m := by
      rw [cfVec, if_pos hlt]
    have h2 := hcf (m + 1) (N - 1 - (m + 1))
    have : (Spec.fermiCF x (m + 1) (N - 1 - (m + 1)) : ℂ) * cfVec N x (m + 1)
        = -(I * x / 2) * cfVec N x m := by
      rw [e1]; field_simp
    rw [this] at hi
    rw [Nat.add_sub_cancel]
    linear_combination hi

/-- First component of the resolvent in terms of the eigenpairs. -/
theorem cf_eq_sum (hN : 0 < N) (x : ℝ) (hx : ∀ k, I * x - E.eig k ≠ 0) :
    1 / (Spec.fermiCF x 0 (N - 1) : ℂ)
      = -∑ k, E.V ⟨0, hN⟩ k * E.W k ⟨0, hN⟩ * E.eig k / (I * x - E.eig k) := by
  set u : Fin N → ℂ := fun k => cfVec N x k with hu
  set c := E.W *ᵥ u with hc
  have hVc : E.V *ᵥ c = u := by rw [hc, mulVec_mulVec, E.hVW, one_mulVec]
  have hT := cfVec_solves hN x
  rw [← hu] at hT
  have he0 : (fun i : Fin N => if (i : ℕ) = 0 then (1 : ℂ) else 0)
      = -(padeAC N *ᵥ (fun i : Fin N => if (i : ℕ) = 0 then (1 : ℂ) else 0)) := by
    funext i
    rw [Pi.neg_apply, padeAC_mulVec]
    by_cases h : (i : ℕ) = 0
    · simp [h]
    · simp [h]
  set e : Fin N → ℂ := fun i : Fin N => if (i : ℕ) = 0 then (1 : ℂ) else 0 with he
  have hVWe : E.V *ᵥ (E.W *ᵥ e) = e := by rw [mulVec_mulVec, E.hVW, one_mulVec]
  have hAV : ∀ w, padeAC N *ᵥ (E.V *ᵥ w) = padeBC N *ᵥ (E.V *ᵥ (diagonal E.eig *ᵥ w)) := by
    intro w
    rw [mulVec_mulVec, E.hAV, ← mulVec_mulVec, ← mulVec_mulVec]
  have hkey : padeBC N *ᵥ (E.V *ᵥ ((I * x) • c - diagonal E.eig *ᵥ c
      + diagonal E.eig *ᵥ (E.W *ᵥ e))) = 0 := by
    rw [mulVec_add, mulVec_add, mulVec_sub, mulVec_sub, ← hAV, ← hAV, hVWe, hVc, mulVec_smul,
      mulVec_smul, hVc]
    have := hT
    rw [he0] at this
    rw [eq_neg_iff_add_eq_zero] at this
    rw [← this]
    abel
  have hz := E.BV_inj hkey
  have hck : ∀ k, c k = -(E.eig k * E.W k ⟨0, hN⟩) / (I * x - E.eig k) := by
    intro k
    have h1 := congrFun hz k
    simp only [Pi.add_apply, Pi.sub_apply, Pi.smul_apply, smul_eq_mul, mulVec_diagonal,
      Pi.zero_apply] at h1
    have h2 : (E.W *ᵥ e) k = E.W k ⟨0, hN⟩ := by
      simp only [mulVec, dotProduct, he]
      rw [Finset.sum_eq_single ⟨0, hN⟩]
      · simp
      · intro b _ hb
        rw [if_neg, mul_zero]
        intro h; apply hb; ext; simpa using h
      · simp
    rw [h2] at h1
    rw [eq_div_iff (hx k)]
    linear_combination h1
  have h0 : u ⟨0, hN⟩ = 1 / (Spec.fermiCF x 0 (N - 1) : ℂ) := rfl
  rw [← h0, ← hVc]
  simp only [mulVec, dotProduct]
  rw [← Finset.sum_neg_distrib]
  apply Finset.sum_congr rfl
  intro k _
  rw [hck k]
  ring

end PadeEig

end Gftool.Lemmas
