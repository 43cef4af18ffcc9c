import Verif.Model.Pade
import Mathlib.Algebra.Polynomial.Roots
import Mathlib.Analysis.Normed.Field.Lemmas
import Mathlib.Analysis.Normed.Group.Bounded
import Mathlib.Tactic

/-!
# Numerator and denominator polynomials of the Padé approximants
-/

namespace Gftool.Lemmas

open Gftool.Model Polynomial Filter Topology

/-- Numerator of the approximant with `n` coefficients. -/
noncomputable def padeNum (zin a : ℕ → ℂ) : ℕ → ℂ[X]
  | 0 => 0
  | 1 => C (a 0)
  | n + 2 => padeNum zin a (n + 1) + C (a (n + 1)) * (X - C (zin n)) * padeNum zin a n

/-- Denominator of the approximant with `n` coefficients. -/
noncomputable def padeDen (zin a : ℕ → ℂ) : ℕ → ℂ[X]
  | 0 => 1
  | 1 => 1
  | n + 2 => padeDen zin a (n + 1) + C (a (n + 1)) * (X - C (zin n)) * padeDen zin a n

variable (zin a : ℕ → ℂ) (z : ℂ)

lemma padeNum_eval (n : ℕ) : (padeNum zin a (n + 2)).eval z
    = (padeNum zin a (n + 1)).eval z + a (n + 1) * (z - zin n) * (padeNum zin a n).eval z := by
  simp [padeNum]

lemma padeDen_eval (n : ℕ) : (padeDen zin a (n + 2)).eval z
    = (padeDen zin a (n + 1)).eval z + a (n + 1) * (z - zin n) * (padeDen zin a n).eval z := by
  simp [padeDen]

/-- The loop computes ratios of the polynomials, as long as these do not vanish. -/
lemma padeState_eq (n : ℕ) (h : ∀ k ≤ n + 1, (padeDen zin a k).eval z ≠ 0) :
    (padeState z zin a n).pade = (padeNum zin a (n + 1)).eval z / (padeDen zin a (n + 1)).eval z ∧
    (padeState z zin a n).padePrev = (padeNum zin a n).eval z / (padeDen zin a n).eval z ∧
    (padeState z zin a n).b2 = (padeDen zin a (n + 1)).eval z / (padeDen zin a n).eval z := by
  induction n with
  | zero => simp [padeState, padeNum, padeDen]
  | succ n ih =>
    obtain ⟨h1, h2, h3⟩ := ih fun k hk => h k (by omega)
    have hn := h n (by omega)
    have hn1 := h (n + 1) (by omega)
    have hn2 := h (n + 2) (by omega)
    have hb : (padeState z zin a (n + 1)).b2
        = (padeDen zin a (n + 2)).eval z / (padeDen zin a (n + 1)).eval z := by
      simp only [padeState, h3]
      rw [padeDen_eval]
      field_simp
    refine ⟨?_, ?_, hb⟩
    · have : (padeState z zin a (n + 1)).pade
          = ((padeState z zin a n).pade + (z - zin n) * a (n + 1) / (padeState z zin a n).b2
            * (padeState z zin a n).padePrev) / (padeState z zin a (n + 1)).b2 := rfl
      rw [this, hb, h1, h2, h3, padeNum_eval]
      field_simp
    · have : (padeState z zin a (n + 1)).padePrev = (padeState z zin a n).pade := rfl
      rw [this, h1]

/-- The loop does not divide by zero iff the denominators do not vanish. -/
lemma b2_ne_zero_iff (n : ℕ) : (∀ k ≤ n, (padeState z zin a k).b2 ≠ 0) ↔
    ∀ k ≤ n + 1, (padeDen zin a k).eval z ≠ 0 := by
  induction n with
  | zero =>
    constructor
    · intro _ k hk
      interval_cases k <;> simp [padeDen]
    · intro _ k hk
      interval_cases k
      simp [padeState]
  | succ n ih =>
    constructor
    · intro h k hk
      have h1 := ih.1 fun k hk => h k (by omega)
      rcases Nat.lt_or_ge k (n + 2) with hk2 | hk2
      · exact h1 k (by omega)
      · obtain rfl : k = n + 2 := by omega
        intro h0
        apply h (n + 1) le_rfl
        have h3 := (padeState_eq zin a z n h1).2.2
        have hn := h1 n (by omega)
        have hn1 := h1 (n + 1) le_rfl
        simp only [padeState, h3]
        rw [padeDen_eval] at h0
        field_simp
        linear_combination h0
    · intro h k hk
      rcases Nat.lt_or_ge k (n + 1) with hk2 | hk2
      · exact ih.2 (fun k hk => h k (by omega)) k (by omega)
      · obtain rfl : k = n + 1 := by omega
        rw [(padeState_eq zin a z (n + 1) h).2.2]
        exact div_ne_zero (h _ le_rfl) (h _ (by omega))

/-! ### Degrees and leading coefficients -/

lemma padeNum_natDegree (n : ℕ) : (padeNum zin a n).natDegree ≤ (n - 1) / 2 := by
  induction n using Nat.twoStepInduction with
  | zero => simp [padeNum]
  | one => simp [padeNum]
  | more n h1 h2 =>
    simp only [padeNum]
    refine (natDegree_add_le _ _).trans (max_le ?_ ?_)
    · exact h2.trans (by omega)
    · rcases Nat.eq_zero_or_pos n with rfl | hn
      · simp [padeNum]
      · refine natDegree_mul_le.trans ?_
        have : (C (a (n + 1)) * (X - C (zin n))).natDegree ≤ 1 :=
          (natDegree_C_mul_le _ _).trans (natDegree_X_sub_C_le _)
        omega

lemma padeDen_natDegree (n : ℕ) : (padeDen zin a n).natDegree ≤ n / 2 := by
  induction n using Nat.twoStepInduction with
  | zero => simp [padeDen]
  | one => simp [padeDen]
  | more n h1 h2 =>
    simp only [padeDen]
    refine (natDegree_add_le _ _).trans (max_le ?_ ?_)
    · exact h2.trans (by omega)
    · refine natDegree_mul_le.trans ?_
      have : (C (a (n + 1)) * (X - C (zin n))).natDegree ≤ 1 :=
        (natDegree_C_mul_le _ _).trans (natDegree_X_sub_C_le _)
      omega

lemma coeff_step (c x : ℂ) (p : ℂ[X]) (d : ℕ) (hd : p.natDegree ≤ d) :
    (C c * (X - C x) * p).coeff (d + 1) = c * p.coeff d := by
  have h0 : p.coeff (d + 1) = 0 := coeff_eq_zero_of_natDegree_lt (by omega)
  rw [mul_assoc, coeff_C_mul, sub_mul, coeff_sub, coeff_X_mul, coeff_C_mul, h0, mul_zero, sub_zero]

/-- Leading coefficient of the denominators with an even number of coefficients. -/
lemma padeDen_coeff_even (m : ℕ) :
    (padeDen zin a (2 * m)).coeff m = ∏ i ∈ Finset.range m, a (2 * i + 1) := by
  induction m with
  | zero => simp [padeDen]
  | succ m ih =>
    rw [show 2 * (m + 1) = 2 * m + 2 by ring, padeDen, coeff_add,
      coeff_step _ _ _ _ ((padeDen_natDegree zin a (2 * m)).trans (by omega)), ih,
      Finset.prod_range_succ, coeff_eq_zero_of_natDegree_lt, zero_add, mul_comm]
    have := padeDen_natDegree zin a (2 * m + 1)
    omega

/-- Leading coefficient of the numerators with an odd number of coefficients. -/
lemma padeNum_coeff_odd (m : ℕ) :
    (padeNum zin a (2 * m + 1)).coeff m = ∏ i ∈ Finset.range (m + 1), a (2 * i) := by
  induction m with
  | zero => simp [padeNum]
  | succ m ih =>
    rw [show 2 * (m + 1) + 1 = 2 * m + 1 + 2 by ring, padeNum, coeff_add,
      coeff_step _ _ _ _ ((padeNum_natDegree zin a (2 * m + 1)).trans (by omega)), ih,
      Finset.prod_range_succ _ (m + 1), coeff_eq_zero_of_natDegree_lt, zero_add, mul_comm]
    · congr 2
    · have := padeNum_natDegree zin a (2 * m + 1 + 1)
      omega

/-- A polynomial divided by a power: limit at infinity. -/
lemma tendsto_eval_div_pow (p : ℂ[X]) (d : ℕ) (hd : p.natDegree ≤ d) :
    Tendsto (fun z : ℂ => p.eval z / z ^ d) (Bornology.cobounded ℂ) (𝓝 (p.coeff d)) := by
  have hinv : Tendsto (fun z : ℂ => z⁻¹) (Bornology.cobounded ℂ) (𝓝 0) := tendsto_inv₀_cobounded
  have hne : ∀ᶠ z : ℂ in Bornology.cobounded ℂ, z ≠ 0 := Bornology.eventually_ne_cobounded 0
  have h : Tendsto (fun z : ℂ => ∑ i ∈ Finset.range (d + 1), p.coeff i * (z⁻¹) ^ (d - i))
      (Bornology.cobounded ℂ) (𝓝 (∑ i ∈ Finset.range (d + 1), p.coeff i * 0 ^ (d - i))) :=
    tendsto_finsetSum _ fun i _ => (hinv.pow (d - i)).const_mul _
  have hs : ∑ i ∈ Finset.range (d + 1), p.coeff i * 0 ^ (d - i) = p.coeff d := by
    rw [Finset.sum_range_succ, Finset.sum_eq_zero, Nat.sub_self, pow_zero, mul_one, zero_add]
    intro i hi
    have := Finset.mem_range.1 hi
    rw [zero_pow (by omega), mul_zero]
  rw [hs] at h
  refine h.congr' (hne.mono fun z hz => ?_)
  simp only
  rw [eval_eq_sum_range' (n := d + 1) (by omega), Finset.sum_div]
  refine Finset.sum_congr rfl fun i hi => ?_
  have : i ≤ d := by have := Finset.mem_range.1 hi; omega
  have h2 : z ^ d = z ^ i * z ^ (d - i) := by rw [← pow_add]; congr 1; omega
  rw [h2, inv_pow]
  field_simp

/-- A non-zero polynomial has no roots far out. -/
lemma eventually_eval_ne_zero {p : ℂ[X]} (hp : p ≠ 0) :
    ∀ᶠ z : ℂ in Bornology.cobounded ℂ, p.eval z ≠ 0 := by
  have hfin : {z : ℂ | p.eval z = 0}.Finite := by
    refine (p.roots.toFinset.finite_toSet).subset fun z hz => ?_
    simpa [hp] using hz
  have hb : Bornology.IsBounded {z : ℂ | p.eval z = 0} := hfin.isBounded
  exact Bornology.isBounded_def.1 hb

end Gftool.Lemmas
