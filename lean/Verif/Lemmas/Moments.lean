import Verif.Lemmas.Lattice
import Mathlib.Combinatorics.Enumerative.Catalan.Basic

/-!
# Moments of cosines
-/

namespace Gftool.Lemmas

open Gftool Model Spec
open MeasureTheory

/-- Moments of the arcsine law, the mean of `cos ^ m`. -/
def arcsineMoment (m : ℕ) : ℚ := if m % 2 = 0 then (Nat.centralBinom (m / 2) : ℚ) / 4 ^ (m / 2) else 0

lemma arcsineMoment_zero : arcsineMoment 0 = 1 := by norm_num [arcsineMoment]

lemma arcsineMoment_one : arcsineMoment 1 = 0 := by norm_num [arcsineMoment]

lemma arcsineMoment_step (m : ℕ) : arcsineMoment (m + 2) = ((m : ℚ) + 1) / (m + 2) * arcsineMoment m := by
  unfold arcsineMoment
  have h1 : (m + 2) % 2 = m % 2 := by omega
  have h2 : (m + 2) / 2 = m / 2 + 1 := by omega
  rw [h1, h2]
  split_ifs with h
  · obtain ⟨k, rfl⟩ : ∃ k, m = 2 * k := ⟨m / 2, by omega⟩
    rw [show 2 * k / 2 = k by omega]
    have := Nat.succ_mul_centralBinom_succ k
    have hq : ((k : ℚ) + 1) * (Nat.centralBinom (k + 1) : ℚ) = 2 * (2 * k + 1) * (Nat.centralBinom k : ℚ) := by
      exact_mod_cast this
    push_cast
    have hk : (k : ℚ) + 1 ≠ 0 := by positivity
    have hk2 : 2 * (k : ℚ) + 2 ≠ 0 := by positivity
    field_simp
    rw [pow_succ]
    linear_combination (2 * 4 ^ k) * hq
  · ring

/-- Integrals of powers of the cosine over multiples of half a period. -/
lemma integral_cos_pow_eq {b : ℝ} (hb : Real.sin b = 0) (m : ℕ) :
    ∫ φ in (0 : ℝ)..b, Real.cos φ ^ m = b * (arcsineMoment m : ℝ) := by
  induction m using Nat.twoStepInduction with
  | zero => simp [arcsineMoment_zero]
  | one => simp [arcsineMoment_one, hb]
  | more m ih _ =>
    rw [integral_cos_pow, ih, hb, arcsineMoment_step]
    push_cast
    simp
    ring

lemma arcsineMoment_odd {m : ℕ} (h : m % 2 ≠ 0) : arcsineMoment m = 0 := by
  rw [arcsineMoment, if_neg h]

lemma arcsineMoment_two_mul (k : ℕ) : arcsineMoment (2 * k) = (Nat.centralBinom k : ℚ) / 4 ^ k := by
  rw [arcsineMoment, if_pos (by omega), show 2 * k / 2 = k by omega]

end Gftool.Lemmas
