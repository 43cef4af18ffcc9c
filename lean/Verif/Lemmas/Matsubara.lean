import Verif.Model.Statistics
import Verif.Spec.Statistics
import Mathlib.Analysis.SpecialFunctions.Trigonometric.Cotangent
import Mathlib.Tactic

/-!
# Matsubara sums
-/

namespace Gftool.Lemmas

open Gftool Model Complex

private lemma mul_I_mem {y : ℝ} (hy : y ≠ 0) : (y * I : ℂ) ∈ integerComplement := by
  rintro ⟨n, hn⟩
  have := congrArg Complex.im hn
  simp at this
  exact hy this.symm

/-- `∑ 1/((2n+1)² + y²)`. -/
lemma hasSum_odd {y : ℝ} (hy : y ≠ 0) :
    HasSum (fun n : ℕ => (1 : ℝ) / ((2 * n + 1) ^ 2 + y ^ 2))
      (Real.pi * (1 - Real.exp (-(Real.pi * y))) / (4 * y * (1 + Real.exp (-(Real.pi * y))))) := by
  have hx := mul_I_mem hy
  have hx2 : ((y / 2 : ℝ) * I : ℂ) ∈ integerComplement := mul_I_mem (by positivity)
  have hall : HasSum (fun n => cotTerm (y * I) n) (Real.pi * cot (Real.pi * (y * I)) - 1 / (y * I)) :=
    (Summable.hasSum_iff_tendsto_nat (summable_cotTerm hx)).mpr (tendsto_logDeriv_euler_cot_sub hx)
  have hhalf : HasSum (fun n => cotTerm ((y / 2 : ℝ) * I) n)
      (Real.pi * cot (Real.pi * ((y / 2 : ℝ) * I)) - 1 / ((y / 2 : ℝ) * I)) :=
    (Summable.hasSum_iff_tendsto_nat (summable_cotTerm hx2)).mpr (tendsto_logDeriv_euler_cot_sub hx2)
  have hodd : HasSum (fun n : ℕ => cotTerm (y * I) (2 * n + 1))
      (1 / 2 * (Real.pi * cot (Real.pi * ((y / 2 : ℝ) * I)) - 1 / ((y / 2 : ℝ) * I))) := by
    have hfun : (fun n : ℕ => cotTerm (y * I) (2 * n + 1))
        = fun n : ℕ => 1 / 2 * cotTerm ((y / 2 : ℝ) * I) n := by
      funext n
      have h1 : ((y : ℂ) * I - (((2 * n + 1 : ℕ) : ℂ) + 1))
          = 2 * (((y / 2 : ℝ) : ℂ) * I - (n + 1)) := by push_cast; ring
      have h2 : ((y : ℂ) * I + (((2 * n + 1 : ℕ) : ℂ) + 1))
          = 2 * (((y / 2 : ℝ) : ℂ) * I + (n + 1)) := by push_cast; ring
      simp only [cotTerm, h1, h2, one_div, mul_inv]
      ring
    rw [hfun]
    exact hhalf.mul_left (1 / 2)
  have hden : ∀ n : ℕ, ((((2 * n + 1) ^ 2 + y ^ 2 : ℝ)) : ℂ) ≠ 0 := by
    intro n
    have : (0 : ℝ) < (2 * n + 1) ^ 2 + y ^ 2 := by positivity
    exact_mod_cast this.ne'
  have heven : ∀ n : ℕ, cotTerm (y * I) (2 * n)
      = (-2 * y * I) * (((1 : ℝ) / ((2 * n + 1) ^ 2 + y ^ 2) : ℝ) : ℂ) := by
    intro n
    have h1 : ((y : ℂ) * I - (((2 * n : ℕ) : ℂ) + 1)) ≠ 0 := by
      intro h; have := congrArg Complex.im h; simp at this; exact hy this
    have h2 : ((y : ℂ) * I + (((2 * n : ℕ) : ℂ) + 1)) ≠ 0 := by
      intro h; have := congrArg Complex.im h; simp at this; exact hy this
    simp only [cotTerm]
    rw [div_add_div _ _ h1 h2, Complex.ofReal_div, mul_div_assoc', div_eq_div_iff (mul_ne_zero h1 h2)
      (hden n)]
    push_cast
    linear_combination (2 * (y : ℂ) ^ 3 * I) * I_sq
  have hsum : Summable fun n : ℕ => cotTerm (y * I) (2 * n) :=
    hall.summable.comp_injective (i := fun n : ℕ => 2 * n) fun a b h => by simpa using h
  have htot := (hsum.hasSum.even_add_odd hodd).unique hall
  have hval : HasSum (fun n : ℕ => cotTerm (y * I) (2 * n))
      ((Real.pi * cot (Real.pi * (y * I)) - 1 / (y * I))
        - 1 / 2 * (Real.pi * cot (Real.pi * ((y / 2 : ℝ) * I)) - 1 / ((y / 2 : ℝ) * I))) := by
    rw [← htot, add_sub_cancel_right]
    exact hsum.hasSum
  simp only [heven] at hval
  have hyc : (y : ℂ) ≠ 0 := by exact_mod_cast hy
  have h2 := hval.div_const (-2 * y * I)
  have hc : (-2 * y * I : ℂ) ≠ 0 := by simp [hyc]
  simp only [mul_div_cancel_left₀ _ hc] at h2
  rw [← Complex.hasSum_ofReal]
  suffices hv : ((Real.pi * (1 - Real.exp (-(Real.pi * y)))
      / (4 * y * (1 + Real.exp (-(Real.pi * y)))) : ℝ) : ℂ)
      = (Real.pi * cot (Real.pi * (y * I)) - 1 / (y * I)
        - 1 / 2 * (Real.pi * cot (Real.pi * ((y / 2 : ℝ) * I)) - 1 / ((y / 2 : ℝ) * I)))
        / (-2 * y * I) by
    rw [hv]; exact h2
  rw [Complex.cot_pi_eq_exp_ratio, Complex.cot_pi_eq_exp_ratio]
  set E := Complex.exp (-(Real.pi * y)) with hE
  have h3 : Complex.exp (2 * Real.pi * I * (y * I)) = E ^ 2 := by
    rw [hE, ← Complex.exp_nat_mul]
    congr 1
    push_cast
    linear_combination (2 * (Real.pi : ℂ) * y) * I_sq
  have h4 : Complex.exp (2 * Real.pi * I * ((y / 2 : ℝ) * I)) = E := by
    rw [hE]
    congr 1
    push_cast
    linear_combination ((Real.pi : ℂ) * y) * I_sq
  rw [h3, h4]
  have hEr : E = ((Real.exp (-(Real.pi * y)) : ℝ) : ℂ) := by rw [hE]; push_cast; rfl
  have hpos := Real.exp_pos (-(Real.pi * y))
  have hne1 : Real.exp (-(Real.pi * y)) ≠ 1 := by
    rw [Ne, Real.exp_eq_one_iff]
    simp [Real.pi_ne_zero, hy]
  have h5 : (1 : ℂ) - E ≠ 0 := by
    rw [hEr]; intro h; exact hne1 (by exact_mod_cast (sub_eq_zero.1 h).symm)
  have h6 : (1 : ℂ) + E ≠ 0 := by
    rw [hEr]
    have : (0 : ℝ) < 1 + Real.exp (-(Real.pi * y)) := by positivity
    exact_mod_cast this.ne'
  have h7 : (1 : ℂ) - E ^ 2 ≠ 0 := by
    rw [show (1 : ℂ) - E ^ 2 = (1 - E) * (1 + E) by ring]; exact mul_ne_zero h5 h6
  push_cast
  rw [show Complex.exp (-((Real.pi : ℂ) * y)) = E from rfl]
  clear_value E
  have h8 : (1 : ℂ) - E ^ 2 = (1 - E) * (1 + E) := by ring
  rw [h8]
  field_simp
  ring_nf
  simp only [I_sq]
  ring_nf

/-- The Matsubara sum of a single pole. -/
lemma hasSum_matsubara {beta : ℝ} (hb : 0 < beta) (eps : ℝ) :
    HasSum (fun n : ℕ => 2 / beta * (1 / (matsubaraFrequencies n beta - eps) : ℂ).re)
      (Spec.fermi beta eps - 1 / 2) := by
  have hre : ∀ n : ℕ, (1 / (matsubaraFrequencies n beta - eps) : ℂ).re
      = -eps / ((Real.pi / beta * (2 * n + 1)) ^ 2 + eps ^ 2) := by
    intro n
    have h1 : (matsubaraFrequencies n beta - eps : ℂ)
        = ⟨-eps, Real.pi / beta * (2 * n + 1)⟩ := by
      apply Complex.ext <;> simp [matsubaraFrequencies]
    rw [h1, one_div, Complex.inv_re, Complex.normSq_mk]
    ring_nf
  simp only [hre]
  by_cases h0 : eps = 0
  · subst h0
    have : Spec.fermi beta 0 - 1 / 2 = 0 := by simp [Spec.fermi]; norm_num
    rw [this]
    simp
  · have hpi := Real.pi_pos
    set y := beta * eps / Real.pi with hy
    have hy0 : y ≠ 0 := by
      rw [hy]; exact div_ne_zero (mul_ne_zero hb.ne' h0) hpi.ne'
    have h := (hasSum_odd hy0).mul_left (-(2 * beta * eps / Real.pi ^ 2))
    have hpy : Real.pi * y = beta * eps := by rw [hy]; field_simp
    convert h using 1
    · rfl
    · funext n
      have h1 : (0 : ℝ) < (2 * n + 1) ^ 2 + y ^ 2 := by positivity
      have h2 : (Real.pi / beta * (2 * n + 1)) ^ 2 + eps ^ 2
          = (Real.pi / beta) ^ 2 * ((2 * n + 1) ^ 2 + y ^ 2) := by
        rw [hy]; field_simp
      rw [h2]
      field_simp
    · rw [hpy, Real.exp_neg, Spec.fermi]
      have he := Real.exp_pos (beta * eps)
      have h3 : 4 * y = 4 * beta * eps / Real.pi := by rw [hy]; ring
      rw [h3]
      generalize Real.exp (beta * eps) = E at *
      have : 1 + E ≠ 0 := by positivity
      have : E + 1 ≠ 0 := by positivity
      have : 1 + E⁻¹ ≠ 0 := by positivity
      field_simp
      ring

end Gftool.Lemmas
