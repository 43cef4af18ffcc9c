import Verif.Model.Fourier
import Verif.Spec.Fourier
import Mathlib.MeasureTheory.Integral.IntervalIntegral.FundThmCalculus
import Mathlib.Tactic

/-!
# Lemmas on exponential sums and Filon quadrature
-/

namespace Gftool.Lemmas

open Gftool Model Spec
open Complex (I)
open MeasureTheory

/-- Orthogonality of the exponentials. -/
lemma exp_sum (M : ℕ) (hM : M ≠ 0) (d : ℤ) :
    ∑ k ∈ Finset.range M, Complex.exp (2 * Real.pi * I * d / M * k)
      = if (M : ℤ) ∣ d then (M : ℂ) else 0 := by
  have hMc : (M : ℂ) ≠ 0 := by exact_mod_cast hM
  set w := Complex.exp (2 * Real.pi * I * d / M) with hw
  have hterm : ∀ k ∈ Finset.range M, Complex.exp (2 * Real.pi * I * d / M * k) = w ^ k := by
    intro k _
    rw [hw, ← Complex.exp_nat_mul]
    ring_nf
  rw [Finset.sum_congr rfl hterm]
  have hwM : w ^ M = 1 := by
    rw [hw, ← Complex.exp_nat_mul, Complex.exp_eq_one_iff]
    exact ⟨d, by field_simp⟩
  split_ifs with h
  · obtain ⟨c, rfl⟩ := h
    have : w = 1 := by
      rw [hw, Complex.exp_eq_one_iff]
      exact ⟨c, by push_cast; field_simp⟩
    rw [this]
    simp
  · have hne : w ≠ 1 := by
      intro h1
      rw [hw, Complex.exp_eq_one_iff] at h1
      obtain ⟨n, hn⟩ := h1
      apply h
      refine ⟨n, ?_⟩
      have hpi : (2 * Real.pi * I : ℂ) ≠ 0 := Complex.two_pi_I_ne_zero
      have h2 : (d : ℂ) = M * n := by
        have : 2 * Real.pi * I * (d / M) = 2 * Real.pi * I * n := by
          rw [mul_div_assoc] at hn
          linear_combination hn
        have := mul_left_cancel₀ hpi this
        field_simp at this
        exact this
      exact_mod_cast h2
    have := mul_geom_sum w M
    rw [hwM, sub_self] at this
    rcases mul_eq_zero.1 this with h0 | h0
    · exact absurd (sub_eq_zero.1 h0) hne
    · exact h0

/-- Only the odd terms of a sum contribute. -/
lemma sum_odd {R : Type*} [AddCommMonoid R] (F : ℕ → R) (h : ∀ k, k % 2 = 0 → F k = 0) (N : ℕ) :
    ∑ k ∈ Finset.range (2 * N + 1), F k = ∑ l ∈ Finset.range N, F (2 * l + 1) := by
  induction N with
  | zero => simp [h 0]
  | succ N ih =>
    have : 2 * (N + 1) + 1 = 2 * N + 1 + 1 + 1 := by ring
    rw [this, Finset.sum_range_succ, Finset.sum_range_succ, ih, Finset.sum_range_succ,
      h (2 * N + 1 + 1) (by omega), add_zero]

private lemma filon_deriv (g0 d s : ℂ) (a D : ℝ) (hs : s ≠ 0) (hD : D ≠ 0) (τ : ℝ) :
    HasDerivAt (fun τ : ℝ => ((g0 + ((τ : ℂ) - a) / D * d) / s - d / (D * s ^ 2)) * Complex.exp (s * τ))
      ((g0 + ((τ : ℂ) - a) / D * d) * Complex.exp (s * τ)) τ := by
  have hDc : (D : ℂ) ≠ 0 := by exact_mod_cast hD
  have h1 : HasDerivAt (fun z : ℂ => ((g0 + (z - a) / D * d) / s - d / (D * s ^ 2))
      * Complex.exp (s * z))
      ((1 / D * d / s) * Complex.exp (s * τ)
        + ((g0 + ((τ : ℂ) - a) / D * d) / s - d / (D * s ^ 2)) * (Complex.exp (s * τ) * s)) (τ : ℂ) := by
    apply HasDerivAt.mul
    · have : HasDerivAt (fun z : ℂ => z - (a : ℂ)) 1 (τ : ℂ) := (hasDerivAt_id _).sub_const _
      exact ((((this.div_const _).mul_const _).const_add _).div_const _).sub_const _
    · have : HasDerivAt (fun z : ℂ => s * z) s (τ : ℂ) := by
        simpa using (hasDerivAt_id (τ : ℂ)).const_mul s
      exact this.cexp
  have h2 := h1.comp_ofReal
  refine h2.congr_deriv ?_
  generalize Complex.exp (s * τ) = e
  field_simp
  ring

/-- Filon's rule on one interval. -/
lemma filon_interval (g0 d s : ℂ) (a D : ℝ) (hs : s ≠ 0) (hD : D ≠ 0) :
    ∫ τ in a..(a + D), (g0 + ((τ : ℂ) - a) / D * d) * Complex.exp (s * τ)
      = D * (Complex.exp (s * a) * (g0 * filonW1 (s * D) + d * filonW2 (s * D))) := by
  have hDc : (D : ℂ) ≠ 0 := by exact_mod_cast hD
  rw [intervalIntegral.integral_eq_sub_of_hasDerivAt
    (fun τ _ => filon_deriv g0 d s a D hs hD τ)
    (by apply Continuous.intervalIntegrable; fun_prop)]
  unfold filonW2 filonW1
  push_cast
  have he : Complex.exp (s * (a + D)) = Complex.exp (s * a) * Complex.exp (s * D) := by
    rw [← Complex.exp_add]; ring_nf
  rw [he]
  generalize Complex.exp (s * a) = e
  generalize Complex.exp (s * D) = f
  field_simp
  ring

/-- The trapezoidal rule on one interval. -/
lemma filon_interval_zero (g0 d : ℂ) (a D : ℝ) (hD : D ≠ 0) :
    ∫ τ in a..(a + D), (g0 + ((τ : ℂ) - a) / D * d) = D * (g0 + d / 2) := by
  have hDc : (D : ℂ) ≠ 0 := by exact_mod_cast hD
  have hder : ∀ τ : ℝ, HasDerivAt (fun τ : ℝ => g0 * τ + ((τ : ℂ) - a) ^ 2 / (2 * D) * d)
      (g0 + ((τ : ℂ) - a) / D * d) τ := by
    intro τ
    have h1 : HasDerivAt (fun z : ℂ => g0 * z + (z - a) ^ 2 / (2 * D) * d)
        (g0 * 1 + ((2 : ℕ) * ((τ : ℂ) - a) ^ (2 - 1) * 1) / (2 * D) * d) (τ : ℂ) := by
      have : HasDerivAt (fun z : ℂ => z - (a : ℂ)) 1 (τ : ℂ) := (hasDerivAt_id _).sub_const _
      exact ((hasDerivAt_id _).const_mul g0).add (((this.pow 2).div_const _).mul_const d)
    refine h1.comp_ofReal.congr_deriv ?_
    push_cast
    field_simp
    try ring
  rw [intervalIntegral.integral_eq_sub_of_hasDerivAt (fun τ _ => hder τ)
    (by apply Continuous.intervalIntegrable; fun_prop)]
  push_cast
  field_simp
  ring

/-- Weights of the Filon rule: for frequency zero those of the trapezoidal rule. -/
noncomputable def fW1 (x : ℂ) : ℂ := if x = 0 then 1 else filonW1 x
noncomputable def fW2 (x : ℂ) : ℂ := if x = 0 then 1 / 2 else filonW2 x

lemma filon_interval' (g0 d s : ℂ) (a D : ℝ) (hD : D ≠ 0) :
    ∫ τ in a..(a + D), (g0 + ((τ : ℂ) - a) / D * d) * Complex.exp (s * τ)
      = D * (Complex.exp (s * a) * (g0 * fW1 (s * D) + d * fW2 (s * D))) := by
  have hDc : (D : ℂ) ≠ 0 := by exact_mod_cast hD
  by_cases hs : s = 0
  · subst hs
    simp only [zero_mul, Complex.exp_zero, mul_one, one_mul, fW1, fW2, if_true]
    rw [filon_interval_zero g0 d a D hD]
    ring
  · have : s * D ≠ 0 := mul_ne_zero hs hDc
    rw [filon_interval g0 d s a D hs hD]
    simp only [fW1, fW2, if_neg this]

/-- The Filon rule integrates `spline × exponential` exactly (and the product is integrable). -/
lemma filon_sum (s : ℂ) (a D : ℝ) (hD : D ≠ 0) (h : ℝ → ℂ) : ∀ (T : ℕ) (g : Fin (T + 1) → ℂ),
    IsLinSpline g a D h →
    IntervalIntegrable (fun τ : ℝ => h τ * Complex.exp (s * τ)) volume a (a + T * D) ∧
    ∫ τ in a..(a + T * D), h τ * Complex.exp (s * τ)
      = D * ∑ k : Fin T, Complex.exp (s * (a + (k : ℕ) * D))
        * (g k.castSucc * fW1 (s * D) + (g k.succ - g k.castSucc) * fW2 (s * D)) := by
  intro T
  induction T with
  | zero => intro g _; simp
  | succ T ih =>
    intro g hg
    obtain ⟨h1, h2⟩ := ih (fun k => g k.castSucc) (fun k τ hτ => by
      have := hg k.castSucc τ (by simpa using hτ)
      rw [Fin.succ_castSucc] at this
      exact this)
    have hlast := hg (Fin.last T)
    simp only [Fin.val_last] at hlast
    have e1 : a + ((T + 1 : ℕ) : ℝ) * D = a + T * D + D := by push_cast; ring
    have e2 : a + ((T : ℝ) + 1) * D = a + T * D + D := by ring
    rw [e2] at hlast
    have hcongr : Set.EqOn (fun τ : ℝ => h τ * Complex.exp (s * τ))
        (fun τ : ℝ => (g (Fin.last T).castSucc + ((τ : ℂ) - ((a + T * D : ℝ) : ℂ)) / D
          * (g (Fin.last T).succ - g (Fin.last T).castSucc)) * Complex.exp (s * τ))
        (Set.uIcc (a + T * D) (a + T * D + D)) := by
      intro τ hτ
      simp only
      rw [hlast τ hτ]
      push_cast
      rfl
    have hint : IntervalIntegrable (fun τ : ℝ => h τ * Complex.exp (s * τ)) volume
        (a + T * D) (a + T * D + D) := by
      refine IntervalIntegrable.congr (fun τ hτ => (hcongr (Set.uIoc_subset_uIcc hτ)).symm) ?_
      apply Continuous.intervalIntegrable
      fun_prop
    rw [e1]
    refine ⟨h1.trans hint, ?_⟩
    rw [← intervalIntegral.integral_add_adjacent_intervals h1 hint, h2,
      intervalIntegral.integral_congr hcongr, filon_interval' _ _ s (a + T * D) D hD,
      Fin.sum_univ_castSucc, mul_add (D : ℂ)]
    push_cast
    simp only [Fin.val_castSucc, Fin.succ_castSucc]

end Gftool.Lemmas
