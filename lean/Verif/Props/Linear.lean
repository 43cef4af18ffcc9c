import Verif.Spec.Linear
import Verif.Lemmas.LstsqLinear
import Verif.Model.Fourier
import Verif.Model.Laplace

/-!
# Property C76: Fourier and Laplace transforms obey the superposition principle
-/

namespace Gftool.Props

open Gftool Model Spec Lemmas Matrix

section
variable {K V W : Type*} [Add V] [Add W] [SMul K V] [SMul K W]

private lemma of_closed {f : V → Except Err W} (err : Option Err) (L : V → W)
    (hf : ∀ g, f g = match err with | some e => .error e | none => .ok (L g))
    (hL : ∀ (a b : K) g h, L (a • g + b • h) = a • L g + b • L h) : Linear K f ∧ SameErrors f := by
  cases err with
  | some e =>
    refine ⟨fun a b g h x y hx => ?_, fun g h e' he => ?_⟩
    · rw [hf] at hx; exact absurd hx (by simp)
    · rw [hf] at he ⊢; exact he
  | none =>
    refine ⟨fun a b g h x y hx hy => ?_, fun g h e' he => ?_⟩
    · rw [hf] at hx hy ⊢
      rw [← Except.ok.inj hx, ← Except.ok.inj hy, ← hL]
    · rw [hf] at he; exact absurd he (by simp)
end

/-- The values of `ihfft`. -/
private noncomputable def dft {n : ℕ} (a : Fin n → ℝ) (m : Fin (n / 2 + 1)) : ℂ :=
  1 / (n : ℂ) * ∑ k : Fin n, (a k : ℂ) * Complex.exp (2 * Real.pi * Complex.I * ((k : ℕ) * (m : ℕ)) / n)

private lemma ihfft_eq {n : ℕ} (a : Fin n → ℝ) : ihfft a = if n = 0 then .error .valueError else .ok (dft a) := rfl

private lemma dft_linear {n : ℕ} (a b : ℝ) (g h : Fin n → ℝ) (m : Fin (n / 2 + 1)) :
    dft (fun k => a * g k + b * h k) m = a * dft g m + b * dft h m := by
  unfold dft
  simp only [Complex.ofReal_add, Complex.ofReal_mul, add_mul, Finset.sum_add_distrib, mul_assoc, ← Finset.mul_sum]
  ring

/-! ## Imaginary time and Matsubara frequencies -/

private lemma fullRange_linear {T : ℕ} (a b : ℝ) (g h : Fin (T + 1) → ℝ) (k : Fin (2 * T + 1)) :
    fullRange (a • g + b • h) k = a * fullRange g k + b * fullRange h k := by
  unfold fullRange
  split_ifs
  · simp only [Pi.add_apply, Pi.smul_apply, smul_eq_mul]; ring
  · simp only [Pi.add_apply, Pi.smul_apply, smul_eq_mul]

/-- C76: `tau2iw_dft`. -/
theorem tau2iw_dft_linear {T : ℕ} (beta : ℝ) :
    Linear ℝ (fun g : Fin (T + 1) → ℝ => tau2iwDft g beta) ∧ SameErrors fun g : Fin (T + 1) → ℝ => tau2iwDft g beta := by
  refine of_closed (if 2 * T = 0 then some .valueError else none)
    (fun g n => -beta * dft (fun k : Fin (2 * T) => fullRange g k.castSucc) ⟨2 * n + 1, by have := n.2; omega⟩) ?_ ?_
  · intro g
    unfold tau2iwDft
    rw [ihfft_eq]
    split_ifs <;> rfl
  · intro a b g h
    funext n
    simp only [fullRange_linear, dft_linear, Pi.add_apply, Pi.smul_apply, Complex.real_smul]
    ring

/-- C76: `tau2iw_ft_lin`. -/
theorem tau2iw_ft_lin_linear {T : ℕ} (beta : ℝ) :
    Linear ℝ (fun g : Fin (T + 1) → ℝ => tau2iwFtLin g beta) ∧ SameErrors fun g : Fin (T + 1) → ℝ => tau2iwFtLin g beta := by
  refine of_closed (if 2 * T = 0 then some .valueError else none)
    (fun g n =>
      let x : ℂ := 2 * Complex.I * Real.pi * (2 * (n : ℕ) + 1 : ℕ) / ((2 * T : ℕ) : ℂ);
      -beta * (filonW1 x * dft (fun k : Fin (2 * T) => fullRange g k.castSucc) ⟨2 * n + 1, by have := n.2; omega⟩
        + filonW2 x * dft (fun k : Fin (2 * T) => fullRange g k.succ - fullRange g k.castSucc)
            ⟨2 * n + 1, by have := n.2; omega⟩)) ?_ ?_
  · intro g
    unfold tau2iwFtLin
    rw [ihfft_eq, ihfft_eq]
    split_ifs <;> rfl
  · intro a b g h
    funext n
    have e : ∀ k : Fin (2 * T), a * fullRange g k.succ + b * fullRange h k.succ
        - (a * fullRange g k.castSucc + b * fullRange h k.castSucc)
        = a * (fullRange g k.succ - fullRange g k.castSucc) + b * (fullRange h k.succ - fullRange h k.castSucc) := by
      intro k; ring
    simp only [fullRange_linear, e, dft_linear, Pi.add_apply, Pi.smul_apply, Complex.real_smul]
    ring

/-- C76: `tau2iv_dft`. -/
theorem tau2iv_dft_linear {T : ℕ} (beta : ℝ) :
    Linear ℝ (fun g : Fin (T + 1) → ℝ => tau2ivDft g beta) ∧ SameErrors fun g : Fin (T + 1) → ℝ => tau2ivDft g beta := by
  refine of_closed (if T = 0 then some .zeroDivision else none)
    (fun g n => if (n : ℕ) = 0 then ((trapezoidDx g (beta / T) : ℝ) : ℂ)
      else beta * dft (fun k : Fin T => g k.castSucc - trapezoidDx g (beta / T)) n) ?_ ?_
  · intro g
    unfold tau2ivDft
    simp only [ihfft_eq]
    split_ifs <;> rfl
  · intro a b g h
    have et : trapezoidDx (a • g + b • h) (beta / T) = a * trapezoidDx g (beta / T) + b * trapezoidDx h (beta / T) := by
      unfold trapezoidDx
      rw [Finset.mul_sum, Finset.mul_sum, ← Finset.sum_add_distrib]
      refine Finset.sum_congr rfl fun k _ => ?_
      simp only [Pi.add_apply, Pi.smul_apply, smul_eq_mul]
      ring
    have e : (fun k : Fin T => (a • g + b • h) k.castSucc - trapezoidDx (a • g + b • h) (beta / T))
        = fun k : Fin T => a * (g k.castSucc - trapezoidDx g (beta / T)) + b * (h k.castSucc - trapezoidDx h (beta / T)) := by
      funext k
      rw [et]
      simp only [Pi.add_apply, Pi.smul_apply, smul_eq_mul]
      ring
    funext n
    rw [e, et]
    simp only [dft_linear, Pi.add_apply, Pi.smul_apply, Complex.real_smul]
    split_ifs
    · push_cast; ring
    · ring

/-- C76: `tau2iv_ft_lin`. -/
theorem tau2iv_ft_lin_linear {T : ℕ} (beta : ℝ) :
    Linear ℝ (fun g : Fin (T + 1) → ℝ => tau2ivFtLin g beta) ∧ SameErrors fun g : Fin (T + 1) → ℝ => tau2ivFtLin g beta := by
  refine of_closed (if T = 0 then some .valueError else none)
    (fun g n =>
      let x : ℂ := 2 * Complex.I * Real.pi / T * (n : ℕ)
      beta * ((if (n : ℕ) = 0 then 1 else filonW1 x) * dft (fun k : Fin T => g k.castSucc) n
        + (if (n : ℕ) = 0 then 0.5 else filonW2 x) * dft (fun k : Fin T => g k.succ - g k.castSucc) n)) ?_ ?_
  · intro g
    unfold tau2ivFtLin
    rw [ihfft_eq, ihfft_eq]
    split_ifs <;> rfl
  · intro a b g h
    funext n
    have e1 : (fun k : Fin T => (a • g + b • h) k.castSucc) = fun k : Fin T => a * g k.castSucc + b * h k.castSucc := by
      funext k; simp
    have e2 : (fun k : Fin T => (a • g + b • h) k.succ - (a • g + b • h) k.castSucc)
        = fun k : Fin T => a * (g k.succ - g k.castSucc) + b * (h k.succ - h k.castSucc) := by
      funext k; simp only [Pi.add_apply, Pi.smul_apply, smul_eq_mul]; ring
    rw [e1, e2]
    simp only [dft_linear, Pi.add_apply, Pi.smul_apply, Complex.real_smul]
    ring

/-- C76: `tau2iv`, which removes the jump, with every linear transformation. -/
theorem tau2iv_linear {T : ℕ} (beta : ℝ) {fourier : (Fin (T + 1) → ℝ) → ℝ → Except Err (Fin (T / 2 + 1) → ℂ)}
    (hf : Linear ℝ (fun g => fourier g beta) ∧ SameErrors fun g => fourier g beta) :
    Linear ℝ (fun g : Fin (T + 1) → ℝ => tau2iv g beta fourier) ∧
      SameErrors fun g : Fin (T + 1) → ℝ => tau2iv g beta fourier := by
  let red : (Fin (T + 1) → ℝ) → Fin (T + 1) → ℝ := fun g k => g k - (g (Fin.last T) - g 0) / beta * linspace0 beta (T + 1) k
  have hdef : ∀ g, tau2iv g beta fourier = match fourier (red g) beta with
      | .error e => .error e
      | .ok r => .ok fun n => if (n : ℕ) = 0 then r n + 0.5 * ((g (Fin.last T) - g 0 : ℝ) : ℂ) * beta
        else r n + ((g (Fin.last T) - g 0 : ℝ) : ℂ) / matsubaraFrequenciesB (n : ℕ) beta := by
    intro g
    rfl
  constructor
  · intro a b g h x y hx hy
    simp only [hdef] at hx hy ⊢
    cases h1 : fourier (red g) beta with
    | error e => rw [h1] at hx; exact absurd hx (by simp)
    | ok r =>
      cases h2 : fourier (red h) beta with
      | error e => rw [h2] at hy; exact absurd hy (by simp)
      | ok s =>
        have h3 := hf.1 a b _ _ _ _ h1 h2
        have e : a • red g + b • red h = red (a • g + b • h) := by
          funext k
          simp only [red, Pi.add_apply, Pi.smul_apply, smul_eq_mul]
          ring
        rw [h1] at hx
        rw [h2] at hy
        simp only [e] at h3
        rw [h3, ← Except.ok.inj hx, ← Except.ok.inj hy]
        simp only [Except.ok.injEq]
        funext n
        simp only [Pi.add_apply, Pi.smul_apply, Complex.real_smul, smul_eq_mul]
        split_ifs
        · push_cast; ring
        · push_cast; ring
  · intro g h e he
    simp only [hdef] at he ⊢
    cases h1 : fourier (red g) beta with
    | error e' =>
      rw [h1] at he
      have h2 := hf.2 _ (red h) _ h1
      simp only at h2
      rw [h2]
      exact he
    | ok r => rw [h1] at he; exact absurd he (by simp)

private lemma iwAll_linear {N : ℕ} (a b : ℝ) (g h : Fin N → ℂ) (k : Fin (2 * N + 1)) :
    iwAll (a • g + b • h) k = a * iwAll g k + b * iwAll h k := by
  unfold iwAll
  split_ifs
  · simp only [Pi.add_apply, Pi.smul_apply, Complex.real_smul]
  · ring

/-- The values of `iw2tau_dft`. -/
private noncomputable def iwDft {N : ℕ} (g : Fin N → ℂ) (beta : ℝ) (j : Fin (2 * N + 1)) : ℝ :=
  if (j : ℕ) < 2 * (2 * N + 1 - 1) then
    ∑ k : Fin (2 * N + 1), (if (k : ℕ) = 0 ∨ (k : ℕ) = 2 * N + 1 - 1 then 1 else 2)
      * (1 / (beta : ℂ) * iwAll g k * Complex.exp (-(2 * Real.pi * Complex.I * ((j : ℕ) * (k : ℕ))
          / ((2 * (2 * N + 1 - 1) : ℕ) : ℂ)))).re
  else 0

private lemma iw2tauDft_eq {N : ℕ} (g : Fin N → ℂ) (beta : ℝ) :
    iw2tauDft g beta = if N = 0 then .error .valueError else .ok (iwDft g beta) := by
  unfold iw2tauDft hfft
  by_cases hN : N = 0
  · rw [if_pos hN, if_pos (by omega)]
  · rw [if_neg hN, if_neg (by omega)]
    simp only [Except.ok.injEq]
    funext j
    unfold iwDft
    split_ifs <;> rfl

private lemma iwDft_linear {N : ℕ} (a b : ℝ) (g h : Fin N → ℂ) (beta : ℝ) (j : Fin (2 * N + 1)) :
    iwDft (a • g + b • h) beta j = a * iwDft g beta j + b * iwDft h beta j := by
  unfold iwDft
  split_ifs
  · rw [Finset.mul_sum, Finset.mul_sum, ← Finset.sum_add_distrib]
    refine Finset.sum_congr rfl fun k _ => ?_
    have e : ∀ w : ℂ, (1 / (beta : ℂ) * iwAll (a • g + b • h) k * w).re
        = a * (1 / (beta : ℂ) * iwAll g k * w).re + b * (1 / (beta : ℂ) * iwAll h k * w).re := by
      intro w
      rw [iwAll_linear, show 1 / (beta : ℂ) * (a * iwAll g k + b * iwAll h k) * w
        = a * (1 / (beta : ℂ) * iwAll g k * w) + b * (1 / (beta : ℂ) * iwAll h k * w) by ring, Complex.add_re,
        Complex.re_ofReal_mul, Complex.re_ofReal_mul]
    rw [e]
    ring
  · ring

/-- C76: `iw2tau_dft`. -/
theorem iw2tau_dft_linear {N : ℕ} (beta : ℝ) :
    Linear ℝ (fun g : Fin N → ℂ => iw2tauDft g beta) ∧ SameErrors fun g : Fin N → ℂ => iw2tauDft g beta := by
  refine of_closed (if N = 0 then some .valueError else none) (fun g => iwDft g beta) ?_ ?_
  · intro g
    rw [iw2tauDft_eq]
    split_ifs <;> rfl
  · intro a b g h
    funext j
    simp only [iwDft_linear, Pi.add_apply, Pi.smul_apply, smul_eq_mul]

/-- C76: `iw2tau_dft_soft`. -/
theorem iw2tau_dft_soft_linear {N : ℕ} (beta : ℝ) :
    Linear ℝ (fun g : Fin N → ℂ => iw2tauDftSoft g beta) ∧ SameErrors fun g : Fin N → ℂ => iw2tauDftSoft g beta := by
  refine of_closed (if 2 * N = 0 then some .valueError else none)
    (fun g j => iwDft (softExtend g) beta ⟨2 * j, by have := j.2; omega⟩) ?_ ?_
  · intro g
    unfold iw2tauDftSoft
    rw [iw2tauDft_eq]
    split_ifs <;> rfl
  · intro a b g h
    have e : softExtend (a • g + b • h) = a • softExtend g + b • softExtend h := by
      funext k
      simp only [softExtend, Pi.add_apply, Pi.smul_apply, Complex.real_smul]
      split_ifs
      · rfl
      · ring
    funext j
    simp only [e, iwDft_linear, Pi.add_apply, Pi.smul_apply, smul_eq_mul]

/-! ## Real time -/

/-- C76: `tt2z_trapz`. -/
theorem tt2z_trapz_linear (n : ℕ) (tt : ℕ → ℝ) (z : ℂ) :
    Linear ℂ (fun g => tt2zTrapz n tt g z) ∧ SameErrors fun g => tt2zTrapz n tt g z := by
  refine of_closed (if n < 2 then some .indexError else none)
    (fun g => 0.5 * (phase z (tt 0) * g 0 * ((tt 1 - tt 0 : ℝ) : ℂ)
      + phase z (tt (n - 1)) * g (n - 1) * ((tt (n - 1) - tt (n - 2) : ℝ) : ℂ) + ∑ k ∈ Finset.range (n - 2),
      phase z (tt (k + 1)) * (g (k + 1) * ((tt (k + 2) - tt k : ℝ) : ℂ)))) ?_ ?_
  · intro g
    unfold tt2zTrapz
    split_ifs <;> rfl
  · intro a b g h
    have e : ∀ k, phase z (tt (k + 1)) * ((a * g (k + 1) + b * h (k + 1)) * ((tt (k + 2) - tt k : ℝ) : ℂ))
        = a * (phase z (tt (k + 1)) * (g (k + 1) * ((tt (k + 2) - tt k : ℝ) : ℂ)))
          + b * (phase z (tt (k + 1)) * (h (k + 1) * ((tt (k + 2) - tt k : ℝ) : ℂ))) := fun k => by ring
    simp only [Pi.add_apply, Pi.smul_apply, smul_eq_mul, e, Finset.sum_add_distrib, ← Finset.mul_sum]
    ring

/-- C76: `tt2z_simps`. -/
theorem tt2z_simps_linear (n : ℕ) (tt : ℕ → ℝ) (z : ℂ) :
    Linear ℂ (fun g => tt2zSimps n tt g z) ∧ SameErrors fun g => tt2zSimps n tt g z := by
  refine of_closed (if n < 2 then some .indexError else none)
    (fun g => ∑ k ∈ Finset.range n, phase z (tt k) * simpsWeight n (tt 1 - tt 0) g false k) ?_ ?_
  · intro g
    unfold tt2zSimps
    split_ifs <;> rfl
  · intro a b g h
    rw [smul_eq_mul, smul_eq_mul, Finset.mul_sum, Finset.mul_sum, ← Finset.sum_add_distrib]
    refine Finset.sum_congr rfl fun k _ => ?_
    simp only [simpsWeight, Pi.add_apply, Pi.smul_apply, smul_eq_mul, Bool.false_eq_true, not_false_eq_true, if_true]
    ring

/-- C76: `tt2z_lin`. -/
theorem tt2z_lin_linear (n : ℕ) (tt : ℕ → ℝ) (z : ℂ) :
    Linear ℂ (fun g => tt2zLin n tt g z) ∧ SameErrors fun g => tt2zLin n tt g z := by
  classical
  let izdt : ℂ := Complex.I * z * (tt 1 - tt 0 : ℝ)
  refine of_closed (if n < 2 then some .indexError else if ¬ equidistant n tt then some .valueError else none)
    (fun g => if z = 0 then ∑ k ∈ Finset.range (n - 1), ((tt (k + 1) - tt k : ℝ) : ℂ) * (g (k + 1) + g k) / 2
      else ((tt 1 - tt 0 : ℝ) : ℂ) * ((Complex.exp izdt - 1) / izdt * ∑ k ∈ Finset.range (n - 1), phase z (tt k) * g k
        + (Complex.exp izdt - (Complex.exp izdt - 1) / izdt) / izdt
          * ∑ k ∈ Finset.range (n - 1), phase z (tt k) * (g (k + 1) - g k))) ?_ ?_
  · intro g
    unfold tt2zLin
    split_ifs <;> rfl
  · intro a b g h
    have e1 : ∀ k, ((tt (k + 1) - tt k : ℝ) : ℂ) * (a * g (k + 1) + b * h (k + 1) + (a * g k + b * h k)) / 2
        = a * (((tt (k + 1) - tt k : ℝ) : ℂ) * (g (k + 1) + g k) / 2)
          + b * (((tt (k + 1) - tt k : ℝ) : ℂ) * (h (k + 1) + h k) / 2) := fun k => by ring
    have e2 : ∀ k, phase z (tt k) * (a * g k + b * h k) = a * (phase z (tt k) * g k) + b * (phase z (tt k) * h k) :=
      fun k => by ring
    have e3 : ∀ k, phase z (tt k) * (a * g (k + 1) + b * h (k + 1) - (a * g k + b * h k))
        = a * (phase z (tt k) * (g (k + 1) - g k)) + b * (phase z (tt k) * (h (k + 1) - h k)) := fun k => by ring
    simp only [Pi.add_apply, Pi.smul_apply, smul_eq_mul, e1, e2, e3, Finset.sum_add_distrib, ← Finset.mul_sum]
    split_ifs
    · rfl
    · ring

end Gftool.Props
