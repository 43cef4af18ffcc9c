import Verif.Lemmas.Fourier
import Verif.Props.Pole
import Verif.Props.PoleFit
import Mathlib.Tactic

/-!
# Properties C41-C44: Fourier transforms between imaginary time and Matsubara frequencies
-/

namespace Gftool.Props

open Gftool Model Spec Lemmas
open Complex (I)
open MeasureTheory

/-! ## C41: discrete Fourier transforms -/

/-- Imaginary time `τ_j = j β / T`. -/
noncomputable def tauPt (beta : ℝ) (T j : ℕ) : ℝ := j * (beta / T)

private lemma conj_iw (n : ℤ) (beta : ℝ) :
    (starRingEnd ℂ) (matsubaraFrequencies n beta) = -matsubaraFrequencies n beta := by
  unfold matsubaraFrequencies
  have h2 : (starRingEnd ℂ) 2 = 2 := map_ofNat _ 2
  simp [Complex.conj_ofReal, h2]
  ring

/-- C41: `iw2tau_dft` evaluates the Matsubara sum `1/β ∑_n G(iω_n) exp(-iω_n τ)`, truncated to the
given frequencies and their negatives (with `G(-iω) = conj G(iω)`), at the equidistant times. -/
theorem iw2tau_dft_correct {N : ℕ} (hN : N ≠ 0) (g : Fin N → ℂ) {beta : ℝ} (hb : beta ≠ 0) :
    ∃ r, iw2tauDft g beta = .ok r ∧ ∀ j : Fin (2 * N + 1),
      (r j : ℂ) = 1 / beta * ∑ l : Fin N,
        (g l * Complex.exp (-(matsubaraFrequencies (l : ℕ) beta * tauPt beta (2 * N) j))
          + star (g l) * Complex.exp (matsubaraFrequencies (l : ℕ) beta * tauPt beta (2 * N) j)) := by
  have hbc : (beta : ℂ) ≠ 0 := by exact_mod_cast hb
  have hNc : (N : ℂ) ≠ 0 := by exact_mod_cast hN
  refine ⟨_, by unfold iw2tauDft hfft; rw [if_neg (by omega)], fun j => ?_⟩
  have hj : (j : ℕ) < 2 * (2 * N + 1 - 1) := by have := j.2; omega
  simp only [dif_pos hj]
  set gE : ℕ → ℂ := fun l => if h : l < N then g ⟨l, h⟩ else 0 with hgE
  set F : ℕ → ℝ := fun k => if k % 2 = 1 then 2 * (1 / (beta : ℂ) * gE (k / 2)
    * Complex.exp (-(2 * Real.pi * I * ((j : ℕ) * k) / ((2 * (2 * N + 1 - 1) : ℕ) : ℂ)))).re else 0
    with hF
  have hsum : (∑ k : Fin (2 * N + 1), (if (k : ℕ) = 0 ∨ (k : ℕ) = 2 * N + 1 - 1 then 1 else 2)
      * (1 / (beta : ℂ) * iwAll g k * Complex.exp (-(2 * Real.pi * I * ((j : ℕ) * (k : ℕ))
        / ((2 * (2 * N + 1 - 1) : ℕ) : ℂ)))).re) = ∑ k ∈ Finset.range (2 * N + 1), F k := by
    rw [Finset.sum_range]
    refine Finset.sum_congr rfl fun k _ => ?_
    simp only [hF, iwAll]
    by_cases hk : (k : ℕ) % 2 = 1
    · have hk2 : (k : ℕ) / 2 < N := by have := k.2; omega
      have : ¬ ((k : ℕ) = 0 ∨ (k : ℕ) = 2 * N + 1 - 1) := by omega
      rw [dif_pos hk, if_pos hk, if_neg this, hgE]
      simp only [dif_pos hk2]
    · rw [dif_neg hk, if_neg hk]
      simp
  rw [hsum, sum_odd F (fun k hk => by simp only [hF]; rw [if_neg (by omega)]), Finset.sum_range]
  push_cast
  rw [Finset.mul_sum]
  refine Finset.sum_congr rfl fun l _ => ?_
  have hmod : (2 * (l : ℕ) + 1) % 2 = 1 := by omega
  have hdiv : (2 * (l : ℕ) + 1) / 2 = l := by omega
  simp only [hF, if_pos hmod, hdiv, hgE, dif_pos l.2]
  have harg : (2 * Real.pi * I * ((j : ℕ) * ((2 * (l : ℕ) + 1 : ℕ) : ℂ))
      / ((2 * (2 * N + 1 - 1) : ℕ) : ℂ))
      = matsubaraFrequencies (l : ℕ) beta * tauPt beta (2 * N) j := by
    unfold matsubaraFrequencies tauPt
    have : 2 * (2 * N + 1 - 1) = 4 * N := by omega
    rw [this]
    push_cast
    field_simp
    ring
  rw [harg]
  set E := matsubaraFrequencies (l : ℕ) beta * tauPt beta (2 * N) j with hE
  have hconj : (starRingEnd ℂ) (Complex.exp (-E)) = Complex.exp E := by
    rw [← Complex.exp_conj, map_neg, hE, map_mul, conj_iw, Complex.conj_ofReal]
    congr 1
    ring
  push_cast
  have hre : ∀ w : ℂ, (2 * (w.re : ℂ)) = w + (starRingEnd ℂ) w := fun w => by
    rw [Complex.add_conj]; push_cast; ring
  rw [hre, map_mul, map_mul, hconj]
  simp only [map_div₀, map_one, Complex.conj_ofReal, Complex.star_def]
  ring

/-- C41: no frequencies raise `ValueError`. -/
theorem iw2tau_dft_empty (g : Fin 0 → ℂ) (beta : ℝ) : iw2tauDft g beta = .error .valueError := by
  unfold iw2tauDft hfft
  rw [if_pos (by omega)]

lemma exp_iw_beta (n : ℤ) {beta : ℝ} (hb : beta ≠ 0) :
    Complex.exp (matsubaraFrequencies n beta * beta) = -1 := by
  have hbc : (beta : ℂ) ≠ 0 := by exact_mod_cast hb
  have : matsubaraFrequencies n beta * beta = Real.pi * I + n * (2 * Real.pi * I) := by
    unfold matsubaraFrequencies
    field_simp
    ring
  rw [this, Complex.exp_add, Complex.exp_int_mul_two_pi_mul_I, Complex.exp_pi_mul_I]
  ring

/-- C41: the result is antiperiodic: `gf_tau[-1] = -gf_tau[0]`. -/
theorem iw2tau_dft_antiperiodic {N : ℕ} (g : Fin N → ℂ) {beta : ℝ} (hb : beta ≠ 0)
    (r : Fin (2 * N + 1) → ℝ) (hr : iw2tauDft g beta = .ok r) : r (Fin.last _) = -r 0 := by
  by_cases hN : N = 0
  · subst hN; rw [iw2tau_dft_empty] at hr; cases hr
  obtain ⟨r', h1, h2⟩ := iw2tau_dft_correct hN g hb
  rw [hr] at h1
  obtain rfl := Except.ok.inj h1
  have hNr : (N : ℝ) ≠ 0 := by exact_mod_cast hN
  have e1 := h2 (Fin.last _)
  have e2 := h2 0
  have ht : tauPt beta (2 * N) (Fin.last (2 * N) : Fin (2 * N + 1)) = beta := by
    unfold tauPt
    rw [Fin.val_last]
    push_cast
    field_simp
  have ht0 : tauPt beta (2 * N) (0 : Fin (2 * N + 1)) = 0 := by simp [tauPt]
  rw [ht] at e1
  rw [ht0] at e2
  have : ((r (Fin.last _) : ℝ) : ℂ) = ((-r 0 : ℝ) : ℂ) := by
    push_cast
    rw [e1, e2, ← mul_neg, ← Finset.sum_neg_distrib]
    congr 1
    refine Finset.sum_congr rfl fun l _ => ?_
    rw [Complex.exp_neg, exp_iw_beta _ hb]
    simp
    ring
  exact_mod_cast this

private lemma fullRange_eq {T : ℕ} (g : Fin (T + 1) → ℝ) (gE : ℕ → ℝ)
    (hgE : ∀ k : Fin (T + 1), gE k = g k) (k : Fin (2 * T + 1)) :
    fullRange g k = if (k : ℕ) < T then -gE k else gE (k - T) := by
  unfold fullRange
  split_ifs with h
  · rw [← hgE]
  · rw [← hgE]

private noncomputable def extR {n : ℕ} (g : Fin n → ℝ) (k : ℕ) : ℝ :=
  if h : k < n then g ⟨k, h⟩ else 0

private lemma extR_val {n : ℕ} (g : Fin n → ℝ) (k : Fin n) : extR g k = g k := by
  simp [extR]

/-- C41: `tau2iw_dft` evaluates the Riemann sum `β/T ∑_k G(τ_k) exp(iω_n τ_k)`. -/
theorem tau2iw_dft_correct {T : ℕ} (hT : T ≠ 0) (g : Fin (T + 1) → ℝ) {beta : ℝ} (hb : beta ≠ 0) :
    ∃ r, tau2iwDft g beta = .ok r ∧ ∀ n : Fin ((T + 1) / 2),
      r n = beta / T * ∑ k : Fin T, (g k.castSucc : ℂ)
        * Complex.exp (matsubaraFrequencies (n : ℕ) beta * tauPt beta T k) := by
  have hbc : (beta : ℂ) ≠ 0 := by exact_mod_cast hb
  have hTc : (T : ℂ) ≠ 0 := by exact_mod_cast hT
  refine ⟨_, by unfold tau2iwDft ihfft; rw [if_neg (by omega)], fun n => ?_⟩
  simp only
  set E : ℕ → ℂ := fun k => Complex.exp (matsubaraFrequencies (n : ℕ) beta * tauPt beta T k) with hE
  have hET : ∀ k, E (T + k) = -E k := by
    intro k
    simp only [hE]
    have : ((tauPt beta T (T + k) : ℝ) : ℂ) = tauPt beta T k + beta := by
      unfold tauPt
      push_cast
      field_simp
      ring
    rw [this, mul_add, Complex.exp_add, exp_iw_beta _ hb]
    ring
  have hsum : (∑ k : Fin (2 * T), (fullRange g k.castSucc : ℂ)
      * Complex.exp (2 * Real.pi * I * ((k : ℕ) * ((2 * (n : ℕ) + 1 : ℕ) : ℂ)) / ((2 * T : ℕ) : ℂ)))
      = ∑ k ∈ Finset.range (T + T), ((if k < T then -extR g k else extR g (k - T) : ℝ) : ℂ) * E k := by
    rw [← two_mul, Finset.sum_range]
    refine Finset.sum_congr rfl fun k _ => ?_
    rw [fullRange_eq g (extR g) (extR_val g)]
    simp only [Fin.val_castSucc]
    congr 2
    unfold matsubaraFrequencies tauPt
    push_cast
    field_simp
  rw [hsum, Finset.sum_range_add]
  have h1 : ∑ k ∈ Finset.range T, ((if k < T then -extR g k else extR g (k - T) : ℝ) : ℂ) * E k
      = -∑ k ∈ Finset.range T, (extR g k : ℂ) * E k := by
    rw [← Finset.sum_neg_distrib]
    refine Finset.sum_congr rfl fun k hk => ?_
    rw [if_pos (Finset.mem_range.1 hk)]
    push_cast
    ring
  have h2 : ∑ k ∈ Finset.range T, ((if T + k < T then -extR g (T + k) else extR g (T + k - T) : ℝ) : ℂ)
      * E (T + k) = -∑ k ∈ Finset.range T, (extR g k : ℂ) * E k := by
    rw [← Finset.sum_neg_distrib]
    refine Finset.sum_congr rfl fun k hk => ?_
    rw [if_neg (by omega), Nat.add_sub_cancel_left, hET]
    ring
  have h3 : ∑ k : Fin T, (g k.castSucc : ℂ) * E k = ∑ k ∈ Finset.range T, (extR g k : ℂ) * E k := by
    rw [Finset.sum_range]
    refine Finset.sum_congr rfl fun k _ => ?_
    rw [← extR_val g k.castSucc, Fin.val_castSucc]
  rw [h1, h2]
  change _ = (beta : ℂ) / T * ∑ k : Fin T, (g k.castSucc : ℂ) * E k
  rw [h3]
  push_cast
  field_simp
  ring

/-- C41: a single point raises `ValueError`. -/
theorem tau2iw_dft_empty (g : Fin (0 + 1) → ℝ) (beta : ℝ) :
    tau2iwDft g beta = .error .valueError := by
  unfold tau2iwDft ihfft
  rw [if_pos (by omega)]

private lemma exp_iw_diff (l m : ℤ) (N : ℕ) (hN : N ≠ 0) {beta : ℝ} (hb : beta ≠ 0) (k : ℕ) :
    Complex.exp (-(matsubaraFrequencies l beta * tauPt beta (2 * N) k))
      * Complex.exp (matsubaraFrequencies m beta * tauPt beta (2 * N) k)
    = Complex.exp (2 * Real.pi * I * ((m - l : ℤ) : ℂ) / ((2 * N : ℕ) : ℂ) * k) ∧
    Complex.exp (matsubaraFrequencies l beta * tauPt beta (2 * N) k)
      * Complex.exp (matsubaraFrequencies m beta * tauPt beta (2 * N) k)
    = Complex.exp (2 * Real.pi * I * ((m + l + 1 : ℤ) : ℂ) / ((2 * N : ℕ) : ℂ) * k) := by
  have hbc : (beta : ℂ) ≠ 0 := by exact_mod_cast hb
  have hNc : (N : ℂ) ≠ 0 := by exact_mod_cast hN
  constructor
  · rw [← Complex.exp_add]
    congr 1
    unfold matsubaraFrequencies tauPt
    push_cast
    field_simp
    ring
  · rw [← Complex.exp_add]
    congr 1
    unfold matsubaraFrequencies tauPt
    push_cast
    field_simp
    ring

/-- C41: `tau2iw_dft` inverts `iw2tau_dft`, for every number of frequencies and all data. -/
theorem tau2iw_dft_iw2tau_dft {N : ℕ} (hN : N ≠ 0) (g : Fin N → ℂ) {beta : ℝ} (hb : beta ≠ 0) :
    ∃ r h, iw2tauDft g beta = .ok r ∧ tau2iwDft r beta = .ok h ∧
      ∀ m : Fin N, h ⟨m, by have := m.2; omega⟩ = g m := by
  have hbc : (beta : ℂ) ≠ 0 := by exact_mod_cast hb
  have hNc : (N : ℂ) ≠ 0 := by exact_mod_cast hN
  obtain ⟨r, hr1, hr2⟩ := iw2tau_dft_correct hN g hb
  obtain ⟨h, hh1, hh2⟩ := tau2iw_dft_correct (T := 2 * N) (by omega) r hb
  refine ⟨r, h, hr1, hh1, fun m => ?_⟩
  rw [hh2]
  simp only [hr2, Fin.val_castSucc]
  have hswap : ∑ k : Fin (2 * N), (1 / (beta : ℂ) * ∑ l : Fin N,
        (g l * Complex.exp (-(matsubaraFrequencies (l : ℕ) beta * tauPt beta (2 * N) k))
          + star (g l) * Complex.exp (matsubaraFrequencies (l : ℕ) beta * tauPt beta (2 * N) k)))
        * Complex.exp (matsubaraFrequencies (m : ℕ) beta * tauPt beta (2 * N) k)
      = 1 / beta * ∑ l : Fin N, (g l * ∑ k ∈ Finset.range (2 * N),
          Complex.exp (2 * Real.pi * I * (((m : ℕ) - (l : ℕ) : ℤ) : ℂ) / ((2 * N : ℕ) : ℂ) * k)
        + star (g l) * ∑ k ∈ Finset.range (2 * N),
          Complex.exp (2 * Real.pi * I * (((m : ℕ) + (l : ℕ) + 1 : ℤ) : ℂ) / ((2 * N : ℕ) : ℂ) * k)) := by
    simp only [Finset.sum_range, Finset.mul_sum, Finset.sum_mul]
    rw [Finset.sum_comm]
    refine Finset.sum_congr rfl fun l _ => ?_
    rw [mul_add, Finset.mul_sum, Finset.mul_sum, ← Finset.sum_add_distrib]
    refine Finset.sum_congr rfl fun k _ => ?_
    obtain ⟨d1, d2⟩ := exp_iw_diff (l : ℕ) (m : ℕ) N hN hb k
    rw [← d1, ← d2]
    ring
  rw [hswap]
  have h2N : 2 * N ≠ 0 := by omega
  simp only [exp_sum (2 * N) h2N]
  rw [Finset.sum_eq_single m]
  · rw [sub_self, if_pos (dvd_zero _), if_neg]
    · push_cast
      field_simp
      simp
    · intro hd
      have := Int.le_of_dvd (by positivity) hd
      have hm := m.2
      push_cast at this
      omega
  · intro l _ hl
    have hl' : (l : ℕ) ≠ m := fun h => hl (Fin.ext h)
    have hl2 := l.2
    have hm := m.2
    rw [if_neg, if_neg]
    · simp
    · intro hd
      have := Int.le_of_dvd (by positivity) hd
      push_cast at this
      omega
    · intro hd
      rcases lt_trichotomy (((m : ℕ) : ℤ) - (l : ℕ)) 0 with hlt | heq | hgt
      · have := Int.le_of_dvd (by omega) ((dvd_neg).2 hd)
        push_cast at this
        omega
      · omega
      · have := Int.le_of_dvd hgt hd
        push_cast at this
        omega
  · intro h; exact absurd (Finset.mem_univ _) h

/-- The kernel of `iw2tau_dft ∘ tau2iw_dft` is the identity. -/
private lemma exp_iw_sum (N : ℕ) (hN : N ≠ 0) {beta : ℝ} (hb : beta ≠ 0) (j k : ℕ)
    (hj : j < 2 * N) (hk : k < 2 * N) :
    ∑ l : Fin N, (Complex.exp (-(matsubaraFrequencies (l : ℕ) beta * tauPt beta (2 * N) j))
        * Complex.exp (matsubaraFrequencies (l : ℕ) beta * tauPt beta (2 * N) k)
      + Complex.exp (matsubaraFrequencies (l : ℕ) beta * tauPt beta (2 * N) j)
        * Complex.exp (-(matsubaraFrequencies (l : ℕ) beta * tauPt beta (2 * N) k)))
      = if j = k then ((2 * N : ℕ) : ℂ) else 0 := by
  have hbc : (beta : ℂ) ≠ 0 := by exact_mod_cast hb
  have hNc : (N : ℂ) ≠ 0 := by exact_mod_cast hN
  set d : ℤ := (k : ℤ) - j with hd
  set c := Complex.exp (Real.pi * I * d / ((2 * N : ℕ) : ℂ)) with hc
  set E : ℕ → ℂ := fun l => c * Complex.exp (2 * Real.pi * I * d / ((2 * N : ℕ) : ℂ) * l) with hE
  have h1 : ∀ l : ℕ, Complex.exp (-(matsubaraFrequencies (l : ℕ) beta * tauPt beta (2 * N) j))
        * Complex.exp (matsubaraFrequencies (l : ℕ) beta * tauPt beta (2 * N) k) = E l := by
    intro l
    simp only [hE, hc]
    rw [← Complex.exp_add, ← Complex.exp_add]
    congr 1
    unfold matsubaraFrequencies tauPt
    rw [hd]
    push_cast
    field_simp
    ring
  have h2 : ∀ l < N, Complex.exp (matsubaraFrequencies (l : ℕ) beta * tauPt beta (2 * N) j)
        * Complex.exp (-(matsubaraFrequencies (l : ℕ) beta * tauPt beta (2 * N) k))
        = E (N + (N - 1 - l)) := by
    intro l hl
    simp only [hE, hc]
    rw [← Complex.exp_add, ← Complex.exp_add]
    have : matsubaraFrequencies ((l : ℕ) : ℤ) beta * tauPt beta (2 * N) j
        + -(matsubaraFrequencies ((l : ℕ) : ℤ) beta * tauPt beta (2 * N) k)
        + d * (2 * Real.pi * I)
        = Real.pi * I * d / ((2 * N : ℕ) : ℂ)
          + 2 * Real.pi * I * d / ((2 * N : ℕ) : ℂ) * ((N + (N - 1 - l) : ℕ) : ℂ) := by
      unfold matsubaraFrequencies tauPt
      rw [hd]
      have hcast : ((N + (N - 1 - l) : ℕ) : ℂ) = 2 * N - 1 - l := by
        have : N + (N - 1 - l) + 1 + l = 2 * N := by omega
        have := congrArg (Nat.cast : ℕ → ℂ) this
        push_cast at this
        push_cast
        linear_combination this
      rw [hcast]
      push_cast
      field_simp
      ring
    rw [← this, Complex.exp_add _ ((d : ℂ) * (2 * Real.pi * I)), Complex.exp_int_mul_two_pi_mul_I,
      mul_one]
  have hsum : ∑ l ∈ Finset.range (N + N), E l = if j = k then ((2 * N : ℕ) : ℂ) else 0 := by
    simp only [hE]
    rw [← Finset.mul_sum, ← two_mul, exp_sum (2 * N) (by omega) d]
    by_cases hjk : j = k
    · have : d = 0 := by omega
      rw [if_pos hjk, if_pos (by rw [this]; exact dvd_zero _), hc, this]
      simp
    · rw [if_neg hjk, if_neg, mul_zero]
      intro hdvd
      rcases lt_trichotomy d 0 with hlt | heq | hgt
      · have := Int.le_of_dvd (by omega) ((dvd_neg).2 hdvd)
        push_cast at this
        omega
      · omega
      · have := Int.le_of_dvd hgt hdvd
        push_cast at this
        omega
  rw [← hsum, Finset.sum_range_add, Finset.sum_add_distrib]
  congr 1
  · rw [Finset.sum_range]
    exact Finset.sum_congr rfl fun l _ => h1 l
  · rw [← Finset.sum_range_reflect, Finset.sum_range]
    refine Finset.sum_congr rfl fun l _ => ?_
    rw [h2 l l.2]

/-- C41: conversely, `iw2tau_dft` inverts `tau2iw_dft` on antiperiodic data. -/
theorem iw2tau_dft_tau2iw_dft {N : ℕ} (hN : N ≠ 0) (g : Fin (2 * N + 1) → ℝ) {beta : ℝ}
    (hb : beta ≠ 0) (hg : g (Fin.last _) = -g 0) :
    ∃ h, tau2iwDft g beta = .ok h ∧
      iw2tauDft (fun l : Fin N => h ⟨l, by have := l.2; omega⟩) beta = .ok g := by
  have hbc : (beta : ℂ) ≠ 0 := by exact_mod_cast hb
  have hNc : (N : ℂ) ≠ 0 := by exact_mod_cast hN
  obtain ⟨h, hh1, hh2⟩ := tau2iw_dft_correct (T := 2 * N) (by omega) g hb
  obtain ⟨r, hr1, hr2⟩ := iw2tau_dft_correct hN (fun l : Fin N => h ⟨l, by have := l.2; omega⟩) hb
  refine ⟨h, hh1, ?_⟩
  rw [hr1]
  congr 1
  have hlt : ∀ j : Fin (2 * N), r j.castSucc = g j.castSucc := by
    intro j
    have hj := hr2 j.castSucc
    simp only [hh2, Fin.val_castSucc] at hj
    have hstar : ∀ l : Fin N, star ((beta : ℂ) / ((2 * N : ℕ) : ℂ) * ∑ k : Fin (2 * N), (g k.castSucc : ℂ)
        * Complex.exp (matsubaraFrequencies (l : ℕ) beta * tauPt beta (2 * N) k))
        = (beta : ℂ) / ((2 * N : ℕ) : ℂ) * ∑ k : Fin (2 * N), (g k.castSucc : ℂ)
        * Complex.exp (-(matsubaraFrequencies (l : ℕ) beta * tauPt beta (2 * N) k)) := by
      intro l
      rw [Complex.star_def, map_mul, map_sum]
      congr 1
      · rw [map_div₀, Complex.conj_ofReal, map_natCast]
      · refine Finset.sum_congr rfl fun k _ => ?_
        rw [map_mul, Complex.conj_ofReal, ← Complex.exp_conj, map_mul, conj_iw, Complex.conj_ofReal,
          neg_mul]
    simp only [hstar] at hj
    have hswap : ∑ l : Fin N, ((beta : ℂ) / ((2 * N : ℕ) : ℂ) * (∑ k : Fin (2 * N), (g k.castSucc : ℂ)
          * Complex.exp (matsubaraFrequencies (l : ℕ) beta * tauPt beta (2 * N) k))
          * Complex.exp (-(matsubaraFrequencies (l : ℕ) beta * tauPt beta (2 * N) j))
        + (beta : ℂ) / ((2 * N : ℕ) : ℂ) * (∑ k : Fin (2 * N), (g k.castSucc : ℂ)
          * Complex.exp (-(matsubaraFrequencies (l : ℕ) beta * tauPt beta (2 * N) k)))
          * Complex.exp (matsubaraFrequencies (l : ℕ) beta * tauPt beta (2 * N) j))
        = (beta : ℂ) / ((2 * N : ℕ) : ℂ) * ∑ k : Fin (2 * N), (g k.castSucc : ℂ)
          * (if (j : ℕ) = k then ((2 * N : ℕ) : ℂ) else 0) := by
      simp only [← exp_iw_sum N hN hb j _ j.2 (Fin.is_lt _)]
      simp only [Finset.mul_sum, Finset.sum_mul]
      rw [Finset.sum_comm]
      refine Finset.sum_congr rfl fun k _ => ?_
      rw [← Finset.sum_add_distrib]
      refine Finset.sum_congr rfl fun l _ => ?_
      ring
    rw [hswap, Finset.sum_eq_single j] at hj
    · rw [if_pos rfl] at hj
      have : ((r j.castSucc : ℝ) : ℂ) = (g j.castSucc : ℂ) := by
        rw [hj]
        push_cast
        field_simp
      exact_mod_cast this
    · intro k _ hk
      rw [if_neg (fun h => hk (Fin.ext h.symm)), mul_zero]
    · intro h; exact absurd (Finset.mem_univ _) h
  ext j
  refine Fin.lastCases ?_ (fun j => hlt j) j
  rw [hg, iw2tau_dft_antiperiodic _ hb r hr1]
  have h0 : (0 : Fin (2 * N + 1)) = Fin.castSucc ⟨0, by omega⟩ := rfl
  rw [h0, hlt]

/-- One frequency, `β = 2`: the hypotheses are met and the result is not trivial. -/
example : ∃ r h, iw2tauDft (fun _ : Fin 1 => (2 + 3 * I : ℂ)) 2 = .ok r ∧
    tau2iwDft r 2 = .ok h ∧ h ⟨0, by omega⟩ = 2 + 3 * I := by
  obtain ⟨r, h, h1, h2, h3⟩ := tau2iw_dft_iw2tau_dft one_ne_zero (fun _ : Fin 1 => (2 + 3 * I : ℂ))
    (two_ne_zero (α := ℝ))
  exact ⟨r, h, h1, h2, h3 0⟩

/-- The soft variant is the plain transform plus the Matsubara sum of the artificial tail. -/
theorem iw2tau_dft_soft_correct {N : ℕ} (hN : N ≠ 0) (g : Fin N → ℂ) {beta : ℝ} (hb : beta ≠ 0) :
    ∃ r, iw2tauDftSoft g beta = .ok r ∧ ∀ j : Fin (2 * N + 1),
      (r j : ℂ) = 1 / beta * ∑ l : Fin (2 * N),
        (softExtend g l * Complex.exp (-(matsubaraFrequencies (l : ℕ) beta * tauPt beta (2 * N) j))
          + star (softExtend g l)
            * Complex.exp (matsubaraFrequencies (l : ℕ) beta * tauPt beta (2 * N) j)) := by
  obtain ⟨r, h1, h2⟩ := iw2tau_dft_correct (N := 2 * N) (by omega) (softExtend g) hb
  refine ⟨fun j => r ⟨2 * j, by have := j.2; omega⟩, by unfold iw2tauDftSoft; rw [h1], fun j => ?_⟩
  rw [h2]
  have : tauPt beta (2 * (2 * N)) (2 * (j : ℕ)) = tauPt beta (2 * N) j := by
    have hNr : (N : ℝ) ≠ 0 := by exact_mod_cast hN
    unfold tauPt
    push_cast
    field_simp
  simp only [this]

/-- The artificial tail of the soft variant ends at exactly zero and starts with the given data. -/
theorem soft_extend_spec {N : ℕ} (hN : N ≠ 0) (g : Fin N → ℂ) :
    (∀ k : Fin N, softExtend g ⟨k, by have := k.2; omega⟩ = g k) ∧
    softExtend g ⟨2 * N - 1, by omega⟩ = 0 := by
  have hNr : (N : ℝ) ≠ 0 := by exact_mod_cast hN
  constructor
  · intro k
    unfold softExtend
    rw [dif_pos k.2]
  · unfold softExtend
    rw [dif_neg (by simp; omega)]
    have : ((2 * N - 1 - N + 1 : ℕ) : ℝ) = N := by
      congr 1; omega
    simp only [this]
    rw [mul_div_cancel_right₀ _ hNr, Real.cos_pi]
    simp

/-! ## C42: Filon's method -/

/-- Spline of real data. -/
abbrev IsLinSplineR {T : ℕ} (g : Fin (T + 1) → ℝ) (a d : ℝ) (h : ℝ → ℂ) : Prop :=
  IsLinSpline (fun k => (g k : ℂ)) a d h

/-- C42: `tau2iv_ft_lin` returns the Fourier integral of the linear spline of the data, for every
bosonic frequency including zero. -/
theorem tau2iv_ft_lin_exact {T : ℕ} (hT : T ≠ 0) (g : Fin (T + 1) → ℝ) {beta : ℝ} (hb : beta ≠ 0)
    (h : ℝ → ℂ) (hh : IsLinSplineR g 0 (beta / T) h) :
    ∃ r, tau2ivFtLin g beta = .ok r ∧ ∀ n : Fin (T / 2 + 1),
      r n = ∫ τ in (0 : ℝ)..beta, h τ * Complex.exp (matsubaraFrequenciesB (n : ℕ) beta * τ) := by
  have hbc : (beta : ℂ) ≠ 0 := by exact_mod_cast hb
  have hTc : (T : ℂ) ≠ 0 := by exact_mod_cast hT
  have hTr : (T : ℝ) ≠ 0 := by exact_mod_cast hT
  refine ⟨_, by unfold tau2ivFtLin ihfft; rw [if_neg hT, if_neg hT], fun n => ?_⟩
  simp only
  have hD : beta / T ≠ 0 := div_ne_zero hb hTr
  have hf := (filon_sum (matsubaraFrequenciesB (n : ℕ) beta) 0 (beta / T) hD h T _ hh).2
  have hend : (0 : ℝ) + T * (beta / T) = beta := by field_simp; ring
  rw [hend] at hf
  rw [hf]
  have hx : matsubaraFrequenciesB (n : ℕ) beta * ((beta / T : ℝ) : ℂ)
      = 2 * I * Real.pi / T * (n : ℕ) := by
    unfold matsubaraFrequenciesB
    push_cast
    field_simp
  rw [hx]
  have hzero : (2 * I * Real.pi / T * (n : ℕ) : ℂ) = 0 ↔ (n : ℕ) = 0 := by
    constructor
    · intro h0
      have hpi : (Real.pi : ℂ) ≠ 0 := by exact_mod_cast Real.pi_ne_zero
      have : (2 * I * Real.pi / T : ℂ) ≠ 0 := by
        simp [hpi, hTc]
      rcases mul_eq_zero.1 h0 with h1 | h1
      · exact absurd h1 this
      · exact_mod_cast h1
    · intro h0; rw [h0]; simp
  have hw1 : (if (n : ℕ) = 0 then (1 : ℂ) else filonW1 (2 * I * Real.pi / T * (n : ℕ)))
      = fW1 (2 * I * Real.pi / T * (n : ℕ)) := by
    unfold fW1
    simp only [hzero]
  have hw2 : (if (n : ℕ) = 0 then (0.5 : ℂ) else filonW2 (2 * I * Real.pi / T * (n : ℕ)))
      = fW2 (2 * I * Real.pi / T * (n : ℕ)) := by
    unfold fW2
    simp only [hzero]
    congr 1
    norm_num
  rw [hw1, hw2]
  generalize fW1 (2 * I * Real.pi / T * (n : ℕ)) = w1
  generalize fW2 (2 * I * Real.pi / T * (n : ℕ)) = w2
  have hE : ∀ k : Fin T, Complex.exp (matsubaraFrequenciesB (n : ℕ) beta
      * (((0 : ℝ) : ℂ) + (k : ℕ) * ((beta / T : ℝ) : ℂ)))
      = Complex.exp (2 * Real.pi * I * ((k : ℕ) * (n : ℕ)) / T) := by
    intro k
    congr 1
    unfold matsubaraFrequenciesB
    push_cast
    field_simp
    ring
  simp only [hE]
  rw [Finset.mul_sum, Finset.mul_sum, Finset.mul_sum, Finset.mul_sum, Finset.mul_sum,
    ← Finset.sum_add_distrib, Finset.mul_sum]
  refine Finset.sum_congr rfl fun k _ => ?_
  push_cast
  field_simp

/-- C42: `tau2iw_ft_lin` returns half the Fourier integral over `[-β, β]` of the linear spline of the
antiperiodically continued data, for every fermionic frequency. -/
theorem tau2iw_ft_lin_exact {T : ℕ} (hT : T ≠ 0) (g : Fin (T + 1) → ℝ) {beta : ℝ} (hb : beta ≠ 0)
    (h : ℝ → ℂ) (hh : IsLinSplineR (fullRange g) (-beta) (beta / T) h) :
    ∃ r, tau2iwFtLin g beta = .ok r ∧ ∀ n : Fin ((T + 1) / 2),
      r n = 1 / 2 * ∫ τ in (-beta : ℝ)..beta,
        h τ * Complex.exp (matsubaraFrequencies (n : ℕ) beta * τ) := by
  have hbc : (beta : ℂ) ≠ 0 := by exact_mod_cast hb
  have hTc : (T : ℂ) ≠ 0 := by exact_mod_cast hT
  have hTr : (T : ℝ) ≠ 0 := by exact_mod_cast hT
  have h2T : ¬ 2 * T = 0 := by omega
  refine ⟨_, by unfold tau2iwFtLin ihfft; rw [if_neg h2T, if_neg h2T], fun n => ?_⟩
  simp only
  have hD : beta / T ≠ 0 := div_ne_zero hb hTr
  have hf := (filon_sum (matsubaraFrequencies (n : ℕ) beta) (-beta) (beta / T) hD h (2 * T) _ hh).2
  have hend : (-beta : ℝ) + (2 * T : ℕ) * (beta / T) = beta := by
    push_cast; field_simp; ring
  rw [hend] at hf
  rw [hf]
  have hx : matsubaraFrequencies (n : ℕ) beta * ((beta / T : ℝ) : ℂ)
      = 2 * I * Real.pi * (2 * (n : ℕ) + 1 : ℕ) / ((2 * T : ℕ) : ℂ) := by
    unfold matsubaraFrequencies
    push_cast
    field_simp
  rw [hx]
  have hzero : (2 * I * Real.pi * (2 * (n : ℕ) + 1 : ℕ) / ((2 * T : ℕ) : ℂ)) ≠ 0 := by
    have hpi : (Real.pi : ℂ) ≠ 0 := by exact_mod_cast Real.pi_ne_zero
    have h1 : (((2 * (n : ℕ) + 1 : ℕ) : ℂ)) ≠ 0 := by exact_mod_cast (by omega : 2 * (n : ℕ) + 1 ≠ 0)
    have h2 : (((2 * T : ℕ) : ℂ)) ≠ 0 := by exact_mod_cast h2T
    exact div_ne_zero (mul_ne_zero (mul_ne_zero (mul_ne_zero two_ne_zero Complex.I_ne_zero) hpi) h1) h2
  simp only [fW1, fW2, if_neg hzero]
  generalize filonW1 (2 * I * Real.pi * (2 * (n : ℕ) + 1 : ℕ) / ((2 * T : ℕ) : ℂ)) = w1
  generalize filonW2 (2 * I * Real.pi * (2 * (n : ℕ) + 1 : ℕ) / ((2 * T : ℕ) : ℂ)) = w2
  have hE : ∀ k : Fin (2 * T), Complex.exp (matsubaraFrequencies (n : ℕ) beta
      * (((-beta : ℝ) : ℂ) + (k : ℕ) * ((beta / T : ℝ) : ℂ)))
      = -Complex.exp (2 * Real.pi * I * ((k : ℕ) * ((2 * (n : ℕ) + 1 : ℕ) : ℂ)) / ((2 * T : ℕ) : ℂ)) := by
    intro k
    have : matsubaraFrequencies (n : ℕ) beta * (((-beta : ℝ) : ℂ) + (k : ℕ) * ((beta / T : ℝ) : ℂ))
        = 2 * Real.pi * I * ((k : ℕ) * ((2 * (n : ℕ) + 1 : ℕ) : ℂ)) / ((2 * T : ℕ) : ℂ)
          - matsubaraFrequencies (n : ℕ) beta * beta := by
      unfold matsubaraFrequencies
      push_cast
      field_simp
      ring
    rw [this, Complex.exp_sub, exp_iw_beta _ hb]
    ring
  simp only [hE]
  rw [Finset.mul_sum, Finset.mul_sum, Finset.mul_sum, Finset.mul_sum, Finset.mul_sum,
    ← Finset.sum_add_distrib, Finset.mul_sum, Finset.mul_sum]
  refine Finset.sum_congr rfl fun k _ => ?_
  push_cast
  field_simp

/-- C42: relation to the integral over `[0, β]` of the spline of the data: they agree up to a term
proportional to the jump `G(0) + G(β)`. -/
theorem tau2iw_ft_lin_jump {T : ℕ} (hT : T ≠ 0) (g : Fin (T + 1) → ℝ) {beta : ℝ} (hb : beta ≠ 0)
    (h : ℝ → ℂ) (hh : IsLinSplineR g 0 (beta / T) h) :
    ∃ r, tau2iwFtLin g beta = .ok r ∧ ∀ n : Fin ((T + 1) / 2),
      r n = (∫ τ in (0 : ℝ)..beta, h τ * Complex.exp (matsubaraFrequencies (n : ℕ) beta * τ))
        - beta / (2 * T) * filonW2 (matsubaraFrequencies (n : ℕ) beta * (beta / T))
          * (g 0 + g (Fin.last T))
          * Complex.exp (matsubaraFrequencies (n : ℕ) beta * tauPt beta T (T - 1)) := by
  have hbc : (beta : ℂ) ≠ 0 := by exact_mod_cast hb
  have hTc : (T : ℂ) ≠ 0 := by exact_mod_cast hT
  have hTr : (T : ℝ) ≠ 0 := by exact_mod_cast hT
  have h2T : ¬ 2 * T = 0 := by omega
  refine ⟨_, by unfold tau2iwFtLin ihfft; rw [if_neg h2T, if_neg h2T], fun n => ?_⟩
  simp only
  have hD : beta / T ≠ 0 := div_ne_zero hb hTr
  have hf := (filon_sum (matsubaraFrequencies (n : ℕ) beta) 0 (beta / T) hD h T _ hh).2
  have hend : (0 : ℝ) + T * (beta / T) = beta := by field_simp; ring
  rw [hend] at hf
  rw [hf]
  have hx : matsubaraFrequencies (n : ℕ) beta * ((beta / T : ℝ) : ℂ)
      = 2 * I * Real.pi * (2 * (n : ℕ) + 1 : ℕ) / ((2 * T : ℕ) : ℂ) := by
    unfold matsubaraFrequencies
    push_cast
    field_simp
  have hx' : matsubaraFrequencies (n : ℕ) beta * ((beta : ℂ) / T)
      = 2 * I * Real.pi * (2 * (n : ℕ) + 1 : ℕ) / ((2 * T : ℕ) : ℂ) := by
    rw [← hx]; push_cast; rfl
  rw [hx, hx']
  have hzero : (2 * I * Real.pi * (2 * (n : ℕ) + 1 : ℕ) / ((2 * T : ℕ) : ℂ)) ≠ 0 := by
    have hpi : (Real.pi : ℂ) ≠ 0 := by exact_mod_cast Real.pi_ne_zero
    have h1 : (((2 * (n : ℕ) + 1 : ℕ) : ℂ)) ≠ 0 := by exact_mod_cast (by omega : 2 * (n : ℕ) + 1 ≠ 0)
    have h2 : (((2 * T : ℕ) : ℂ)) ≠ 0 := by exact_mod_cast h2T
    exact div_ne_zero (mul_ne_zero (mul_ne_zero (mul_ne_zero two_ne_zero Complex.I_ne_zero) hpi) h1) h2
  simp only [fW1, fW2, if_neg hzero]
  generalize filonW1 (2 * I * Real.pi * (2 * (n : ℕ) + 1 : ℕ) / ((2 * T : ℕ) : ℂ)) = w1
  generalize filonW2 (2 * I * Real.pi * (2 * (n : ℕ) + 1 : ℕ) / ((2 * T : ℕ) : ℂ)) = w2
  set E : ℕ → ℂ := fun k => Complex.exp (matsubaraFrequencies (n : ℕ) beta * tauPt beta T k) with hE
  have hET : ∀ k, E (T + k) = -E k := by
    intro k
    simp only [hE]
    have : ((tauPt beta T (T + k) : ℝ) : ℂ) = tauPt beta T k + beta := by
      unfold tauPt
      push_cast
      field_simp
      ring
    rw [this, mul_add, Complex.exp_add, exp_iw_beta _ hb]
    ring
  set F : ℕ → ℂ := fun k => ((if k < T then -extR g k else extR g (k - T) : ℝ) : ℂ) with hF
  have hFv : ∀ k : Fin (2 * T + 1), ((fullRange g k : ℝ) : ℂ) = F k := by
    intro k
    rw [fullRange_eq g (extR g) (extR_val g)]
  have hEk : ∀ k : Fin (2 * T), Complex.exp (2 * Real.pi * I
      * ((k : ℕ) * ((2 * (n : ℕ) + 1 : ℕ) : ℂ)) / ((2 * T : ℕ) : ℂ)) = E k := by
    intro k
    simp only [hE]
    congr 1
    unfold matsubaraFrequencies tauPt
    push_cast
    field_simp
  have hEg : ∀ k : Fin T, Complex.exp (matsubaraFrequencies (n : ℕ) beta
      * (((0 : ℝ) : ℂ) + (k : ℕ) * ((beta / T : ℝ) : ℂ))) = E k := by
    intro k
    simp only [hE, tauPt]
    congr 1
    push_cast
    ring
  have hS : ∑ k ∈ Finset.range (T + T), E k * (w1 * F k + w2 * (F (k + 1) - F k))
      = -2 * (∑ k : Fin T, E k * ((g k.castSucc : ℂ) * w1
          + ((g k.succ : ℂ) - g k.castSucc) * w2))
        + E (T - 1) * w2 * (g 0 + g (Fin.last T)) := by
    rw [Finset.sum_range_add]
    have hcast : ∑ k : Fin T, E k * ((g k.castSucc : ℂ) * w1 + ((g k.succ : ℂ) - g k.castSucc) * w2)
        = ∑ k ∈ Finset.range T, E k * ((extR g k : ℂ) * w1
          + ((extR g (k + 1) : ℂ) - extR g k) * w2) := by
      rw [Finset.sum_range]
      refine Finset.sum_congr rfl fun k _ => ?_
      rw [← extR_val g k.castSucc, ← extR_val g k.succ, Fin.val_castSucc, Fin.val_succ]
    rw [hcast]
    have s2 : ∑ k ∈ Finset.range T, E (T + k) * (w1 * F (T + k) + w2 * (F (T + k + 1) - F (T + k)))
        = -∑ k ∈ Finset.range T, E k * ((extR g k : ℂ) * w1
          + ((extR g (k + 1) : ℂ) - extR g k) * w2) := by
      rw [← Finset.sum_neg_distrib]
      refine Finset.sum_congr rfl fun k hk => ?_
      have e1 : F (T + k) = extR g k := by
        simp only [hF]; rw [if_neg (by omega), Nat.add_sub_cancel_left]
      have e2 : F (T + k + 1) = extR g (k + 1) := by
        simp only [hF]; rw [if_neg (by omega)]
        have : T + k + 1 - T = k + 1 := by omega
        rw [this]
      rw [e1, e2, hET]
      ring
    have s1 : ∑ k ∈ Finset.range T, E k * (w1 * F k + w2 * (F (k + 1) - F k))
        = -(∑ k ∈ Finset.range T, E k * ((extR g k : ℂ) * w1
          + ((extR g (k + 1) : ℂ) - extR g k) * w2))
          + ∑ k ∈ Finset.range T, if k = T - 1 then E k * w2 * (extR g 0 + extR g T) else 0 := by
      rw [← Finset.sum_neg_distrib, ← Finset.sum_add_distrib]
      refine Finset.sum_congr rfl fun k hk => ?_
      have hk' := Finset.mem_range.1 hk
      have e1 : F k = -extR g k := by
        simp only [hF]; rw [if_pos hk']; push_cast; rfl
      rw [e1]
      by_cases hl : k = T - 1
      · have hk1 : k + 1 = T := by omega
        have e2 : F (k + 1) = extR g 0 := by
          simp only [hF]; rw [hk1, if_neg (by omega), Nat.sub_self]
        rw [e2, if_pos hl, hk1]
        ring
      · have e2 : F (k + 1) = -extR g (k + 1) := by
          simp only [hF]; rw [if_pos (by omega)]; push_cast; rfl
        rw [e2, if_neg hl]
        ring
    rw [s1, s2, Finset.sum_ite_eq' (Finset.range T), if_pos (Finset.mem_range.2 (by omega))]
    have g0 : extR g 0 = g 0 := extR_val g 0
    have gT : extR g T = g (Fin.last T) := extR_val g (Fin.last T)
    rw [g0, gT]
    ring
  have hcode : ∑ k : Fin (2 * T), E k * (w1 * F k + w2 * (F (k + 1) - F k))
      = ∑ k ∈ Finset.range (T + T), E k * (w1 * F k + w2 * (F (k + 1) - F k)) := by
    rw [← two_mul, Finset.sum_range]
  simp only [hEk, hEg, hFv]
  have hgoal : (-(beta : ℂ)) * (w1 * (1 / ((2 * T : ℕ) : ℂ) * ∑ k : Fin (2 * T), F k.castSucc * E k)
      + w2 * (1 / ((2 * T : ℕ) : ℂ) * ∑ k : Fin (2 * T),
        ((fullRange g k.succ - fullRange g k.castSucc : ℝ) : ℂ) * E k))
      = -(beta / (2 * T)) * ∑ k : Fin (2 * T), E k * (w1 * F k + w2 * (F (k + 1) - F k)) := by
    rw [Finset.mul_sum, Finset.mul_sum, Finset.mul_sum, Finset.mul_sum,
      ← Finset.sum_add_distrib, Finset.mul_sum, Finset.mul_sum]
    refine Finset.sum_congr rfl fun k _ => ?_
    push_cast
    rw [hFv, hFv]
    simp only [Fin.val_castSucc, Fin.val_succ]
    field_simp
  rw [hgoal, hcode, hS]
  have hel : Complex.exp (matsubaraFrequencies (n : ℕ) beta * tauPt beta T (T - 1)) = E (T - 1) := rfl
  rw [hel]
  generalize ∑ k : Fin T, E k * ((g k.castSucc : ℂ) * w1
    + ((g k.succ : ℂ) - g k.castSucc) * w2) = S
  push_cast
  field_simp
  ring

/-- C42: without jump, `tau2iw_ft_lin` is the Fourier integral of the spline over `[0, β]`. -/
theorem tau2iw_ft_lin_no_jump {T : ℕ} (hT : T ≠ 0) (g : Fin (T + 1) → ℝ) {beta : ℝ}
    (hb : beta ≠ 0) (hg : g (Fin.last T) = -g 0) (h : ℝ → ℂ)
    (hh : IsLinSplineR g 0 (beta / T) h) :
    ∃ r, tau2iwFtLin g beta = .ok r ∧ ∀ n : Fin ((T + 1) / 2),
      r n = ∫ τ in (0 : ℝ)..beta, h τ * Complex.exp (matsubaraFrequencies (n : ℕ) beta * τ) := by
  obtain ⟨r, h1, h2⟩ := tau2iw_ft_lin_jump hT g hb h hh
  refine ⟨r, h1, fun n => ?_⟩
  rw [h2 n, hg]
  push_cast
  ring

/-- C42: every data set has a linear spline, so the hypotheses of the theorems can be met. -/
theorem exists_spline {T : ℕ} (g : Fin (T + 1) → ℂ) (a : ℝ) {d : ℝ} (hd : d ≠ 0) :
    ∃ h, IsLinSpline g a d h := by
  have hdc : (d : ℂ) ≠ 0 := by exact_mod_cast hd
  induction T with
  | zero => exact ⟨fun _ => 0, fun k => k.elim0⟩
  | succ T ih =>
    obtain ⟨h, hh⟩ := ih fun k => g k.castSucc
    set c : ℝ → ℝ := fun τ => (τ - a) / d with hc
    refine ⟨fun τ => if 0 < T ∧ (τ - a) / d ≤ T then h τ else g (Fin.last T).castSucc
      + ((τ : ℂ) - (a + T * d)) / d * (g (Fin.last T).succ - g (Fin.last T).castSucc), ?_⟩
    have hmem : ∀ (k : ℕ) (τ : ℝ), τ ∈ Set.uIcc (a + k * d) (a + (k + 1) * d) →
        k ≤ (τ - a) / d ∧ (τ - a) / d ≤ k + 1 := by
      intro k τ hτ
      rcases lt_or_gt_of_ne hd with hneg | hpos
      · rw [Set.uIcc_of_ge (by nlinarith)] at hτ
        rw [le_div_iff_of_neg hneg, div_le_iff_of_neg hneg]
        constructor <;> nlinarith [hτ.1, hτ.2]
      · rw [Set.uIcc_of_le (by nlinarith)] at hτ
        rw [le_div_iff₀ hpos, div_le_iff₀ hpos]
        constructor <;> nlinarith [hτ.1, hτ.2]
    intro k
    refine Fin.lastCases ?_ (fun k => ?_) k
    · intro τ hτ
      simp only [Fin.val_last] at hτ ⊢
      obtain ⟨h1, h2⟩ := hmem T τ hτ
      by_cases hle : 0 < T ∧ (τ - a) / d ≤ T
      · rw [if_pos hle]
        have heq : τ = a + T * d := by
          have : (τ - a) / d = T := le_antisymm hle.2 h1
          field_simp at this
          linarith
        obtain ⟨m, rfl⟩ : ∃ m, T = m + 1 := ⟨T - 1, by have := hle.1; omega⟩
        have := hh (Fin.last m) τ (by
          rw [heq]
          simp only [Fin.val_last, Nat.cast_add, Nat.cast_one]
          exact Set.right_mem_uIcc)
        have hs : (Fin.last m).succ = Fin.last (m + 1) := rfl
        simp only [hs, Fin.val_last] at this
        rw [this, heq]
        push_cast
        field_simp
        ring
      · rw [if_neg hle]
    · intro τ hτ
      simp only [Fin.val_castSucc] at hτ ⊢
      obtain ⟨h1, h2⟩ := hmem k τ hτ
      have hk : ((k : ℕ) : ℝ) + 1 ≤ T := by exact_mod_cast k.2
      rw [if_pos ⟨k.pos, h2.trans hk⟩, hh k τ hτ, Fin.succ_castSucc]

/-- C42 (limitation): for data with a jump, `G(β) ≠ -G(0)`, the result of `tau2iw_ft_lin` is not the
Fourier integral over `[0, β]` of the interpolated data. -/
theorem tau2iw_ft_lin_jump_wrong {beta : ℝ} (hb : 0 < beta) :
    ∃ (g : Fin 2 → ℝ) (h : ℝ → ℂ) (r : Fin 1 → ℂ), IsLinSplineR g 0 (beta / (1 : ℕ)) h ∧
      tau2iwFtLin g beta = .ok r ∧
      r 0 ≠ ∫ τ in (0 : ℝ)..beta, h τ * Complex.exp (matsubaraFrequencies 0 beta * τ) := by
  have hbc : (beta : ℂ) ≠ 0 := by exact_mod_cast hb.ne'
  have hpi : (Real.pi : ℂ) ≠ 0 := by exact_mod_cast Real.pi_ne_zero
  obtain ⟨h, hh⟩ := exists_spline (T := 1) (fun k => ((![-1, 0] : Fin 2 → ℝ) k : ℂ)) 0
    (d := beta / (1 : ℕ)) (by simpa using hb.ne')
  obtain ⟨r, h1, h2⟩ := tau2iw_ft_lin_jump one_ne_zero ![-1, 0] hb.ne' h hh
  refine ⟨![-1, 0], h, r, hh, h1, ?_⟩
  have h3 := h2 ⟨0, by norm_num⟩
  have hx : matsubaraFrequencies 0 beta * ((beta : ℂ) / (1 : ℕ)) = Real.pi * I := by
    unfold matsubaraFrequencies
    push_cast
    field_simp
    ring
  simp only [Nat.cast_zero] at h3
  rw [hx] at h3
  intro hcon
  change r ⟨0, by norm_num⟩ = _ at hcon
  rw [h3, sub_eq_self] at hcon
  have hw : filonW2 (Real.pi * I) ≠ 0 := by
    unfold filonW2 filonW1
    rw [Complex.exp_pi_mul_I]
    intro h0
    have hpI : (Real.pi * I : ℂ) ≠ 0 := mul_ne_zero hpi Complex.I_ne_zero
    rw [div_eq_zero_iff] at h0
    rcases h0 with h0 | h0
    · field_simp at h0
      have := congrArg Complex.im h0
      simp at this
    · exact hpI h0
  have hl : (![-1, 0] : Fin 2 → ℝ) (Fin.last 1) = 0 := rfl
  have h0 : (![-1, 0] : Fin 2 → ℝ) 0 = -1 := rfl
  rw [hl, h0] at hcon
  simp [hw, hbc, Complex.exp_ne_zero] at hcon

/-! ## C43: bosonic transforms -/

/-- C43: `tau2iv_dft` gives the trapezoidal rule at frequency zero; at all other frequencies the
constant shift drops out and the result is the Riemann sum, i.e. the trapezoidal rule up to half of
the jump `G(β) - G(0)`. -/
theorem tau2iv_dft_correct {T : ℕ} (hT : T ≠ 0) (g : Fin (T + 1) → ℝ) {beta : ℝ} (hb : beta ≠ 0) :
    ∃ r, tau2ivDft g beta = .ok r ∧ r 0 = trapz (fun k => (g k : ℂ)) (beta / T) ∧
      ∀ n : Fin (T / 2 + 1), n ≠ 0 →
        r n = beta / T * (∑ k : Fin T, (g k.castSucc : ℂ)
          * Complex.exp (matsubaraFrequenciesB (n : ℕ) beta * tauPt beta T k)) ∧
        r n = trapz (fun k => (g k : ℂ)
          * Complex.exp (matsubaraFrequenciesB (n : ℕ) beta * tauPt beta T k)) (beta / T)
          - beta / (2 * T) * (g (Fin.last T) - g 0) := by
  have hbc : (beta : ℂ) ≠ 0 := by exact_mod_cast hb
  have hTc : (T : ℂ) ≠ 0 := by exact_mod_cast hT
  refine ⟨_, by simp only [tau2ivDft, ihfft, if_neg hT]; rfl, ?_, ?_⟩
  · simp only [Fin.val_zero, if_true, trapezoidDx, trapz]
    push_cast
    refine Finset.sum_congr rfl fun k _ => ?_
    ring
  · intro n hn
    have hn0 : (n : ℕ) ≠ 0 := fun h => hn (Fin.ext h)
    have hE : ∀ k : ℕ, Complex.exp (2 * Real.pi * I * ((k : ℂ) * (n : ℕ)) / T)
        = Complex.exp (matsubaraFrequenciesB (n : ℕ) beta * tauPt beta T k) := by
      intro k
      congr 1
      unfold matsubaraFrequenciesB tauPt
      push_cast
      field_simp
    have hzero : ∑ k : Fin T, Complex.exp (matsubaraFrequenciesB (n : ℕ) beta * tauPt beta T k)
        = 0 := by
      have h := exp_sum T hT (n : ℕ)
      rw [if_neg, Finset.sum_range] at h
      · rw [← h]
        refine Finset.sum_congr rfl fun k _ => ?_
        rw [← hE]
        congr 1
        push_cast
        ring
      · intro hd
        have h1 : T ∣ (n : ℕ) := by exact_mod_cast hd
        have := Nat.le_of_dvd (by omega) h1
        have := n.2
        omega
    have hR : (if (n : ℕ) = 0 then ((trapezoidDx g (beta / T) : ℝ) : ℂ) else
        beta * (1 / (T : ℂ) * ∑ k : Fin T, ((g k.castSucc - trapezoidDx g (beta / T) : ℝ) : ℂ)
          * Complex.exp (2 * Real.pi * I * (((k : ℕ) : ℂ) * (n : ℕ)) / T)))
        = beta / T * (∑ k : Fin T, (g k.castSucc : ℂ)
          * Complex.exp (matsubaraFrequenciesB (n : ℕ) beta * tauPt beta T k)) := by
      rw [if_neg hn0]
      simp only [hE]
      have : ∑ k : Fin T, ((g k.castSucc - trapezoidDx g (beta / T) : ℝ) : ℂ)
          * Complex.exp (matsubaraFrequenciesB (n : ℕ) beta * tauPt beta T k)
          = (∑ k : Fin T, (g k.castSucc : ℂ)
            * Complex.exp (matsubaraFrequenciesB (n : ℕ) beta * tauPt beta T k))
            - (trapezoidDx g (beta / T) : ℂ)
              * ∑ k : Fin T, Complex.exp (matsubaraFrequenciesB (n : ℕ) beta * tauPt beta T k) := by
        rw [Finset.mul_sum, ← Finset.sum_sub_distrib]
        refine Finset.sum_congr rfl fun k _ => ?_
        push_cast
        ring
      rw [this, hzero]
      ring
    refine ⟨hR, ?_⟩
    rw [hR]
    set F : Fin (T + 1) → ℂ := fun k => (g k : ℂ)
      * Complex.exp (matsubaraFrequenciesB (n : ℕ) beta * tauPt beta T k) with hF
    have hFl : F (Fin.last T) = g (Fin.last T) := by
      simp only [hF, Fin.val_last]
      have : matsubaraFrequenciesB (n : ℕ) beta * ((tauPt beta T T : ℝ) : ℂ)
          = (n : ℕ) * (2 * Real.pi * I) := by
        unfold matsubaraFrequenciesB tauPt
        push_cast
        field_simp
      rw [this, Complex.exp_nat_mul_two_pi_mul_I, mul_one]
    have hF0 : F 0 = g 0 := by
      simp [hF, tauPt]
    have h1 : ∑ k : Fin T, F k.succ = (∑ k : Fin T, F k.castSucc) + F (Fin.last T) - F 0 := by
      have e1 := Fin.sum_univ_castSucc F
      have e2 := Fin.sum_univ_succ F
      rw [e1] at e2
      rw [e2]
      ring
    have h2 : trapz F (beta / T) = (beta / T : ℝ) / 2
        * ((∑ k : Fin T, F k.castSucc) + ∑ k : Fin T, F k.succ) := by
      unfold trapz
      rw [← Finset.sum_add_distrib, Finset.mul_sum]
      refine Finset.sum_congr rfl fun k _ => ?_
      ring
    rw [h2, h1, hFl, hF0]
    have h3 : ∑ k : Fin T, F k.castSucc = ∑ k : Fin T, (g k.castSucc : ℂ)
        * Complex.exp (matsubaraFrequenciesB (n : ℕ) beta * tauPt beta T k) := rfl
    rw [h3]
    push_cast
    field_simp
    ring

/-- C43: for data without jump `tau2iv_dft` is the trapezoidal rule at every frequency. -/
theorem tau2iv_dft_no_jump {T : ℕ} (hT : T ≠ 0) (g : Fin (T + 1) → ℝ) {beta : ℝ} (hb : beta ≠ 0)
    (hg : g (Fin.last T) = g 0) :
    ∃ r, tau2ivDft g beta = .ok r ∧ ∀ n : Fin (T / 2 + 1),
      r n = trapz (fun k => (g k : ℂ)
        * Complex.exp (matsubaraFrequenciesB (n : ℕ) beta * tauPt beta T k)) (beta / T) := by
  obtain ⟨r, h1, h2, h3⟩ := tau2iv_dft_correct hT g hb
  refine ⟨r, h1, fun n => ?_⟩
  by_cases hn : n = 0
  · subst hn
    rw [h2]
    simp [matsubaraFrequenciesB]
  · rw [(h3 n hn).2, hg]
    ring

example : (![1, 3, 1] : Fin 3 → ℝ) (Fin.last 2) = (![1, 3, 1] : Fin 3 → ℝ) 0 := rfl

/-- C43 (limitation): with a jump the result is not the trapezoidal rule. -/
theorem tau2iv_dft_jump_wrong {beta : ℝ} (hb : beta ≠ 0) :
    ∃ (g : Fin 3 → ℝ) (r : Fin 2 → ℂ), tau2ivDft (T := 2) g beta = .ok r ∧
      r 1 ≠ trapz (T := 2) (fun k => (g k : ℂ)
        * Complex.exp (matsubaraFrequenciesB 1 beta * tauPt beta 2 k)) (beta / 2) := by
  have hbc : (beta : ℂ) ≠ 0 := by exact_mod_cast hb
  obtain ⟨r, h1, h2, h3⟩ := tau2iv_dft_correct (T := 2) (by norm_num) ![0, 0, 1] hb
  refine ⟨![0, 0, 1], r, h1, ?_⟩
  have h4 := (h3 1 (by decide)).2
  simp only [Fin.val_one, Nat.cast_one, Nat.cast_ofNat] at h4
  intro hcon
  have hl : (![0, 0, 1] : Fin 3 → ℝ) (Fin.last 2) = 1 := rfl
  have h0 : (![0, 0, 1] : Fin 3 → ℝ) 0 = 0 := rfl
  have h5 : r 1 = r 1 - beta / (2 * 2) * (1 - 0) := by
    conv_lhs => rw [h4]
    rw [hcon, hl, h0]
    push_cast
    rfl
  have : (beta : ℂ) = 0 := by linear_combination 4 * h5
  exact hbc this

/-- C43: a single point raises. -/
theorem tau2iv_dft_single (g : Fin 1 → ℝ) (beta : ℝ) :
    tau2ivDft (T := 0) g beta = .error .zeroDivision := rfl

/-- The bosonic Fourier integral of the linear function `τ/β`. -/
private lemma linear_integral (n : ℕ) {beta : ℝ} (hb : beta ≠ 0) :
    ∫ τ in (0 : ℝ)..beta, ((τ : ℂ) / beta) * Complex.exp (matsubaraFrequenciesB n beta * τ)
      = if n = 0 then (beta : ℂ) / 2 else 1 / matsubaraFrequenciesB n beta := by
  have hbc : (beta : ℂ) ≠ 0 := by exact_mod_cast hb
  have hpi : (Real.pi : ℂ) ≠ 0 := by exact_mod_cast Real.pi_ne_zero
  have h := filon_interval' 0 1 (matsubaraFrequenciesB n beta) 0 beta hb
  simp only [zero_add, mul_one, Complex.ofReal_zero, sub_zero, mul_zero, Complex.exp_zero, zero_mul,
    one_mul] at h
  rw [h]
  have hx : matsubaraFrequenciesB n beta * beta = n * (2 * Real.pi * I) := by
    unfold matsubaraFrequenciesB
    push_cast
    field_simp
  rw [hx]
  unfold fW2
  split_ifs with h1 h2 h2
  · ring
  · rcases mul_eq_zero.1 h1 with h1 | h1
    · exact absurd (by exact_mod_cast h1) h2
    · simp [hpi] at h1
  · exact absurd (by rw [h2]; simp) h1
  · unfold filonW2 filonW1
    rw [Complex.exp_nat_mul_two_pi_mul_I]
    simp only [sub_self, zero_div, zero_add, sub_zero]
    rw [← hx]
    have : matsubaraFrequenciesB n beta ≠ 0 := by
      intro h0
      rw [h0, zero_mul] at hx
      exact h1 hx.symm
    field_simp

/-- Equidistant points of the model. -/
lemma linspace_eq_tauPt (beta : ℝ) {T : ℕ} (hT : T ≠ 0) (k : Fin (T + 1)) :
    linspace0 beta (T + 1) k = tauPt beta T k := by
  unfold linspace0 tauPt
  rw [if_neg (by omega)]
  push_cast
  rw [add_sub_cancel_right]

/-- C43: whatever transform is used, `tau2iv` hands it data without jump, from which the linear
function `(G(β) - G(0)) τ/β` has been subtracted, and adds the exact Fourier integral of that
function. -/
theorem tau2iv_jump {T : ℕ} (hT : T ≠ 0) (g : Fin (T + 1) → ℝ) {beta : ℝ} (hb : beta ≠ 0)
    (fourier : (Fin (T + 1) → ℝ) → ℝ → Except Err (Fin (T / 2 + 1) → ℂ)) {r : Fin (T / 2 + 1) → ℂ}
    (g' : Fin (T + 1) → ℝ)
    (hg' : ∀ k, g' k = g k - (g (Fin.last T) - g 0) * (tauPt beta T k / beta))
    (hr : fourier g' beta = .ok r) :
    g' (Fin.last T) = g' 0 ∧ ∃ r', tau2iv g beta fourier = .ok r' ∧ ∀ n : Fin (T / 2 + 1),
      r' n = r n + ∫ τ in (0 : ℝ)..beta, ((g (Fin.last T) - g 0 : ℝ) * ((τ : ℂ) / beta))
        * Complex.exp (matsubaraFrequenciesB (n : ℕ) beta * τ) := by
  have hTr : (T : ℝ) ≠ 0 := by exact_mod_cast hT
  have hfun : (fun k => g k - (g (Fin.last T) - g 0) / beta * linspace0 beta (T + 1) k) = g' := by
    funext k
    rw [hg', linspace_eq_tauPt _ hT]
    ring
  refine ⟨?_, _, by simp only [tau2iv]; rw [hfun, hr], fun n => ?_⟩
  · rw [hg', hg']
    simp only [Fin.val_last, Fin.val_zero, tauPt]
    push_cast
    field_simp
    ring
  · simp only [mul_assoc]
    rw [intervalIntegral.integral_const_mul, linear_integral _ hb]
    split_ifs with h
    · push_cast
      ring
    · push_cast
      ring

/-- C43 with C42: with the Filon backend `tau2iv` is the Fourier integral of the linear spline of the
original data. -/
theorem tau2iv_ft_lin_total {T : ℕ} (hT : T ≠ 0) (g : Fin (T + 1) → ℝ) {beta : ℝ} (hb : beta ≠ 0)
    (h : ℝ → ℂ) (hh : IsLinSplineR g 0 (beta / T) h) :
    ∃ r, tau2iv g beta tau2ivFtLin = .ok r ∧ ∀ n : Fin (T / 2 + 1),
      r n = ∫ τ in (0 : ℝ)..beta, h τ * Complex.exp (matsubaraFrequenciesB (n : ℕ) beta * τ) := by
  have hTr : (T : ℝ) ≠ 0 := by exact_mod_cast hT
  have hTc : (T : ℂ) ≠ 0 := by exact_mod_cast hT
  have hbc : (beta : ℂ) ≠ 0 := by exact_mod_cast hb
  set g' : Fin (T + 1) → ℝ := fun k => g k - (g (Fin.last T) - g 0) * (tauPt beta T k / beta) with hg'
  have hh' : IsLinSplineR g' 0 (beta / T)
      (fun τ => h τ - (g (Fin.last T) - g 0 : ℝ) * ((τ : ℂ) / beta)) := by
    intro k τ hτ
    simp only
    rw [hh k τ hτ]
    simp only [hg', tauPt, Fin.val_castSucc, Fin.val_succ]
    push_cast
    field_simp
    ring
  obtain ⟨r, h1, h2⟩ := tau2iv_ft_lin_exact hT g' hb _ hh'
  obtain ⟨_, r', h3, h4⟩ := tau2iv_jump hT g hb tau2ivFtLin g' (fun k => rfl) h1
  refine ⟨r', h3, fun n => ?_⟩
  rw [h4, h2, ← intervalIntegral.integral_add]
  · congr 1
    funext τ
    ring
  · have hD : beta / T ≠ 0 := div_ne_zero hb hTr
    have hi := (filon_sum (matsubaraFrequenciesB (n : ℕ) beta) 0 (beta / T) hD _ T _ hh').1
    have hend : (0 : ℝ) + T * (beta / T) = beta := by field_simp; ring
    rwa [hend] at hi
  · apply Continuous.intervalIntegrable
    fun_prop

/-- Data with a jump have a spline. -/
example : ∃ h, IsLinSplineR (![1, 3, 2] : Fin 3 → ℝ) 0 (10 / (2 : ℕ)) h :=
  exists_spline _ _ (by norm_num)

end Gftool.Props
