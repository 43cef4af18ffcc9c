import Verif.Model.ExpRange
import Verif.Props.Statistics
import Verif.Props.Pole
import Verif.Props.Toplevel

/-!
# C71: exponentials never overflow

The results do not depend on the exponential functions for arguments with positive real part (`bose_fct`: larger than 700): an
implementation that overflows for large arguments gives the right results for all energies, temperatures, times and frequencies.
-/

namespace Gftool.Props

open Gftool.Model Gftool.Spec
open Complex (I)

variable {ι : Type*} [Fintype ι]

/-- C71: with the exact exponential functions the models are those of the other properties. -/
theorem exp_range_models : boseFctL exactLib = boseFct ∧ fermiFctCL exactLib = fermiFctC ∧
    (poleGfTauL (ι := ι) exactLib = poleGfTau) ∧ (poleGfTauCL (ι := ι) exactLib = poleGfTauC) ∧
    (∀ n, poleGfTauBL (n := n) exactLib = poleGfTauB) ∧ (poleGfRetTL (ι := ι) exactLib = poleGfRetT) ∧
    singlePoleGfGrTL exactLib = singlePoleGfGrT ∧ singlePoleGfLeTL exactLib = singlePoleGfLeT ∧
    betheGfRetTL exactLib = betheGfRetT ∧ boxGfRetTL exactLib = boxGfRetT ∧
    (∀ T, tau2ivFtLinL (T := T) exactLib = tau2ivFtLin) ∧ (∀ T, tau2iwFtLinL (T := T) exactLib = tau2iwFtLin) ∧
    tt2zTrapzL exactLib = tt2zTrapz ∧ tt2zSimpsL exactLib = tt2zSimps ∧ tt2zLinL exactLib = tt2zLin ∧
    tt2zPadeL exactLib = tt2zPade ∧ tt2zHerm2L exactLib = tt2zHerm2 ∧ tt2zLpzL exactLib = tt2zLpz :=
  ⟨rfl, rfl, rfl, rfl, fun _ => rfl, rfl, rfl, rfl, rfl, rfl, fun _ => rfl, fun _ => rfl, rfl, rfl, rfl, rfl, rfl, rfl⟩

variable {L : ExpLib}

/-- C71: `fermi_fct` of complex energies only needs exponentials of numbers with non-positive real part. -/
theorem fermi_fct_exp_range (hL : L.RightUpTo 0) (eps : ℂ) (beta : ℝ) :
    fermiFctCL L eps beta = fermiFctC eps beta := by
  unfold fermiFctCL fermiFctC
  simp only
  split_ifs with h
  · rw [hL.exp _ (by rw [Complex.neg_re]; linarith)]
  · rw [hL.exp _ (not_lt.1 h)]

/-- C71: … so it is the Fermi function for every energy and temperature, except for the poles. -/
theorem fermi_fct_no_overflow (hL : L.RightUpTo 0) (eps : ℂ) (beta : ℝ) (h : Complex.exp (beta * eps) ≠ -1) :
    fermiFctCL L eps beta = Spec.fermiC beta eps := by
  rw [fermi_fct_exp_range hL, fermi_fct_complex_eq eps beta h]

/-- C71: `bose_fct` only needs exponentials of numbers up to 700. -/
theorem bose_fct_exp_range (hL : L.RightUpTo 700) (eps beta : ℝ) : boseFctL L eps beta = boseFct eps beta := by
  unfold boseFctL boseFct expm1
  simp only
  split_ifs with h
  · rw [hL.rexpm1 _ h.le]
  · rw [hL.rexp _ (by linarith), hL.rexpm1 _ (by linarith)]

/-- C71: … so it is the Bose function for every energy and temperature, except for the pole. -/
theorem bose_fct_no_overflow (hL : L.RightUpTo 700) {eps beta : ℝ} (h : beta * eps ≠ 0) :
    boseFctL L eps beta = Spec.bose beta eps := by
  rw [bose_fct_exp_range hL, bose_fct_eq h]

/-- C71: 700 is necessary: if the exponential function is wrong there, `bose_fct` is. -/
theorem bose_fct_exp_range_sharp {m : ℝ} (h0 : 0 ≤ m) (hm : m < 700) :
    (brokenLib m).RightUpTo m ∧ ∃ eps : ℝ, eps ≠ 0 ∧ boseFctL (brokenLib m) eps 1 ≠ Spec.bose 1 eps := by
  refine ⟨⟨fun a h => if_pos h, fun a h => if_pos h, fun a h => if_pos h, fun a h => if_pos h⟩, (m + 700) / 2, by linarith, ?_⟩
  unfold boseFctL brokenLib Spec.bose
  simp only [one_mul]
  rw [if_pos (by linarith), if_neg (by linarith), div_zero]
  refine ne_of_lt (one_div_pos.2 ?_)
  have := Real.add_one_le_exp ((m + 700) / 2)
  linarith

private lemma exponent_nonpos {tau beta : ℝ} (h0 : 0 ≤ tau) (hb : tau ≤ beta) (p : ℝ) :
    (if 0 ≤ p then -tau else -tau + beta) * p ≤ 0 := by
  split_ifs with h
  · nlinarith
  · exact mul_nonpos_of_nonneg_of_nonpos (by linarith) (not_le.1 h).le

/-- C71: `pole_gf_tau` for real poles. -/
theorem pole_gf_tau_exp_range (hL : L.RightUpTo 0) (tau : ℝ) (poles weights : ι → ℝ) (beta : ℝ) :
    poleGfTauL L tau poles weights beta = poleGfTau tau poles weights beta := by
  unfold poleGfTauL poleGfTau
  split_ifs with h
  · congr 2
    funext i
    unfold singlePoleGfTauL singlePoleGfTau
    simp only
    rw [hL.rexp _ (exponent_nonpos h.1 h.2 _)]
  · rfl

/-- C71: `pole_gf_tau` for complex poles. -/
theorem pole_gf_tau_complex_exp_range (hL : L.RightUpTo 0) (tau : ℝ) (poles weights : ι → ℂ) (beta : ℝ) :
    poleGfTauCL L tau poles weights beta = poleGfTauC tau poles weights beta := by
  unfold poleGfTauCL poleGfTauC
  split_ifs with h
  · congr 2
    funext i
    unfold singlePoleGfTauCL singlePoleGfTauC
    simp only
    rw [fermi_fct_exp_range hL, hL.exp]
    have := exponent_nonpos h.1 h.2 (poles i).re
    split_ifs at this ⊢
    · simpa using this
    · rw [← Complex.ofReal_neg, ← Complex.ofReal_add, Complex.re_ofReal_mul]
      exact this
  · rfl

/-- C71: `pole_gf_tau_b`. -/
theorem pole_gf_tau_b_exp_range (hL : L.RightUpTo 0) {n : ℕ} (tau : ℝ) (poles weights : Fin n → ℝ) (beta : ℝ) :
    poleGfTauBL L tau poles weights beta = poleGfTauB tau poles weights beta := by
  unfold poleGfTauBL poleGfTauB
  by_cases h1 : ¬ (0 ≤ tau ∧ tau ≤ beta)
  · rw [if_pos h1, if_pos h1]
  rw [if_neg h1, if_neg h1]
  rw [not_not] at h1
  by_cases h2 : ∃ i, poles i < 0
  · rw [if_pos h2, if_pos h2]
  rw [if_neg h2, if_neg h2]
  push Not at h2
  split_ifs with h3
  · rfl
  · congr 3
    funext i
    have hp : 0 ≤ beta * poles i := mul_nonneg (h1.1.trans h1.2) (h2 i)
    rw [hL.rexp _ (by nlinarith [h2 i, h1.1])]
    unfold boseFctL boseFct expm1
    simp only
    rw [if_pos (by linarith), if_pos (by linarith), hL.rexpm1 _ (by linarith)]

/-- C71: `pole_gf_ret_t` for poles in the closed lower half-plane (real poles, or decaying excitations), for all positive and
negative times. -/
theorem pole_gf_ret_t_exp_range (hL : L.RightUpTo 0) (tt : ℝ) (poles weights : ι → ℂ) (hp : ∀ i, (poles i).im ≤ 0) :
    poleGfRetTL L tt poles weights = poleGfRetT tt poles weights := by
  unfold poleGfRetTL poleGfRetT
  congr 1
  funext i
  unfold singlePoleGfRetTL singlePoleGfRetT
  split_ifs with h
  · rw [hL.exp]
    simp
    nlinarith [hp i]
  · rfl

/-- C71: greater and lesser functions of real poles. -/
theorem pole_gf_gr_le_t_exp_range (hL : L.RightUpTo 0) (tt pole beta : ℝ) :
    singlePoleGfGrTL L tt pole beta = singlePoleGfGrT tt pole beta ∧
      singlePoleGfLeTL L tt pole beta = singlePoleGfLeT tt pole beta := by
  unfold singlePoleGfGrTL singlePoleGfGrT singlePoleGfLeTL singlePoleGfLeT
  rw [hL.exp _ (by simp)]
  exact ⟨rfl, rfl⟩

/-- C71: the retarded functions of the lattices. -/
theorem lattice_gf_ret_t_exp_range (hL : L.RightUpTo 0) (jv1 : ℝ → ℝ) (tt D center : ℝ) :
    betheGfRetTL L jv1 tt D center = betheGfRetT jv1 tt D center ∧ boxGfRetTL L tt D center = boxGfRetT tt D center := by
  unfold betheGfRetTL betheGfRetT boxGfRetTL boxGfRetT
  simp only
  rw [hL.exp _ (by simp)]
  exact ⟨rfl, rfl⟩

/-! ## Fourier and Laplace transforms -/

private lemma filon_exp_range (hL : L.RightUpTo 0) {x : ℂ} (hx : x.re = 0) : filonW1L L x = filonW1 x ∧ filonW2L L x = filonW2 x := by
  unfold filonW2L filonW2 filonW1L filonW1
  rw [hL.expm1 _ hx.le]
  exact ⟨rfl, rfl⟩

/-- C71: the Filon transforms from imaginary time. -/
theorem tau2iw_ft_lin_exp_range (hL : L.RightUpTo 0) {T : ℕ} (g : Fin (T + 1) → ℝ) (beta : ℝ) :
    tau2iwFtLinL L g beta = tau2iwFtLin g beta ∧ tau2ivFtLinL L g beta = tau2ivFtLin g beta := by
  have h1 : ∀ n : ℕ, (2 * I * Real.pi * (2 * n + 1 : ℕ) / ((2 * T : ℕ) : ℂ) : ℂ).re = 0 := fun n => by
    have : (2 * I * Real.pi * (2 * n + 1 : ℕ) / ((2 * T : ℕ) : ℂ) : ℂ) = ((2 * Real.pi * (2 * n + 1 : ℕ) / (2 * T : ℕ) : ℝ) : ℂ) * I := by
      push_cast
      ring
    rw [this, Complex.re_ofReal_mul, Complex.I_re, mul_zero]
  have h2 : ∀ n : ℕ, (2 * I * Real.pi / T * n : ℂ).re = 0 := fun n => by
    have : (2 * I * Real.pi / T * n : ℂ) = ((2 * Real.pi / T * n : ℝ) : ℂ) * I := by
      push_cast
      ring
    rw [this, Complex.re_ofReal_mul, Complex.I_re, mul_zero]
  constructor
  · unfold tau2iwFtLinL tau2iwFtLin
    simp only [(filon_exp_range hL (h1 _)).1, (filon_exp_range hL (h1 _)).2]
    generalize (ihfft fun k : Fin (2 * T) => fullRange g k.castSucc) = a
    generalize (ihfft fun k : Fin (2 * T) => fullRange g k.succ - fullRange g k.castSucc) = b
    cases a <;> cases b <;> rfl
  · unfold tau2ivFtLinL tau2ivFtLin
    simp only [(filon_exp_range hL (h2 _)).1, (filon_exp_range hL (h2 _)).2]
    generalize (ihfft fun k : Fin T => g k.castSucc) = a
    generalize (ihfft fun k : Fin T => g k.succ - g k.castSucc) = b
    cases a <;> cases b <;> rfl

/-- Retarded: non-negative times and frequencies in the upper half-plane; advanced: both reversed. This is what `tt2z` checks. -/
def Causal (n : ℕ) (tt : ℕ → ℝ) (z : ℂ) : Prop :=
  ((∀ k < n, 0 ≤ tt k) ∧ 0 ≤ z.im) ∨ ((∀ k < n, tt k ≤ 0) ∧ z.im ≤ 0)

private lemma phase_exp_range (hL : L.RightUpTo 0) {z : ℂ} {t : ℝ} (h : 0 ≤ z.im * t) : phaseL L z t = phase z t := by
  unfold phaseL phase
  rw [hL.exp]
  simp
  linarith

private lemma Causal.phase (hL : L.RightUpTo 0) {n : ℕ} {tt : ℕ → ℝ} {z : ℂ} (h : Causal n tt z) {k : ℕ} (hk : k < n) :
    phaseL L z (tt k) = Model.phase z (tt k) := by
  refine phase_exp_range hL ?_
  rcases h with ⟨h1, h2⟩ | ⟨h1, h2⟩
  · exact mul_nonneg h2 (h1 k hk)
  · exact mul_nonneg_of_nonpos_of_nonpos h2 (h1 k hk)

/-- C71: `tt2z_trapz`. -/
theorem tt2z_trapz_exp_range (hL : L.RightUpTo 0) {n : ℕ} {tt : ℕ → ℝ} (g : ℕ → ℂ) {z : ℂ} (h : Causal n tt z) :
    tt2zTrapzL L n tt g z = tt2zTrapz n tt g z := by
  unfold tt2zTrapzL tt2zTrapz
  split_ifs with hn
  · rfl
  · simp only
    rw [h.phase hL (by omega), h.phase hL (by omega), Finset.sum_congr rfl fun k hk => by
      rw [h.phase hL (by have := Finset.mem_range.1 hk; omega)]]

/-- C71: `tt2z_simps`. -/
theorem tt2z_simps_exp_range (hL : L.RightUpTo 0) {n : ℕ} {tt : ℕ → ℝ} (g : ℕ → ℂ) {z : ℂ} (h : Causal n tt z) :
    tt2zSimpsL L n tt g z = tt2zSimps n tt g z := by
  unfold tt2zSimpsL tt2zSimps
  split_ifs with hn
  · rfl
  · rw [Finset.sum_congr rfl fun k hk => by rw [h.phase hL (Finset.mem_range.1 hk)]]

/-- C71: `tt2z_lin` if the times are ordered away from 0, i.e. the step is causal, too. -/
theorem tt2z_lin_exp_range_partial (hL : L.RightUpTo 0) {n : ℕ} {tt : ℕ → ℝ} (g : ℕ → ℂ) {z : ℂ} (h : Causal n tt z)
    (hdt : 0 ≤ z.im * (tt 1 - tt 0)) : tt2zLinL L n tt g z = tt2zLin n tt g z := by
  unfold tt2zLinL tt2zLin
  split_ifs with hn h1 h2
  · rfl
  · rfl
  swap
  · rfl
  · simp only
    have e : (I * z * ((tt 1 - tt 0 : ℝ) : ℂ)).re ≤ 0 := by
      rw [Complex.re_mul_ofReal]
      simp
      linarith
    rw [hL.expm1 _ e, hL.exp _ e]
    have hs : ∀ f : ℕ → ℂ, ∑ k ∈ Finset.range (n - 1), phaseL L z (tt k) * f k
        = ∑ k ∈ Finset.range (n - 1), phase z (tt k) * f k := fun f => Finset.sum_congr rfl fun k hk => by
      rw [h.phase hL (by have := Finset.mem_range.1 hk; omega)]
    rw [hs, hs fun k => g (k + 1) - g k]

/-- C71: `tt2z_pade`. -/
theorem tt2z_pade_exp_range (hL : L.RightUpTo 0) (pade : ℕ → (ℕ → ℂ) → ℕ → ℕ → Except Err RatPol) {n : ℕ} {tt : ℕ → ℝ}
    (g : ℕ → ℂ) {z : ℂ} (h : Causal n tt z) (degree : ℤ) (quad : Quad) :
    tt2zPadeL L pade n tt g z degree quad = tt2zPade pade n tt g z degree quad := by
  unfold tt2zPadeL tt2zPade
  simp only
  by_cases h3 : tt 0 = 0
  · by_cases hn : n < 2
    · rw [if_pos hn, if_pos hn]
    · have := h.phase hL (k := 1) (by omega)
      rw [h3, sub_zero, this]
      cases pade n (quadWeight quad n (tt 1) g) (((n : ℤ) - (degree + 1) - 1) / 2 + (degree + 1)).toNat
        (((n : ℤ) - (degree + 1) - 1) / 2).toNat <;> rfl
  · rw [if_pos h3, if_pos h3]

/-- C71: `tt2z_herm2`, which itself checks the frequency. -/
theorem tt2z_herm2_exp_range (hL : L.RightUpTo 0) (herm2 : ℕ → (ℕ → ℂ) → ℕ → ℕ → ℕ → Except Err (Herm2 × RatPol)) {n : ℕ}
    {tt : ℕ → ℝ} (g : ℕ → ℂ) {z : ℂ} (h : ∀ k < n, 0 ≤ tt k) (quad : Quad) :
    tt2zHerm2L L herm2 n tt g z quad = tt2zHerm2 herm2 n tt g z quad := by
  unfold tt2zHerm2L tt2zHerm2
  simp only
  by_cases h3 : tt 0 = 0
  · by_cases hn : n < 2
    · rw [if_pos hn, if_pos hn]
    · by_cases h4 : 0 < z.im
      · have := Causal.phase hL (Or.inl ⟨h, h4.le⟩ : Causal n tt z) (k := 1) (by omega)
        rw [h3, sub_zero, this]
        cases herm2 n (quadWeight quad n (tt 1) g) ((n - 2) / 3) ((n - 2) / 3) ((n - 2) / 3) <;> rfl
      · rw [if_pos h4, if_pos h4]
  · rw [if_pos h3, if_pos h3]

/-- C71: `tt2z_lpz`. -/
theorem tt2z_lpz_exp_range (hL : L.RightUpTo 0) (ext : LinalgExt ℂ) {n : ℕ} {tt : ℕ → ℝ} (g : ℕ → ℂ) {z : ℂ}
    (h : Causal n tt z) (order : Option ℕ) (quad : Quad) :
    tt2zLpzL L ext n tt g z order quad = tt2zLpz ext n tt g z order quad := by
  unfold tt2zLpzL tt2zLpz
  simp only
  split_ifs with hn h1 h2
  · rfl
  · rfl
  swap
  · rfl
  · by_cases ho : n ≤ order.getD (n / 2)
    · unfold pcoeffCovar
      rw [if_pos ho]
    · have hs : ∀ m ≤ order.getD (n / 2) + 1, ∀ f : ℕ → ℂ, ∑ k ∈ Finset.range m, phaseL L z (tt k) * f k
          = ∑ k ∈ Finset.range m, phase z (tt k) * f k := fun m hm f => Finset.sum_congr rfl fun k hk => by
        rw [h.phase hL (by have := Finset.mem_range.1 hk; omega)]
      cases pcoeffCovar ext (quadWeight quad n (tt 1 - tt 0) g) n (order.getD (n / 2)) with
      | error e => rfl
      | ok r =>
        obtain ⟨a, b⟩ := r
        simp only
        rw [hs _ (by omega), hs _ le_rfl]

private lemma tt2z_congr {m n : ℕ} {tt : ℕ → ℝ} {g : ℕ → ℂ} {z : Fin m → ℂ} {lap lap' : ℕ → (ℕ → ℝ) → (ℕ → ℂ) → ℂ → Except Err ℂ}
    (h : ∀ i, Causal n tt (z i) → lap n tt g (z i) = lap' n tt g (z i)) : tt2z n tt g z lap = tt2z n tt g z lap' := by
  unfold tt2z
  simp only
  split_ifs with h1 h2
  · rfl
  swap
  · rfl
  · have e : (fun i => lap n tt g (z i)) = fun i => lap' n tt g (z i) := funext fun i =>
      h i (h1.imp (fun h => ⟨h.1, h.2 i⟩) fun h => ⟨h.1, h.2 i⟩)
    rw [e]

/-- C71: `tt2z` as a whole: its check that the times and frequencies are both retarded or both advanced prevents overflows, for all
times and frequencies. -/
theorem tt2z_exp_range (hL : L.RightUpTo 0) {m : ℕ} (n : ℕ) (tt : ℕ → ℝ) (g : ℕ → ℂ) (z : Fin m → ℂ)
    (pade : ℕ → (ℕ → ℂ) → ℕ → ℕ → Except Err RatPol) (degree : ℤ) (ext : LinalgExt ℂ) (order : Option ℕ) (quad : Quad) :
    tt2z n tt g z (tt2zTrapzL L) = tt2z n tt g z tt2zTrapz ∧ tt2z n tt g z (tt2zSimpsL L) = tt2z n tt g z tt2zSimps ∧
    tt2z n tt g z (fun n tt g z => tt2zPadeL L pade n tt g z degree quad)
      = tt2z n tt g z (fun n tt g z => tt2zPade pade n tt g z degree quad) ∧
    tt2z n tt g z (fun n tt g z => tt2zLpzL L ext n tt g z order quad)
      = tt2z n tt g z (fun n tt g z => tt2zLpz ext n tt g z order quad) :=
  ⟨tt2z_congr fun _ h => tt2z_trapz_exp_range hL g h, tt2z_congr fun _ h => tt2z_simps_exp_range hL g h,
    tt2z_congr fun _ h => tt2z_pade_exp_range hL pade g h degree quad,
    tt2z_congr fun _ h => tt2z_lpz_exp_range hL ext g h order quad⟩

/-- C71: … with the default `tt2z_lin` for retarded functions on increasing grids. -/
theorem tt2z_lin_retarded_exp_range (hL : L.RightUpTo 0) {m : ℕ} (n : ℕ) (tt : ℕ → ℝ) (g : ℕ → ℂ) (z : Fin m → ℂ)
    (hinc : tt 0 ≤ tt 1) (hz : ∀ i, 0 ≤ (z i).im) : tt2z n tt g z (tt2zLinL L) = tt2z n tt g z tt2zLin :=
  tt2z_congr fun i h => tt2z_lin_exp_range_partial hL g h (mul_nonneg (hz i) (by linarith))

/-- C71, violation: for advanced functions on an increasing grid ending at 0 `tt2z_lin` evaluates the exponential of the positive number
`|Im z| * dt`, which may overflow, although the result is finite. -/
theorem tt2z_lin_advanced_overflow (m : ℝ) (hm : 0 ≤ m) :
    ∃ (L : ExpLib) (tt : ℕ → ℝ) (g : ℕ → ℂ) (z : ℂ), L.RightUpTo m ∧ Causal 2 tt z ∧
      (∀ k < 1, tt k < tt (k + 1)) ∧ tt2zLinL L 2 tt g z ≠ tt2zLin 2 tt g z := by
  refine ⟨brokenLib m, fun k => k - 1, fun _ => 1, -((m + 1 : ℝ) : ℂ) * I,
    ⟨fun a h => if_pos h, fun a h => if_pos h, fun a h => if_pos h, fun a h => if_pos h⟩, Or.inr ⟨?_, ?_⟩, ?_, ?_⟩
  · intro k hk
    have : (k : ℝ) ≤ 1 := by exact_mod_cast (by omega : k ≤ 1)
    linarith
  · simp
    linarith
  · intro k _
    push_cast
    linarith
  · have hz : -((m + 1 : ℝ) : ℂ) * I ≠ 0 :=
      mul_ne_zero (neg_ne_zero.2 (Complex.ofReal_ne_zero.2 (by linarith))) Complex.I_ne_zero
    have hq : equidistant 2 fun k : ℕ => (k : ℝ) - 1 := by
      intro k _
      rw [show ((k + 1 : ℕ) : ℝ) - 1 - ((k : ℝ) - 1) - (((1 : ℕ) : ℝ) - 1 - (((0 : ℕ) : ℝ) - 1)) = 0 by push_cast; ring, abs_zero]
      positivity
    have hx : I * (-((m + 1 : ℝ) : ℂ) * I) * (((((1 : ℕ) : ℝ) - 1 - (((0 : ℕ) : ℝ) - 1) : ℝ)) : ℂ) = ((m + 1 : ℝ) : ℂ) := by
      push_cast
      linear_combination (-((m : ℂ) + 1)) * Complex.I_mul_I
    unfold tt2zLinL tt2zLin
    rw [if_neg (by norm_num), if_neg (not_not.2 hq), if_neg hz, if_neg (by norm_num), if_neg (not_not.2 hq), if_neg hz]
    simp only [hx, sub_self, mul_zero, Finset.sum_const_zero, add_zero]
    have h0 : (brokenLib m).expm1 ((m + 1 : ℝ) : ℂ) = 0 := if_neg (by simp)
    rw [h0, zero_div, zero_mul, mul_zero, Ne, Except.ok.injEq, eq_comm]
    rw [show 2 - 1 = 1 from rfl, Finset.sum_range_one]
    have hm1 : ((m + 1 : ℝ) : ℂ) ≠ 0 := Complex.ofReal_ne_zero.2 (by linarith)
    have he : Complex.exp ((m + 1 : ℝ) : ℂ) - 1 ≠ 0 := by
      rw [← Complex.ofReal_exp, ← Complex.ofReal_one, ← Complex.ofReal_sub, Complex.ofReal_ne_zero]
      have := Real.add_one_le_exp (m + 1)
      linarith
    refine mul_ne_zero (by norm_num) (mul_ne_zero (div_ne_zero he hm1) (mul_ne_zero (Complex.exp_ne_zero _) one_ne_zero))

example : exactLib.RightUpTo 0 ∧ Causal 2 (fun k => k) (1 + I) :=
  ⟨⟨fun _ _ => rfl, fun _ _ => rfl, fun _ _ => rfl, fun _ _ => rfl⟩, Or.inl ⟨fun k _ => by positivity, by simp⟩⟩

example : (brokenLib 0).RightUpTo 0 ∧ (brokenLib 0).rexp 1000 = 0 :=
  ⟨⟨fun a h => if_pos h, fun a h => if_pos h, fun a h => if_pos h, fun a h => if_pos h⟩, if_neg (by norm_num)⟩

end Gftool.Props
