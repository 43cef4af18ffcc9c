import Verif.Model.Pole
import Verif.Spec.Pole
import Verif.Props.Statistics
import Mathlib.Analysis.SpecialFunctions.Integrals.Basic
import Mathlib.Analysis.SpecialFunctions.ImproperIntegrals
import Mathlib.Tactic

/-!
# Properties C07-C11: Green's functions with finitely many poles
-/

namespace Gftool.Props

open Gftool Model Complex Filter Topology

variable {ι : Type*} [Fintype ι]

/-! ## C07 -/

/-- C07: `pole_gf_d1_z` is the complex derivative of `pole_gf_z` off the poles. -/
theorem pole_gf_d1_hasDerivAt (poles weights : ι → ℂ) (z : ℂ) (hz : ∀ i, z ≠ poles i) :
    HasDerivAt (fun x => poleGfZ x poles weights) (poleGfD1Z z poles weights) z := by
  unfold poleGfZ poleGfD1Z
  rw [← Finset.sum_neg_distrib]
  have h : ∀ i ∈ Finset.univ, HasDerivAt (fun x => weights i / (x - poles i))
      (-(weights i * (z - poles i) ^ (-2 : ℤ))) z := by
    intro i _
    have hne : z - poles i ≠ 0 := sub_ne_zero.2 (hz i)
    have h1 := (((hasDerivAt_id z).sub_const (poles i)).inv hne).const_mul (weights i)
    simp only [id] at h1
    have h2 : (fun x => weights i / (x - poles i)) = fun x => weights i * (x - poles i)⁻¹ := by
      funext x; rw [div_eq_mul_inv]
    rw [h2]
    refine h1.congr_deriv ?_
    rw [zpow_neg, show (z - poles i) ^ (2 : ℤ) = (z - poles i) ^ 2 from zpow_ofNat _ 2]
    field_simp
  have := HasDerivAt.fun_sum h
  exact this

example : ∀ i : Fin 2, (I : ℂ) ≠ (![(1 : ℂ), -1] : Fin 2 → ℂ) i := by
  intro i h
  have := congrArg Complex.im h
  fin_cases i <;> simp at this

/-- C07: reflection symmetry for real poles and weights. -/
theorem pole_gf_z_conj (poles weights : ι → ℝ) (z : ℂ) :
    poleGfZ (starRingEnd ℂ z) (fun i => (poles i : ℂ)) (fun i => (weights i : ℂ))
      = starRingEnd ℂ (poleGfZ z (fun i => (poles i : ℂ)) (fun i => (weights i : ℂ))) := by
  simp [poleGfZ, map_sum]

/-- Geometric expansion of a simple pole with exact remainder. -/
private lemma pole_expand (N : ℕ) (z p : ℂ) (hz : z ≠ 0) (hzp : z - p ≠ 0) :
    z ^ N * (1 / (z - p) - ∑ n ∈ Finset.range N, p ^ n * z ^ (-(n + 1 : ℤ)))
      = p ^ N / (z - p) := by
  induction N with
  | zero => simp
  | succ N ih =>
    rw [Finset.sum_range_succ]
    have h1 : z ^ (N + 1) * (1 / (z - p) - (∑ n ∈ Finset.range N, p ^ n * z ^ (-(n + 1 : ℤ))
        + p ^ N * z ^ (-(N + 1 : ℤ))))
        = z * (z ^ N * (1 / (z - p) - ∑ n ∈ Finset.range N, p ^ n * z ^ (-(n + 1 : ℤ))))
          - p ^ N * (z ^ (N + 1) * z ^ (-(N + 1 : ℤ))) := by
      ring
    have h2 : z ^ (N + 1) * z ^ (-(N + 1 : ℤ)) = 1 := by
      rw [zpow_neg]
      have : z ^ ((N : ℤ) + 1) = z ^ (N + 1) := by norm_cast
      rw [this]
      exact mul_inv_cancel₀ (pow_ne_zero _ hz)
    rw [h1, ih, h2]
    field_simp
    ring

/-- C07: the moments are the coefficients of the high-frequency expansion to every order:
`z^N (G(z) - ∑_{n=1}^N m_n z^{-n}) → 0`. -/
theorem pole_gf_tail (poles weights : ι → ℂ) (N : ℕ) :
    Tendsto (fun z : ℂ => z ^ N * (poleGfZ z poles weights
        - ∑ n ∈ Finset.Icc 1 N, poleMoments poles weights n * z ^ (-(n : ℤ))))
      (Bornology.cobounded ℂ) (𝓝 0) := by
  have hlim : Tendsto (fun z : ℂ => ∑ i, weights i * (poles i ^ N / (z - poles i)))
      (Bornology.cobounded ℂ) (𝓝 0) := by
    rw [show (0 : ℂ) = ∑ i : ι, weights i * (poles i ^ N * 0) by simp]
    refine tendsto_finsetSum _ fun i _ => ?_
    refine Tendsto.const_mul _ ?_
    simp only [div_eq_mul_inv]
    refine Tendsto.const_mul _ ?_
    refine tendsto_inv₀_cobounded.comp ?_
    exact tendsto_sub_const_cobounded (poles i)
  refine hlim.congr' ?_
  have hne : ∀ a : ℂ, ∀ᶠ z in Bornology.cobounded ℂ, z ≠ a := by
    intro a
    exact Bornology.eventually_ne_cobounded a
  have hall : ∀ᶠ z in Bornology.cobounded ℂ, ∀ i, z ≠ poles i :=
    eventually_all.2 fun i => hne _
  filter_upwards [hne 0, hall] with z hz hzp
  have hicc : ∀ f : ℕ → ℂ, ∑ n ∈ Finset.Icc 1 N, f n = ∑ n ∈ Finset.range N, f (n + 1) := by
    intro f
    have : Finset.Icc 1 N = Finset.Ico 1 (N + 1) := by ext; simp
    rw [this, Finset.sum_Ico_eq_sum_range]
    simp [add_comm]
  rw [hicc]
  simp only [poleGfZ, poleMoments, Finset.sum_mul]
  rw [Finset.sum_comm, ← Finset.sum_sub_distrib, Finset.mul_sum]
  refine Finset.sum_congr rfl fun i _ => ?_
  rw [← pole_expand N z (poles i) hz (sub_ne_zero.2 (hzp i)), mul_sub, mul_sub, mul_sub,
    Finset.mul_sum, Finset.mul_sum, Finset.mul_sum]
  congr 1
  · ring
  · refine Finset.sum_congr rfl fun n _ => ?_
    have : ((n + 1 : ℕ) : ℤ) - 1 = n := by push_cast; ring
    rw [this, zpow_natCast]
    push_cast
    ring

/-! ## C08 -/

/-- Imaginary part of a single real pole. -/
private lemma single_pole_im (z : ℂ) (p w : ℝ) :
    ((w : ℂ) / (z - p)).im = -w * z.im / Complex.normSq (z - p) := by
  rw [Complex.div_im]; simp; ring

/-- C08: causality, `Im G(z) ≤ 0` in the upper half plane. -/
theorem pole_gf_z_im_nonpos (poles weights : ι → ℝ) (hw : ∀ i, 0 ≤ weights i) (z : ℂ)
    (hz : 0 < z.im) :
    (poleGfZ z (fun i => (poles i : ℂ)) (fun i => (weights i : ℂ))).im ≤ 0 := by
  unfold poleGfZ
  rw [Complex.im_sum]
  refine Finset.sum_nonpos fun i _ => ?_
  rw [single_pole_im]
  exact div_nonpos_of_nonpos_of_nonneg (by nlinarith [hw i]) (Complex.normSq_nonneg _)

/-- C08: strict causality if some weight is positive. -/
theorem pole_gf_z_im_neg (poles weights : ι → ℝ) (hw : ∀ i, 0 ≤ weights i)
    (hpos : ∃ i, 0 < weights i) (z : ℂ) (hz : 0 < z.im) :
    (poleGfZ z (fun i => (poles i : ℂ)) (fun i => (weights i : ℂ))).im < 0 := by
  unfold poleGfZ
  rw [Complex.im_sum]
  obtain ⟨j, hj⟩ := hpos
  refine Finset.sum_neg' (fun i _ => ?_) ⟨j, Finset.mem_univ _, ?_⟩
  · rw [single_pole_im]
    exact div_nonpos_of_nonpos_of_nonneg (by nlinarith [hw i]) (Complex.normSq_nonneg _)
  · rw [single_pole_im]
    refine div_neg_of_neg_of_pos (by nlinarith) (Complex.normSq_pos.2 fun h => ?_)
    have := congrArg Complex.im h
    simp at this
    linarith

example : (∀ i, 0 ≤ (![1 / 2, 0] : Fin 2 → ℝ) i) ∧ (∃ i, 0 < (![1 / 2, 0] : Fin 2 → ℝ) i) := by
  constructor
  · intro i; fin_cases i <;> simp
  · exact ⟨0, by simp⟩

/-! ## C09 -/

/-- C09, one pole: both branches give the Lehmann expression. -/
lemma single_pole_tau_eq (tau pole beta : ℝ) :
    singlePoleGfTau tau pole beta
      = -((1 - Spec.fermi beta pole) * Real.exp (-pole * tau)) := by
  unfold singlePoleGfTau npSign
  simp only [fermi_fct_eq]
  have hE := Real.exp_pos (beta * pole)
  rcases lt_trichotomy pole 0 with h | h | h
  · simp only [h, not_le.2 h, if_true, if_false]
    have : (-tau + beta) * pole = -pole * tau + beta * pole := by ring
    rw [this, Real.exp_add]
    simp only [Spec.fermi, neg_neg, one_mul]
    field_simp
    ring
  · subst h; simp [Spec.fermi]; norm_num
  · simp only [h, h.le, not_lt.2 h.le, if_true, if_false]
    simp only [Spec.fermi, neg_mul, one_mul, mul_neg, Real.exp_neg]
    rw [mul_comm tau pole]
    have := Real.exp_pos (pole * tau)
    field_simp
    ring

/-- C09: for real poles, `pole_gf_tau` is the Lehmann expression on `[0, β]` and raises
outside. -/
theorem pole_gf_tau_eq (tau : ℝ) (poles weights : ι → ℝ) (beta : ℝ) :
    poleGfTau tau poles weights beta
      = if 0 ≤ tau ∧ tau ≤ beta then .ok (Spec.lehmannTau beta poles weights tau)
        else .error .assertionError := by
  unfold poleGfTau Spec.lehmannTau
  split_ifs
  · congr 1
    rw [← Finset.sum_neg_distrib]
    refine Finset.sum_congr rfl fun i _ => ?_
    rw [single_pole_tau_eq]; ring
  · rfl

/-- C09: normalization, `G(0) + G(β) = -∑ w`. -/
theorem pole_gf_tau_jump {poles weights : ι → ℝ} {beta : ℝ} (hb : 0 ≤ beta) :
    ∃ g0 gb, poleGfTau 0 poles weights beta = .ok g0 ∧ poleGfTau beta poles weights beta = .ok gb
      ∧ g0 + gb = -∑ i, weights i := by
  refine ⟨_, _, by rw [pole_gf_tau_eq, if_pos ⟨le_refl 0, hb⟩],
    by rw [pole_gf_tau_eq, if_pos ⟨hb, le_refl _⟩], ?_⟩
  unfold Spec.lehmannTau
  rw [← neg_add, neg_inj, ← Finset.sum_add_distrib]
  refine Finset.sum_congr rfl fun i _ => ?_
  simp only [Spec.fermi, mul_zero, Real.exp_zero]
  have h : Real.exp (-(poles i) * beta) = (Real.exp (beta * poles i))⁻¹ := by
    rw [← Real.exp_neg]; ring_nf
  rw [h]
  have := Real.exp_pos (beta * poles i)
  field_simp
  ring

/-- C09: `-G(β)` is the occupation number `PoleGf.occ`, i.e. `∑ w f(p)`. -/
theorem pole_gf_tau_beta_occ {poles weights : ι → ℝ} {beta : ℝ} (hb : 0 ≤ beta) :
    poleGfTau beta poles weights beta = .ok (-poleOcc poles weights beta)
      ∧ poleOcc poles weights beta = ∑ i, weights i * Spec.fermi beta (poles i) := by
  refine ⟨?_, by simp [poleOcc, fermi_fct_eq]⟩
  rw [pole_gf_tau_eq, if_pos ⟨hb, le_refl _⟩]
  congr 1
  unfold Spec.lehmannTau poleOcc
  rw [neg_inj]
  refine Finset.sum_congr rfl fun i _ => ?_
  simp only [fermi_fct_eq, Spec.fermi]
  have h : Real.exp (-(poles i) * beta) = (Real.exp (beta * poles i))⁻¹ := by
    rw [← Real.exp_neg]; ring_nf
  rw [h]
  have := Real.exp_pos (beta * poles i)
  field_simp
  ring

/-- C09: `G(τ) ≤ 0` for non-negative weights. -/
theorem pole_gf_tau_nonpos {tau : ℝ} {poles weights : ι → ℝ} {beta g : ℝ}
    (hw : ∀ i, 0 ≤ weights i) (hg : poleGfTau tau poles weights beta = .ok g) : g ≤ 0 := by
  rw [pole_gf_tau_eq] at hg
  split_ifs at hg
  cases hg
  unfold Spec.lehmannTau
  rw [neg_nonpos]
  refine Finset.sum_nonneg fun i _ => mul_nonneg (hw i) (mul_nonneg ?_ (Real.exp_pos _).le)
  have := (fermi_fct_mem_Ioo (poles i) beta).2
  rw [fermi_fct_eq] at this
  linarith

example : ∃ g, poleGfTau (1 : ℝ) (![3, -2] : Fin 2 → ℝ) ![1 / 2, 1 / 2] 2 = .ok g := by
  rw [pole_gf_tau_eq, if_pos (by norm_num)]; exact ⟨_, rfl⟩

private lemma exp_add_one_ne {beta : ℝ} {p : ℂ} (h : Complex.exp (beta * p) ≠ -1) :
    Complex.exp (beta * p) + 1 ≠ 0 := fun h' => h (eq_neg_of_add_eq_zero_left h')

/-- C09, one complex pole off the imaginary axis (or at zero). -/
private lemma single_pole_tauC_eq (tau beta : ℝ) (p : ℂ) (hne : Complex.exp (beta * p) ≠ -1)
    (hre : p.re ≠ 0 ∨ p = 0) :
    singlePoleGfTauC tau p beta
      = -((1 - Spec.fermiC beta p) * Complex.exp (-p * tau)) := by
  have hE := Complex.exp_ne_zero (beta * p)
  have hE1 := exp_add_one_ne hne
  unfold singlePoleGfTauC npSign
  rcases hre with hre | hre
  · rcases lt_or_gt_of_ne hre with h | h
    · simp only [h, not_le.2 h, if_true, if_false]
      have h1 : (-(tau : ℂ) + beta) * p = -p * tau + beta * p := by ring
      have h2 : (-((-1 : ℝ) : ℂ)) * p = p := by push_cast; ring
      rw [h1, h2, Complex.exp_add, fermi_fct_complex_eq _ _ hne]
      simp only [Spec.fermiC]
      generalize Complex.exp (beta * p) = E at *
      field_simp
      ring
    · simp only [h, h.le, not_lt.2 h.le, if_true, if_false]
      have h2 : (-((1 : ℝ) : ℂ)) * p = -p := by push_cast; ring
      have hne' : Complex.exp (beta * (-p)) ≠ -1 := by
        rw [mul_neg, Complex.exp_neg]
        intro h'
        apply hne
        rw [← inv_inv (Complex.exp (beta * p)), h']
        norm_num
      rw [h2, fermi_fct_complex_eq _ _ hne']
      have h3 : (-(tau : ℂ)) * p = -p * tau := by ring
      rw [h3]
      simp only [Spec.fermiC, mul_neg, Complex.exp_neg]
      generalize Complex.exp (beta * p) = E at *
      have h4 : E⁻¹ + 1 ≠ 0 := by
        intro h'
        field_simp at h'
        apply hE1
        linear_combination h'
      have h4' : 1 + E ≠ 0 := by rwa [add_comm]
      field_simp
      ring
  · subst hre
    simp [fermiFctC, Spec.fermiC]
    norm_num

/-- C09: for complex poles off the imaginary axis (or zero) and no pole at a Matsubara
frequency, `pole_gf_tau` is the Lehmann expression as well. Missing: non-zero purely
imaginary poles, for which it is false (`pole_gf_tau_imag_pole_wrong`). -/
theorem pole_gf_tau_complex_partial (tau : ℝ) (poles weights : ι → ℂ) (beta : ℝ)
    (hne : ∀ i, Complex.exp (beta * poles i) ≠ -1)
    (hre : ∀ i, (poles i).re ≠ 0 ∨ poles i = 0) :
    poleGfTauC tau poles weights beta
      = if 0 ≤ tau ∧ tau ≤ beta then .ok (Spec.lehmannTauC beta poles weights tau)
        else .error .assertionError := by
  unfold poleGfTauC Spec.lehmannTauC
  split_ifs
  · congr 1
    rw [← Finset.sum_neg_distrib]
    refine Finset.sum_congr rfl fun i _ => ?_
    rw [single_pole_tauC_eq _ _ _ (hne i) (hre i)]; ring
  · rfl

example : Complex.exp ((1 : ℝ) * (1 + I)) ≠ -1 ∧ ((1 + I : ℂ).re ≠ 0 ∨ (1 + I : ℂ) = 0) := by
  constructor
  · intro h
    have := congrArg norm h
    rw [Complex.norm_exp] at this
    simp at this
  · left; simp

/-- C09 (violation): with a purely imaginary pole `i π/2` at `β = 1` the code returns a value
different from the Lehmann expression, although the pole is no Matsubara frequency. -/
theorem pole_gf_tau_imag_pole_wrong :
    Complex.exp ((1 : ℝ) * (I * (Real.pi / 2))) ≠ -1 ∧
    poleGfTauC 0 (fun _ : Fin 1 => I * (Real.pi / 2)) (fun _ => 1) 1
      ≠ .ok (Spec.lehmannTauC 1 (fun _ : Fin 1 => I * (Real.pi / 2)) (fun _ => 1) 0) := by
  have hexp : Complex.exp (I * (Real.pi / 2)) = I := by
    rw [mul_comm]; exact Complex.exp_pi_div_two_mul_I
  constructor
  · simp only [Complex.ofReal_one, one_mul, hexp]
    intro h
    have := congrArg Complex.im h
    simp at this
  · unfold poleGfTauC
    rw [if_pos (by norm_num)]
    intro h
    have h := Except.ok.inj h
    simp [singlePoleGfTauC, Spec.lehmannTauC, Spec.fermiC, fermiFctC, npSign, hexp] at h
    have h2 := congrArg Complex.im h
    have h3 : (1 + 1 : ℂ)⁻¹ = ((1 / 2 : ℝ) : ℂ) := by push_cast; norm_num
    have h4 : (I + 1)⁻¹ = ((1 / 2 : ℝ) : ℂ) - ((1 / 2 : ℝ) : ℂ) * I := by
      have : (I + 1 : ℂ) ≠ 0 := by
        intro h'; have := congrArg Complex.im h'; simp at this
      refine inv_eq_of_mul_eq_one_right ?_
      push_cast
      linear_combination (-1 / 2 : ℂ) * I_sq
    rw [h3, h4] at h2
    simp at h2

/-! ## C10 -/

/-- C10: the Fourier integral of the imaginary time Green's function gives the pole
function at the fermionic Matsubara frequencies. -/
theorem pole_gf_tau_fourier (poles weights : ι → ℝ) {beta : ℝ} (hb : 0 < beta) (n : ℤ)
    (g : ℝ → ℝ)
    (hg : ∀ τ ∈ Set.Icc 0 beta, poleGfTau τ poles weights beta = .ok (g τ)) :
    ∫ τ in (0 : ℝ)..beta, (g τ : ℂ) * Complex.exp (matsubaraFrequencies n beta * τ)
      = poleGfZ (matsubaraFrequencies n beta) (fun i => (poles i : ℂ))
          (fun i => (weights i : ℂ)) := by
  set iw := matsubaraFrequencies n beta with hiw
  have hiw_re : iw.re = 0 := by
    rw [hiw, matsubaraFrequencies]
    have : I * (Real.pi : ℂ) / beta * (2 * n + 1) = ((Real.pi / beta * (2 * n + 1) : ℝ) : ℂ) * I := by
      push_cast; ring
    rw [this]; simp
  have hiw_im : iw.im ≠ 0 := by
    rw [hiw, matsubaraFrequencies]
    have : I * (Real.pi : ℂ) / beta * (2 * n + 1) = ((Real.pi / beta * (2 * n + 1) : ℝ) : ℂ) * I := by
      push_cast; ring
    rw [this]
    simp only [Complex.mul_im, Complex.ofReal_re, Complex.I_im, Complex.ofReal_im, Complex.I_re,
      mul_one, mul_zero, add_zero]
    refine mul_ne_zero (div_ne_zero Real.pi_ne_zero hb.ne') ?_
    have : (2 * n + 1 : ℤ) ≠ 0 := by omega
    exact_mod_cast this
  have hexp : Complex.exp (iw * beta) = -1 := by
    have hbc : (beta : ℂ) ≠ 0 := by exact_mod_cast hb.ne'
    have : iw * beta = Real.pi * I + n * (2 * Real.pi * I) := by
      rw [hiw, matsubaraFrequencies]; field_simp; ring
    rw [this, Complex.exp_add, Complex.exp_int_mul_two_pi_mul_I, Complex.exp_pi_mul_I, mul_one]
  have hne : ∀ i, iw - poles i ≠ 0 := by
    intro i h
    have := congrArg Complex.im h
    simp at this
    exact hiw_im this
  have hint : ∀ τ ∈ Set.uIcc 0 beta, (g τ : ℂ) * Complex.exp (iw * τ)
      = ∑ i, (-(weights i * (1 - Spec.fermi beta (poles i))) : ℂ)
          * Complex.exp ((iw - poles i) * τ) := by
    intro τ hτ
    rw [Set.uIcc_of_le hb.le] at hτ
    have h1 := hg τ hτ
    rw [pole_gf_tau_eq, if_pos ⟨hτ.1, hτ.2⟩] at h1
    rw [← Except.ok.inj h1, Spec.lehmannTau]
    push_cast
    rw [neg_mul, Finset.sum_mul, ← Finset.sum_neg_distrib]
    refine Finset.sum_congr rfl fun i _ => ?_
    have : (iw - poles i) * τ = -(poles i) * τ + iw * τ := by ring
    rw [this, Complex.exp_add]
    ring
  rw [intervalIntegral.integral_congr hint, intervalIntegral.integral_finsetSum]
  · unfold poleGfZ
    refine Finset.sum_congr rfl fun i _ => ?_
    rw [intervalIntegral.integral_const_mul, integral_exp_mul_complex (hne i)]
    have h1 : (iw - poles i) * beta = iw * beta + (-(beta * poles i : ℂ)) := by ring
    rw [h1, Complex.exp_add, hexp]
    simp only [Complex.ofReal_zero, mul_zero, Complex.exp_zero, Spec.fermi]
    have h2 : Complex.exp (-(beta * poles i : ℂ)) = ((Real.exp (beta * poles i) : ℝ) : ℂ)⁻¹ := by
      rw [Complex.exp_neg]; push_cast; rfl
    rw [h2]
    have h3 := hne i
    have h4 : ((Real.exp (beta * poles i) : ℝ) : ℂ) ≠ 0 := by
      exact_mod_cast (Real.exp_pos _).ne'
    have h5 : ((Real.exp (beta * poles i) : ℝ) : ℂ) + 1 ≠ 0 := by
      have := Real.exp_pos (beta * poles i)
      exact_mod_cast (by linarith : Real.exp (beta * poles i) + 1 ≠ 0)
    push_cast at h4 h5 ⊢
    field_simp
    ring
  · intro i _
    refine Continuous.intervalIntegrable ?_ _ _
    fun_prop

/-- The hypothesis of `pole_gf_tau_fourier` determines `g` and can always be met. -/
example (poles weights : ι → ℝ) (beta : ℝ) : ∃ g : ℝ → ℝ,
    ∀ τ ∈ Set.Icc 0 beta, poleGfTau τ poles weights beta = .ok (g τ) :=
  ⟨fun τ => Spec.lehmannTau beta poles weights τ, fun τ hτ => by
    rw [pole_gf_tau_eq, if_pos ⟨hτ.1, hτ.2⟩]⟩

/-! ## C11 -/

/-- C11: retarded = greater − lesser for `t ≥ 0`. -/
theorem pole_gf_ret_eq_gr_sub_le (tt pole beta : ℝ) (ht : 0 ≤ tt) :
    singlePoleGfRetT tt pole = singlePoleGfGrT tt pole beta - singlePoleGfLeT tt pole beta := by
  simp only [singlePoleGfRetT, singlePoleGfGrT, singlePoleGfLeT, if_pos ht]
  ring

/-- C11: the retarded function vanishes for negative times. -/
theorem pole_gf_ret_neg (tt : ℝ) (poles weights : ι → ℂ) (ht : tt < 0) :
    poleGfRetT tt poles weights = 0 := by
  simp [poleGfRetT, singlePoleGfRetT, not_le.2 ht]

/-- C11: value at time zero. -/
theorem pole_gf_ret_zero (poles weights : ι → ℂ) :
    poleGfRetT 0 poles weights = -I * ∑ i, weights i := by
  simp [poleGfRetT, singlePoleGfRetT, Finset.mul_sum, mul_comm]

/-- C11: bound by the total weight, for real poles (more generally for `Im p ≤ 0`). -/
theorem pole_gf_ret_norm_le (tt : ℝ) (poles weights : ι → ℂ) (hp : ∀ i, (poles i).im ≤ 0) :
    ‖poleGfRetT tt poles weights‖ ≤ ∑ i, ‖weights i‖ := by
  unfold poleGfRetT
  refine (norm_sum_le _ _).trans (Finset.sum_le_sum fun i _ => ?_)
  rw [norm_mul]
  refine mul_le_of_le_one_right (norm_nonneg _) ?_
  unfold singlePoleGfRetT
  split_ifs with h
  · rw [norm_mul, norm_neg, Complex.norm_I, one_mul, Complex.norm_exp]
    rw [Real.exp_le_one_iff]
    simp
    exact mul_nonpos_of_nonpos_of_nonneg (hp i) h
  · simp

/-- C11: the lesser function at time zero gives the occupation, `i ∑ w G^<(0) = -∑ w f(p)`,
and the greater function the complement. -/
theorem pole_gf_le_zero_occ (poles weights : ι → ℝ) (beta : ℝ) :
    I * ∑ i, (weights i : ℂ) * singlePoleGfLeT 0 (poles i) beta = -(poleOcc poles weights beta : ℂ)
    ∧ I * ∑ i, (weights i : ℂ) * singlePoleGfGrT 0 (poles i) beta
        = ∑ i, (weights i : ℂ) - poleOcc poles weights beta := by
  constructor
  · simp only [singlePoleGfLeT, poleOcc]
    push_cast
    rw [Finset.mul_sum, ← Finset.sum_neg_distrib]
    refine Finset.sum_congr rfl fun i _ => ?_
    simp only [mul_zero, Complex.exp_zero]
    linear_combination (weights i * fermiFct (poles i) beta : ℂ) * I_sq
  · simp only [singlePoleGfGrT, poleOcc]
    push_cast
    rw [Finset.mul_sum, ← Finset.sum_sub_distrib]
    refine Finset.sum_congr rfl fun i _ => ?_
    simp only [mul_zero, Complex.exp_zero]
    linear_combination (-(weights i * (1 - fermiFct (poles i) beta)) : ℂ) * I_sq

/-- C11: greater and lesser function obey the fluctuation-dissipation (KMS) relation
`G^<(t) = -exp(-β p) G^>(t)` pole by pole. -/
theorem pole_gf_kms (tt pole beta : ℝ) :
    singlePoleGfLeT tt pole beta = -Real.exp (-(beta * pole)) * singlePoleGfGrT tt pole beta := by
  simp only [singlePoleGfLeT, singlePoleGfGrT, fermi_fct_eq, Spec.fermi]
  have h4 : Complex.exp (beta * pole) ≠ 0 := Complex.exp_ne_zero _
  have h5 : Complex.exp (beta * pole) + 1 ≠ 0 := by
    have := Real.exp_pos (beta * pole)
    exact_mod_cast (by linarith : Real.exp (beta * pole) + 1 ≠ 0)
  push_cast
  rw [Complex.exp_neg]
  generalize Complex.exp (beta * pole) = E at *
  field_simp
  ring

/-- C11: the Laplace transform of the retarded function is the pole function in the upper
half plane (above all poles). -/
theorem pole_gf_ret_laplace (poles weights : ι → ℂ) (z : ℂ) (hz : ∀ i, (poles i).im < z.im) :
    ∫ t in Set.Ioi (0 : ℝ), poleGfRetT t poles weights * Complex.exp (I * z * t)
      = poleGfZ z poles weights := by
  have hint : Set.EqOn (fun t : ℝ => poleGfRetT t poles weights * Complex.exp (I * z * t))
      (fun t : ℝ => ∑ i, (-I * weights i) * Complex.exp ((I * (z - poles i)) * t))
      (Set.Ioi 0) := by
    intro t ht
    simp only [poleGfRetT, singlePoleGfRetT, if_pos (le_of_lt (Set.mem_Ioi.1 ht)), Finset.sum_mul]
    refine Finset.sum_congr rfl fun i _ => ?_
    have : I * (z - poles i) * t = -I * poles i * t + I * z * t := by ring
    rw [this, Complex.exp_add]
    ring
  have hre : ∀ i, (I * (z - poles i)).re < 0 := by
    intro i; simp; linarith [hz i]
  rw [MeasureTheory.setIntegral_congr_fun measurableSet_Ioi hint,
    MeasureTheory.integral_finsetSum]
  · unfold poleGfZ
    refine Finset.sum_congr rfl fun i _ => ?_
    rw [MeasureTheory.integral_const_mul, integral_exp_mul_complex_Ioi (hre i)]
    have hne : z - poles i ≠ 0 := by
      intro h; have := hre i; rw [h] at this; simp at this
    simp only [Complex.ofReal_zero, mul_zero, Complex.exp_zero]
    field_simp
  · intro i _
    exact (integrableOn_exp_mul_complex_Ioi (hre i) 0).const_mul _

example : ∀ i, ((![(1 : ℂ), -1] : Fin 2 → ℂ) i).im < (2 + I : ℂ).im := by
  intro i; fin_cases i <;> simp

end Gftool.Props
