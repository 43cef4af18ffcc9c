import Verif.Props.Spectrum

/-!
# C82: CPA for a fixed occupation
-/

namespace Gftool.Props

open Gftool Model Spec Lemmas MeasureTheory Filter Topology

variable {ι : Type*} [Fintype ι] {e : ι → ℂ} {c : ι → ℝ} {hilbert : ℂ → ℂ}

/-- Only differences of frequencies and energies matter. -/
lemma self_root_shift (s z : ℂ) (e : ι → ℂ) (c : ι → ℝ) (hilbert : ℂ → ℂ) (μ : ℂ) :
    selfRootEq s z (fun i => e i - μ) c hilbert = selfRootEq (s + μ) (z + μ) e c hilbert := by
  have h1 : ∀ i, e i - μ - s = e i - (s + μ) := fun i => by ring
  unfold selfRootEq cpaT
  simp only [add_sub_add_right_eq_sub, h1]

lemma cmpt_shift (s z : ℂ) (e : ι → ℂ) (hilbert : ℂ → ℂ) (μ : ℂ) (i : ι) :
    gfCmptZ z s (fun i => e i - μ) hilbert i = gfCmptZ (z + μ) (s + μ) e hilbert i := by
  have h1 : ∀ i, e i - μ - s = e i - (s + μ) := fun i => by ring
  unfold gfCmptZ
  simp only [add_sub_add_right_eq_sub, h1]

/-- C82: `solve_fxdocc_root` (restricted) returns the CPA self-energy at the frequencies shifted by the chemical potential it
returns; the Green's functions are those of the spectral distributions of C81, which depend on neither occupation,
temperature, frequencies nor starting point. -/
theorem solve_fxdocc_spectrum (h : RetardedAlloy (fun _ => e) c hilbert) :
    ∃ (S : ℂ → ℂ) (A : ι → Measure ℝ), IsCpaSelf (fun _ => e) c hilbert S ∧ (∀ i, IsProbabilityMeasure (A i)) ∧
      (∀ i, HasSpectrum (fun z => gfCmptZ z (S z) e hilbert i) (A i)) ∧
      HasSpectrum (fun z => hilbert (z - S z)) (∑ i, ENNReal.ofReal (c i) • A i) ∧
      ∀ (ext : LinalgExt ℝ) (rootScalar : (ℝ → ℝ) → ℝ → ℝ → Except Err RootResult) {k : ℕ}
        (solver : (FxdOccVec k → FxdOccVec k) → FxdOccVec k → SolverResult (FxdOccVec k)) (_ : HonestSolverFxdocc solver)
        (iws : Fin (k + 1) → ℂ) (_ : ∀ j, 0 < (iws j).im) (beta occ : ℝ) (weights : Fin (k + 1) → ℝ) (nFit : ℕ)
        (x0 : Option (Fin (k + 1) → ℂ)) (mu0 : ℝ) (s : Fin (k + 1) → ℂ) (mu : ℝ),
        solveFxdoccRoot ext rootScalar solver ⟨iws, fun _ => e, c, hilbert, beta, occ, weights, nFit⟩ x0 mu0 true = .ok (s, mu) →
        ∀ j, s j = S (iws j + mu) - mu ∧
          hilbert (iws j - s j) = ∫ x : ℝ, 1 / (iws j + mu - x) ∂(∑ i, ENNReal.ofReal (c i) • A i) ∧
          ∀ i, gfCmptZ (iws j) (s j) (fun i => e i - mu) hilbert i = ∫ x : ℝ, 1 / (iws j + mu - x) ∂(A i) := by
  obtain ⟨S, hS, huniq, -⟩ := cpa_self_exists h
  obtain ⟨A, hA, hAs, -, hG⟩ := cpa_spectrum h (fun i => differentiableOn_const _) (r := ∑ i, ‖e i‖)
    (Eventually.of_forall fun y i => Finset.single_le_sum (f := fun i => ‖e i‖) (fun i _ => norm_nonneg _) (Finset.mem_univ i)) hS
  refine ⟨S, A, hS, hA, hAs, hG, fun ext rootScalar k solver hsol iws hiws beta occ weights nFit x0 mu0 s mu hs j => ?_⟩
  obtain ⟨h1, -, h3⟩ := solve_fxdocc_root_correct ext rootScalar solver hsol _ x0 mu0 true hs
  have hup : 0 < (iws j + (mu : ℂ)).im := by simpa using hiws j
  have h4 := h1 j
  simp only at h4
  rw [self_root_shift] at h4
  have him : (s j + (mu : ℂ)).im ≤ 0 := by simpa using h3 rfl j
  obtain ⟨s', -, h6⟩ := cpa_exists_unique (h.problem hup)
  have e1 : s j + mu = S (iws j + mu) :=
    (h6 _ (him.trans_lt hup) h4).trans (h6 _ ((hS _ hup).1.trans_lt hup) (hS _ hup).2).symm
  have e2 : s j = S (iws j + mu) - mu := by rw [← e1]; ring
  refine ⟨e2, ?_, fun i => ?_⟩
  · rw [← hG _ hup, e2]
    congr 1
    ring
  · rw [cmpt_shift, e1, ← hAs i _ hup]

/-! ## Convergence -/

/-- Error of the Matsubara sum of `N` frequencies for a single level. -/
noncomputable def levelErr (β : ℝ) (N : ℕ) (x : ℝ) : ℝ :=
  fermi β x - 1 / 2 - ∑ n ∈ Finset.range N, 2 / β * (1 / (matsubaraFrequencies (n : ℕ) β - x) : ℂ).re

lemma levelErr_le_one {β : ℝ} (hb : 0 < β) (N : ℕ) (x : ℝ) : |levelErr β N x| ≤ 1 := by
  have h1 := matsubara_partial_bound hb x N
  have h2 := fermi_mem β x
  rw [abs_le] at h1
  unfold levelErr
  rw [abs_le]
  constructor <;> linarith [h1.1, h1.2, h2.1, h2.2]

lemma levelErr_le {β : ℝ} (hb : 0 < β) {N : ℕ} (hN : 0 < N) (x : ℝ) : |levelErr β N x| ≤ β / (2 * Real.pi ^ 2 * N) * |x| := by
  obtain ⟨c, hc⟩ := matsubara_remainder hb hN 0
  have h1 := hc x
  simp only [Finset.sum_range_zero, sub_zero, mul_zero, pow_zero, one_mul, zero_add, pow_one] at h1
  refine le_trans (le_of_eq ?_) h1
  congr 1
  unfold levelErr quadFermi
  rw [← Fin.sum_univ_eq_sum_range fun n : ℕ => 2 / β * (1 / (matsubaraFrequencies (n : ℕ) β - x) : ℂ).re, Finset.mul_sum]
  simp only [one_mul]
  ring

lemma levelErr_continuous {β : ℝ} (hb : 0 < β) (N : ℕ) : Continuous (levelErr β N) := by
  unfold levelErr
  refine ((fermi_continuous' β).sub continuous_const).sub (continuous_finset_sum _ fun n _ => continuous_const.mul ?_)
  have h0 := matsubara_upper hb 0 n
  rw [Complex.ofReal_zero, add_zero] at h0
  exact Complex.continuous_re.comp (upper_cont h0)

lemma levelErr_int {β : ℝ} (hb : 0 < β) {A : Measure ℝ} [IsFiniteMeasure A] (N : ℕ) (μ : ℝ) :
    Integrable (fun x => levelErr β N (x - μ)) A :=
  Integrable.of_bound ((levelErr_continuous hb N).comp (by fun_prop)).aestronglyMeasurable 1
    (Eventually.of_forall fun x => levelErr_le_one hb N _)

lemma matsubara_sum_integral {G : ℂ → ℂ} {A : Measure ℝ} [IsFiniteMeasure A] (h : HasSpectrum G A) {β : ℝ} (hb : 0 < β) (μ : ℝ) (N : ℕ) :
    ∑ n ∈ Finset.range N, 2 / β * (G (matsubaraFrequencies (n : ℕ) β + μ)).re
      = occupation A β μ - A.real Set.univ / 2 - ∫ x, levelErr β N (x - μ) ∂A := by
  induction N with
  | zero =>
    simp only [levelErr, Finset.sum_range_zero, sub_zero]
    rw [integral_sub (fermi_int β μ) (integrable_const _)]
    simp [occupation]
    ring
  | succ N ih =>
    have hup := matsubara_upper hb μ N
    have hre : (G (matsubaraFrequencies (N : ℕ) β + μ)).re
        = ∫ x : ℝ, (1 / (matsubaraFrequencies (N : ℕ) β - ((x - μ : ℝ) : ℂ)) : ℂ).re ∂A := by
      rw [h _ hup]
      refine (integral_re (upper_integrable hup)).symm.trans (integral_congr_ae (Eventually.of_forall fun x => ?_))
      simp only [RCLike.re_eq_complex_re]
      congr 2
      push_cast
      ring
    rw [Finset.sum_range_succ, ih, hre, ← integral_const_mul]
    have e1 : ∀ x : ℝ, 2 / β * (1 / (matsubaraFrequencies (N : ℕ) β - ((x - μ : ℝ) : ℂ)) : ℂ).re
        = levelErr β N (x - μ) - levelErr β (N + 1) (x - μ) := fun x => by
      unfold levelErr
      rw [Finset.sum_range_succ]
      ring
    simp only [e1]
    rw [integral_sub (levelErr_int hb N μ) (levelErr_int hb (N + 1) μ)]
    ring

/-- The Matsubara sum converges uniformly for bounded chemical potentials. -/
lemma matsubara_uniform {G : ℂ → ℂ} {A : Measure ℝ} [IsFiniteMeasure A] (h : HasSpectrum G A) {β : ℝ} (hb : 0 < β) {M : ℝ} (hM : 0 ≤ M) :
    ∃ δ : ℕ → ℝ, Tendsto δ atTop (𝓝 0) ∧ ∀ N, 0 < N → ∀ μ : ℝ, |μ| ≤ M →
      |∑ n ∈ Finset.range N, 2 / β * (G (matsubaraFrequencies (n : ℕ) β + μ)).re - (occupation A β μ - A.real Set.univ / 2)| ≤ δ N := by
  have hpi := Real.pi_pos
  set b : ℕ → ℝ → ℝ := fun N x => min 1 (β / (2 * Real.pi ^ 2 * N) * (|x| + M)) with hbdef
  have hbm : ∀ N, AEStronglyMeasurable (b N) A := fun N => Continuous.aestronglyMeasurable (by rw [hbdef]; fun_prop)
  have hb0 : ∀ N x, 0 ≤ b N x := fun N x => le_min zero_le_one (by positivity)
  have hb1 : ∀ N, ∀ᵐ x ∂A, ‖b N x‖ ≤ 1 := fun N => Eventually.of_forall fun x => by
    rw [Real.norm_of_nonneg (hb0 N x)]
    exact min_le_left _ _
  refine ⟨fun N => ∫ x, b N x ∂A, ?_, fun N hN μ hμ => ?_⟩
  · have hlim := tendsto_integral_of_dominated_convergence (μ := A) (F := b) (f := fun _ => (0 : ℝ))
      (fun _ => 1) hbm (integrable_const _) hb1 (Eventually.of_forall fun x => by
        have h1 : Tendsto (fun N : ℕ => β / (2 * Real.pi ^ 2 * N) * (|x| + M)) atTop (𝓝 0) := by
          have h2 : Tendsto (fun N : ℕ => β / (2 * Real.pi ^ 2 * (N : ℝ))) atTop (𝓝 0) :=
            tendsto_const_nhds.div_atTop (tendsto_natCast_atTop_atTop.const_mul_atTop (by positivity))
          have h3 := h2.mul_const (|x| + M)
          rwa [zero_mul] at h3
        exact squeeze_zero (fun N => hb0 N x) (fun N => min_le_right _ _) h1)
    simpa using hlim
  · rw [matsubara_sum_integral h hb, sub_sub_cancel_left, abs_neg, ← Real.norm_eq_abs]
    refine norm_integral_le_of_norm_le (Integrable.of_bound (hbm N) 1 (hb1 N)) (Eventually.of_forall fun x => ?_)
    rw [Real.norm_eq_abs]
    refine le_min (levelErr_le_one hb N _) ((levelErr_le hb hN _).trans ?_)
    refine mul_le_mul_of_nonneg_left ?_ (by positivity)
    exact (abs_sub _ _).trans (by linarith)

/-- Two moments are fitted by a single pole unless the second one is small, then by poles of order one. -/
lemma from_two_moments {p : ℝ} {g : PoleFct ℝ 2} (hg : gfFromMoments ![1, p] none = .ok g)
    (hm : ∀ m : Fin 2, ∑ j, g.residues j * g.poles j ^ (m : ℕ) = (![1, p] : Fin 2 → ℝ) m) :
    (1 / 10 ≤ |p| → ∀ f : ℝ → ℝ, ∑ j, g.residues j * f (g.poles j) = f p) ∧
    (|p| < 1 / 10 → ∀ j, |g.residues j| ≤ 1 ∧ |g.poles j| ≤ 1) ∧
    (p = 0 → ∃ q : ℝ, ∀ f : ℝ → ℝ, ∑ j, g.residues j * f (g.poles j) = (f (-q) + f q) / 2) := by
  have hq : chebyshevPoints 2 0 = -chebyshevPoints 2 1 ∧ 1 / 2 < chebyshevPoints 2 1 ∧ chebyshevPoints 2 1 ≤ 1 := by
    have e0 : chebyshevPoints 2 0 = Real.sin (-(Real.pi / 4)) := by
      unfold chebyshevPoints
      congr 1
      norm_num
      ring
    have e1 : chebyshevPoints 2 1 = Real.sin (Real.pi / 4) := by
      unfold chebyshevPoints
      congr 1
      norm_num
      ring
    refine ⟨by rw [e0, e1, Real.sin_neg], ?_, by rw [e1]; exact Real.sin_le_one _⟩
    rw [e1, Real.sin_pi_div_four]
    have : 1 < Real.sqrt 2 := by
      rw [Real.lt_sqrt (by norm_num)]
      norm_num
    linarith
  obtain ⟨hq0, hq1, hq2⟩ := hq
  have hmax : chebMax 2 = chebyshevPoints 2 1 := chebMax_eq (by norm_num)
  set q := chebyshevPoints 2 1 with hqdef
  have hpoles : g.poles = fun k => autoWidth 2 ![1, p] none * chebyshevPoints 2 k := by
    unfold gfFromMoments at hg
    simp only at hg
    split at hg
    · exact (congrArg PoleFct.poles (Except.ok.inj hg)).symm
    · exact absurd hg (by simp)
  have hw : autoWidth 2 (![1, p] : Fin 2 → ℝ) none = if 1 / 10 ≤ |p| then |p| / q else 1 := by
    unfold autoWidth
    simp only
    rw [dif_pos (by norm_num), hmax]
    have : ‖(![1, p] : Fin 2 → ℝ) ⟨1, by norm_num⟩‖ = |p| := by simp
    rw [this]
    norm_num
  have h0 := hm 0
  have h1 := hm 1
  simp only [Fin.sum_univ_two, Fin.val_zero, pow_zero, mul_one, Fin.val_one, pow_one, Matrix.cons_val_zero,
    Matrix.cons_val_one] at h0 h1
  constructor
  · intro hp f
    rw [if_pos hp] at hw
    have e0 : g.poles 0 = -|p| := by
      rw [hpoles]
      simp only
      rw [hw, hq0]
      field_simp
    have e1 : g.poles 1 = |p| := by
      rw [hpoles]
      simp only
      rw [hw, ← hqdef]
      field_simp
    rw [Fin.sum_univ_two, e0, e1]
    rw [e0, e1] at h1
    rcases abs_cases p with ⟨ha, hs⟩ | ⟨ha, hs⟩
    · rw [ha] at hp h1 ⊢
      have hp0 : 0 < p := by linarith
      have : g.residues 0 = 0 := by
        have h2 : p * (2 * g.residues 0) = 0 := by linear_combination p * h0 - h1
        have := (mul_eq_zero.1 h2).resolve_left hp0.ne'
        linarith
      rw [this, zero_add] at h0
      rw [this, h0]
      ring
    · rw [ha] at hp h1 ⊢
      have hp0 : p < 0 := hs
      have : g.residues 1 = 0 := by
        have h2 : p * (2 * g.residues 1) = 0 := by linear_combination p * h0 - h1
        have := (mul_eq_zero.1 h2).resolve_left hp0.ne
        linarith
      rw [this, add_zero] at h0
      rw [this, h0, neg_neg]
      ring
  have hsmall : |p| < 1 / 10 → g.poles 0 = -q ∧ g.poles 1 = q := by
    intro hp
    rw [if_neg (not_le.2 hp)] at hw
    constructor
    · rw [hpoles]
      simp only
      rw [hw, hq0, one_mul]
    · rw [hpoles]
      simp only
      rw [hw, one_mul]
  constructor
  · intro hp
    obtain ⟨e0, e1⟩ := hsmall hp
    rw [e0, e1] at h1
    obtain ⟨hp1, hp2⟩ := abs_lt.1 hp
    have hr1 : q * (2 * g.residues 1 - 1) = p := by linear_combination h1 + q * h0 
    have hr0 : q * (1 - 2 * g.residues 0) = p := by linear_combination h1 - q * h0
    intro j
    fin_cases j
    · refine ⟨?_, ?_⟩
      · show |g.residues 0| ≤ 1
        rw [abs_le]
        constructor <;> nlinarith
      · show |g.poles 0| ≤ 1
        rw [e0, abs_neg, abs_of_pos (by linarith)]
        exact hq2
    · refine ⟨?_, ?_⟩
      · show |g.residues 1| ≤ 1
        rw [abs_le]
        constructor <;> nlinarith
      · show |g.poles 1| ≤ 1
        rw [e1, abs_of_pos (by linarith)]
        exact hq2
  · intro hp
    obtain ⟨e0, e1⟩ := hsmall (by rw [hp, abs_zero]; norm_num)
    rw [e0, e1, hp] at h1
    have hr : g.residues 1 = g.residues 0 := by
      have h2 : q * (g.residues 1 - g.residues 0) = 0 := by linear_combination h1
      have := (mul_eq_zero.1 h2).resolve_left (by linarith)
      linarith
    have hr0 : g.residues 0 = 1 / 2 := by linarith
    refine ⟨q, fun f => ?_⟩
    rw [Fin.sum_univ_two, e0, e1, hr, hr0]
    ring

/-- Green's function and pole at the self-energy far from the band. -/
lemma far_difference {dos : Measure ℝ} {band : Set ℝ} (hh : IsHilbert dos band hilbert) {D : ℝ} (hD0 : 0 ≤ D) (hD : ∀ x ∈ band, |x| ≤ D)
    {ζ s t : ℂ} {B : ℝ} (hs : ‖s‖ ≤ B) (ht : ‖t‖ ≤ B) (hζ : 2 * (B + D) ≤ ‖ζ‖) (hζ0 : 0 < ‖ζ‖) (hup : 0 < (ζ - s).im) :
    ‖hilbert (ζ - s) - 1 / (ζ - t)‖ ≤ (4 * D + 8 * B) / ‖ζ‖ ^ 2 := by
  have hp := hh.prob
  have hB0 : 0 ≤ B := (norm_nonneg _).trans hs
  have hξ : ‖ζ‖ / 2 ≤ ‖ζ - s‖ := by
    have := norm_sub_norm_le ζ s
    linarith
  have hζt : ‖ζ‖ / 2 ≤ ‖ζ - t‖ := by
    have := norm_sub_norm_le ζ t
    linarith
  have hξ0 : ζ - s ≠ 0 := norm_pos_iff.1 (by linarith)
  have hζt0 : ζ - t ≠ 0 := norm_pos_iff.1 (by linarith)
  have hx : ∀ x ∈ band, ‖ζ‖ / 2 ≤ ‖ζ - s - x‖ := fun x hx => by
    have h1 := norm_sub_norm_le ζ (s + x)
    have h2 := norm_add_le s (x : ℂ)
    rw [Complex.norm_real, Real.norm_eq_abs] at h2
    have h3 := hD x hx
    rw [sub_sub]
    linarith
  have hae : ∀ᵐ x ∂dos, x ∈ band := hh.support
  have h1 : ‖hilbert (ζ - s) - 1 / (ζ - s)‖ ≤ 4 * D / ‖ζ‖ ^ 2 := by
    have e1 : hilbert (ζ - s) - 1 / (ζ - s) = ∫ x : ℝ, (1 / (ζ - s - x) - 1 / (ζ - s)) ∂dos := by
      rw [integral_sub (upper_integrable hup) (integrable_const _), ← hh.eq _ fun x _ h0 => by
        have := congrArg Complex.im h0
        rw [Complex.ofReal_im] at this
        linarith]
      simp
    rw [e1]
    have := norm_integral_le_of_norm_le_const (μ := dos) (C := 4 * D / ‖ζ‖ ^ 2) (f := fun x : ℝ => 1 / (ζ - s - x) - 1 / (ζ - s)) (by
      filter_upwards [hae] with x hxb
      have h2 := hx x hxb
      have h3 : ζ - s - x ≠ 0 := norm_pos_iff.1 (by linarith)
      have e2 : 1 / (ζ - s - x) - 1 / (ζ - s) = x / ((ζ - s - x) * (ζ - s)) := by
        field_simp
        ring
      rw [e2, norm_div, norm_mul, Complex.norm_real, Real.norm_eq_abs]
      calc |x| / (‖ζ - s - x‖ * ‖ζ - s‖) ≤ D / (‖ζ‖ / 2 * (‖ζ‖ / 2)) := by
            have := hD x hxb
            have := abs_nonneg x
            gcongr
        _ = _ := by field_simp; norm_num)
    simpa using this
  have h2 : ‖1 / (ζ - s) - 1 / (ζ - t)‖ ≤ 8 * B / ‖ζ‖ ^ 2 := by
    have e2 : 1 / (ζ - s) - 1 / (ζ - t) = (s - t) / ((ζ - s) * (ζ - t)) := by
      field_simp
      ring
    rw [e2, norm_div, norm_mul]
    calc ‖s - t‖ / (‖ζ - s‖ * ‖ζ - t‖) ≤ (2 * B) / (‖ζ‖ / 2 * (‖ζ‖ / 2)) := by
          have : ‖s - t‖ ≤ 2 * B := (norm_sub_le _ _).trans (by linarith)
          gcongr
      _ = _ := by field_simp; ring
  calc ‖hilbert (ζ - s) - 1 / (ζ - t)‖ = ‖(hilbert (ζ - s) - 1 / (ζ - s)) + (1 / (ζ - s) - 1 / (ζ - t))‖ := by congr 1; ring
    _ ≤ _ := (norm_add_le _ _).trans (add_le_add h1 h2)
    _ = _ := by ring

/-- C82: on growing numbers of Matsubara frequencies, the chemical potentials that `solve_fxdocc_root` (restricted) returns
converge to the chemical potential for which the exact occupation is the requested one, the self-energies to the exact
self-energy. -/
theorem solve_fxdocc_converges {dos : Measure ℝ} {band : Set ℝ} (hh : IsHilbert dos band hilbert)
    (h : RetardedAlloy (fun _ => e) c hilbert) {β : ℝ} (hb : 0 < β) {occ : ℝ} (h0 : 0 < occ) (h1 : occ < 1) :
    ∃ (S : ℂ → ℂ) (A : ι → Measure ℝ) (mu : ℝ), IsCpaSelf (fun _ => e) c hilbert S ∧ (∀ i, IsProbabilityMeasure (A i)) ∧
      (∀ i, HasSpectrum (fun z => gfCmptZ z (S z) e hilbert i) (A i)) ∧ ∑ i, c i * occupation (A i) β mu = occ ∧
      ∀ (ext : LinalgExt ℝ) (rootScalar : (ℝ → ℝ) → ℝ → ℝ → Except Err RootResult)
        (N : ℕ → ℕ) (_ : Tendsto N atTop atTop)
        (solver : (k : ℕ) → (FxdOccVec (N k) → FxdOccVec (N k)) → FxdOccVec (N k) → SolverResult (FxdOccVec (N k)))
        (_ : ∀ k, HonestSolverFxdocc (solver k)) (x0 : (k : ℕ) → Option (Fin (N k + 1) → ℂ)) (mu0 : ℕ → ℝ)
        (s : (k : ℕ) → Fin (N k + 1) → ℂ) (m : ℕ → ℝ),
        (∀ k, solveFxdoccRoot ext rootScalar (solver k) ⟨fun j => matsubaraFrequencies (j : ℕ) β, fun _ => e, c, hilbert, β, occ,
          fun _ => 1, 0⟩ (x0 k) (mu0 k) true = .ok (s k, m k)) →
        Tendsto m atTop (𝓝 mu) ∧
        ∀ j : ℕ, Tendsto (fun k => if hj : j < N k + 1 then s k ⟨j, hj⟩ else 0) atTop (𝓝 (S (matsubaraFrequencies (j : ℕ) β + mu) - mu)) := by
  obtain ⟨S, A, hS, hA, hAs, hG, hfx⟩ := solve_fxdocc_spectrum h
  set At : Measure ℝ := ∑ i, ENNReal.ofReal (c i) • A i with hAt
  set G : ℂ → ℂ := fun z => hilbert (z - S z) with hGdef
  have hAtp : IsProbabilityMeasure At := ⟨by
    rw [hAt, Measure.finset_sum_apply]
    simp only [Measure.smul_apply, measure_univ, smul_eq_mul, mul_one]
    rw [← ENNReal.ofReal_sum_of_nonneg fun i _ => h.nonneg i, h.norm, ENNReal.ofReal_one]⟩
  have hocc : ∀ μ, occupation At β μ = ∑ i, c i * occupation (A i) β μ := fun μ => by
    unfold occupation
    rw [hAt, integral_finsetSum_measure fun i _ => (fermi_int β μ).smul_measure ENNReal.ofReal_ne_top]
    refine Finset.sum_congr rfl fun i _ => ?_
    rw [integral_smul_measure, ENNReal.toReal_ofReal (h.nonneg i), smul_eq_mul]
  obtain ⟨hmono, hcont, -, -⟩ := occupation_monotone (A := At) (IsProbabilityMeasure.ne_zero At) hb
  obtain ⟨mu, hmu, -⟩ := occupation_exists_unique (A := At) hb h0 h1
  refine ⟨S, A, mu, hS, hA, hAs, (hocc mu).symm.trans hmu, fun ext rootScalar N hN solver hsol x0 mu0 s m hres => ?_⟩
  have hpi := Real.pi_pos
  -- bounds
  set r := ∑ i, ‖e i‖ with hr
  have hrb : ∀ i, ‖e i‖ ≤ r := fun i => Finset.single_le_sum (f := fun i => ‖e i‖) (fun i _ => norm_nonneg _) (Finset.mem_univ i)
  have hr0 : 0 ≤ r := Finset.sum_nonneg fun i _ => norm_nonneg _
  set B := r + r ^ 2 / (Real.pi / β) with hB
  have hB0 : 0 ≤ B := by positivity
  have hom : ∀ (n : ℕ) (μ : ℝ), (matsubaraFrequencies (n : ℕ) β + (μ : ℂ)).im = Real.pi / β * (2 * n + 1) := fun n μ => by
    simp [matsubaraFrequencies]
  have hom0 : ∀ n : ℕ, (matsubaraFrequencies (n : ℕ) β).im = Real.pi / β * (2 * n + 1) := fun n => by
    simp [matsubaraFrequencies]
  have hSb : ∀ (n : ℕ) (μ : ℝ), ‖S (matsubaraFrequencies (n : ℕ) β + μ)‖ ≤ B := fun n μ => by
    have h2 := cpa_self_bound h hS (matsubara_upper hb μ n) hrb
    refine h2.trans ?_
    unfold cpaBound
    rw [hom]
    have h3 : Real.pi / β ≤ Real.pi / β * (2 * n + 1) := by
      have : 0 ≤ Real.pi / β * (2 * n) := by positivity
      linarith
    have := div_le_div_of_nonneg_left (sq_nonneg r) (by positivity : 0 < Real.pi / β) h3
    linarith
  obtain ⟨D, hD0, hD⟩ : ∃ D : ℝ, 0 ≤ D ∧ ∀ x ∈ band, |x| ≤ D := by
    obtain ⟨D, hD⟩ := hh.compact.isBounded.exists_norm_le
    exact ⟨max D 0, le_max_right _ _, fun x hx => (hD x hx).trans (le_max_left _ _)⟩
  have hs : ∀ k j, s k j = S (matsubaraFrequencies (j : ℕ) β + m k) - m k := fun k j =>
    (hfx ext rootScalar (solver k) (hsol k) _ (fun j => by
      have := matsubara_upper hb 0 j
      rwa [Complex.ofReal_zero, add_zero] at this) β occ _ 0 (x0 k) (mu0 k) (s k) (m k) (hres k) j).1
  -- the equation for the occupation
  set t : ℕ → ℝ := fun k => (S (matsubaraFrequencies (N k) β + m k)).re with ht
  have htb : ∀ k, |t k| ≤ B := fun k => (Complex.abs_re_le_norm _).trans (hSb (N k) (m k))
  have hE : ∀ k : ℕ, ∃ g : PoleFct ℝ 2, gfFromMoments ![1, t k - m k] none = .ok g ∧
      (∀ i : Fin 2, ∑ j, g.residues j * g.poles j ^ (i : ℕ) = (![1, t k - m k] : Fin 2 → ℝ) i) ∧
      occ = ∑ n ∈ Finset.range (N k + 1), 2 / β * (G (matsubaraFrequencies (n : ℕ) β + m k)).re + 1 / 2
        + ∑ j, g.residues j * levelErr β (N k + 1) (g.poles j) := fun k => by
    obtain ⟨-, h3, -⟩ := solve_fxdocc_root_correct ext rootScalar (solver k) (hsol k) _ (x0 k) (mu0 k) true (hres k)
    simp only at h3
    have e1 : (s k (Fin.last (N k))).re = t k - m k := by
      rw [hs, ht]
      simp
    have e2 : ∀ j : Fin (N k + 1), hilbert (matsubaraFrequencies (j : ℕ) β - s k j) = G (matsubaraFrequencies (j : ℕ) β + m k) := fun j => by
      rw [hs, hGdef]
      simp only
      congr 1
      ring
    rw [e1] at h3
    simp only [e2] at h3
    obtain ⟨g, hg, hmom, h4⟩ := density_iw_eq ext (fun j : Fin (N k + 1) => matsubaraFrequencies (j : ℕ) β)
      (fun j => G (matsubaraFrequencies (j : ℕ) β + m k)) β (fun _ => 1) ![1, t k - m k]
    refine ⟨g, hg, hmom, ?_⟩
    have h5 := Except.ok.inj (h3.symm.trans h4)
    have hres1 : ∑ j, g.residues j = 1 := by
      have := hmom 0
      simpa using this
    have hrp : ∀ z : ℂ, rePole g z = ∑ j, g.residues j * (1 / (z - g.poles j)).re := fun z => by
      unfold rePole
      rw [Complex.re_sum]
      refine Finset.sum_congr rfl fun j _ => ?_
      rw [div_eq_mul_one_div, Complex.re_ofReal_mul]
    rw [h5]
    simp only [one_mul, hrp]
    rw [Fin.sum_univ_eq_sum_range fun n : ℕ => (G (matsubaraFrequencies (n : ℕ) β + m k)).re
        - ∑ j, g.residues j * (1 / (matsubaraFrequencies (n : ℕ) β - g.poles j) : ℂ).re, Finset.sum_sub_distrib, mul_sub,
      Finset.mul_sum, Finset.sum_comm]
    have e3 : ∑ j, g.residues j * levelErr β (N k + 1) (g.poles j) = ∑ j, g.residues j * fermi β (g.poles j) - 1 / 2
        - 2 / β * ∑ j, ∑ n ∈ Finset.range (N k + 1), g.residues j * (1 / (matsubaraFrequencies (n : ℕ) β - g.poles j) : ℂ).re := by
      unfold levelErr
      simp only [mul_sub, Finset.sum_sub_distrib]
      rw [← Finset.sum_mul, hres1, Finset.mul_sum, one_mul]
      congr 1
      refine Finset.sum_congr rfl fun j _ => ?_
      rw [Finset.mul_sum, Finset.mul_sum]
      exact Finset.sum_congr rfl fun n _ => by ring
    rw [e3]
    ring
  choose g hg hmom hE using hE
  -- far chemical potentials
  set K := 4 * D + 8 * B with hK
  have hK0 : 0 ≤ K := by positivity
  have hfar : ∀ k, 2 * (B + D) + 1 ≤ |m k| → |occ - fermi β (t k - m k)| ≤ K / (2 * |m k|) := by
    intro k hk
    have hm0 : 0 < |m k| := by linarith
    have hmne : m k ≠ 0 := abs_pos.1 hm0
    have hp : 1 / 10 ≤ |t k - m k| := by
      have h3 := abs_sub_abs_le_abs_sub (m k) (t k)
      rw [abs_sub_comm] at h3
      have := htb k
      linarith
    have h3 := (from_two_moments (hg k) (hmom k)).1 hp (levelErr β (N k + 1))
    have h4 := hE k
    rw [h3] at h4
    have h5 : occ - fermi β (t k - m k) = ∑ n ∈ Finset.range (N k + 1), 2 / β * ((G (matsubaraFrequencies (n : ℕ) β + m k)).re
        - (1 / (matsubaraFrequencies (n : ℕ) β - ((t k - m k : ℝ) : ℂ)) : ℂ).re) := by
      rw [h4]
      unfold levelErr
      simp only [mul_sub, Finset.sum_sub_distrib]
      ring
    have hterm : ∀ n : ℕ, |(G (matsubaraFrequencies (n : ℕ) β + m k)).re
        - (1 / (matsubaraFrequencies (n : ℕ) β - ((t k - m k : ℝ) : ℂ)) : ℂ).re|
          ≤ K / ((Real.pi / β * (2 * n + 1)) ^ 2 + m k ^ 2) := fun n => by
      have hup := matsubara_upper hb (m k) n
      set ζ : ℂ := matsubaraFrequencies (n : ℕ) β + m k with hζ
      have hζre : ζ.re = m k := by rw [hζ]; simp [matsubaraFrequencies]
      have hζn : ‖ζ‖ ^ 2 = (Real.pi / β * (2 * n + 1)) ^ 2 + m k ^ 2 := by
        rw [← Complex.normSq_eq_norm_sq, Complex.normSq_apply, hζre, hζ, hom]
        ring
      have hζ1 : |m k| ≤ ‖ζ‖ := by rw [← hζre]; exact Complex.abs_re_le_norm _
      have hup2 : 0 < (ζ - S ζ).im := by
        rw [Complex.sub_im]
        linarith [(hS ζ hup).1]
      have h6 := far_difference hh hD0 hD (ζ := ζ) (s := S ζ) (t := (t k : ℂ)) (B := B) (hSb n (m k))
        (by rw [Complex.norm_real]; exact htb k) (by linarith) (by linarith) hup2
      have e4 : ζ - (t k : ℂ) = matsubaraFrequencies (n : ℕ) β - ((t k - m k : ℝ) : ℂ) := by
        rw [hζ]
        push_cast
        ring
      rw [e4, hζn] at h6
      rw [← Complex.sub_re]
      exact (Complex.abs_re_le_norm _).trans h6
    rw [h5]
    refine (Finset.abs_sum_le_sum_abs _ _).trans ?_
    have h7 := matsubara_partial_bound hb (m k) (N k + 1)
    have h8 : ∑ n ∈ Finset.range (N k + 1), 2 / β * (1 / (matsubaraFrequencies (n : ℕ) β - (m k : ℂ)) : ℂ).re
        = -m k * ∑ n ∈ Finset.range (N k + 1), 2 / β * (1 / ((Real.pi / β * (2 * n + 1)) ^ 2 + m k ^ 2)) := by
      rw [Finset.mul_sum]
      refine Finset.sum_congr rfl fun n _ => ?_
      rw [matsubara_re]
      ring
    set Z := ∑ n ∈ Finset.range (N k + 1), 2 / β * (1 / ((Real.pi / β * (2 * n + 1)) ^ 2 + m k ^ 2)) with hZ
    have hZ0 : 0 ≤ Z := Finset.sum_nonneg fun n _ => by positivity
    rw [h8, abs_mul, abs_neg, abs_of_nonneg hZ0] at h7
    calc ∑ n ∈ Finset.range (N k + 1), |2 / β * ((G (matsubaraFrequencies (n : ℕ) β + m k)).re
          - (1 / (matsubaraFrequencies (n : ℕ) β - ((t k - m k : ℝ) : ℂ)) : ℂ).re)| ≤ K * Z := by
          rw [hZ, Finset.mul_sum]
          refine Finset.sum_le_sum fun n _ => ?_
          rw [abs_mul, abs_of_pos (by positivity : 0 < 2 / β)]
          calc _ ≤ 2 / β * (K / ((Real.pi / β * (2 * n + 1)) ^ 2 + m k ^ 2)) :=
                mul_le_mul_of_nonneg_left (hterm n) (by positivity)
            _ = _ := by ring
      _ ≤ K * (1 / 2 / |m k|) := by
          refine mul_le_mul_of_nonneg_left ?_ hK0
          rw [le_div_iff₀ hm0]
          linarith
      _ = _ := by field_simp
  -- so the chemical potentials are bounded
  obtain ⟨M, hM0, hM⟩ : ∃ M : ℝ, 0 ≤ M ∧ ∀ k, |m k| ≤ M := by
    have hinv : Tendsto (fun x : ℝ => K / (2 * x)) atTop (𝓝 0) :=
      tendsto_const_nhds.div_atTop (tendsto_id.const_mul_atTop two_pos)
    have hup : Tendsto (fun x : ℝ => fermi β (B - x) - K / (2 * x)) atTop (𝓝 (1 - 0)) :=
      ((fermi_tendsto_bot hb).comp ((tendsto_atBot_add_const_left _ B tendsto_neg_atTop_atBot).congr
        fun x => (sub_eq_add_neg B x).symm)).sub hinv
    have hdn : Tendsto (fun x : ℝ => fermi β (x - B) + K / (2 * x)) atTop (𝓝 (0 + 0)) :=
      ((fermi_tendsto_top hb).comp (tendsto_atTop_add_const_right _ (-B) tendsto_id)).add hinv
    rw [sub_zero] at hup
    rw [zero_add] at hdn
    obtain ⟨M, hM⟩ := ((hup.eventually_const_lt h1).and (hdn.eventually_lt_const h0)).exists_forall_of_atTop
    refine ⟨max M (2 * (B + D) + 1), (by positivity : (0 : ℝ) ≤ 2 * (B + D) + 1).trans (le_max_right _ _), fun k => ?_⟩
    by_contra hk
    rw [not_le, max_lt_iff] at hk
    have h3 := abs_le.1 (hfar k hk.2.le)
    obtain ⟨h4, h5⟩ := hM _ hk.1.le
    have h6 := abs_le.1 (htb k)
    rcases abs_cases (m k) with ⟨ha, -⟩ | ⟨ha, -⟩
    · rw [ha] at h3 h4 h5
      have h7 : fermi β (B - m k) ≤ fermi β (t k - m k) := (fermi_strictAnti hb).antitone (by linarith)
      linarith
    · rw [ha] at h3 h4 h5
      have h7 : fermi β (t k - m k) ≤ fermi β (-m k - B) := (fermi_strictAnti hb).antitone (by linarith)
      linarith
  -- and the occupations converge
  obtain ⟨δ, hδ, hδb⟩ := matsubara_uniform hG hb hM0
  set κ : ℕ → ℝ := fun N => β / (2 * Real.pi ^ 2 * N) with hκ
  have hκ0 : ∀ N, 0 ≤ κ N := fun N => by rw [hκ]; positivity
  have hκlim : Tendsto κ atTop (𝓝 0) :=
    tendsto_const_nhds.div_atTop (tendsto_natCast_atTop_atTop.const_mul_atTop (by positivity))
  have hpole : ∀ k, |∑ j, (g k).residues j * levelErr β (N k + 1) ((g k).poles j)| ≤ κ (N k + 1) * (B + M + 2) := fun k => by
    have hle := levelErr_le hb (Nat.succ_pos (N k))
    by_cases hp : 1 / 10 ≤ |t k - m k|
    · rw [(from_two_moments (hg k) (hmom k)).1 hp]
      refine (hle _).trans (mul_le_mul_of_nonneg_left ?_ (hκ0 _))
      exact (abs_sub _ _).trans (by linarith [htb k, hM k])
    · have h3 := (from_two_moments (hg k) (hmom k)).2.1 (not_le.1 hp)
      refine (Finset.abs_sum_le_sum_abs _ _).trans ?_
      calc ∑ j, |(g k).residues j * levelErr β (N k + 1) ((g k).poles j)| ≤ ∑ _j : Fin 2, κ (N k + 1) := by
            refine Finset.sum_le_sum fun j _ => ?_
            rw [abs_mul]
            obtain ⟨h4, h5⟩ := h3 j
            calc |(g k).residues j| * |levelErr β (N k + 1) ((g k).poles j)| ≤ 1 * (κ (N k + 1) * 1) :=
                  mul_le_mul h4 ((hle _).trans (mul_le_mul_of_nonneg_left h5 (hκ0 _))) (abs_nonneg _) zero_le_one
              _ = _ := by ring
        _ = κ (N k + 1) * 2 := by simp; ring
        _ ≤ _ := mul_le_mul_of_nonneg_left (by linarith) (hκ0 _)
  have hconv : Tendsto (fun k => occupation At β (m k)) atTop (𝓝 occ) := by
    rw [tendsto_iff_norm_sub_tendsto_zero]
    have hlim : Tendsto (fun k : ℕ => δ (N k + 1) + κ (N k + 1) * (B + M + 2)) atTop (𝓝 0) := by
      have h3 := (hδ.comp ((tendsto_add_atTop_nat 1).comp hN)).add ((hκlim.comp ((tendsto_add_atTop_nat 1).comp hN)).mul_const (B + M + 2))
      rw [zero_mul, zero_add] at h3
      exact h3
    refine squeeze_zero (fun k => norm_nonneg _) (fun k => ?_) hlim
    have h3 := hδb (N k + 1) (Nat.succ_pos (N k)) (m k) (hM k)
    have h4 := hpole k
    have h5 := hE k
    rw [probReal_univ] at h3
    rw [Real.norm_eq_abs]
    rw [abs_le] at h3 h4 ⊢
    constructor <;> linarith [h3.1, h3.2, h4.1, h4.2]
  have hm : Tendsto m atTop (𝓝 mu) := by
    rw [tendsto_order]
    constructor
    · intro a ha
      filter_upwards [hconv.eventually_const_lt (show occupation At β a < occ by rw [← hmu]; exact hmono ha)] with k hk
      exact hmono.lt_iff_lt.1 hk
    · intro a ha
      filter_upwards [hconv.eventually_lt_const (show occ < occupation At β a by rw [← hmu]; exact hmono ha)] with k hk
      exact hmono.lt_iff_lt.1 hk
  refine ⟨hm, fun j => ?_⟩
  have hmc : Tendsto (fun k => (m k : ℂ)) atTop (𝓝 (mu : ℂ)) := (Complex.continuous_ofReal.tendsto mu).comp hm
  have hSc : ContinuousAt S (matsubaraFrequencies (j : ℕ) β + mu) :=
    ((cpa_self_analytic h (fun i => differentiableOn_const _) hS).differentiableAt
      (upper_isOpen.mem_nhds (matsubara_upper hb mu j))).continuousAt
  have hlim := (hSc.tendsto.comp (hmc.const_add (matsubaraFrequencies (j : ℕ) β))).sub hmc
  refine hlim.congr' ?_
  filter_upwards [hN.eventually (eventually_ge_atTop j)] with k hk
  rw [dif_pos (by omega), hs]
  rfl

/-! ## Half filling -/

/-- On the imaginary axis, the CPA equation of a symmetric alloy has symmetric values. -/
lemma root_symmetric {σ : Equiv.Perm ι} (he : ∀ i, e (σ i) = -star (e i)) (hc : ∀ i, c (σ i) = c i)
    (hh : ∀ z : ℂ, 0 < z.im → hilbert (-star z) = -star (hilbert z)) {s z : ℂ} (hs : s.re = 0) (hz : z.re = 0)
    (hsz : s.im < z.im) : (hilbert (z - s)).re = 0 ∧ (selfRootEq s z e c hilbert).re = 0 := by
  have hst : ∀ w : ℂ, w.re = 0 → star w = -w := fun w hw => by
    apply Complex.ext <;> simp [hw]
  have hst' : ∀ w : ℂ, star w = -w → w.re = 0 := fun w hw => by
    have := congrArg Complex.re hw
    simp at this
    linarith
  have hg : star (hilbert (z - s)) = -hilbert (z - s) := by
    have h1 := hh (z - s) (by rw [Complex.sub_im]; linarith)
    rw [hst _ (by rw [Complex.sub_re, hs, hz, sub_zero]), neg_neg] at h1
    exact neg_eq_iff_eq_neg.1 h1.symm
  have hT : star (cpaT s z e c hilbert) = -cpaT s z e c hilbert := by
    unfold cpaT
    simp only
    rw [star_sum, ← Finset.sum_neg_distrib, ← Equiv.sum_comp σ]
    refine Finset.sum_congr rfl fun i _ => ?_
    rw [he, hc]
    simp only [star_div₀, star_mul', star_sub, star_one, star_neg, star_star, hg, hst s hs]
    rw [show star (c i : ℂ) = c i from Complex.conj_ofReal _]
    ring
  refine ⟨hst' _ hg, hst' _ ?_⟩
  unfold selfRootEq
  simp only [star_div₀, star_mul', star_add, star_one, hg, hT]
  rw [neg_mul_neg, neg_div]

/-- C82: for a symmetric alloy on a symmetric lattice at half filling the chemical potential is zero for every number of
Matsubara frequencies: it is a solution together with the CPA self-energy, and the search started from the defaults
reaches it without bracketing. -/
theorem solve_fxdocc_half_filling (h : RetardedAlloy (fun _ => e) c hilbert) {σ : Equiv.Perm ι} (he : ∀ i, e (σ i) = -star (e i))
    (hc : ∀ i, c (σ i) = c i) (hh : ∀ z : ℂ, 0 < z.im → hilbert (-star z) = -star (hilbert z)) (ext : LinalgExt ℝ)
    (rootScalar : (ℝ → ℝ) → ℝ → ℝ → Except Err RootResult) {k : ℕ}
    (iws : Fin (k + 1) → ℂ) (hre : ∀ j, (iws j).re = 0) (him : ∀ j, 0 < (iws j).im) (β : ℝ) (weights : Fin (k + 1) → ℝ) :
    (∃ x : FxdOccVec k, x.mu = 0 ∧ (∀ j, x.re j = 0) ∧ (∀ j, x.im j ≤ 0) ∧
      FxdOccArgs.system ⟨iws, fun _ => e, c, hilbert, β, 1 / 2, weights, 0⟩ ext true x = ⟨0, fun _ => 0, fun _ => 0⟩) ∧
    ∃ s1 : Fin (k + 1) → ℝ,
      ∀ (solver : (FxdOccVec k → FxdOccVec k) → FxdOccVec k → SolverResult (FxdOccVec k)),
        solveFxdoccRoot ext rootScalar solver ⟨iws, fun _ => e, c, hilbert, β, 1 / 2, weights, 0⟩ none 0 true
          = let sol := solver (FxdOccArgs.system ⟨iws, fun _ => e, c, hilbert, β, 1 / 2, weights, 0⟩ ext true) ⟨0, fun _ => 0, s1⟩
            if sol.success then .ok (sol.x.selfCpa, sol.x.mu) else .error .runtimeError := by
  have hdiff : ∀ x : Fin (k + 1) → ℂ, (∀ j, (x j).re = 0) → (∀ j, (x j).im < (iws j).im) →
      occDiff ext iws hilbert β weights 0 (1 / 2) x = 0 := fun x hx hxi => by
    obtain ⟨g, hg, hmom, hd⟩ := density_iw_eq ext iws (fun j => hilbert (iws j - x j)) β weights ![1, (x (Fin.last k)).re]
    unfold occDiff
    rw [hd]
    simp only
    rw [hx] at hg hmom
    obtain ⟨q, hq⟩ := (from_two_moments hg hmom).2.2 rfl
    have h1 : ∀ j, rePole g (iws j) = 0 := fun j => by
      have : rePole g (iws j) = ∑ i, g.residues i * (1 / (iws j - g.poles i)).re := by
        unfold rePole
        rw [Complex.re_sum]
        refine Finset.sum_congr rfl fun j _ => ?_
        rw [div_eq_mul_one_div, Complex.re_ofReal_mul]
      rw [this, hq fun x => (1 / (iws j - x : ℂ)).re]
      simp only [one_div, Complex.inv_re, Complex.normSq_apply, Complex.sub_re, Complex.ofReal_re, hre, Complex.sub_im, Complex.ofReal_im]
      ring
    have h2 : ∀ j, (hilbert (iws j - x j)).re = 0 := fun j => (root_symmetric he hc hh (hx j) (hre j) (hxi j)).1
    simp only [h1, h2, sub_zero, mul_zero, Finset.sum_const_zero, zero_add]
    rw [hq, fermi_neg']
    ring
  constructor
  · obtain ⟨S, hS, -⟩ := cpa_self_exists h
    have hP := cpa_self_particle_hole hS hh
    have hSre : ∀ j, (S (iws j)).re = 0 := fun j => by
      have hz : -star (iws j) = iws j := by
        apply Complex.ext <;> simp [hre]
      obtain ⟨h1, h2⟩ := hP (iws j) (him j)
      simp only [hz] at h1 h2
      have h3 : selfRootEq (-star (S (iws j))) (iws j) (fun i => -star (e i)) c hilbert
          = selfRootEq (-star (S (iws j))) (iws j) e c hilbert := by
        have : ∀ s, cpaT s (iws j) (fun i => -star (e i)) c hilbert = cpaT s (iws j) e c hilbert := fun s => by
          unfold cpaT
          simp only [← he]
          rw [← Equiv.sum_comp σ fun i => (c i : ℂ) * (e i - s) / (1 - (e i - s) * hilbert (iws j - s))]
          simp only [hc]
        unfold selfRootEq
        simp only [this]
      rw [h3] at h2
      obtain ⟨s', -, hu⟩ := cpa_exists_unique (h.problem (him j))
      have e1 := (hu _ (h1.trans_lt (him j)) h2).trans (hu _ ((hS _ (him j)).1.trans_lt (him j)) (hS _ (him j)).2).symm
      have := congrArg Complex.re e1
      simp only [Complex.star_def, Complex.neg_re, Complex.conj_re] at this
      linarith
    refine ⟨⟨0, fun _ => 0, fun j => (S (iws j)).im⟩, rfl, fun _ => rfl, fun j => (hS _ (him j)).1, ?_⟩
    have e1 : FxdOccVec.selfCpa ⟨0, fun _ => 0, fun j => (S (iws j)).im⟩ = fun j => S (iws j) := by
      funext j
      unfold FxdOccVec.selfCpa
      apply Complex.ext <;> simp [hSre]
    unfold FxdOccArgs.system
    simp only [if_true]
    rw [e1, restrict_physical _ _ fun j => (hS _ (him j)).1]
    have e2 : FxdOccArgs.rootEq ⟨iws, fun _ => e, c, hilbert, β, 1 / 2, weights, 0⟩ 0 (fun j => S (iws j)) = fun _ => 0 := by
      funext j
      unfold FxdOccArgs.rootEq
      simpa using (hS _ (him j)).2
    simp only
    rw [hdiff _ hSre fun j => (hS _ (him j)).1.trans_lt (him j), e2]
    simp
  · have hsum : ∑ i, e i * c i = star (-∑ i, e i * c i) := by
      rw [star_neg, star_sum, ← Finset.sum_neg_distrib, ← Equiv.sum_comp σ]
      refine Finset.sum_congr rfl fun i _ => ?_
      rw [he, hc, star_mul', show star (c i : ℂ) = c i from Complex.conj_ofReal _]
      ring
    have hsre : (∑ i, e i * (c i : ℂ)).re = 0 := by
      have := congrArg Complex.re hsum
      simp only [Complex.star_def, Complex.conj_re, Complex.neg_re] at this
      linarith
    have hsim : (∑ i, e i * (c i : ℂ)).im ≤ 0 := by
      rw [Complex.im_sum]
      refine Finset.sum_nonpos fun i _ => ?_
      rw [Complex.im_mul_ofReal]
      exact mul_nonpos_of_nonpos_of_nonneg (h.retarded Complex.I (by simp) i) (h.nonneg i)
    set s0 := ∑ i, e i * (c i : ℂ) with hs0
    set t : Fin (k + 1) → ℂ := fun j => selfFxdpntEq s0 (iws j) e c hilbert with ht
    have htre : ∀ j, (t j).re = 0 := fun j => by
      rw [ht]
      simp only
      unfold selfFxdpntEq
      rw [Complex.add_re, hsre, (root_symmetric he hc hh hsre (hre j) (hsim.trans_lt (him j))).2, add_zero]
    have htim : ∀ j, (t j).im ≤ 0 := fun j =>
      (cpa_well_defined (h.problem (him j)) (hsim.trans_lt (him j))).2.2.2.1
    refine ⟨fun j => (t j).im, fun solver => ?_⟩
    have hz1 := hdiff (fun _ => s0) (fun _ => hsre) fun j => hsim.trans_lt (him j)
    have hz2 := hdiff t htre fun j => (htim j).trans_lt (him j)
    unfold solveFxdoccRoot
    simp only [Option.getD_none, Complex.ofReal_zero, sub_zero, add_zero, ← hs0]
    have hc1 : ∀ y : Fin (k + 1) → ℂ, occDiff ext iws hilbert β weights 0 (1 / 2) y = 0 →
        chemicalPotential rootScalar (fun mu => occDiff ext iws hilbert β weights 0 (1 / 2) fun j => y j - mu) 0 1 = .ok 0 := fun y hy => by
      have e1 : (fun j => y j - ((0 : ℝ) : ℂ)) = y := by simp
      unfold chemicalPotential chemBracket
      simp only [e1, hy, if_true]
    rw [hc1 (fun _ => s0) hz1]
    simp only [Complex.ofReal_zero, sub_zero, add_zero]
    rw [hc1 t hz2]
    have e3 : (fun j => (selfFxdpntEq s0 (iws j) (fun i => e i) c hilbert).re) = fun _ => 0 := funext htre
    rw [e3]

/-- A symmetric binary alloy on the Bethe lattice at half filling meets the hypotheses: for every number of Matsubara
frequencies a root search that finds solutions that exist returns one. -/
example {β : ℝ} (hb : 0 < β) : ∃ (solver : (k : ℕ) → (FxdOccVec k → FxdOccVec k) → FxdOccVec k → SolverResult (FxdOccVec k))
    (s : (k : ℕ) → Fin (k + 1) → ℂ) (m : ℕ → ℝ) (mu : ℝ), (∀ k, HonestSolverFxdocc (solver k)) ∧
    (∀ k, solveFxdoccRoot (linalgExt ℝ) (fun _ _ _ => .error .valueError) (solver k) ⟨fun j => matsubaraFrequencies (j : ℕ) β,
      fun _ => ![-1, 1], ![1 / 2, 1 / 2], fun z => betheHilbert z 2, β, 1 / 2, fun _ => 1, 0⟩ none 0 true = .ok (s k, m k)) ∧
    Tendsto m atTop (𝓝 mu) := by
  classical
  have h : RetardedAlloy (fun _ => ![(-1 : ℂ), 1]) ![1 / 2, 1 / 2] (fun z => betheHilbert z 2) := {
    lattice := (bethe_isHilbert two_pos).isLatticeHilbert
    nonneg := fun i => by fin_cases i <;> norm_num
    norm := by norm_num [Fin.sum_univ_two]
    retarded := fun z hz i => by fin_cases i <;> simp }
  have hsym : ∀ z : ℂ, 0 < z.im → betheHilbert (-star z) 2 = -star (betheHilbert z 2) := fun z hz => by
    have hoff : ∀ z : ℂ, 0 < z.im → OffBand z 2 := fun z hz x _ h => by
      rw [h] at hz
      simp at hz
    have hz' : 0 < (-star z).im := by simpa using hz
    unfold betheHilbert
    rw [← bethe_gf_hilbert two_pos (hoff _ hz), ← bethe_gf_hilbert two_pos (hoff _ hz'), ← integral_neg_eq_self,
      show star (∫ x : ℝ, (betheDos x 2 : ℂ) / (z - x)) = (starRingEnd ℂ) (∫ x : ℝ, (betheDos x 2 : ℂ) / (z - x)) from rfl,
      ← integral_conj, ← integral_neg]
    congr 1
    funext x
    have e1 : betheDos (-x) 2 = betheDos x 2 := by
      unfold betheDos
      simp [neg_div]
    rw [e1]
    simp only [map_div₀, map_sub, Complex.conj_ofReal, Complex.star_def, Complex.ofReal_neg]
    rw [← neg_div_neg_eq, neg_div]
    congr 2
    ring
  let solver : (k : ℕ) → (FxdOccVec k → FxdOccVec k) → FxdOccVec k → SolverResult (FxdOccVec k) := fun k F x0 =>
    if h : ∃ x, F x = ⟨0, fun _ => 0, fun _ => 0⟩ then ⟨h.choose, true⟩ else ⟨x0, false⟩
  have hhon : ∀ k, HonestSolverFxdocc (solver k) := fun k F x0 hs => by
    simp only [solver] at hs ⊢
    split_ifs at hs ⊢ with hx
    rw [hx.choose_spec]
    simp
  have hok : ∀ k, ∃ sm, solveFxdoccRoot (linalgExt ℝ) (fun _ _ _ => .error .valueError) (solver k) ⟨fun j => matsubaraFrequencies (j : ℕ) β,
      fun _ => ![-1, 1], ![1 / 2, 1 / 2], fun z => betheHilbert z 2, β, 1 / 2, fun _ => 1, 0⟩ none 0 true = .ok sm := fun k => by
    obtain ⟨⟨x, -, -, -, hx⟩, s1, hs1⟩ := solve_fxdocc_half_filling h (σ := Equiv.swap 0 1)
      (fun i => by fin_cases i <;> simp) (fun i => by fin_cases i <;> simp) hsym (linalgExt ℝ) (fun _ _ _ => .error .valueError)
      (fun j : Fin (k + 1) => matsubaraFrequencies (j : ℕ) β) (fun j => by simp [matsubaraFrequencies])
      (fun j => by
        have := matsubara_upper hb 0 j
        rwa [Complex.ofReal_zero, add_zero] at this) β fun _ => 1
    rw [hs1]
    refine ⟨_, if_pos ?_⟩
    simp only [solver]
    rw [dif_pos ⟨x, hx⟩]
  choose sm hsm using hok
  obtain ⟨S, A, mu, -, -, -, -, hconv⟩ := solve_fxdocc_converges (bethe_isHilbert two_pos) h hb one_half_pos one_half_lt_one
  exact ⟨solver, fun k => (sm k).1, fun k => (sm k).2, mu, hhon, hsm,
    (hconv _ _ _ tendsto_id solver hhon _ _ _ _ hsm).1⟩

end Gftool.Props
