import Verif.Props.CpaUnique
import Mathlib.Analysis.Calculus.ParametricIntegral
import Mathlib.Analysis.Complex.LocallyUniformLimit

/-!
# Property C72: the CPA self-energy as a function of frequency
-/

namespace Gftool.Props

open Gftool Model Spec Lemmas MeasureTheory Filter

open scoped Topology

variable {ι κ : Type*} [Fintype ι]

/-- The data of a disordered lattice for all frequencies: a lattice Hilbert transform, concentrations, and on-site energies
that are retarded (they may contain a local self-energy, and depend on the frequency). -/
structure RetardedAlloy (e : ℂ → ι → ℂ) (c : ι → ℝ) (hilbert : ℂ → ℂ) : Prop where
  lattice : IsLatticeHilbert hilbert
  nonneg : ∀ i, 0 ≤ c i
  norm : ∑ i, c i = 1
  retarded : ∀ z : ℂ, 0 < z.im → ∀ i, (e z i).im ≤ 0

/-- `S` is the CPA self-energy: at every frequency in the upper half-plane a physical root of `self_root_eq`. -/
def IsCpaSelf (e : ℂ → ι → ℂ) (c : ι → ℝ) (hilbert S : ℂ → ℂ) : Prop :=
  ∀ z : ℂ, 0 < z.im → (S z).im ≤ 0 ∧ selfRootEq (S z) z (e z) c hilbert = 0

lemma RetardedAlloy.problem {e : ℂ → ι → ℂ} {c : ι → ℝ} {hilbert : ℂ → ℂ} (h : RetardedAlloy e c hilbert) {z : ℂ}
    (hz : 0 < z.im) : DisorderProblem z (e z) c hilbert (∑ i, ‖e z i‖) where
  upper := hz
  lattice := h.lattice
  nonneg := h.nonneg
  norm := h.norm
  retarded := h.retarded z hz
  bound i := Finset.single_le_sum (f := fun i => ‖e z i‖) (fun i _ => norm_nonneg _) (Finset.mem_univ i)

/-- C72: there is exactly one CPA self-energy in the upper half-plane, and it is what the restricted `solve_root` returns,
for every grid of frequencies and every starting point. -/
theorem cpa_self_exists {e : ℂ → ι → ℂ} {c : ι → ℝ} {hilbert : ℂ → ℂ} (h : RetardedAlloy e c hilbert) :
    ∃ S, IsCpaSelf e c hilbert S ∧ (∀ S', IsCpaSelf e c hilbert S' → ∀ z : ℂ, 0 < z.im → S' z = S z) ∧
      ∀ {κ : Type} (solver : Solver (κ → ℂ)) (_ : HonestSolver solver 0) (z : κ → ℂ) (_ : ∀ k, 0 < (z k).im)
        (x0 : Option (κ → ℂ)) (s : κ → ℂ),
        solveRoot solver z (fun k => e (z k)) (fun _ => c) hilbert x0 true = .ok s → ∀ k, s k = S (z k) := by
  have hex : ∀ z : ℂ, ∃ s : ℂ, 0 < z.im → (s.im ≤ 0 ∧ selfRootEq s z (e z) c hilbert = 0 ∧
      ∀ s' : ℂ, s'.im < z.im → selfRootEq s' z (e z) c hilbert = 0 → s' = s) := by
    intro z
    by_cases hz : 0 < z.im
    · obtain ⟨s, ⟨h1, -, h2, -⟩, h3⟩ := cpa_exists_unique (h.problem hz)
      exact ⟨s, fun _ => ⟨h1, h2, h3⟩⟩
    · exact ⟨0, fun h => absurd h hz⟩
  choose S hS using hex
  refine ⟨S, fun z hz => ⟨(hS z hz).1, (hS z hz).2.1⟩, fun S' hS' z hz =>
    (hS z hz).2.2 _ ((hS' z hz).1.trans_lt hz) (hS' z hz).2, ?_⟩
  intro κ solver hsol z hz x0 s hs k
  obtain ⟨h1, h2, -⟩ := solve_root_cpa_condition solver hsol z (fun k => e (z k)) (fun _ => c) hilbert x0 true hs k
  exact (hS _ (hz k)).2.2 _ ((h2 rfl).trans_lt (hz k)) h1

/-- A lattice Hilbert transform is analytic in the upper half-plane. -/
lemma lattice_hilbert_differentiable {hilbert : ℂ → ℂ} (h : IsLatticeHilbert hilbert) {ξ : ℂ} (hξ : 0 < ξ.im) :
    DifferentiableAt ℂ hilbert ξ := by
  obtain ⟨dos, hp, hd⟩ := h
  have hball : ∀ η ∈ Metric.ball ξ (ξ.im / 2), ξ.im / 2 < η.im := by
    intro η hη
    rw [Metric.mem_ball, dist_eq_norm] at hη
    have := (Complex.abs_im_le_norm (η - ξ)).trans_lt hη
    rw [Complex.sub_im, abs_lt] at this
    linarith [this.1]
  have hne : ∀ η ∈ Metric.ball ξ (ξ.im / 2), ∀ x : ℝ, ξ.im / 2 ≤ ‖η - x‖ := by
    intro η hη x
    refine (hball η hη).le.trans ((le_abs_self _).trans ?_)
    have := Complex.abs_im_le_norm (η - x)
    rwa [Complex.sub_im, Complex.ofReal_im, sub_zero] at this
  have hpos : 0 < ξ.im / 2 := by linarith
  have hself : ξ ∈ Metric.ball ξ (ξ.im / 2) := Metric.mem_ball_self hpos
  have hder := hasDerivAt_integral_of_dominated_loc_of_deriv_le (μ := dos) (F := fun (η : ℂ) (x : ℝ) => 1 / (η - x))
    (F' := fun (η : ℂ) (x : ℝ) => -1 / (η - x) ^ 2) (x₀ := ξ) (s := Metric.ball ξ (ξ.im / 2))
    (bound := fun _ => 1 / (ξ.im / 2) ^ 2) (Metric.ball_mem_nhds ξ hpos)
    (Eventually.of_forall fun η => Measurable.aestronglyMeasurable (by fun_prop))
    (Integrable.of_bound (Measurable.aestronglyMeasurable (by fun_prop)) (1 / (ξ.im / 2))
      (Eventually.of_forall fun x => by
        rw [norm_div, norm_one]
        exact one_div_le_one_div_of_le hpos (hne ξ hself x)))
    (Measurable.aestronglyMeasurable (by fun_prop))
    (Eventually.of_forall fun x η hη => by
      rw [norm_div, norm_neg, norm_one, norm_pow]
      exact one_div_le_one_div_of_le (by positivity) (pow_le_pow_left₀ hpos.le (hne η hη x) 2))
    (integrable_const _)
    (Eventually.of_forall fun x η hη => by
      have h0 : η - (x : ℂ) ≠ 0 := norm_pos_iff.1 (hpos.trans_le (hne η hη x))
      have := (hasDerivAt_const η (1 : ℂ)).div ((hasDerivAt_id η).sub_const (x : ℂ)) h0
      refine this.congr_deriv ?_
      simp)
  refine (hder.2.congr_of_eventuallyEq ?_).differentiableAt
  filter_upwards [Metric.ball_mem_nhds ξ hpos] with η hη
  exact hd η (hpos.trans (hball η hη))

/-- The fixed-point map keeps analyticity. -/
private lemma fxdpnt_differentiable {e : ℂ → ι → ℂ} {c : ι → ℝ} {hilbert : ℂ → ℂ} (h : RetardedAlloy e c hilbert)
    (he : ∀ i, DifferentiableOn ℂ (fun z => e z i) {z | 0 < z.im}) {s : ℂ → ℂ} (hs : DifferentiableOn ℂ s {z | 0 < z.im})
    (hsz : ∀ z : ℂ, 0 < z.im → (s z).im < z.im) :
    DifferentiableOn ℂ (fun z => selfFxdpntEq (s z) z (e z) c hilbert) {z | 0 < z.im} := by
  intro z hz
  have hopen : IsOpen {z : ℂ | 0 < z.im} := isOpen_lt continuous_const Complex.continuous_im
  have hnhds := hopen.mem_nhds hz
  have hs1 : DifferentiableAt ℂ s z := (hs z hz).differentiableAt hnhds
  have he1 : ∀ i, DifferentiableAt ℂ (fun z => e z i) z := fun i => (he i z hz).differentiableAt hnhds
  have hxi : 0 < (z - s z).im := by
    rw [Complex.sub_im]
    linarith [hsz z hz]
  have hg : DifferentiableAt ℂ (fun z => hilbert (z - s z)) z :=
    (lattice_hilbert_differentiable h.lattice hxi).comp z (differentiableAt_id.sub hs1)
  obtain ⟨-, hd, h1, -, -⟩ := cpa_well_defined (h.problem hz) (hsz z hz)
  have hT : DifferentiableAt ℂ (fun z => cpaT (s z) z (e z) c hilbert) z := by
    unfold cpaT
    refine DifferentiableAt.fun_sum fun i _ => ?_
    refine DifferentiableAt.div (((differentiableAt_const _).mul ((he1 i).sub hs1))) ?_ (hd i)
    exact (differentiableAt_const _).sub (((he1 i).sub hs1).mul hg)
  apply DifferentiableAt.differentiableWithinAt
  unfold selfFxdpntEq selfRootEq
  exact hs1.add (hT.div ((differentiableAt_const _).add (hT.mul hg)) h1)

/-- C72: the CPA self-energy is analytic in the upper half-plane. -/
theorem cpa_self_analytic {e : ℂ → ι → ℂ} {c : ι → ℝ} {hilbert S : ℂ → ℂ} (h : RetardedAlloy e c hilbert)
    (he : ∀ i, DifferentiableOn ℂ (fun z => e z i) {z | 0 < z.im}) (hS : IsCpaSelf e c hilbert S) :
    DifferentiableOn ℂ S {z | 0 < z.im} := by
  have hopen : IsOpen {z : ℂ | 0 < z.im} := isOpen_lt continuous_const Complex.continuous_im
  set F : ℕ → ℂ → ℂ := fun n z => (fun s => selfFxdpntEq s z (e z) c hilbert)^[n + 1] 0 with hF
  have him : ∀ n, ∀ z : ℂ, 0 < z.im → ((fun s => selfFxdpntEq s z (e z) c hilbert)^[n] 0).im < z.im := by
    intro n
    induction n with
    | zero => intro z hz; simpa using hz
    | succ n ih =>
      intro z hz
      rw [Function.iterate_succ_apply']
      exact (cpa_well_defined (h.problem hz) (ih z hz)).2.2.2.1.trans_lt hz
  have hdiff : ∀ n, DifferentiableOn ℂ (fun z => (fun s => selfFxdpntEq s z (e z) c hilbert)^[n] 0) {z | 0 < z.im} := by
    intro n
    induction n with
    | zero => exact differentiableOn_const _
    | succ n ih =>
      simp only [Function.iterate_succ_apply']
      exact fxdpnt_differentiable h he ih (him n)
  refine TendstoLocallyUniformlyOn.differentiableOn (F := F) (φ := atTop) ?_
    (Eventually.of_forall fun n => hdiff (n + 1)) hopen
  rw [Metric.tendstoLocallyUniformlyOn_iff]
  intro ε hε z0 hz0
  have hz0' : 0 < z0.im := hz0
  set η := z0.im / 2 with hη
  have hη0 : 0 < η := by rw [hη]; linarith
  set R := ∑ i, ‖e z0 i‖ + 1 with hR
  have hR0 : 0 < R := by positivity
  set B := R + R ^ 2 / η with hB
  have hB0 : 0 < B := by positivity
  set q := B / (η + B) with hq
  have hq0 : 0 ≤ q := by positivity
  have hq1 : q < 1 := by
    rw [hq, div_lt_one (by positivity)]
    linarith
  set K := B * √(1 + B / η) with hK
  have hcont : ContinuousAt (fun z => ∑ i, ‖e z i‖) z0 := by
    refine tendsto_finsetSum _ fun i _ => ?_
    exact (((he i z0 hz0).differentiableAt (hopen.mem_nhds hz0)).continuousAt).norm
  have hev : ∀ᶠ z in 𝓝 z0, ∑ i, ‖e z i‖ < R ∧ η < z.im :=
    (hcont.eventually_lt continuousAt_const (by simp [hR])).and
      (continuousAt_const.eventually_lt Complex.continuous_im.continuousAt (by rw [hη]; linarith))
  refine ⟨{z | ∑ i, ‖e z i‖ < R ∧ η < z.im}, mem_nhdsWithin_of_mem_nhds hev, ?_⟩
  have hlim : Tendsto (fun n : ℕ => q ^ (n + 1) * K) atTop (𝓝 0) := by
    have := ((tendsto_pow_atTop_nhds_zero_of_lt_one hq0 hq1).comp (tendsto_add_atTop_nat 1)).mul_const K
    simpa using this
  filter_upwards [hlim.eventually_lt_const hε] with n hn z hz
  obtain ⟨hzR, hzη⟩ := hz
  have hzpos : 0 < z.im := hη0.trans hzη
  have hp : DisorderProblem z (e z) c hilbert R := by
    have hp := h.problem hzpos
    exact ⟨hp.upper, hp.lattice, hp.nonneg, hp.norm, hp.retarded, fun i => (hp.bound i).trans hzR.le⟩
  obtain ⟨hS1, hS2⟩ := hS z hzpos
  have hconv := (cpa_iteration_converges hp (hS1.trans_lt hzpos) hS2 (s0 := 0) (by simpa using hzpos)).1 n
  have hSB : ‖S z‖ ≤ B := by
    obtain ⟨s, ⟨-, hb, -, -⟩, hu⟩ := cpa_exists_unique hp
    rw [hu (S z) (hS1.trans_lt hzpos) hS2]
    refine hb.trans ?_
    unfold cpaBound
    rw [hB]
    gcongr
  have hcb : cpaBound z R ≤ B := by
    unfold cpaBound
    rw [hB]
    gcongr
  have hcb0 : 0 ≤ cpaBound z R := by
    unfold cpaBound
    positivity
  have hrate : cpaRate z R ≤ q := by
    unfold cpaRate
    rw [hq, div_le_div_iff₀ (by positivity) (by positivity)]
    nlinarith
  have hrate0 := (cpa_rate_lt hp).1
  rw [dist_comm, dist_eq_norm]
  refine lt_of_le_of_lt (hconv.trans ?_) hn
  refine mul_le_mul (pow_le_pow_left₀ hrate0 hrate _) ?_ (by positivity) (by positivity)
  rw [hK, zero_sub, norm_neg]
  refine mul_le_mul hSB (Real.sqrt_le_sqrt ?_) (Real.sqrt_nonneg _) hB0.le
  rw [Complex.zero_im, sub_zero, add_div, div_self hzpos.ne']
  gcongr

/-- C72: the CPA Green's function is analytic with negative imaginary part (positive spectral weight) in the upper
half-plane. -/
theorem cpa_gf_causal {e : ℂ → ι → ℂ} {c : ι → ℝ} {hilbert S : ℂ → ℂ} (h : RetardedAlloy e c hilbert)
    (he : ∀ i, DifferentiableOn ℂ (fun z => e z i) {z | 0 < z.im}) (hS : IsCpaSelf e c hilbert S) :
    DifferentiableOn ℂ (fun z => hilbert (z - S z)) {z | 0 < z.im} ∧
    ∀ z : ℂ, 0 < z.im → (hilbert (z - S z)).im < 0 := by
  have hopen : IsOpen {z : ℂ | 0 < z.im} := isOpen_lt continuous_const Complex.continuous_im
  refine ⟨fun z hz => ?_, fun z hz => (cpa_well_defined (h.problem hz) ((hS z hz).1.trans_lt hz)).1⟩
  have hs1 : DifferentiableAt ℂ S z := (cpa_self_analytic h he hS z hz).differentiableAt (hopen.mem_nhds hz)
  have hxi : 0 < (z - S z).im := by
    rw [Complex.sub_im]
    have : 0 < z.im := hz
    linarith [(hS z hz).1]
  exact ((lattice_hilbert_differentiable h.lattice hxi).comp z (differentiableAt_id.sub hs1)).differentiableWithinAt

end Gftool.Props
