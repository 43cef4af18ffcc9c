import Verif.Props.Spectrum
import Verif.Lemmas.BandEdge

/-!
# C83: Alloys have no states beyond the shifted edges of the band
-/

namespace Gftool.Props

open Gftool Model Spec Lemmas MeasureTheory Filter Topology

variable {ι : Type*} [Fintype ι] {e : ι → ℝ} {c : ι → ℝ} {hilbert S : ℂ → ℂ} {dos : Measure ℝ} {a b emin emax : ℝ}

/-- Effective medium and averaged Green's function beyond the upper edge. -/
lemma cpa_edge [IsProbabilityMeasure dos] (hd : HasSpectrum hilbert dos) (hb : dos (Set.Ioi b) = 0) (h0 : ∀ i, 0 ≤ c i)
    (h1 : ∑ i, c i = 1) (hmax : ∀ i, e i ≤ emax) {z s : ℂ} (hz : 0 < z.im) (hs : s.im ≤ 0) (hse : s.re ≤ emax)
    (hze : b + emax < z.re) :
    ∃ p q : ℝ, 1 ≤ p ∧ 1 ≤ q ∧ p * (z.re - s.re - b) ≤ (1 / hilbert (z - s)).re ∧
      (1 / hilbert (z - s)).im = p * (z.im - s.im) ∧
      q * ((1 / hilbert (z - s)).re + s.re - emax)
        ≤ (1 / hilbert (z - s)).re + s.re - (selfFxdpntEq s z (fun i => (e i : ℂ)) c hilbert).re ∧
      (1 / hilbert (z - s)).im + s.im - (selfFxdpntEq s z (fun i => (e i : ℂ)) c hilbert).im
        = q * ((1 / hilbert (z - s)).im + s.im) ∧
      ∀ emin, (∀ i, emin ≤ e i) →
        ‖(emax : ℂ) - selfFxdpntEq s z (fun i => (e i : ℂ)) c hilbert‖ ^ 2 ≤ (emax - emin) ^ 2 * q := by
  letI : MeasurableSpace ι := ⊤
  haveI := cmpt_prob h0 h1
  have hξ : 0 < (z - s).im := by rw [Complex.sub_im]; linarith
  have hg : hilbert (z - s) = stj dos (fun x : ℝ => (x : ℂ)) (z - s) := hd _ hξ
  have hre : Measurable fun x : ℝ => (x : ℂ) := Complex.measurable_ofReal
  have hrl : ∀ x : ℝ, ((x : ℂ)).im ≤ 0 := fun x => by simp
  have hne : hilbert (z - s) ≠ 0 := hg ▸ stj_ne_zero hre hrl hξ
  have hbae : ∀ᵐ x ∂dos, x ≤ b := by
    rw [ae_iff]
    simpa [Set.Ioi] using hb
  obtain ⟨p, hp1, hp2, hp3, -⟩ := stj_edge (μ := dos) measurable_id hbae hξ (by rw [Complex.sub_re]; linarith)
  simp only [id] at hp2 hp3
  rw [← hg, Complex.sub_re] at hp2
  rw [← hg, Complex.sub_im] at hp3
  set w := 1 / hilbert (z - s) + s with hw
  have hwim : 0 < w.im := by
    rw [hw, Complex.add_im, hp3]
    nlinarith
  have hwre : emax < w.re := by
    rw [hw, Complex.add_re]
    nlinarith
  have he : Measurable e := measurable_from_top
  have hec : Measurable fun i => (e i : ℂ) := measurable_from_top
  have hel : ∀ i, ((e i : ℝ) : ℂ).im ≤ 0 := fun i => by simp
  have hden : ∀ i, 1 - ((e i : ℂ) - s) * hilbert (z - s) = hilbert (z - s) * (w - e i) := by
    intro i
    rw [hw]
    field_simp
    ring
  have hdn : ∀ i, 1 - ((e i : ℂ) - s) * hilbert (z - s) ≠ 0 := fun i => by
    rw [hden]
    exact mul_ne_zero hne (stj_ne hel hwim i)
  have havg : avgGf z s (fun i => (e i : ℂ)) c hilbert = stj (cmptMeasure c) (fun i => (e i : ℂ)) w := by
    rw [stj, cmpt_integral h0, avgGf]
    refine Finset.sum_congr rfl fun i _ => ?_
    simp only [gfCmptZ]
    rw [hden]
    have := stj_ne hel hwim i
    field_simp
  have havn : avgGf z s (fun i => (e i : ℂ)) c hilbert ≠ 0 := havg ▸ stj_ne_zero hec hel hwim
  have hdy := self_fxdpnt_dyson z s (fun i => (e i : ℂ)) c hilbert h1 hne hdn havn
  rw [← one_div, ← one_div, ← hw, havg] at hdy
  obtain ⟨q, hq1, hq2, hq3, hq4⟩ := stj_edge (μ := cmptMeasure c) he (Eventually.of_forall hmax) hwim hwre
  rw [hdy] at hq2 hq3 hq4
  refine ⟨p, q, hp1, hq1, hp2, hp3, ?_, ?_, fun emin hmin => ?_⟩
  · rw [Complex.sub_re, hw, Complex.add_re] at hq2
    exact hq2
  · rw [Complex.sub_im, hw, Complex.add_im] at hq3
    exact hq3
  · have := hq4 emin (Eventually.of_forall hmin)
    convert this using 3
    ring

/-- C83: at frequencies above the upper edge of the band shifted by the largest on-site energy, damping and spectral function
are of the order of the imaginary part of the frequency. -/
theorem cpa_gap [IsProbabilityMeasure dos] (hd : HasSpectrum hilbert dos) (hb : dos (Set.Ioi b) = 0)
    (h : RetardedAlloy (fun _ i => (e i : ℂ)) c hilbert) (hS : IsCpaSelf (fun _ i => (e i : ℂ)) c hilbert S)
    (hmin : ∀ i, emin ≤ e i) (hmax : ∀ i, e i ≤ emax) {z : ℂ} (hz : 0 < z.im) {δ : ℝ} (hδ : 0 < δ) (hze : b + emax + δ ≤ z.re) :
    (S z).re ≤ emax ∧
    -(S z).im ≤ z.im * ((emax - emin + (emax - emin) ^ 2 / δ) / δ) ∧
    -(hilbert (z - S z)).im ≤ z.im * ((1 + (emax - emin + (emax - emin) ^ 2 / δ) / δ) / δ ^ 2) := by
  have hedge := fun {s : ℂ} (hs : s.im ≤ 0) (hse : s.re ≤ emax) => cpa_edge hd hb h.nonneg h.norm hmax hz hs hse (by linarith)
  obtain ⟨hSi, hroot⟩ := hS z hz
  have hfix : selfFxdpntEq (S z) z (fun i => (e i : ℂ)) c hilbert = S z := (self_root_eq_iff_fxdpnt z _ _ c hilbert).1 hroot
  have hSre : (S z).re ≤ emax := by
    have hconv := (cpa_iteration_converges (h.problem hz) (hSi.trans_lt hz) hroot (s0 := (emax : ℂ)) (by simpa using hz)).2
    refine le_of_tendsto ((Complex.continuous_re.tendsto _).comp hconv) (Eventually.of_forall fun n => ?_)
    suffices hn : ((fun s => selfFxdpntEq s z (fun i => (e i : ℂ)) c hilbert)^[n] (emax : ℂ)).im ≤ 0 ∧
        ((fun s => selfFxdpntEq s z (fun i => (e i : ℂ)) c hilbert)^[n] (emax : ℂ)).re ≤ emax from hn.2
    induction n with
    | zero => simp
    | succ n ih =>
      rw [Function.iterate_succ_apply']
      set s := (fun s => selfFxdpntEq s z (fun i => (e i : ℂ)) c hilbert)^[n] (emax : ℂ) with hs
      refine ⟨(cpa_well_defined (h.problem hz) (ih.1.trans_lt hz)).2.2.2.1, ?_⟩
      obtain ⟨p, q, hp1, hq1, hp2, -, hq2, -⟩ := hedge ih.1 ih.2
      have h3 : 0 ≤ z.re - s.re - b := by linarith [ih.2]
      have h4 := le_mul_of_one_le_left h3 hp1
      have h5 : 0 ≤ (1 / hilbert (z - s)).re + s.re - emax := by linarith
      have h6 := le_mul_of_one_le_left h5 hq1
      show (selfFxdpntEq s z (fun i => (e i : ℂ)) c hilbert).re ≤ emax
      linarith
  obtain ⟨p, q, hp1, hq1, hp2, hp3, hq2, hq3, hq4⟩ := hedge hSi hSre
  have hq5 := hq4 emin hmin
  rw [hfix] at hq2 hq3 hq5
  set M := 1 / hilbert (z - S z) with hM
  set u := -(S z).im with hu
  have hu0 : 0 ≤ u := by rw [hu]; linarith
  set α := emax - (S z).re with hα
  have hα0 : 0 ≤ α := by rw [hα]; linarith
  have hui : (S z).im = -u := by rw [hu]; ring
  have hSr : (S z).re = emax - α := by rw [hα]; ring
  rw [hui] at hp3 hq3
  rw [hSr] at hp2 hq2
  set y := z.im with hy
  have hpδ : p * (δ + α) ≤ M.re := by
    refine le_trans ?_ hp2
    exact mul_le_mul_of_nonneg_left (by linarith) (by linarith)
  have hR : δ + α ≤ M.re := by nlinarith
  have hqα : q * (M.re - α) ≤ M.re := by linarith
  have hbal : (y + u) * p * (q - 1) = u * q := by
    rw [hp3] at hq3
    linarith
  -- damping
  have hu1 : u * δ ≤ y * α := by
    have ht : (q - 1) * M.re ≤ α * q := by nlinarith
    have h2 : u * q * (δ + α) ≤ (y + u) * (α * q) := by
      calc u * q * (δ + α) = (y + u) * (q - 1) * (p * (δ + α)) := by rw [← hbal]; ring
        _ ≤ (y + u) * (q - 1) * M.re :=
            mul_le_mul_of_nonneg_left hpδ (mul_nonneg (by linarith) (by linarith))
        _ = (y + u) * ((q - 1) * M.re) := by ring
        _ ≤ _ := mul_le_mul_of_nonneg_left ht (by linarith)
    have h3 : q * (u * (δ + α)) ≤ q * ((y + u) * α) := by linarith
    have := le_of_mul_le_mul_left h3 (by linarith)
    linarith
  set E := emax - emin with hE
  have hE0 : 0 ≤ E := by
    obtain ⟨i, -, -⟩ : ∃ i ∈ Finset.univ, c i ≠ 0 :=
      Finset.exists_ne_zero_of_sum_ne_zero (by rw [h.norm]; exact one_ne_zero)
    linarith [hmin i, hmax i]
  have hαK : α ≤ E + E ^ 2 / δ := by
    have h2 : α ^ 2 ≤ E ^ 2 * q := by
      refine le_trans ?_ hq5
      rw [← sq_abs α]
      refine pow_le_pow_left₀ (abs_nonneg _) ?_ 2
      have := Complex.abs_re_le_norm ((emax : ℂ) - S z)
      rwa [Complex.sub_re, Complex.ofReal_re, ← hα] at this
    have h3 : q ≤ 1 + α / δ := by
      rw [← sub_le_iff_le_add', le_div_iff₀ hδ]
      nlinarith
    by_contra hc
    rw [not_le] at hc
    have h4 : E ^ 2 * q ≤ E ^ 2 * (1 + α / δ) := mul_le_mul_of_nonneg_left h3 (sq_nonneg _)
    have h5 : E ≤ α := by
      have : 0 ≤ E ^ 2 / δ := by positivity
      linarith
    have h6 : α * (E + E ^ 2 / δ) < α * α := by
      refine mul_lt_mul_of_pos_left hc ?_
      by_contra h0
      have : α = 0 := le_antisymm (not_lt.1 h0) hα0
      have : 0 ≤ E + E ^ 2 / δ := by positivity
      linarith
    have h7 : E ^ 2 * (1 + α / δ) = E * E + α * (E ^ 2 / δ) := by ring
    nlinarith
  set K := E + E ^ 2 / δ with hK
  have hK0 : 0 ≤ K := by positivity
  have hu2 : u ≤ y * (K / δ) := by
    rw [← mul_div_assoc, le_div_iff₀ hδ]
    exact hu1.trans (mul_le_mul_of_nonneg_left hαK hz.le)
  refine ⟨hSre, hu2, ?_⟩
  -- spectral function
  have hMne : M ≠ 0 := fun h0 => by
    rw [h0, Complex.zero_re] at hR
    linarith
  have hG : hilbert (z - S z) = M⁻¹ := by rw [hM, one_div, inv_inv]
  rw [hG, Complex.inv_im, neg_div, neg_neg, hp3, Complex.normSq_eq_norm_sq]
  have hMR : M.re ≤ ‖M‖ := Complex.re_le_norm M
  have hMp : 0 < ‖M‖ := by positivity
  have hδM : δ ≤ ‖M‖ := by linarith
  rw [div_le_iff₀ (by positivity)]
  have hpM : p * δ ≤ ‖M‖ := by nlinarith
  calc p * (y - -u) ≤ (‖M‖ / δ) * (y + y * (K / δ)) := by
        refine mul_le_mul ((le_div_iff₀ hδ).2 hpM) (by linarith) (by linarith) (by positivity)
    _ ≤ (‖M‖ / δ) * (y + y * (K / δ)) * (‖M‖ / δ) :=
        le_mul_of_one_le_right (by positivity) ((one_le_div hδ).2 hδM)
    _ = _ := by field_simp

/-- A spectral function that vanishes with the broadening above `g` leaves no weight there. -/
lemma spectrum_above {G : ℂ → ℂ} {A : Measure ℝ} [IsFiniteMeasure A] (hA : HasSpectrum G A) {g : ℝ}
    (hG : ∀ δ : ℝ, 0 < δ → ∃ C : ℝ, ∀ z : ℂ, 0 < z.im → g + δ ≤ z.re → -(G z).im ≤ z.im * C) : A (Set.Ioi g) = 0 := by
  have hnn : ∀ η : ℝ, 0 < η → ∀ x : ℝ, 0 ≤ -(G (x + η * Complex.I)).im / Real.pi := fun η hη x => by
    have him : (0 : ℝ) < ((x : ℂ) + η * Complex.I).im := by simpa using hη
    rw [spectrum_im hA him]
    exact integral_nonneg fun e => poisson_nonneg him _
  have hioo : ∀ s t : ℝ, g < s → A (Set.Ioo s t) = 0 := by
    intro s t hs
    obtain ⟨C, hC⟩ := hG (s - g) (by linarith)
    set f : ℝ → ℝ := fun x => max 0 (min (x - s) (t - x)) with hf
    have hfc : Continuous f := by fun_prop
    have hf0 : ∀ x, 0 ≤ f x := fun x => le_max_left _ _
    have hfb : ∀ x, |f x| ≤ |t - s| := fun x => by
      rw [abs_of_nonneg (hf0 x)]
      refine max_le (abs_nonneg _) ?_
      have h1 := min_le_left (x - s) (t - x)
      have h2 := min_le_right (x - s) (t - x)
      have h3 := le_abs_self (t - s)
      have h4 := neg_le_abs (t - s)
      by_cases h5 : 0 ≤ min (x - s) (t - x)
      · linarith
      · linarith [abs_nonneg (t - s)]
    have hsupp : ∀ x, x ∉ Set.Icc s t → f x = 0 := fun x hx => by
      rw [hf]
      refine max_eq_left ?_
      rw [Set.mem_Icc, not_and_or, not_le, not_le] at hx
      rcases hx with hx | hx
      · exact (min_le_left _ _).trans (by linarith)
      · exact (min_le_right _ _).trans (by linarith)
    have hlim := spectrum_limit hA hfc hfb
    have hzero : Tendsto (fun η : ℝ => ∫ x : ℝ, f x * (-(G (x + η * Complex.I)).im / Real.pi)) (𝓝[>] 0) (𝓝 0) := by
      have hup : Tendsto (fun η : ℝ => η * ((∫ x, f x) * (C / Real.pi))) (𝓝[>] 0) (𝓝 0) := by
        have : Tendsto (fun η : ℝ => η * ((∫ x, f x) * (C / Real.pi))) (𝓝 0) (𝓝 (0 * ((∫ x, f x) * (C / Real.pi)))) :=
          tendsto_id.mul_const _
        rw [zero_mul] at this
        exact this.mono_left nhdsWithin_le_nhds
      have hfi : Integrable f := hfc.integrable_of_hasCompactSupport
        (HasCompactSupport.intro isCompact_Icc hsupp)
      refine squeeze_zero' ?_ ?_ hup
      · filter_upwards [self_mem_nhdsWithin] with η hη
        have hη : 0 < η := hη
        exact integral_nonneg fun x => mul_nonneg (hf0 x) (hnn η hη x)
      · filter_upwards [self_mem_nhdsWithin] with η hη
        have hη : 0 < η := hη
        rw [← integral_mul_const, ← integral_const_mul]
        refine integral_mono_of_nonneg (Eventually.of_forall fun x => mul_nonneg (hf0 x) (hnn η hη x))
          ((hfi.mul_const _).const_mul _) (Eventually.of_forall fun x => ?_)
        by_cases hx : x ∈ Set.Icc s t
        · have h1 := hC (x + η * Complex.I) (by simpa using hη) (by simpa using hx.1)
          simp only [Complex.add_im, Complex.ofReal_im, Complex.mul_im, Complex.ofReal_re, Complex.I_im, mul_one, Complex.I_re,
            mul_zero, add_zero, zero_add] at h1
          calc f x * (-(G (x + η * Complex.I)).im / Real.pi) ≤ f x * (η * C / Real.pi) :=
                mul_le_mul_of_nonneg_left (div_le_div_of_nonneg_right h1 Real.pi_pos.le) (hf0 x)
            _ = _ := by ring
        · simp [hsupp x hx]
    have hint := tendsto_nhds_unique hlim hzero
    have hfi : Integrable f A := Integrable.of_bound hfc.aestronglyMeasurable (|t - s|) (Eventually.of_forall hfb)
    have hae := (integral_eq_zero_iff_of_nonneg hf0 hfi).1 hint
    rw [Filter.EventuallyEq, ae_iff] at hae
    refine measure_mono_null (fun x hx => ?_) hae
    have : 0 < f x := lt_max_of_lt_right (lt_min (by linarith [hx.1]) (by linarith [hx.2]))
    exact this.ne'
  have hcov : Set.Ioi g ⊆ ⋃ n : ℕ, Set.Ioo (g + 1 / (n + 1)) (g + n) := by
    intro x hx
    have hx : g < x := hx
    obtain ⟨n, hn⟩ := exists_nat_gt (max (x - g) (1 / (x - g)))
    have h1 := (le_max_left _ _).trans_lt hn
    have h2 := (le_max_right _ _).trans_lt hn
    refine Set.mem_iUnion.2 ⟨n, ?_, by linarith⟩
    have h3 : 1 / ((n : ℝ) + 1) < x - g := by
      rw [div_lt_iff₀ (by positivity)]
      rw [div_lt_iff₀ (by linarith)] at h2
      nlinarith
    linarith
  refine measure_mono_null hcov (measure_iUnion_null fun n => hioo _ _ ?_)
  have : 0 < 1 / ((n : ℝ) + 1) := by positivity
  linarith

/-! ## Lower edge -/

/-- Reversing all energies, lattice included, reverses the self-energy. -/
lemma cpa_self_reverse {e : ℂ → ι → ℂ} (hS : IsCpaSelf e c hilbert S) :
    IsCpaSelf (fun z i => -star (e (-star z) i)) c (fun ξ => -star (hilbert (-star ξ))) fun z => -star (S (-star z)) := by
  intro z hz
  have hz' : 0 < (-star z).im := by simpa using hz
  obtain ⟨h1, h2⟩ := hS (-star z) hz'
  refine ⟨by simpa using h1, ?_⟩
  set s := S (-star z) with hs
  have hg : -star (hilbert (-star (z - -star s))) = -star (hilbert (-star z - s)) := by
    congr 3
    simp
    ring
  have hT : cpaT (-star s) z (fun i => -star (e (-star z) i)) c (fun ξ => -star (hilbert (-star ξ)))
      = -star (cpaT s (-star z) (e (-star z)) c hilbert) := by
    unfold cpaT
    simp only
    rw [hg, star_sum, ← Finset.sum_neg_distrib]
    refine Finset.sum_congr rfl fun i _ => ?_
    simp only [star_div₀, star_mul', star_sub, star_one, RCLike.star_def, Complex.conj_ofReal]
    rw [show (1 - (-(starRingEnd ℂ) (e (-(starRingEnd ℂ) z) i) - -(starRingEnd ℂ) s) * -(starRingEnd ℂ) (hilbert (-(starRingEnd ℂ) z - s)))
      = (1 - ((starRingEnd ℂ) (e (-(starRingEnd ℂ) z) i) - (starRingEnd ℂ) s) * (starRingEnd ℂ) (hilbert (-(starRingEnd ℂ) z - s))) by ring]
    ring
  unfold selfRootEq at h2 ⊢
  simp only at h2 ⊢
  rw [hT, hg, show 1 + -star (cpaT s (-star z) (e (-star z)) c hilbert) * -star (hilbert (-star z - s))
    = star (1 + cpaT s (-star z) (e (-star z)) c hilbert * hilbert (-star z - s)) by
      simp only [star_add, star_mul', star_one]; ring, neg_div, ← star_div₀, h2]
  simp

lemma spectrum_reverse {G : ℂ → ℂ} {A : Measure ℝ} (h : HasSpectrum G A) :
    HasSpectrum (fun z => -star (G (-star z))) (A.map fun x => -x) := by
  intro z hz
  simp only
  rw [h _ (by simpa using hz), integral_map measurable_neg.aemeasurable (by
      exact Measurable.aestronglyMeasurable (by fun_prop)),
    show star (∫ x : ℝ, 1 / (-star z - (x : ℂ)) ∂A) = (starRingEnd ℂ) (∫ x : ℝ, 1 / (-star z - (x : ℂ)) ∂A) from rfl,
    ← integral_conj, ← integral_neg]
  congr 1
  funext x
  simp only [map_div₀, map_one, map_sub, map_neg, Complex.star_def, Complex.conj_conj, Complex.conj_ofReal, Complex.ofReal_neg]
  rw [← div_neg]
  congr 1
  ring

lemma alloy_reverse [IsProbabilityMeasure dos] (hd : HasSpectrum hilbert dos)
    (h : RetardedAlloy (fun _ i => (e i : ℂ)) c hilbert) :
    RetardedAlloy (fun _ i => ((-e i : ℝ) : ℂ)) c fun ξ => -star (hilbert (-star ξ)) where
  lattice := ⟨dos.map fun x => -x, Measure.isProbabilityMeasure_map measurable_neg.aemeasurable, spectrum_reverse hd⟩
  nonneg := h.nonneg
  norm := h.norm
  retarded := fun z _ i => by simp

/-- C83: likewise below the lower edge of the band shifted by the smallest on-site energy. -/
theorem cpa_gap_below [IsProbabilityMeasure dos] (hd : HasSpectrum hilbert dos) (ha : dos (Set.Iio a) = 0)
    (h : RetardedAlloy (fun _ i => (e i : ℂ)) c hilbert) (hS : IsCpaSelf (fun _ i => (e i : ℂ)) c hilbert S)
    (hmin : ∀ i, emin ≤ e i) (hmax : ∀ i, e i ≤ emax) {z : ℂ} (hz : 0 < z.im) {δ : ℝ} (hδ : 0 < δ) (hze : z.re ≤ a + emin - δ) :
    emin ≤ (S z).re ∧
    -(S z).im ≤ z.im * ((emax - emin + (emax - emin) ^ 2 / δ) / δ) ∧
    -(hilbert (z - S z)).im ≤ z.im * ((1 + (emax - emin + (emax - emin) ^ 2 / δ) / δ) / δ ^ 2) := by
  have : IsProbabilityMeasure (dos.map fun x => -x) := Measure.isProbabilityMeasure_map measurable_neg.aemeasurable
  have hS' := cpa_self_reverse hS
  have e1 : (fun (z : ℂ) (i : ι) => -star ((e i : ℝ) : ℂ)) = fun _ i => ((-e i : ℝ) : ℂ) := by
    funext z i
    simp
  rw [e1] at hS'
  have hb : (dos.map fun x => -x) (Set.Ioi (-a)) = 0 := by
    rw [Measure.map_apply measurable_neg measurableSet_Ioi]
    convert ha using 2
    ext x
    simp
  obtain ⟨h1, h2, h3⟩ := cpa_gap (spectrum_reverse hd) hb (alloy_reverse hd h) hS' (emin := -emax) (emax := -emin)
    (fun i => by linarith [hmax i]) (fun i => by linarith [hmin i]) (z := -star z) (by simpa using hz) hδ
    (by simp; linarith)
  have ez : -star (-star z) = z := by simp
  have ez2 : -star (-star z - -star (S z)) = z - S z := by
    simp
    ring
  rw [ez] at h1 h2 h3
  rw [ez2] at h3
  have e2 : -emin - -emax = emax - emin := by ring
  rw [e2] at h2 h3
  refine ⟨?_, ?_, ?_⟩
  · simp only [Complex.star_def, Complex.neg_re, Complex.conj_re] at h1
    linarith
  · simpa using h2
  · simpa using h3

/-- C83: an alloy has no states outside the band of the lattice widened by the range of on-site energies; neither has any
component. -/
theorem cpa_spectrum_support [IsProbabilityMeasure dos] (hd : HasSpectrum hilbert dos) (hab : dos (Set.Icc a b)ᶜ = 0)
    (h : RetardedAlloy (fun _ i => (e i : ℂ)) c hilbert) (hmin : ∀ i, emin ≤ e i) (hmax : ∀ i, e i ≤ emax) :
    ∃ A : ι → Measure ℝ, (∀ i, IsProbabilityMeasure (A i)) ∧
      (∑ i, ENNReal.ofReal (c i) • A i) (Set.Icc (a + emin) (b + emax))ᶜ = 0 ∧
      (∀ i, 0 < c i → A i (Set.Icc (a + emin) (b + emax))ᶜ = 0) ∧
      ∀ {κ : Type} (solver : Solver (κ → ℂ)) (_ : HonestSolver solver 0) (z : κ → ℂ) (_ : ∀ k, 0 < (z k).im)
        (x0 : Option (κ → ℂ)) (s : κ → ℂ), solveRoot solver z (fun _ i => (e i : ℂ)) (fun _ => c) hilbert x0 true = .ok s →
        ∀ k, hilbert (z k - s k) = ∫ x : ℝ, 1 / (z k - x) ∂(∑ i, ENNReal.ofReal (c i) • A i) ∧
          ∀ i, gfCmptZ (z k) (s k) (fun i => (e i : ℂ)) hilbert i = ∫ x : ℝ, 1 / (z k - x) ∂(A i) := by
  obtain ⟨S, hS, -, hgrid⟩ := cpa_self_exists h
  obtain ⟨A, hA, hAs, hp, hG⟩ := cpa_spectrum h (fun i => differentiableOn_const _) (r := ∑ i, ‖(e i : ℂ)‖)
    (Eventually.of_forall fun y i => Finset.single_le_sum (f := fun i => ‖(e i : ℂ)‖) (fun i _ => norm_nonneg _) (Finset.mem_univ i)) hS
  have hb : dos (Set.Ioi b) = 0 := by
    refine measure_mono_null (fun x (hx : b < x) => ?_) hab
    exact fun hx' => absurd hx'.2 (not_le.2 hx)
  have ha : dos (Set.Iio a) = 0 := by
    refine measure_mono_null (fun x (hx : x < a) => ?_) hab
    exact fun hx' => absurd hx'.1 (not_le.2 hx)
  have hup : (∑ i, ENNReal.ofReal (c i) • A i) (Set.Ioi (b + emax)) = 0 :=
    spectrum_above hG fun δ hδ => ⟨_, fun z hz hzr => (cpa_gap hd hb h hS hmin hmax hz hδ hzr).2.2⟩
  have hlo : (∑ i, ENNReal.ofReal (c i) • A i) (Set.Iio (a + emin)) = 0 := by
    haveI : IsFiniteMeasure ((∑ i, ENNReal.ofReal (c i) • A i).map fun x => -x) := Measure.isFiniteMeasure_map _ _
    have h1 := spectrum_above (spectrum_reverse hG) (g := -(a + emin)) fun δ hδ => ⟨_, fun z hz hzr => by
      have h2 := (cpa_gap_below hd ha h hS hmin hmax (z := -star z) (by simpa using hz) hδ (by simp; linarith)).2.2
      have e3 : (-star z).im = z.im := by simp
      rw [e3] at h2
      simpa using h2⟩
    rw [Measure.map_apply measurable_neg measurableSet_Ioi] at h1
    convert h1 using 2
    ext x
    simp [add_comm]
  have hnull : (∑ i, ENNReal.ofReal (c i) • A i) (Set.Icc (a + emin) (b + emax))ᶜ = 0 := by
    refine measure_mono_null (fun x hx => ?_) (measure_union_null hlo hup)
    rw [Set.mem_compl_iff, Set.mem_Icc, not_and_or, not_le, not_le] at hx
    exact hx
  refine ⟨A, hA, hnull, fun i hi => ?_, fun solver hsol z hz x0 s hs k => ?_⟩
  · rw [Measure.finsetSum_apply] at hnull
    have := (Finset.sum_eq_zero_iff.1 hnull) i (Finset.mem_univ i)
    rw [Measure.smul_apply, smul_eq_mul, mul_eq_zero] at this
    exact this.resolve_left (ENNReal.ofReal_pos.2 hi).ne'
  · rw [hgrid solver hsol z hz x0 s hs k]
    exact ⟨hG _ (hz k), fun i => hAs i _ (hz k)⟩

/-- C83: what `solve_root` returns at frequencies outside: the damping and the spectral function are at most of the order of
the imaginary part of the frequency. -/
theorem solve_root_gap [IsProbabilityMeasure dos] (hd : HasSpectrum hilbert dos) (hab : dos (Set.Icc a b)ᶜ = 0)
    (h : RetardedAlloy (fun _ i => (e i : ℂ)) c hilbert) (hmin : ∀ i, emin ≤ e i) (hmax : ∀ i, e i ≤ emax)
    {κ : Type} (solver : Solver (κ → ℂ)) (hsol : HonestSolver solver 0) (z : κ → ℂ) (hz : ∀ k, 0 < (z k).im)
    (x0 : Option (κ → ℂ)) {s : κ → ℂ} (hs : solveRoot solver z (fun _ i => (e i : ℂ)) (fun _ => c) hilbert x0 true = .ok s)
    {δ : ℝ} (hδ : 0 < δ) (k : κ) (hk : b + emax + δ ≤ (z k).re ∨ (z k).re ≤ a + emin - δ) :
    -(s k).im ≤ (z k).im * ((emax - emin + (emax - emin) ^ 2 / δ) / δ) ∧
    -(hilbert (z k - s k)).im ≤ (z k).im * ((1 + (emax - emin + (emax - emin) ^ 2 / δ) / δ) / δ ^ 2) := by
  obtain ⟨S, hS, -, hgrid⟩ := cpa_self_exists h
  rw [hgrid solver hsol z hz x0 s hs k]
  have hb : dos (Set.Ioi b) = 0 := by
    refine measure_mono_null (fun x (hx : b < x) => ?_) hab
    exact fun hx' => absurd hx'.2 (not_le.2 hx)
  have ha : dos (Set.Iio a) = 0 := by
    refine measure_mono_null (fun x (hx : x < a) => ?_) hab
    exact fun hx' => absurd hx'.1 (not_le.2 hx)
  rcases hk with hk | hk
  · exact (cpa_gap hd hb h hS hmin hmax (hz k) hδ hk).2
  · exact (cpa_gap_below hd ha h hS hmin hmax (hz k) hδ hk).2

/-- C83: occupations, and hence chemical potentials, are bounded by those of levels at the edges. -/
theorem occupation_edges {A : Measure ℝ} [IsProbabilityMeasure A] {l u : ℝ} (hA : A (Set.Icc l u)ᶜ = 0) {β : ℝ} (hb : 0 < β) (μ : ℝ) :
    fermi β (u - μ) ≤ occupation A β μ ∧ occupation A β μ ≤ fermi β (l - μ) := by
  have hae : ∀ᵐ x ∂A, x ∈ Set.Icc l u := by
    rw [ae_iff]
    exact hA
  have hanti := (fermi_strictAnti hb).antitone
  unfold occupation
  constructor
  · calc fermi β (u - μ) = ∫ _, fermi β (u - μ) ∂A := by simp
      _ ≤ _ := integral_mono_ae (integrable_const _) (fermi_int β μ) (by
        filter_upwards [hae] with x hx
        exact hanti (by linarith [hx.2]))
  · calc _ ≤ ∫ _, fermi β (l - μ) ∂A := integral_mono_ae (fermi_int β μ) (integrable_const _) (by
        filter_upwards [hae] with x hx
        exact hanti (by linarith [hx.1]))
      _ = _ := by simp

/-- A binary alloy on the Bethe lattice. -/
example : ∃ A : Fin 2 → Measure ℝ, (∀ i, IsProbabilityMeasure (A i)) ∧ (∀ i, A i (Set.Icc (-3) (9 / 2))ᶜ = 0) ∧
    ∀ (solver : Solver (Unit → ℂ)) (_ : HonestSolver solver 0) (z : ℂ) (_ : 0 < z.im) (s : Unit → ℂ),
      solveRoot solver (fun _ => z) (fun _ i => ((![-1, 5 / 2] i : ℝ) : ℂ)) (fun _ => ![1 / 4, 3 / 4]) (fun z => betheHilbert z 2) none true
        = .ok s → ∀ i, gfCmptZ z (s ()) (fun i => ((![-1, 5 / 2] i : ℝ) : ℂ)) (fun z => betheHilbert z 2) i = ∫ x : ℝ, 1 / (z - x) ∂(A i) := by
  have hB := bethe_isHilbert (D := 2) two_pos
  have := hB.prob
  obtain ⟨A, hA, -, h2, h3⟩ := cpa_spectrum_support (e := ![-1, 5 / 2]) (c := ![1 / 4, 3 / 4]) (emin := -1) (emax := 5 / 2)
    (a := -2) (b := 2) (hilbert := fun z => betheHilbert z 2)
    (fun z hz => hB.eq z fun x _ h => by rw [h] at hz; simp at hz) hB.support
    { lattice := hB.isLatticeHilbert
      nonneg := fun i => by fin_cases i <;> norm_num
      norm := by norm_num [Fin.sum_univ_two]
      retarded := fun z hz i => by simp }
    (fun i => by fin_cases i <;> norm_num) (fun i => by fin_cases i <;> norm_num)
  refine ⟨A, hA, fun i => ?_, fun solver hsol z hz s hs i => (h3 solver hsol (fun _ => z) (fun _ => hz) none s hs ()).2 i⟩
  have := h2 i (by fin_cases i <;> norm_num)
  rwa [show (-2 : ℝ) + -1 = -3 by norm_num, show (2 : ℝ) + 5 / 2 = 9 / 2 by norm_num] at this

end Gftool.Props
