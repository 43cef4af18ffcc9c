import Verif.Lemmas.Herglotz
import Verif.Spec.Spectrum
import Verif.Props.CpaTail
import Verif.Props.BebAnalytic
import Verif.Props.Filling

/-!
# C81: spectral representation of the Green's functions of disordered and interacting lattices
-/

namespace Gftool.Props

open Gftool Model Spec Lemmas MeasureTheory Filter Topology

variable {G : ℂ → ℂ} {A : Measure ℝ}

/-! ## Spectral distributions -/

lemma upper_low {z : ℂ} (hz : 0 < z.im) (x : ℝ) : z.im ≤ ‖z - x‖ := by
  have := (le_abs_self _).trans (Complex.abs_im_le_norm (z - x))
  simpa using this

lemma upper_ne {z : ℂ} (hz : 0 < z.im) (x : ℝ) : z - (x : ℂ) ≠ 0 := norm_pos_iff.1 (hz.trans_le (upper_low hz x))

lemma upper_cont {z : ℂ} (hz : 0 < z.im) : Continuous fun x : ℝ => 1 / (z - (x : ℂ)) :=
  continuous_const.div (by fun_prop) (upper_ne hz)

lemma upper_bound {z : ℂ} (hz : 0 < z.im) (x : ℝ) : ‖1 / (z - (x : ℂ))‖ ≤ 1 / z.im := by
  rw [norm_div, norm_one]
  exact one_div_le_one_div_of_le hz (upper_low hz x)

lemma upper_integrable [IsFiniteMeasure A] {z : ℂ} (hz : 0 < z.im) : Integrable (fun x : ℝ => 1 / (z - (x : ℂ))) A :=
  Integrable.of_bound (upper_cont hz).aestronglyMeasurable (1 / z.im) (Eventually.of_forall (upper_bound hz))

lemma upper_im {z : ℂ} (hz : 0 < z.im) (x : ℝ) : (1 / (z - (x : ℂ))).im = -(Real.pi * poisson z.im (x - z.re)) := by
  have hpi := Real.pi_pos
  rw [one_div, Complex.inv_im, poisson]
  have : Complex.normSq (z - x) = (x - z.re) ^ 2 + z.im ^ 2 := by
    rw [Complex.normSq_apply]; simp; ring
  rw [this]
  simp
  field_simp

lemma spectrum_im [IsFiniteMeasure A] (h : HasSpectrum G A) {z : ℂ} (hz : 0 < z.im) :
    -(G z).im / Real.pi = ∫ x, poisson z.im (x - z.re) ∂A := by
  have hpi := Real.pi_pos
  have h1 : (∫ x : ℝ, 1 / (z - (x : ℂ)) ∂A).im = ∫ x : ℝ, (1 / (z - (x : ℂ))).im ∂A := (integral_im (upper_integrable hz)).symm
  rw [h z hz, h1, div_eq_iff hpi.ne', ← integral_neg, ← integral_mul_const]
  refine integral_congr_ae (Eventually.of_forall fun x => ?_)
  simp only
  rw [upper_im hz]
  ring

/-- C81: the functions with a normalised spectral distribution are exactly the analytic functions in the upper half-plane with
non-positive imaginary part that are bounded by the inverse distance to the real axis and behave like `1/z` along the
imaginary axis. -/
theorem spectrum_iff : (∃ A : Measure ℝ, IsProbabilityMeasure A ∧ HasSpectrum G A) ↔
    DifferentiableOn ℂ G {z | 0 < z.im} ∧ (∀ z : ℂ, 0 < z.im → (G z).im ≤ 0) ∧
    (∀ h : ℝ, 0 < h → ∃ C, ∀ z : ℂ, h < z.im → ‖G z‖ ≤ C / z.im) ∧
    Tendsto (fun y : ℝ => Complex.I * y * G (Complex.I * y)) atTop (𝓝 1) := by
  constructor
  · rintro ⟨A, hA, h⟩
    have hl : IsLatticeHilbert G := ⟨A, hA, h⟩
    refine ⟨fun z hz => (lattice_hilbert_differentiable hl hz).differentiableWithinAt, fun z hz => ?_, fun t ht => ⟨1, fun z hz => ?_⟩,
      lattice_hilbert_tail hl toInfinity_imag⟩
    · have h1 := spectrum_im h hz
      have h2 : 0 ≤ ∫ x, poisson z.im (x - z.re) ∂A := integral_nonneg fun x => poisson_nonneg hz _
      rw [← h1] at h2
      have := Real.pi_pos
      have h3 := mul_nonneg h2 this.le
      rw [div_mul_cancel₀ _ this.ne'] at h3
      linarith
    · have hz' := ht.trans hz
      rw [h z hz']
      have := norm_integral_le_of_norm_le_const (μ := A) (Eventually.of_forall (upper_bound hz'))
      simpa using this
  · rintro ⟨hd, him, hb, ht⟩
    -- first for a finite height
    have hshift : ∀ t : ℝ, 0 < t → ∃ A : Measure ℝ, IsProbabilityMeasure A ∧ HasSpectrum (fun z => G (z + t * Complex.I)) A := by
      intro t htp
      obtain ⟨C, hC⟩ := hb t htp
      have hC0 : 0 ≤ C := by
        have h1 := (norm_nonneg _).trans (hC ((t + 1 : ℝ) * Complex.I) (by simp))
        by_contra hc
        refine absurd (div_neg_of_neg_of_pos (not_le.1 hc) ?_) (not_lt.2 h1)
        simp
        linarith
      have hmap : ∀ z : ℂ, (z + t * Complex.I).im = z.im + t := fun z => by simp
      have htend : Tendsto (fun y : ℝ => Complex.I * (y + t : ℝ) * G (Complex.I * (y + t : ℝ))) atTop (𝓝 1) :=
        ht.comp (tendsto_atTop_add_const_right _ t tendsto_id)
      have hinv : Tendsto (fun y : ℝ => (y : ℂ) / ((y + t : ℝ) : ℂ)) atTop (𝓝 1) := by
        have h1 : Tendsto (fun y : ℝ => 1 - t / (y + t)) atTop (𝓝 (1 - 0)) :=
          tendsto_const_nhds.sub (tendsto_const_nhds.div_atTop (tendsto_atTop_add_const_right _ t tendsto_id))
        rw [sub_zero] at h1
        have h2 := (Complex.continuous_ofReal.tendsto 1).comp h1
        rw [Complex.ofReal_one] at h2
        refine h2.congr' ?_
        filter_upwards [eventually_gt_atTop 0] with y hy
        have : y + t ≠ 0 := by positivity
        simp only [Function.comp]
        rw [← Complex.ofReal_div, Complex.ofReal_inj]
        field_simp
        ring
      have hmul := hinv.mul htend
      rw [one_mul] at hmul
      have harg : ∀ y : ℝ, (Complex.I * (y + t : ℝ) : ℂ) = y * Complex.I + t * Complex.I := fun y => by push_cast; ring
      have hmain : Tendsto (fun y : ℝ => Complex.I * y * G (y * Complex.I + t * Complex.I)) atTop (𝓝 1) := by
        refine hmul.congr' ?_
        filter_upwards [eventually_gt_atTop 0] with y hy
        have : ((y + t : ℝ) : ℂ) ≠ 0 := by exact_mod_cast (by positivity : y + t ≠ 0)
        rw [harg]
        field_simp
        push_cast
        ring
      refine isLatticeHilbert_of_analytic (G := fun z => G (z + t * Complex.I)) (C := C) ?_ ?_ ?_ ?_ ?_
      · refine hd.comp (by fun_prop) fun z hz => ?_
        have hz' : 0 < z.im := hz
        show 0 < (z + t * Complex.I).im
        rw [hmap]
        linarith
      · intro z hz
        exact him _ (by rw [hmap]; linarith)
      · intro z hz
        refine (hC _ (by rw [hmap]; linarith)).trans ?_
        rw [hmap]
        exact div_le_div_of_nonneg_left hC0 hz (by linarith)
      · have h1 := ((Complex.continuous_re.tendsto _).comp hmain).neg
        rw [Complex.one_re] at h1
        refine h1.congr fun y => ?_
        simp [mul_assoc]
      · have h1 : Tendsto (fun y : ℝ => (Complex.I * y)⁻¹) atTop (𝓝 0) := by
          refine squeeze_zero_norm' (a := fun y : ℝ => y⁻¹) ?_ tendsto_inv_atTop_zero
          filter_upwards [eventually_gt_atTop 0] with y hy
          rw [norm_inv, norm_mul, Complex.norm_I, one_mul, Complex.norm_real, Real.norm_of_nonneg hy.le]
        have h2 := h1.mul hmain
        rw [zero_mul] at h2
        refine h2.congr' ?_
        filter_upwards [eventually_gt_atTop 0] with y hy
        have : (Complex.I * y : ℂ) ≠ 0 := mul_ne_zero Complex.I_ne_zero (by exact_mod_cast hy.ne')
        rw [← mul_assoc, inv_mul_cancel₀ this, one_mul]
    -- this gives the uniform bound
    have hbd : ∀ z : ℂ, 0 < z.im → ‖G z‖ ≤ 1 / z.im := by
      intro z hz
      have hc : ContinuousAt G z := (hd.differentiableAt (upper_isOpen.mem_nhds hz)).continuousAt
      have h6 : Tendsto (fun t : ℝ => z + t * Complex.I) (𝓝[>] 0) (𝓝 z) := by
        have : Continuous fun t : ℝ => z + t * Complex.I := by fun_prop
        have h7 := this.tendsto 0
        simp only [Complex.ofReal_zero, zero_mul, add_zero] at h7
        exact h7.mono_left nhdsWithin_le_nhds
      refine le_of_tendsto (hc.tendsto.comp h6).norm ?_
      filter_upwards [self_mem_nhdsWithin] with t ht
      obtain ⟨A, hA, h⟩ := hshift t ht
      have := h z hz
      simp only [Function.comp] at this ⊢
      rw [this]
      have := norm_integral_le_of_norm_le_const (μ := A) (Eventually.of_forall (upper_bound hz))
      simpa using this
    refine isLatticeHilbert_of_analytic hd him hbd ?_ ?_
    · have h1 := ((Complex.continuous_re.tendsto _).comp ht).neg
      rw [Complex.one_re] at h1
      refine h1.congr fun y => ?_
      rw [mul_comm (y : ℂ) Complex.I]
      simp [mul_assoc]
    · refine squeeze_zero_norm' (a := fun y : ℝ => 1 / y) ?_ (tendsto_const_nhds.div_atTop tendsto_id)
      filter_upwards [eventually_gt_atTop 0] with y hy
      have := hbd (y * Complex.I) (by simpa using hy)
      simpa using this

/-- C81: the spectral function has, for every broadening, the weight of the spectral distribution. -/
theorem spectrum_sum_rule [IsFiniteMeasure A] (h : HasSpectrum G A) {η : ℝ} (hη : 0 < η) :
    Integrable (fun x : ℝ => -(G (x + η * Complex.I)).im / Real.pi) ∧
    ∫ x : ℝ, -(G (x + η * Complex.I)).im / Real.pi = A.real Set.univ := by
  have himz : ∀ x : ℝ, ((x : ℂ) + η * Complex.I).im = η := fun x => by simp
  have hrez : ∀ x : ℝ, ((x : ℂ) + η * Complex.I).re = x := fun x => by simp
  have h1 : ∀ x : ℝ, -(G (x + η * Complex.I)).im / Real.pi = ∫ e, poisson η (e - x) ∂A := fun x => by
    rw [spectrum_im h (by rw [himz]; exact hη), himz, hrez]
  have hint : Integrable (fun p : ℝ × ℝ => poisson η (p.2 - p.1)) (volume.prod A) := by
    refine (integrable_prod_iff' ?_).2 ⟨Eventually.of_forall fun e => ?_, ?_⟩
    · exact ((poisson_continuous hη).comp (by fun_prop)).aestronglyMeasurable
    · exact (poisson_integrable hη).comp_sub_left e
    · have : ∀ e : ℝ, ∫ x, ‖poisson η (e - x)‖ = 1 := fun e => by
        simp only [Real.norm_of_nonneg (poisson_nonneg hη _)]
        rw [integral_sub_left_eq_self (poisson η) volume e, poisson_integral hη]
      simp only [this]
      exact integrable_const _
  simp only [h1]
  refine ⟨hint.integral_prod_left, ?_⟩
  rw [integral_integral_swap hint]
  simp only [integral_sub_left_eq_self (poisson η) volume, poisson_integral hη]
  simp

/-- C81: the spectral distribution is the limit of the spectral functions `-Im G(x + iη)/π`. -/
theorem spectrum_limit [IsFiniteMeasure A] (h : HasSpectrum G A) {f : ℝ → ℝ} (hf : Continuous f) {B : ℝ} (hB : ∀ x, |f x| ≤ B) :
    Tendsto (fun η : ℝ => ∫ x : ℝ, f x * (-(G (x + η * Complex.I)).im / Real.pi)) (𝓝[>] 0) (𝓝 (∫ x, f x ∂A)) := by
  have hone : (0 : ℝ) < 1 := one_pos
  have hB0 : 0 ≤ B := (abs_nonneg _).trans (hB 0)
  have hpc := poisson_continuous hone
  have key : ∀ η : ℝ, 0 < η → ∫ x : ℝ, f x * (-(G (x + η * Complex.I)).im / Real.pi)
      = ∫ e, (∫ t, f (e - η * t) * poisson 1 t) ∂A := by
    intro η hη
    have himz : ∀ x : ℝ, ((x : ℂ) + η * Complex.I).im = η := fun x => by simp
    have hrez : ∀ x : ℝ, ((x : ℂ) + η * Complex.I).re = x := fun x => by simp
    have h1 : ∀ x : ℝ, f x * (-(G (x + η * Complex.I)).im / Real.pi) = ∫ e, f x * poisson η (e - x) ∂A := fun x => by
      rw [spectrum_im h (by rw [himz]; exact hη), himz, hrez, integral_const_mul]
    have hpcη := poisson_continuous hη
    have hint : Integrable (fun p : ℝ × ℝ => f p.1 * poisson η (p.2 - p.1)) (volume.prod A) := by
      refine (integrable_prod_iff' (by fun_prop)).2 ⟨Eventually.of_forall fun e => ?_, ?_⟩
      · exact ((poisson_integrable hη).comp_sub_left e).bdd_mul hf.aestronglyMeasurable (Eventually.of_forall hB)
      · refine Integrable.of_bound ?_ B (Eventually.of_forall fun e => ?_)
        · have hcont : Continuous fun p : ℝ × ℝ => ‖f p.2 * poisson η (p.1 - p.2)‖ := by fun_prop
          exact (hcont.stronglyMeasurable.integral_prod_right').aestronglyMeasurable
        · rw [Real.norm_of_nonneg (integral_nonneg fun x => norm_nonneg _)]
          calc ∫ x, ‖f x * poisson η (e - x)‖ ≤ ∫ x, B * poisson η (e - x) := by
                refine integral_mono ?_ (((poisson_integrable hη).comp_sub_left e).const_mul B) fun x => ?_
                · exact (((poisson_integrable hη).comp_sub_left e).bdd_mul hf.aestronglyMeasurable
                    (Eventually.of_forall hB)).norm
                · simp only
                  rw [norm_mul, Real.norm_of_nonneg (poisson_nonneg hη _)]
                  exact mul_le_mul_of_nonneg_right (hB x) (poisson_nonneg hη _)
            _ = B := by
                rw [integral_const_mul, integral_sub_left_eq_self (poisson η) volume e, poisson_integral hη, mul_one]
    simp only [h1]
    rw [integral_integral_swap hint]
    refine integral_congr_ae (Eventually.of_forall fun e => ?_)
    simp only
    have e1 : ∀ x, f x * poisson η (e - x) = (fun u => f (e - u) * poisson η u) (e - x) := fun x => by
      simp only [sub_sub_cancel]
    simp only [e1]
    rw [integral_sub_left_eq_self (fun u => f (e - u) * poisson η u) volume e]
    have e2 := Measure.integral_comp_mul_left (fun u => f (e - u) * poisson η u) η
    rw [abs_of_pos (inv_pos.2 hη), smul_eq_mul, eq_comm, inv_mul_eq_iff_eq_mul₀ hη.ne', ← integral_const_mul] at e2
    rw [e2]
    refine integral_congr_ae (Eventually.of_forall fun t => ?_)
    simp only
    have hpi := Real.pi_pos
    unfold poisson
    have : (1 : ℝ) ^ 2 + t ^ 2 ≠ 0 := by positivity
    field_simp
  have hinner : ∀ e : ℝ, Tendsto (fun η : ℝ => ∫ t, f (e - η * t) * poisson 1 t) (𝓝[>] 0) (𝓝 (f e)) := by
    intro e
    have hlim : Tendsto (fun η : ℝ => ∫ t, f (e - η * t) * poisson 1 t) (𝓝[>] 0) (𝓝 (∫ t, f e * poisson 1 t)) := by
      refine tendsto_integral_filter_of_dominated_convergence (fun t => B * poisson 1 t)
        (Eventually.of_forall fun η => Continuous.aestronglyMeasurable (by fun_prop))
        (Eventually.of_forall fun η => Eventually.of_forall fun t => ?_) ((poisson_integrable hone).const_mul B)
        (Eventually.of_forall fun t => ?_)
      · rw [norm_mul, Real.norm_of_nonneg (poisson_nonneg hone _)]
        exact mul_le_mul_of_nonneg_right (hB _) (poisson_nonneg hone _)
      · have hc : Continuous fun η : ℝ => f (e - η * t) * poisson 1 t := by fun_prop
        have := hc.tendsto 0
        simp only [zero_mul, sub_zero] at this
        exact this.mono_left nhdsWithin_le_nhds
    rwa [integral_const_mul, poisson_integral hone, mul_one] at hlim
  have hlim : Tendsto (fun η : ℝ => ∫ e, (∫ t, f (e - η * t) * poisson 1 t) ∂A) (𝓝[>] 0) (𝓝 (∫ e, f e ∂A)) := by
    refine tendsto_integral_filter_of_dominated_convergence (fun _ => B) (Eventually.of_forall fun η => ?_)
      (Eventually.of_forall fun η => Eventually.of_forall fun e => ?_) (integrable_const _) (Eventually.of_forall hinner)
    · have hcont : Continuous fun p : ℝ × ℝ => f (p.1 - η * p.2) * poisson 1 p.2 := by fun_prop
      exact (hcont.stronglyMeasurable.integral_prod_right').aestronglyMeasurable
    · have := norm_integral_le_of_norm_le (μ := volume) (f := fun t => f (e - η * t) * poisson 1 t)
        ((poisson_integrable hone).const_mul B) (Eventually.of_forall fun t => by
          rw [norm_mul, Real.norm_of_nonneg (poisson_nonneg hone _)]
          exact mul_le_mul_of_nonneg_right (hB _) (poisson_nonneg hone _))
      rwa [integral_const_mul, poisson_integral hone, mul_one] at this
  refine hlim.congr' ?_
  filter_upwards [self_mem_nhdsWithin] with η hη
  exact (key η hη).symm

/-- C81: the Green's function determines its spectral distribution. -/
theorem spectrum_unique {A' : Measure ℝ} [IsFiniteMeasure A] [IsFiniteMeasure A'] (h : HasSpectrum G A) (h' : HasSpectrum G A') :
    A = A' := by
  refine ext_of_forall_integral_eq_of_IsFiniteMeasure fun f => ?_
  have hB : ∀ x, |f x| ≤ ‖f‖ := fun x => f.norm_coe_le_norm x
  exact tendsto_nhds_unique (spectrum_limit h f.continuous hB) (spectrum_limit h' f.continuous hB)

/-! ## Lattices with self-energies -/

/-- A function that is at least as damped as `z` and grows like it is the inverse of a Green's function. -/
lemma spectrum_inv {w : ℂ → ℂ} (hd : DifferentiableOn ℂ w {z | 0 < z.im}) (him : ∀ z : ℂ, 0 < z.im → z.im ≤ (w z).im)
    (ht : Tendsto (fun y : ℝ => w (Complex.I * y) / (Complex.I * y)) atTop (𝓝 1)) :
    ∃ A : Measure ℝ, IsProbabilityMeasure A ∧ HasSpectrum (fun z => 1 / w z) A := by
  have hlow : ∀ z : ℂ, 0 < z.im → z.im ≤ ‖w z‖ := fun z hz =>
    (him z hz).trans ((le_abs_self _).trans (Complex.abs_im_le_norm _))
  have hne : ∀ z : ℂ, 0 < z.im → w z ≠ 0 := fun z hz => norm_pos_iff.1 (hz.trans_le (hlow z hz))
  refine spectrum_iff.2 ⟨(differentiableOn_const _).div hd hne, fun z hz => ?_, fun t ht => ⟨1, fun z hz => ?_⟩, ?_⟩
  · rw [one_div, Complex.inv_im]
    exact div_nonpos_of_nonpos_of_nonneg (by linarith [him z hz]) (Complex.normSq_nonneg _)
  · have hz' := ht.trans hz
    rw [norm_div, norm_one]
    exact one_div_le_one_div_of_le hz' (hlow z hz')
  · have h1 := ht.inv₀ one_ne_zero
    rw [inv_one] at h1
    refine h1.congr fun y => ?_
    rw [inv_div, mul_one_div]

/-- C81: a lattice Green's function with a causal self-energy, `hilbert(z - Σ(z))`, has a normalised spectral distribution. -/
theorem dyson_spectrum {hilbert S : ℂ → ℂ} (h : IsLatticeHilbert hilbert) (hd : DifferentiableOn ℂ S {z | 0 < z.im})
    (him : ∀ z : ℂ, 0 < z.im → (S z).im ≤ 0) (ht : Tendsto (fun y : ℝ => S (Complex.I * y) / (Complex.I * y)) atTop (𝓝 0)) :
    ∃ A : Measure ℝ, IsProbabilityMeasure A ∧ HasSpectrum (fun z => hilbert (z - S z)) A := by
  have hup : ∀ z : ℂ, 0 < z.im → z.im ≤ (z - S z).im := fun z hz => by
    rw [Complex.sub_im]
    linarith [him z hz]
  obtain ⟨h1, h2, h3, -⟩ := (spectrum_iff (G := hilbert)).1 h
  refine spectrum_iff.2 ⟨fun z hz => ?_, fun z hz => h2 _ (lt_of_lt_of_le hz (hup z hz)), fun t ht => ?_, ?_⟩
  · have hz' : 0 < z.im := hz
    exact ((lattice_hilbert_differentiable h (hz'.trans_le (hup z hz))).comp z (differentiableAt_id.sub
      ((hd z hz).differentiableAt (upper_isOpen.mem_nhds hz)))).differentiableWithinAt
  · obtain ⟨C, hC⟩ := h3 t ht
    have hC0 : 0 ≤ C := by
      have h1 := (norm_nonneg _).trans (hC ((t + 1 : ℝ) * Complex.I) (by simp))
      by_contra hc
      refine absurd (div_neg_of_neg_of_pos (not_le.1 hc) ?_) (not_lt.2 h1)
      simp
      linarith
    exact ⟨C, fun z hz => (hC _ (hz.trans_le (hup z (ht.trans hz)))).trans
      (div_le_div_of_nonneg_left hC0 (ht.trans hz) (hup z (ht.trans hz)))⟩
  · have hratio : Tendsto (fun y : ℝ => (Complex.I * y - S (Complex.I * y)) / (Complex.I * y)) atTop (𝓝 1) := by
      have h5 := (tendsto_const_nhds (x := (1 : ℂ))).sub ht
      rw [sub_zero] at h5
      refine h5.congr' ?_
      filter_upwards [eventually_gt_atTop 0] with y hy
      have : (Complex.I * y : ℂ) ≠ 0 := mul_ne_zero Complex.I_ne_zero (by exact_mod_cast hy.ne')
      rw [sub_div, div_self this]
    have himy : ∀ y : ℝ, (Complex.I * y : ℂ).im = y := fun y => by simp
    have hinf : ToInfinity atTop fun y : ℝ => Complex.I * y - S (Complex.I * y) := by
      refine ⟨?_, 2, ?_⟩
      · refine tendsto_atTop_mono' _ ?_ tendsto_id
        filter_upwards [eventually_gt_atTop 0] with y hy
        have := hup (Complex.I * y) (by rw [himy]; exact hy)
        rwa [himy] at this
      · filter_upwards [eventually_gt_atTop 0, hratio.norm.eventually_lt_const (show ‖(1 : ℂ)‖ < 2 by simp)] with y hy h6
        have hn : ‖(Complex.I * y : ℂ)‖ = y := by simp [abs_of_pos hy]
        rw [norm_div, hn, div_lt_iff₀ hy] at h6
        have h7 := hup (Complex.I * y) (by rw [himy]; exact hy)
        rw [himy] at h7
        linarith
    have h8 := (lattice_hilbert_tail h hinf).div hratio one_ne_zero
    rw [div_one] at h8
    refine h8.congr' ?_
    filter_upwards [eventually_gt_atTop 0] with y hy
    have h9 : (Complex.I * y : ℂ) ≠ 0 := mul_ne_zero Complex.I_ne_zero (by exact_mod_cast hy.ne')
    have h10 : Complex.I * y - S (Complex.I * y) ≠ 0 := fun h0 => by
      have h7 := hup (Complex.I * y) (by rw [himy]; exact hy)
      rw [h0, himy] at h7
      simp at h7
      linarith
    simp only [Pi.div_apply]
    rw [div_div_eq_mul_div, div_eq_iff h10]
    ring

/-! ## Coherent potential approximation -/

section

variable {ι : Type*} [Fintype ι] {e : ℂ → ι → ℂ} {c : ι → ℝ} {hilbert S : ℂ → ℂ}

lemma imag_im (y : ℝ) : (Complex.I * y : ℂ).im = y := by simp

lemma imag_ne {y : ℝ} (hy : 0 < y) : (Complex.I * y : ℂ) ≠ 0 := mul_ne_zero Complex.I_ne_zero (by exact_mod_cast hy.ne')

lemma imag_norm {y : ℝ} (hy : 0 < y) : ‖(Complex.I * y : ℂ)‖ = y := by simp [abs_of_pos hy]

lemma bounded_over_imag {f : ℂ → ℂ} {r : ℝ} (h : ∀ᶠ y : ℝ in atTop, ‖f (Complex.I * y)‖ ≤ r) :
    Tendsto (fun y : ℝ => f (Complex.I * y) / (Complex.I * y)) atTop (𝓝 0) := by
  refine squeeze_zero_norm' (a := fun y : ℝ => r / y) ?_ (tendsto_const_nhds.div_atTop tendsto_id)
  filter_upwards [eventually_gt_atTop 0, h] with y hy h1
  rw [norm_div, imag_norm hy]
  gcongr

/-- The self-energy is bounded like the on-site energies. -/
lemma cpa_self_bound (h : RetardedAlloy e c hilbert) (hS : IsCpaSelf e c hilbert S) {z : ℂ} (hz : 0 < z.im) {r : ℝ}
    (hr : ∀ i, ‖e z i‖ ≤ r) : ‖S z‖ ≤ cpaBound z r := by
  have hp : DisorderProblem z (e z) c hilbert r := { h.problem hz with bound := hr }
  obtain ⟨s, ⟨-, h1, -, -⟩, h2⟩ := cpa_exists_unique hp
  rwa [h2 _ ((hS z hz).1.trans_lt hz) (hS z hz).2]

lemma cpa_self_over_imag (h : RetardedAlloy e c hilbert) (hS : IsCpaSelf e c hilbert S) {r : ℝ}
    (hr : ∀ᶠ y : ℝ in atTop, ∀ i, ‖e (Complex.I * y) i‖ ≤ r) :
    Tendsto (fun y : ℝ => S (Complex.I * y) / (Complex.I * y)) atTop (𝓝 0) := by
  refine bounded_over_imag (r := r + r ^ 2) ?_
  filter_upwards [hr, eventually_ge_atTop 1] with y h1 hy
  refine (cpa_self_bound h hS (by rw [imag_im]; linarith) h1).trans ?_
  unfold cpaBound
  rw [imag_im]
  have := div_le_self (sq_nonneg r) hy
  linarith

/-- C81: the CPA Green's function and the Green's functions of the components have normalised spectral distributions, also
for components with local self-energies that are bounded at high frequencies; the spectral distribution of the lattice is
the average of those of the components. -/
theorem cpa_spectrum (h : RetardedAlloy e c hilbert) (he : ∀ i, DifferentiableOn ℂ (fun z => e z i) {z | 0 < z.im}) {r : ℝ}
    (hr : ∀ᶠ y : ℝ in atTop, ∀ i, ‖e (Complex.I * y) i‖ ≤ r) (hS : IsCpaSelf e c hilbert S) :
    ∃ A : ι → Measure ℝ, (∀ i, IsProbabilityMeasure (A i)) ∧
      (∀ i, HasSpectrum (fun z => gfCmptZ z (S z) (e z) hilbert i) (A i)) ∧
      IsProbabilityMeasure (∑ i, ENNReal.ofReal (c i) • A i) ∧
      HasSpectrum (fun z => hilbert (z - S z)) (∑ i, ENNReal.ofReal (c i) • A i) := by
  have hSd := cpa_self_analytic h he hS
  have hS0 := cpa_self_over_imag h hS hr
  obtain ⟨hGd, -, -, hGt⟩ := spectrum_iff.1 (dyson_spectrum h.lattice hSd (fun z hz => (hS z hz).1) hS0)
  set w : ℂ → ℂ := fun z => (hilbert (z - S z))⁻¹ + S z with hw
  have hmed : ∀ z : ℂ, 0 < z.im → z.im ≤ (w z).im ∧ hilbert (z - S z) ≠ 0 ∧
      ∑ i, (c i : ℂ) / (w z - e z i) = 1 / (w z - S z) := fun z hz => by
    obtain ⟨w', h1, h2, h3, h4⟩ := cpa_medium (h.problem hz) (hS z hz).1 (hS z hz).2
    rw [h2] at h1 h4
    exact ⟨h1, h3, h4⟩
  have hwd : DifferentiableOn ℂ w {z | 0 < z.im} := (hGd.inv fun z hz => (hmed z hz).2.1).add hSd
  have hwt : Tendsto (fun y : ℝ => w (Complex.I * y) / (Complex.I * y)) atTop (𝓝 1) := by
    have h1 := (hGt.inv₀ one_ne_zero).add hS0
    rw [inv_one, add_zero] at h1
    refine h1.congr fun y => ?_
    rw [hw]
    simp only [mul_inv]
    ring
  have hcm : ∀ i, ∃ A : Measure ℝ, IsProbabilityMeasure A ∧ HasSpectrum (fun z => 1 / (w z - e z i)) A := fun i => by
    refine spectrum_inv (hwd.sub (he i)) (fun z hz => ?_) ?_
    · rw [Complex.sub_im]
      linarith [(hmed z hz).1, h.retarded z hz i]
    · have h1 := hwt.sub (bounded_over_imag (f := fun z => e z i) (hr.mono fun y hy => hy i))
      rw [sub_zero] at h1
      exact h1.congr fun y => (sub_div _ _ _).symm
  choose A hA hAs using hcm
  refine ⟨A, hA, fun i z hz => ?_, ⟨?_⟩, fun z hz => ?_⟩
  · rw [← hAs i z hz]
    obtain ⟨h1, h2, -⟩ := hmed z hz
    unfold gfCmptZ
    simp only
    have h3 : w z - e z i ≠ 0 := fun h0 => by
      have := congrArg Complex.im h0
      rw [Complex.sub_im, Complex.zero_im] at this
      linarith [h.retarded z hz i]
    have h4 : 1 - (e z i - S z) * hilbert (z - S z) = hilbert (z - S z) * (w z - e z i) := by
      rw [hw]
      field_simp
      ring
    rw [h4]
    field_simp
  · rw [Measure.finset_sum_apply]
    simp only [Measure.smul_apply, measure_univ, smul_eq_mul, mul_one]
    rw [← ENNReal.ofReal_sum_of_nonneg fun i _ => h.nonneg i, h.norm, ENNReal.ofReal_one]
  · obtain ⟨h1, h2, h3⟩ := hmed z hz
    have h4 : hilbert (z - S z) = 1 / (w z - S z) := by rw [hw]; simp
    simp only
    rw [h4, ← h3, integral_finsetSum_measure fun i _ => (upper_integrable hz).smul_measure ENNReal.ofReal_ne_top]
    refine Finset.sum_congr rfl fun i _ => ?_
    rw [integral_smul_measure, ENNReal.toReal_ofReal (h.nonneg i), ← hAs i z hz]
    simp [div_eq_mul_inv]

/-- C81: what `solve_root` (restricted) finds has one spectral distribution for all grids of frequencies and starting
points. -/
theorem solve_root_spectrum (h : RetardedAlloy e c hilbert) (he : ∀ i, DifferentiableOn ℂ (fun z => e z i) {z | 0 < z.im}) {r : ℝ}
    (hr : ∀ᶠ y : ℝ in atTop, ∀ i, ‖e (Complex.I * y) i‖ ≤ r) :
    ∃ A : ι → Measure ℝ, (∀ i, IsProbabilityMeasure (A i)) ∧ IsProbabilityMeasure (∑ i, ENNReal.ofReal (c i) • A i) ∧
      ∀ {κ : Type} (solver : Solver (κ → ℂ)) (_ : HonestSolver solver 0) (z : κ → ℂ) (_ : ∀ k, 0 < (z k).im)
        (x0 : Option (κ → ℂ)) (s : κ → ℂ), solveRoot solver z (fun k => e (z k)) (fun _ => c) hilbert x0 true = .ok s →
        ∀ k, hilbert (z k - s k) = ∫ x : ℝ, 1 / (z k - x) ∂(∑ i, ENNReal.ofReal (c i) • A i) ∧
          ∀ i, gfCmptZ (z k) (s k) (e (z k)) hilbert i = ∫ x : ℝ, 1 / (z k - x) ∂(A i) := by
  obtain ⟨S, hS, -, hgrid⟩ := cpa_self_exists h
  obtain ⟨A, hA, hAs, hp, hG⟩ := cpa_spectrum h he hr hS
  refine ⟨A, hA, hp, fun solver hsol z hz x0 s hs k => ?_⟩
  have h1 := hgrid solver hsol z hz x0 s hs k
  rw [h1]
  exact ⟨hG _ (hz k), fun i => hAs i _ (hz k)⟩

/-- C81: for real on-site energies the CPA self-energy is the average energy plus the variance times a function with
normalised spectral distribution. -/
theorem cpa_self_spectrum {ε : ι → ℝ} (h : RetardedAlloy (fun _ i => (ε i : ℂ)) c hilbert)
    (hS : IsCpaSelf (fun _ i => (ε i : ℂ)) c hilbert S) :
    ∃ A : Measure ℝ, IsProbabilityMeasure A ∧ ∀ z : ℂ, 0 < z.im →
      S z = (∑ i, c i * ε i : ℝ) + (∑ i, c i * (ε i - ∑ j, c j * ε j) ^ 2 : ℝ) * ∫ x : ℝ, 1 / (z - x) ∂A := by
  set m : ℝ := ∑ i, c i * ε i with hm
  set v : ℝ := ∑ i, c i * (ε i - m) ^ 2 with hv
  have hmc : ∑ i, (c i : ℂ) * (ε i : ℂ) = m := by rw [hm]; push_cast; rfl
  have hvc : ∑ i, (c i : ℂ) * ((ε i : ℂ) - m) ^ 2 = v := by rw [hv]; push_cast; rfl
  have hv0 : 0 ≤ v := Finset.sum_nonneg fun i _ => mul_nonneg (h.nonneg i) (sq_nonneg _)
  have hSd := cpa_self_analytic h (fun i => differentiableOn_const _) hS
  rcases hv0.eq_or_lt with hv1 | hv1
  · refine ⟨Measure.dirac 0, inferInstance, fun z hz => ?_⟩
    rw [← hv1, Complex.ofReal_zero, zero_mul, add_zero]
    obtain ⟨w, h1, h2, h3, h4⟩ := cpa_medium (h.problem hz) (hS z hz).1 (hS z hz).2
    have hne : ∀ x : ℂ, x.im ≤ 0 → w - x ≠ 0 := fun x hx h0 => by
      have := congrArg Complex.im h0
      rw [Complex.sub_im, Complex.zero_im] at this
      linarith
    have h5 := cpa_diff h.norm (fun i => hne _ (h.retarded z hz i)) (hne _ (hS z hz).1) (by rw [hmc]; exact hne _ (by simp)) h4
    have h6 : ∀ i, c i * (ε i - m) ^ 2 = 0 := fun i =>
      (Finset.sum_eq_zero_iff_of_nonneg fun i _ => mul_nonneg (h.nonneg i) (sq_nonneg _)).1 hv1.symm i (Finset.mem_univ i)
    have h7 : ∀ i, (c i : ℂ) * ((ε i : ℂ) - m) ^ 2 = 0 := fun i => by exact_mod_cast h6 i
    rw [hmc] at h5
    simp only [h7, zero_div, Finset.sum_const_zero, mul_zero] at h5
    exact sub_eq_zero.1 h5
  have hvc0 : (v : ℂ) ≠ 0 := by exact_mod_cast hv1.ne'
  suffices hsuff : ∃ A : Measure ℝ, IsProbabilityMeasure A ∧ HasSpectrum (fun z => (S z - m) / v) A by
    obtain ⟨A, hA, hAs⟩ := hsuff
    refine ⟨A, hA, fun z hz => ?_⟩
    rw [← hAs z hz]
    field_simp
    ring
  refine spectrum_iff.2 ⟨(hSd.sub_const _).div_const _, fun z hz => ?_, fun t ht => ?_, ?_⟩
  · rw [Complex.div_ofReal_im, Complex.sub_im, Complex.ofReal_im, sub_zero]
    exact div_nonpos_of_nonpos_of_nonneg (hS z hz).1 hv0
  · set d : ℝ := ∑ i, ‖(ε i : ℂ) - m‖ with hd
    set r : ℝ := ∑ i, ‖(ε i : ℂ)‖ with hr
    have hd0 : 0 ≤ d := Finset.sum_nonneg fun i _ => norm_nonneg _
    have hdb : ∀ i, ‖(ε i : ℂ) - m‖ ≤ d := fun i =>
      Finset.single_le_sum (f := fun i => ‖(ε i : ℂ) - m‖) (fun i _ => norm_nonneg _) (Finset.mem_univ i)
    have hrb : ∀ i, ‖(ε i : ℂ)‖ ≤ r := fun i =>
      Finset.single_le_sum (f := fun i => ‖(ε i : ℂ)‖) (fun i _ => norm_nonneg _) (Finset.mem_univ i)
    set B := r + r ^ 2 / t + |m| with hB
    have hB0 : 0 ≤ B := by
      have : 0 ≤ r := Finset.sum_nonneg fun i _ => norm_nonneg _
      positivity
    refine ⟨(2 * d ^ 2 + B * (2 * d)) / v, fun z hz => ?_⟩
    have hz0 := ht.trans hz
    rw [norm_div, Complex.norm_real, Real.norm_of_nonneg hv0, div_div, mul_comm v, ← div_div]
    refine div_le_div_of_nonneg_right ?_ hv0
    by_cases hbig : 2 * d ≤ z.im
    · have h1 := cpa_self_tail_bound (h.problem hz0) (hS z hz0).1 (hS z hz0).2 (d := d) (by rw [hmc]; exact hdb) (by nlinarith)
      rw [hmc] at h1
      refine h1.trans (div_le_div_of_nonneg_right ?_ hz0.le)
      nlinarith [mul_nonneg hB0 hd0]
    · have h1 := cpa_self_bound h hS hz0 hrb
      have h2 : ‖S z - m‖ ≤ B := by
        refine (norm_sub_le _ _).trans ?_
        rw [Complex.norm_real, Real.norm_eq_abs]
        unfold cpaBound at h1
        have : r ^ 2 / z.im ≤ r ^ 2 / t := div_le_div_of_nonneg_left (sq_nonneg r) ht hz.le
        linarith
      rw [le_div_iff₀ hz0]
      calc ‖S z - m‖ * z.im ≤ B * (2 * d) := mul_le_mul h2 (not_le.1 hbig).le hz0.le hB0
        _ ≤ _ := by nlinarith [sq_nonneg d]
  · have h1 := (cpa_self_moments h hS toInfinity_imag).2.1
    rw [hmc, hvc] at h1
    have h2 := h1.div_const (v : ℂ)
    rw [div_self hvc0] at h2
    exact h2.congr fun y => mul_div_assoc _ _ _

end

/-! ## Formalism of Blackman, Esterling and Berk -/

/-- C81: the diagonal elements of the Green's function of the components in the formalism of Blackman, Esterling and Berk
are concentrations times functions with normalised spectral distribution; the average Green's function has the average
spectral distribution. -/
theorem beb_spectrum {n : ℕ} {dos : Measure ℝ} {band : Set ℝ} {hilbert : ℂ → ℂ} {T : Matrix (Fin n) (Fin n) ℂ}
    {e : ℂ → Fin n → ℂ} {c : Fin n → ℝ} {S : ℂ → Matrix (Fin n) (Fin n) ℂ} (h : BebAlloy dos band hilbert T e c)
    (he : ∀ i, DifferentiableOn ℂ (fun z => e z i) {z | 0 < z.im}) {r : ℝ}
    (hr : ∀ᶠ y : ℝ in atTop, ∀ i, ‖e (Complex.I * y) i‖ ≤ r) (hS : IsBebSelfFn dos T e c S) :
    ∃ A : Fin n → Measure ℝ, (∀ i, IsProbabilityMeasure (A i)) ∧
      (∀ i, HasSpectrum (fun z => bebLocGf dos T z (S z) i i) (ENNReal.ofReal (c i) • A i)) ∧
      IsProbabilityMeasure (∑ i, ENNReal.ofReal (c i) • A i) ∧
      HasSpectrum (fun z => ∑ i, bebLocGf dos T z (S z) i i) (∑ i, ENNReal.ofReal (c i) • A i) := by
  have h0 := h Complex.I (by simp)
  obtain ⟨Δ, D, hD, hΔ⟩ := beb_self_bath h hS
  set w : Fin n → ℂ → ℂ := fun i z => z - e z i - Δ z i i with hw
  have hwne : ∀ i (z : ℂ), 0 < z.im → w i z ≠ 0 := fun i z hz => ((hΔ z hz).1 i).1
  have hG : ∀ i (z : ℂ), 0 < z.im → bebLocGf dos T z (S z) i i = c i / w i z := fun i z hz => ((hΔ z hz).1 i).2.2.1
  have hcne : ∀ i, (c i : ℂ) ≠ 0 := fun i => by exact_mod_cast (h0.pos i).ne'
  have hcm : ∀ i, ∃ A : Measure ℝ, IsProbabilityMeasure A ∧ HasSpectrum (fun z => 1 / w i z) A := fun i => by
    refine spectrum_inv ?_ (fun z hz => ((hΔ z hz).1 i).2.1) ?_
    · have h1 : DifferentiableOn ℂ (fun z => c i / bebLocGf dos T z (S z) i i) {z | 0 < z.im} :=
        (differentiableOn_const _).div (beb_self_analytic h he hS i i).2 fun z hz => by
          rw [hG i z hz]
          exact div_ne_zero (hcne i) (hwne i z hz)
      refine h1.congr fun z hz => ?_
      rw [hG i z hz, div_div_cancel₀ (hcne i)]
    · set M : ℂ := (∫ eps, (eps : ℂ) ∂dos) * T i i with hM
      have h1 : Tendsto (fun y : ℝ => Δ (Complex.I * y) i i / (Complex.I * y)) atTop (𝓝 0) := by
        refine bounded_over_imag (f := fun z => Δ z i i) (r := ‖M‖ + D) ?_
        filter_upwards [eventually_ge_atTop 1] with y hy
        have h2 := (hΔ (Complex.I * y) (by rw [imag_im]; linarith)).2.2 i i
        rw [imag_im] at h2
        have h3 : D / y ≤ D := div_le_self hD hy
        calc ‖Δ (Complex.I * y) i i‖ = ‖M + (Δ (Complex.I * y) i i - M)‖ := by rw [add_sub_cancel]
          _ ≤ _ := (norm_add_le _ _).trans (by linarith)
      have h4 := ((tendsto_const_nhds (x := (1 : ℂ))).sub (bounded_over_imag (f := fun z => e z i) (hr.mono fun y hy => hy i))).sub h1
      rw [sub_zero, sub_zero] at h4
      refine h4.congr' ?_
      filter_upwards [eventually_gt_atTop 0] with y hy
      rw [hw]
      simp only [sub_div]
      rw [div_self (imag_ne hy)]
  choose A hA hAs using hcm
  have hcomp : ∀ i, HasSpectrum (fun z => bebLocGf dos T z (S z) i i) (ENNReal.ofReal (c i) • A i) := fun i z hz => by
    simp only
    rw [integral_smul_measure, ENNReal.toReal_ofReal (h0.pos i).le, ← hAs i z hz, hG i z hz]
    simp [div_eq_mul_inv]
  refine ⟨A, hA, hcomp, ⟨?_⟩, fun z hz => ?_⟩
  · rw [Measure.finset_sum_apply]
    simp only [Measure.smul_apply, measure_univ, smul_eq_mul, mul_one]
    rw [← ENNReal.ofReal_sum_of_nonneg fun i _ => (h0.pos i).le, h0.norm, ENNReal.ofReal_one]
  · simp only
    rw [integral_finsetSum_measure fun i _ => (upper_integrable hz).smul_measure ENNReal.ofReal_ne_top]
    exact Finset.sum_congr rfl fun i _ => hcomp i z hz

/-! ## Occupations -/

lemma fermi_int [IsFiniteMeasure A] (β μ : ℝ) : Integrable (fun x => fermi β (x - μ)) A :=
  Integrable.of_bound ((fermi_continuous' β).comp (by fun_prop)).aestronglyMeasurable 1 (Eventually.of_forall fun x => by
    rw [Real.norm_of_nonneg (fermi_mem _ _).1.le]
    exact (fermi_mem _ _).2.le)

/-- C81: the occupation increases strictly and continuously from zero to the total weight with the chemical potential. -/
theorem occupation_monotone [IsFiniteMeasure A] (hA : A ≠ 0) {β : ℝ} (hb : 0 < β) :
    StrictMono (occupation A β) ∧ Continuous (occupation A β) ∧ Tendsto (occupation A β) atBot (𝓝 0) ∧
      Tendsto (occupation A β) atTop (𝓝 (A.real Set.univ)) := by
  have hbd : ∀ μ : ℝ, ∀ᵐ x ∂A, ‖fermi β (x - μ)‖ ≤ 1 := fun μ => Eventually.of_forall fun x => by
    rw [Real.norm_of_nonneg (fermi_mem _ _).1.le]
    exact (fermi_mem _ _).2.le
  have hmeas : ∀ μ : ℝ, AEStronglyMeasurable (fun x => fermi β (x - μ)) A := fun μ =>
    ((fermi_continuous' β).comp (by fun_prop)).aestronglyMeasurable
  refine ⟨fun μ ν hμ => ?_, ?_, ?_, ?_⟩
  · unfold occupation
    rw [← sub_pos, ← integral_sub (fermi_int β ν) (fermi_int β μ)]
    have hpos : ∀ x, 0 < fermi β (x - ν) - fermi β (x - μ) := fun x => sub_pos.2 (fermi_strictAnti hb (by linarith))
    rw [integral_pos_iff_support_of_nonneg (fun x => (hpos x).le) ((fermi_int β ν).sub (fermi_int β μ))]
    have : Function.support (fun x => fermi β (x - ν) - fermi β (x - μ)) = Set.univ :=
      Set.eq_univ_of_forall fun x => (hpos x).ne'
    rw [this]
    exact pos_iff_ne_zero.2 (Measure.measure_univ_ne_zero.2 hA)
  · exact continuous_of_dominated hmeas hbd (integrable_const 1) (Eventually.of_forall fun x =>
      (fermi_continuous' β).comp (by fun_prop))
  · have := tendsto_integral_filter_of_dominated_convergence (μ := A) (l := atBot) (F := fun μ x => fermi β (x - μ))
      (f := fun _ => (0 : ℝ)) (fun _ => 1) (Eventually.of_forall hmeas) (Eventually.of_forall hbd) (integrable_const 1)
      (Eventually.of_forall fun x => (fermi_tendsto_top hb).comp
        ((tendsto_atTop_add_const_left _ x tendsto_neg_atBot_atTop).congr fun μ => (sub_eq_add_neg x μ).symm))
    simp at this
    exact this
  · have := tendsto_integral_filter_of_dominated_convergence (μ := A) (l := atTop) (F := fun μ x => fermi β (x - μ))
      (f := fun _ => (1 : ℝ)) (fun _ => 1) (Eventually.of_forall hmeas) (Eventually.of_forall hbd) (integrable_const 1)
      (Eventually.of_forall fun x => (fermi_tendsto_bot hb).comp
        ((tendsto_atBot_add_const_left _ x tendsto_neg_atTop_atBot).congr fun μ => (sub_eq_add_neg x μ).symm))
    simp at this
    exact this

/-- C81: for every possible occupation there is exactly one chemical potential. -/
theorem occupation_exists_unique [IsProbabilityMeasure A] {β : ℝ} (hb : 0 < β) {n : ℝ} (hn : 0 < n) (hn1 : n < 1) :
    ∃! μ, occupation A β μ = n := by
  obtain ⟨hm, hc, h0, h1⟩ := occupation_monotone (IsProbabilityMeasure.ne_zero A) hb
  rw [probReal_univ] at h1
  obtain ⟨μ₁, hμ₁⟩ := (h0.eventually (gt_mem_nhds hn)).exists
  obtain ⟨μ₂, hμ₂⟩ := (h1.eventually (lt_mem_nhds hn1)).exists
  obtain ⟨μ, hμ⟩ := mem_range_of_exists_le_of_exists_ge hc ⟨μ₁, hμ₁.le⟩ ⟨μ₂, hμ₂.le⟩
  exact ⟨μ, hμ, fun ν hν => hm.injective (hν.trans hμ.symm)⟩

/-- The partial Matsubara sums of a single level are bounded. -/
lemma matsubara_partial_bound {β : ℝ} (hb : 0 < β) (x : ℝ) (N : ℕ) :
    |∑ n ∈ Finset.range N, 2 / β * (1 / (matsubaraFrequencies (n : ℕ) β - x) : ℂ).re| ≤ 1 / 2 := by
  have hs := hasSum_matsubara hb x
  have hf := fermi_mem β x
  have hre := matsubara_re β x
  rcases le_total 0 x with hx | hx
  · have hneg : ∀ n : ℕ, 2 / β * (1 / (matsubaraFrequencies (n : ℕ) β - x) : ℂ).re ≤ 0 := fun n => by
      rw [hre]
      refine mul_nonpos_of_nonneg_of_nonpos (by positivity) (div_nonpos_of_nonpos_of_nonneg (by linarith) (by positivity))
    have h1 := sum_le_hasSum (Finset.range N) (fun n _ => neg_nonneg.2 (hneg n)) hs.neg
    rw [Finset.sum_neg_distrib] at h1
    rw [abs_of_nonpos (Finset.sum_nonpos fun n _ => hneg n)]
    linarith
  · have hpos : ∀ n : ℕ, 0 ≤ 2 / β * (1 / (matsubaraFrequencies (n : ℕ) β - x) : ℂ).re := fun n => by
      rw [hre]
      refine mul_nonneg (by positivity) (div_nonneg (by linarith) (by positivity))
    have h1 := sum_le_hasSum (Finset.range N) (fun n _ => hpos n) hs
    rw [abs_of_nonneg (Finset.sum_nonneg fun n _ => hpos n)]
    linarith

lemma matsubara_upper {β : ℝ} (hb : 0 < β) (μ : ℝ) (n : ℕ) : 0 < (matsubaraFrequencies (n : ℕ) β + (μ : ℂ)).im := by
  have := matsubaraIm_pos hb n
  simpa [matsubaraIm] using this

/-- The Matsubara sum of a Green's function converges to the occupation. -/
lemma matsubara_occupation [IsFiniteMeasure A] (h : HasSpectrum G A) {β : ℝ} (hb : 0 < β) (μ : ℝ) :
    Tendsto (fun N : ℕ => ∑ n ∈ Finset.range N, 2 / β * (G (matsubaraFrequencies (n : ℕ) β + μ)).re) atTop
      (𝓝 (occupation A β μ - A.real Set.univ / 2)) := by
  have hre : ∀ n : ℕ, (G (matsubaraFrequencies (n : ℕ) β + μ)).re
      = ∫ x : ℝ, (1 / (matsubaraFrequencies (n : ℕ) β - ((x - μ : ℝ) : ℂ)) : ℂ).re ∂A := fun n => by
    rw [h _ (matsubara_upper hb μ n)]
    refine (integral_re (upper_integrable (matsubara_upper hb μ n))).symm.trans ?_
    refine integral_congr_ae (Eventually.of_forall fun x => ?_)
    simp only [RCLike.re_eq_complex_re]
    congr 2
    push_cast
    ring
  have hi : ∀ n : ℕ, Integrable (fun x : ℝ => 2 / β * (1 / (matsubaraFrequencies (n : ℕ) β - ((x - μ : ℝ) : ℂ)) : ℂ).re) A := fun n => by
    refine (((upper_integrable (A := A) (matsubara_upper hb μ n)).re).const_mul (2 / β)).congr (Eventually.of_forall fun x => ?_)
    simp only [RCLike.re_eq_complex_re]
    congr 3
    push_cast
    ring
  have hsum : ∀ N : ℕ, ∑ n ∈ Finset.range N, 2 / β * (G (matsubaraFrequencies (n : ℕ) β + μ)).re
      = ∫ x, ∑ n ∈ Finset.range N, 2 / β * (1 / (matsubaraFrequencies (n : ℕ) β - ((x - μ : ℝ) : ℂ)) : ℂ).re ∂A := fun N => by
    rw [integral_finsetSum _ fun n _ => hi n]
    refine Finset.sum_congr rfl fun n _ => ?_
    rw [hre, integral_const_mul]
  simp only [hsum]
  have hlim : occupation A β μ - A.real Set.univ / 2 = ∫ x, (fermi β (x - μ) - 1 / 2) ∂A := by
    rw [integral_sub (fermi_int β μ) (integrable_const _)]
    simp [occupation]
    ring
  rw [hlim]
  refine tendsto_integral_of_dominated_convergence (fun _ => 1 / 2) (fun N => ?_) (integrable_const _) (fun N => ?_) ?_
  · exact (integrable_finsetSum _ fun n _ => hi n).aestronglyMeasurable
  · exact Eventually.of_forall fun x => matsubara_partial_bound hb (x - μ) N
  · exact Eventually.of_forall fun x => (hasSum_matsubara hb (x - μ)).tendsto_sum_nat

/-- C81: `density_iw` converges to the occupation, for every spectral distribution (bounded or not), and for every number of
moments of which only the first one needs to be right. -/
theorem density_iw_occupation (ext : LinalgExt ℝ) [IsFiniteMeasure A] (h : HasSpectrum G A) {β : ℝ} (hb : 0 < β) (μ : ℝ) {l : ℕ}
    (moments : Fin (l + 1) → ℝ) (hm0 : moments 0 = A.real Set.univ) :
    ∃ d : ℕ → ℝ, (∀ N, densityIw ext (fun i : Fin N => matsubaraFrequencies (i : ℕ) β)
        (fun i => G (matsubaraFrequencies (i : ℕ) β + μ)) β (fun _ => 1) moments 0 = .ok (d N)) ∧
      Tendsto d atTop (𝓝 (occupation A β μ)) := by
  obtain ⟨g, hg, hmom, -⟩ := density_iw_eq ext (k := 0) Fin.elim0 Fin.elim0 β Fin.elim0 moments
  have hd : ∀ N : ℕ, densityIw ext (fun i : Fin N => matsubaraFrequencies (i : ℕ) β)
      (fun i => G (matsubaraFrequencies (i : ℕ) β + μ)) β (fun _ => 1) moments 0 = .ok
        (2 / β * (∑ i : Fin N, 1 * ((G (matsubaraFrequencies (i : ℕ) β + μ)).re - rePole g (matsubaraFrequencies (i : ℕ) β)))
          + ∑ j, g.residues j * Spec.fermi β (g.poles j)) := fun N => by
    obtain ⟨g', hg', -, h1⟩ := density_iw_eq ext (fun i : Fin N => matsubaraFrequencies (i : ℕ) β)
        (fun i => G (matsubaraFrequencies (i : ℕ) β + μ)) β (fun _ => 1) moments
    obtain rfl : g' = g := Except.ok.inj (hg'.symm.trans hg)
    exact h1
  refine ⟨_, hd, ?_⟩
  have hres : ∑ j, g.residues j = A.real Set.univ := by
    have := hmom 0
    simp only [Fin.val_zero, pow_zero, mul_one] at this
    rw [this, hm0]
  have hpole : Tendsto (fun N : ℕ => ∑ j, g.residues j * ∑ n ∈ Finset.range N, 2 / β * (1 / (matsubaraFrequencies (n : ℕ) β - g.poles j) : ℂ).re)
      atTop (𝓝 (∑ j, g.residues j * (fermi β (g.poles j) - 1 / 2))) :=
    tendsto_finsetSum _ fun j _ => (hasSum_matsubara hb (g.poles j)).tendsto_sum_nat.const_mul _
  have hlim := ((matsubara_occupation h hb μ).sub hpole).add_const (∑ j, g.residues j * Spec.fermi β (g.poles j))
  have e1 : occupation A β μ - A.real Set.univ / 2 - ∑ j, g.residues j * (fermi β (g.poles j) - 1 / 2)
      + ∑ j, g.residues j * Spec.fermi β (g.poles j) = occupation A β μ := by
    simp only [mul_sub, Finset.sum_sub_distrib]
    rw [← Finset.sum_mul, hres]
    ring
  rw [e1] at hlim
  refine hlim.congr fun N => ?_
  congr 1
  have hrp : ∀ z : ℂ, rePole g z = ∑ j, g.residues j * (1 / (z - g.poles j)).re := fun z => by
    unfold rePole
    rw [Complex.re_sum]
    refine Finset.sum_congr rfl fun j _ => ?_
    rw [div_eq_mul_one_div, Complex.re_ofReal_mul]
  simp only [one_mul, hrp]
  rw [Fin.sum_univ_eq_sum_range fun n : ℕ => (G (matsubaraFrequencies (n : ℕ) β + μ)).re
      - ∑ j, g.residues j * (1 / (matsubaraFrequencies (n : ℕ) β - g.poles j) : ℂ).re, Finset.sum_sub_distrib, mul_sub,
    Finset.mul_sum, Finset.sum_comm, Finset.mul_sum]
  congr 1
  refine Finset.sum_congr rfl fun j _ => ?_
  rw [Finset.mul_sum, Finset.mul_sum]
  exact Finset.sum_congr rfl fun n _ => by ring

/-- C81: the occupation of a disordered lattice obtained from `solve_root` (restricted) on the Matsubara frequencies and
`density_iw` converges with the number of frequencies to the average of the occupations of the components; for every target
occupation there is exactly one chemical potential. -/
theorem cpa_occupation (ext : LinalgExt ℝ) {ι : Type*} [Fintype ι] {e : ℂ → ι → ℂ} {c : ι → ℝ} {hilbert : ℂ → ℂ}
    (h : RetardedAlloy e c hilbert) (he : ∀ i, DifferentiableOn ℂ (fun z => e z i) {z | 0 < z.im}) {r : ℝ}
    (hr : ∀ᶠ y : ℝ in atTop, ∀ i, ‖e (Complex.I * y) i‖ ≤ r) {β : ℝ} (hb : 0 < β) :
    ∃ A : ι → Measure ℝ, (∀ i, IsProbabilityMeasure (A i)) ∧
      (∀ n, 0 < n → n < 1 → ∃! μ, ∑ i, c i * occupation (A i) β μ = n) ∧
      ∀ (μ : ℝ) (s : (N : ℕ) → Fin N → ℂ) (solver : (N : ℕ) → Solver (Fin N → ℂ)) (x0 : (N : ℕ) → Option (Fin N → ℂ))
        (_ : ∀ N, HonestSolver (solver N) 0) (_ : ∀ N, solveRoot (solver N) (fun k : Fin N => matsubaraFrequencies (k : ℕ) β + μ)
          (fun k => e (matsubaraFrequencies (k : ℕ) β + μ)) (fun _ => c) hilbert (x0 N) true = .ok (s N)),
        (∃ d : ℕ → ℝ, (∀ N, densityIw ext (fun k : Fin N => matsubaraFrequencies (k : ℕ) β)
            (fun k => hilbert (matsubaraFrequencies (k : ℕ) β + μ - s N k)) β (fun _ => 1) ![1] 0 = .ok (d N)) ∧
          Tendsto d atTop (𝓝 (∑ i, c i * occupation (A i) β μ))) ∧
        ∀ i, ∃ d : ℕ → ℝ, (∀ N, densityIw ext (fun k : Fin N => matsubaraFrequencies (k : ℕ) β)
            (fun k => gfCmptZ (matsubaraFrequencies (k : ℕ) β + μ) (s N k) (e (matsubaraFrequencies (k : ℕ) β + μ)) hilbert i)
              β (fun _ => 1) ![1] 0 = .ok (d N)) ∧
          Tendsto d atTop (𝓝 (occupation (A i) β μ)) := by
  obtain ⟨S, hS, -, hgrid⟩ := cpa_self_exists h
  obtain ⟨A, hA, hAs, hp, hG⟩ := cpa_spectrum h he hr hS
  have hocc : ∀ μ, occupation (∑ i, ENNReal.ofReal (c i) • A i) β μ = ∑ i, c i * occupation (A i) β μ := fun μ => by
    unfold occupation
    rw [integral_finsetSum_measure fun i _ => (fermi_int β μ).smul_measure ENNReal.ofReal_ne_top]
    refine Finset.sum_congr rfl fun i _ => ?_
    rw [integral_smul_measure, ENNReal.toReal_ofReal (h.nonneg i), smul_eq_mul]
  refine ⟨A, hA, fun n hn hn1 => ?_, fun μ s solver x0 hsol hs => ?_⟩
  · simp only [← hocc]
    exact occupation_exists_unique hb hn hn1
  have hsS : ∀ N (k : Fin N), s N k = S (matsubaraFrequencies (k : ℕ) β + μ) := fun N k =>
    hgrid (solver N) (hsol N) _ (fun k => matsubara_upper hb μ k) (x0 N) (s N) (hs N) k
  simp only [hsS]
  refine ⟨?_, fun i => ?_⟩
  · rw [← hocc]
    exact density_iw_occupation ext hG hb μ ![1] (by simp)
  · exact density_iw_occupation ext (hAs i) hb μ ![1] (by simp)

/-! ## Examples -/

/-- A binary alloy on a Bethe lattice, one component with the self-energy `1/z` of a Mott insulator. -/
example : ∃ (S : ℂ → ℂ) (A : Measure ℝ), IsProbabilityMeasure A ∧
    IsCpaSelf (fun z => ![-1, 1 + 1 / z]) ![1 / 4, 3 / 4] (fun z => betheHilbert z 2) S ∧
    HasSpectrum (fun z => betheHilbert (z - S z) 2) A := by
  have hinv : ∀ z : ℂ, 0 < z.im → (1 / z).im ≤ 0 := fun z hz => by
    rw [one_div, Complex.inv_im]
    exact div_nonpos_of_nonpos_of_nonneg (by linarith) (Complex.normSq_nonneg _)
  have h : RetardedAlloy (fun z => ![-1, 1 + 1 / z]) ![1 / 4, 3 / 4] (fun z => betheHilbert z 2) := {
    lattice := (bethe_isHilbert two_pos).isLatticeHilbert
    nonneg := fun i => by fin_cases i <;> norm_num
    norm := by norm_num [Fin.sum_univ_two]
    retarded := fun z hz i => by
      fin_cases i
      · simp
      · have := hinv z hz
        simpa using this }
  obtain ⟨S, hS, -⟩ := cpa_self_exists h
  obtain ⟨A, -, -, hp, hA⟩ := cpa_spectrum h (fun i => by
      fin_cases i
      · exact differentiableOn_const _
      · refine (differentiableOn_const (1 : ℂ)).add ((differentiableOn_const (1 : ℂ)).div differentiableOn_id fun z hz h0 => ?_)
        have hz' : 0 < z.im := hz
        rw [show z = 0 from h0] at hz'
        simp at hz') (r := 2) (by
      filter_upwards [eventually_ge_atTop 1] with y hy i
      have hy0 : 0 < y := by linarith
      fin_cases i
      · simp
      · refine (norm_add_le _ _).trans ?_
        have h1 : ‖1 / (Complex.I * y)‖ ≤ 1 := by
          rw [norm_div, norm_one, imag_norm hy0]
          exact (div_le_one hy0).2 hy
        simp only [norm_one]
        linarith) hS
  exact ⟨S, _, hp, hS, hA⟩

/-- The Hubbard-I approximation on a Bethe lattice: the local Green's function with the self-energy `U²/(4z)`. -/
example (U : ℝ) : ∃ A : Measure ℝ, IsProbabilityMeasure A ∧ HasSpectrum (fun z => betheHilbert (z - U ^ 2 / (4 * z)) 2) A := by
  have hne : ∀ z : ℂ, 0 < z.im → (4 * z : ℂ) ≠ 0 := fun z hz h0 => by
    rcases mul_eq_zero.1 h0 with h1 | h1
    · norm_num at h1
    · rw [h1] at hz; simp at hz
  refine dyson_spectrum (bethe_isHilbert two_pos).isLatticeHilbert ((differentiableOn_const _).div (by fun_prop) hne) (fun z hz => ?_) ?_
  · have : ((U : ℂ) ^ 2 / (4 * z)) = ((U ^ 2 / 4 : ℝ) : ℂ) * z⁻¹ := by
      push_cast
      have := hne z hz
      field_simp
    rw [this, Complex.im_ofReal_mul, Complex.inv_im]
    exact mul_nonpos_of_nonneg_of_nonpos (by positivity) (div_nonpos_of_nonpos_of_nonneg (by linarith) (Complex.normSq_nonneg _))
  · refine bounded_over_imag (f := fun z => (U : ℂ) ^ 2 / (4 * z)) (r := U ^ 2) ?_
    filter_upwards [eventually_ge_atTop 1] with y hy
    have hy0 : 0 < y := by linarith
    rw [norm_div, norm_mul, imag_norm hy0]
    simp
    exact div_le_self (sq_nonneg U) (by linarith)

/-- A single level has a spectral distribution, its occupation is the Fermi function. -/
example (β μ : ℝ) : HasSpectrum (fun z => 1 / z) (Measure.dirac 0) ∧ occupation (Measure.dirac 0) β μ = fermi β (-μ) := by
  refine ⟨fun z _ => ?_, ?_⟩
  · simp [integral_dirac]
  · simp [occupation, integral_dirac]

end Gftool.Props
