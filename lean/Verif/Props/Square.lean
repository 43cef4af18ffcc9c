import Verif.Lemmas.SquareLaw
import Verif.Lemmas.Dispersion
import Verif.Props.BzMoments
import Verif.Props.Composite

/-!
# Square lattice (C61, C62), and the Lieb lattice based on it
-/

namespace Gftool.Props

open Gftool Model Spec Lemmas MeasureTheory

open scoped ENNReal

/-- The DOS with the exact elliptic integral `ellipkm1(p) = K(1 - p)`. -/
noncomputable abbrev squareDosK (e D : ℝ) : ℝ := squareDos (fun p => ellipKR (1 - p)) e D

/-- The Green's function with the exact elliptic integral. -/
noncomputable abbrev squareGfK (z : ℂ) (D : ℝ) : ℂ := squareGfZ ellipK z D

lemma measurable_squareDisp (D : ℝ) : Measurable (squareDisp D) := by
  unfold squareDisp
  have := Real.continuous_cos.measurable
  fun_prop

lemma measurable_ellipKR : Measurable ellipKR := by
  have h : StronglyMeasurable fun p : ℝ × ℝ => 1 / √(1 - p.1 * Real.sin p.2 ^ 2) := by
    apply Measurable.stronglyMeasurable
    have h1 : Measurable fun x : ℝ => √x := Real.continuous_sqrt.measurable
    have := Real.continuous_sin.measurable
    fun_prop
  have h2 := h.integral_prod_right' (ν := volume.restrict (Set.Ioc 0 (Real.pi / 2)))
  have : ellipKR = fun m : ℝ => ∫ θ in Set.Ioc 0 (Real.pi / 2), 1 / √(1 - m * Real.sin θ ^ 2) := by
    funext m
    unfold ellipKR
    rw [intervalIntegral.integral_of_le (by have := Real.pi_pos; linarith)]
  rw [this]
  exact h2.measurable

lemma ellipKR_nonneg (m : ℝ) : 0 ≤ ellipKR m := by
  unfold ellipKR
  apply intervalIntegral.integral_nonneg (by have := Real.pi_pos; linarith)
  intro θ _
  positivity

lemma map_squareDisp (D : ℝ) : bz2.map (squareDisp D) = bz2.map fun k => D * (Real.cos k.1 * Real.cos k.2) := by
  have hc := Real.continuous_cos.measurable
  have hD : Measurable fun x : ℝ => D * x := by fun_prop
  have h1 : squareDisp D = (fun x => D * x) ∘ fun k : ℝ × ℝ => (Real.cos k.1 + Real.cos k.2) / 2 := by
    funext k
    simp only [squareDisp, Function.comp]
    ring
  have h2 : (fun k : ℝ × ℝ => D * (Real.cos k.1 * Real.cos k.2))
      = (fun x => D * x) ∘ fun k : ℝ × ℝ => Real.cos k.1 * Real.cos k.2 := rfl
  rw [h1, h2, ← Measure.map_map hD (by fun_prop), ← Measure.map_map hD (by fun_prop), map_sum_bz2]

/-- C61: `square.dos` is the density of the energies of the square lattice dispersion
`ε(k) = D/2 (cos kx + cos ky)`. -/
theorem square_dos {D : ℝ} (hD : 0 < D) : IsDosOf bz2 (squareDisp D) (fun e => squareDosK e D) where
  measurable := by
    unfold squareDosK squareDos
    refine Measurable.ite ?_ ?_ measurable_const
    · exact measurableSet_le (continuous_abs.measurable.comp (by fun_prop)) measurable_const
    · have := measurable_ellipKR
      fun_prop
  nonneg e := by
    unfold squareDosK squareDos
    simp only
    have := ellipKR_nonneg (1 - (e / D) ^ 2)
    split_ifs <;> positivity
  density := by
    have hcos := Real.continuous_cos.measurable
    have hm : Measurable fun k : ℝ × ℝ => D * (Real.cos k.1 * Real.cos k.2) := by fun_prop
    rw [map_squareDisp]
    ext s hs
    set G : ℝ → ℝ≥0∞ := s.indicator 1 with hG
    have hGm : Measurable G := measurable_one.indicator hs
    rw [← lintegral_indicator_one hs, lintegral_map hGm hm, withDensity_apply _ hs, bz2,
      lintegral_prod (fun k : ℝ × ℝ => G (D * (Real.cos k.1 * Real.cos k.2))) (hGm.comp hm).aemeasurable]
    have h1 : ∫⁻ p, ∫⁻ q, G (D * (Real.cos p * Real.cos q)) ∂bz ∂bz
        = ∫⁻ p, ∫⁻ e, G e * ENNReal.ofReal (arcsineDensity (D * Real.cos p) e) ∂volume ∂bz := by
      refine lintegral_congr_ae (ae_cos_ne_zero.mono fun p hp => ?_)
      simp only
      rw [← lintegral_const_cos (mul_ne_zero hD.ne' hp) hGm]
      simp_rw [mul_assoc]
    have hmu : Measurable fun x : ℝ × ℝ => G x.2 * ENNReal.ofReal (arcsineDensity (D * Real.cos x.1) x.2) := by
      have h2 : Measurable fun x : ℝ × ℝ => arcsineDensity (D * Real.cos x.1) x.2 :=
        measurable_arcsineDensity.comp (by fun_prop : Measurable fun x : ℝ × ℝ => (D * Real.cos x.1, x.2))
      exact (hGm.comp measurable_snd).mul h2.ennreal_ofReal
    rw [h1, lintegral_lintegral_swap hmu.aemeasurable, ← lintegral_indicator hs]
    have hae : ∀ᵐ e : ℝ, e ≠ 0 ∧ e ≠ D ∧ e ≠ -D := by
      have hn : ∀ a : ℝ, ∀ᵐ e : ℝ, e ≠ a := fun a => by simp [ae_iff]
      filter_upwards [hn 0, hn D, hn (-D)] with e h1 h2 h3 using ⟨h1, h2, h3⟩
    refine lintegral_congr_ae (hae.mono fun e he => ?_)
    obtain ⟨h0, hp, hn⟩ := he
    simp only
    have h3 : Measurable fun x : ℝ => ENNReal.ofReal (arcsineDensity (D * Real.cos x) e) := by
      have h2 : Measurable fun x : ℝ => arcsineDensity (D * Real.cos x) e :=
        measurable_arcsineDensity.comp (by fun_prop : Measurable fun x : ℝ => (D * Real.cos x, e))
      exact h2.ennreal_ofReal
    rw [lintegral_const_mul _ h3]
    have hval : ∫⁻ p, ENNReal.ofReal (arcsineDensity (D * Real.cos p) e) ∂bz = ENNReal.ofReal (squareDosK e D) := by
      unfold squareDosK squareDos
      simp only
      by_cases hlt : |e| < D
      · rw [lintegral_arcsine hD h0 hlt, if_pos]
        rw [abs_div, abs_of_pos hD, div_le_one hD]
        exact hlt.le
      · have hgt : D < |e| := by
          rcases lt_or_eq_of_le (not_lt.1 hlt) with h | h
          · exact h
          · exfalso
            rcases abs_choice e with h' | h' <;> rw [h'] at h
            · exact hp h.symm
            · exact hn (by linarith)
        rw [if_neg, ENNReal.ofReal_zero, lintegral_eq_zero_iff h3]
        · refine Filter.Eventually.of_forall fun p => ?_
          simp only [Pi.zero_apply]
          rw [arcsineDensity, if_neg, ENNReal.ofReal_zero]
          rw [not_lt, abs_mul, abs_of_pos hD]
          nlinarith [Real.abs_cos_le_one p]
        · rw [abs_div, abs_of_pos hD, div_le_one hD]
          exact not_le.2 hgt
    rw [hval, hG]
    by_cases hes : e ∈ s <;> simp [hes]

/-- C61: the DOS vanishes outside of the band and is symmetric. -/
theorem square_dos_outside {D : ℝ} (hD : 0 < D) (ellipkm1 : ℝ → ℝ) {e : ℝ} (he : D < |e|) :
    squareDos ellipkm1 e D = 0 := by
  unfold squareDos
  simp only
  rw [if_neg]
  rw [abs_div, abs_of_pos hD, div_le_one hD]
  exact not_le.2 he

theorem square_dos_symm (ellipkm1 : ℝ → ℝ) (e D : ℝ) : squareDos ellipkm1 (-e) D = squareDos ellipkm1 e D := by
  simp [squareDos, neg_div]

lemma slit_cos {z : ℂ} {D : ℝ} (hz : OffBand z D) (hD : 0 < D) {x : ℝ} (hx : x ∈ Set.Icc (0 : ℝ) 1) :
    1 - (D / z : ℂ) ^ 2 * (x : ℂ) ∈ Complex.slitPlane := by
  rcases eq_or_lt_of_le hx.1 with h | h
  · rw [← h]
    simp
  · have hs : 0 < √x := Real.sqrt_pos.2 h
    have hs1 : √x ≤ 1 := by rw [Real.sqrt_le_one]; exact hx.2
    have h1 : OffBand z (D * √x) := fun e he => hz e (he.trans (by nlinarith))
    have h2 := h1.slit (by positivity)
    have e1 : (D / z : ℂ) ^ 2 * (x : ℂ) = (((D * √x : ℝ) : ℂ) / z) ^ 2 := by
      have : ((√x : ℝ) : ℂ) ^ 2 = x := by rw [← Complex.ofReal_pow, Real.sq_sqrt hx.1]
      push_cast
      rw [div_pow, div_pow, mul_pow, this]
      ring
    rwa [e1]

/-- One cosine is integrated. -/
lemma integral_one_cos {z : ℂ} {D : ℝ} (hz : OffBand z D) (hD : 0 < D) {x : ℝ} (hx : |x| ≤ 1) :
    ∫ q, 1 / (z - ((D * (x * Real.cos q) : ℝ) : ℂ)) ∂bz
      = 1 / (z * Complex.sqrt (1 - (D / z : ℂ) ^ 2 * ((x ^ 2 : ℝ) : ℂ))) := by
  have hz0 := hz.ne_zero hD
  rw [integral_cos_bz (f := fun y => 1 / (z - ((D * (x * y) : ℝ) : ℂ))) (by
    apply Measurable.stronglyMeasurable; fun_prop)]
  have hpi : (Real.pi : ℂ) ≠ 0 := by exact_mod_cast Real.pi_ne_zero
  rcases eq_or_ne x 0 with rfl | hx0
  · simp
  · have hc : ((D * x : ℝ) : ℂ) ≠ 0 := by exact_mod_cast mul_ne_zero hD.ne' hx0
    have hin : Inner (z / ((D * x : ℝ) : ℂ)) (Complex.sqrt (1 - (D / z : ℂ) ^ 2 * ((x ^ 2 : ℝ) : ℂ)))
        (z / ((D * x : ℝ) : ℂ) * (1 - Complex.sqrt (1 - (D / z : ℂ) ^ 2 * ((x ^ 2 : ℝ) : ℂ)))) :=
      { hs := by
          rw [sqrt_sq', one_div_div]
          push_cast
          ring
        hre := sqrt_re_pos (slit_cos hz hD ⟨sq_nonneg x, (sq_le_one_iff_abs_le_one x).2 hx⟩)
        hx := div_ne_zero hz0 hc
        hu := rfl }
    have hi := hin.integral.2
    have e1 : (fun φ : ℝ => 1 / (z - ((D * (x * Real.cos φ) : ℝ) : ℂ)))
        = fun φ : ℝ => (1 / ((D * x : ℝ) : ℂ)) * (1 / (z / ((D * x : ℝ) : ℂ) - Complex.cos φ)) := by
      funext φ
      rw [one_div_mul_one_div]
      congr 1
      rw [mul_sub, mul_div_cancel₀ _ hc]
      push_cast
      ring
    rw [e1, intervalIntegral.integral_const_mul, hi, Complex.real_smul]
    have hs := hin.s_ne
    push_cast at hc ⊢
    generalize Complex.sqrt _ = s at *
    have hDc : (D : ℂ) ≠ 0 := left_ne_zero_of_mul hc
    have hxc : (x : ℂ) ≠ 0 := right_ne_zero_of_mul hc
    field_simp

/-- C62: `square.gf_z` is the local Green's function of the square lattice dispersion, for all `z` off
the band. -/
theorem square_gf_z {z : ℂ} {D : ℝ} (hD : 0 < D) (hz : OffBand z D) :
    squareGfK z D = bzGreen bz2 (squareDisp D) z := by
  have hz0 := hz.ne_zero hD
  have hcosc := Real.continuous_cos
  have hcos := hcosc.measurable
  have hm : Measurable fun k : ℝ × ℝ => D * (Real.cos k.1 * Real.cos k.2) := by fun_prop
  have hf : StronglyMeasurable fun e : ℝ => 1 / (z - e) := by
    apply Measurable.stronglyMeasurable
    fun_prop
  unfold bzGreen
  rw [← integral_map (f := fun e : ℝ => 1 / (z - e)) (measurable_squareDisp D).aemeasurable hf.aestronglyMeasurable,
    map_squareDisp, integral_map hm.aemeasurable hf.aestronglyMeasurable]
  have hcos1 : ∀ k : ℝ × ℝ, |D * (Real.cos k.1 * Real.cos k.2)| ≤ D := by
    intro k
    rw [abs_mul, abs_mul, abs_of_pos hD]
    have h1 := Real.abs_cos_le_one k.1
    have h2 := Real.abs_cos_le_one k.2
    have := mul_le_one₀ h1 (abs_nonneg _) h2
    nlinarith
  have hcont : ContinuousOn (fun e : ℝ => 1 / (z - e)) (Set.Icc (-D) D) := by
    have := continuousOn_resolvent (z := z) (s := Set.Icc (-D) D) fun e he => hz e (abs_le.2 he)
    simpa [one_div] using this
  obtain ⟨C, hC⟩ := isCompact_Icc.exists_bound_of_continuousOn hcont
  have hint : Integrable (fun k : ℝ × ℝ => 1 / (z - ((D * (Real.cos k.1 * Real.cos k.2) : ℝ) : ℂ))) (bz.prod bz) := by
    refine Integrable.of_bound (hf.comp_measurable hm).aestronglyMeasurable C (Filter.Eventually.of_forall fun k => ?_)
    exact hC _ (abs_le.1 (hcos1 k))
  rw [bz2, integral_prod _ hint]
  simp only
  simp_rw [fun p => integral_one_cos hz hD (Real.abs_cos_le_one p)]
  have hsq : ContinuousOn (fun x : ℝ => 1 / (z * Complex.sqrt (1 - (D / z : ℂ) ^ 2 * (x : ℂ)))) (Set.Icc 0 1) := by
    intro x hx
    have hs := slit_cos hz hD hx
    have h1 : ContinuousAt (fun x : ℝ => Complex.sqrt (1 - (D / z : ℂ) ^ 2 * (x : ℂ))) x :=
      ContinuousAt.comp (f := fun x : ℝ => 1 - (D / z : ℂ) ^ 2 * (x : ℂ)) (continuousAt_sqrt hs) (by fun_prop)
    apply ContinuousAt.continuousWithinAt
    refine ContinuousAt.div continuousAt_const (continuousAt_const.mul h1) ?_
    refine mul_ne_zero hz0 fun h0 => ?_
    have := sqrt_re_pos hs
    rw [h0] at this
    simp at this
  have hmeas : StronglyMeasurable fun y : ℝ => 1 / (z * Complex.sqrt (1 - (D / z : ℂ) ^ 2 * ((y ^ 2 : ℝ) : ℂ))) := by
    apply Measurable.stronglyMeasurable
    unfold Complex.sqrt
    fun_prop
  rw [integral_cos_bz (f := fun y => 1 / (z * Complex.sqrt (1 - (D / z : ℂ) ^ 2 * ((y ^ 2 : ℝ) : ℂ)))) hmeas,
    intervalIntegral_even_cos (h := fun x : ℝ => 1 / (z * Complex.sqrt (1 - (D / z : ℂ) ^ 2 * (x : ℂ)))) hsq]
  unfold squareGfK squareGfZ ellipK
  simp only
  have e1 : ∀ θ : ℝ, 1 / (z * Complex.sqrt (1 - (D / z : ℂ) ^ 2 * ((Real.sin θ ^ 2 : ℝ) : ℂ)))
      = 1 / z * (1 / Complex.sqrt (1 - (D / z : ℂ) ^ 2 * Real.sin θ ^ 2)) := by
    intro θ
    rw [one_div_mul_one_div]
    push_cast
    rfl
  simp_rw [e1]
  rw [intervalIntegral.integral_const_mul, Complex.real_smul, Complex.real_smul]
  have hDc : (D : ℂ) ≠ 0 := by exact_mod_cast hD.ne'
  have hpi : (Real.pi : ℂ) ≠ 0 := by exact_mod_cast Real.pi_ne_zero
  push_cast
  field_simp

/-- C62: `square.gf_z` is the Hilbert transform of `square.dos`. -/
theorem square_hilbert {D : ℝ} (hD : 0 < D) :
    HilbertPair (fun e => squareDosK e D) (fun z => squareGfK z D) (-D) D 1 :=
  ((square_dos hD).hilbertPair (measurable_squareDisp D) fun _ he =>
    square_dos_outside hD _ (not_le.1 fun h => he (abs_le.1 h))).congr
    fun _ hz => square_gf_z hD fun e he => hz e (abs_le.1 he)

/-- C62: the same for any implementation of the elliptic integral which is correct off the cut `[1, ∞)`. -/
theorem square_gf_z_contract {ellipk : ℂ → ℂ} (hk : ∀ m : ℂ, 1 - m ∈ Complex.slitPlane → ellipk m = ellipK m)
    {z : ℂ} {D : ℝ} (hD : 0 < D) (hz : OffBand z D) :
    squareGfZ ellipk z D = bzGreen bz2 (squareDisp D) z ∧ squareHilbert ellipk z D = bzGreen bz2 (squareDisp D) z := by
  have h : squareGfZ ellipk z D = bzGreen bz2 (squareDisp D) z := by
    rw [← square_gf_z hD hz]
    unfold squareGfK squareGfZ
    simp only
    rw [hk _ (hz.slit hD)]
  exact ⟨h, h⟩

/-- C54: the moments of the dispersion are the moments of the DOS. -/
theorem square_moment_dos {D : ℝ} (hD : 0 < D) (m : ℕ) :
    ∫ e, e ^ m * squareDosK e D = bandMoment bz2 (squareDisp D) m := by
  have h := (square_dos hD).integral_smul (measurable_squareDisp D) (f := fun e : ℝ => e ^ m) (by
    apply Measurable.stronglyMeasurable; fun_prop)
  unfold bandMoment
  rw [← h]
  congr 1
  funext e
  rw [smul_eq_mul, mul_comm]

/-- C57: `square.dos_mp` and `square.dos` agree. -/
theorem square_dos_mp {D : ℝ} (hD : 0 < D) (e : ℝ) : squareDosMp ellipKR e D = squareDosK e D := by
  unfold squareDosMp squareDosK squareDos
  simp only
  have hiff : |e / D| ≤ 1 ↔ |e| ≤ D := by rw [abs_div, abs_of_pos hD, div_le_one hD]
  by_cases h : |e| ≤ D
  · rw [if_pos (hiff.2 h), if_neg (not_lt.2 h)]
    congr 1
    · field_simp
    · congr 1; ring
  · rw [if_neg fun h' => h (hiff.1 h'), if_pos (not_le.1 h)]

/-- C62: scaling of energies with the half-bandwidth. -/
theorem square_scaling (ellipkm1 : ℝ → ℝ) (ellipk : ℂ → ℂ) {s : ℝ} (hs : 0 < s) (e D : ℝ) (z : ℂ) :
    squareDos ellipkm1 (s * e) (s * D) = squareDos ellipkm1 e D / s ∧
    squareGfZ ellipk (s * z) (s * D : ℝ) = squareGfZ ellipk z D / s := by
  have hsc : (s : ℂ) ≠ 0 := by exact_mod_cast hs.ne'
  constructor
  · unfold squareDos
    simp only
    rw [mul_div_mul_left _ _ hs.ne']
    split_ifs
    · field_simp
    · simp
  · unfold squareGfZ
    simp only
    push_cast
    rw [mul_div_mul_left _ _ hsc]
    field_simp

/-- The derivative `∂²ε/∂kx²` of the dispersion entering the stress tensor. -/
lemma squareDisp_deriv2 (D ky kx : ℝ) :
    deriv (fun x => deriv (fun x => squareDisp D (x, ky)) x) kx = -(D / 2) * Real.cos kx := by
  have h1 : (fun x => deriv (fun x => squareDisp D (x, ky)) x) = fun x => -(D / 2) * Real.sin x := by
    funext x
    have h : HasDerivAt (fun x => squareDisp D (x, ky)) (D / 2 * -Real.sin x) x := by
      unfold squareDisp
      simp only
      exact ((Real.hasDerivAt_cos x).add_const _).const_mul _
    rw [h.deriv]
    ring
  rw [h1]
  exact ((Real.hasDerivAt_sin kx).const_mul _).deriv

/-- C62: `stress_trafo` is the transform of the stress tensor function `-ε DOS(ε)/2`. -/
theorem square_stress_trafo_dos {xi : ℂ} {D : ℝ} (hD : 0 < D) (hxi : OffBand xi D) :
    squareStressTrafo ellipK xi D = ∫ e, ((-(1 / 2) * e * squareDosK e D : ℝ) : ℂ) / (xi - e) := by
  have hp := square_hilbert hD
  have hoff : ∀ e ∈ Set.Icc (-D) D, xi ≠ (e : ℂ) := fun e he => hxi e (abs_le.2 he)
  have hi : Integrable fun e : ℝ => (squareDosK e D : ℂ) / (xi - e) := by
    have := hp.integrable_mul (continuousOn_resolvent (z := xi) hoff)
    simpa [div_eq_mul_inv, mul_comm] using this
  have hd : Integrable fun e : ℝ => (squareDosK e D : ℂ) := hp.integrable.ofReal
  have e1 : ∀ e : ℝ, ((-(1 / 2) * e * squareDosK e D : ℝ) : ℂ) / (xi - e)
      = -(1 / 2) * xi * ((squareDosK e D : ℂ) / (xi - e)) + 1 / 2 * (squareDosK e D : ℂ) := by
    intro e
    by_cases he : e ∈ Set.Icc (-D) D
    · have : xi - e ≠ 0 := sub_ne_zero.2 (hoff e he)
      push_cast
      field_simp
      ring
    · rw [show squareDosK e D = 0 from hp.outside e he]
      simp
  simp_rw [e1]
  rw [integral_add (hi.const_mul _) (hd.const_mul _), integral_const_mul, integral_const_mul, ← hp.hilbert xi hoff,
    integral_complex_ofReal, hp.norm]
  unfold squareStressTrafo
  push_cast
  ring

/-- C62: `stress_trafo` is the Brillouin zone average of `∂²ε/∂kx² / (ξ - ε)`. -/
theorem square_stress_trafo {xi : ℂ} {D : ℝ} (hD : 0 < D) (hxi : OffBand xi D) :
    squareStressTrafo ellipK xi D
      = ∫ k : ℝ × ℝ, ((deriv (fun x => deriv (fun x => squareDisp D (x, k.2)) x) k.1 : ℝ) : ℂ)
        / (xi - squareDisp D k) ∂bz2 := by
  simp_rw [squareDisp_deriv2]
  have hcos := Real.continuous_cos.measurable
  have hm := measurable_squareDisp D
  have hle : ∀ k, |squareDisp D k| ≤ D := by
    intro k
    unfold squareDisp
    rw [abs_le]
    have h1 := abs_le.1 (Real.abs_cos_le_one k.1)
    have h2 := abs_le.1 (Real.abs_cos_le_one k.2)
    constructor <;> nlinarith [h1.1, h1.2, h2.1, h2.2]
  have hcont := continuousOn_resolvent (z := xi) (s := Set.Icc (-D) D) fun e he => hxi e (abs_le.2 he)
  obtain ⟨C, hC⟩ := isCompact_Icc.exists_bound_of_continuousOn hcont
  have hC' : ∀ k, ‖(xi - squareDisp D k)⁻¹‖ ≤ C := fun k => hC _ (abs_le.1 (hle k))
  have hbase : ∀ {g : ℝ × ℝ → ℝ}, Measurable g → (∀ k, |g k| ≤ 1) →
      Integrable (fun k => (g k : ℂ) / (xi - squareDisp D k)) bz2 := by
    intro g hg hb
    refine Integrable.of_bound (Measurable.aestronglyMeasurable (by fun_prop)) C (Filter.Eventually.of_forall fun k => ?_)
    rw [div_eq_mul_inv, norm_mul, Complex.norm_real, Real.norm_eq_abs]
    have h0 := norm_nonneg (xi - squareDisp D k)⁻¹
    nlinarith [hb k, hC' k, abs_nonneg (g k)]
  have i1 := hbase (g := fun k => Real.cos k.1) (by fun_prop) fun k => Real.abs_cos_le_one _
  have i2 := hbase (g := fun k => Real.cos k.2) (by fun_prop) fun k => Real.abs_cos_le_one _
  have i0 := hbase (g := fun _ => 1) (by fun_prop) fun k => by simp
  -- symmetry of `kx` and `ky`
  have hsw : ∫ k : ℝ × ℝ, ((Real.cos k.1 : ℝ) : ℂ) / (xi - squareDisp D k) ∂bz2
      = ∫ k : ℝ × ℝ, ((Real.cos k.2 : ℝ) : ℂ) / (xi - squareDisp D k) ∂bz2 := by
    unfold bz2
    rw [← integral_prod_swap]
    congr 1
    funext k
    simp [squareDisp, add_comm]
  have hne : ∀ k, xi - squareDisp D k ≠ 0 := fun k => sub_ne_zero.2 (hxi _ (hle k))
  have hsum : ∫ k : ℝ × ℝ, ((Real.cos k.1 : ℝ) : ℂ) / (xi - squareDisp D k) ∂bz2
      + ∫ k : ℝ × ℝ, ((Real.cos k.2 : ℝ) : ℂ) / (xi - squareDisp D k) ∂bz2
      = 2 / D * (xi * squareGfK xi D - 1) := by
    rw [← integral_add i1 i2, square_gf_z hD hxi, bzGreen]
    have hDc : (D : ℂ) ≠ 0 := by exact_mod_cast hD.ne'
    have e2 : ∀ k : ℝ × ℝ, ((Real.cos k.1 : ℝ) : ℂ) / (xi - squareDisp D k)
        + ((Real.cos k.2 : ℝ) : ℂ) / (xi - squareDisp D k)
        = 2 / D * xi * (((1 : ℝ) : ℂ) / (xi - squareDisp D k)) - 2 / D := by
      intro k
      have h3 : ((Real.cos k.1 : ℝ) : ℂ) + ((Real.cos k.2 : ℝ) : ℂ) = 2 / D * (squareDisp D k : ℂ) := by
        unfold squareDisp
        push_cast
        field_simp
      rw [← add_div, h3]
      have := hne k
      generalize (squareDisp D k : ℂ) = ε at *
      push_cast
      field_simp
      ring
    simp_rw [e2]
    rw [integral_sub (i0.const_mul _) (integrable_const _), integral_const_mul, integral_const, probReal_univ, one_smul]
    push_cast
    ring
  have e3 : ∀ k : ℝ × ℝ, ((-(D / 2) * Real.cos k.1 : ℝ) : ℂ) / (xi - squareDisp D k)
      = -(D / 2) * (((Real.cos k.1 : ℝ) : ℂ) / (xi - squareDisp D k)) := by
    intro k
    push_cast
    ring
  simp_rw [e3]
  rw [integral_const_mul]
  rw [← hsw, ← two_mul] at hsum
  have h4 : ∫ k : ℝ × ℝ, ((Real.cos k.1 : ℝ) : ℂ) / (xi - squareDisp D k) ∂bz2
      = 1 / D * (xi * squareGfK xi D - 1) := by
    have : (2 : ℂ) ≠ 0 := two_ne_zero
    apply mul_left_cancel₀ this
    rw [hsum]
    ring
  rw [h4]
  have hDc : (D : ℂ) ≠ 0 := by exact_mod_cast hD.ne'
  unfold squareStressTrafo
  field_simp
  norm_num
  ring

/-! ## Lieb lattice -/

lemma square_dos_scale4 (e : ℝ) : squareDosK e 1 = 4 * squareDosK (4 * e) 4 := by
  have h := (square_scaling (fun p => ellipKR (1 - p)) ellipK (s := 4) (by norm_num) e 1 0).1
  rw [mul_one] at h
  change squareDosK (4 * e) 4 = squareDosK e 1 / 4 at h
  rw [h]
  ring

/-- C56: the Lieb lattice based on the square lattice. -/
theorem lieb_hilbert_square {D : ℝ} (hD : 0 < D) :
    HilbertPair (fun e => liebDos squareDosK e D) (fun z => liebGfZ squareGfK z D - (1 / 3) / z) (-D) D (2 / 3) :=
  lieb_hilbert (square_hilbert (by norm_num)) square_dos_scale4 hD

/-- C57: the multi-precision DOS of the Lieb lattice agrees with the DOS. -/
theorem lieb_dos_mp_square {D : ℝ} (hD : 0 < D) (e : ℝ) :
    liebDosMp (squareDosMp ellipKR) e D = liebDos squareDosK e D := by
  rw [← lieb_dos_mp square_dos_scale4 hD e]
  unfold liebDosMp
  simp only
  rw [square_dos_mp (by norm_num)]

example : OffBand Complex.I 2 := by
  intro e _ h
  have := congrArg Complex.im h
  simp at this

end Gftool.Props
