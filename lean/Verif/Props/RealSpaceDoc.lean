import Verif.Props.RealSpace
import Verif.Props.BzMoments

/-!
# C64: documented hopping amplitudes

The documentation of the triangular, honeycomb and kagome lattice states a nearest-neighbour hopping which is twice the one of
the implemented Green's function, the one of the Lieb lattice states eight times the hopping.
-/

namespace Gftool.Props

open Gftool.Spec Gftool.Model Gftool.Lemmas MeasureTheory

/-- Scaling the energies changes the Green's function on the imaginary axis. -/
lemma lorentz_scale_ne {K : Type*} [MeasurableSpace K] {μ : Measure K} [IsProbabilityMeasure μ] {f : K → ℝ}
    (hf : Measurable f) (h0 : ¬ f =ᵐ[μ] 0) {c : ℝ} (hc : 1 < c) :
    (∫ k, 1 / (1 + f k ^ 2) ∂μ) ≠ ∫ k, 1 / (1 + (c * f k) ^ 2) ∂μ := by
  have hb : ∀ x : ℝ, 0 ≤ 1 / (1 + x ^ 2) ∧ 1 / (1 + x ^ 2) ≤ 1 := fun x => by
    refine ⟨by positivity, ?_⟩
    rw [div_le_one (by positivity)]
    nlinarith [sq_nonneg x]
  have hi : ∀ {g : K → ℝ}, Measurable g → Integrable (fun k => 1 / (1 + g k ^ 2)) μ := fun {g} hg =>
    Integrable.of_bound (Measurable.aestronglyMeasurable (by fun_prop)) 1 (Filter.Eventually.of_forall fun k => by
      rw [Real.norm_of_nonneg (hb _).1]
      exact (hb _).2)
  intro h
  have hi1 := hi hf
  have hi2 := hi (g := fun k => c * f k) (by fun_prop)
  have h1 : ∫ k, (1 / (1 + f k ^ 2) - 1 / (1 + (c * f k) ^ 2)) ∂μ = 0 := by
    rw [integral_sub hi1 hi2, h, sub_self]
  have hnn : ∀ k, 1 / (1 + f k ^ 2) - 1 / (1 + (c * f k) ^ 2)
      = (c ^ 2 - 1) * f k ^ 2 / ((1 + f k ^ 2) * (1 + (c * f k) ^ 2)) := fun k => by
    have h1 : 1 + f k ^ 2 ≠ 0 := by positivity
    have h2 : 1 + (c * f k) ^ 2 ≠ 0 := by positivity
    field_simp
    ring
  have hc2 : 0 < c ^ 2 - 1 := by nlinarith
  have hi3 : Integrable (fun k => 1 / (1 + f k ^ 2) - 1 / (1 + (c * f k) ^ 2)) μ := hi1.sub hi2
  rw [integral_eq_zero_iff_of_nonneg (fun k => by
    simp only [Pi.zero_apply]
    rw [hnn]
    positivity) hi3] at h1
  apply h0
  filter_upwards [h1] with k hk
  rw [hnn, Pi.zero_apply, div_eq_zero_iff] at hk
  rcases hk with hk | hk
  · rcases mul_eq_zero.1 hk with h | h
    · exact absurd h hc2.ne'
    · simpa using h
  · have : 0 < (1 + f k ^ 2) * (1 + (c * f k) ^ 2) := by positivity
    exact absurd hk this.ne'

lemma offBand_I (D : ℝ) : OffBand Complex.I D := fun e _ h => by simpa using congrArg Complex.im h

lemma green_I_im {K : Type*} [MeasurableSpace K] {μ : Measure K} [IsProbabilityMeasure μ] {f : K → ℝ}
    (hf : Measurable f) : (bzGreen μ f Complex.I).im = -∫ k, 1 / (1 + f k ^ 2) ∂μ := by
  have e : ∀ k, (1 / (Complex.I - f k)).im = -(1 / (1 + f k ^ 2)) := fun k => by
    rw [one_div, Complex.inv_im, Complex.normSq_apply]
    simp
    ring
  have hi : Integrable (fun k => 1 / (Complex.I - f k)) μ :=
    Integrable.of_bound (Measurable.aestronglyMeasurable (by fun_prop)) 1 (Filter.Eventually.of_forall fun k => by
      rw [norm_div, norm_one]
      have := Complex.abs_im_le_norm (Complex.I - f k)
      simp only [Complex.sub_im, Complex.I_im, Complex.ofReal_im, sub_zero, abs_one] at this
      rw [div_le_one (by linarith)]
      exact this)
  unfold bzGreen
  rw [← RCLike.im_eq_complex_im, ← integral_im hi, ← integral_neg]
  simp only [RCLike.im_eq_complex_im, e]

lemma triangularDisp_ne_zero {D : ℝ} (hD : 0 < D) : ¬ triangularDisp D =ᵐ[bz2] 0 := by
  intro h
  have h1 : bandMoment bz2 (triangularDisp D) 2 = 0 := by
    unfold bandMoment
    rw [integral_eq_zero_of_ae]
    filter_upwards [h] with k hk
    rw [hk]
    simp
  rw [triangular_bandMoment] at h1
  have h2 : triM 2 = 3 / 2 := by decide +kernel
  rw [h2] at h1
  have : (0 : ℝ) < (((4 / 9) ^ 2 * (3 / 2) : ℚ) : ℝ) * D ^ 2 := by
    push_cast
    positivity
  linarith

/-- C64: the documentation of `triangular` states the hopping `4D/9`, with this hopping the Green's function is a different
one. -/
theorem triangular_hopping_wrong {D : ℝ} (hD : 0 < D) (r : triangularLattice) {g : ℂ}
    (hg : triangularGfZ ellipKUp Complex.I D = some g) :
    ¬ LocalGreen (sublatticeHopping triangularLattice triangularOffs (4 * D / 9)) r Complex.I g := by
  have hoff : ∀ a b : ℝ, ∀ e ∈ Set.Icc a b, Complex.I ≠ (e : ℂ) := fun a b e _ h => by simpa using congrArg Complex.im h
  rw [triangular_gf_z_up hD (hoff _ _) (by intro h; simpa using congrArg Complex.im h)] at hg
  intro h
  have h2 := triangular_localGreen (D := 2 * D) (by positivity) (hoff _ _) r
  rw [show 2 * (2 * D) / 9 = 4 * D / 9 by ring] at h2
  have h3 := congrArg Complex.im (LocalGreen.unique h h2)
  rw [← Option.some.inj hg, green_I_im (measurable_triangularDisp D), green_I_im (measurable_triangularDisp _)] at h3
  refine lorentz_scale_ne (measurable_triangularDisp D) (triangularDisp_ne_zero hD) one_lt_two ?_
  have e : ∀ k, triangularDisp (2 * D) k = 2 * triangularDisp D k := fun k => by
    unfold triangularDisp
    ring
  simp only [e] at h3
  linarith

/-- The Green's function of the honeycomb lattice at `i`. -/
lemma honeycomb_I_im {D : ℝ} (hD : 0 < D) : (∫ k, Complex.I / (Complex.I ^ 2 - (D / 3 : ℂ) ^ 2 * (3 + 2 * (triSum k : ℂ))) ∂bz2)
    = -(Complex.I * ((∫ k, 1 / (1 + (D / 3 * √(3 + 2 * triSum k)) ^ 2) ∂bz2 : ℝ) : ℂ)) := by
  rw [← integral_complex_ofReal, ← integral_const_mul, ← integral_neg]
  congr 1
  funext k
  have h0 : 0 ≤ 3 + 2 * triSum k := by linarith [(triSum_mem k).1]
  have h1 : (1 + (D / 3) ^ 2 * (3 + 2 * triSum k) : ℝ) ≠ 0 := by positivity
  have h2 : (1 + (D / 3) ^ 2 * (3 + 2 * triSum k) : ℂ) ≠ 0 := by exact_mod_cast h1
  rw [mul_pow, Real.sq_sqrt h0, Complex.I_sq]
  push_cast
  have e : (-1 - (D / 3 : ℂ) ^ 2 * (3 + 2 * (triSum k : ℂ))) = -(1 + (D / 3) ^ 2 * (3 + 2 * triSum k)) := by ring
  rw [e, div_neg, mul_one_div]

lemma triSum_sqrt_ne {D : ℝ} (hD : 0 < D) : ¬ (fun k => D / 3 * √(3 + 2 * triSum k)) =ᵐ[bz2] 0 := by
  intro h
  have h1 : ∫ k, (3 + 2 * triSum k) ∂bz2 = 0 := by
    rw [integral_eq_zero_of_ae]
    filter_upwards [h] with k hk
    have h0 : 0 ≤ 3 + 2 * triSum k := by linarith [(triSum_mem k).1]
    have : √(3 + 2 * triSum k) = 0 := by
      simpa [hD.ne'] using hk
    simpa using (Real.sqrt_eq_zero h0).1 this
  have h2 : ∫ k, triSum k ∂bz2 = 0 := by
    have h := triangular_bandMoment (9 / 4) 1
    have h3 : triM 1 = 0 := by decide +kernel
    rw [h3] at h
    unfold bandMoment at h
    simp only [pow_one, mul_zero, Rat.cast_zero, zero_mul] at h
    rw [← h]
    congr 1
    funext k
    unfold triangularDisp triSum
    ring
  have hi : Integrable triSum bz2 :=
    Integrable.of_bound measurable_triSum.aestronglyMeasurable 3 (Filter.Eventually.of_forall fun k => by
      rw [Real.norm_eq_abs, abs_le]
      have := triSum_mem k
      constructor <;> linarith [this.1, this.2])
  rw [integral_add (integrable_const _) (hi.const_mul 2), integral_const_mul, h2] at h1
  simp at h1

/-- C64: the documentation of `honeycomb` states the hopping `2D/3`, with this hopping the Green's function is a different
one. -/
theorem honeycomb_hopping_wrong {D : ℝ} (hD : 0 < D) (r : (ℤ × ℤ) × Fin 2) :
    ¬ LocalGreen (crystalHopping honeycombBonds (2 * D / 3)) r Complex.I
      (honeycombGfZ (fun z D => (triangularGfZ ellipKUp z D).getD 0) Complex.I D) := by
  intro h
  have h1 := honeycomb_real_space_up hD (offBand_I D) r
  have h2 := LocalGreen.unique h1 (honeycomb_localGreen hD (offBand_I D) r)
  rw [h2] at h
  have h3 := LocalGreen.unique h (honeycomb_localGreen (D := 2 * D) (by positivity) (offBand_I _) r)
  rw [honeycomb_I_im hD, honeycomb_I_im (by positivity), neg_inj, mul_right_inj' Complex.I_ne_zero] at h3
  have h4 := Complex.ofReal_injective h3
  have hm := measurable_triSum
  refine lorentz_scale_ne (f := fun k => D / 3 * √(3 + 2 * triSum k)) (by fun_prop) (triSum_sqrt_ne hD) one_lt_two ?_
  rw [h4]
  congr 1
  funext k
  congr 3
  ring

/-- The Green's function of the kagome lattice at `i`. -/
lemma kagome_I_im {D : ℝ} (hD : 0 < D) : (1 / (3 * Complex.I + 2 * D) + 2 / 3 *
      ∫ k, (Complex.I - D / 3) / ((Complex.I - D / 3) ^ 2 - (D / 3 : ℂ) ^ 2 * (3 + 2 * (triSum k : ℂ))) ∂bz2).im
    = -(1 / 3 * (1 / (1 + (2 * D / 3) ^ 2)) + 1 / 3 * ∫ k, (1 / (1 + (D / 3 * (1 + √(3 + 2 * triSum k))) ^ 2)
      + 1 / (1 + (D / 3 * (1 - √(3 + 2 * triSum k))) ^ 2)) ∂bz2) := by
  have hz : OffBand (Complex.I - D / 3) D := fun e _ h => by
    have := congrArg Complex.im h
    rw [← Complex.ofReal_ofNat, ← Complex.ofReal_div] at this
    simp at this
  obtain ⟨c, hc, hcz⟩ := honeycomb_den hD hz
  have hint : Integrable (fun k => (Complex.I - D / 3) / ((Complex.I - D / 3) ^ 2
      - (D / 3 : ℂ) ^ 2 * (3 + 2 * (triSum k : ℂ)))) bz2 := by
    have := measurable_triSum
    refine Integrable.of_bound (Measurable.aestronglyMeasurable (by fun_prop)) (‖Complex.I - D / 3‖ / c)
      (Filter.Eventually.of_forall fun k => ?_)
    rw [norm_div]
    exact div_le_div_of_nonneg_left (norm_nonneg _) hc (hcz k)
  have key : ∀ x : ℝ, (1 / (Complex.I - x)).im = -(1 / (1 + x ^ 2)) := fun x => by
    rw [one_div, Complex.inv_im, Complex.normSq_apply]
    simp
    ring
  have hne : ∀ x : ℝ, Complex.I - x ≠ 0 := fun x h => by simpa using congrArg Complex.im h
  have h1 : (1 / (3 * Complex.I + 2 * D) : ℂ).im = -(1 / 3 * (1 / (1 + (2 * D / 3) ^ 2))) := by
    have e : (1 / (3 * Complex.I + 2 * D) : ℂ) = ((1 / 3 : ℝ) : ℂ) * (1 / (Complex.I - ((-(2 * D / 3) : ℝ) : ℂ))) := by
      have h2 := hne (-(2 * D / 3))
      have e2 : (3 * Complex.I + 2 * D : ℂ) = 3 * (Complex.I - ((-(2 * D / 3) : ℝ) : ℂ)) := by
        push_cast
        ring
      rw [e2]
      generalize (Complex.I - ((-(2 * D / 3) : ℝ) : ℂ)) = w at *
      push_cast
      field_simp
    rw [e, Complex.im_ofReal_mul, key]
    ring
  have h2 : ∀ k, ((Complex.I - D / 3) / ((Complex.I - D / 3) ^ 2 - (D / 3 : ℂ) ^ 2 * (3 + 2 * (triSum k : ℂ)))).im
      = -(1 / 2 * (1 / (1 + (D / 3 * (1 + √(3 + 2 * triSum k))) ^ 2) + 1 / (1 + (D / 3 * (1 - √(3 + 2 * triSum k))) ^ 2))) := by
    intro k
    have h0 : 0 ≤ 3 + 2 * triSum k := by linarith [(triSum_mem k).1]
    have hw : ((√(3 + 2 * triSum k) : ℝ) : ℂ) ^ 2 = 3 + 2 * (triSum k : ℂ) := by
      have := Real.sq_sqrt h0
      exact_mod_cast this
    have n1 := hne (D / 3 * (1 + √(3 + 2 * triSum k)))
    have n2 := hne (D / 3 * (1 - √(3 + 2 * triSum k)))
    have e : (Complex.I - D / 3) / ((Complex.I - D / 3) ^ 2 - (D / 3 : ℂ) ^ 2 * (3 + 2 * (triSum k : ℂ)))
        = ((1 / 2 : ℝ) : ℂ) * (1 / (Complex.I - ((D / 3 * (1 + √(3 + 2 * triSum k)) : ℝ) : ℂ))
          + 1 / (Complex.I - ((D / 3 * (1 - √(3 + 2 * triSum k)) : ℝ) : ℂ))) := by
      have e2 : (Complex.I - D / 3) ^ 2 - (D / 3 : ℂ) ^ 2 * (3 + 2 * (triSum k : ℂ))
          = (Complex.I - ((D / 3 * (1 + √(3 + 2 * triSum k)) : ℝ) : ℂ)) * (Complex.I - ((D / 3 * (1 - √(3 + 2 * triSum k)) : ℝ) : ℂ)) := by
        rw [← hw]
        push_cast
        ring
      have e3 : Complex.I - D / 3 = ((Complex.I - ((D / 3 * (1 + √(3 + 2 * triSum k)) : ℝ) : ℂ))
          + (Complex.I - ((D / 3 * (1 - √(3 + 2 * triSum k)) : ℝ) : ℂ))) / 2 := by
        push_cast
        ring
      rw [e2, e3]
      generalize (Complex.I - ((D / 3 * (1 + √(3 + 2 * triSum k)) : ℝ) : ℂ)) = p at *
      generalize (Complex.I - ((D / 3 * (1 - √(3 + 2 * triSum k)) : ℝ) : ℂ)) = q at *
      push_cast
      field_simp
      ring
    rw [e, Complex.im_ofReal_mul, Complex.add_im, key, key]
    ring
  have h3 : (∫ k, (Complex.I - D / 3) / ((Complex.I - D / 3) ^ 2 - (D / 3 : ℂ) ^ 2 * (3 + 2 * (triSum k : ℂ))) ∂bz2).im
      = -(1 / 2 * ∫ k, (1 / (1 + (D / 3 * (1 + √(3 + 2 * triSum k))) ^ 2)
      + 1 / (1 + (D / 3 * (1 - √(3 + 2 * triSum k))) ^ 2)) ∂bz2) := by
    rw [← RCLike.im_eq_complex_im, ← integral_im hint, ← integral_const_mul, ← integral_neg]
    simp only [RCLike.im_eq_complex_im, h2]
  have e23 : (2 / 3 : ℂ) = ((2 / 3 : ℝ) : ℂ) := by push_cast; rfl
  rw [Complex.add_im, h1, e23, Complex.im_ofReal_mul, h3]
  ring

/-- C64: the documentation of `kagome` states the hopping `2D/3`, with this hopping the Green's function is a different
one. -/
theorem kagome_hopping_wrong {D : ℝ} (hD : 0 < D) (r : (ℤ × ℤ) × Fin 3) :
    ¬ LocalGreen (crystalHopping kagomeBonds (2 * D / 3)) r Complex.I
      (kagomeGfZ (fun z D => (triangularGfZ ellipKUp z D).getD 0) Complex.I D) := by
  intro h
  have hoff : ∀ D : ℝ, ∀ e ∈ Set.Icc (-(2 / 3 * D)) (4 / 3 * D), Complex.I ≠ (e : ℂ) := fun D e _ h => by
    simpa using congrArg Complex.im h
  have hloc : ∀ {D : ℝ}, 0 < D → _ := fun {D} hD =>
    kagome_localGreen hD (kagome_off hD (hoff D)).1 (kagome_off hD (hoff D)).2 r
  rw [LocalGreen.unique (kagome_real_space_up hD (hoff D) r) (hloc hD)] at h
  have h2D : 0 < 2 * D := by positivity
  have h3 := congrArg Complex.im (LocalGreen.unique h (hloc h2D))
  rw [kagome_I_im hD, kagome_I_im h2D, neg_inj] at h3
  have hm := measurable_triSum
  have hF : ∀ x : ℝ, 1 / (1 + (2 * x) ^ 2) ≤ 1 / (1 + x ^ 2) := fun x =>
    one_div_le_one_div_of_le (by positivity) (by nlinarith [sq_nonneg x])
  have hF1 : ∀ x : ℝ, ‖1 / (1 + x ^ 2)‖ ≤ 1 := fun x => by
    rw [Real.norm_of_nonneg (by positivity), div_le_one (by positivity)]
    nlinarith [sq_nonneg x]
  have hi : ∀ D : ℝ, Integrable (fun k => 1 / (1 + (D / 3 * (1 + √(3 + 2 * triSum k))) ^ 2)
      + 1 / (1 + (D / 3 * (1 - √(3 + 2 * triSum k))) ^ 2)) bz2 := fun D =>
    Integrable.of_bound (Measurable.aestronglyMeasurable (by fun_prop)) (1 + 1) (Filter.Eventually.of_forall fun k =>
      (norm_add_le _ _).trans (add_le_add (hF1 _) (hF1 _)))
  have hle : (∫ k, (1 / (1 + (2 * D / 3 * (1 + √(3 + 2 * triSum k))) ^ 2)
      + 1 / (1 + (2 * D / 3 * (1 - √(3 + 2 * triSum k))) ^ 2)) ∂bz2) ≤ ∫ k, (1 / (1 + (D / 3 * (1 + √(3 + 2 * triSum k))) ^ 2)
      + 1 / (1 + (D / 3 * (1 - √(3 + 2 * triSum k))) ^ 2)) ∂bz2 := by
    refine integral_mono (hi (2 * D)) (hi D) fun k => ?_
    have e1 := hF (D / 3 * (1 + √(3 + 2 * triSum k)))
    have e2 := hF (D / 3 * (1 - √(3 + 2 * triSum k)))
    simp only
    rw [show 2 * D / 3 * (1 + √(3 + 2 * triSum k)) = 2 * (D / 3 * (1 + √(3 + 2 * triSum k))) by ring,
      show 2 * D / 3 * (1 - √(3 + 2 * triSum k)) = 2 * (D / 3 * (1 - √(3 + 2 * triSum k))) by ring]
    exact add_le_add e1 e2
  have hlt : 1 / (1 + (2 * (2 * D) / 3) ^ 2) < 1 / (1 + (2 * D / 3) ^ 2) :=
    one_div_lt_one_div_of_lt (by positivity) (by nlinarith [sq_pos_of_pos hD])
  linarith

end Gftool.Props
