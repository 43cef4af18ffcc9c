import Verif.Lemmas.Lattice

/-!
# Bethe lattice and surface Green's function (C50, C51)
-/

namespace Gftool.Props

open Gftool Model Spec Lemmas
open Complex (I)
open Filter Topology

lemma bethe_gf_eq (z : ℂ) (D : ℝ) :
    betheGfZ z D = 2 / D * (z / D * (1 - Complex.sqrt (1 - (D / z : ℂ) ^ 2))) := by
  unfold betheGfZ
  simp only
  rw [show (z / D : ℂ) ^ (-2 : ℤ) = (D / z : ℂ) ^ 2 by
    rw [zpow_neg, ← inv_zpow, inv_div]; norm_cast, mul_assoc]

lemma sqrt_re_nonneg (x : ℂ) : 0 ≤ (Complex.sqrt x).re := by
  unfold Complex.sqrt
  rw [Complex.cpow_inv_two_re]
  exact Real.sqrt_nonneg _

/-- C51: the Green's function solves `(D/2)² G² - z G + 1 = 0`, everywhere (on the cut as well). -/
theorem bethe_quadratic {z : ℂ} {D : ℝ} (hD : D ≠ 0) (hz : z ≠ 0) :
    (D / 2 : ℂ) ^ 2 * betheGfZ z D ^ 2 - z * betheGfZ z D + 1 = 0 := by
  have hDc : (D : ℂ) ≠ 0 := by exact_mod_cast hD
  rw [bethe_gf_eq]
  have hs := sqrt_sq' (1 - (D / z : ℂ) ^ 2)
  generalize Complex.sqrt (1 - (D / z : ℂ) ^ 2) = s at *
  field_simp at hs ⊢
  linear_combination hs

example : (1 / 2 : ℂ) ^ 2 * betheGfZ (1 / 3) 1 ^ 2 - 1 / 3 * betheGfZ (1 / 3) 1 + 1 = 0 := by
  simpa using bethe_quadratic (z := 1 / 3) (D := 1) (by norm_num) (by norm_num)

/-- C51: `|G| < 2/D` off the cut. -/
theorem bethe_norm_lt {z : ℂ} {D : ℝ} (hD : 0 < D) (hz : OffBand z D) : ‖betheGfZ z D‖ < 2 / D := by
  have h := (hz.inner hD).norm_lt
  rw [bethe_gf_eq, norm_mul]
  have : ‖(2 / D : ℂ)‖ = 2 / D := by
    rw [norm_div, Complex.norm_real, Real.norm_of_nonneg hD.le]; norm_num
  rw [this]
  have h2 : 0 < 2 / D := by positivity
  nlinarith

/-- C51: `|G| ≤ 2/D` everywhere. -/
theorem bethe_norm_le {z : ℂ} {D : ℝ} (hD : 0 < D) (hz : z ≠ 0) : ‖betheGfZ z D‖ ≤ 2 / D := by
  have hDc : (D : ℂ) ≠ 0 := by exact_mod_cast hD.ne'
  rw [bethe_gf_eq, norm_mul]
  have : ‖(2 / D : ℂ)‖ = 2 / D := by
    rw [norm_div, Complex.norm_real, Real.norm_of_nonneg hD.le]; norm_num
  rw [this]
  have h2 : 0 < 2 / D := by positivity
  have hs := sqrt_sq' (1 - (D / z : ℂ) ^ 2)
  have hre := sqrt_re_nonneg (1 - (D / z : ℂ) ^ 2)
  generalize Complex.sqrt (1 - (D / z : ℂ) ^ 2) = s at *
  have hx : z / D ≠ 0 := div_ne_zero hz hDc
  have hmul : (z / D * (1 - s)) * (z / D * (1 + s)) = 1 := by
    field_simp at hs ⊢
    linear_combination -hs
  have h1 : ‖1 - s‖ ≤ ‖1 + s‖ := by
    apply le_of_sq_le_sq _ (norm_nonneg _)
    rw [← Complex.normSq_eq_norm_sq, ← Complex.normSq_eq_norm_sq, Complex.normSq_apply, Complex.normSq_apply]
    simp
    nlinarith
  have h3 : ‖z / D * (1 - s)‖ ≤ 1 := by
    have h4 := congrArg norm hmul
    rw [norm_mul, norm_one] at h4
    have h5 : ‖z / D * (1 - s)‖ ≤ ‖z / D * (1 + s)‖ := by
      rw [norm_mul, norm_mul]
      exact mul_le_mul_of_nonneg_left h1 (norm_nonneg _)
    nlinarith [norm_nonneg (z / D * (1 - s))]
  nlinarith

/-- C51: the retarded branch. -/
theorem bethe_im_neg {z : ℂ} {D : ℝ} (hD : 0 < D) (hz : 0 < z.im) : (betheGfZ z D).im < 0 := by
  have hoff := offBand_of_im hz.ne' D
  have hq := bethe_quadratic hD.ne' (hoff.ne_zero hD)
  have hn := bethe_norm_lt hD hoff
  set g := betheGfZ z D with hg
  have hg0 : g ≠ 0 := by
    intro h0
    rw [h0] at hq
    norm_num at hq
  -- z = (D/2)² g + 1/g
  have hzg : z = ((D / 2) ^ 2 : ℝ) * g + g⁻¹ := by
    push_cast
    field_simp at hq ⊢
    linear_combination -hq
  have him := congrArg Complex.im hzg
  rw [Complex.add_im, Complex.im_ofReal_mul, Complex.inv_im] at him
  have hns : 0 < Complex.normSq g := Complex.normSq_pos.2 hg0
  have hlt : Complex.normSq g * (D / 2) ^ 2 < 1 := by
    rw [Complex.normSq_eq_norm_sq]
    have : ‖g‖ * (D / 2) < 1 := by
      calc ‖g‖ * (D / 2) < 2 / D * (D / 2) := by
            apply mul_lt_mul_of_pos_right hn; positivity
        _ = 1 := by field_simp
    have h0 : 0 ≤ ‖g‖ * (D / 2) := by positivity
    nlinarith
  by_contra hc
  push Not at hc
  have h1 : (D / 2) ^ 2 * g.im + -g.im / Complex.normSq g ≤ 0 := by
    have : (D / 2) ^ 2 * g.im + -g.im / Complex.normSq g
        = (Complex.normSq g * (D / 2) ^ 2 - 1) * g.im / Complex.normSq g := by
      field_simp
      ring
    rw [this]
    apply div_nonpos_of_nonpos_of_nonneg _ hns.le
    nlinarith
  linarith

example : (betheGfZ (1 / 2 + I) 2).im < 0 := bethe_im_neg (by norm_num) (by norm_num)

/-- C51: `gf_z_inv` is a left inverse of `gf_z`, everywhere. -/
theorem bethe_inv_gf {z : ℂ} {D : ℝ} (hD : D ≠ 0) (hz : z ≠ 0) :
    betheGfZInv (betheGfZ z D) D = z := by
  have hq := bethe_quadratic hD hz
  unfold betheGfZInv
  set g := betheGfZ z D
  have hg0 : g ≠ 0 := by
    intro h0
    rw [h0] at hq
    norm_num at hq
  field_simp at hq ⊢
  norm_num
  linear_combination hq / 4

/-- C51: `gf_z_inv` maps the punctured disc `0 < |g| < 2/D` to the complement of the cut. -/
theorem bethe_inv_offBand {g : ℂ} {D : ℝ} (hD : 0 < D) (hg : g ≠ 0) (hn : ‖g‖ < 2 / D) :
    OffBand (betheGfZInv g D) D := by
  have hDc : (D : ℂ) ≠ 0 := by exact_mod_cast hD.ne'
  have hu : ‖(D / 2 * g : ℂ)‖ < 1 := by
    rw [norm_mul, norm_div, Complex.norm_real, Real.norm_of_nonneg hD.le]
    norm_num
    rw [lt_div_iff₀ hD] at hn
    linarith
  have h := inner_of_norm_lt hu (by simp [hDc, hg])
  intro e he heq
  refine h (e / D) ?_ ?_
  · rw [abs_div, abs_of_pos hD, div_le_one hD]
    exact he
  · push_cast
    rw [← heq]
    unfold betheGfZInv
    field_simp
    norm_num
    ring

/-- C51: `gf_z` is a left inverse of `gf_z_inv` on the punctured disc `0 < |g| < 2/D`, the image of the
complement of the cut. -/
theorem bethe_gf_inv {g : ℂ} {D : ℝ} (hD : 0 < D) (hg : g ≠ 0) (hn : ‖g‖ < 2 / D) :
    betheGfZ (betheGfZInv g D) D = g := by
  have hoff := bethe_inv_offBand hD hg hn
  have hz := hoff.ne_zero hD
  have hDc : (D : ℂ) ≠ 0 := by exact_mod_cast hD.ne'
  have hq := bethe_quadratic hD.ne' hz
  have hlt := bethe_norm_lt hD hoff
  set g' := betheGfZ (betheGfZInv g D) D with hg'
  have hinv : betheGfZInv g D = (D / 2) ^ 2 * g + 1 / g := by
    unfold betheGfZInv
    rw [show (0.5 * D : ℂ) = D / 2 by norm_num; ring]
  rw [hinv] at hq
  have hfac : (g' - g) * ((D / 2) ^ 2 * g' * g - 1) = 0 := by
    field_simp at hq ⊢
    linear_combination hq
  rcases mul_eq_zero.1 hfac with h | h
  · exact sub_eq_zero.1 h
  · exfalso
    have h1 : ((D / 2 : ℂ) * g') * (D / 2 * g) = 1 := by linear_combination h
    have h2 := congrArg norm h1
    rw [norm_mul, norm_one, norm_mul, norm_mul, norm_div, Complex.norm_real, Real.norm_of_nonneg hD.le] at h2
    norm_num at h2
    rw [lt_div_iff₀ hD] at hn hlt
    have h3 : D / 2 * ‖g'‖ < 1 := by linarith
    have h4 : D / 2 * ‖g‖ < 1 := by linarith
    have h5 : 0 ≤ D / 2 * ‖g‖ := by positivity
    have h6 : 0 ≤ D / 2 * ‖g'‖ := by positivity
    nlinarith

/-- C51: the image of the complement of the cut is the punctured disc. -/
theorem bethe_image {D : ℝ} (hD : 0 < D) :
    (fun z => betheGfZ z D) '' {z | OffBand z D} = {g | g ≠ 0 ∧ ‖g‖ < 2 / D} := by
  ext g
  constructor
  · rintro ⟨z, hz, rfl⟩
    refine ⟨?_, bethe_norm_lt hD hz⟩
    intro h0
    simp only at h0
    have := bethe_quadratic hD.ne' (Spec.OffBand.ne_zero hz hD)
    rw [h0] at this
    norm_num at this
  · rintro ⟨h0, hn⟩
    exact ⟨betheGfZInv g D, bethe_inv_offBand hD h0 hn, bethe_gf_inv hD h0 hn⟩

example : betheGfZ (betheGfZInv (I / 3) 2) 2 = I / 3 :=
  bethe_gf_inv (by norm_num) (by simp) (by rw [norm_div, Complex.norm_I]; norm_num)

lemma hasDerivAt_sqrt_band {z : ℂ} {D : ℝ} (hD : 0 < D) (hz : OffBand z D) :
    HasDerivAt (fun z => Complex.sqrt (1 - (D / z : ℂ) ^ 2))
      ((D : ℂ) ^ 2 / (z ^ 3 * Complex.sqrt (1 - (D / z : ℂ) ^ 2))) z := by
  have hz0 := hz.ne_zero hD
  have hs0 := (hz.inner hD).s_ne
  have d1 : HasDerivAt (fun z : ℂ => 1 - (D / z : ℂ) ^ 2) (2 * (D : ℂ) ^ 2 / z ^ 3) z := by
    have h := (((hasDerivAt_inv hz0).const_mul (D : ℂ)).pow 2).const_sub 1
    refine (h.congr_deriv ?_)
    norm_num
    field_simp
  have d2 := d1.cpow_const (c := 2⁻¹) (hz.slit hD)
  have e : (1 - (D / z : ℂ) ^ 2) ^ ((2 : ℂ)⁻¹ - 1) = 1 / Complex.sqrt (1 - (D / z : ℂ) ^ 2) := by
    have hne := Complex.slitPlane_ne_zero (hz.slit hD)
    unfold Complex.sqrt
    rw [show (2 : ℂ)⁻¹ - 1 = -2⁻¹ by norm_num, Complex.cpow_neg, one_div]
  refine (d2.congr_deriv ?_)
  rw [e]
  generalize Complex.sqrt (1 - (D / z : ℂ) ^ 2) = s at *
  field_simp

/-- C51: `gf_d1_z` is the derivative of `gf_z`. -/
theorem bethe_d1 {z : ℂ} {D : ℝ} (hD : 0 < D) (hz : OffBand z D) :
    HasDerivAt (fun z => betheGfZ z D) (betheGfD1Z z D) z := by
  have hz0 := hz.ne_zero hD
  have hDc : (D : ℂ) ≠ 0 := by exact_mod_cast hD.ne'
  have hs0 := (hz.inner hD).s_ne
  have d := (((hasDerivAt_id z).div_const (D : ℂ)).mul
    ((hasDerivAt_sqrt_band hD hz).const_sub 1)).const_mul (2 / D : ℂ)
  have e : (fun z => betheGfZ z D) = fun z => 2 / D * (z / D * (1 - Complex.sqrt (1 - (D / z : ℂ) ^ 2))) := by
    funext z; exact bethe_gf_eq z D
  rw [e]
  refine d.congr_deriv ?_
  unfold betheGfD1Z
  simp only [id]
  have hs := sqrt_sq' (1 - (D / z : ℂ) ^ 2)
  generalize Complex.sqrt (1 - (D / z : ℂ) ^ 2) = s at *
  field_simp at hs ⊢
  linear_combination -hs

/-- C51: `gf_d2_z` is the derivative of `gf_d1_z`, i.e. the second derivative of `gf_z`. -/
theorem bethe_d2 {z : ℂ} {D : ℝ} (hD : 0 < D) (hz : OffBand z D) :
    HasDerivAt (fun z => betheGfD1Z z D) (betheGfD2Z z D) z := by
  have hz0 := hz.ne_zero hD
  have hDc : (D : ℂ) ≠ 0 := by exact_mod_cast hD.ne'
  have hs0 := (hz.inner hD).s_ne
  have d := (((hasDerivAt_sqrt_band hD hz).inv hs0).const_sub 1).const_mul (2 / (D : ℂ) ^ 2)
  have e : (fun z => betheGfD1Z z D)
      = fun z => 2 / (D : ℂ) ^ 2 * (1 - (Complex.sqrt (1 - (D / z : ℂ) ^ 2))⁻¹) := by
    funext z; simp [betheGfD1Z]
  rw [e]
  refine d.congr_deriv ?_
  unfold betheGfD2Z
  simp only
  rw [show (z / D : ℂ) ^ (-2 : ℤ) = (D / z : ℂ) ^ 2 by
    rw [zpow_neg, ← inv_zpow, inv_div]; norm_cast]
  have hs := sqrt_sq' (1 - (D / z : ℂ) ^ 2)
  generalize Complex.sqrt (1 - (D / z : ℂ) ^ 2) = s at *
  have h1 : 1 - (z / D) ^ 2 = -(z / D) ^ 2 * s ^ 2 := by
    rw [hs]
    field_simp
    ring
  rw [h1]
  field_simp

example : HasDerivAt (fun z => betheGfZ z 1) (betheGfD1Z 2 1) 2 := by
  refine bethe_d1 (by norm_num) ?_
  intro e he h
  have : (2 : ℝ) = e := by exact_mod_cast h
  rw [← this] at he
  norm_num at he

/-! ## Surface Green's function (C50) -/

/-- C50: the Dyson equation of the semi-infinite chain. -/
theorem surface_gf_dyson {z : ℂ} {eps t : ℝ} (ht : 0 < t) (hz : OffBand (z - eps) (2 * t)) :
    surfaceGfZeps z eps t = 1 / (z - eps - (t : ℂ) ^ 2 * surfaceGfZeps z eps t) := by
  unfold surfaceGfZeps
  have hq := bethe_quadratic (D := 2 * t) (by positivity) (hz.ne_zero (by positivity))
  set g := betheGfZ (z - eps) (2 * t)
  have h1 : g * (z - eps - (t : ℂ) ^ 2 * g) = 1 := by
    push_cast at hq
    linear_combination -hq
  exact eq_one_div_of_mul_eq_one_left h1

/-- C50: the retarded branch. -/
theorem surface_gf_im_neg {z : ℂ} {eps t : ℝ} (ht : 0 < t) (hz : 0 < z.im) :
    (surfaceGfZeps z eps t).im < 0 :=
  bethe_im_neg (by positivity) (by simpa using hz)

/-- C50: the Green's function is bounded by `1/t`; this selects the solution of the Dyson equation. -/
theorem surface_gf_norm_lt {z : ℂ} {eps t : ℝ} (ht : 0 < t) (hz : OffBand (z - eps) (2 * t)) :
    ‖surfaceGfZeps z eps t‖ < 1 / t := by
  have := bethe_norm_lt (D := 2 * t) (by positivity) hz
  rwa [show 2 / (2 * t) = 1 / t by field_simp] at this

/-- C50: it is the only solution of the Dyson equation with modulus less than `1/t`. -/
theorem surface_gf_unique {z : ℂ} {eps t : ℝ} (ht : 0 < t) {g : ℂ}
    (hg : g * (z - eps - (t : ℂ) ^ 2 * g) = 1) (hn : ‖g‖ < 1 / t) : g = surfaceGfZeps z eps t := by
  have h0 : g ≠ 0 := left_ne_zero_of_mul_eq_one hg
  have hinv : betheGfZInv g (2 * t) = z - eps := by
    unfold betheGfZInv
    have : (0.5 * ((2 * t : ℝ) : ℂ)) ^ 2 = (t : ℂ) ^ 2 := by push_cast; norm_num; ring
    rw [this]
    field_simp
    linear_combination -hg
  have := bethe_gf_inv (D := 2 * t) (by positivity) h0 (by rwa [show 2 / (2 * t) = 1 / t by field_simp])
  rw [hinv] at this
  exact this.symm

lemma bethe_tail {D : ℝ} (hD : 0 < D) :
    Tendsto (fun z => z * betheGfZ z D) (Bornology.cobounded ℂ) (𝓝 1) := by
  have hDc : (D : ℂ) ≠ 0 := by exact_mod_cast hD.ne'
  have hinv : Tendsto (fun z : ℂ => (D / z : ℂ)) (Bornology.cobounded ℂ) (𝓝 0) := by
    have := (tendsto_inv₀_cobounded (α := ℂ)).const_mul (D : ℂ)
    simpa [div_eq_mul_inv] using this
  have hsq : Tendsto (fun z : ℂ => Complex.sqrt (1 - (D / z : ℂ) ^ 2)) (Bornology.cobounded ℂ) (𝓝 1) := by
    have h1 : Tendsto (fun z : ℂ => 1 - (D / z : ℂ) ^ 2) (Bornology.cobounded ℂ) (𝓝 1) := by
      simpa using (hinv.pow 2).const_sub 1
    have hc : ContinuousAt (fun x : ℂ => x ^ (2⁻¹ : ℂ)) 1 :=
      continuousAt_cpow_const (by simp)
    have := hc.tendsto.comp h1
    simpa [Complex.sqrt, Function.comp_def] using this
  have hlim : Tendsto (fun z : ℂ => 2 / (1 + Complex.sqrt (1 - (D / z : ℂ) ^ 2))) (Bornology.cobounded ℂ) (𝓝 1) := by
    have h3 := (hsq.const_add 1)
    have h4 := h3.inv₀ (by norm_num : (1 + 1 : ℂ) ≠ 0) |>.const_mul 2
    norm_num at h4
    simpa [div_eq_mul_inv] using h4
  refine hlim.congr' ?_
  filter_upwards [Bornology.eventually_ne_cobounded (0 : ℂ)] with z hz
  rw [bethe_gf_eq]
  have hs := sqrt_sq' (1 - (D / z : ℂ) ^ 2)
  have hre := sqrt_re_nonneg (1 - (D / z : ℂ) ^ 2)
  generalize Complex.sqrt (1 - (D / z : ℂ) ^ 2) = s at *
  have hne : 1 + s ≠ 0 := by
    intro h
    have := congrArg Complex.re h
    simp at this
    linarith
  field_simp at hs ⊢
  linear_combination hs

/-- C50: `z g(z) → 1` for `|z| → ∞`, in all directions of the complex plane. -/
theorem surface_gf_tail {eps t : ℝ} (ht : 0 < t) :
    Tendsto (fun z => z * surfaceGfZeps z eps t) (Bornology.cobounded ℂ) (𝓝 1) := by
  have hsub : Tendsto (fun z : ℂ => z - eps) (Bornology.cobounded ℂ) (Bornology.cobounded ℂ) := by
    have := tendsto_sub_const_cobounded (eps : ℂ)
    exact this
  have h1 := (bethe_tail (D := 2 * t) (by positivity)).comp hsub
  have h2 : Tendsto (fun z : ℂ => z / (z - eps)) (Bornology.cobounded ℂ) (𝓝 1) := by
    have h3 := ((tendsto_inv₀_cobounded (α := ℂ)).comp hsub).const_mul (eps : ℂ) |>.const_add 1
    simp only [mul_zero, add_zero] at h3
    refine h3.congr' ?_
    filter_upwards [Bornology.eventually_ne_cobounded (eps : ℂ)] with z hz
    have : z - eps ≠ 0 := sub_ne_zero.2 hz
    simp only [Function.comp]
    field_simp
    ring
  have h4 := h2.mul h1
  rw [mul_one] at h4
  refine h4.congr' ?_
  filter_upwards [Bornology.eventually_ne_cobounded (eps : ℂ)] with z hz
  have : z - eps ≠ 0 := sub_ne_zero.2 hz
  simp only [Function.comp, surfaceGfZeps]
  field_simp

/-- C51: `z G(z) → 1` for `|z| → ∞`. -/
theorem bethe_gf_tail {D : ℝ} (hD : 0 < D) :
    Tendsto (fun z => z * betheGfZ z D) (Bornology.cobounded ℂ) (𝓝 1) := bethe_tail hD

example : surfaceGfZeps (1 + I) 1 1 = 1 / (1 + I - (1 : ℝ) - ((1 : ℝ) : ℂ) ^ 2 * surfaceGfZeps (1 + I) 1 1) :=
  surface_gf_dyson one_pos (offBand_of_im (by simp) _)

end Gftool.Props
