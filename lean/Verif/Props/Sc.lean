import Verif.Lemmas.ScGreen
import Verif.Model.Sc

/-!
# Simple cubic lattice (C57, C61, C62)
-/

namespace Gftool.Props

open Gftool Model Spec Lemmas MeasureTheory ComplexConjugate

open scoped ENNReal Topology

/-- The imaginary part of a Green's function in the upper half-plane. -/
lemma bzGreen_im_nonpos {κ : Type*} [MeasurableSpace κ] {μ : Measure κ} [IsProbabilityMeasure μ] {disp : κ → ℝ}
    (hm : Measurable disp) {z : ℂ} (hz : 0 < z.im) : (bzGreen μ disp z).im ≤ 0 := by
  have hint : Integrable (fun k => 1 / (z - (disp k : ℂ))) μ := by
    refine Integrable.of_bound (C := 1 / z.im) (by apply Measurable.aestronglyMeasurable; fun_prop) (.of_forall fun k => ?_)
    rw [norm_div, norm_one]
    apply one_div_le_one_div_of_le hz
    refine le_trans (le_of_eq ?_) (Complex.im_le_norm _)
    simp
  unfold bzGreen
  have : (∫ k, 1 / (z - (disp k : ℂ)) ∂μ).im = ∫ k, (1 / (z - (disp k : ℂ))).im ∂μ := (integral_im hint).symm
  rw [this]
  refine integral_nonpos fun k => ?_
  simp only [one_div, Complex.inv_im, Complex.sub_im, Complex.ofReal_im, sub_zero]
  exact div_nonpos_of_nonpos_of_nonneg (by linarith) (Complex.normSq_nonneg _)

lemma sc_xi_sq (u : ℂ) :
    (Complex.sqrt (1 - Complex.sqrt (1 - u)) / Complex.sqrt (1 + Complex.sqrt (1 - 9 * u))) ^ 2 = scEta u := by
  rw [div_pow, sqrt_sq', sqrt_sq', scEta]

/-- The elliptic integral of the code. -/
lemma sc_core {ellipk : ℂ → ℂ} (hk : ∀ m : ℂ, 1 - m ∈ Complex.slitPlane → ellipk m = ellipK m) {ξ : ℂ} (h : ScReg ξ) :
    ellipk (16 * ξ ^ 3 * (1 / ((1 - ξ) ^ 3 * (1 + 3 * ξ)))) = ellipK (1 - scH ξ) := by
  have hd : (1 - ξ) ^ 3 * (1 + 3 * ξ) ≠ 0 := mul_ne_zero (pow_ne_zero 3 h.one_sub) h.one_add3
  have e : 16 * ξ ^ 3 * (1 / ((1 - ξ) ^ 3 * (1 + 3 * ξ))) = 1 - scH ξ := by
    unfold scH
    rw [mul_one_div, div_eq_iff hd, sub_mul, div_mul_cancel₀ _ hd]
    ring
  rw [e, hk]
  rw [sub_sub_cancel]
  exact h.slit

lemma scGfZ_eq {ellipk : ℂ → ℂ} (hk : ∀ m : ℂ, 1 - m ∈ Complex.slitPlane → ellipk m = ellipK m) (z : ℂ) (D : ℝ) :
    scGfZ ellipk z D = 3 / D * scForm (3 / D * z) := by
  unfold scGfZ
  simp only
  have h1 : (3 / (D : ℂ) * z) ^ (-2 : ℤ) = 1 / (3 / (D : ℂ) * z) ^ 2 := by
    rw [zpow_neg, one_div]
    norm_cast
  rw [h1]
  generalize 3 / (D : ℂ) * z = Z
  have hx := sc_xi_sq (1 / Z ^ 2)
  rw [scForm_of hx, sc_core hk (scReg_of_eta hx), scR]
  ring

lemma scGfZMp_eq {ellipk : ℂ → ℂ} (hk : ∀ m : ℂ, 1 - m ∈ Complex.slitPlane → ellipk m = ellipK m) (z : ℂ) (D : ℝ) :
    scGfZMp ellipk z D = 3 / D * scForm (3 / D * z) := by
  unfold scGfZMp
  simp only
  generalize 3 / (D : ℂ) * z = Z
  have hx := sc_xi_sq (1 / Z ^ 2)
  have h := sc_core hk (scReg_of_eta hx)
  rw [mul_one_div] at h
  rw [scForm_of hx, h, scR]
  ring

/-- C62: `sc.gf_z`, `sc.hilbert_transform` and `sc.gf_z_mp` are the local Green's function of the dispersion
`ε(k) = D/3 (cos kx + cos ky + cos kz)` for all energies off the band. -/
theorem sc_gf_z {ellipk : ℂ → ℂ} (hk : EllipkContract ellipk) {D : ℝ} (hD : 0 < D) {z : ℂ} (hz : OffBand z D) :
    scGfZ ellipk z D = bzGreen bz3 (scDisp D) z ∧ scHilbert ellipk z D = bzGreen bz3 (scDisp D) z ∧
    scGfZMp ellipk z D = bzGreen bz3 (scDisp D) z := by
  have h : scGfZ ellipk z D = bzGreen bz3 (scDisp D) z := by
    rw [scGfZ_eq hk.off, sc_green hD hz]
  exact ⟨h, h, by rw [scGfZMp_eq hk.off, sc_green hD hz]⟩

/-- C57: `sc.gf_z_mp` and `sc.gf_z` are the same function, for all complex energies. -/
theorem sc_gf_z_mp {ellipk : ℂ → ℂ} (hk : EllipkContract ellipk) (z : ℂ) (D : ℝ) :
    scGfZMp ellipk z D = scGfZ ellipk z D := by
  rw [scGfZMp_eq hk.off, scGfZ_eq hk.off]

/-! ### Boundary values -/

/-- The auxiliary variable with boundary values from above for positive energies. -/
noncomputable def scXiU (z : ℂ) : ℂ :=
  Complex.sqrt (1 - sqrtU (1 - 1 / z ^ 2)) / Complex.sqrt (1 + sqrtU (1 - 9 * (1 / z ^ 2)))

/-- Boundary values from above for positive energies. -/
noncomputable def scHb (z : ℂ) : ℂ := scR (scXiU z) / z

lemma sc_inv_im {z : ℂ} : (1 / z ^ 2).im = -(2 * z.re * z.im / Complex.normSq z ^ 2) := by
  rw [one_div, Complex.inv_im, map_pow, pow_two z, Complex.mul_im]
  ring

lemma scRootsU {z : ℂ} (hr : 0 < z.re) (hi : 0 ≤ z.im) :
    ScRoots (1 / z ^ 2) (sqrtU (1 - 1 / z ^ 2)) (sqrtU (1 - 9 * (1 / z ^ 2))) := by
  have h0 : (1 / z ^ 2).im ≤ 0 := by
    rw [sc_inv_im]
    have : 0 ≤ 2 * z.re * z.im / Complex.normSq z ^ 2 := by positivity
    linarith
  refine ⟨sqrtU_sq ?_, sqrtU_sq ?_, sqrtU_re_nonneg _, sqrtU_re_nonneg _⟩
  · rw [Complex.sub_im, Complex.one_im]
    linarith
  · rw [Complex.sub_im, Complex.one_im, show (9 : ℂ) = ((9 : ℝ) : ℂ) by norm_num, Complex.im_ofReal_mul]
    linarith

lemma scXiU_sq {z : ℂ} : scXiU z ^ 2 * (1 + sqrtU (1 - 9 * (1 / z ^ 2))) = 1 - sqrtU (1 - 1 / z ^ 2) := by
  unfold scXiU
  rw [div_pow, sqrt_sq', sqrt_sq', div_mul_cancel₀ _ (one_add_ne (sqrtU_re_nonneg _))]

lemma sc_one_sub_slit {z : ℂ} (hr : 0 < z.re) (hi : 0 ≤ z.im) : 1 - sqrtU (1 - 1 / z ^ 2) ∈ Complex.slitPlane := by
  have hz0 : z ≠ 0 := fun h => by simp [h] at hr
  have hs := (scRootsU hr hi).s_sq
  set s := sqrtU (1 - 1 / z ^ 2) with hsd
  by_contra h
  rw [Complex.mem_slitPlane_iff, not_or, not_lt, not_not, Complex.sub_re, Complex.sub_im, Complex.one_re, Complex.one_im] at h
  have hsr : s = ((s.re : ℝ) : ℂ) := Complex.ext rfl (by rw [Complex.ofReal_im]; linarith [h.2])
  set p := s.re with hp
  have hp1 : 1 ≤ p := by linarith [h.1]
  have h1 : (1 : ℂ) / z ^ 2 = ((1 - p ^ 2 : ℝ) : ℂ) := by
    push_cast
    rw [← hsr, hs]
    ring
  have h2 : z ^ 2 * ((1 - p ^ 2 : ℝ) : ℂ) = 1 := by
    rw [← h1]
    field_simp
  have him := congrArg Complex.im h2
  have hre := congrArg Complex.re h2
  rw [Complex.im_mul_ofReal, pow_two z, Complex.mul_im, Complex.one_im] at him
  rw [Complex.re_mul_ofReal, pow_two z, Complex.mul_re, Complex.one_re] at hre
  have hq : 1 - p ^ 2 ≠ 0 := by
    intro h0
    rw [h0] at hre
    simp at hre
  have hq' : 1 - p ^ 2 < 0 := lt_of_le_of_ne (by nlinarith) hq
  have hi0 : z.im = 0 := by
    rcases mul_eq_zero.1 him with h' | h'
    · have : z.re * z.im = 0 := by linarith
      rcases mul_eq_zero.1 this with h'' | h''
      · exact absurd h'' hr.ne'
      · exact h''
    · exact absurd h' hq
  rw [hi0] at hre
  nlinarith [mul_pos hr hr]

lemma continuousAt_scXiU {z : ℂ} (hr : 0 < z.re) (hi : 0 ≤ z.im) : ContinuousAt scXiU z := by
  have hz0 : z ≠ 0 := fun h => by simp [h] at hr
  have hu : ContinuousAt (fun z : ℂ => 1 / z ^ 2) z := ContinuousAt.div continuousAt_const (by fun_prop) (pow_ne_zero 2 hz0)
  have h1 : ContinuousAt (fun z : ℂ => sqrtU (1 - 1 / z ^ 2)) z :=
    continuous_sqrtU.continuousAt.comp (f := fun z : ℂ => 1 - 1 / z ^ 2) (continuousAt_const.sub hu)
  have h9 : ContinuousAt (fun z : ℂ => sqrtU (1 - 9 * (1 / z ^ 2))) z :=
    continuous_sqrtU.continuousAt.comp (f := fun z : ℂ => 1 - 9 * (1 / z ^ 2))
      (continuousAt_const.sub (continuousAt_const.mul hu))
  have hs9 : 1 + sqrtU (1 - 9 * (1 / z ^ 2)) ∈ Complex.slitPlane := by
    rw [Complex.mem_slitPlane_iff]
    left
    rw [Complex.add_re, Complex.one_re]
    linarith [sqrtU_re_nonneg (1 - 9 * (1 / z ^ 2))]
  unfold scXiU
  refine ContinuousAt.div ?_ ?_ (sqrt_ne_zero hs9)
  · exact ContinuousAt.comp (f := fun z : ℂ => 1 - sqrtU (1 - 1 / z ^ 2)) (continuousAt_sqrt (sc_one_sub_slit hr hi))
      (continuousAt_const.sub h1)
  · exact ContinuousAt.comp (f := fun z : ℂ => 1 + sqrtU (1 - 9 * (1 / z ^ 2))) (continuousAt_sqrt hs9)
      (continuousAt_const.add h9)

lemma continuousAt_scHb {z : ℂ} (hr : 0 < z.re) (hi : 0 ≤ z.im) : ContinuousAt scHb z := by
  have hz0 : z ≠ 0 := fun h => by simp [h] at hr
  unfold scHb
  refine ContinuousAt.div ?_ continuousAt_id hz0
  exact ContinuousAt.comp (f := scXiU) (g := scR)
    (differentiableAt_scR ((scRootsU hr hi).reg scXiU_sq)).continuousAt (continuousAt_scXiU hr hi)

lemma scHb_upper {z : ℂ} (hr : 0 < z.re) (hi : 0 < z.im) : scHb z = scForm z := by
  have hz0 : z ≠ 0 := fun h => by simp [h] at hr
  have hn : 0 < Complex.normSq z := Complex.normSq_pos.2 hz0
  have h0 : (1 / z ^ 2).im < 0 := by
    rw [sc_inv_im]
    have : 0 < 2 * z.re * z.im / Complex.normSq z ^ 2 := by positivity
    linarith
  have h1 : 0 < (1 - 1 / z ^ 2).im := by
    rw [Complex.sub_im, Complex.one_im]
    linarith
  have h9 : 0 < (1 - 9 * (1 / z ^ 2)).im := by
    rw [Complex.sub_im, Complex.one_im, show (9 : ℂ) = ((9 : ℝ) : ℂ) by norm_num, Complex.im_ofReal_mul]
    linarith
  unfold scHb scXiU
  rw [sqrtU_eq h1, sqrtU_eq h9, scForm_of (sc_xi_sq _)]

lemma scHb_real (x : ℝ) : scHb x = scForm x := by
  have e1 : (1 : ℂ) - 1 / (x : ℂ) ^ 2 = ((1 - 1 / x ^ 2 : ℝ) : ℂ) := by push_cast; ring
  have e9 : (1 : ℂ) - 9 * (1 / (x : ℂ) ^ 2) = ((1 - 9 * (1 / x ^ 2) : ℝ) : ℂ) := by push_cast; ring
  have h1 : sqrtU (1 - 1 / (x : ℂ) ^ 2) = Complex.sqrt (1 - 1 / (x : ℂ) ^ 2) := by rw [e1, sqrtU_real]
  have h9 : sqrtU (1 - 9 * (1 / (x : ℂ) ^ 2)) = Complex.sqrt (1 - 9 * (1 / (x : ℂ) ^ 2)) := by rw [e9, sqrtU_real]
  unfold scHb scXiU
  rw [h1, h9, scForm_of (sc_xi_sq _)]

/-- Outside of the band the Green's function is real. -/
lemma scForm_above {x : ℝ} (hx : 3 ≤ x) : (scForm x).im = 0 := by
  have hx0 : 0 < x := by linarith
  have hu : 9 * (1 / x ^ 2) ≤ 1 := by
    rw [mul_one_div, div_le_one (by positivity)]
    nlinarith
  have hu0 : 0 < 1 / x ^ 2 := by positivity
  set u := 1 / x ^ 2 with hud
  have es : Complex.sqrt (1 - (u : ℂ)) = ((√(1 - u) : ℝ) : ℂ) := by
    rw [show (1 : ℂ) - (u : ℂ) = ((1 - u : ℝ) : ℂ) by push_cast; ring, sqrt_ofReal (by linarith)]
  have ea : Complex.sqrt (1 - 9 * (u : ℂ)) = ((√(1 - 9 * u) : ℝ) : ℂ) := by
    rw [show (1 : ℂ) - 9 * (u : ℂ) = ((1 - 9 * u : ℝ) : ℂ) by push_cast; ring, sqrt_ofReal (by linarith)]
  have hs1 : √(1 - u) ≤ 1 := Real.sqrt_le_one.2 (by linarith)
  have hη0 : 0 ≤ (1 - √(1 - u)) / (1 + √(1 - 9 * u)) := div_nonneg (by linarith) (by positivity)
  set t := √((1 - √(1 - u)) / (1 + √(1 - 9 * u))) with ht
  have ht2 : t ^ 2 = (1 - √(1 - u)) / (1 + √(1 - 9 * u)) := Real.sq_sqrt hη0
  have hξ : (t : ℂ) ^ 2 = scEta (1 / (x : ℂ) ^ 2) := by
    rw [show (1 : ℂ) / (x : ℂ) ^ 2 = (u : ℂ) by rw [hud]; push_cast; rfl, scEta, es, ea, ← Complex.ofReal_pow, ht2]
    push_cast
    rfl
  have hreg := scReg_of_eta hξ
  have hH : scH (t : ℂ) = (((1 + t) ^ 3 * (1 - 3 * t) / ((1 - t) ^ 3 * (1 + 3 * t)) : ℝ) : ℂ) := by
    unfold scH
    push_cast
    rfl
  set h := (1 + t) ^ 3 * (1 - 3 * t) / ((1 - t) ^ 3 * (1 + 3 * t)) with hh
  have hpos : 0 < h := by
    have := hreg.slit
    rwa [hH, Complex.ofReal_mem_slitPlane] at this
  rw [scForm_of hξ, scR, hH, show (1 : ℂ) - (h : ℂ) = ((1 - h : ℝ) : ℂ) by push_cast; ring, ellipK_ofReal (by linarith)]
  have : (1 - 9 * (t : ℂ) ^ 4) * (2 / (Real.pi : ℂ) * ((ellipKR (1 - h) : ℝ) : ℂ)) ^ 2
      / ((1 - (t : ℂ)) ^ 3 * (1 + 3 * (t : ℂ))) / (x : ℂ)
      = (((1 - 9 * t ^ 4) * (2 / Real.pi * ellipKR (1 - h)) ^ 2 / ((1 - t) ^ 3 * (1 + 3 * t)) / x : ℝ) : ℂ) := by
    push_cast; rfl
  rw [this, Complex.ofReal_im]

/-- The retarded Green's function on the positive real axis. -/
lemma sc_tendsto {D x : ℝ} (hD : 0 < D) (hx : 0 < x) :
    Filter.Tendsto (fun η : ℝ => bzGreen bz3 (scDisp D) (x + η * Complex.I)) (𝓝[>] 0) (𝓝 (3 / D * scForm (3 / D * x))) := by
  have hl : Filter.Tendsto (fun η : ℝ => (3 / D : ℂ) * ((x : ℂ) + η * Complex.I)) (𝓝[>] 0) (𝓝 (3 / D * (x : ℂ))) := by
    have : Filter.Tendsto (fun η : ℝ => (3 / D : ℂ) * ((x : ℂ) + η * Complex.I)) (𝓝 0)
        (𝓝 ((3 / D : ℂ) * ((x : ℂ) + (0 : ℝ) * Complex.I))) := by
      apply Continuous.tendsto
      have := Complex.continuous_ofReal
      fun_prop
    simp only [Complex.ofReal_zero, zero_mul, add_zero] at this
    exact this.mono_left nhdsWithin_le_nhds
  have hc : ((3 / D * x : ℝ) : ℂ) = 3 / (D : ℂ) * (x : ℂ) := by push_cast; rfl
  have hre : ∀ w : ℂ, (3 / (D : ℂ) * w).re = 3 / D * w.re ∧ (3 / (D : ℂ) * w).im = 3 / D * w.im := fun w => by
    rw [show (3 : ℂ) / (D : ℂ) = ((3 / D : ℝ) : ℂ) by push_cast; rfl, Complex.re_ofReal_mul, Complex.im_ofReal_mul]
    exact ⟨rfl, rfl⟩
  have hp : 0 < 3 / D := by positivity
  have hcont : ContinuousAt scHb (3 / (D : ℂ) * (x : ℂ)) := by
    rw [← hc]
    exact continuousAt_scHb (by rw [Complex.ofReal_re]; positivity) (by rw [Complex.ofReal_im])
  have h := (hcont.tendsto.comp hl).const_mul (3 / (D : ℂ))
  rw [← hc, scHb_real, hc] at h
  refine h.congr' ?_
  filter_upwards [self_mem_nhdsWithin] with η hη
  have hη : 0 < η := hη
  simp only [Function.comp]
  rw [sc_green hD (offBand_of_im D (by simpa using hη.ne')), scHb_upper]
  · rw [(hre _).1]
    have : ((x : ℂ) + η * Complex.I).re = x := by simp
    rw [this]; positivity
  · rw [(hre _).2]
    have : ((x : ℂ) + η * Complex.I).im = η := by simp
    rw [this]; positivity

lemma scForm_im_nonpos {x : ℝ} (hx : 0 < x) : (scForm x).im ≤ 0 := by
  have h := sc_tendsto (D := 3) (by norm_num) hx
  have e : (3 : ℂ) / ((3 : ℝ) : ℂ) = 1 := by norm_num
  rw [e, one_mul, one_mul] at h
  have h2 := (Complex.continuous_im.tendsto _).comp h
  refine le_of_tendsto h2 ?_
  filter_upwards [self_mem_nhdsWithin] with η hη
  exact bzGreen_im_nonpos (measurable_scDisp 3) (by simpa using hη)

lemma scDosFinite_eq {ellipk : ℂ → ℂ} (hk : ∀ m : ℂ, 1 - m ∈ Complex.slitPlane → ellipk m = ellipK m) (x : ℝ) :
    scDosFinite ellipk x = -(scForm x).im / Real.pi := by
  unfold scDosFinite
  simp only
  have h1 : ((x ^ (-2 : ℤ) : ℝ) : ℂ) = 1 / (x : ℂ) ^ 2 := by
    rw [zpow_neg, one_div]
    norm_cast
  rw [h1]
  have hx := sc_xi_sq (1 / (x : ℂ) ^ 2)
  rw [scForm_of hx, sc_core hk (scReg_of_eta hx), scR, mul_one_div, show (-1.0 : ℝ) = -1 by norm_num]
  ring

/-- C57: outside of the tolerance the choice of the tolerance is irrelevant. -/
lemma scDos_tol {ellipk : ℂ → ℂ} (hk : ∀ m : ℂ, 1 - m ∈ Complex.slitPlane → ellipk m = ellipK m) {D : ℝ} (hD : 0 < D)
    {tol e : ℝ} (he : e ≠ 0) (h : tol ≤ 3 / D * |e|) :
    scDos ellipk tol e D = 3 / D * (-(scForm ((3 / D * |e| : ℝ) : ℂ)).im / Real.pi) := by
  have hp : 0 < 3 / D := by positivity
  unfold scDos
  simp only
  rw [abs_mul, abs_of_pos hp, if_neg (not_lt.2 h)]
  split_ifs with h3
  · rw [scDosFinite_eq hk]
  · rw [scForm_above (not_lt.1 h3)]
    simp

/-- The density of states without expansion around the middle of the band. -/
noncomputable def scRho (D e : ℝ) : ℝ := 3 / D * (-(scForm ((3 / D * |e| : ℝ) : ℂ)).im / Real.pi)

lemma scRho_eq (D : ℝ) : scRho D = fun e => 3 / D * (-(scHb ((3 / D * |e| : ℝ) : ℂ)).im / Real.pi) := by
  funext e
  rw [scHb_real, scRho]

lemma continuousOn_scRho {D : ℝ} (hD : 0 < D) : ContinuousOn (scRho D) {0}ᶜ := by
  intro e he
  have he : e ≠ 0 := he
  have hp : 0 < 3 / D := by positivity
  apply ContinuousAt.continuousWithinAt
  have hpos : 0 < 3 / D * |e| := mul_pos hp (abs_pos.2 he)
  have hH := continuousAt_scHb (z := ((3 / D * |e| : ℝ) : ℂ)) (by rwa [Complex.ofReal_re]) (by rw [Complex.ofReal_im])
  have h0 : ContinuousAt (fun e : ℝ => 3 / D * |e|) e := (continuous_const.mul continuous_abs).continuousAt
  have h1 : ContinuousAt (fun e : ℝ => ((3 / D * |e| : ℝ) : ℂ)) e :=
    ContinuousAt.comp (f := fun e : ℝ => 3 / D * |e|) (g := fun x : ℝ => (x : ℂ)) Complex.continuous_ofReal.continuousAt h0
  have h2 : ContinuousAt (fun e : ℝ => scHb ((3 / D * |e| : ℝ) : ℂ)) e :=
    ContinuousAt.comp (f := fun e : ℝ => ((3 / D * |e| : ℝ) : ℂ)) (g := scHb) hH h1
  have h3 : ContinuousAt (fun e : ℝ => (scHb ((3 / D * |e| : ℝ) : ℂ)).im) e :=
    ContinuousAt.comp (f := fun e : ℝ => scHb ((3 / D * |e| : ℝ) : ℂ)) (g := Complex.im) Complex.continuous_im.continuousAt h2
  rw [scRho_eq]
  exact (h3.neg.div_const _).const_mul _

/-- Every energy has weight zero. -/
lemma sc_null {D : ℝ} (hD : 0 < D) (E : ℝ) : bz3.map (scDisp D) {E} = 0 := by
  rw [Measure.map_apply (measurable_scDisp D) (measurableSet_singleton E)]
  have hA : ∀ c : ℝ, bz {x : ℝ | Real.cos x = c} = 0 := by
    intro c
    have hc : {x : ℝ | Real.cos x = c}.Countable := by
      by_cases hne : ∃ y, Real.cos y = c
      · obtain ⟨y, rfl⟩ := hne
        have : {x : ℝ | Real.cos x = Real.cos y} ⊆ (Set.range fun k : ℤ => y - 2 * (k : ℝ) * Real.pi) ∪
            Set.range fun k : ℤ => 2 * (k : ℝ) * Real.pi - y := by
          intro x hx
          obtain ⟨k, hk | hk⟩ := Real.cos_eq_cos_iff.1 hx
          · exact Or.inl ⟨k, by simp only; linarith⟩
          · exact Or.inr ⟨k, by simp only; linarith⟩
        exact ((Set.countable_range _).union (Set.countable_range _)).mono this
      · convert Set.countable_empty
        ext x
        simp only [Set.mem_ofPred_eq, Set.mem_empty_iff_false, iff_false]
        exact fun h => hne ⟨x, h⟩
    have hv : volume.restrict (Set.Ioc 0 (2 * Real.pi)) {x : ℝ | Real.cos x = c} = 0 :=
      Measure.restrict_le_self.absolutelyContinuous (hc.measure_zero volume)
    unfold bz
    rw [Measure.smul_apply, hv, smul_zero]
  have hmeas : MeasurableSet (scDisp D ⁻¹' {E}) := measurable_scDisp D (measurableSet_singleton E)
  unfold bz3
  rw [Measure.measure_prod_null hmeas]
  refine .of_forall fun x => ?_
  have hm2 : MeasurableSet (Prod.mk x ⁻¹' (scDisp D ⁻¹' {E})) := measurable_prodMk_left hmeas
  change (bz.prod bz) (Prod.mk x ⁻¹' (scDisp D ⁻¹' {E})) = 0
  rw [Measure.measure_prod_null hm2]
  refine .of_forall fun y => ?_
  refine measure_mono_null ?_ (hA (E * (3 / D) - Real.cos x - Real.cos y))
  intro z hz
  have hz : D / 3 * (Real.cos x + Real.cos y + Real.cos z) = E := hz
  change Real.cos z = _
  rw [← hz]
  field_simp
  ring

lemma sc_upper_neg {D : ℝ} (hD : 0 < D) {z : ℂ} (hr : z.re < 0) (hi : 0 < z.im) :
    -conj (3 / D * scHb (3 / D * (-conj z))) = bzGreen bz3 (scDisp D) z := by
  have hp : 0 < 3 / D := by positivity
  have hre : ∀ w : ℂ, (3 / (D : ℂ) * w).re = 3 / D * w.re ∧ (3 / (D : ℂ) * w).im = 3 / D * w.im := fun w => by
    rw [show (3 : ℂ) / (D : ℂ) = ((3 / D : ℝ) : ℂ) by push_cast; rfl, Complex.re_ofReal_mul, Complex.im_ofReal_mul]
    exact ⟨rfl, rfl⟩
  have hoff : OffBand (conj z) D := offBand_of_im D (by simpa using hi.ne')
  have hoff' : OffBand (-conj z) D := offBand_of_im D (by simpa using hi.ne')
  rw [scHb_upper, ← sc_green hD hoff', sc_green_neg hD hoff, bzGreen_conj, map_neg, Complex.conj_conj, neg_neg]
  · rw [(hre _).1]
    have : 0 < (-conj z).re := by simpa using hr
    positivity
  · rw [(hre _).2]
    have : 0 < (-conj z).im := by simpa using hi
    positivity

lemma isDosOf_scRho {D : ℝ} (hD : 0 < D) : IsDosOf bz3 (scDisp D) (scRho D) := by
  have hp : 0 < 3 / D := by positivity
  have hpi := Real.pi_pos
  have hre : ∀ w : ℂ, (3 / (D : ℂ) * w).re = 3 / D * w.re ∧ (3 / (D : ℂ) * w).im = 3 / D * w.im := fun w => by
    rw [show (3 : ℂ) / (D : ℂ) = ((3 / D : ℝ) : ℂ) by push_cast; rfl, Complex.re_ofReal_mul, Complex.im_ofReal_mul]
    exact ⟨rfl, rfl⟩
  have hcont : ∀ z : ℂ, 0 < z.re → 0 ≤ z.im → ContinuousAt (fun z : ℂ => 3 / (D : ℂ) * scHb (3 / D * z)) z := by
    intro z hr hi
    refine continuousAt_const.mul (ContinuousAt.comp (f := fun z : ℂ => 3 / (D : ℂ) * z) (g := scHb)
      (continuousAt_scHb ?_ ?_) (by fun_prop))
    · rw [(hre _).1]; positivity
    · rw [(hre _).2]; positivity
  refine isDosOf_of_boundary (measurable_scDisp D) (measurable_of_continuousOn_compl_singleton 0 (continuousOn_scRho hD)) ?_
    (sc_null hD 0) (by simp) ?_
  · intro e
    rcases eq_or_ne e 0 with rfl | he
    · simp [scRho, scForm]
    · have := scForm_im_nonpos (x := 3 / D * |e|) (mul_pos hp (abs_pos.2 he))
      unfold scRho
      have h2 : 0 ≤ -(scForm ((3 / D * |e| : ℝ) : ℂ)).im := by linarith
      positivity
  · intro e he
    have he : e ≠ 0 := he
    rcases lt_or_gt_of_ne he with h | h
    · refine ⟨2 * e, e / 2, fun z => -conj (3 / D * scHb (3 / D * (-conj z))), by linarith, by linarith, ?_, ?_, ?_⟩
      · intro z hz
        apply ContinuousAt.continuousWithinAt
        have hzr : z.re < 0 := by linarith [hz.1.2]
        have hzi : 0 ≤ z.im := hz.2.1
        have hc := hcont (-conj z) (by simpa using hzr) (by simpa using hzi)
        exact (Complex.continuous_conj.continuousAt.comp (ContinuousAt.comp (f := fun z : ℂ => -conj z) hc
          Complex.continuous_conj.neg.continuousAt)).neg
      · intro z hz hi
        exact sc_upper_neg hD (by linarith [hz.2]) hi
      · intro x hx
        have hx0 : x < 0 := by linarith [hx.2]
        have e1 : (3 : ℂ) / D * (-conj (x : ℂ)) = ((3 / D * |x| : ℝ) : ℂ) := by
          rw [abs_of_neg hx0, Complex.conj_ofReal]; push_cast; ring
        simp only
        rw [e1, scHb_real, Complex.neg_im, Complex.conj_im, (hre _).2, scRho]
        ring
    · refine ⟨e / 2, 2 * e, fun z => 3 / D * scHb (3 / D * z), by linarith, by linarith, ?_, ?_, ?_⟩
      · intro z hz
        exact (hcont z (by linarith [hz.1.1]) hz.2.1).continuousWithinAt
      · intro z hz hi
        have hr : 0 < z.re := by linarith [hz.1]
        simp only
        rw [scHb_upper, ← sc_green hD (offBand_of_im D hi.ne')]
        · rw [(hre _).1]; positivity
        · rw [(hre _).2]; positivity
      · intro x hx
        have hx0 : 0 < x := by linarith [hx.1]
        have e1 : (3 : ℂ) / D * (x : ℂ) = ((3 / D * |x| : ℝ) : ℂ) := by
          rw [abs_of_pos hx0]; push_cast; ring
        simp only
        rw [e1, scHb_real, (hre _).2, scRho]
        ring

/-- `sc.dos` has the values of the exact density outside of the tolerance. (See `sc_dos` for the whole band.) -/
lemma sc_dos_off {ellipk : ℂ → ℂ} (hk : EllipkContract ellipk) {D : ℝ} (hD : 0 < D) :
    ∃ ρ : ℝ → ℝ, IsDosOf bz3 (scDisp D) ρ ∧ ContinuousOn ρ {0}ᶜ ∧
      ∀ tol e, e ≠ 0 → tol ≤ 3 / D * |e| → scDos ellipk tol e D = ρ e :=
  ⟨scRho D, isDosOf_scRho hD, continuousOn_scRho hD, fun _ _ he h => scDos_tol hk.off hD he h⟩

/-- C57: `sc.dos` vanishes at and outside of the band edges. -/
theorem sc_dos_outside (ellipk : ℂ → ℂ) {D tol e : ℝ} (hD : 0 < D) (htol : tol ≤ 3) (he : D ≤ |e|) :
    scDos ellipk tol e D = 0 := by
  have hp : 0 < 3 / D := by positivity
  have h3 : 3 ≤ 3 / D * |e| := by
    rw [div_mul_eq_mul_div, le_div_iff₀ hD]
    linarith
  unfold scDos
  simp only
  rw [abs_mul, abs_of_pos hp, if_neg (not_lt.2 (htol.trans h3)), if_neg (not_lt.2 h3), mul_zero]

/-- C57: `sc.dos` is even and scales with the half-bandwidth, also where it uses the expansion. -/
theorem sc_dos_even_scaling (ellipk : ℂ → ℂ) (tol e D : ℝ) {s : ℝ} (hs : 0 < s) :
    scDos ellipk tol (-e) D = scDos ellipk tol e D ∧ scDos ellipk tol (s * e) (s * D) = scDos ellipk tol e D / s := by
  unfold scDos
  simp only
  constructor
  · rw [mul_neg, abs_neg]
  · have : 3 / (s * D) * (s * e) = 3 / D * e := by field_simp
    rw [this]
    field_simp

/-- C61: `sc.gf_z` is the Hilbert transform of the exact density of states, given by `sc.dos` outside of the
tolerance, which is normalised and vanishes outside of the band. -/
theorem sc_hilbert {ellipk : ℂ → ℂ} (hk : EllipkContract ellipk) {D : ℝ} (hD : 0 < D) :
    HilbertPair (fun e => scDos ellipk 0 e D) (fun z => scGfZ ellipk z D) (-D) D 1 := by
  have h : (fun e => scDos ellipk 0 e D) = scRho D := by
    funext e
    rcases eq_or_ne e 0 with rfl | he
    · simp [scDos, scRho, scForm, scDosFinite]
    · exact scDos_tol hk.off hD he (by positivity)
  rw [h]
  refine ((isDosOf_scRho hD).hilbertPair (measurable_scDisp D) fun e he => ?_).congr
    fun _ hz => (sc_gf_z hk hD fun e he => hz e (abs_le.1 he)).1
  rw [← h]
  exact sc_dos_outside ellipk hD (by norm_num) (le_of_lt (not_le.1 fun h => he (abs_le.1 h)))

/-- A density of states is positive where the energies have at least a fixed fraction of every small window. -/
lemma pos_of_window {κ : Type*} [MeasurableSpace κ] {μ : Measure κ} {disp : κ → ℝ} {ρ : ℝ → ℝ}
    (h : IsDosOf μ disp ρ) (hm : Measurable disp) {e c L : ℝ} (hc : 0 < c) (hL : 0 < L) (hcont : ContinuousAt ρ e)
    (hw : ∀ δ, 0 < δ → δ ≤ 1 → ENNReal.ofReal (c * δ) ≤ μ (disp ⁻¹' Set.Icc (e - L * δ) (e + L * δ))) : 0 < ρ e := by
  by_contra hcon
  have h0 : ρ e = 0 := le_antisymm (not_lt.1 hcon) (h.nonneg e)
  have hκ : 0 < c / (4 * L) := by positivity
  obtain ⟨r, hr, hrr⟩ := Metric.continuousAt_iff.1 hcont (c / (4 * L)) hκ
  set δ := min 1 (r / (2 * L)) with hδ
  have hδ0 : 0 < δ := lt_min one_pos (by positivity)
  have h1 := hw δ hδ0 (min_le_left _ _)
  rw [← Measure.map_apply hm measurableSet_Icc, h.density, withDensity_apply _ measurableSet_Icc] at h1
  have h2 : ∫⁻ x in Set.Icc (e - L * δ) (e + L * δ), ENNReal.ofReal (ρ x)
      ≤ ∫⁻ _ in Set.Icc (e - L * δ) (e + L * δ), ENNReal.ofReal (c / (4 * L)) := by
    refine setLIntegral_mono measurable_const fun x hx => ENNReal.ofReal_le_ofReal ?_
    have hd : dist x e < r := by
      rw [Real.dist_eq]
      have : |x - e| ≤ L * δ := abs_le.2 ⟨by linarith [hx.1], by linarith [hx.2]⟩
      have h3 : δ ≤ r / (2 * L) := min_le_right _ _
      have h4 : L * δ ≤ L * (r / (2 * L)) := by gcongr
      have h5 : L * (r / (2 * L)) = r / 2 := by field_simp
      linarith
    have := hrr hd
    rw [h0, Real.dist_eq, sub_zero] at this
    exact (le_abs_self _).trans this.le
  rw [setLIntegral_const, Real.volume_Icc, ← ENNReal.ofReal_mul hκ.le] at h2
  have h3 := h1.trans h2
  rw [ENNReal.ofReal_le_ofReal_iff] at h3
  · have : c / (4 * L) * (e + L * δ - (e - L * δ)) = c * δ / 2 := by field_simp; ring
    rw [this] at h3
    have : 0 < c * δ := by positivity
    linarith
  · have : e + L * δ - (e - L * δ) = 2 * (L * δ) := by ring
    rw [this]
    positivity

lemma bz_apply {s : Set ℝ} (hs : MeasurableSet s) (hsub : s ⊆ Set.Ioc 0 (2 * Real.pi)) :
    bz s = ENNReal.ofReal (1 / (2 * Real.pi)) * volume s := by
  unfold bz
  rw [Measure.smul_apply, Measure.restrict_apply hs, Set.inter_eq_left.2 hsub, smul_eq_mul]

lemma bz_open_pos {U : Set ℝ} (hU : IsOpen U) {x : ℝ} (hx : x ∈ U) (hx0 : 0 < x) (hx1 : x < 2 * Real.pi) : 0 < bz U := by
  have hpi := Real.pi_pos
  have h1 : bz (U ∩ Set.Ioo 0 (2 * Real.pi)) ≤ bz U := measure_mono Set.inter_subset_left
  refine lt_of_lt_of_le ?_ h1
  rw [bz_apply (hU.measurableSet.inter measurableSet_Ioo)
    (Set.inter_subset_right.trans Set.Ioo_subset_Ioc_self)]
  refine ENNReal.mul_pos (by simpa using hpi) ?_
  exact ((hU.inter isOpen_Ioo).measure_pos volume ⟨x, hx, hx0, hx1⟩).ne'

/-- The fraction of one momentum component in an energy window, for fixed values of the other two. -/
lemma sc_section {D e : ℝ} (hD : 0 < D) {x y : ℝ} (hxy : |3 / D * e - Real.cos x - Real.cos y| < 1) {δ : ℝ} (hδ1 : δ ≤ 1) :
    ENNReal.ofReal (1 / (2 * Real.pi) * δ)
      ≤ bz {z : ℝ | scDisp D (x, y, z) ∈ Set.Icc (e - D / 3 * δ) (e + D / 3 * δ)} := by
  have hpi := Real.pi_pos
  set E := 3 / D * e with hE
  obtain ⟨hl, hr⟩ := abs_lt.1 hxy
  set θ := Real.arccos (E - Real.cos x - Real.cos y) with hθ
  have hcθ : Real.cos θ = E - Real.cos x - Real.cos y := Real.cos_arccos hl.le hr.le
  have hθ0 : 0 < θ := Real.arccos_pos.2 hr
  have hθ1 : θ ≤ Real.pi := Real.arccos_le_pi _
  have hsub : Set.Ioc θ (θ + δ) ⊆ {z : ℝ | scDisp D (x, y, z) ∈ Set.Icc (e - D / 3 * δ) (e + D / 3 * δ)} := by
    intro z hz
    have h1 : |Real.cos z - Real.cos θ| ≤ |z - θ| := Real.abs_cos_sub_cos_le z θ
    rw [abs_of_pos (by linarith [hz.1] : 0 < z - θ), hcθ] at h1
    obtain ⟨a1, a2⟩ := abs_le.1 (h1.trans (by linarith [hz.2] : z - θ ≤ δ))
    have hD3 : 0 < D / 3 := by positivity
    have hEe : D / 3 * E = e := by rw [hE]; field_simp
    change D / 3 * (Real.cos x + Real.cos y + Real.cos z) ∈ Set.Icc (e - D / 3 * δ) (e + D / 3 * δ)
    have b1 := mul_le_mul_of_nonneg_left a1 hD3.le
    have b2 := mul_le_mul_of_nonneg_left a2 hD3.le
    constructor <;> linarith
  refine le_trans ?_ (measure_mono hsub)
  rw [bz_apply measurableSet_Ioc fun z hz => ⟨by linarith [hz.1], by linarith [hz.2, Real.pi_gt_three]⟩, Real.volume_Ioc,
    ENNReal.ofReal_mul (by positivity), add_sub_cancel_left]

lemma sc_window {D e : ℝ} (hD : 0 < D) (he : |e| < D) :
    ∃ c : ℝ, 0 < c ∧ ∀ δ, 0 < δ → δ ≤ 1 →
      ENNReal.ofReal (c * δ) ≤ bz3 (scDisp D ⁻¹' Set.Icc (e - D / 3 * δ) (e + D / 3 * δ)) := by
  have hpi := Real.pi_pos
  set E := 3 / D * e with hE
  have hE3 : |E / 3| < 1 := by
    have : E / 3 = e / D := by rw [hE]; field_simp
    rw [this, abs_div, abs_of_pos hD, div_lt_one hD]
    exact he
  obtain ⟨hEl, hEr⟩ := abs_lt.1 hE3
  set x0 := Real.arccos (E / 3) with hx0
  have hcos : Real.cos x0 = E / 3 := Real.cos_arccos hEl.le hEr.le
  have hx0pos : 0 < x0 := Real.arccos_pos.2 hEr
  have hx0le : x0 ≤ Real.pi := Real.arccos_le_pi _
  have hB : IsOpen {p : ℝ × ℝ | |E - Real.cos p.1 - Real.cos p.2| < 1} := by
    have := Real.continuous_cos
    exact isOpen_lt (by fun_prop) continuous_const
  have hmem : (x0, x0) ∈ {p : ℝ × ℝ | |E - Real.cos p.1 - Real.cos p.2| < 1} := by
    change |E - Real.cos x0 - Real.cos x0| < 1
    rw [hcos, show E - E / 3 - E / 3 = E / 3 by ring]
    exact hE3
  obtain ⟨U, V, hU, hV, hxU, hxV, hUV⟩ := isOpen_prod_iff.1 hB x0 x0 hmem
  have hUp := bz_open_pos hU hxU hx0pos (by linarith)
  have hVp := bz_open_pos hV hxV hx0pos (by linarith)
  have hUf : bz U ≠ ⊤ := measure_ne_top _ _
  have hVf : bz V ≠ ⊤ := measure_ne_top _ _
  refine ⟨(bz U).toReal * (bz V).toReal * (1 / (2 * Real.pi)), ?_, fun δ hδ hδ1 => ?_⟩
  · have := ENNReal.toReal_pos hUp.ne' hUf
    have := ENNReal.toReal_pos hVp.ne' hVf
    positivity
  have hmeas : MeasurableSet (scDisp D ⁻¹' Set.Icc (e - D / 3 * δ) (e + D / 3 * δ)) := measurable_scDisp D measurableSet_Icc
  obtain ⟨S, hS⟩ : ∃ S, S = scDisp D ⁻¹' Set.Icc (e - D / 3 * δ) (e + D / 3 * δ) := ⟨_, rfl⟩
  have hsec : ∀ x ∈ U, ∀ y ∈ V, ENNReal.ofReal (1 / (2 * Real.pi) * δ) ≤ bz (Prod.mk y ⁻¹' (Prod.mk x ⁻¹' S)) := by
    rw [hS]
    exact fun x hx y hy => sc_section hD (hUV (Set.mk_mem_prod hx hy)) hδ1
  rw [← hS] at hmeas ⊢
  have h1 : ENNReal.ofReal ((bz U).toReal * (bz V).toReal * (1 / (2 * Real.pi)) * δ)
      = bz U * (bz V * ENNReal.ofReal (1 / (2 * Real.pi) * δ)) := by
    rw [mul_assoc, mul_assoc, ENNReal.ofReal_mul (by positivity), ENNReal.ofReal_mul (by positivity),
      ENNReal.ofReal_toReal hUf, ENNReal.ofReal_toReal hVf]
  rw [h1]
  unfold bz3
  rw [Measure.prod_apply hmeas]
  have h2 : ∀ x ∈ U, bz V * ENNReal.ofReal (1 / (2 * Real.pi) * δ) ≤ (bz.prod bz) (Prod.mk x ⁻¹' S) := by
    intro x hx
    rw [Measure.prod_apply (measurable_prodMk_left hmeas)]
    calc _ = ∫⁻ _ in V, ENNReal.ofReal (1 / (2 * Real.pi) * δ) ∂bz := by rw [setLIntegral_const, mul_comm]
      _ ≤ ∫⁻ y in V, bz (Prod.mk y ⁻¹' (Prod.mk x ⁻¹' S)) ∂bz :=
        setLIntegral_mono' hV.measurableSet fun y hy => hsec x hx y hy
      _ ≤ _ := setLIntegral_le_lintegral _ _
  calc _ = ∫⁻ _ in U, bz V * ENNReal.ofReal (1 / (2 * Real.pi) * δ) ∂bz := by rw [setLIntegral_const, mul_comm]
    _ ≤ ∫⁻ x in U, (bz.prod bz) (Prod.mk x ⁻¹' S) ∂bz := setLIntegral_mono' hU.measurableSet h2
    _ ≤ _ := setLIntegral_le_lintegral _ _

lemma scRho_pos {D e : ℝ} (he : e ≠ 0) (heD : |e| < D) : 0 < scRho D e := by
  have hD : 0 < D := lt_of_le_of_lt (abs_nonneg e) heD
  obtain ⟨c, hc, hw⟩ := sc_window hD heD
  exact pos_of_window (isDosOf_scRho hD) (measurable_scDisp D) hc (by positivity : 0 < D / 3)
    ((continuousOn_scRho hD).continuousAt (isOpen_compl_singleton.mem_nhds he)) hw

/-- C57: the density of states is positive inside of the band. -/
theorem sc_dos_pos {ellipk : ℂ → ℂ} (hk : EllipkContract ellipk) {D tol e : ℝ} (he : e ≠ 0) (heD : |e| < D)
    (h : tol ≤ 3 / D * |e|) : 0 < scDos ellipk tol e D := by
  rw [scDos_tol hk.off (lt_of_le_of_lt (abs_nonneg e) heD) he h]
  exact scRho_pos he heD

lemma scForm_im_neg {D x : ℝ} (hx : 0 < x) (hxD : x < D) : (3 / D * scForm (3 / D * x)).im < 0 := by
  have hD : 0 < D := by linarith
  have hpi := Real.pi_pos
  have h := scRho_pos hx.ne' (by rwa [abs_of_pos hx] : |x| < D)
  unfold scRho at h
  rw [abs_of_pos hx] at h
  rw [show (3 : ℂ) / (D : ℂ) = ((3 / D : ℝ) : ℂ) by push_cast; rfl, Complex.im_ofReal_mul, ← Complex.ofReal_mul]
  have e1 : 3 / D * (-(scForm ((3 / D * x : ℝ) : ℂ)).im / Real.pi) * Real.pi
      = -(3 / D * (scForm ((3 / D * x : ℝ) : ℂ)).im) := by field_simp
  have := mul_pos h hpi
  rw [e1] at this
  linarith

/-- C62: for real energies inside of the band, `sc.gf_z` is the retarded Green's function for positive energies. -/
theorem sc_gf_z_real_retarded {ellipk : ℂ → ℂ} (hk : EllipkContract ellipk) {D x : ℝ} (hx : 0 < x) (hxD : x < D) :
    Filter.Tendsto (fun η : ℝ => bzGreen bz3 (scDisp D) (x + η * Complex.I)) (𝓝[>] 0) (𝓝 (scGfZ ellipk x D)) ∧
    (scGfZ ellipk x D).im < 0 := by
  rw [scGfZ_eq hk.off]
  exact ⟨sc_tendsto (by linarith) hx, scForm_im_neg hx hxD⟩

/-- C62, disagreement: for negative real energies inside of the band `sc.gf_z` is the advanced Green's function,
its imaginary part is positive. -/
theorem sc_gf_z_real_advanced {ellipk : ℂ → ℂ} (hk : EllipkContract ellipk) {D x : ℝ} (hx : x < 0) (hxD : -D < x) :
    Filter.Tendsto (fun η : ℝ => bzGreen bz3 (scDisp D) (x - η * Complex.I)) (𝓝[>] 0) (𝓝 (scGfZ ellipk x D)) ∧
    0 < (scGfZ ellipk x D).im := by
  have hD : 0 < D := by linarith
  obtain ⟨h1, h2⟩ := sc_gf_z_real_retarded hk (D := D) (x := -x) (by linarith) (by linarith)
  have hneg : scGfZ ellipk x D = -scGfZ ellipk ((-x : ℝ) : ℂ) D := by
    rw [scGfZ_eq hk.off, scGfZ_eq hk.off, Complex.ofReal_neg, mul_neg, scForm_neg, mul_neg, neg_neg]
  constructor
  · rw [hneg]
    refine h1.neg.congr' ?_
    filter_upwards [self_mem_nhdsWithin] with η hη
    have hη : 0 < η := hη
    rw [← sc_green_neg hD (offBand_of_im D (by simpa using hη.ne'))]
    congr 1
    push_cast
    ring
  · rw [hneg, Complex.neg_im]
    linarith

/-- C57: `sc.dos_mp` and `sc.dos` agree outside of both tolerances. -/
theorem sc_dos_mp_partial {ellipk : ℂ → ℂ} (hk : EllipkContract ellipk) {D tol tolMp e : ℝ} (hD : 0 < D) (he : e ≠ 0)
    (h : tol ≤ 3 / D * |e|) (hMp : tolMp ≤ |e|) : scDosMp ellipk tolMp e D = scDos ellipk tol e D := by
  rw [scDos_tol hk.off hD he h]
  unfold scDosMp
  simp only
  rw [if_neg (not_lt.2 hMp), scGfZMp_eq hk.off, show (3 : ℂ) / (D : ℂ) = ((3 / D : ℝ) : ℂ) by push_cast; rfl,
    Complex.im_ofReal_mul, ← Complex.ofReal_mul]
  ring

lemma scDosZero_pos {ellipk : ℂ → ℂ} (hk : EllipkContract ellipk) : 0 < scDosZero ellipk := by
  have hpi := Real.pi_pos
  have h3 : 1 < √3 := by rw [Real.lt_sqrt] <;> norm_num
  have h3' : √3 < 2 := by rw [Real.sqrt_lt'] <;> norm_num
  unfold scDosZero
  simp only
  have e1 : (0.25 : ℂ) * (2 - ((√3 : ℝ) : ℂ)) = ((0.25 * (2 - √3) : ℝ) : ℂ) := by push_cast; ring
  rw [e1]
  set m := 0.25 * (2 - √3) with hm
  have hm0 : 0 < m := by rw [hm]; norm_num; linarith
  have hm1 : m < 1 := by rw [hm]; norm_num; linarith
  have e2 : (1 : ℂ) - (m : ℂ) = ((1 - m : ℝ) : ℂ) := by push_cast; ring
  rw [e2, hk.off, hk.off, ellipK_ofReal hm1, ellipK_ofReal (by linarith)]
  · have e3 : (2 / (Real.pi : ℂ) ^ 2) * ((ellipKR m : ℝ) : ℂ) * ((ellipKR (1 - m) : ℝ) : ℂ) / (Real.pi : ℂ)
        = ((2 / Real.pi ^ 2 * ellipKR m * ellipKR (1 - m) / Real.pi : ℝ) : ℂ) := by push_cast; ring
    rw [e3, Complex.ofReal_re]
    have := ellipKR_pos hm1
    have := ellipKR_pos (m := 1 - m) (by linarith)
    positivity
  · rw [← e2, sub_sub_cancel, Complex.ofReal_mem_slitPlane]; exact hm0
  · rw [e2, Complex.ofReal_mem_slitPlane]; linarith

lemma scDosExpansion_eq (ellipk : ℂ → ℂ) (e : ℝ) :
    scDosExpansion ellipk e 3.0 = scDosZero ellipk
      + (scDosZero ellipk / 18 - 1 / (3 * Real.pi ^ 4 * scDosZero ellipk)) * e ^ 2
      + (scDosZero ellipk * (11 / 648) - 1 / (3 * Real.pi ^ 4 * scDosZero ellipk) * (7 / 18)) * e ^ 4
      + (scDosZero ellipk * (19 / 2160) - 1 / (3 * Real.pi ^ 4 * scDosZero ellipk) * (5 / 24)) * e ^ 6 := by
  unfold scDosExpansion
  simp only [scD0, scD1, List.zip, List.zipWith, List.zipIdx, List.map, List.sum_cons, List.sum_nil]
  rw [show (3.0 : ℝ) / 3 = 1 by norm_num]
  ring

/-- C57, disagreement: around the middle of the band `sc.dos_mp` and `sc.dos` differ: the former applies
the expansion coefficients, which belong to half-bandwidth 3, to the energy without rescaling it. Here for half-bandwidth 1
and arbitrary tolerances. -/
theorem sc_dos_mp_differs {ellipk : ℂ → ℂ} (hk : EllipkContract ellipk) {tol tolMp : ℝ} (h : 0 < tol) (hMp : 0 < tolMp) :
    ∃ e, 0 < e ∧ 3 * e < tol ∧ e < tolMp ∧ scDosMp ellipk tolMp e 1 ≠ scDos ellipk tol e 1 := by
  by_contra hcon
  push Not at hcon
  have hpi := Real.pi_pos
  have hd := scDosZero_pos hk
  set d := scDosZero ellipk with hdd
  set p := 1 / (3 * Real.pi ^ 4 * d) with hp
  have hp0 : 0 < p := by positivity
  have key : ∀ e, 0 < e → 3 * e < tol → e < tolMp →
      (d / 6 - p / 3 - 27 * (d / 18 - p)) + (d * (11 / 216) - p / 3 * (7 / 18) - 243 * (d * (11 / 648) - p * (7 / 18))) * e ^ 2
        + (d * (19 / 720) - p / 3 * (5 / 24) - 2187 * (d * (19 / 2160) - p * (5 / 24))) * e ^ 4 = 0 := by
    intro e he h1 h2
    have h3 := hcon e he h1 h2
    unfold scDosMp scDos at h3
    simp only at h3
    have e3 : (3 : ℝ) / 1 = 3 := by norm_num
    rw [e3, abs_of_pos he, abs_of_pos (by positivity : 0 < 3 * e), if_pos h2, if_pos h1, scDosExpansion_eq, ← hdd, ← hp] at h3
    simp only [scD0, scD1, List.zip, List.zipWith, List.zipIdx, List.map, List.sum_cons, List.sum_nil] at h3
    have e4 : 1 / (3 * Real.pi ^ 4 * (3 * d)) = p / 3 := by rw [hp]; field_simp
    rw [e4] at h3
    have he2 : e ^ 2 ≠ 0 := by positivity
    refine mul_right_cancel₀ he2 ?_
    linear_combination h3
  set A := d / 6 - p / 3 - 27 * (d / 18 - p) with hA
  set B := d * (11 / 216) - p / 3 * (7 / 18) - 243 * (d * (11 / 648) - p * (7 / 18)) with hB
  set C := d * (19 / 720) - p / 3 * (5 / 24) - 2187 * (d * (19 / 2160) - p * (5 / 24)) with hC
  set m := min tol tolMp with hm
  have hm0 : 0 < m := lt_min h hMp
  have hmt : m ≤ tol := min_le_left _ _
  have hmm : m ≤ tolMp := min_le_right _ _
  have k1 := key (m / 6) (by positivity) (by linarith) (by linarith)
  have k2 := key (m / 12) (by positivity) (by linarith) (by linarith)
  have k3 := key (m / 24) (by positivity) (by linarith) (by linarith)
  have hm2 : m ^ 2 ≠ 0 := by positivity
  have hA0 : A = 0 := by linear_combination (1 / 45) * k1 - (4 / 9) * k2 + (64 / 45) * k3
  rw [hA0] at k1 k2
  have hB0 : B = 0 := by
    have : B * m ^ 2 = 0 := by linear_combination -12 * k1 + 192 * k2
    exact (mul_eq_zero.1 this).resolve_right hm2
  rw [hA] at hA0
  rw [hB] at hB0
  linarith

example : ∃ ellipk : ℂ → ℂ, EllipkContract ellipk ∧ OffBand (Complex.I : ℂ) 1 ∧ (2 : ℝ) ^ (-13 : ℤ) ≤ 3 / 1 * |(1 / 2 : ℝ)| :=
  ⟨ellipK, EllipkContract.exact, offBand_of_im 1 (by simp), by norm_num [abs_of_pos]⟩

end Gftool.Props
