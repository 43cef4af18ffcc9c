import Verif.Lemmas.Clausen
import Verif.Lemmas.UpperRoot
import Verif.Model.Bcc
import Verif.Props.BzMoments
import Verif.Props.TriangularGf
import Mathlib.Analysis.Real.Pi.Bounds

/-!
# Body-centred cubic lattice (C57, C61, C62)
-/

namespace Gftool.Props

open Gftool Model Spec Lemmas MeasureTheory ComplexConjugate

open scoped ENNReal Topology

lemma measurable_bccDisp (D : ℝ) : Measurable (bccDisp D) := by
  unfold bccDisp
  have := Real.continuous_cos.measurable
  fun_prop

lemma bccDisp_abs {D : ℝ} (hD : 0 ≤ D) (k : ℝ × ℝ × ℝ) : |bccDisp D k| ≤ D := by
  unfold bccDisp
  rw [abs_mul, abs_mul, abs_mul, abs_of_nonneg hD]
  have h1 := Real.abs_cos_le_one k.1
  have h2 := Real.abs_cos_le_one k.2.1
  have h3 := Real.abs_cos_le_one k.2.2
  have : |Real.cos k.1| * |Real.cos k.2.1| * |Real.cos k.2.2| ≤ 1 :=
    mul_le_one₀ (mul_le_one₀ h1 (abs_nonneg _) h2) (abs_nonneg _) h3
  calc _ ≤ D * 1 := by gcongr
    _ = D := mul_one D

lemma bccDisp_mem {D : ℝ} (hD : 0 ≤ D) (k : ℝ × ℝ × ℝ) : bccDisp D k ∈ Set.Icc (-D) D :=
  abs_le.1 (bccDisp_abs hD k)

/-- The Green's function as function of the principal root. -/
noncomputable def bccForm (z r : ℂ) : ℂ := 4 / (Real.pi ^ 2 * z) * ellipK ((1 - r) / 2) ^ 2

lemma ellipDom_half {r : ℂ} (hr : 0 ≤ r.re) : (1 - r) / 2 ∈ ellipDom := by
  change 1 - (1 - r) / 2 ∈ Complex.slitPlane
  rw [Complex.mem_slitPlane_iff]
  left
  have : (1 - (1 - r) / 2).re = (1 + r.re) / 2 := by
    rw [show 1 - (1 - r) / 2 = ((1 / 2 : ℝ) : ℂ) * (1 + r) by push_cast; ring, Complex.re_ofReal_mul]
    simp
    ring
  rw [this]
  linarith

lemma offBand_slit {z : ℂ} (hz : ∀ e ∈ Set.Icc (-1 : ℝ) 1, z ≠ (e : ℂ)) : 1 - 1 / z ^ 2 ∈ Complex.slitPlane := by
  have hz0 : z ≠ 0 := by simpa using hz 0 (by norm_num)
  by_contra h
  rw [Complex.mem_slitPlane_iff, not_or, not_lt, not_not] at h
  set r := (1 / z ^ 2).re with hr
  have h1 : (1 : ℂ) / z ^ 2 = (r : ℝ) := by
    apply Complex.ext
    · rw [Complex.ofReal_re]
    · have := h.2
      rw [Complex.sub_im, Complex.one_im] at this
      rw [Complex.ofReal_im]
      linarith
  have hr1 : 1 ≤ r := by
    have := h.1
    rw [Complex.sub_re, Complex.one_re] at this
    linarith
  have h2 : z ^ 2 = ((1 / r : ℝ) : ℂ) := by
    push_cast
    rw [← h1]
    field_simp
  have him := congrArg Complex.im h2
  have hre := congrArg Complex.re h2
  rw [pow_two, Complex.mul_im, Complex.ofReal_im] at him
  rw [pow_two, Complex.mul_re, Complex.ofReal_re] at hre
  have hpos : 0 < 1 / r := by positivity
  have hle : 1 / r ≤ 1 := by rw [div_le_one (by linarith)]; exact hr1
  have him0 : z.im = 0 := by
    have : z.re * z.im = 0 := by linarith
    rcases mul_eq_zero.1 this with h' | h'
    · rw [h'] at hre
      nlinarith [mul_self_nonneg z.im]
    · exact h'
  rw [him0] at hre
  refine hz z.re ?_ (by apply Complex.ext <;> simp [him0])
  constructor <;> nlinarith

/-- The Green's function for unit half-bandwidth. -/
lemma bcc_green_one {z : ℂ} (hz : ∀ e ∈ Set.Icc (-1 : ℝ) 1, z ≠ (e : ℂ)) :
    bzGreen bz3 (bccDisp 1) z = bccForm z (Complex.sqrt (1 - 1 / z ^ 2)) := by
  have hpi := Real.pi_pos
  obtain ⟨r, hr0, hr⟩ := clausen
  refine eq_offBand (f := bzGreen bz3 (bccDisp 1)) (g := fun z => bccForm z (Complex.sqrt (1 - 1 / z ^ 2)))
    (X := max 1 (1 / r)) (differentiableOn_bzGreen (measurable_bccDisp 1) (bccDisp_mem zero_le_one)) ?_ ?_ hz
  · intro z hz
    have hz0 : z ≠ 0 := by simpa using hz 0 (by norm_num)
    have hs := offBand_slit hz
    apply DifferentiableAt.differentiableWithinAt
    have hw : DifferentiableAt ℂ (fun z : ℂ => 1 - 1 / z ^ 2) z := by
      apply DifferentiableAt.const_sub
      exact (differentiableAt_const _).div (by fun_prop) (pow_ne_zero _ hz0)
    have hsq : DifferentiableAt ℂ (fun z : ℂ => Complex.sqrt (1 - 1 / z ^ 2)) z :=
      DifferentiableAt.comp (f := fun z : ℂ => 1 - 1 / z ^ 2) z (hasDerivAt_sqrt hs).differentiableAt hw
    have hk : DifferentiableAt ℂ (fun z : ℂ => ellipK ((1 - Complex.sqrt (1 - 1 / z ^ 2)) / 2)) z :=
      DifferentiableAt.comp (f := fun z : ℂ => (1 - Complex.sqrt (1 - 1 / z ^ 2)) / 2) z
        (differentiableOn_ellipK.differentiableAt (isOpen_ellipDom.mem_nhds (ellipDom_half (sqrt_re_nonneg _))))
        ((hsq.const_sub 1).div_const 2)
    unfold bccForm
    exact ((differentiableAt_const _).div (by fun_prop)
      (mul_ne_zero (by exact_mod_cast (by positivity : Real.pi ^ 2 ≠ 0)) hz0)).mul (hk.pow 2)
  · intro x hx
    obtain ⟨hx1, hxr⟩ := max_lt_iff.1 hx
    have hx0 : 0 < x := by linarith
    have ht0 : 0 < 1 / x ^ 2 := by positivity
    have ht1 : 1 / x ^ 2 < 1 := by rw [div_lt_one (by positivity)]; nlinarith
    set s := √(1 - 1 / x ^ 2) with hs
    have hs0 : 0 ≤ s := Real.sqrt_nonneg _
    have hs2 : s ^ 2 = 1 - 1 / x ^ 2 := Real.sq_sqrt (by linarith)
    have hs1 : s < 1 := by nlinarith
    set m := (1 - s) / 2 with hm
    have hm0 : 0 < m := by rw [hm]; linarith
    have hmr : m < r := by
      have h1 : m ≤ 1 / x ^ 2 := by
        have : m ≤ (1 - s ^ 2) := by rw [hm]; nlinarith
        linarith
      have h2 : 1 / x ^ 2 ≤ 1 / x := by
        apply one_div_le_one_div_of_le hx0
        nlinarith
      have h3 : 1 / x < r := by
        rw [div_lt_iff₀ hr0] at hxr
        rw [div_lt_iff₀ hx0]
        linarith
      linarith
    have h := hr m ⟨hm0, hmr⟩
    have hmm : 4 * (m * (1 - m)) = (1 / x) ^ 2 := by
      rw [hm, one_div_pow]
      linear_combination -hs2
    rw [hmm] at h
    have hser := bzGreen_series (μ := bz3) (measurable_bccDisp 1) (bccDisp_abs zero_le_one) hx1
    have hc : bandMoment bz3 (bccDisp 1) = fun n => ((bccM n : ℚ) : ℝ) := by
      funext n
      rw [bcc_bandMoment]
      simp
    rw [hser, hc, dser_even (fun n hn => by simp [bccM, arcsineMoment_odd (hn)])]
    rw [Complex.ofReal_mul]
    have hcc : (fun n => ((bccM (2 * n) : ℚ) : ℝ)) = clausenCoeff := rfl
    rw [hcc, h, bccForm]
    have hsq : Complex.sqrt (1 - 1 / (x : ℂ) ^ 2) = (s : ℝ) := by
      rw [show (1 : ℂ) - 1 / (x : ℂ) ^ 2 = ((1 - 1 / x ^ 2 : ℝ) : ℂ) by push_cast; ring, sqrt_ofReal (by linarith)]
    rw [hsq, show (1 - (s : ℂ)) / 2 = (m : ℝ) by rw [hm]; push_cast; ring]
    have hpic : (Real.pi : ℂ) ≠ 0 := by exact_mod_cast hpi.ne'
    have hxc : (x : ℂ) ≠ 0 := by exact_mod_cast hx0.ne'
    push_cast
    field_simp
    ring

lemma bcc_scale {D : ℝ} (hD : 0 < D) (z : ℂ) :
    bzGreen bz3 (bccDisp D) z = 1 / D * bzGreen bz3 (bccDisp 1) (z / D) := by
  have hDc : (D : ℂ) ≠ 0 := by exact_mod_cast hD.ne'
  unfold bzGreen
  rw [← integral_const_mul]
  congr 1
  funext k
  unfold bccDisp
  push_cast
  rw [one_div_mul_one_div, mul_sub, mul_div_cancel₀ _ hDc, one_mul]

/-- The Green's function off the band. -/
lemma bcc_green {D : ℝ} (hD : 0 < D) {z : ℂ} (hz : OffBand z D) :
    bzGreen bz3 (bccDisp D) z = bccForm z (Complex.sqrt (1 - D ^ 2 / z ^ 2)) := by
  have hDc : (D : ℂ) ≠ 0 := by exact_mod_cast hD.ne'
  have hz0 : z ≠ 0 := by simpa using hz 0 (by simpa using hD.le)
  have hpic : (Real.pi : ℂ) ≠ 0 := by exact_mod_cast Real.pi_ne_zero
  rw [bcc_scale hD, bcc_green_one]
  · unfold bccForm
    rw [div_pow, one_div_div]
    field_simp
  · intro e he h
    refine hz (e * D) ?_ ?_
    · rw [abs_mul, abs_of_pos hD]
      have := abs_le.2 he
      nlinarith
    · rw [div_eq_iff hDc] at h
      rw [h]
      push_cast
      ring

lemma bccGfZ_eq {ellipk : ℂ → ℂ} (hk : ∀ m : ℂ, 1 - m ∈ Complex.slitPlane → ellipk m = ellipK m) (z : ℂ) (D : ℝ) :
    bccGfZ ellipk z D = bccForm z (Complex.sqrt (1 - D ^ 2 / z ^ 2)) := by
  unfold bccGfZ bccForm
  simp only
  have h1 : (1 : ℂ) - (z / D) ^ (-2 : ℤ) = 1 - D ^ 2 / z ^ 2 := by
    rw [zpow_neg, ← inv_zpow, inv_div]
    norm_cast
    rw [div_pow]
    push_cast
    rfl
  have h2 : (0.5 : ℂ) * (1 - Complex.sqrt (1 - D ^ 2 / z ^ 2)) = (1 - Complex.sqrt (1 - D ^ 2 / z ^ 2)) / 2 := by
    norm_num
    ring
  rw [h1, h2, hk _ (ellipDom_half (sqrt_re_nonneg _))]

/-- C62: `bcc.gf_z` is the local Green's function of the dispersion `ε(k) = D cos kx cos ky cos kz` for all
energies off the band. -/
theorem bcc_gf_z {ellipk : ℂ → ℂ} (hk : EllipkContract ellipk) {D : ℝ} (hD : 0 < D) {z : ℂ} (hz : OffBand z D) :
    bccGfZ ellipk z D = bzGreen bz3 (bccDisp D) z ∧ bccHilbert ellipk z D = bzGreen bz3 (bccDisp D) z := by
  have h : bccGfZ ellipk z D = bzGreen bz3 (bccDisp D) z := by
    rw [bccGfZ_eq hk.off, bcc_green hD hz]
  exact ⟨h, h⟩

/-- Boundary values from above for positive energies. -/
noncomputable def bccH (D : ℝ) (z : ℂ) : ℂ := bccForm z (sqrtU (1 - D ^ 2 / z ^ 2))

lemma continuousAt_bccForm {z r : ℂ} (hz : z ≠ 0) (hr : 0 ≤ r.re) :
    ContinuousAt (fun p : ℂ × ℂ => bccForm p.1 p.2) (z, r) := by
  unfold bccForm
  have hk : ContinuousAt (fun p : ℂ × ℂ => ellipK ((1 - p.2) / 2)) (z, r) := by
    refine ContinuousAt.comp (f := fun p : ℂ × ℂ => (1 - p.2) / 2) (g := ellipK) ?_ (by fun_prop)
    exact (differentiableOn_ellipK.differentiableAt (isOpen_ellipDom.mem_nhds (ellipDom_half hr))).continuousAt
  have hpi : (Real.pi : ℂ) ^ 2 ≠ 0 := pow_ne_zero _ (by exact_mod_cast Real.pi_ne_zero)
  have h1 : ContinuousAt (fun p : ℂ × ℂ => 4 / ((Real.pi : ℂ) ^ 2 * p.1)) (z, r) :=
    ContinuousAt.div continuousAt_const (by fun_prop) (mul_ne_zero hpi hz)
  exact h1.mul (hk.pow 2)

lemma continuousAt_bccH (D : ℝ) {z : ℂ} (hz : z ≠ 0) : ContinuousAt (bccH D) z := by
  have h1 : ContinuousAt (fun z : ℂ => sqrtU (1 - D ^ 2 / z ^ 2)) z :=
    continuous_sqrtU.continuousAt.comp (f := fun z : ℂ => 1 - (D : ℂ) ^ 2 / z ^ 2)
      (continuousAt_const.sub (continuousAt_const.div (by fun_prop) (pow_ne_zero _ hz)))
  exact ContinuousAt.comp (f := fun z : ℂ => (z, sqrtU (1 - D ^ 2 / z ^ 2))) (g := fun p : ℂ × ℂ => bccForm p.1 p.2)
    (continuousAt_bccForm hz (sqrtU_re_nonneg _)) (continuousAt_id.prodMk h1)

lemma offBand_of_im {z : ℂ} (D : ℝ) (hz : z.im ≠ 0) : OffBand z D := by
  rintro e _ rfl
  simp at hz

lemma bccH_upper {D : ℝ} (hD : 0 < D) {z : ℂ} (hr : 0 < z.re) (hi : 0 < z.im) :
    bccH D z = bzGreen bz3 (bccDisp D) z := by
  have hz0 : z ≠ 0 := fun h => by simp [h] at hr
  rw [bcc_green hD (offBand_of_im D hi.ne'), bccH, sqrtU_eq]
  have hn : 0 < Complex.normSq z := Complex.normSq_pos.2 hz0
  have : (1 - (D : ℂ) ^ 2 / z ^ 2).im = 2 * D ^ 2 * z.re * z.im / Complex.normSq z ^ 2 := by
    rw [show (1 : ℂ) - (D : ℂ) ^ 2 / z ^ 2 = 1 - ((D ^ 2 : ℝ) : ℂ) * (z ^ 2)⁻¹ by push_cast; ring, Complex.sub_im,
      Complex.im_ofReal_mul, Complex.inv_im, map_pow, pow_two z, Complex.mul_im, Complex.one_im]
    ring
  rw [this]
  positivity

/-- The Green's function is odd. -/
lemma bccForm_neg (z r : ℂ) : bccForm (-z) r = -bccForm z r := by
  unfold bccForm
  rw [mul_neg, div_neg, neg_mul]

lemma bcc_green_neg {D : ℝ} (hD : 0 < D) {z : ℂ} (hz : OffBand z D) :
    bzGreen bz3 (bccDisp D) (-z) = -bzGreen bz3 (bccDisp D) z := by
  rw [bcc_green hD hz, bcc_green hD, bccForm_neg, neg_sq]
  intro e he h
  refine hz (-e) (by rwa [abs_neg]) ?_
  push_cast
  rw [← h, neg_neg]

lemma bccH_upper_neg {D : ℝ} (hD : 0 < D) {z : ℂ} (hr : z.re < 0) (hi : 0 < z.im) :
    -conj (bccH D (-conj z)) = bzGreen bz3 (bccDisp D) z := by
  rw [bccH_upper hD (by simpa using hr) (by simpa using hi), bcc_green_neg hD (offBand_of_im D (by simpa using hi.ne')),
    bzGreen_conj, map_neg, Complex.conj_conj, neg_neg]

/-- The modulus of the elliptic integral on the band. -/
noncomputable def bccM' (t : ℝ) : ℂ := 1 / 2 - Complex.I * (t / 2)

lemma bccH_pos {D e : ℝ} (he : 0 < e) (heD : e ≤ D) :
    bccH D e = ((4 / (Real.pi ^ 2 * e) : ℝ) : ℂ) * ellipK (bccM' √(D ^ 2 / e ^ 2 - 1)) ^ 2 := by
  have h0 : 0 ≤ D ^ 2 / e ^ 2 - 1 := by
    rw [sub_nonneg, le_div_iff₀ (by positivity), one_mul]
    gcongr
  unfold bccH bccForm bccM'
  rw [show (1 : ℂ) - (D : ℂ) ^ 2 / (e : ℂ) ^ 2 = -((D ^ 2 / e ^ 2 - 1 : ℝ) : ℂ) by push_cast; ring,
    sqrtU_neg_ofReal h0]
  congr 1
  · push_cast; rfl
  · congr 2
    ring

lemma bccH_above {D e : ℝ} (hD : 0 < D) (heD : D ≤ e) : (bccH D e).im = 0 := by
  have he : 0 < e := by linarith
  have h0 : 0 ≤ 1 - D ^ 2 / e ^ 2 := by
    rw [sub_nonneg, div_le_one (by positivity)]
    gcongr
  unfold bccH bccForm
  have h1 := Real.sqrt_nonneg (1 - D ^ 2 / e ^ 2)
  rw [show (1 : ℂ) - (D : ℂ) ^ 2 / (e : ℂ) ^ 2 = ((1 - D ^ 2 / e ^ 2 : ℝ) : ℂ) by push_cast; ring, sqrtU_ofReal h0,
    show (1 - ((√(1 - D ^ 2 / e ^ 2) : ℝ) : ℂ)) / 2 = (((1 - √(1 - D ^ 2 / e ^ 2)) / 2 : ℝ) : ℂ) by push_cast; ring,
    ellipK_ofReal (by linarith)]
  have : (4 : ℂ) / ((Real.pi : ℂ) ^ 2 * (e : ℂ)) * ((ellipKR ((1 - √(1 - D ^ 2 / e ^ 2)) / 2) : ℝ) : ℂ) ^ 2
      = ((4 / (Real.pi ^ 2 * e) * ellipKR ((1 - √(1 - D ^ 2 / e ^ 2)) / 2) ^ 2 : ℝ) : ℂ) := by push_cast; ring
  rw [this, Complex.ofReal_im]

lemma bccM'_seg (t s : ℝ) : 1 - bccM' t * (s : ℂ) ^ 2 = ((1 - s ^ 2 / 2 : ℝ) : ℂ) + ((t * s ^ 2 / 2 : ℝ) : ℂ) * Complex.I := by
  unfold bccM'
  push_cast
  ring

lemma bccM'_dom (t : ℝ) : bccM' t ∈ ellipDom := by
  have : bccM' t = (1 - Complex.I * t) / 2 := by unfold bccM'; ring
  rw [this]
  exact ellipDom_half (by simp)

/-- The integrand of the elliptic integral on the band. -/
lemma bcc_integrand (t : ℝ) {s : ℝ} (hs : s ^ 2 ≤ 1) :
    let c := Complex.sqrt (1 - bccM' t * (s : ℂ) ^ 2)
    0 < (1 / c).re ∧ (0 < t → 0 < s → (1 / c).im < 0) ∧ ‖1 / c‖ ≤ √2 := by
  intro c
  have hw := bccM'_seg t s
  have hre : (1 - bccM' t * (s : ℂ) ^ 2).re = 1 - s ^ 2 / 2 := by rw [hw]; simp [-Complex.ofReal_sub, -Complex.ofReal_div, -Complex.ofReal_mul]
  have him : (1 - bccM' t * (s : ℂ) ^ 2).im = t * s ^ 2 / 2 := by rw [hw]; simp [-Complex.ofReal_sub, -Complex.ofReal_div, -Complex.ofReal_mul]
  have hslit : 1 - bccM' t * (s : ℂ) ^ 2 ∈ Complex.slitPlane := by
    rw [Complex.mem_slitPlane_iff, hre]
    left; linarith
  have hc : 0 < c.re := sqrt_re_pos hslit
  have hc2 : c ^ 2 = 1 - bccM' t * (s : ℂ) ^ 2 := sqrt_sq' _
  have hc0 : c ≠ 0 := sqrt_ne_zero hslit
  have hn : 0 < Complex.normSq c := Complex.normSq_pos.2 hc0
  refine ⟨?_, ?_, ?_⟩
  · rw [one_div, Complex.inv_re]
    positivity
  · intro ht hs0
    have h := congrArg Complex.im hc2
    rw [him, pow_two, Complex.mul_im] at h
    have hpos : 0 < t * s ^ 2 / 2 := by positivity
    have hcim : 0 < c.im := by
      have : 0 < c.re * c.im := by linarith
      exact (pos_iff_pos_of_mul_pos this).1 hc
    rw [one_div, Complex.inv_im, neg_div, neg_lt_zero]
    positivity
  · have h1 : ‖c‖ ^ 2 = ‖1 - bccM' t * (s : ℂ) ^ 2‖ := by rw [← norm_pow, hc2]
    have h2 : 1 / 2 ≤ ‖1 - bccM' t * (s : ℂ) ^ 2‖ := by
      refine le_trans ?_ (Complex.re_le_norm _)
      rw [hre]; linarith
    rw [norm_div, norm_one, div_le_iff₀ (norm_pos_iff.2 hc0)]
    rw [← h1] at h2
    have h3 : √2 ^ 2 = 2 := Real.sq_sqrt (by norm_num)
    by_contra hcon
    rw [not_le] at hcon
    have h4 : (√2 * ‖c‖) ^ 2 < 1 := by
      have : 0 ≤ √2 * ‖c‖ := by positivity
      nlinarith
    rw [mul_pow, h3] at h4
    linarith

/-- The elliptic integral on the band: signs and size. -/
lemma ellipK_band (t : ℝ) :
    0 < (ellipK (bccM' t)).re ∧ (0 < t → (ellipK (bccM' t)).im < 0) ∧ ‖ellipK (bccM' t)‖ ≤ √2 * (Real.pi / 2) := by
  have hpi := Real.pi_pos
  have hcont : ContinuousOn (fun θ : ℝ => 1 / Complex.sqrt (1 - bccM' t * (Real.sin θ : ℂ) ^ 2)) (Set.uIcc 0 (Real.pi / 2)) := by
    intro θ _
    apply ContinuousAt.continuousWithinAt
    have hsl : 1 - bccM' t * (Real.sin θ : ℂ) ^ 2 ∈ Complex.slitPlane := by
      have := slit_seg (bccM'_dom t) (s := Real.sin θ ^ 2) ⟨by positivity, Real.sin_sq_le_one θ⟩
      push_cast at this ⊢
      exact this
    refine ContinuousAt.div continuousAt_const ?_ (sqrt_ne_zero hsl)
    refine ContinuousAt.comp (f := fun θ : ℝ => 1 - bccM' t * (Real.sin θ : ℂ) ^ 2) (continuousAt_sqrt hsl) ?_
    have := Complex.continuous_ofReal.comp Real.continuous_sin
    have h2 : Continuous fun θ : ℝ => ((Real.sin θ : ℝ) : ℂ) := this
    fun_prop
  have hint := hcont.intervalIntegrable (μ := volume)
  have hs2 : ∀ θ : ℝ, Real.sin θ ^ 2 ≤ 1 := Real.sin_sq_le_one
  refine ⟨?_, ?_, ?_⟩
  · unfold ellipK
    rw [← Complex.reCLM_apply, ← ContinuousLinearMap.intervalIntegral_comp_comm _ hint]
    refine intervalIntegral.intervalIntegral_pos_of_pos_on (Complex.reCLM.continuous.comp_continuousOn hcont).intervalIntegrable ?_ (by linarith)
    intro θ _
    exact (bcc_integrand t (hs2 θ)).1
  · intro ht
    unfold ellipK
    rw [← Complex.imCLM_apply, ← ContinuousLinearMap.intervalIntegral_comp_comm _ hint, ← neg_pos,
      ← intervalIntegral.integral_neg]
    refine intervalIntegral.intervalIntegral_pos_of_pos_on (Complex.imCLM.continuous.comp_continuousOn hcont).neg.intervalIntegrable ?_ (by linarith)
    intro θ hθ
    rw [neg_pos]
    exact (bcc_integrand t (hs2 θ)).2.1 ht (Real.sin_pos_of_pos_of_lt_pi hθ.1 (by linarith [hθ.2]))
  · unfold ellipK
    have := intervalIntegral.norm_integral_le_of_norm_le_const (a := 0) (b := Real.pi / 2) (C := √2)
      (f := fun θ : ℝ => 1 / Complex.sqrt (1 - bccM' t * (Real.sin θ : ℂ) ^ 2)) fun θ _ =>
        (bcc_integrand t (hs2 θ)).2.2
    rwa [sub_zero, abs_of_pos (by positivity : 0 < Real.pi / 2)] at this

lemma ellipK_band_im (t : ℝ) (ht : 0 < t) : (ellipK (bccM' t) ^ 2).im < 0 := by
  obtain ⟨h1, h2, _⟩ := ellipK_band t
  rw [pow_two, Complex.mul_im]
  nlinarith [h2 ht]

lemma ellipK_band_zero : (ellipK (bccM' 0) ^ 2).im = 0 := by
  have : bccM' 0 = ((1 / 2 : ℝ) : ℂ) := by unfold bccM'; push_cast; ring
  rw [this, ellipK_ofReal (by norm_num), ← Complex.ofReal_pow, Complex.ofReal_im]

lemma bccDosFinite_eq {ellipk : ℂ → ℂ} (hk : ∀ m : ℂ, 1 - m ∈ Complex.slitPlane → ellipk m = ellipK m) (e D : ℝ) :
    bccDosFinite ellipk e D
      = 4 / (Real.pi ^ 3 * |e|) * -(ellipK (bccM' √(D ^ 2 / |e| ^ 2 - 1)) ^ 2).im := by
  unfold bccDosFinite
  simp only
  have h1 : (e / D) ^ (-2 : ℤ) - 1 = D ^ 2 / |e| ^ 2 - 1 := by
    rw [zpow_neg, ← inv_zpow, inv_div, sq_abs]
    norm_cast
    rw [div_pow]
  have h2 : (0.5 : ℂ) - 0.5 * Complex.I * ((√(D ^ 2 / |e| ^ 2 - 1) : ℝ) : ℂ) = bccM' √(D ^ 2 / |e| ^ 2 - 1) := by
    unfold bccM'
    norm_num
    ring
  rw [h1, h2, hk _ (bccM'_dom _)]
  ring

lemma bccDos_fin {ellipk : ℂ → ℂ} {e D : ℝ} (hD : 0 < D) (he : e ≠ 0) (heD : |e| ≤ D) :
    bccDos ellipk e D = (bccDosFinite ellipk e D : ℝ) := by
  unfold bccDos
  simp only
  rw [if_neg (div_ne_zero he hD.ne'), if_pos (by rwa [abs_div, abs_of_pos hD, div_le_one hD])]

lemma bccDos_out {ellipk : ℂ → ℂ} {e D : ℝ} (hD : 0 < D) (heD : D < |e|) : bccDos ellipk e D = ((0 : ℝ) : WithTop ℝ) := by
  unfold bccDos
  simp only
  have he : e ≠ 0 := fun h => by rw [h, abs_zero] at heD; linarith
  rw [if_neg (div_ne_zero he hD.ne'), if_neg (by rw [abs_div, abs_of_pos hD, div_le_one hD]; exact not_le.2 heD)]

/-- C57: the density of states diverges in the middle of the band, and only there. -/
theorem bcc_dos_singular_iff (ellipk : ℂ → ℂ) {D : ℝ} (hD : 0 < D) (e : ℝ) : bccDos ellipk e D = ⊤ ↔ e = 0 := by
  constructor
  · intro h
    by_contra he
    rcases le_or_gt |e| D with h' | h'
    · rw [bccDos_fin hD he h'] at h
      exact WithTop.coe_ne_top h
    · rw [bccDos_out hD h'] at h
      exact WithTop.coe_ne_top h
  · rintro rfl
    simp [bccDos]

/-- C57: `bcc.dos_mp` and `bcc.dos` are the same function. -/
theorem bcc_dos_mp (ellipk : ℂ → ℂ) {D : ℝ} (hD : 0 < D) (e : ℝ) : bccDosMp ellipk e D = bccDos ellipk e D := by
  unfold bccDosMp
  by_cases h : |e| > D
  · rw [if_pos h, bccDos_out hD h]
  · rw [if_neg h]
    by_cases he : e = 0
    · rw [if_pos he, (bcc_dos_singular_iff ellipk hD e).2 he]
    · rw [if_neg he, bccDos_fin hD he (not_lt.1 h)]
      have h0 : 0 ≤ (e / D) ^ (-2 : ℤ) - 1 := by
        rw [zpow_neg, ← inv_zpow, inv_div]
        norm_cast
        rw [div_pow, sub_nonneg, le_div_iff₀ (by positivity), one_mul, ← sq_abs e]
        have := not_lt.1 h
        gcongr
      simp only [bccDosFinite]
      rw [sqrt_ofReal h0]

/-- C57: the density of states is positive inside of the band. -/
theorem bcc_dos_pos {ellipk : ℂ → ℂ} (hk : EllipkContract ellipk) {D : ℝ} {e : ℝ} (he : e ≠ 0) (heD : |e| < D) :
    ((0 : ℝ) : WithTop ℝ) < bccDos ellipk e D := by
  have hD : 0 < D := lt_of_le_of_lt (abs_nonneg e) heD
  have hpi := Real.pi_pos
  rw [bccDos_fin hD he heD.le, WithTop.coe_lt_coe, bccDosFinite_eq hk.off]
  have he' : 0 < |e| := abs_pos.2 he
  have := ellipK_band_im √(D ^ 2 / |e| ^ 2 - 1) (Real.sqrt_pos.2 (by
    rw [sub_pos, lt_div_iff₀ (by positivity), one_mul]
    gcongr))
  have h2 : 0 < -(ellipK (bccM' √(D ^ 2 / |e| ^ 2 - 1)) ^ 2).im := by linarith
  positivity

lemma bccDosFinite_nonneg {ellipk : ℂ → ℂ} (hk : ∀ m : ℂ, 1 - m ∈ Complex.slitPlane → ellipk m = ellipK m) (e D : ℝ) :
    0 ≤ bccDosFinite ellipk e D := by
  have hpi := Real.pi_pos
  rw [bccDosFinite_eq hk]
  have : 0 ≤ -(ellipK (bccM' √(D ^ 2 / |e| ^ 2 - 1)) ^ 2).im := by
    rcases (Real.sqrt_nonneg (D ^ 2 / |e| ^ 2 - 1)).eq_or_lt with h | h
    · rw [← h, ellipK_band_zero, neg_zero]
    · linarith [ellipK_band_im _ h]
  positivity

/-- The real values of the density of states; the single energy where it diverges is irrelevant for integrals. -/
noncomputable def bccDosReal (ellipk : ℂ → ℂ) (D e : ℝ) : ℝ := (bccDos ellipk e D).untopD 0

lemma bccDosReal_eq {ellipk : ℂ → ℂ} {D : ℝ} (hD : 0 < D) (e : ℝ) :
    bccDosReal ellipk D e = if e = 0 then 0 else if |e| ≤ D then bccDosFinite ellipk e D else 0 := by
  unfold bccDosReal
  split_ifs with h1 h2
  · rw [(bcc_dos_singular_iff ellipk hD e).2 h1]; rfl
  · rw [bccDos_fin hD h1 h2]; rfl
  · rw [bccDos_out hD (not_le.1 h2)]; rfl

lemma bccDosReal_bccH {ellipk : ℂ → ℂ} (hk : ∀ m : ℂ, 1 - m ∈ Complex.slitPlane → ellipk m = ellipK m) {D : ℝ} (hD : 0 < D)
    {e : ℝ} (he : e ≠ 0) : bccDosReal ellipk D e = -(bccH D (|e| : ℝ)).im / Real.pi := by
  have hpi := Real.pi_pos
  have he' : 0 < |e| := abs_pos.2 he
  rw [bccDosReal_eq hD, if_neg he]
  split_ifs with h
  · rw [bccDosFinite_eq hk, bccH_pos he' h, Complex.im_ofReal_mul]
    field_simp
  · rw [bccH_above hD (not_le.1 h).le]
    simp

lemma measurable_bccDosReal {ellipk : ℂ → ℂ} (hk : ∀ m : ℂ, 1 - m ∈ Complex.slitPlane → ellipk m = ellipK m) {D : ℝ}
    (hD : 0 < D) : Measurable (bccDosReal ellipk D) := by
  have : bccDosReal ellipk D = fun e => if e = 0 then 0 else if |e| ≤ D then
      4 / (Real.pi ^ 3 * |e|) * -(ellipK (bccM' √(D ^ 2 / |e| ^ 2 - 1)) ^ 2).im else 0 := by
    funext e
    rw [bccDosReal_eq hD, bccDosFinite_eq hk]
  rw [this]
  have hK := measurable_ellipK
  have hs : Measurable fun x : ℝ => √x := Real.continuous_sqrt.measurable
  have ha : Measurable fun x : ℝ => |x| := continuous_abs.measurable
  have hM : Measurable bccM' := by
    unfold bccM'
    have := Complex.measurable_ofReal
    fun_prop
  refine Measurable.ite (measurableSet_eq_fun measurable_id measurable_const) measurable_const
    (Measurable.ite (measurableSet_le ha measurable_const) ?_ measurable_const)
  refine Measurable.mul (by fun_prop) (Measurable.neg (Complex.measurable_im.comp (Measurable.pow_const (hK.comp (hM.comp (hs.comp ?_))) 2)))
  fun_prop

/-- No weight in the middle of the band. -/
lemma bcc_null {D : ℝ} (hD : 0 < D) : bz3.map (bccDisp D) {0} = 0 := by
  rw [Measure.map_apply (measurable_bccDisp D) (measurableSet_singleton 0)]
  have hA : bz {x : ℝ | Real.cos x = 0} = 0 := by
    have hc : {x : ℝ | Real.cos x = 0}.Countable := by
      have : {x : ℝ | Real.cos x = 0} ⊆ Set.range fun k : ℤ => (2 * (k : ℝ) + 1) * Real.pi / 2 := by
        intro x hx
        obtain ⟨k, hk⟩ := Real.cos_eq_zero_iff.1 hx
        exact ⟨k, hk.symm⟩
      exact (Set.countable_range _).mono this
    have hv : volume.restrict (Set.Ioc 0 (2 * Real.pi)) {x : ℝ | Real.cos x = 0} = 0 :=
      Measure.restrict_le_self.absolutelyContinuous (hc.measure_zero volume)
    unfold bz
    rw [Measure.smul_apply, hv, smul_zero]
  have hsub : bccDisp D ⁻¹' {0} ⊆ ({x : ℝ | Real.cos x = 0} ×ˢ Set.univ)
      ∪ (Set.univ ×ˢ ({x : ℝ | Real.cos x = 0} ×ˢ Set.univ)) ∪ (Set.univ ×ˢ (Set.univ ×ˢ {x : ℝ | Real.cos x = 0})) := by
    intro k hk
    have : D * (Real.cos k.1 * Real.cos k.2.1 * Real.cos k.2.2) = 0 := hk
    rcases mul_eq_zero.1 this with h | h
    · exact absurd h hD.ne'
    · rcases mul_eq_zero.1 h with h | h
      · rcases mul_eq_zero.1 h with h | h
        · exact Or.inl (Or.inl ⟨h, trivial⟩)
        · exact Or.inl (Or.inr ⟨trivial, h, trivial⟩)
      · exact Or.inr ⟨trivial, trivial, h⟩
  refine measure_mono_null hsub ?_
  unfold bz3
  rw [measure_union_null_iff, measure_union_null_iff]
  refine ⟨⟨?_, ?_⟩, ?_⟩
  · rw [Measure.prod_prod, hA, zero_mul]
  · rw [Measure.prod_prod, Measure.prod_prod, hA, zero_mul, mul_zero]
  · rw [Measure.prod_prod, Measure.prod_prod, hA, mul_zero, mul_zero]

/-- C61: `bcc.dos` is the density of the energies of the dispersion. -/
theorem bcc_dos {ellipk : ℂ → ℂ} (hk : EllipkContract ellipk) {D : ℝ} (hD : 0 < D) :
    IsDosOf bz3 (bccDisp D) (fun e => (bccDos ellipk e D).untopD 0) := by
  refine isDosOf_of_boundary (measurable_bccDisp D) (measurable_bccDosReal hk.off hD) ?_ (bcc_null hD) (by simp) ?_
  · intro e
    change 0 ≤ bccDosReal ellipk D e
    rw [bccDosReal_eq hD]
    split_ifs
    · exact le_rfl
    · exact bccDosFinite_nonneg hk.off e D
    · exact le_rfl
  · intro e he
    have he : e ≠ 0 := he
    rcases lt_or_gt_of_ne he with h | h
    · refine ⟨2 * e, e / 2, fun z => -conj (bccH D (-conj z)), by linarith, by linarith, ?_, ?_, ?_⟩
      · intro z hz
        have hz0 : z ≠ 0 := by
          rintro rfl
          have := hz.1.2
          simp at this
          linarith
        apply ContinuousAt.continuousWithinAt
        have hc := continuousAt_bccH D (z := -conj z) (by simpa using hz0)
        exact (Complex.continuous_conj.continuousAt.comp (ContinuousAt.comp (f := fun z : ℂ => -conj z) hc
          Complex.continuous_conj.neg.continuousAt)).neg
      · intro z hz hi
        exact bccH_upper_neg hD (by linarith [hz.2]) hi
      · intro x hx
        have hx0 : x < 0 := by linarith [hx.2]
        change bccDosReal ellipk D x = _
        rw [bccDosReal_bccH hk.off hD hx0.ne, abs_of_neg hx0]
        simp
    · refine ⟨e / 2, 2 * e, bccH D, by linarith, by linarith, ?_, ?_, ?_⟩
      · intro z hz
        have hz0 : z ≠ 0 := by
          rintro rfl
          have := hz.1.1
          simp at this
          linarith
        exact (continuousAt_bccH D hz0).continuousWithinAt
      · intro z hz hi
        exact bccH_upper hD (by linarith [hz.1]) hi
      · intro x hx
        have hx0 : 0 < x := by linarith [hx.1]
        change bccDosReal ellipk D x = _
        rw [bccDosReal_bccH hk.off hD hx0.ne', abs_of_pos hx0]

/-- C61: `bcc.gf_z` is the Hilbert transform of `bcc.dos`, which is normalised and vanishes outside of the band. -/
theorem bcc_hilbert {ellipk : ℂ → ℂ} (hk : EllipkContract ellipk) {D : ℝ} (hD : 0 < D) :
    HilbertPair (fun e => (bccDos ellipk e D).untopD 0) (fun z => bccGfZ ellipk z D) (-D) D 1 :=
  ((bcc_dos hk hD).hilbertPair (measurable_bccDisp D) fun e he => by
    rw [bccDos_out hD (not_le.1 fun h => he (abs_le.1 h))]; rfl).congr
    fun _ hz => (bcc_gf_z hk hD fun e he => hz e (abs_le.1 he)).1

/-- C62: for real energies inside of the band, `bcc.gf_z` is the retarded Green's function for positive energies. -/
theorem bcc_gf_z_real_retarded {ellipk : ℂ → ℂ} (hk : EllipkContract ellipk) {D x : ℝ} (hx : 0 < x) (hxD : x < D) :
    Filter.Tendsto (fun η : ℝ => bzGreen bz3 (bccDisp D) (x + η * Complex.I)) (𝓝[>] 0) (𝓝 (bccGfZ ellipk x D)) ∧
    (bccGfZ ellipk x D).im < 0 := by
  have hD : 0 < D := by linarith
  have hpi := Real.pi_pos
  have hval : bccGfZ ellipk x D = bccH D x := by
    rw [bccGfZ_eq hk.off, bccH]
    congr 1
    rw [show (1 : ℂ) - (D : ℂ) ^ 2 / (x : ℂ) ^ 2 = ((1 - D ^ 2 / x ^ 2 : ℝ) : ℂ) by push_cast; ring, sqrtU_real]
  constructor
  · have hc := (continuousAt_bccH D (z := (x : ℂ)) (by exact_mod_cast hx.ne')).tendsto
    have hl : Filter.Tendsto (fun η : ℝ => (x : ℂ) + η * Complex.I) (𝓝[>] 0) (𝓝 (x : ℂ)) := by
      have : Filter.Tendsto (fun η : ℝ => (x : ℂ) + η * Complex.I) (𝓝 0) (𝓝 ((x : ℂ) + (0 : ℝ) * Complex.I)) := by
        apply Continuous.tendsto
        have := Complex.continuous_ofReal
        fun_prop
      simp only [Complex.ofReal_zero, zero_mul, add_zero] at this
      exact this.mono_left nhdsWithin_le_nhds
    rw [hval]
    refine (hc.comp hl).congr' ?_
    filter_upwards [self_mem_nhdsWithin] with η hη
    exact bccH_upper hD (by simpa using hx) (by simpa using hη)
  · rw [hval, bccH_pos hx hxD.le, Complex.im_ofReal_mul]
    have := ellipK_band_im √(D ^ 2 / x ^ 2 - 1) (Real.sqrt_pos.2 (by
      rw [sub_pos, lt_div_iff₀ (by positivity), one_mul]
      gcongr))
    have h2 : 0 < 4 / (Real.pi ^ 2 * x) := by positivity
    nlinarith

/-- C62, disagreement: for negative real energies inside of the band `bcc.gf_z` is the advanced Green's function,
its imaginary part is positive. -/
theorem bcc_gf_z_real_advanced {ellipk : ℂ → ℂ} (hk : EllipkContract ellipk) {D x : ℝ} (hx : x < 0) (hxD : -D < x) :
    Filter.Tendsto (fun η : ℝ => bzGreen bz3 (bccDisp D) (x - η * Complex.I)) (𝓝[>] 0) (𝓝 (bccGfZ ellipk x D)) ∧
    0 < (bccGfZ ellipk x D).im := by
  have hD : 0 < D := by linarith
  obtain ⟨h1, h2⟩ := bcc_gf_z_real_retarded hk (D := D) (x := -x) (by linarith) (by linarith)
  have hneg : bccGfZ ellipk x D = -bccGfZ ellipk ((-x : ℝ) : ℂ) D := by
    rw [bccGfZ_eq hk.off, bccGfZ_eq hk.off, Complex.ofReal_neg, bccForm_neg, neg_neg, neg_sq]
  constructor
  · rw [hneg]
    refine h1.neg.congr' ?_
    filter_upwards [self_mem_nhdsWithin] with η hη
    have hη : 0 < η := hη
    rw [← bcc_green_neg hD (offBand_of_im D (by simpa using hη.ne'))]
    congr 1
    push_cast
    ring
  · rw [hneg, Complex.neg_im]
    linarith

/-- C57, disagreement: for integer energies `bcc.dos` truncates the density of states to zero, and finally fails
on the assignment of `np.inf`. -/
theorem bcc_dos_int {ellipk : ℂ → ℂ} (hk : EllipkContract ellipk) (D : ℝ) (e : ℤ) :
    bccDosIntFinite ellipk e D = 0 ∧ bccDosInt ellipk e D = none := by
  have hpi := Real.pi_pos
  refine ⟨?_, rfl⟩
  unfold bccDosIntFinite
  simp only
  split_ifs with h
  · have he : e ≠ 0 := fun h0 => h.2 (by simp [h0])
    have h0 := bccDosFinite_nonneg hk.off (e : ℝ) D
    unfold truncInt
    rw [if_pos h0, Int.floor_eq_zero_iff]
    refine ⟨h0, ?_⟩
    have h1 : (1 : ℝ) ≤ |(e : ℝ)| := by
      have := Int.one_le_abs he
      exact_mod_cast this
    rw [bccDosFinite_eq hk.off]
    set K := ellipK (bccM' √(D ^ 2 / |(e : ℝ)| ^ 2 - 1)) with hKdef
    have hK := (ellipK_band √(D ^ 2 / |(e : ℝ)| ^ 2 - 1)).2.2
    rw [← hKdef] at hK
    have h2 : -(K ^ 2).im ≤ Real.pi ^ 2 / 2 := by
      have a1 := (neg_le_abs _).trans (Complex.abs_im_le_norm (K ^ 2))
      have a2 : ‖K ^ 2‖ ≤ (√2 * (Real.pi / 2)) ^ 2 := by
        rw [norm_pow]
        gcongr
      rw [mul_pow, Real.sq_sqrt (by norm_num)] at a2
      linarith
    have h3 : 4 / (Real.pi ^ 3 * |(e : ℝ)|) ≤ 4 / Real.pi ^ 3 := by
      apply div_le_div_of_nonneg_left (by norm_num) (by positivity)
      have : 0 < Real.pi ^ 3 := by positivity
      nlinarith
    have h4 : 4 / (Real.pi ^ 3 * |(e : ℝ)|) * -(K ^ 2).im ≤ 4 / Real.pi ^ 3 * (Real.pi ^ 2 / 2) := by
      calc _ ≤ 4 / (Real.pi ^ 3 * |(e : ℝ)|) * (Real.pi ^ 2 / 2) := by gcongr
        _ ≤ _ := by gcongr
    have h5 : 4 / Real.pi ^ 3 * (Real.pi ^ 2 / 2) = 2 / Real.pi := by field_simp; norm_num
    have h6 : 2 / Real.pi < 1 := by rw [div_lt_one hpi]; linarith [Real.pi_gt_three]
    linarith
  · rfl

/-- C57: scaling of energies with the half-bandwidth. -/
theorem bcc_scaling (ellipk : ℂ → ℂ) {s : ℝ} (hs : 0 < s) (e D : ℝ) (z : ℂ) :
    bccDosFinite ellipk (s * e) (s * D) = bccDosFinite ellipk e D / s ∧
    bccGfZ ellipk (s * z) (s * D : ℝ) = bccGfZ ellipk z D / s := by
  have hsc : (s : ℂ) ≠ 0 := by exact_mod_cast hs.ne'
  constructor
  · unfold bccDosFinite
    simp only
    rw [mul_div_mul_left _ _ hs.ne', abs_mul, abs_of_pos hs]
    field_simp
  · unfold bccGfZ
    simp only
    rw [Complex.ofReal_mul, mul_div_mul_left _ _ hsc]
    field_simp

example : EllipkContract ellipK ∧ OffBand (Complex.I : ℂ) 1 :=
  ⟨EllipkContract.exact, offBand_of_im 1 (by simp)⟩

end Gftool.Props
