import Verif.Lemmas.FoldDos
import Verif.Props.BzMoments
import Verif.Props.Bcc
import Verif.Props.Sc
import Verif.Props.Fcc
import Verif.Props.TriangularGf

/-!
# Densities of states of lattices with several bands, and moments of all densities of states (C54, C61)
-/

namespace Gftool.Props

open Gftool Model Spec Lemmas MeasureTheory

lemma measurable_honeycombBand (D : ℝ) : Measurable (honeycombBand D) := by
  unfold honeycombBand
  fun_prop

lemma measurable_liebBand (D : ℝ) : Measurable (liebBand D) := by
  unfold liebBand
  fun_prop

private lemma tri_lower (k : ℝ × ℝ) : -(3 / 2) ≤ triangularDisp (9 / 4) k := by
  have := honey_arg_nonneg k
  unfold triangularDisp
  linarith

private lemma honeycombBand_eq {D : ℝ} (hD : 0 < D) (k : ℝ × ℝ) :
    honeycombBand D k = √((triangularDisp (9 / 4) k + 3 / 2) / (9 / (2 * D ^ 2))) := by
  have e : (triangularDisp (9 / 4) k + 3 / 2) / (9 / (2 * D ^ 2))
      = (D / 3) ^ 2 * (3 + 2 * (Real.cos (2 * k.1) + 2 * Real.cos k.1 * Real.cos k.2)) := by
    unfold triangularDisp
    field_simp
    ring
  rw [e, Real.sqrt_mul (by positivity), Real.sqrt_sq (by positivity)]
  rfl

/-- C61: `honeycomb.dos` is the density of the energies of both bands of the honeycomb lattice. -/
theorem honeycomb_dos {D : ℝ} (hD : 0 < D) :
    IsDosOfBands bz2 ![honeycombBand D, fun k => -honeycombBand D k] 2
      (fun e => honeycombDos (triangularDos ellipKm1) e D) := by
  have h := (triangular_dos (D := 9 / 4) (by norm_num)).fold (measurable_triangularDisp _) (α := 9 / (2 * D ^ 2))
    (c := 3 / 2) (by positivity) tri_lower
  convert h using 1
  · funext i
    fin_cases i
    · exact funext fun k => honeycombBand_eq hD k
    · exact funext fun k => congrArg Neg.neg (honeycombBand_eq hD k)
  · funext e
    unfold honeycombDos
    simp only
    have e1 : 2 * (e / (D / 1.5)) ^ 2 - 1.5 = 9 / (2 * D ^ 2) * e ^ 2 - 3 / 2 := by
      field_simp
      norm_num
      ring
    rw [e1, abs_div, abs_of_pos (by positivity : 0 < D / 1.5)]
    field_simp
    norm_num
    exact Or.inl (mul_comm _ _)

/-- C61: `kagome.dos` is the density of the energies of both dispersive bands of the kagome lattice with three sites
in the unit cell; the flat band is not part of it. -/
theorem kagome_dos {D : ℝ} (hD : 0 < D) :
    IsDosOfBands bz2 ![fun k => D / 3 + honeycombBand D k, fun k => D / 3 - honeycombBand D k] 3
      (fun e => kagomeDos (triangularDos ellipKm1) e D) := by
  have h := ((honeycomb_dos hD).shift (by
    intro i
    fin_cases i
    · exact measurable_honeycombBand D
    · exact (measurable_honeycombBand D).neg) (D / 3)).unit_cell (M := 3) (by norm_num)
  convert h using 1
  · funext i
    fin_cases i
    · rfl
    · exact funext fun k => sub_eq_add_neg _ _
  · funext e
    unfold kagomeDos
    have h1 := (honeycomb_scaling (triangularDos ellipKm1) (fun _ _ => 0) (s := 3) (by norm_num) (e - D / 3) D 0).1
    rw [show 3 * e - D = 3 * (e - D / 3) by ring, h1]
    push_cast
    ring

private lemma liebBand_eq {D : ℝ} (hD : 0 < D) (k : ℝ × ℝ) :
    liebBand D k = √((squareDisp 1 k + 1) / (2 / D ^ 2)) := by
  have e : (squareDisp 1 k + 1) / (2 / D ^ 2) = (D / √2) ^ 2 * (1 + (Real.cos k.1 + Real.cos k.2) / 2) := by
    unfold squareDisp
    rw [div_pow, Real.sq_sqrt (by norm_num)]
    field_simp
    ring
  rw [e, Real.sqrt_mul (by positivity), Real.sqrt_sq (by positivity)]
  rfl

/-- C61: `lieb.dos` is the density of the energies of both dispersive bands of the Lieb lattice with three sites
in the unit cell; the flat band is not part of it. -/
theorem lieb_dos {D : ℝ} (hD : 0 < D) :
    IsDosOfBands bz2 ![liebBand D, fun k => -liebBand D k] 3 (fun e => liebDos squareDosK e D) := by
  have h := ((square_dos (D := 1) one_pos).fold (measurable_squareDisp _) (α := 2 / D ^ 2)
    (c := 1) (by positivity) (fun k => by
      unfold squareDisp
      linarith [Real.neg_one_le_cos k.1, Real.neg_one_le_cos k.2])).unit_cell (M := 3) (by norm_num)
  convert h using 1
  · funext i
    fin_cases i
    · exact funext fun k => liebBand_eq hD k
    · exact funext fun k => congrArg Neg.neg (liebBand_eq hD k)
  · funext e
    unfold liebDos
    simp only
    have e1 : 2 * (e / D) ^ 2 - 1 = 2 / D ^ 2 * e ^ 2 - 1 := by
      field_simp
    rw [e1, abs_div, abs_of_pos hD]
    push_cast
    field_simp
    ring

/-! ## One dimension -/

/-- C61: `onedim.dos` is the density of the energies of the dispersion `ε(k) = D cos k`. -/
theorem onedim_dos_disp {D : ℝ} (hD : 0 < D) : IsDosOf bz (fun k => D * Real.cos k) (fun e => onedimDos e D) where
  measurable := (onedim_dos hD).measurable
  nonneg := (onedim_dos hD).nonneg
  density := by
    have hmeas : Measurable fun e => ENNReal.ofReal (onedimDos e D) := (onedim_dos hD).measurable.ennreal_ofReal
    refine Measure.ext_of_lintegral _ fun f hf => ?_
    have hc : Measurable fun k : ℝ => D * Real.cos k := by fun_prop
    rw [lintegral_map hf hc, lintegral_withDensity_eq_lintegral_mul _ hmeas hf]
    have h1 := lintegral_cos_bz (f := fun x => f (D * x)) (hf.comp (by fun_prop))
    rw [h1]
    have himg : (fun φ => D * Real.cos φ) '' Set.Ioo 0 Real.pi = Set.Ioo (-D) D := by
      ext e
      constructor
      · rintro ⟨φ, hφ, rfl⟩
        have := abs_lt.1 (abs_cos_lt hφ)
        constructor <;> simp only <;> nlinarith
      · intro he
        have h1 : -1 < e / D := by rw [lt_div_iff₀ hD]; linarith [he.1]
        have h2 : e / D < 1 := by rw [div_lt_iff₀ hD]; linarith [he.2]
        refine ⟨Real.arccos (e / D), ⟨Real.arccos_pos.2 h2, ?_⟩, ?_⟩
        · refine lt_of_le_of_ne (Real.arccos_le_pi _) fun h => ?_
          rw [Real.arccos_eq_pi] at h
          linarith
        · simp only
          rw [Real.cos_arccos h1.le h2.le]
          field_simp
    have hinj : Set.InjOn (fun φ => D * Real.cos φ) (Set.Ioo 0 Real.pi) := by
      intro x hx y hy hxy
      exact Real.injOn_cos ⟨hx.1.le, hx.2.le⟩ ⟨hy.1.le, hy.2.le⟩ (mul_left_cancel₀ hD.ne' hxy)
    have hder : ∀ φ ∈ Set.Ioo 0 Real.pi, HasDerivWithinAt (fun φ => D * Real.cos φ) (D * -Real.sin φ) (Set.Ioo 0 Real.pi) φ :=
      fun φ _ => ((Real.hasDerivAt_cos φ).const_mul D).hasDerivWithinAt
    have h2 := lintegral_image_eq_lintegral_abs_deriv_mul measurableSet_Ioo hder hinj
      (fun e => ENNReal.ofReal (onedimDos e D) * f e)
    rw [himg] at h2
    have h3 : ∫⁻ e, ((fun e => ENNReal.ofReal (onedimDos e D)) * f) e
        = ∫⁻ e in Set.Ioo (-D) D, ENNReal.ofReal (onedimDos e D) * f e := by
      rw [← lintegral_indicator measurableSet_Ioo]
      congr 1
      funext e
      by_cases he : e ∈ Set.Ioo (-D) D
      · rw [Set.indicator_of_mem he]
        rfl
      · rw [Set.indicator_of_notMem he, Pi.mul_apply, onedimDos_zero hD e, ENNReal.ofReal_zero, zero_mul]
        rw [Set.mem_Ioo, ← abs_lt] at he
        exact not_lt.1 he
    have hfc : Measurable fun φ => f (D * Real.cos φ) := hf.comp hc
    rw [h3, h2, ← lintegral_const_mul _ hfc, setLIntegral_congr Ioo_ae_eq_Ioc.symm]
    refine setLIntegral_congr_fun measurableSet_Ioo fun φ hφ => ?_
    have hs := Real.sin_pos_of_pos_of_lt_pi hφ.1 hφ.2
    rw [← mul_assoc, ← ENNReal.ofReal_mul (abs_nonneg _), mul_neg, abs_neg, abs_of_pos (by positivity),
      onedimDos_angle hD φ hφ]

/-- C62: `onedim.gf_z` is the local Green's function of the dispersion. -/
theorem onedim_gf_z_disp {D : ℝ} (hD : 0 < D) {z : ℂ} (hz : OffBand z D) :
    onedimGfZ z D = bzGreen bz (fun k => D * Real.cos k) z := by
  have hs : StronglyMeasurable fun e : ℝ => 1 / (z - e) := by
    apply Measurable.stronglyMeasurable
    fun_prop
  have h := (onedim_dos_disp hD).integral_smul (by fun_prop) hs
  unfold bzGreen
  rw [← h, ← onedim_gf_hilbert hD hz]
  congr 1
  funext e
  rw [Complex.real_smul]
  ring

/-! ## Moments -/

private lemma moment_dos {κ : Type*} [MeasurableSpace κ] {μ : Measure κ} {disp : κ → ℝ} {dos : ℝ → ℝ} (h : IsDosOf μ disp dos)
    (hm : Measurable disp) (m : ℕ) : ∫ e, e ^ m * dos e = bandMoment μ disp m := by
  have h := h.integral_smul hm (f := fun e : ℝ => e ^ m) (by
    apply Measurable.stronglyMeasurable; fun_prop)
  unfold bandMoment
  rw [← h]
  congr 1
  funext e
  rw [smul_eq_mul, mul_comm]

/-- C54: the moments of the dispersion are the moments of the DOS. -/
theorem bcc_moment_dos {ellipk : ℂ → ℂ} (hk : EllipkContract ellipk) {D : ℝ} (hD : 0 < D) (m : ℕ) :
    ∫ e, e ^ m * (bccDos ellipk e D).untopD 0 = bandMoment bz3 (bccDisp D) m :=
  moment_dos (bcc_dos hk hD) (measurable_bccDisp D) m

/-- C54: the moments of the dispersion are the moments of the DOS. -/
theorem fcc_moment_dos {ellipk : ℂ → ℂ} (hk : EllipkContract ellipk) {D : ℝ} (hD : 0 < D) (m : ℕ) :
    ∫ e, e ^ m * (fccDos ellipk e D).untopD 0 = bandMoment bz3 (fccDisp D) m :=
  moment_dos (fcc_dos hk hD) (measurable_fccDisp D) m

/-- C54: the moments of the dispersion are the moments of the DOS; the tolerance for the expansion at the middle of the band
is zero. -/
theorem sc_moment_dos {ellipk : ℂ → ℂ} (hk : EllipkContract ellipk) {D : ℝ} (hD : 0 < D) (m : ℕ) :
    ∫ e, e ^ m * scDos ellipk 0 e D = bandMoment bz3 (scDisp D) m := by
  obtain ⟨ρ, h1, -, h2⟩ := sc_dos_off hk hD
  rw [← moment_dos h1 (measurable_scDisp D) m]
  refine integral_congr_ae ?_
  have : ∀ᵐ e : ℝ, e ≠ 0 := by simp [ae_iff, measure_singleton]
  filter_upwards [this] with e he
  rw [h2 0 e he (by positivity)]

private lemma band_integrable {b : ℝ × ℝ → ℝ} (hb : Measurable b) {C : ℝ} (hC : ∀ k, |b k| ≤ C) (m : ℕ) :
    Integrable (fun k => b k ^ m) bz2 := by
  refine Integrable.of_bound (hb.pow_const m).aestronglyMeasurable (C ^ m) (Filter.Eventually.of_forall fun k => ?_)
  rw [norm_pow, Real.norm_eq_abs]
  exact pow_le_pow_left₀ (abs_nonneg _) (hC k) m

lemma honeycombBand_le {D : ℝ} (hD : 0 < D) (k : ℝ × ℝ) : |honeycombBand D k| ≤ D := by
  unfold honeycombBand
  rw [abs_mul, abs_of_pos (by positivity : 0 < D / 3), abs_of_nonneg (Real.sqrt_nonneg _)]
  have : √(3 + 2 * (Real.cos (2 * k.1) + 2 * Real.cos k.1 * Real.cos k.2)) ≤ 3 := by
    rw [Real.sqrt_le_left (by norm_num)]
    have h1 := Real.cos_le_one (2 * k.1)
    have h2 : Real.cos k.1 * Real.cos k.2 ≤ 1 := by
      refine (le_abs_self _).trans ?_
      rw [abs_mul]
      exact mul_le_one₀ (Real.abs_cos_le_one _) (abs_nonneg _) (Real.abs_cos_le_one _)
    linarith
  nlinarith

lemma liebBand_le {D : ℝ} (hD : 0 < D) (k : ℝ × ℝ) : |liebBand D k| ≤ D := by
  unfold liebBand
  have h2 : (0 : ℝ) < √2 := by positivity
  rw [abs_mul, abs_of_pos (by positivity : 0 < D / √2), abs_of_nonneg (Real.sqrt_nonneg _), div_mul_eq_mul_div,
    div_le_iff₀ h2]
  refine mul_le_mul_of_nonneg_left (Real.sqrt_le_sqrt ?_) hD.le
  linarith [Real.cos_le_one k.1, Real.cos_le_one k.2]

/-- C54: the moments of the bands are the moments of the honeycomb DOS. -/
theorem honeycomb_moment_dos {D : ℝ} (hD : 0 < D) (m : ℕ) :
    ∫ e, e ^ m * honeycombDos (triangularDos ellipKm1) e D = honeycombMoment D m := by
  have hb := measurable_honeycombBand D
  have i1 := band_integrable hb (honeycombBand_le hD) m
  have i2 := band_integrable hb.neg (C := D) (fun k => by rw [Pi.neg_apply, abs_neg]; exact honeycombBand_le hD k) m
  simp only [Pi.neg_apply] at i2
  have h := (honeycomb_dos hD).integral (by
    intro i
    fin_cases i
    · exact hb
    · exact hb.neg) (f := fun e => e ^ m) (by fun_prop) (by
    intro i
    fin_cases i
    · exact i1
    · exact i2)
  rw [Fin.sum_univ_two] at h
  simp only [Matrix.cons_val_zero, Matrix.cons_val_one] at h
  unfold honeycombMoment
  rw [integral_div, integral_add i1 i2, ← h]
  push_cast
  ring

/-- C54: the moments of all bands of the kagome lattice are those of the DOS plus the contribution of the flat band. -/
theorem kagome_moment_dos {D : ℝ} (hD : 0 < D) (m : ℕ) :
    (∫ e, e ^ m * kagomeDos (triangularDos ellipKm1) e D) + (-(2 * D / 3)) ^ m / 3 = kagomeMoment D m := by
  have hb := measurable_honeycombBand D
  have hb1 : Measurable fun k => D / 3 + honeycombBand D k := by fun_prop
  have hb2 : Measurable fun k => D / 3 - honeycombBand D k := by fun_prop
  have hle : ∀ k, |honeycombBand D k| ≤ D := honeycombBand_le hD
  have i1 := band_integrable hb1 (C := D / 3 + D) (fun k => (abs_add_le _ _).trans
    (add_le_add (abs_of_pos (by positivity)).le (hle k))) m
  have i2 := band_integrable hb2 (C := D / 3 + D) (fun k => (abs_sub _ _).trans
    (add_le_add (abs_of_pos (by positivity)).le (hle k))) m
  have h := (kagome_dos hD).integral (by
    intro i
    fin_cases i
    · exact hb1
    · exact hb2) (f := fun e => e ^ m) (by fun_prop) (by
    intro i
    fin_cases i
    · exact i1
    · exact i2)
  rw [Fin.sum_univ_two] at h
  simp only [Matrix.cons_val_zero, Matrix.cons_val_one] at h
  unfold kagomeMoment
  have i3 : Integrable (fun k => (-(2 * D / 3)) ^ m + (D / 3 + honeycombBand D k) ^ m) bz2 := (integrable_const _).add i1
  rw [integral_div, integral_add i3 i2, integral_add (integrable_const _) i1, integral_const,
    probReal_univ, one_smul, add_assoc, ← h]
  push_cast
  ring

/-- C54: the moments of all bands of the Lieb lattice are those of the DOS plus the contribution of the flat band. -/
theorem lieb_moment_dos {D : ℝ} (hD : 0 < D) (m : ℕ) :
    (∫ e, e ^ m * liebDos squareDosK e D) + 0 ^ m / 3 = liebMoment D m := by
  have hb := measurable_liebBand D
  have i1 := band_integrable hb (liebBand_le hD) m
  have i2 := band_integrable hb.neg (C := D) (fun k => by rw [Pi.neg_apply, abs_neg]; exact liebBand_le hD k) m
  simp only [Pi.neg_apply] at i2
  have h := (lieb_dos hD).integral (by
    intro i
    fin_cases i
    · exact hb
    · exact hb.neg) (f := fun e => e ^ m) (by fun_prop) (by
    intro i
    fin_cases i
    · exact i1
    · exact i2)
  rw [Fin.sum_univ_two] at h
  simp only [Matrix.cons_val_zero, Matrix.cons_val_one] at h
  unfold liebMoment
  have i3 : Integrable (fun k => 0 ^ m + liebBand D k ^ m) bz2 := (integrable_const _).add i1
  rw [integral_div, integral_add i3 i2, integral_add (integrable_const _) i1, integral_const,
    probReal_univ, one_smul, add_assoc, ← h]
  push_cast
  ring

end Gftool.Props
