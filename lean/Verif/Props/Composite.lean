import Verif.Model.Composite
import Verif.Lemmas.HilbertPair
import Verif.Props.RetTime

/-!
# Composite two-dimensional lattices (C56, C57)
-/

namespace Gftool.Props

open Gftool Model Spec Lemmas MeasureTheory
open scoped ComplexConjugate

/-! ## Consequences of being a Hilbert transform -/

/-- A Hilbert transform is symmetric under conjugation. -/
theorem hilbertPair_conj {dos : ℝ → ℝ} {gf : ℂ → ℂ} {a b w : ℝ} (h : HilbertPair dos gf a b w) {z : ℂ}
    (hz : ∀ e ∈ Set.Icc a b, z ≠ (e : ℂ)) : gf (conj z) = conj (gf z) := by
  rw [h.hilbert z hz, h.hilbert, ← integral_conj]
  · congr 1
    funext e
    simp
  · intro e he hc
    apply hz e he
    rw [← Complex.conj_conj z, hc, Complex.conj_ofReal]

/-! ## Honeycomb lattice -/

/-- C56: whenever the triangular Green's function is the Hilbert transform of the triangular DOS, the
honeycomb Green's function is the Hilbert transform of the honeycomb DOS, normalised on `[-D, D]`. -/
theorem honeycomb_hilbert {triDos : ℝ → ℝ → ℝ} {triGf : ℂ → ℝ → ℂ}
    (h : HilbertPair (fun e => triDos e (9 / 4)) (fun z => triGf z (9 / 4)) (-(3 / 2)) 3 1) {D : ℝ} (hD : 0 < D) :
    HilbertPair (fun e => honeycombDos triDos e D) (fun z => honeycombGfZ triGf z D) (-D) D 1 := by
  have h1 := (h.quad (α := 2) (by norm_num) (by norm_num)).affine (s := 1.5 / D) (by positivity) 0
  have hs : √((3 + 3 / 2) / 2 : ℝ) = 3 / 2 := by
    rw [show ((3 + 3 / 2) / 2 : ℝ) = (3 / 2) ^ 2 by norm_num, Real.sqrt_sq (by norm_num)]
  rw [hs] at h1
  convert h1 using 1
  · funext e
    unfold honeycombDos
    simp only [sub_zero]
    rw [show e / (D / 1.5) = 1.5 / D * e by field_simp]
    norm_num
    ring
  · funext z
    unfold honeycombGfZ
    simp only [Complex.ofReal_zero, sub_zero]
    have hDc : (D : ℂ) ≠ 0 := by exact_mod_cast hD.ne'
    rw [show z / ((D / 1.5 : ℝ) : ℂ) = ((1.5 / D : ℝ) : ℂ) * z by push_cast; field_simp]
    norm_num
    field_simp
  · field_simp
    norm_num
  · field_simp
    norm_num

/-- C56: the honeycomb DOS is symmetric. -/
theorem honeycomb_dos_symm (triDos : ℝ → ℝ → ℝ) (e D : ℝ) :
    honeycombDos triDos (-e) D = honeycombDos triDos e D := by
  simp [honeycombDos, neg_div]

/-- C56: scaling with the half-bandwidth. -/
theorem honeycomb_scaling (triDos : ℝ → ℝ → ℝ) (triGf : ℂ → ℝ → ℂ) {s : ℝ} (hs : 0 < s) (e D : ℝ) (z : ℂ) :
    honeycombDos triDos (s * e) (s * D) = honeycombDos triDos e D / s ∧
    honeycombGfZ triGf (s * z) (s * D : ℝ) = honeycombGfZ triGf z D / s := by
  have hsc : (s : ℂ) ≠ 0 := by exact_mod_cast hs.ne'
  constructor
  · unfold honeycombDos
    simp only
    rw [show s * e / (s * D / 1.5) = e / (D / 1.5) by field_simp]
    field_simp
  · unfold honeycombGfZ
    simp only
    rw [show (s * z) / ((s * D / 1.5 : ℝ) : ℂ) = z / ((D / 1.5 : ℝ) : ℂ) by push_cast; field_simp]
    push_cast
    field_simp

/-- C57: the multi-precision honeycomb DOS is the honeycomb DOS. -/
theorem honeycomb_dos_mp (triDos : ℝ → ℝ → ℝ) (e D : ℝ) :
    honeycombDosMp triDos e D = honeycombDos triDos e D := by
  unfold honeycombDosMp honeycombDos
  simp only
  rw [show e / (D / 1.5) = e * (1.5 / D) by field_simp, show 2 / (D / 1.5) = 2 * (1.5 / D) by field_simp]

/-! ## Kagome lattice -/

/-- C56: apart from the peak `(1/3)/(z + 2D/3)` the kagome Green's function is the Hilbert transform of
the kagome DOS, of weight `2/3` on `[-2D/3, 4D/3]`. -/
theorem kagome_hilbert {triDos : ℝ → ℝ → ℝ} {triGf : ℂ → ℝ → ℂ}
    (h : HilbertPair (fun e => triDos e (9 / 4)) (fun z => triGf z (9 / 4)) (-(3 / 2)) 3 1) {D : ℝ} (hD : 0 < D) :
    HilbertPair (fun e => kagomeDos triDos e D) (fun z => kagomeGfZ triGf z D - (1 / 3) / (z + 2 / 3 * D))
      (-(2 / 3 * D)) (4 / 3 * D) (2 / 3) := by
  have h1 := ((honeycomb_hilbert h hD).affine one_pos (D / 3)).smul (k := 2 / 3) (by norm_num)
  convert h1 using 1
  · funext e
    unfold kagomeDos
    rw [show 3 * e - D = 3 * (e - D / 3) by ring, (honeycomb_scaling triDos triGf (by norm_num) _ _ 0).1]
    ring_nf
  · funext z
    unfold kagomeGfZ
    have : (1 / 3 : ℂ) / (z + 2 / 3 * D) = 1 / (3 * z + 2 * D) := by
      rw [div_div]
      congr 1
      ring
    rw [this]
    push_cast
    ring_nf
  · ring
  · ring
  · norm_num

/-- C56: scaling with the half-bandwidth. -/
theorem kagome_scaling (triDos : ℝ → ℝ → ℝ) (triGf : ℂ → ℝ → ℂ) {s : ℝ} (hs : 0 < s) (e D : ℝ) (z : ℂ) :
    kagomeDos triDos (s * e) (s * D) = kagomeDos triDos e D / s ∧
    kagomeGfZ triGf (s * z) (s * D : ℝ) = kagomeGfZ triGf z D / s := by
  have hsc : (s : ℂ) ≠ 0 := by exact_mod_cast hs.ne'
  constructor
  · unfold kagomeDos
    rw [show 3 * (s * e) - s * D = s * (3 * e - D) by ring, show 3 * (s * D) = s * (3 * D) by ring,
      (honeycomb_scaling triDos triGf hs _ _ 0).1]
    ring
  · unfold kagomeGfZ
    simp only
    rw [show s * z - ((s * D : ℝ) : ℂ) / 3 = s * (z - D / 3) by push_cast; ring,
      (honeycomb_scaling triDos triGf hs 0 _ _).2,
      show 3 * (s * z) + 2 * ((s * D : ℝ) : ℂ) = (3 * z + 2 * D) * s by push_cast; ring, ← div_div]
    ring

/-- C57: the multi-precision kagome DOS is the kagome DOS. -/
theorem kagome_dos_mp (triDos : ℝ → ℝ → ℝ) (e D : ℝ) : kagomeDosMp triDos e D = kagomeDos triDos e D := by
  unfold kagomeDosMp kagomeDos
  rw [honeycomb_dos_mp]

/-! ## Lieb lattice -/

lemma two_pow_15 : ((2 : ℝ) ^ (1.5 : ℝ)) ^ 2 = 8 := by
  rw [← Real.rpow_natCast, ← Real.rpow_mul (by norm_num)]
  norm_num

lemma two_pow_neg_15 : (2 : ℝ) ^ (-1.5 : ℝ) = ((2 : ℝ) ^ (1.5 : ℝ))⁻¹ := Real.rpow_neg (by norm_num) _

/-- C56: apart from the peak `(1/3)/z` the Lieb Green's function is the Hilbert transform of the Lieb DOS,
of weight `2/3` on `[-D, D]`. -/
theorem lieb_hilbert {sqDos : ℝ → ℝ → ℝ} {sqGf : ℂ → ℝ → ℂ}
    (h : HilbertPair (fun e => sqDos e 4) (fun z => sqGf z 4) (-4) 4 1)
    (hscale : ∀ e, sqDos e 1 = 4 * sqDos (4 * e) 4) {D : ℝ} (hD : 0 < D) :
    HilbertPair (fun e => liebDos sqDos e D) (fun z => liebGfZ sqGf z D - (1 / 3) / z) (-D) D (2 / 3) := by
  set r : ℝ := (2 : ℝ) ^ (1.5 : ℝ) with hr
  have hr0 : 0 < r := Real.rpow_pos_of_pos (by norm_num) _
  have hr2 : r ^ 2 = 8 := two_pow_15
  have h1 := ((h.quad (α := 1) (by norm_num) (by norm_num)).affine (s := r / D) (by positivity) 0).smul
    (k := 2 / 3) (by norm_num)
  have hs : √((4 + 4) / 1 : ℝ) = r := by
    rw [show ((4 + 4) / 1 : ℝ) = r ^ 2 by rw [hr2]; norm_num, Real.sqrt_sq hr0.le]
  rw [hs] at h1
  convert h1 using 1
  · funext e
    unfold liebDos
    simp only [sub_zero, one_mul]
    have e1 : (r / D * e) ^ 2 - 4 = 4 * (2 * (e / D) ^ 2 - 1) := by
      rw [mul_pow, div_pow, hr2, div_pow]
      field_simp
      ring
    rw [hscale, e1, abs_mul, abs_of_pos (show 0 < r / D by positivity), abs_div, abs_of_pos hD]
    field_simp
    rw [hr2]
    ring
  · funext z
    unfold liebGfZ
    have hDc : (D : ℂ) ≠ 0 := by exact_mod_cast hD.ne'
    have hrc : (r : ℂ) ≠ 0 := by exact_mod_cast hr0.ne'
    simp only [Complex.ofReal_zero, sub_zero, Complex.ofReal_one, one_mul, two_pow_neg_15, ← hr]
    rw [show z / ((D * r⁻¹ : ℝ) : ℂ) = ((r / D : ℝ) : ℂ) * z by push_cast; field_simp]
    generalize sqGf ((((r / D : ℝ) : ℂ) * z) ^ 2 - 4) 4 = g
    rw [add_sub_cancel_left]
    push_cast
    clear_value r
    field_simp
  · field_simp
    ring
  · field_simp
    ring
  · norm_num

/-- C56: the Lieb DOS is symmetric. -/
theorem lieb_dos_symm (sqDos : ℝ → ℝ → ℝ) (e D : ℝ) : liebDos sqDos (-e) D = liebDos sqDos e D := by
  simp [liebDos, neg_div]

/-- C56: scaling with the half-bandwidth. -/
theorem lieb_scaling (sqDos : ℝ → ℝ → ℝ) (sqGf : ℂ → ℝ → ℂ) {s : ℝ} (hs : 0 < s) (e D : ℝ) (z : ℂ) :
    liebDos sqDos (s * e) (s * D) = liebDos sqDos e D / s ∧
    liebGfZ sqGf (s * z) (s * D : ℝ) = liebGfZ sqGf z D / s := by
  have hsc : (s : ℂ) ≠ 0 := by exact_mod_cast hs.ne'
  constructor
  · unfold liebDos
    simp only
    rw [show s * e / (s * D) = e / D by field_simp]
    field_simp
  · unfold liebGfZ
    simp only
    generalize (2 : ℝ) ^ (-1.5 : ℝ) = r
    rw [show (s * z) / ((s * D * r : ℝ) : ℂ) = z / ((D * r : ℝ) : ℂ) by push_cast; field_simp]
    push_cast
    field_simp

/-- C57: the multi-precision Lieb DOS is the Lieb DOS, for a square DOS with the scaling law. -/
theorem lieb_dos_mp {sqDos : ℝ → ℝ → ℝ} (hscale : ∀ e, sqDos e 1 = 4 * sqDos (4 * e) 4) {D : ℝ} (hD : 0 < D)
    (e : ℝ) : liebDosMp sqDos e D = liebDos sqDos e D := by
  unfold liebDosMp liebDos
  simp only
  have hr0 : 0 < (2 : ℝ) ^ (1.5 : ℝ) := Real.rpow_pos_of_pos (by norm_num) _
  have hr2 := two_pow_15
  generalize (2 : ℝ) ^ (1.5 : ℝ) = r at *
  have e1 : (e * (r / D)) ^ 2 - 4 = 4 * (2 * (e / D) ^ 2 - 1) := by
    rw [mul_pow, div_pow, hr2, div_pow]
    field_simp
    ring
  rw [hscale, e1, abs_mul, abs_of_pos (show 0 < r / D by positivity), abs_div, abs_of_pos hD]
  field_simp
  rw [hr2]
  ring

/-! ## The hypotheses can be met -/

/-- The Bethe lattice is a base with all the assumed properties. -/
lemma bethe_hilbertPair {D : ℝ} (hD : 0 < D) :
    HilbertPair (fun e => betheDos e D) (fun z => betheGfZ z D) (-D) D 1 where
  measurable := (bethe_dos hD).measurable
  nonneg := (bethe_dos hD).nonneg
  outside e he := (bethe_dos hD).outside e (by
    by_contra hc
    exact he (abs_le.1 (not_lt.1 hc)))
  integrable := (bethe_dos hD).integrable
  norm := (bethe_dos hD).norm
  hilbert z hz := (bethe_gf_hilbert hD (z := z) fun e he => hz e (abs_le.1 he)).symm

example : HilbertPair (fun e => liebDos betheDos e 3) (fun z => liebGfZ betheGfZ z 3 - (1 / 3) / z) (-3) 3 (2 / 3) := by
  refine lieb_hilbert (bethe_hilbertPair (by norm_num)) (fun e => ?_) (by norm_num)
  unfold betheDos
  simp only [div_one, mul_div_cancel_left₀ e (show (4 : ℝ) ≠ 0 by norm_num)]
  split_ifs
  · field_simp
  · norm_num

example : HilbertPair (fun e => honeycombDos (fun e D => betheDos (e - D / 3) D) e 3)
    (fun z => honeycombGfZ (fun z D => betheGfZ (z - ((D / 3 : ℝ) : ℂ)) D) z 3) (-3) 3 1 := by
  have h := (bethe_hilbertPair (D := 9 / 4) (by norm_num)).affine one_pos (9 / 4 / 3)
  refine honeycomb_hilbert ?_ (by norm_num)
  convert h using 1
  · funext e; simp
  · funext e; simp
  · norm_num
  · norm_num

end Gftool.Props
