import Mathlib.Analysis.Real.Pi.Bounds
import Verif.Lemmas.TwoCos
import Verif.Lemmas.CosSq
import Verif.Model.Triangular
import Verif.Props.Rectangular
import Mathlib.Analysis.Real.Pi.Irrational

/-!
# Triangular lattice: density of states (C57, C61)
-/

namespace Gftool.Props

open Gftool Model Spec Lemmas MeasureTheory

open scoped ENNReal

/-- The average of arcsine laws for the triangular lattice. -/
lemma triangular_lintegral {t τ : ℝ} (ht : 0 < t) (h1 : τ ≠ -1) :
    ∫⁻ p, ENNReal.ofReal (arcsineDensity (2 * t * Real.cos p) (t * τ - t * Real.cos (2 * p))) ∂bz
      = if -(3 / 2) < τ ∧ τ < 3 then ENNReal.ofReal (1 / (Real.pi ^ 2 * t)
          / √(max √(2 * τ + 3) ((3 - √(2 * τ + 3)) * (√(2 * τ + 3) + 1) ^ 3 / 16))
          * ellipKR (min √(2 * τ + 3) ((3 - √(2 * τ + 3)) * (√(2 * τ + 3) + 1) ^ 3 / 16)
            / max √(2 * τ + 3) ((3 - √(2 * τ + 3)) * (√(2 * τ + 3) + 1) ^ 3 / 16))) else 0 := by
  have hpi := Real.pi_pos
  set h : ℝ → ℝ≥0∞ := fun u => ENNReal.ofReal
    (if (τ + 1 - 2 * u) ^ 2 < 4 * u then 1 / (Real.pi * √(t ^ 2 * (4 * u - (τ + 1 - 2 * u) ^ 2))) else 0) with hh
  have hmeas : Measurable h := by
    rw [hh]
    apply Measurable.ennreal_ofReal
    have hs : Measurable fun x : ℝ => √x := Real.continuous_sqrt.measurable
    exact Measurable.ite (measurableSet_lt (by fun_prop) (by fun_prop)) (by fun_prop) measurable_const
  have h2 : ∀ p, ENNReal.ofReal (arcsineDensity (2 * t * Real.cos p) (t * τ - t * Real.cos (2 * p)))
      = h (Real.cos p ^ 2) := by
    intro p
    rw [hh]
    simp only
    congr 1
    unfold arcsineDensity
    have e1 : t * τ - t * Real.cos (2 * p) = t * (τ + 1 - 2 * Real.cos p ^ 2) := by
      rw [Real.cos_two_mul]; ring
    have e2 : |t * τ - t * Real.cos (2 * p)| < |2 * t * Real.cos p|
        ↔ (τ + 1 - 2 * Real.cos p ^ 2) ^ 2 < 4 * Real.cos p ^ 2 := by
      rw [e1, ← sq_lt_sq, mul_pow, show (2 * t * Real.cos p) ^ 2 = t ^ 2 * (4 * Real.cos p ^ 2) by ring]
      exact mul_lt_mul_iff_right₀ (by positivity)
    by_cases c : (τ + 1 - 2 * Real.cos p ^ 2) ^ 2 < 4 * Real.cos p ^ 2
    · rw [if_pos c, if_pos (e2.2 c), e1]
      congr 3
      ring
    · rw [if_neg c, if_neg fun hc => c (e2.1 hc)]
  simp_rw [h2]
  rw [lintegral_cos_sq hmeas]
  set r := √(2 * τ + 3) with hr
  rcases lt_or_ge (-(3 / 2)) τ with hτ | hτ
  · have hr0 : 0 < r := Real.sqrt_pos.2 (by linarith)
    have hr2 : r ^ 2 = 2 * τ + 3 := Real.sq_sqrt (by linarith)
    have hr1 : r ≠ 1 := fun h => h1 (by rw [h] at hr2; linarith)
    have hfac : ∀ u : ℝ, 4 * u - (τ + 1 - 2 * u) ^ 2 = 4 * (((r + 1) ^ 2 / 4 - u) * (u - (r - 1) ^ 2 / 4)) := by
      intro u
      have : τ = (r ^ 2 - 3) / 2 := by linarith
      rw [this]; ring
    have hind : ∀ u ∈ Set.Ioo (0 : ℝ) 1, ENNReal.ofReal (1 / (Real.pi * √((1 - u) * (u - 0)))) * h u
        = (Set.Ioo ((r - 1) ^ 2 / 4) ((r + 1) ^ 2 / 4)).indicator (fun u => ENNReal.ofReal (1 / (2 * Real.pi ^ 2 * t))
          * ENNReal.ofReal (1 / √(((1 - u) * (u - 0)) * (((r + 1) ^ 2 / 4 - u) * (u - (r - 1) ^ 2 / 4))))) u := by
      intro u hu
      rw [hh]
      simp only
      have c2 : (τ + 1 - 2 * u) ^ 2 < 4 * u ↔ u ∈ Set.Ioo ((r - 1) ^ 2 / 4) ((r + 1) ^ 2 / 4) := by
        have := hfac u
        constructor
        · intro hc
          have h3 : 0 < ((r + 1) ^ 2 / 4 - u) * (u - (r - 1) ^ 2 / 4) := by linarith
          rcases pos_and_pos_or_neg_and_neg_of_mul_pos h3 with ⟨a, b⟩ | ⟨a, b⟩
          · exact ⟨by linarith, by linarith⟩
          · exfalso
            nlinarith
        · rintro ⟨a, b⟩
          have h3 : 0 < ((r + 1) ^ 2 / 4 - u) * (u - (r - 1) ^ 2 / 4) := mul_pos (by linarith) (by linarith)
          linarith
      by_cases m2 : u ∈ Set.Ioo ((r - 1) ^ 2 / 4) ((r + 1) ^ 2 / 4)
      · rw [Set.indicator_of_mem m2, if_pos (c2.2 m2), ← ENNReal.ofReal_mul (by positivity),
          ← ENNReal.ofReal_mul (by positivity), hfac u]
        congr 1
        have p1 : 0 < (1 - u) * (u - 0) := mul_pos (by linarith [hu.2]) (by linarith [hu.1])
        have p2 : 0 < ((r + 1) ^ 2 / 4 - u) * (u - (r - 1) ^ 2 / 4) := mul_pos (by linarith [m2.2]) (by linarith [m2.1])
        rw [← mul_assoc (t ^ 2), show t ^ 2 * 4 = (2 * t) ^ 2 by ring, Real.sqrt_mul (sq_nonneg (2 * t)),
          Real.sqrt_sq (by positivity), Real.sqrt_mul p1.le]
        have q1 := Real.sqrt_pos.2 p1
        have q2 := Real.sqrt_pos.2 p2
        generalize √((1 - u) * (u - 0)) = s1 at *
        generalize √(((r + 1) ^ 2 / 4 - u) * (u - (r - 1) ^ 2 / 4)) = s2 at *
        field_simp
      · rw [Set.indicator_of_notMem m2, if_neg fun hc => m2 (c2.1 hc)]
        simp
    rw [setLIntegral_congr_fun measurableSet_Ioo hind, ← lintegral_indicator measurableSet_Ioo,
      Set.indicator_indicator, lintegral_indicator (measurableSet_Ioo.inter measurableSet_Ioo),
      lintegral_const_mul' _ _ ENNReal.ofReal_ne_top]
    by_cases h3 : τ < 3
    · have hr3 : r < 3 := by
        rw [hr, Real.sqrt_lt' (by norm_num)]
        linarith
      have g1 : 0 < (r - 1) ^ 2 := by
        have : r - 1 ≠ 0 := sub_ne_zero.2 hr1
        positivity
      rw [if_pos ⟨hτ, h3⟩, lintegral_overlap (by intro hc; linarith) (by intro hc; apply hr1; nlinarith)
        (by rw [max_lt_iff, lt_min_iff, lt_min_iff]; refine ⟨⟨?_, ?_⟩, ?_, ?_⟩ <;> nlinarith)]
      rw [show (1 - 0) * ((r + 1) ^ 2 / 4 - (r - 1) ^ 2 / 4) = r by ring,
        show (1 - (r - 1) ^ 2 / 4) * ((r + 1) ^ 2 / 4 - 0) = (3 - r) * (r + 1) ^ 3 / 16 by ring,
        ← ENNReal.ofReal_mul (by positivity)]
      congr 1
      have : 0 < √(max r ((3 - r) * (r + 1) ^ 3 / 16)) := Real.sqrt_pos.2 (lt_max_of_lt_left hr0)
      field_simp
    · rw [if_neg fun hc => h3 hc.2]
      have hr3 : 3 ≤ r := by
        rw [hr]
        exact Real.le_sqrt_of_sq_le (by linarith)
      have hemp : Set.Ioo (0 : ℝ) 1 ∩ Set.Ioo ((r - 1) ^ 2 / 4) ((r + 1) ^ 2 / 4) = ∅ := by
        rw [Set.eq_empty_iff_forall_notMem]
        rintro u ⟨m1, m2⟩
        nlinarith [m1.2, m2.1]
      rw [hemp]
      simp
  · rw [if_neg fun hc => hc.1.not_ge hτ]
    rw [lintegral_eq_zero_iff' ?_]
    · refine Filter.Eventually.of_forall fun u => ?_
      rw [hh]
      have : ¬ (τ + 1 - 2 * u) ^ 2 < 4 * u := by
        rw [not_lt]
        nlinarith [sq_nonneg (2 * u - (τ + 2))]
      simp [this]
    · apply Measurable.aemeasurable
      have hs : Measurable fun x : ℝ => √x := Real.continuous_sqrt.measurable
      fun_prop

/-- `scipy.special.ellipkm1`: the elliptic integral as function of the complementary parameter. -/
noncomputable def ellipKm1 (p : ℝ) : ℝ := ellipKR (1 - p)

/-- C61: `triangular.dos` is the density of the energies of the dispersion
`ε(k) = 4D/9 (cos 2kx + 2 cos kx cos ky)`. -/
theorem triangular_dos {D : ℝ} (hD : 0 < D) :
    IsDosOf bz2 (triangularDisp D) (fun e => triangularDos ellipKm1 e D) := by
  have hpi := Real.pi_pos
  have hcos := Real.continuous_cos.measurable
  set t := D * 4 / 9 with ht
  have ht0 : 0 < t := by positivity
  have hform : triangularDisp D = fun k => t * Real.cos (2 * k.1) + 2 * t * Real.cos k.1 * Real.cos k.2 := by
    funext k
    unfold triangularDisp
    ring
  rw [hform]
  refine isDosOf_two (c := fun p => 2 * t * Real.cos p) (g := fun p => t * Real.cos (2 * p)) (by fun_prop) (by fun_prop)
    ?_ ?_ ?_ ?_
  · filter_upwards [ae_cos_ne_zero] with p hp
    positivity
  · unfold triangularDos ellipKm1
    have hK := measurable_ellipKR
    have hs : Measurable fun x : ℝ => √x := Real.continuous_sqrt.measurable
    simp only
    have hx : Measurable fun e : ℝ => 1.0 / (D * 4 / 9) * e := by fun_prop
    refine measurable_const.mul (Measurable.ite ?_ ?_ (Measurable.ite ?_ ?_ measurable_const))
    · exact (measurableSet_le measurable_const hx).inter (measurableSet_le hx measurable_const)
    · fun_prop
    · exact (measurableSet_le measurable_const hx).inter (measurableSet_le hx measurable_const)
    · fun_prop
  · intro e
    unfold triangularDos ellipKm1
    simp only
    refine mul_nonneg (by positivity) ?_
    split_ifs <;> first | exact le_rfl | exact mul_nonneg (by positivity) (ellipKR_nonneg _)
  · have hn : ∀ a : ℝ, ∀ᵐ e : ℝ, e ≠ a := fun a => by simp [ae_iff]
    filter_upwards [hn (-t), hn (3 * t), hn (-(3 / 2) * t)] with e n1 n2 n3
    set τ := e / t with hx
    have hex : e = t * τ := by rw [hx]; field_simp
    have h1 : τ ≠ -1 := fun h => n1 (by rw [hex, h]; ring)
    have h2 : τ ≠ 3 := fun h => n2 (by rw [hex, h]; ring)
    have h3 : τ ≠ -(3 / 2) := fun h => n3 (by rw [hex, h]; ring)
    have hl := triangular_lintegral ht0 h1
    rw [← hex] at hl
    rw [hl]
    unfold triangularDos ellipKm1
    simp only [← ht]
    rw [show 1.0 / t * e = τ by rw [hx]; norm_num; ring]
    norm_num only
    by_cases hb : -(3 / 2) < τ ∧ τ < 3
    · rw [if_pos hb]
      congr 1
      set r := √(2 * τ + 3) with hr
      have hr0 : 0 < r := Real.sqrt_pos.2 (by linarith [hb.1])
      have hr2 : r ^ 2 = 2 * τ + 3 := Real.sq_sqrt (by linarith [hb.1])
      have hr3 : r < 3 := by
        rw [hr, Real.sqrt_lt' (by norm_num)]
        linarith [hb.2]
      have hkey : 16 * r - (3 - r) * (r + 1) ^ 3 = (r - 1) ^ 3 * (3 + r) := by ring
      have hpos : 0 < (r + 1) ^ 3 * (3 - r) := mul_pos (by positivity) (by linarith)
      rcases lt_or_gt_of_ne h1 with hlt | hlt
      · have hr1 : r < 1 := by nlinarith
        have hneg : (r - 1) ^ 3 * (3 + r) < 0 := by
          have : (r - 1) ^ 3 < 0 := by
            have : 0 < (1 - r) ^ 3 := pow_pos (by linarith) 3
            nlinarith
          exact mul_neg_of_neg_of_pos this (by linarith)
        rw [if_neg fun hc => hc.1.not_gt hlt, if_pos ⟨by linarith [hb.1], hlt.le⟩]
        have hle : r ≤ (3 - r) * (r + 1) ^ 3 / 16 := by linarith
        rw [max_eq_right hle, min_eq_left hle]
        have harg : 1 - -((r - 1) ^ 3 * (3 + r)) / ((r + 1) ^ 3 * (3 - r)) = r / ((3 - r) * (r + 1) ^ 3 / 16) := by
          rw [← hkey]
          have : 3 - r ≠ 0 := by linarith
          field_simp
          ring
        rw [harg, show (3 - r) * (r + 1) ^ 3 / 16 = ((r + 1) ^ 3 * (3 - r)) / 4 ^ 2 by ring,
          Real.sqrt_div hpos.le, Real.sqrt_sq (by norm_num)]
        have hs := Real.sqrt_pos.2 hpos
        generalize √((r + 1) ^ 3 * (3 - r)) = s at *
        generalize ellipKR _ = K
        clear_value t
        field_simp
        try norm_num
        try ring
      · have hr1 : 1 < r := by nlinarith
        have hge : 0 < (r - 1) ^ 3 * (3 + r) := mul_pos (pow_pos (by linarith) 3) (by linarith)
        rw [if_pos ⟨hlt.le, hb.2.le⟩]
        have hle : (3 - r) * (r + 1) ^ 3 / 16 ≤ r := by linarith
        rw [max_eq_left hle, min_eq_right hle]
        have harg : 1 - 1 / 16 * ((r - 1) ^ 3 * (3 + r)) / r = (3 - r) * (r + 1) ^ 3 / 16 / r := by
          rw [← hkey]
          field_simp
          ring
        rw [harg]
        have hs := Real.sqrt_pos.2 hr0
        generalize √r = s at *
        generalize ellipKR _ = K
        clear_value t
        field_simp
    · rw [if_neg hb]
      have h4 : τ < -(3 / 2) ∨ 3 < τ := by
        by_contra hc
        push Not at hc
        exact hb ⟨lt_of_le_of_ne hc.1 (fun h => h3 (by linarith)), lt_of_le_of_ne hc.2 h2⟩
      rw [if_neg (by rintro ⟨a, b⟩; rcases h4 with h | h <;> linarith),
        if_neg (by rintro ⟨a, b⟩; rcases h4 with h | h <;> linarith)]
      simp

/-- C61: the DOS vanishes outside of the band `[-2D/3, 4D/3]`. -/
theorem triangular_dos_outside {D : ℝ} (hD : 0 < D) (ellipkm1 : ℝ → ℝ) {e : ℝ} (he : e < -(2 / 3 * D) ∨ 4 / 3 * D < e) :
    triangularDos ellipkm1 e D = 0 := by
  unfold triangularDos
  simp only
  have hx : 1.0 / (D * 4 / 9) * e < -1.5 ∨ 3 < 1.0 / (D * 4 / 9) * e := by
    rw [show 1.0 / (D * 4 / 9) * e = e / (D * 4 / 9) by norm_num; ring]
    rcases he with h | h
    · left
      rw [div_lt_iff₀ (by positivity)]
      norm_num
      linarith
    · right
      rw [lt_div_iff₀ (by positivity)]
      linarith
  norm_num only at hx ⊢
  rw [if_neg (by rintro ⟨a, b⟩; rcases hx with h | h <;> linarith),
    if_neg (by rintro ⟨a, b⟩; rcases hx with h | h <;> linarith), mul_zero]

/-- C61: scaling with the half-bandwidth. -/
theorem triangular_dos_scaling (ellipkm1 : ℝ → ℝ) {s : ℝ} (hs : 0 < s) (e D : ℝ) :
    triangularDos ellipkm1 (s * e) (s * D) = triangularDos ellipkm1 e D / s := by
  unfold triangularDos
  simp only
  rw [show 1.0 / (s * D * 4 / 9) * (s * e) = 1.0 / (D * 4 / 9) * e by field_simp]
  rw [show s * D * 4 / 9 = s * (D * 4 / 9) by ring]
  ring

/-- C57: `triangular.dos_mp` is `triangular.dos` up to the factor `(π/np.pi)²`; the error is never raised. -/
theorem triangular_dos_mp_partial {D : ℝ} (hD : 0 < D) (e p : ℝ) :
    triangularDosMp ellipKR p e D = .ok ((Real.pi / p) ^ 2 * triangularDos ellipKm1 e D) := by
  have hpi := Real.pi_pos
  unfold triangularDosMp triangularDos ellipKm1
  simp only
  rw [show D * (4 / 9) = D * 4 / 9 by ring]
  set t := D * 4 / 9 with ht
  have ht0 : 0 < t := by positivity
  rw [show 1.0 / t * e = e / t by norm_num; ring]
  set τ := e / t
  norm_num only
  by_cases h0 : τ < -(3 / 2) ∨ τ > 3
  · rw [if_pos h0, if_neg (by rintro ⟨a, b⟩; rcases h0 with h | h <;> linarith),
      if_neg (by rintro ⟨a, b⟩; rcases h0 with h | h <;> linarith), mul_zero, mul_zero]
  · rw [if_neg h0]
    push Not at h0
    set r := √(2 * τ + 3) with hr
    have hr0 : 0 ≤ r := Real.sqrt_nonneg _
    have hr2 : r ^ 2 = 2 * τ + 3 := Real.sq_sqrt (by linarith [h0.1])
    have hr3 : r ≤ 3 := by
      rw [hr, Real.sqrt_le_left (by norm_num)]
      linarith [h0.2]
    have hkey : 16 * r - (3 - r) * (r + 1) ^ 3 = (r - 1) ^ 3 * (3 + r) := by ring
    rcases le_or_gt τ (-1) with hlt | hlt
    · rw [if_pos ⟨h0.1, hlt⟩]
      have hr1 : r ≤ 1 := by nlinarith
      have hpos : 0 < (r + 1) ^ 3 * (3 - r) := mul_pos (by positivity) (by linarith)
      have hq : √((r + 1) ^ 3 * (3 - r) / 4) = √((r + 1) ^ 3 * (3 - r)) / 2 := by
        rw [Real.sqrt_div hpos.le, show (4 : ℝ) = 2 ^ 2 by norm_num, Real.sqrt_sq (by norm_num)]
      by_cases hone : τ = -1
      · have hr1 : r = 1 := by rw [hr, hone]; norm_num
        rw [if_pos ⟨hone.ge, h0.2⟩, hr1]
        norm_num
        field_simp
      · have hlt' : τ < -1 := lt_of_le_of_ne hlt hone
        rw [if_neg fun hc => hc.1.not_gt hlt', if_pos ⟨h0.1, hlt⟩, hq]
        have harg : 1 - -((r - 1) ^ 3 * (3 + r)) / ((r + 1) ^ 3 * (3 - r)) = 4 * r / ((r + 1) ^ 3 * (3 - r) / 4) := by
          rw [← hkey]
          have : 3 - r ≠ 0 := by linarith
          field_simp
          ring
        rw [harg]
        have hs := Real.sqrt_pos.2 hpos
        generalize √((r + 1) ^ 3 * (3 - r)) = s at *
        generalize ellipKR _ = K
        clear_value t
        congr 1
        field_simp
    · rw [if_neg fun hc => hc.2.not_gt hlt, if_pos ⟨hlt.le, h0.2⟩, if_pos ⟨hlt.le, h0.2⟩]
      have hr1 : 1 < r := by nlinarith
      have hq : √(4 * r) = 2 * √r := by
        rw [Real.sqrt_mul (by norm_num), show (4 : ℝ) = 2 ^ 2 by norm_num, Real.sqrt_sq (by norm_num)]
      have harg : 1 - 1 / 16 * ((r - 1) ^ 3 * (3 + r)) / r = (r + 1) ^ 3 * (3 - r) / 4 / (4 * r) := by
        rw [← hkey]
        field_simp
        ring
      rw [harg, hq]
      have hs := Real.sqrt_pos.2 (by linarith : 0 < r)
      generalize √r = s at *
      generalize ellipKR _ = K
      clear_value t
      congr 1
      field_simp

/-- C57: for the number `π` instead of the double `np.pi` both functions are the same. -/
theorem triangular_dos_mp {D : ℝ} (hD : 0 < D) (e : ℝ) :
    triangularDosMp ellipKR Real.pi e D = .ok (triangularDos ellipKm1 e D) := by
  rw [triangular_dos_mp_partial hD, div_self Real.pi_ne_zero, one_pow, one_mul]

/-- C57 fails for `triangular.dos_mp`: it uses the double `np.pi`, so whatever the precision of `mpmath` it differs
from the DOS wherever that does not vanish. -/
theorem triangular_dos_mp_wrong {D : ℝ} (hD : 0 < D) {e : ℝ} (he : triangularDos ellipKm1 e D ≠ 0) :
    triangularDosMp ellipKR (npPi : ℝ) e D ≠ .ok (triangularDos ellipKm1 e D) := by
  rw [triangular_dos_mp_partial hD]
  intro h
  have h1 := Except.ok.inj h
  have h2 : (Real.pi / (npPi : ℝ)) ^ 2 = 1 := mul_right_cancel₀ he (by rw [h1, one_mul])
  have hp : (0 : ℝ) < (npPi : ℝ) := by
    have : (0 : ℚ) < npPi := by norm_num [npPi]
    exact_mod_cast this
  have h3 : Real.pi / (npPi : ℝ) = 1 := by
    have h4 := div_pos Real.pi_pos hp
    nlinarith
  rw [div_eq_one_iff_eq hp.ne'] at h3
  exact irrational_pi ⟨npPi, h3.symm⟩

/-- C57: the double `np.pi` is `π` rounded to the 53 bits of a double: it is a multiple of `2⁻⁵¹` at a distance of
less than half of that. -/
theorem np_pi_rounded : (∃ k : ℤ, npPi = k * (2 : ℚ) ^ (-51 : ℤ)) ∧ |(npPi : ℝ) - Real.pi| < (2 : ℝ) ^ (-52 : ℤ) := by
  refine ⟨⟨7074237752028440, by norm_num [npPi]⟩, ?_⟩
  have h1 := Real.pi_gt_d20
  have h2 := Real.pi_lt_d20
  rw [abs_lt]
  constructor
  · norm_num [npPi] at h1 h2 ⊢; linarith
  · norm_num [npPi] at h1 h2 ⊢; linarith

/-- C57: still `dos_mp` is too large by a relative error below `10⁻¹⁶` only, as it is to be expected for doubles, but
not for `mpmath`. -/
theorem triangular_dos_mp_rel_error {D : ℝ} (hD : 0 < D) (e : ℝ) :
    ∃ r, triangularDosMp ellipKR (npPi : ℝ) e D = .ok r ∧
      |r - triangularDos ellipKm1 e D| ≤ 1e-16 * |triangularDos ellipKm1 e D| := by
  refine ⟨_, triangular_dos_mp_partial hD e _, ?_⟩
  have h1 := Real.pi_gt_d20
  have h2 := Real.pi_lt_d20
  set d := triangularDos ellipKm1 e D
  rw [show (Real.pi / (npPi : ℝ)) ^ 2 * d - d = ((Real.pi / (npPi : ℝ)) ^ 2 - 1) * d by ring, abs_mul]
  refine mul_le_mul_of_nonneg_right ?_ (abs_nonneg _)
  have hp : (0 : ℝ) < (npPi : ℝ) := by
    have : (0 : ℚ) < npPi := by norm_num [npPi]
    exact_mod_cast this
  have h3 : 1 ≤ Real.pi / (npPi : ℝ) := by
    rw [le_div_iff₀ hp]; norm_num [npPi] at h1 ⊢; linarith
  have h4 : Real.pi / (npPi : ℝ) ≤ 1 + 4.5e-17 := by
    rw [div_le_iff₀ hp]; norm_num [npPi] at h2 ⊢; linarith
  rw [abs_le]
  constructor <;> nlinarith

/-- C61: the DOS is normalised; so `dos_mp` is not. -/
theorem triangular_dos_norm {D : ℝ} (hD : 0 < D) : ∫ e, triangularDos ellipKm1 e D = 1 := by
  have h := (triangular_dos hD).integral_smul (f := fun _ => (1 : ℝ)) (by
    unfold triangularDisp
    have := Real.continuous_cos.measurable
    fun_prop) measurable_const.stronglyMeasurable
  simpa using h

example : ∃ e, triangularDos ellipKm1 e 1 ≠ 0 := by
  by_contra h
  push Not at h
  have := triangular_dos_norm one_pos
  simp [h] at this

end Gftool.Props
