import Verif.Lemmas.TwoCos
import Verif.Lemmas.Identity
import Verif.Model.Rectangular
import Verif.Spec.Bands
import Verif.Props.Square
import Mathlib.MeasureTheory.Group.Integral
import Mathlib.MeasureTheory.Measure.Haar.Unique

/-!
# Rectangular lattice (C61, C62)
-/

namespace Gftool.Props

open Gftool Model Spec Lemmas MeasureTheory

open scoped ENNReal

lemma measurable_rectangularDisp (D γ : ℝ) : Measurable (rectangularDisp D γ) := by
  unfold rectangularDisp
  have := Real.continuous_cos.measurable
  fun_prop

lemma measurable_ellipK : Measurable ellipK := by
  have h : StronglyMeasurable fun p : ℂ × ℝ => 1 / Complex.sqrt (1 - p.1 * Real.sin p.2 ^ 2) := by
    apply Measurable.stronglyMeasurable
    unfold Complex.sqrt
    have := Real.continuous_sin.measurable
    fun_prop
  have h2 := h.integral_prod_right' (ν := volume.restrict (Set.Ioc 0 (Real.pi / 2)))
  have : ellipK = fun m : ℂ => ∫ θ in Set.Ioc 0 (Real.pi / 2), 1 / Complex.sqrt (1 - m * Real.sin θ ^ 2) := by
    funext m
    unfold ellipK
    rw [intervalIntegral.integral_of_le (by have := Real.pi_pos; linarith)]
  rw [this]
  exact h2.measurable

/-- The average of arcsine laws for the rectangular lattice. -/
lemma rectangular_lintegral {D' γ x : ℝ} (hD : 0 < D') (hγ : 0 < γ) (h1 : x ≠ γ - 1) (h2 : x ≠ 1 - γ) :
    ∫⁻ p, ENNReal.ofReal (arcsineDensity (D' * γ) (D' * x - D' * Real.cos p)) ∂bz
      = if |x| < 1 + γ then ENNReal.ofReal (2 / Real.pi ^ 2 / D' / √(max (4 * γ) ((1 + γ) ^ 2 - x ^ 2))
          * ellipKR (min (4 * γ) ((1 + γ) ^ 2 - x ^ 2) / max (4 * γ) ((1 + γ) ^ 2 - x ^ 2))) else 0 := by
  have hpi := Real.pi_pos
  have hmeas : Measurable fun u : ℝ => ENNReal.ofReal (arcsineDensity (D' * γ) (D' * x - D' * u)) := by
    have h2 : Measurable fun u : ℝ => arcsineDensity (D' * γ) (D' * x - D' * u) :=
      measurable_arcsineDensity.comp (by fun_prop : Measurable fun u : ℝ => (D' * γ, D' * x - D' * u))
    exact h2.ennreal_ofReal
  have h3 := lintegral_const_cos (c := 1) one_ne_zero
    (G := fun u : ℝ => ENNReal.ofReal (arcsineDensity (D' * γ) (D' * x - D' * u))) hmeas
  simp only [one_mul] at h3
  rw [h3]
  have hind : ∀ u : ℝ, ENNReal.ofReal (arcsineDensity (D' * γ) (D' * x - D' * u)) * ENNReal.ofReal (arcsineDensity 1 u)
      = (Set.Ioo (-1) 1 ∩ Set.Ioo (x - γ) (x + γ)).indicator (fun u => ENNReal.ofReal (1 / (Real.pi ^ 2 * D'))
        * ENNReal.ofReal (1 / √(((1 - u) * (u - -1)) * ((x + γ - u) * (u - (x - γ)))))) u := by
    intro u
    have c1 : |u| < |(1 : ℝ)| ↔ u ∈ Set.Ioo (-1 : ℝ) 1 := by rw [abs_one, abs_lt, Set.mem_Ioo]
    have c2 : |D' * x - D' * u| < |D' * γ| ↔ u ∈ Set.Ioo (x - γ) (x + γ) := by
      rw [← mul_sub, abs_mul, abs_mul, abs_of_pos hD, abs_of_pos hγ, mul_lt_mul_iff_right₀ hD, abs_lt, Set.mem_Ioo]
      constructor <;> rintro ⟨a, b⟩ <;> constructor <;> linarith
    by_cases m1 : u ∈ Set.Ioo (-1 : ℝ) 1
    · by_cases m2 : u ∈ Set.Ioo (x - γ) (x + γ)
      · rw [Set.indicator_of_mem (Set.mem_inter m1 m2), arcsineDensity, arcsineDensity, if_pos (c1.2 m1), if_pos (c2.2 m2),
          ← ENNReal.ofReal_mul (by positivity), ← ENNReal.ofReal_mul (by positivity)]
        congr 1
        have p1 : 0 < (1 - u) * (u - -1) := mul_pos (by linarith [m1.2]) (by linarith [m1.1])
        have p2 : 0 < (x + γ - u) * (u - (x - γ)) := mul_pos (by linarith [m2.2]) (by linarith [m2.1])
        rw [show (D' * γ) ^ 2 - (D' * x - D' * u) ^ 2 = D' ^ 2 * ((x + γ - u) * (u - (x - γ))) by ring,
          show (1 : ℝ) ^ 2 - u ^ 2 = (1 - u) * (u - -1) by ring, Real.sqrt_mul (sq_nonneg D'), Real.sqrt_sq hD.le,
          Real.sqrt_mul p1.le]
        have q1 := Real.sqrt_pos.2 p1
        have q2 := Real.sqrt_pos.2 p2
        generalize √((1 - u) * (u - -1)) = s1 at *
        generalize √((x + γ - u) * (u - (x - γ))) = s2 at *
        field_simp
      · rw [Set.indicator_of_notMem fun h => m2 h.2, arcsineDensity, if_neg fun h => m2 (c2.1 h)]
        simp
    · rw [Set.indicator_of_notMem fun h => m1 h.1, arcsineDensity, arcsineDensity, if_neg fun h => m1 (c1.1 h)]
      simp
  simp_rw [hind]
  rw [lintegral_indicator (measurableSet_Ioo.inter measurableSet_Ioo), lintegral_const_mul' _ _ ENNReal.ofReal_ne_top]
  by_cases hx : |x| < 1 + γ
  · obtain ⟨a, b⟩ := abs_lt.1 hx
    rw [if_pos hx, lintegral_overlap (by intro h; exact h1 (by linarith)) (by intro h; exact h2 (by linarith))
      (by rw [max_lt_iff, lt_min_iff, lt_min_iff]; constructor <;> constructor <;> linarith)]
    rw [show (1 - -1) * (x + γ - (x - γ)) = 4 * γ by ring,
      show (1 - (x - γ)) * (x + γ - -1) = (1 + γ) ^ 2 - x ^ 2 by ring, ← ENNReal.ofReal_mul (by positivity)]
    congr 1
    have : 0 < √(max (4 * γ) ((1 + γ) ^ 2 - x ^ 2)) := Real.sqrt_pos.2 (lt_max_of_lt_left (by positivity))
    field_simp
  · rw [if_neg hx]
    have hemp : Set.Ioo (-1 : ℝ) 1 ∩ Set.Ioo (x - γ) (x + γ) = ∅ := by
      rw [Set.eq_empty_iff_forall_notMem]
      rintro u ⟨m1, m2⟩
      apply hx
      rw [abs_lt]
      constructor <;> linarith [m1.1, m1.2, m2.1, m2.2]
    rw [hemp]
    simp

/-- What is required of the implementation of the elliptic integral: it is exact off the cut `[1, ∞)`, on the cut
it is one of the two boundary values. -/
structure EllipkContract (ellipk : ℂ → ℂ) : Prop where
  off : ∀ m : ℂ, 1 - m ∈ Complex.slitPlane → ellipk m = ellipK m
  cut : ∀ m : ℝ, 1 < m → ellipk m = ellipK m ∨ ellipk m = (starRingEnd ℂ) (ellipK m)

lemma EllipkContract.exact : EllipkContract ellipK := ⟨fun _ _ => rfl, fun _ _ => Or.inl rfl⟩

lemma EllipkContract.re {ellipk : ℂ → ℂ} (hk : EllipkContract ellipk) {m : ℝ} (hm : m ≠ 1) :
    (ellipk m).re = (ellipK m).re := by
  rcases lt_or_gt_of_ne hm with h | h
  · rw [hk.off]
    rw [← Complex.ofReal_one, ← Complex.ofReal_sub, Complex.ofReal_mem_slitPlane]
    linarith
  · rcases hk.cut m h with h' | h' <;> rw [h']
    simp

/-- C61: `rectangular.dos` is the density of the energies of the dispersion
`ε(k) = D/(1+γ) (cos kx + γ cos ky)`. -/
theorem rectangular_dos {D γ : ℝ} (hD : 0 < D) (hγ : 0 < γ) :
    IsDosOf bz2 (rectangularDisp D γ) (fun e => rectangularDos ellipK e D γ) := by
  have hpi := Real.pi_pos
  have hcos := Real.continuous_cos.measurable
  set D' := D / (1 + γ) with hD'
  have hD'0 : 0 < D' := by positivity
  have hform : rectangularDisp D γ = fun k => D' * Real.cos k.1 + D' * γ * Real.cos k.2 := by
    funext k
    unfold rectangularDisp
    ring
  rw [hform]
  refine isDosOf_two (c := fun _ => D' * γ) (g := fun p => D' * Real.cos p) (by fun_prop) (by fun_prop)
    (Filter.Eventually.of_forall fun _ => by positivity) ?_ ?_ ?_
  · unfold rectangularDos
    have hK := measurable_ellipK
    have hs : Measurable fun x : ℝ => √x := Real.continuous_sqrt.measurable
    have ha : Measurable fun x : ℝ => |x| := continuous_abs.measurable
    have hif : Measurable fun e : ℝ => if |e / D| = 1 then 1 - (2 : ℝ) ^ (-52 : ℤ) else e / D := by
      refine Measurable.ite ?_ measurable_const (by fun_prop)
      exact measurableSet_eq_fun (by fun_prop) measurable_const
    refine Measurable.ite ?_ ?_ measurable_const
    · exact measurableSet_le (ha.comp hif) measurable_const
    · simp only [Complex.conj_re]
      refine ha.comp (Measurable.mul (Measurable.mul measurable_const (hs.comp ?_)) (Complex.measurable_re.comp
        (hK.comp (Complex.measurable_ofReal.comp ?_))))
      all_goals exact measurable_const.div (measurable_const.sub (hif.pow_const 2))
  · intro e
    unfold rectangularDos
    simp only
    split_ifs <;> positivity
  · have hn : ∀ a : ℝ, ∀ᵐ e : ℝ, e ≠ a := fun a => by simp [ae_iff]
    filter_upwards [hn (D' * (γ - 1)), hn (D' * (1 - γ)), hn D, hn (-D)] with e n1 n2 n3 n4
    set x := e / D' with hx
    have hex : e = D' * x := by rw [hx]; field_simp
    have h1 : x ≠ γ - 1 := fun h => n1 (by rw [hex, h])
    have h2 : x ≠ 1 - γ := fun h => n2 (by rw [hex, h])
    have heD : e / D = x / (1 + γ) := by rw [hx, hD']; field_simp
    have hne : |e / D| ≠ 1 := by
      rw [abs_div, abs_of_pos hD]
      intro h
      rw [div_eq_one_iff_eq hD.ne'] at h
      rcases abs_choice e with h' | h' <;> rw [h'] at h
      · exact n3 h
      · exact n4 (by linarith)
    have hiff : |e / D| ≤ 1 ↔ |x| < 1 + γ := by
      rw [le_iff_lt_or_eq, or_iff_left hne, heD, abs_div, abs_of_pos (by positivity : 0 < 1 + γ), div_lt_one (by positivity)]
    have hl := rectangular_lintegral hD'0 hγ h1 h2
    rw [← hex] at hl
    rw [hl]
    unfold rectangularDos
    simp only [if_neg hne, Complex.conj_re]
    by_cases hb : |x| < 1 + γ
    · rw [if_pos hb, if_pos (hiff.2 hb), heD]
      congr 1
      set P := (1 + γ) ^ 2 - x ^ 2 with hP
      have hP0 : 0 < P := by
        obtain ⟨a, b⟩ := abs_lt.1 hb
        rw [hP]
        nlinarith
      have hk : 4 * γ / (γ + 1) ^ 2 / (1 - (x / (1 + γ)) ^ 2) = 4 * γ / P := by
        rw [div_div]
        congr 1
        rw [hP]
        field_simp
        ring
      have hDD : D = D' * (1 + γ) := by rw [hD']; field_simp
      rw [hk, hDD]
      have hg := Real.sqrt_pos.2 hγ
      have hg2 := Real.sq_sqrt hγ.le
      have hPs := Real.sqrt_pos.2 hP0
      have hPs2 := Real.sq_sqrt hP0.le
      have h4 : √(4 * γ) = 2 * √γ := by
        rw [Real.sqrt_mul (by norm_num), show (4 : ℝ) = 2 ^ 2 by norm_num, Real.sqrt_sq (by norm_num)]
      have hne4 : P ≠ 4 * γ := by
        intro h
        have : (x - (γ - 1)) * (x - (1 - γ)) = 0 := by
          rw [hP] at h
          linarith
        rcases mul_eq_zero.1 this with h' | h'
        · exact h1 (by linarith)
        · exact h2 (by linarith)
      rcases lt_or_gt_of_ne hne4 with hlt | hlt
      · have hk1 : 1 < 4 * γ / P := by rw [lt_div_iff₀ hP0]; linarith
        have hre : (ellipK ((4 * γ / P : ℝ) : ℂ)).re = ellipKR (P / (4 * γ)) / √(4 * γ / P) := by
          rw [ellipK_cut hk1, one_div_div]
          simp
        have hKn := ellipKR_nonneg (P / (4 * γ))
        have hks : 0 < √(4 * γ / P) := Real.sqrt_pos.2 (by positivity)
        rw [max_eq_left hlt.le, min_eq_right hlt.le, hre, h4, abs_of_nonneg (by positivity)]
        norm_num
        field_simp
      · have hk1 : 4 * γ / P < 1 := by rw [div_lt_one hP0]; linarith
        have hre : (ellipK ((4 * γ / P : ℝ) : ℂ)).re = ellipKR (4 * γ / P) := by
          rw [ellipK_ofReal hk1]
          simp
        have hKn := ellipKR_nonneg (4 * γ / P)
        rw [max_eq_right hlt.le, min_eq_left hlt.le, hre, Real.sqrt_div (by positivity), h4, abs_of_nonneg (by positivity)]
        rw [show (1.0 : ℝ) = 1 by norm_num]
        clear_value P D'
        field_simp
    · rw [if_neg hb, if_neg fun h => hb (hiff.1 h), ENNReal.ofReal_zero]

/-- C61: the DOS vanishes outside of the band. -/
theorem rectangular_dos_outside {D : ℝ} (hD : 0 < D) (ellipk : ℂ → ℂ) (γ : ℝ) {e : ℝ} (he : D < |e|) :
    rectangularDos ellipk e D γ = 0 := by
  have h : 1 < |e / D| := by rw [abs_div, abs_of_pos hD, lt_div_iff₀ hD]; linarith
  unfold rectangularDos
  simp only
  rw [if_neg h.ne', if_neg (not_le.2 h)]

theorem rectangular_dos_symm (ellipk : ℂ → ℂ) (e D γ : ℝ) :
    rectangularDos ellipk (-e) D γ = rectangularDos ellipk e D γ := by
  unfold rectangularDos
  simp only [neg_div, abs_neg]
  by_cases h : |e / D| = 1
  · simp [h]
  · simp [h]

/-- The scaled frequency is off the scaled band. -/
lemma rectangular_offBand {D γ : ℝ} (hD : 0 < D) (hγ : 0 < γ) {z : ℂ} (hz : OffBand z D) :
    OffBand (z / (D / (1 + γ))) (1 + γ) := by
  have hDc : (D : ℂ) ≠ 0 := by exact_mod_cast hD.ne'
  have hgc : (1 + γ : ℂ) ≠ 0 := by exact_mod_cast (by positivity : (1 + γ) ≠ 0)
  intro e he h
  refine hz (e * (D / (1 + γ))) ?_ ?_
  · rw [abs_mul, abs_of_pos (by positivity : 0 < D / (1 + γ))]
    calc |e| * (D / (1 + γ)) ≤ (1 + γ) * (D / (1 + γ)) := by gcongr
      _ = D := by field_simp
  · push_cast
    rw [← h]
    field_simp

/-- Real squares below the band edge do not occur. -/
lemma offBand_sq {ζ : ℂ} {b : ℝ} (hz : OffBand ζ b) {s : ℝ} (hs0 : 0 ≤ s) (hb : 0 ≤ b) (hs : s ≤ b ^ 2) : ζ ^ 2 ≠ s := by
  intro h
  have h1 : ((√s : ℝ) : ℂ) ^ 2 = s := by rw [← Complex.ofReal_pow, Real.sq_sqrt hs0]
  have h2 : (ζ - (√s : ℝ)) * (ζ + (√s : ℝ)) = 0 := by linear_combination h - h1
  have h3 : √s ≤ b := by rw [Real.sqrt_le_left hb]; exact hs
  rcases mul_eq_zero.1 h2 with h' | h'
  · exact hz (√s) (by rwa [abs_of_nonneg (Real.sqrt_nonneg s)]) (sub_eq_zero.1 h')
  · refine hz (-√s) (by rwa [abs_neg, abs_of_nonneg (Real.sqrt_nonneg s)]) ?_
    push_cast
    linear_combination h'

/-- The arguments of the square root and of the elliptic integral avoid the cuts. -/
lemma rectangular_args {γ : ℝ} (hγ : 0 < γ) {ζ : ℂ} (hz : OffBand ζ (1 + γ)) :
    ζ ≠ 0 ∧ ζ ^ 2 - (γ - 1) ^ 2 ≠ 0 ∧ 1 - (γ - 1 : ℂ) ^ 2 * (1 / ζ) ^ 2 ∈ Complex.slitPlane
      ∧ 4 * γ / (ζ ^ 2 - (γ - 1) ^ 2) ∈ ellipDom := by
  have hζ := hz.ne_zero (by positivity)
  have hne : ζ ^ 2 - (γ - 1) ^ 2 ≠ 0 := by
    have := offBand_sq hz (s := (γ - 1) ^ 2) (sq_nonneg _) (by positivity) (by nlinarith)
    push_cast at this
    exact sub_ne_zero.2 this
  refine ⟨hζ, hne, ?_, ?_⟩
  · rcases eq_or_ne γ 1 with h | h
    · simp [h]
    · have hpos : 0 < |γ - 1| := abs_pos.2 (sub_ne_zero.2 h)
      have h1 : OffBand ζ |γ - 1| := fun e he => hz e (he.trans (by rw [abs_le]; constructor <;> linarith))
      have h2 := h1.slit hpos
      have e1 : ((|γ - 1| : ℝ) : ℂ) ^ 2 = (γ - 1 : ℂ) ^ 2 := by
        rw [← Complex.ofReal_pow, sq_abs]
        push_cast
        ring
      rwa [div_pow, e1, div_eq_mul_one_div, ← one_div_pow] at h2
  · change 1 - 4 * (γ : ℂ) / (ζ ^ 2 - (γ - 1) ^ 2) ∈ Complex.slitPlane
    by_contra hcon
    rw [Complex.mem_slitPlane_iff, not_or, not_lt, not_not] at hcon
    set w := 4 * (γ : ℂ) / (ζ ^ 2 - (γ - 1) ^ 2) with hw
    simp only [Complex.sub_re, Complex.one_re, Complex.sub_im, Complex.one_im, zero_sub, neg_eq_zero] at hcon
    have hwr : w = (w.re : ℂ) := by apply Complex.ext <;> simp [hcon.2]
    have hr1 : 1 ≤ w.re := by linarith [hcon.1]
    have hw0 : w ≠ 0 := by rw [hwr]; exact_mod_cast (by linarith : w.re ≠ 0)
    have h3 : ζ ^ 2 = (((γ - 1) ^ 2 + 4 * γ / w.re : ℝ) : ℂ) := by
      push_cast
      rw [← hwr]
      have : w * (ζ ^ 2 - (γ - 1) ^ 2) = 4 * γ := by rw [hw]; field_simp
      field_simp
      linear_combination this
    refine offBand_sq hz ?_ (by positivity) ?_ h3
    · have : 0 < w.re := by linarith
      positivity
    · have : 4 * γ / w.re ≤ 4 * γ := div_le_self (by positivity) hr1
      nlinarith

/-- Above the band the Green's function is a real elliptic integral. -/
lemma rectangular_real {D γ : ℝ} (hD : 0 < D) (hγ : 0 < γ) {x : ℝ} (hx : D < x) :
    bzGreen bz2 (rectangularDisp D γ) x = rectangularGfZ ellipK x D γ := by
  have hpi := Real.pi_pos
  have hcos := Real.continuous_cos.measurable
  have hcosc := Real.continuous_cos
  have hsm : Measurable fun x : ℝ => √x := Real.continuous_sqrt.measurable
  set D' := D / (1 + γ) with hD'
  have hD'0 : 0 < D' := by positivity
  have hDD : D = D' * (1 + γ) := by rw [hD']; field_simp
  set ζ := x / D' with hζ
  have hxζ : x = D' * ζ := by rw [hζ]; field_simp
  have hζ1 : 1 + γ < ζ := by rw [hζ, lt_div_iff₀ hD'0]; linarith
  have hw : ∀ u : ℝ, |u| ≤ 1 → D' * γ < x - D' * u := by
    intro u hu
    rw [hxζ]
    have := (abs_le.1 hu).2
    nlinarith
  -- the inner integral
  have hinner : ∀ p : ℝ, ∫ q, 1 / ((x : ℂ) - (rectangularDisp D γ (p, q) : ℝ)) ∂bz
      = ((1 / √((x - D' * Real.cos p) ^ 2 - (D' * γ) ^ 2) : ℝ) : ℂ) := by
    intro p
    have h0 := hw _ (Real.abs_cos_le_one p)
    have hwp : 0 < x - D' * Real.cos p := lt_trans (by positivity) h0
    have hoff : OffBand ((x - D' * Real.cos p : ℝ) : ℂ) (D' * γ) := by
      intro e he h
      have h1 : x - D' * Real.cos p = e := by exact_mod_cast h
      have := (abs_le.1 he).2
      linarith
    have h1 := integral_one_cos hoff (by positivity) (x := 1) (by simp)
    have e1 : (fun q => 1 / ((x : ℂ) - (rectangularDisp D γ (p, q) : ℝ)))
        = fun q => 1 / (((x - D' * Real.cos p : ℝ) : ℂ) - ((D' * γ * (1 * Real.cos q) : ℝ) : ℂ)) := by
      funext q
      congr 1
      rw [← Complex.ofReal_sub, ← Complex.ofReal_sub]
      congr 1
      unfold rectangularDisp
      ring
    rw [e1, h1]
    have h2 : 0 ≤ 1 - (D' * γ / (x - D' * Real.cos p)) ^ 2 * 1 ^ 2 := by
      rw [one_pow, mul_one, sub_nonneg]
      refine pow_le_one₀ (by positivity) ?_
      rw [div_le_one hwp]
      exact h0.le
    have e2 : (1 : ℂ) - (((D' * γ : ℝ) : ℂ) / ((x - D' * Real.cos p : ℝ) : ℂ)) ^ 2 * ((1 ^ 2 : ℝ) : ℂ)
        = ((1 - (D' * γ / (x - D' * Real.cos p)) ^ 2 * 1 ^ 2 : ℝ) : ℂ) := by push_cast; ring
    rw [e2, sqrt_ofReal h2, ← Complex.ofReal_mul, ← Complex.ofReal_one, ← Complex.ofReal_div]
    congr 2
    nth_rewrite 1 [← Real.sqrt_sq hwp.le]
    rw [← Real.sqrt_mul (sq_nonneg _)]
    congr 1
    field_simp
  -- the outer integral
  have houter : ∫ p, 1 / √((x - D' * Real.cos p) ^ 2 - (D' * γ) ^ 2) ∂bz
      = 1 / (Real.pi * D') * (2 / √(ζ ^ 2 - (γ - 1) ^ 2) * ellipKR (4 * γ / (ζ ^ 2 - (γ - 1) ^ 2))) := by
    have hm : Measurable fun u : ℝ => 1 / √((x - D' * u) ^ 2 - (D' * γ) ^ 2) := by fun_prop
    have hm2 : Measurable fun p : ℝ => 1 / √((x - D' * Real.cos p) ^ 2 - (D' * γ) ^ 2) := hm.comp hcos
    rw [integral_eq_lintegral_of_nonneg_ae (Filter.Eventually.of_forall fun p => by
      simp only [Pi.zero_apply]; positivity) hm2.aestronglyMeasurable]
    have h3 := lintegral_const_cos (c := 1) one_ne_zero
      (G := fun u : ℝ => ENNReal.ofReal (1 / √((x - D' * u) ^ 2 - (D' * γ) ^ 2))) hm.ennreal_ofReal
    simp only [one_mul] at h3
    rw [h3]
    have hind : ∀ u : ℝ, ENNReal.ofReal (1 / √((x - D' * u) ^ 2 - (D' * γ) ^ 2)) * ENNReal.ofReal (arcsineDensity 1 u)
        = (Set.Ioo (-1) 1).indicator (fun u => ENNReal.ofReal (1 / (Real.pi * D'))
          * ENNReal.ofReal (1 / √((ζ + γ - u) * (ζ - γ - u) * (1 - u) * (u - -1)))) u := by
      intro u
      have c1 : |u| < |(1 : ℝ)| ↔ u ∈ Set.Ioo (-1 : ℝ) 1 := by rw [abs_one, abs_lt, Set.mem_Ioo]
      by_cases m1 : u ∈ Set.Ioo (-1 : ℝ) 1
      · rw [Set.indicator_of_mem m1, arcsineDensity, if_pos (c1.2 m1), ← ENNReal.ofReal_mul (by positivity),
          ← ENNReal.ofReal_mul (by positivity)]
        congr 1
        have p1 : 0 < (1 - u) * (u - -1) := mul_pos (by linarith [m1.2]) (by linarith [m1.1])
        have p2 : 0 < (ζ + γ - u) * (ζ - γ - u) := mul_pos (by linarith [m1.2]) (by linarith [m1.2])
        rw [show (x - D' * u) ^ 2 - (D' * γ) ^ 2 = D' ^ 2 * ((ζ + γ - u) * (ζ - γ - u)) by rw [hxζ]; ring,
          show (1 : ℝ) ^ 2 - u ^ 2 = (1 - u) * (u - -1) by ring, Real.sqrt_mul (sq_nonneg D'), Real.sqrt_sq hD'0.le,
          mul_assoc ((ζ + γ - u) * (ζ - γ - u)), Real.sqrt_mul p2.le]
        have q1 := Real.sqrt_pos.2 p1
        have q2 := Real.sqrt_pos.2 p2
        generalize √((1 - u) * (u - -1)) = s1 at *
        generalize √((ζ + γ - u) * (ζ - γ - u)) = s2 at *
        field_simp
      · rw [Set.indicator_of_notMem m1, arcsineDensity, if_neg fun h => m1 (c1.1 h)]
        simp
    simp_rw [hind]
    rw [lintegral_indicator measurableSet_Ioo, lintegral_const_mul' _ _ ENNReal.ofReal_ne_top,
      lintegral_quartic_low (by linarith) (by linarith) (by norm_num), ← ENNReal.ofReal_mul (by positivity),
      show (ζ + γ - 1) * (ζ - γ - -1) = ζ ^ 2 - (γ - 1) ^ 2 by ring,
      show (ζ + γ - (ζ - γ)) * (1 - -1) = 4 * γ by ring, ENNReal.toReal_ofReal]
    have := ellipKR_nonneg (4 * γ / (ζ ^ 2 - (γ - 1) ^ 2))
    positivity
  have hint : Integrable (fun k : ℝ × ℝ => 1 / ((x : ℂ) - (rectangularDisp D γ k : ℝ))) (bz.prod bz) := by
    have hm : Measurable fun k : ℝ × ℝ => 1 / ((x : ℂ) - (rectangularDisp D γ k : ℝ)) := by
      have := measurable_rectangularDisp D γ
      fun_prop
    refine Integrable.of_bound hm.aestronglyMeasurable (1 / (x - D)) (Filter.Eventually.of_forall fun k => ?_)
    have hk : rectangularDisp D γ k ≤ D := by
      unfold rectangularDisp
      have b1 := Real.cos_le_one k.1
      have b2 := Real.cos_le_one k.2
      nth_rewrite 2 [hDD]
      exact mul_le_mul_of_nonneg_left (by nlinarith) hD'0.le
    rw [← Complex.ofReal_sub, norm_div, norm_one, Complex.norm_real, Real.norm_of_nonneg (by linarith)]
    exact one_div_le_one_div_of_le (by linarith) (by linarith)
  unfold bzGreen
  rw [bz2, integral_prod _ hint]
  simp_rw [hinner]
  rw [integral_complex_ofReal, houter]
  unfold rectangularGfZ
  have hζ0 : 0 < ζ := by linarith
  have eζ : (x : ℂ) / ((D : ℂ) / (1 + γ)) = (ζ : ℂ) := by rw [hζ, hD']; push_cast; rfl
  have eD : (D : ℂ) / (1 + γ) = (D' : ℂ) := by rw [hD']; push_cast; rfl
  have hP : 0 < ζ ^ 2 - (γ - 1) ^ 2 := by nlinarith
  have hk1 : 4 * γ / (ζ ^ 2 - (γ - 1) ^ 2) < 1 := by
    rw [div_lt_one hP]
    nlinarith
  have ek : 4 * (γ : ℂ) / ((ζ : ℂ) ^ 2 - ((γ : ℂ) - 1) ^ 2) = ((4 * γ / (ζ ^ 2 - (γ - 1) ^ 2) : ℝ) : ℂ) := by
    push_cast; rfl
  have hs0 : 0 ≤ 1 - (γ - 1) ^ 2 * (1 / ζ) ^ 2 := by
    have : 1 - (γ - 1) ^ 2 * (1 / ζ) ^ 2 = (ζ ^ 2 - (γ - 1) ^ 2) / ζ ^ 2 := by field_simp
    rw [this]
    positivity
  have es : (1 : ℂ) - ((γ : ℂ) - 1) ^ 2 * (1 / (ζ : ℂ)) ^ 2 = ((1 - (γ - 1) ^ 2 * (1 / ζ) ^ 2 : ℝ) : ℂ) := by
    push_cast; rfl
  have er : ζ * √(1 - (γ - 1) ^ 2 * (1 / ζ) ^ 2) = √(ζ ^ 2 - (γ - 1) ^ 2) := by
    nth_rewrite 1 [← Real.sqrt_sq hζ0.le]
    rw [← Real.sqrt_mul (sq_nonneg _)]
    congr 1
    field_simp
  simp only
  rw [eζ, eD, ek, es, ellipK_ofReal hk1, sqrt_ofReal hs0, ← er]
  generalize ellipKR (4 * γ / (ζ ^ 2 - (γ - 1) ^ 2)) = K
  generalize √(1 - (γ - 1) ^ 2 * (1 / ζ) ^ 2) = s
  push_cast
  ring

/-- C62: `rectangular.gf_z` is the local Green's function of the rectangular lattice dispersion, for all `z` off
the band. -/
theorem rectangular_gf_z {z : ℂ} {D γ : ℝ} (hD : 0 < D) (hγ : 0 < γ) (hz : OffBand z D) :
    rectangularGfZ ellipK z D γ = bzGreen bz2 (rectangularDisp D γ) z := by
  have hDc : (D : ℂ) ≠ 0 := by exact_mod_cast hD.ne'
  have hgc : (1 + γ : ℂ) ≠ 0 := by exact_mod_cast (by positivity : (1 + γ) ≠ 0)
  have hdisp : ∀ k, rectangularDisp D γ k ∈ Set.Icc (-D) D := by
    intro k
    unfold rectangularDisp
    obtain ⟨a1, b1⟩ := abs_le.1 (Real.abs_cos_le_one k.1)
    obtain ⟨a2, b2⟩ := abs_le.1 (Real.abs_cos_le_one k.2)
    have h0 : 0 < D / (1 + γ) := by positivity
    have h1 : D = D / (1 + γ) * (1 + γ) := by field_simp
    constructor
    · rw [show -D = D / (1 + γ) * (-(1 + γ)) by field_simp]
      exact mul_le_mul_of_nonneg_left (by nlinarith) h0.le
    · nth_rewrite 2 [h1]
      exact mul_le_mul_of_nonneg_left (by nlinarith) h0.le
  have hcut : ∀ {z : ℂ}, z ∈ cutPlane D → rectangularGfZ ellipK z D γ = bzGreen bz2 (rectangularDisp D γ) z := by
    intro z hz
    refine eq_of_eq_real (f := fun z => rectangularGfZ ellipK z D γ) ?_
      ((differentiableOn_bzGreen (measurable_rectangularDisp D γ) hdisp).mono cutPlane_offBand)
      (fun x hx => (rectangular_real hD hγ hx).symm) hz
    intro w hw
    have hoff : OffBand w D := fun e he => cutPlane_offBand hw e (abs_le.1 he)
    obtain ⟨h1, h2, h3, h4⟩ := rectangular_args hγ (rectangular_offBand hD hγ hoff)
    apply DifferentiableAt.differentiableWithinAt
    unfold rectangularGfZ
    simp only
    have d0 : DifferentiableAt ℂ (fun w : ℂ => w / (D / (1 + γ))) w := by fun_prop
    have d1 : DifferentiableAt ℂ (fun w : ℂ => 1 / (w / (D / (1 + γ)))) w := by fun_prop (disch := exact h1)
    have d2 : DifferentiableAt ℂ (fun w : ℂ => 4 * γ / ((w / (D / (1 + γ))) ^ 2 - (γ - 1) ^ 2)) w := by
      fun_prop (disch := exact h2)
    have d3 : DifferentiableAt ℂ (fun w : ℂ => ellipK (4 * γ / ((w / (D / (1 + γ))) ^ 2 - (γ - 1) ^ 2))) w :=
      DifferentiableAt.comp (g := ellipK) w (differentiableOn_ellipK.differentiableAt (isOpen_ellipDom.mem_nhds h4)) d2
    have d4 : DifferentiableAt ℂ (fun w : ℂ => Complex.sqrt (1 - (γ - 1) ^ 2 * (1 / (w / (D / (1 + γ)))) ^ 2)) w :=
      DifferentiableAt.comp (g := Complex.sqrt) w (Complex.differentiableAt_sqrt h3) ((d1.pow 2).const_mul _ |>.const_sub _)
    exact ((d1.const_mul _).mul ((differentiableAt_const 1).div d4 (sqrt_ne_zero h3))).mul d3
  rcases offBand_cases (a := -D) (b := D) (fun e he => hz e (abs_le.2 he)) with h | ⟨x, hx, rfl⟩
  · exact hcut h
  · have h1 : ((-x : ℝ) : ℂ) ∈ cutPlane D := by
      simp only [cutPlane, Set.mem_ofPred_eq, ← Complex.ofReal_sub, Complex.ofReal_mem_slitPlane]
      linarith
    have h2 := hcut h1
    have hH := (rectangular_dos hD hγ).hilbertPair (measurable_rectangularDisp D γ) (a := -D) (b := D) fun e he =>
      rectangular_dos_outside hD _ γ (not_le.1 fun h => he (abs_le.1 h))
    rw [hH.hilbert _ (cutPlane_offBand h1)] at h2
    rw [hH.hilbert _ fun e he => hz e (abs_le.2 he)]
    have h3 : rectangularGfZ ellipK ((-x : ℝ) : ℂ) D γ = -rectangularGfZ ellipK x D γ := by
      unfold rectangularGfZ
      push_cast
      simp only [neg_div, neg_sq, one_div, inv_neg]
      ring
    rw [h3, ← integral_neg_eq_self] at h2
    rw [← neg_inj, h2, ← integral_neg]
    congr 1
    funext e
    rw [rectangular_dos_symm]
    push_cast
    rw [← div_neg]
    congr 1
    ring

/-- C62: `rectangular.gf_z` is the Hilbert transform of `rectangular.dos`. -/
theorem rectangular_hilbert {D γ : ℝ} (hD : 0 < D) (hγ : 0 < γ) :
    HilbertPair (fun e => rectangularDos ellipK e D γ) (fun z => rectangularGfZ ellipK z D γ) (-D) D 1 :=
  ((rectangular_dos hD hγ).hilbertPair (measurable_rectangularDisp D γ) fun _ he =>
    rectangular_dos_outside hD _ γ (not_le.1 fun h => he (abs_le.1 h))).congr
    fun _ hz => rectangular_gf_z hD hγ fun e he => hz e (abs_le.1 he)

/-- C61, C62: the same for any implementation of the elliptic integral which is correct off the cut and returns
one of the boundary values on it. -/
theorem rectangular_contract {ellipk : ℂ → ℂ} (hk : EllipkContract ellipk) {D γ : ℝ} (hD : 0 < D) (hγ : 0 < γ) :
    (∀ e, |e| ≠ D → |e| ≠ D * |(γ - 1) / (γ + 1)| → rectangularDos ellipk e D γ = rectangularDos ellipK e D γ) ∧
    (∀ z, OffBand z D → rectangularGfZ ellipk z D γ = bzGreen bz2 (rectangularDisp D γ) z ∧
      rectangularHilbert ellipk z D γ = bzGreen bz2 (rectangularDisp D γ) z) := by
  constructor
  · intro e he1 he2
    have hne : |e / D| ≠ 1 := by
      rw [abs_div, abs_of_pos hD, ne_eq, div_eq_one_iff_eq hD.ne']
      exact he1
    unfold rectangularDos
    simp only [Complex.conj_re, if_neg hne]
    by_cases hb : |e / D| ≤ 1
    · rw [if_pos hb, if_pos hb, hk.re]
      intro h
      apply he2
      have hlt : |e / D| < 1 := lt_of_le_of_ne hb hne
      have h1 : 0 < 1 - (e / D) ^ 2 := by
        have := (sq_lt_one_iff_abs_lt_one _).2 hlt
        linarith
      rw [div_eq_one_iff_eq h1.ne'] at h
      have h2 : (e / D) ^ 2 = ((γ - 1) / (γ + 1)) ^ 2 := by
        have : 4 * γ / (γ + 1) ^ 2 = 1 - ((γ - 1) / (γ + 1)) ^ 2 := by field_simp; ring
        linarith
      rw [sq_eq_sq_iff_abs_eq_abs, abs_div, abs_of_pos hD, div_eq_iff hD.ne'] at h2
      rw [h2, mul_comm]
    · rw [if_neg hb, if_neg hb]
  · intro z hz
    have h : rectangularGfZ ellipk z D γ = bzGreen bz2 (rectangularDisp D γ) z := by
      rw [← rectangular_gf_z hD hγ hz]
      unfold rectangularGfZ
      simp only
      rw [hk.off _ (rectangular_args hγ (rectangular_offBand hD hγ hz)).2.2.2]
    exact ⟨h, h⟩

/-- C62: scaling of energies with the half-bandwidth. -/
theorem rectangular_scaling (ellipk : ℂ → ℂ) {s : ℝ} (hs : 0 < s) (e D γ : ℝ) (z : ℂ) :
    rectangularDos ellipk (s * e) (s * D) γ = rectangularDos ellipk e D γ / s ∧
    rectangularGfZ ellipk (s * z) (s * D) γ = rectangularGfZ ellipk z D γ / s := by
  have hsc : (s : ℂ) ≠ 0 := by exact_mod_cast hs.ne'
  constructor
  · unfold rectangularDos
    simp only
    rw [mul_div_mul_left _ _ hs.ne']
    split_ifs with h1 h2
    all_goals first
      | simp only [zero_div]
      | (rw [show ∀ a b c : ℝ, a / (s * D) * b * c = a / D * b * c / s from fun a b c => by field_simp, abs_div, abs_of_pos hs])
  · unfold rectangularGfZ
    simp only
    push_cast
    rw [mul_div_assoc, mul_div_mul_left _ _ hsc]
    field_simp

/-- C61: `scale=1` is the square lattice. -/
theorem rectangular_gf_z_square (ellipk : ℂ → ℂ) (z : ℂ) {D : ℝ} (hD : D ≠ 0) :
    rectangularGfZ ellipk z D 1 = squareGfZ ellipk z D := by
  have hDc : (D : ℂ) ≠ 0 := by exact_mod_cast hD
  unfold rectangularGfZ squareGfZ
  simp only [Complex.ofReal_one, sub_self, ne_eq, OfNat.ofNat_ne_zero, not_false_eq_true, zero_pow, sub_zero, zero_mul,
    Complex.sqrt_one, mul_one, div_one]
  have e1 : 4 / (z / ((D : ℂ) / (1 + 1))) ^ 2 = ((D : ℂ) / z) ^ 2 := by
    rw [div_div_eq_mul_div, div_pow, div_div_eq_mul_div, mul_pow, div_pow]
    ring
  rw [e1]
  congr 1
  rw [one_div_div, div_div_eq_mul_div]
  ring

theorem rectangular_dos_square {D : ℝ} (hD : 0 < D) {e : ℝ} (h0 : e ≠ 0) (he : |e| ≠ D) :
    rectangularDos ellipK e D 1 = squareDosK e D := by
  have hne : |e / D| ≠ 1 := by
    rw [abs_div, abs_of_pos hD, ne_eq, div_eq_one_iff_eq hD.ne']
    exact he
  unfold rectangularDos squareDosK squareDos
  simp only [Complex.conj_re, if_neg hne]
  by_cases hb : |e / D| ≤ 1
  · rw [if_pos hb, if_pos hb]
    have hlt : |e / D| < 1 := lt_of_le_of_ne hb hne
    have h1 : 0 < 1 - (e / D) ^ 2 := by
      have := (sq_lt_one_iff_abs_lt_one _).2 hlt
      linarith
    have h2 : 0 < (e / D) ^ 2 := by
      have : e / D ≠ 0 := div_ne_zero h0 hD.ne'
      positivity
    have hk : 4 * (1 : ℝ) / (1 + 1) ^ 2 / (1 - (e / D) ^ 2) = 1 / (1 - (e / D) ^ 2) := by norm_num
    have hk1 : 1 < 1 / (1 - (e / D) ^ 2) := by rw [lt_div_iff₀ h1]; linarith
    have hre : (ellipK ((1 / (1 - (e / D) ^ 2) : ℝ) : ℂ)).re
        = ellipKR (1 - (e / D) ^ 2) / √(1 / (1 - (e / D) ^ 2)) := by
      rw [ellipK_cut hk1, one_div_one_div]
      simp
    have hKn := ellipKR_nonneg (1 - (e / D) ^ 2)
    have hs : 0 < √(1 / (1 - (e / D) ^ 2)) := Real.sqrt_pos.2 (by positivity)
    rw [hk, hre, abs_of_nonneg (by positivity), Real.sqrt_one]
    generalize √(1 / (1 - (e / D) ^ 2)) = r at *
    have hpi := Real.pi_pos
    field_simp
    norm_num
    ring
  · rw [if_neg hb, if_neg hb]

/-- The hypotheses are met by an anisotropic lattice and by frequencies in the upper half-plane and on the
real axis outside of the band. -/
example : IsDosOf bz2 (rectangularDisp 3 2) (fun e => rectangularDos ellipK e 3 2) ∧
    rectangularGfZ ellipK (Complex.I) 3 2 = bzGreen bz2 (rectangularDisp 3 2) Complex.I ∧
    rectangularGfZ ellipK (-4) 3 2 = bzGreen bz2 (rectangularDisp 3 2) (-4) := by
  refine ⟨rectangular_dos (by norm_num) (by norm_num), rectangular_gf_z (by norm_num) (by norm_num) ?_,
    rectangular_gf_z (by norm_num) (by norm_num) ?_⟩
  · exact offBand_of_im (by simp) 3
  · intro e he h
    have h1 : (-4 : ℝ) = e := by exact_mod_cast h
    rw [← h1] at he
    norm_num at he

end Gftool.Props
