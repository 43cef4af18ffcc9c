import Verif.Model.Float
import Verif.Lemmas.Float
import Mathlib.Analysis.Real.Pi.Bounds

/-!
# Rounding errors of the density of states of the Bethe lattice: helper lemmas
-/

namespace Gftool.Lemmas

open Gftool Model Spec

variable (A : FloatArith)

/-- The prefactors `1/(π D)` and `2/(π D)`. -/
lemma dos_prefactor (hu : A.u ≤ 1 / 16) (he : A.eta ≤ A.u) {D : ℝ} (hD : 0 < D) (h1 : A.eta ≤ A.u * D)
    {n : ℝ} (hn : 0 < n)
    (h2 : A.eta * (16 * D) ≤ A.u * n) :
    |A.rnd (n / A.rnd (A.rnd Real.pi * D)) - n / (Real.pi * D)| ≤ 4 * A.u * (n / (Real.pi * D)) := by
  have hu0 := u_pos A
  have hpi := Real.pi_gt_three
  have hpi4 := Real.pi_lt_d2
  set c := n / (Real.pi * D) with hc
  have hc0 : 0 < c := by positivity
  -- π
  have e1 : |A.rnd Real.pi - Real.pi| ≤ A.u * Real.pi := by
    have := rnd_rel A (x := Real.pi) (by rw [abs_of_pos Real.pi_pos]; nlinarith)
    rwa [abs_of_pos Real.pi_pos] at this
  set q := A.rnd Real.pi with hq
  obtain ⟨a1, a2⟩ := abs_le.1 e1
  have hq1 : 1 ≤ q := by nlinarith
  have e2 : |A.rnd (q * D) - q * D| ≤ A.u * (q * D) := by
    have h0 : |q * D| = q * D := abs_of_pos (by positivity)
    have := rnd_rel A (x := q * D) (by
      rw [h0]
      nlinarith [mul_pos hu0 hD, mul_le_mul_of_nonneg_left hq1 (mul_pos hu0 hD).le])
    rwa [h0] at this
  set r := A.rnd (q * D) with hr
  obtain ⟨b1, b2⟩ := abs_le.1 e2
  have hPD : 0 < Real.pi * D := by positivity
  have l1 : Real.pi * D * (1 - A.u) ≤ q * D := by nlinarith
  have l2 : q * D ≤ Real.pi * D * (1 + A.u) := by nlinarith
  have r1 : Real.pi * D * (1 - A.u) * (1 - A.u) ≤ r := by nlinarith
  have r2 : r ≤ Real.pi * D * (1 + A.u) * (1 + A.u) := by nlinarith
  have hr0 : 0 < r := lt_of_lt_of_le (by have : 0 < 1 - A.u := by linarith
                                         positivity) r1
  -- the quotient
  have q1 : n / r ≤ c * (1 + 5 / 2 * A.u) := by
    rw [hc, div_mul_eq_mul_div, div_le_div_iff₀ hr0 hPD]
    have : 1 ≤ (1 - A.u) * (1 - A.u) * (1 + 5 / 2 * A.u) := by nlinarith [mul_pos hu0 hu0]
    have h3 := mul_le_mul_of_nonneg_left r1 (show 0 ≤ n * (1 + 5 / 2 * A.u) by positivity)
    nlinarith [mul_le_mul_of_nonneg_left this (mul_pos hn hPD).le]
  have q2 : c * (1 - 5 / 2 * A.u) ≤ n / r := by
    rw [hc, div_mul_eq_mul_div, div_le_div_iff₀ hPD hr0]
    have : (1 + A.u) * (1 + A.u) * (1 - 5 / 2 * A.u) ≤ 1 := by nlinarith [mul_pos hu0 hu0]
    have h3 := mul_le_mul_of_nonneg_left r2 (show 0 ≤ n * (1 - 5 / 2 * A.u) from mul_nonneg hn.le (by linarith))
    nlinarith [mul_le_mul_of_nonneg_left this (mul_pos hn hPD).le]
  have e3 : |A.rnd (n / r) - n / r| ≤ A.u * (n / r) := by
    have h0 : |n / r| = n / r := abs_of_pos (by positivity)
    have hr16 : r ≤ 16 * D := by nlinarith
    have := rnd_rel A (x := n / r) (by
      rw [h0, mul_div_assoc', le_div_iff₀ hr0]
      nlinarith [eta_pos A, mul_le_mul_of_nonneg_left hr16 (eta_pos A).le])
    rwa [h0] at this
  obtain ⟨d1, d2⟩ := abs_le.1 e3
  rw [abs_le]
  have hcu : 0 < c * A.u := mul_pos hc0 hu0
  have hcuu : c * A.u * A.u ≤ c * A.u / 16 := by nlinarith
  have f1 := mul_le_mul_of_nonneg_right q1 (show 0 ≤ 1 + A.u by linarith)
  have f2 := mul_le_mul_of_nonneg_right q2 (show 0 ≤ 1 - A.u by linarith)
  have g1 : c * (1 + 5 / 2 * A.u) * (1 + A.u) = c + 7 / 2 * (c * A.u) + 5 / 2 * (c * A.u * A.u) := by ring
  have g2 : c * (1 - 5 / 2 * A.u) * (1 - A.u) = c - 7 / 2 * (c * A.u) + 5 / 2 * (c * A.u * A.u) := by ring
  have g3 : 0 ≤ c * A.u * A.u := (mul_pos hcu hu0).le
  have g4 : 4 * A.u * c = 4 * (c * A.u) := by ring
  rw [g1] at f1
  rw [g2] at f2
  rw [g4]
  constructor
  · linarith
  · linarith

/-- The argument of the square root: absolute error of eleven units roundoff, also next to the edges of the band. -/
lemma dos_radicand (hp : A.kmin ≤ 0) (hu : A.u ≤ 1 / 16) (he : A.eta ≤ A.u) (x : ℝ) :
    (|A.rnd x| < 1 → 0 ≤ A.rnd (1 - A.rnd (A.rnd x ^ 2)) ∧ A.rnd (1 - A.rnd (A.rnd x ^ 2)) ≤ 1 ∧
      |A.rnd (1 - A.rnd (A.rnd x ^ 2)) - (1 - x ^ 2)| ≤ 11 * A.u) ∧
    (¬ |A.rnd x| < 1 → 1 - x ^ 2 ≤ 11 * A.u) := by
  have hu0 := u_pos A
  have e1 := rnd_err' A x
  set q := A.rnd x with hq
  constructor
  · intro h
    have hx : |x| ≤ |q| + (A.u * |x| + A.eta) := by
      have := abs_sub_abs_le_abs_sub x q
      rw [abs_sub_comm] at this
      linarith
    have hx' : |x| ≤ 1 + 3 * A.u := by nlinarith [abs_nonneg x]
    have e2 : |q - x| ≤ 3 * A.u := by nlinarith
    have e3 : |q ^ 2 - x ^ 2| ≤ 7 * A.u := by
      rw [show q ^ 2 - x ^ 2 = (q - x) * (q + x) by ring, abs_mul]
      have : |q + x| ≤ 2 + 3 * A.u := (abs_add_le q x).trans (by linarith)
      nlinarith [abs_nonneg (q - x), abs_nonneg (q + x)]
    have hq2 : q ^ 2 ≤ 1 := by
      rw [← sq_abs]
      nlinarith [abs_nonneg q]
    have s1 : A.rnd (q ^ 2) ≤ 1 := by
      have := rnd_mono A hq2
      rwa [rnd_one A hp] at this
    have s0 : 0 ≤ A.rnd (q ^ 2) := by
      have := rnd_mono A (sq_nonneg q)
      rwa [rnd_zero] at this
    have e4 : |A.rnd (q ^ 2) - q ^ 2| ≤ 2 * A.u := by
      have := rnd_err' A (q ^ 2)
      rw [abs_of_nonneg (sq_nonneg q)] at this
      nlinarith
    set s := A.rnd (q ^ 2) with hs
    have e5 : |A.rnd (1 - s) - (1 - s)| ≤ 2 * A.u := by
      have := rnd_err' A (1 - s)
      rw [abs_of_nonneg (show 0 ≤ 1 - s by linarith)] at this
      nlinarith
    refine ⟨?_, ?_, ?_⟩
    · have := rnd_mono A (show (0 : ℝ) ≤ 1 - s by linarith)
      rwa [rnd_zero] at this
    · have := rnd_mono A (show 1 - s ≤ 1 by linarith)
      rwa [rnd_one A hp] at this
    · obtain ⟨a1, a2⟩ := abs_le.1 e3
      obtain ⟨b1, b2⟩ := abs_le.1 e4
      obtain ⟨c1, c2⟩ := abs_le.1 e5
      rw [abs_le]
      constructor <;> linarith
  · intro h
    rw [not_lt] at h
    have hx : |q| ≤ |x| + (A.u * |x| + A.eta) := by
      have := abs_sub_abs_le_abs_sub q x
      linarith
    have hx' : 1 - 2 * A.u ≤ |x| := by nlinarith [abs_nonneg x]
    have : (1 - 2 * A.u) ^ 2 ≤ x ^ 2 := by
      rw [← sq_abs x]
      exact pow_le_pow_left₀ (by linarith) hx' 2
    nlinarith

/-- Combination of the errors of the factors, for an error `δ` of the square root. -/
lemma dos_combine {c c' t T δ u η κ : ℝ} (hc : 0 < c) (hu : 0 < u) (hu' : u ≤ 1 / 16)
    (hc' : |c' - c| ≤ 4 * u * c) (ht : |t - T| ≤ δ + (κ + 1) * u) (ht1 : |t| ≤ 2) (R : ℝ)
    (hR : |R - c' * t| ≤ u * |c' * t| + η) : |R - c * T| ≤ c * (δ + (κ + 13) * u) + η := by
  have hcc : |c'| ≤ 2 * c := by
    have := abs_sub_abs_le_abs_sub c' c
    rw [abs_of_pos hc] at this
    nlinarith
  have h1 : |c' * t| ≤ 4 * c := by
    rw [abs_mul]
    nlinarith [abs_nonneg c', abs_nonneg t]
  have h2 : |c' * t - c * T| ≤ 8 * u * c + c * (δ + (κ + 1) * u) := by
    rw [show c' * t - c * T = (c' - c) * t + c * (t - T) by ring]
    refine (abs_add_le _ _).trans (add_le_add ?_ ?_)
    · rw [abs_mul]
      nlinarith [abs_nonneg (c' - c), abs_nonneg t, mul_pos hu hc]
    · rw [abs_mul, abs_of_pos hc]
      exact mul_le_mul_of_nonneg_left ht hc.le
  have h3 := abs_sub_le R (c' * t) (c * T)
  nlinarith [mul_le_mul_of_nonneg_left h1 hu.le]

variable {A}

/-- Both bounds of the error of `bethe.dos`. -/
lemma bethe_dos_core (hp : A.kmin ≤ 0) (hu : A.u ≤ 1 / 16) (he : A.eta ≤ A.u) {κ : ℝ} (hκ : 0 ≤ κ)
    (hκu : (κ + 1) * A.u ≤ 1) {sqrt : ℝ → ℝ} (hs : Accurate A κ Real.sqrt sqrt (Set.Ici 0)) {D : ℝ} (hD : 0 < D)
    (h1 : A.eta ≤ A.u * D) (h2 : A.eta * (8 * D) ≤ A.u) (eps δ : ℝ)
    (hδ : ∀ w, 0 ≤ w → |w - max 0 (1 - (eps / D) ^ 2)| ≤ 11 * A.u → |√w - √(max 0 (1 - (eps / D) ^ 2))| ≤ δ) :
    |betheDosFl A sqrt eps D - betheDos eps D| ≤ 2 / (Real.pi * D) * (δ + (κ + 13) * A.u) + A.eta := by
  have hu0 := u_pos A
  set x := eps / D with hx
  set T := √(max 0 (1 - x ^ 2)) with hT
  have hT1 : T ≤ 1 := by
    rw [hT, Real.sqrt_le_iff, one_pow]
    refine ⟨zero_le_one, max_le zero_le_one (by nlinarith [sq_nonneg x])⟩
  have hT0 : 0 ≤ T := Real.sqrt_nonneg _
  have hdos : betheDos eps D = 2 / (Real.pi * D) * T := by
    unfold betheDos
    simp only
    rw [← hx]
    by_cases h : |x| < 1
    · rw [if_pos h, hT, max_eq_right]
      have := (sq_lt_one_iff_abs_lt_one x).2 h
      linarith
    · rw [if_neg h, hT, max_eq_left, Real.sqrt_zero, mul_zero]
      have : ¬ x ^ 2 < 1 := fun h' => h ((sq_lt_one_iff_abs_lt_one x).1 h')
      linarith
  have hc0 : 0 < 2 / (Real.pi * D) := by have := Real.pi_pos; positivity
  obtain ⟨k1, k2⟩ := dos_radicand A hp hu he x
  unfold betheDosFl
  simp only
  rw [hdos, ← hx]
  by_cases h : |A.rnd x| < 1
  · rw [if_pos h]
    obtain ⟨w0, w1, w2⟩ := k1 h
    set w := A.rnd (1 - A.rnd (A.rnd x ^ 2)) with hw
    have hwm : |w - max 0 (1 - x ^ 2)| ≤ 11 * A.u := by
      obtain ⟨a1, a2⟩ := abs_le.1 w2
      rw [abs_le]
      rcases le_total 0 (1 - x ^ 2) with h0 | h0
      · rw [max_eq_right h0]
        exact ⟨a1, a2⟩
      · rw [max_eq_left h0]
        constructor <;> linarith
    have hd := hδ w w0 hwm
    have hsw := hs w w0
    have hw1 : √w ≤ 1 := Real.sqrt_le_iff.2 ⟨zero_le_one, by rwa [one_pow]⟩
    rw [abs_of_nonneg (Real.sqrt_nonneg w)] at hsw
    have hsw' : |sqrt w - √w| ≤ (κ + 1) * A.u := by
      have := mul_le_mul_of_nonneg_left hw1 (mul_nonneg hκ hu0.le)
      nlinarith
    refine dos_combine hc0 hu0 hu (dos_prefactor A hu he hD h1 two_pos (by linarith)) (t := sqrt w) ?_ ?_ _ (rnd_err' A _)
    · have := abs_sub_le (sqrt w) (√w) T
      linarith
    · obtain ⟨a1, a2⟩ := abs_le.1 hsw'
      rw [abs_le]
      have := Real.sqrt_nonneg w
      constructor <;> linarith
  · rw [if_neg h]
    have hm : |0 - max 0 (1 - x ^ 2)| ≤ 11 * A.u := by
      rw [zero_sub, abs_neg, abs_of_nonneg (le_max_left _ _)]
      exact max_le (by linarith) (k2 h)
    have hd := hδ 0 le_rfl hm
    rw [Real.sqrt_zero, zero_sub, abs_neg, abs_of_nonneg hT0] at hd
    rw [zero_sub, abs_neg, abs_of_nonneg (mul_nonneg hc0.le hT0)]
    have := eta_pos A
    have h3 : 0 ≤ (κ + 13) * A.u := by positivity
    have := mul_le_mul_of_nonneg_left (show T ≤ δ + (κ + 13) * A.u by linarith) hc0.le
    linarith

/-- Error of a quotient. -/
lemma quot_combine {c c' s r b u η : ℝ} (hc : 0 < c) (hr : 0 < r) (hu : 0 < u) (hu' : u ≤ 1 / 16)
    (hb' : b ≤ 11 / 16) (hc' : |c' - c| ≤ 4 * u * c) (hs : |s - r| ≤ b * r) (R : ℝ)
    (hR : |R - c' / s| ≤ u * |c' / s| + η) : |R - c / r| ≤ c / r * (18 * u + 4 * b) + η := by
  obtain ⟨a1, a2⟩ := abs_le.1 hs
  have hs1 : 5 / 16 * r ≤ s := by nlinarith
  have hs0 : 0 < s := by linarith
  have hb : 0 ≤ b := by
    by_contra h
    rw [not_le] at h
    have := abs_nonneg (s - r)
    nlinarith
  have e1 : |c' / s - c / r| ≤ c / r * (13 * u + 4 * b) := by
    rw [div_sub_div _ _ hs0.ne' hr.ne', abs_div, abs_of_pos (mul_pos hs0 hr), div_le_iff₀ (mul_pos hs0 hr)]
    rw [show c' * r - s * c = (c' - c) * r + c * (r - s) by ring]
    refine (abs_add_le _ _).trans ?_
    rw [abs_mul, abs_mul, abs_of_pos hr, abs_of_pos hc, abs_sub_comm r s]
    rw [show c / r * (13 * u + 4 * b) * (s * r) = c * s * (13 * u + 4 * b) by field_simp]
    have f1 := mul_le_mul_of_nonneg_right hc' hr.le
    have f2 := mul_le_mul_of_nonneg_left hs hc.le
    have f3 := mul_le_mul_of_nonneg_left hs1 (mul_nonneg hc.le (show 0 ≤ 13 * u + 4 * b by positivity))
    have f4 : 0 ≤ c * u * r := by positivity
    have f5 : 0 ≤ c * b * r := by positivity
    nlinarith
  have hq : 0 < c / r := div_pos hc hr
  have e2 : |c' / s| ≤ 5 * (c / r) := by
    have := abs_sub_abs_le_abs_sub (c' / s) (c / r)
    rw [abs_of_pos hq] at this
    nlinarith
  have e3 := abs_sub_le R (c' / s) (c / r)
  nlinarith [mul_le_mul_of_nonneg_left e2 hu.le]

/-- The square root of an inaccurate argument, relative to the exact one. -/
lemma sqrt_combine {w v s a d u η κ : ℝ} (hv : 0 < v) (hw : 0 ≤ w) (ha : a ≤ 1 / 2) (hwv : |w - v| ≤ a * v)
    (hκ : 0 ≤ κ) (hu : 0 < u) (hη : η ≤ u * √w) (hs : |s - √w| ≤ κ * u * √w + η) (hd : d = a + 3 / 2 * ((κ + 1) * u)) :
    |s - √v| ≤ d * √v := by
  have b := Real.sqrt_pos.2 hv
  have b' := Real.sqrt_nonneg w
  have e1 := Real.sq_sqrt hw
  have e2 := Real.sq_sqrt hv.le
  have h1 : |√w - √v| ≤ a * √v := by
    have : |√w - √v| * √v ≤ a * √v * √v := by
      rw [show a * √v * √v = a * v by rw [mul_assoc, ← sq, e2]]
      refine le_trans ?_ hwv
      rw [show w - v = (√w - √v) * (√w + √v) by nlinarith, abs_mul, abs_of_nonneg (add_nonneg b' b.le)]
      exact mul_le_mul_of_nonneg_left (by linarith) (abs_nonneg _)
    exact le_of_mul_le_mul_right this b
  have h2 : √w ≤ 3 / 2 * √v := by
    have := (abs_le.1 h1).2
    nlinarith
  have h3 : |s - √w| ≤ (κ + 1) * u * (3 / 2 * √v) := by
    have := mul_le_mul_of_nonneg_left h2 (show 0 ≤ (κ + 1) * u by positivity)
    nlinarith
  have h4 := abs_sub_le s (√w) (√v)
  rw [hd]
  nlinarith

end Gftool.Lemmas
