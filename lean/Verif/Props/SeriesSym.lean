import Verif.Props.PredictSym
import Verif.Props.LaplaceSeries
import Verif.Props.Hermpade

/-!
# Property C77: Padé approximants of power series in other units
-/

namespace Gftool.Props

open Gftool Model Spec Lemmas Polynomial

/-- Changing the unit of the variable and of the values of a Padé approximant. -/
lemma isPade_scaleShift {a : ℕ → ℂ} {m n : ℕ} {p q : ℂ[X]} (h : IsPade a m n p q) (c : ℂ) {ω : ℂ} (hω : ω ≠ 0) :
    IsPade (fun k => c * ω ^ k * a k) m n (C c * p.comp (C ω * X)) (q.comp (C ω * X)) := by
  have hd : ∀ r : ℂ[X], (r.comp (C ω * X)).natDegree ≤ r.natDegree := fun r =>
    natDegree_comp_le.trans (by
      calc _ ≤ r.natDegree * 1 := Nat.mul_le_mul_left _ ((natDegree_C_mul_le ω X).trans natDegree_X_le)
        _ = _ := mul_one _)
  have hr : ∀ r : ℂ[X], ((r.comp (C ω * X) : ℂ[X]) : PowerSeries ℂ) = PowerSeries.rescale ω (r : PowerSeries ℂ) := fun r => by
    ext k
    rw [Polynomial.coeff_coe, comp_C_mul_X_coeff, PowerSeries.coeff_rescale, Polynomial.coeff_coe, mul_comm]
  refine ⟨(natDegree_C_mul_le _ _).trans ((hd p).trans h.num_deg), (hd q).trans h.den_deg, fun h0 => h.den_ne ?_, ?_⟩
  · ext k
    have := congrArg (fun r => coeff r k) h0
    simp only [comp_C_mul_X_coeff, coeff_zero, mul_eq_zero, pow_eq_zero_iff', hω, ne_eq, false_and, or_false] at this
    simpa using this
  · have hs : (PowerSeries.mk fun k => c * ω ^ k * a k) = PowerSeries.C c * PowerSeries.rescale ω (PowerSeries.mk a) := by
      ext k
      rw [PowerSeries.coeff_C_mul, PowerSeries.coeff_rescale, PowerSeries.coeff_mk, PowerSeries.coeff_mk, mul_assoc]
    rw [hs, Polynomial.coe_mul, Polynomial.coe_C, hr, hr]
    have e : PowerSeries.rescale ω (q : PowerSeries ℂ) * (PowerSeries.C c * PowerSeries.rescale ω (PowerSeries.mk a))
        - PowerSeries.C c * PowerSeries.rescale ω (p : PowerSeries ℂ)
        = PowerSeries.C c * PowerSeries.rescale ω ((q : PowerSeries ℂ) * PowerSeries.mk a - p) := by
      rw [map_sub, map_mul]; ring
    rw [e]
    refine Dvd.dvd.mul_left ?_ _
    rw [PowerSeries.X_pow_dvd_iff]
    intro k hk
    rw [PowerSeries.coeff_rescale, PowerSeries.X_pow_dvd_iff.1 h.order k hk, mul_zero]

/-- Two Padé approximants of the same series are equal as rational functions. -/
lemma isPade_crossmul {a : ℕ → ℂ} {m n : ℕ} {p q p' q' : ℂ[X]} (h : IsPade a m n p q) (h' : IsPade a m n p' q') :
    p * q' = p' * q := by
  have hdvd : (PowerSeries.X : PowerSeries ℂ) ^ (m + n + 1) ∣ ((p' * q - p * q' : ℂ[X]) : PowerSeries ℂ) := by
    have e : ((p' * q - p * q' : ℂ[X]) : PowerSeries ℂ)
        = (q' : PowerSeries ℂ) * ((q : PowerSeries ℂ) * PowerSeries.mk a - p)
          - (q : PowerSeries ℂ) * ((q' : PowerSeries ℂ) * PowerSeries.mk a - p') := by
      rw [Polynomial.coe_sub, Polynomial.coe_mul, Polynomial.coe_mul]; ring
    rw [e]
    exact dvd_sub (Dvd.dvd.mul_left h.order _) (Dvd.dvd.mul_left h'.order _)
  have h0 : p' * q - p * q' = 0 := by
    ext k
    rw [coeff_zero]
    by_cases hk : k < m + n + 1
    · have := PowerSeries.X_pow_dvd_iff.1 hdvd k hk
      rwa [Polynomial.coeff_coe] at this
    · refine coeff_eq_zero_of_natDegree_lt (lt_of_le_of_lt (natDegree_sub_le _ _) (max_lt ?_ ?_))
      · refine lt_of_le_of_lt natDegree_mul_le ?_
        have := h'.num_deg; have := h.den_deg; omega
      · refine lt_of_le_of_lt natDegree_mul_le ?_
        have := h.num_deg; have := h'.den_deg; omega
  exact (sub_eq_zero.1 h0).symm

/-- C77: the Padé approximant of the series `c ω^k a_k` at `x` is `c` times that of `a` at `ω x`. -/
theorem herm_pade_units (ext : LinalgExt ℂ) (text : ToeplitzExt) (L : ℕ) (an : ℕ → ℂ) (m n : ℕ) (hL : m + n + 1 ≤ L)
    (c : ℂ) {ω : ℂ} (hω : ω ≠ 0) :
    ∃ r r', hermPade ext text L an m n false = .ok r ∧
      hermPade ext text L (fun k => c * ω ^ k * an k) m n false = .ok r' ∧
      ∀ x, polyval r.denom (ω * x) ≠ 0 → polyval r'.denom x ≠ 0 → r'.eval x = c * r.eval (ω * x) := by
  obtain ⟨r, hr, hp⟩ := herm_pade_correct ext text L an m n hL
  obtain ⟨r', hr', hp'⟩ := herm_pade_correct ext text L (fun k => c * ω ^ k * an k) m n hL
  refine ⟨r, r', hr, hr', fun x h1 h2 => ?_⟩
  have := congrArg (eval x) (isPade_crossmul hp' (isPade_scaleShift hp c hω))
  simp only [eval_mul, eval_comp, eval_C, eval_X, toPoly_eval] at this
  unfold RatPol.eval
  rw [← mul_div_assoc, div_eq_div_iff h2 h1]
  linear_combination this

/-- C77: `tt2z_pade`: scaling the function by `c` scales the result, shifting the zero of the energy does not change it
(where the approximants are not `0/0`). -/
theorem tt2z_pade_units (ext : LinalgExt ℂ) (text : ToeplitzExt) (n : ℕ) (hn : 2 ≤ n) (dt : ℝ) (g : ℕ → ℂ) (z : ℂ)
    (degree : ℤ) (quad : Quad) (hquad : quad ≠ .other) (dn dd : ℕ)
    (hdd : (dd : ℤ) = ((n : ℤ) - (degree + 1) - 1) / 2) (hdn : (dn : ℤ) = dd + (degree + 1)) (c w : ℂ) :
    ∃ r r', hermPade ext text n (quadWeight quad n dt g) dn dd false = .ok r ∧
      hermPade ext text n (quadWeight quad n dt fun k => c * (Complex.exp (-(Complex.I * w * ((k * dt : ℝ) : ℂ))) * g k))
        dn dd false = .ok r' ∧
      (polyval r.denom (Complex.exp (Complex.I * z * dt)) ≠ 0 →
        polyval r'.denom (Complex.exp (Complex.I * (z + w) * dt)) ≠ 0 →
        ∃ s, tt2zPade (fun L an num den => hermPade ext text L an num den false) n (fun k => k * dt) g z degree quad = .ok s ∧
          tt2zPade (fun L an num den => hermPade ext text L an num den false) n (fun k => k * dt)
            (fun k => c * (Complex.exp (-(Complex.I * w * ((k * dt : ℝ) : ℂ))) * g k)) (z + w) degree quad = .ok (c * s)) := by
  set ω : ℂ := Complex.exp (-(Complex.I * w * dt)) with hω
  have hpow : ∀ k : ℕ, Complex.exp (-(Complex.I * w * ((k * dt : ℝ) : ℂ))) = ω ^ k := fun k => by
    rw [hω, ← Complex.exp_nat_mul]; congr 1; push_cast; ring
  have hg : (fun k : ℕ => c * (Complex.exp (-(Complex.I * w * ((k * dt : ℝ) : ℂ))) * g k)) = fun k => (c * ω ^ k) * g k := by
    funext k; rw [hpow, mul_assoc]
  rw [hg, quadWeight_mul]
  obtain ⟨r, r', hr, hr', hev⟩ := herm_pade_units ext text n (quadWeight quad n dt g) dn dd (by omega) c (Complex.exp_ne_zero _ : ω ≠ 0)
  refine ⟨r, r', hr, hr', fun h1 h2 => ⟨r.eval (Complex.exp (Complex.I * z * dt)), ?_, ?_⟩⟩
  · have hd : ((1 : ℕ) * dt - (0 : ℕ) * dt : ℝ) = dt := by push_cast; ring
    unfold tt2zPade
    simp only [hd]
    rw [if_neg (by omega), if_neg (not_not.2 (equidistant_lin0 n dt)), if_neg hquad, if_neg (by simp), ← hdd,
      if_neg (by omega), ← hdn, Int.toNat_natCast, Int.toNat_natCast, hr]
    rfl
  · have hd : ((1 : ℕ) * dt - (0 : ℕ) * dt : ℝ) = dt := by push_cast; ring
    unfold tt2zPade
    simp only [hd, quadWeight_mul]
    rw [if_neg (by omega), if_neg (not_not.2 (equidistant_lin0 n dt)), if_neg hquad, if_neg (by simp), ← hdd,
      if_neg (by omega), ← hdn, Int.toNat_natCast, Int.toNat_natCast, hr']
    have e : ω * Complex.exp (Complex.I * (z + w) * dt) = Complex.exp (Complex.I * z * dt) := by
      rw [hω, ← Complex.exp_add]; congr 1; ring
    have := hev (Complex.exp (Complex.I * (z + w) * dt)) (by rw [e]; exact h1) h2
    rw [e] at this
    exact congrArg _ this

example : ∃ dn dd : ℕ, (dd : ℤ) = (((11 : ℕ) : ℤ) - (-1 + 1) - 1) / 2 ∧ (dn : ℤ) = dd + (-1 + 1) := ⟨5, 5, by norm_num, by norm_num⟩

end Gftool.Props
