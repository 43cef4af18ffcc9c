import Verif.Model.LaplaceHerm
import Verif.Props.LaplaceSeries
import Verif.Props.Hermpade
import Mathlib.RingTheory.PowerSeries.Catalan

/-!
# Quadratic Hermite-Padé: exactness, and the Laplace transform `tt2z_herm2` (C34, C46)
-/

namespace Gftool.Props

open Gftool Model Spec Lemmas
open Complex (I)
open Polynomial (eval X C)
open scoped Polynomial

lemma poly_eq_zero_of_order {p : ℂ[X]} {L : ℕ} (hd : p.natDegree < L)
    (h : (PowerSeries.X : PowerSeries ℂ) ^ L ∣ (p : PowerSeries ℂ)) : p = 0 := by
  rw [PowerSeries.X_pow_dvd_iff] at h
  ext k
  rw [Polynomial.coeff_zero]
  by_cases hk : k < L
  · have := h k hk
    rwa [Polynomial.coeff_coe] at this
  · exact Polynomial.coeff_eq_zero_of_natDegree_lt (by omega)

/-- C34: the approximant of a rational function of sufficiently small degrees has that function as exact solution. -/
theorem hermite2_rational {a : ℕ → ℂ} {np nq nr : ℕ} {p q r : ℂ[X]} (h : IsHermite2 a np nq nr p q r) {P Q : ℂ[X]}
    (hexp : IsExpansion a P Q) (h1 : np + 2 * Q.natDegree ≤ np + nq + nr + 1)
    (h2 : nq + P.natDegree + Q.natDegree ≤ np + nq + nr + 1) (h3 : nr + 2 * P.natDegree ≤ np + nq + nr + 1) :
    p * Q ^ 2 + q * P * Q + r * P ^ 2 = 0 := by
  apply poly_eq_zero_of_order (L := np + nq + nr + 2)
  · have d1 : (p * Q ^ 2).natDegree ≤ np + 2 * Q.natDegree :=
      Polynomial.natDegree_mul_le.trans (add_le_add h.p_deg Polynomial.natDegree_pow_le)
    have d2 : (q * P * Q).natDegree ≤ nq + P.natDegree + Q.natDegree :=
      Polynomial.natDegree_mul_le.trans (Nat.add_le_add_right
        (Polynomial.natDegree_mul_le.trans (Nat.add_le_add_right h.q_deg _)) _)
    have d3 : (r * P ^ 2).natDegree ≤ nr + 2 * P.natDegree :=
      Polynomial.natDegree_mul_le.trans (add_le_add h.r_deg Polynomial.natDegree_pow_le)
    have d4 := Polynomial.natDegree_add_le (p * Q ^ 2) (q * P * Q)
    have d5 := Polynomial.natDegree_add_le (p * Q ^ 2 + q * P * Q) (r * P ^ 2)
    omega
  · have e : ((p * Q ^ 2 + q * P * Q + r * P ^ 2 : ℂ[X]) : PowerSeries ℂ) = (Q : PowerSeries ℂ) ^ 2 *
        ((p : PowerSeries ℂ) + (q : PowerSeries ℂ) * PowerSeries.mk a
          + (r : PowerSeries ℂ) * (PowerSeries.mk a * PowerSeries.mk a)) := by
      push_cast
      rw [← hexp.2]
      ring
    rw [e]
    exact h.order.mul_left _

/-- C34: exactness for functions with square-root branch points. If `f` solves a quadratic equation
`P + Q f + R f² = 0` with polynomials of degree at most `e`, whose discriminant is not a square (the function has a
branch point), and `e` is small enough compared to the degrees of the approximant, then the approximant is that equation up
to a common factor. -/
theorem hermite2_quadratic {a : ℕ → ℂ} {np nq nr : ℕ} {p q r : ℂ[X]} (h : IsHermite2 a np nq nr p q r) {P Q R : ℂ[X]}
    {e : ℕ} (hP : P.natDegree ≤ e) (hQ : Q.natDegree ≤ e) (hR : R.natDegree ≤ e)
    (hf : (P : PowerSeries ℂ) + (Q : PowerSeries ℂ) * PowerSeries.mk a
      + (R : PowerSeries ℂ) * (PowerSeries.mk a * PowerSeries.mk a) = 0)
    (hR0 : R ≠ 0) (hns : ∀ S T : ℂ[X], S ^ 2 = T ^ 2 * (Q ^ 2 - 4 * P * R) → T = 0)
    (hdeg : 2 * max np (max nq nr) + 3 * e < np + nq + nr + 2) : r * Q = R * q ∧ r * P = R * p := by
  set f : PowerSeries ℂ := PowerSeries.mk a with hfd
  set A : ℂ[X] := r * Q - R * q with hA
  set B : ℂ[X] := r * P - R * p with hB
  set M := max np (max nq nr) with hM
  have dA : A.natDegree ≤ M + e := by
    refine (Polynomial.natDegree_sub_le _ _).trans (max_le ?_ ?_)
    · exact Polynomial.natDegree_mul_le.trans (add_le_add (h.r_deg.trans (by omega)) hQ)
    · exact Polynomial.natDegree_mul_le.trans ((add_le_add hR (h.q_deg.trans (by omega : nq ≤ M))).trans (by omega))
  have dB : B.natDegree ≤ M + e := by
    refine (Polynomial.natDegree_sub_le _ _).trans (max_le ?_ ?_)
    · exact Polynomial.natDegree_mul_le.trans (add_le_add (h.r_deg.trans (by omega)) hP)
    · exact Polynomial.natDegree_mul_le.trans ((add_le_add hR (h.p_deg.trans (by omega : np ≤ M))).trans (by omega))
  have hN : A ^ 2 * P - A * B * Q + B ^ 2 * R = 0 := by
    apply poly_eq_zero_of_order (L := np + nq + nr + 2)
    · have d1 : (A ^ 2 * P).natDegree ≤ 2 * (M + e) + e :=
        Polynomial.natDegree_mul_le.trans (add_le_add (Polynomial.natDegree_pow_le.trans (by omega)) hP)
      have d2 : (A * B * Q).natDegree ≤ 2 * (M + e) + e :=
        Polynomial.natDegree_mul_le.trans (add_le_add (Polynomial.natDegree_mul_le.trans (by omega)) hQ)
      have d3 : (B ^ 2 * R).natDegree ≤ 2 * (M + e) + e :=
        Polynomial.natDegree_mul_le.trans (add_le_add (Polynomial.natDegree_pow_le.trans (by omega)) hR)
      have d4 := Polynomial.natDegree_sub_le (A ^ 2 * P) (A * B * Q)
      have d5 := Polynomial.natDegree_add_le (A ^ 2 * P - A * B * Q) (B ^ 2 * R)
      omega
    · have hu : (A : PowerSeries ℂ) * f + (B : PowerSeries ℂ)
          = -(R : PowerSeries ℂ) * ((p : PowerSeries ℂ) + (q : PowerSeries ℂ) * f + (r : PowerSeries ℂ) * (f * f)) := by
        rw [hA, hB]
        push_cast
        linear_combination (r : PowerSeries ℂ) * hf
      have e1 : ((A ^ 2 * P - A * B * Q + B ^ 2 * R : ℂ[X]) : PowerSeries ℂ)
          = (-(R : PowerSeries ℂ) * ((A : PowerSeries ℂ) * f + (B : PowerSeries ℂ)
            - 2 * (A : PowerSeries ℂ) * f) + (A : PowerSeries ℂ) * (Q : PowerSeries ℂ)) * (R : PowerSeries ℂ) *
            ((p : PowerSeries ℂ) + (q : PowerSeries ℂ) * f + (r : PowerSeries ℂ) * (f * f)) := by
        push_cast
        linear_combination (A : PowerSeries ℂ) ^ 2 * hf + ((R : PowerSeries ℂ) * ((A : PowerSeries ℂ) * f + (B : PowerSeries ℂ)
            - 2 * (A : PowerSeries ℂ) * f) - (A : PowerSeries ℂ) * (Q : PowerSeries ℂ)) * hu
      rw [e1]
      exact h.order.mul_left _
  have hA0 : A = 0 := by
    apply hns (2 * R * B - A * Q) A
    linear_combination 4 * R * hN
  have hB0 : B = 0 := by
    rw [hA0] at hN
    have : B ^ 2 * R = 0 := by linear_combination hN
    rcases mul_eq_zero.1 this with h | h
    · exact pow_eq_zero_iff (by norm_num) |>.1 h
    · exact absurd h hR0
  exact ⟨sub_eq_zero.1 hA0, sub_eq_zero.1 hB0⟩

/-- A branch point, i.e. a zero of odd order of the discriminant, excludes squares. -/
theorem not_square_of_odd {d : ℂ[X]} {x : ℂ} (hx : Odd (d.rootMultiplicity x)) (S T : ℂ[X]) (h : S ^ 2 = T ^ 2 * d) :
    T = 0 := by
  by_contra hT
  have hd : d ≠ 0 := fun h0 => by simp [h0] at hx
  have hS : S ≠ 0 := fun h0 => by
    rw [h0] at h
    exact mul_ne_zero (pow_ne_zero 2 hT) hd (by rw [← h]; ring)
  have h1 := congrArg (Polynomial.rootMultiplicity x) h
  rw [Polynomial.rootMultiplicity_mul (mul_ne_zero (pow_ne_zero 2 hT) hd), pow_two, pow_two,
    Polynomial.rootMultiplicity_mul (mul_ne_zero hS hS), Polynomial.rootMultiplicity_mul (mul_ne_zero hT hT)] at h1
  obtain ⟨k, hk⟩ := hx
  omega

/-- C34: consequently the branches of the approximant are those of the function, wherever the equations are quadratic. -/
theorem hermite2_exact_quadratic (ext : LinalgExt ℂ) (L : ℕ) (an : ℕ → ℂ) (np nq nr : ℕ) (hL : np + nq + nr + 2 ≤ L)
    {P Q R : ℂ[X]} {e : ℕ} (hP : P.natDegree ≤ e) (hQ : Q.natDegree ≤ e) (hR : R.natDegree ≤ e)
    (hf : (P : PowerSeries ℂ) + (Q : PowerSeries ℂ) * PowerSeries.mk an
      + (R : PowerSeries ℂ) * (PowerSeries.mk an * PowerSeries.mk an) = 0)
    {x : ℂ} (hx : Odd ((Q ^ 2 - 4 * P * R).rootMultiplicity x)) (hR0 : R ≠ 0)
    (hdeg : 2 * max np (max nq nr) + 3 * e < np + nq + nr + 2) :
    ∃ h, hermite2 ext L an np nq nr = .ok h ∧ ∀ z, polyval h.r z ≠ 0 → R.eval z ≠ 0 →
      ∃ fp fm, evalBranches h false z = .ok (some (fp, fm)) ∧
        ∀ y, P.eval z + Q.eval z * y + R.eval z * y ^ 2 = 0 ↔ y = fp ∨ y = fm := by
  obtain ⟨h, h1, h2⟩ := (hermite2_correct ext L an np nq nr).1 hL
  obtain ⟨e1, e2⟩ := hermite2_quadratic h2 hP hQ hR hf hR0 (not_square_of_odd hx) hdeg
  refine ⟨h, h1, fun z hr hRz => ?_⟩
  obtain ⟨fp, fm, h3, h4⟩ := eval_branches_solve h z hr
  refine ⟨fp, fm, h3, fun y => ?_⟩
  rw [← h4 y]
  have a1 := congrArg (eval z) e1
  have a2 := congrArg (eval z) e2
  simp only [Polynomial.eval_mul, toPoly_eval] at a1 a2
  have key : R.eval z * (polyval h.p z + polyval h.q z * y + polyval h.r z * y ^ 2)
      = polyval h.r z * (P.eval z + Q.eval z * y + R.eval z * y ^ 2) := by
    linear_combination (-y) * a1 - a2
  constructor
  · intro h0
    rw [h0, mul_zero] at key
    exact (mul_eq_zero.1 key).resolve_left hRz
  · intro h0
    rw [h0, mul_zero] at key
    exact (mul_eq_zero.1 key.symm).resolve_left hr

/-- A series which is the expansion of a rational function sums to it. -/
lemma expansion_sum {x : ℕ → ℂ} {P Q : ℂ[X]} (hexp : IsExpansion x P Q) {y S : ℂ}
    (hS : HasSum (fun k => x k * y ^ k) S) : Q.eval y * S = P.eval y := by
  have h1 := hasSum_convo x y S hS Q.coeff Q.natDegree
    (fun j hj => Polynomial.coeff_eq_zero_of_natDegree_lt (by omega))
  have hco : ∀ i, ∑ j ∈ Finset.range (i + 1), Q.coeff j * x (i - j) = P.coeff i := by
    intro i
    have := congrArg (PowerSeries.coeff i) hexp.2
    rw [PowerSeries.coeff_mul, Polynomial.coeff_coe] at this
    rw [← this, Finset.Nat.sum_antidiagonal_eq_sum_range_succ
      (fun a b => PowerSeries.coeff a (Q : PowerSeries ℂ) * PowerSeries.coeff b (PowerSeries.mk x))]
    exact Finset.sum_congr rfl fun j _ => by rw [Polynomial.coeff_coe, PowerSeries.coeff_mk]
  simp only [hco] at h1
  have h2 : HasSum (fun i => P.coeff i * y ^ i) (∑ i ∈ Finset.range (P.natDegree + 1), P.coeff i * y ^ i) :=
    hasSum_sum_of_ne_finset_zero fun i hi => by
      rw [Polynomial.coeff_eq_zero_of_natDegree_lt, zero_mul]
      have : ¬ i < P.natDegree + 1 := by simpa using hi
      omega
  rw [Polynomial.eval_eq_sum_range, Polynomial.eval_eq_sum_range, ← h1.unique h2]
  congr 1
  exact Finset.sum_congr rfl fun l _ => by ring

/-- C46: what `tt2z_herm2` rejects, in this order. -/
theorem tt2z_herm2_rejects (herm2 : ℕ → (ℕ → ℂ) → ℕ → ℕ → ℕ → Except Err (Herm2 × RatPol)) (n : ℕ) (tt : ℕ → ℝ)
    (g : ℕ → ℂ) (z : ℂ) (quad : Quad) :
    (n < 2 → tt2zHerm2 herm2 n tt g z quad = .error .indexError) ∧
    (2 ≤ n → ¬ equidistant n tt → tt2zHerm2 herm2 n tt g z quad = .error .valueError) ∧
    (2 ≤ n → equidistant n tt → quad = .other → tt2zHerm2 herm2 n tt g z quad = .error .valueError) ∧
    (2 ≤ n → equidistant n tt → quad ≠ .other → tt 0 ≠ 0 → tt2zHerm2 herm2 n tt g z quad = .error .assertionError) ∧
    (2 ≤ n → equidistant n tt → quad ≠ .other → tt 0 = 0 → z.im ≤ 0 →
      tt2zHerm2 herm2 n tt g z quad = .error .assertionError) := by
  unfold tt2zHerm2
  refine ⟨fun h => ?_, fun h h2 => ?_, fun h h2 h3 => ?_, fun h h2 h3 h4 => ?_, fun h h2 h3 h4 h5 => ?_⟩
  · rw [if_pos h]
  · rw [if_neg (by omega), if_pos h2]
  · rw [if_neg (by omega), if_neg (not_not.2 h2), if_pos h3]
  · rw [if_neg (by omega), if_neg (not_not.2 h2), if_neg h3, if_pos h4]
  · rw [if_neg (by omega), if_neg (not_not.2 h2), if_neg h3, if_neg (not_not.2 h4), if_pos (not_lt.2 h5)]

/-- C46: otherwise `tt2z_herm2` never fails: there are always enough points for the chosen degrees, and the value
is a solution of the quadratic equation of the approximant. -/
theorem tt2z_herm2_solves (ext : LinalgExt ℂ) (text : ToeplitzExt) (n : ℕ) (hn : 2 ≤ n) (dt : ℝ) (g : ℕ → ℂ) (z : ℂ)
    (hz : 0 < z.im) (quad : Quad) (hquad : quad ≠ .other) :
    ∃ h pade, hermite2FromTaylor ext text n (quadWeight quad n dt g) ((n - 2) / 3) ((n - 2) / 3) ((n - 2) / 3) = .ok (h, pade) ∧
      IsHermite2 (quadWeight quad n dt g) ((n - 2) / 3) ((n - 2) / 3) ((n - 2) / 3) (toPoly h.p) (toPoly h.q) (toPoly h.r) ∧
      tt2zHerm2 (hermite2FromTaylor ext text) n (fun k => k * dt) g z quad
        = hermite2Eval h pade false (Complex.exp (I * z * dt)) ∧
      (polyval h.r (Complex.exp (I * z * dt)) ≠ 0 → polyval pade.denom (Complex.exp (I * z * dt)) ≠ 0 →
        ∃ x, tt2zHerm2 (hermite2FromTaylor ext text) n (fun k => k * dt) g z quad = .ok (some x) ∧
          polyval h.p (Complex.exp (I * z * dt)) + polyval h.q (Complex.exp (I * z * dt)) * x
            + polyval h.r (Complex.exp (I * z * dt)) * x ^ 2 = 0) := by
  obtain ⟨h, r, -, -, h1, h2, -, -, -⟩ := hermite2_from_taylor ext text n (quadWeight quad n dt g)
    ((n - 2) / 3) ((n - 2) / 3) ((n - 2) / 3) (by omega)
  have hd : ((1 : ℕ) * dt - (0 : ℕ) * dt : ℝ) = dt := by push_cast; ring
  have he : tt2zHerm2 (hermite2FromTaylor ext text) n (fun k => k * dt) g z quad
        = hermite2Eval h r false (Complex.exp (I * z * dt)) := by
    unfold tt2zHerm2
    simp only [hd]
    rw [if_neg (by omega), if_neg (not_not.2 (equidistant_lin0 n dt)), if_neg hquad, if_neg (by simp),
      if_neg (not_not.2 hz), h1]
    rfl
  refine ⟨h, r, h1, h2, he, fun hr hp => ?_⟩
  obtain ⟨x, hx, hx2, -⟩ := hermite2_eval_closest h r _ hr hp
  exact ⟨x, by rw [he, hx], hx2⟩

/-- C46: if the weighted data are the expansion of a rational function of degree at most `(n-2)/3`, `tt2z_herm2` returns the
sum of the whole infinite series. -/
theorem tt2z_herm2_exact (ext : LinalgExt ℂ) (text : ToeplitzExt) (n : ℕ) (hn : 2 ≤ n) (dt : ℝ) (g : ℕ → ℂ) (z : ℂ)
    (hz : 0 < z.im) (quad : Quad) (hquad : quad ≠ .other) (P Q : ℂ[X])
    (hexp : IsExpansion (quadWeight quad n dt g) P Q) (hP : P.natDegree ≤ (n - 2) / 3) (hQ : Q.natDegree ≤ (n - 2) / 3)
    (hQz : Q.eval (Complex.exp (I * z * dt)) ≠ 0)
    (S : ℂ) (hS : HasSum (fun k : ℕ => quadWeight quad n dt g k * Complex.exp (I * z * (k * dt))) S) :
    ∃ h pade, hermite2FromTaylor ext text n (quadWeight quad n dt g) ((n - 2) / 3) ((n - 2) / 3) ((n - 2) / 3) = .ok (h, pade) ∧
      (polyval h.r (Complex.exp (I * z * dt)) ≠ 0 → polyval pade.denom (Complex.exp (I * z * dt)) ≠ 0 →
        tt2zHerm2 (hermite2FromTaylor ext text) n (fun k => k * dt) g z quad = .ok (some S)) := by
  obtain ⟨h, pade, h1, h2, h3, -⟩ := tt2z_herm2_solves ext text n hn dt g z hz quad hquad
  refine ⟨h, pade, h1, fun hr hp => ?_⟩
  set d := (n - 2) / 3 with hdd
  set y := Complex.exp (I * z * dt) with hy
  have hS' : HasSum (fun k => quadWeight quad n dt g k * y ^ k) S := by
    have e : (fun k : ℕ => quadWeight quad n dt g k * Complex.exp (I * z * (k * dt)))
        = fun k => quadWeight quad n dt g k * y ^ k := by
      funext k
      rw [hy, ← Complex.exp_nat_mul]
      ring_nf
    rwa [e] at hS
  have hSP := expansion_sum hexp hS'
  have hSv : S = P.eval y / Q.eval y := by rw [eq_div_iff hQz, mul_comm, hSP]
  -- the Padé approximant is exact
  have hpade : pade.eval y = S := by
    unfold hermite2FromTaylor at h1
    rcases hh : hermite2 ext n (quadWeight quad n dt g) d d d with err | h'
    · rw [hh] at h1
      cases h1
    · rw [hh] at h1
      simp only at h1
      have hD : herm2PadeDeg d d d = (((3 * d / 2 : ℕ) : ℤ), ((3 * d / 2 : ℕ) : ℤ)) := by
        unfold herm2PadeDeg
        simp only [Nat.sqrt_eq, max_self]
        ext <;> simp <;> omega
      rw [hD] at h1
      simp only at h1
      rw [if_neg (by omega), Int.toNat_natCast] at h1
      obtain ⟨r', hr', hev⟩ := herm_pade_exact ext text n (quadWeight quad n dt g) (3 * d / 2) (3 * d / 2) (by omega) P Q
        hexp (by omega) (by omega)
      rw [hr'] at h1
      have h4 := Prod.mk.inj (Except.ok.inj h1)
      rw [← h4.2] at hp ⊢
      rw [hev y hp hQz, hSv]
  obtain ⟨x, hx, -, hx3⟩ := hermite2_eval_closest h pade y hr hp
  rw [h3, hx]
  have hroot : polyval h.p y + polyval h.q y * S + polyval h.r y * S ^ 2 = 0 := by
    have h5 := congrArg (eval y) (hermite2_rational h2 hexp (by omega) (by omega) (by omega))
    simp only [Polynomial.eval_add, Polynomial.eval_mul, Polynomial.eval_pow, toPoly_eval, Polynomial.eval_zero] at h5
    rw [← hSP] at h5
    have h6 : Q.eval y ^ 2 * (polyval h.p y + polyval h.q y * S + polyval h.r y * S ^ 2) = 0 := by
      linear_combination h5
    exact (mul_eq_zero.1 h6).resolve_left (pow_ne_zero 2 hQz)
  have h7 := hx3 S hroot
  rw [hpade, sub_self, norm_zero] at h7
  rw [sub_eq_zero.1 (norm_le_zero_iff.1 h7)]

/-- C46: the same for sums of `q` exponentials (times of a Green's function with `q` poles). -/
theorem tt2z_herm2_exponentials (ext : LinalgExt ℂ) (text : ToeplitzExt) (n : ℕ) (hn : 2 ≤ n) (dt : ℝ) (g : ℕ → ℂ) (z : ℂ)
    (hz : 0 < z.im) (quad : Quad) (hquad : quad ≠ .other) {q : ℕ} (w e : Fin q → ℂ) (hq : quadPoles quad q ≤ (n - 2) / 3)
    (hg : ∀ k, g k = ∑ j, w j * e j ^ k) (hconv : ∀ j, ‖e j * Complex.exp (I * z * dt)‖ < 1) :
    ∃ h pade, hermite2FromTaylor ext text n (quadWeight quad n dt g) ((n - 2) / 3) ((n - 2) / 3) ((n - 2) / 3) = .ok (h, pade) ∧
      (polyval h.r (Complex.exp (I * z * dt)) ≠ 0 → polyval pade.denom (Complex.exp (I * z * dt)) ≠ 0 →
        tt2zHerm2 (hermite2FromTaylor ext text) n (fun k => k * dt) g z quad
          = .ok (some (∑' k : ℕ, quadWeight quad n dt g k * Complex.exp (I * z * (k * dt))))) := by
  obtain ⟨ι, _, w', e', hcard, hs, hy⟩ := weight_data w e n dt g hg quad hquad _ hconv
  have hsum := exp_hasSum w' e' _ hs _ hy
  simp only [← pow_phase] at hsum
  obtain ⟨P, Q, h1, h2, h3, h4⟩ := exp_expansion w' e' _ hs
  exact tt2z_herm2_exact ext text n hn dt g z hz quad hquad P Q h1 (by omega) (by omega) (h4 _ hy) _ hsum.summable.hasSum

/-- The generating function `f = 1 + x f²` of the Catalan numbers, which has a square-root branch point at `1/4`, is
reproduced by the approximant of degrees `2, 2, 2`. -/
example (ext : LinalgExt ℂ) : ∃ h, hermite2 ext 8 (fun k => (catalan k : ℂ)) 2 2 2 = .ok h ∧
    ∀ z, polyval h.r z ≠ 0 → (X : ℂ[X]).eval z ≠ 0 → ∃ fp fm, evalBranches h false z = .ok (some (fp, fm)) ∧
      ∀ y, (1 : ℂ[X]).eval z + (-1 : ℂ[X]).eval z * y + (X : ℂ[X]).eval z * y ^ 2 = 0 ↔ y = fp ∨ y = fm := by
  have hmult : ((-1 : ℂ[X]) ^ 2 - 4 * 1 * X).rootMultiplicity (1 / 4) = 1 := by
    rw [show ((-1 : ℂ[X]) ^ 2 - 4 * 1 * X) = C (-4) * (X - C (1 / 4)) by
      rw [mul_sub, ← Polynomial.C_mul, show (-4 * (1 / 4) : ℂ) = -1 by norm_num, Polynomial.C_neg, Polynomial.C_neg,
        Polynomial.C_1, show (C (4 : ℂ) : ℂ[X]) = 4 from rfl]
      ring]
    rw [Polynomial.rootMultiplicity_mul (mul_ne_zero (by simp) (Polynomial.X_sub_C_ne_zero _)),
      Polynomial.rootMultiplicity_C, Polynomial.rootMultiplicity_X_sub_C_self]
  refine hermite2_exact_quadratic ext 8 _ 2 2 2 (by norm_num) (P := 1) (Q := -1) (R := X) (e := 1) (by simp) (by simp)
    (by simp) ?_ (x := 1 / 4) (by rw [hmult]; exact odd_one) Polynomial.X_ne_zero (by norm_num)
  have h := congrArg (PowerSeries.map (Nat.castRingHom ℂ)) PowerSeries.catalanSeries_sq_mul_X_add_one
  have e : PowerSeries.map (Nat.castRingHom ℂ) PowerSeries.catalanSeries = PowerSeries.mk fun k => (catalan k : ℂ) := by
    ext k
    simp [PowerSeries.catalanSeries]
  rw [map_add, map_mul, map_pow, e, map_one, PowerSeries.map_X] at h
  push_cast
  linear_combination h

end Gftool.Props
