import Verif.Model.Laplace
import Verif.Spec.Laplace
import Verif.Lemmas.Fourier
import Verif.Props.Hermpade
import Verif.Props.LinearPrediction

/-!
# Laplace transforms from real time (C42, C45, C46)
-/

namespace Gftool.Props

open Gftool Model Spec Lemmas
open Complex (I)
open Polynomial (eval X C)
open scoped Polynomial

/-! ## Quadrature rules (C45) -/

/-- C45: `tt2z_trapz` is the trapezoidal rule for the integrand `exp(i z t) g(t)` on the given grid,
for every grid of at least two points. -/
theorem tt2z_trapz_correct (n : ℕ) (tt : ℕ → ℝ) (g : ℕ → ℂ) (z : ℂ) :
    (n < 2 → tt2zTrapz n tt g z = .error .indexError) ∧
    (2 ≤ n → tt2zTrapz n tt g z
      = .ok (trapezoid n tt fun k => Complex.exp (I * z * tt k) * g k)) := by
  constructor
  · intro h
    simp [tt2zTrapz, h]
  · intro h
    obtain ⟨m, rfl⟩ : ∃ m, n = m + 2 := ⟨n - 2, by omega⟩
    unfold tt2zTrapz trapezoid phase
    rw [if_neg (by omega)]
    change Except.ok _ = Except.ok _
    congr 1
    simp only [show m + 2 - 1 = m + 1 by omega, show m + 2 - 2 = m by omega]
    clear h
    generalize hf : (fun k => Complex.exp (I * z * tt k) * g k) = f
    have hf' : ∀ k, Complex.exp (I * z * tt k) * g k = f k := fun k => by rw [← hf]
    have hsum : ∀ k, Complex.exp (I * z * tt (k + 1)) * (g (k + 1) * ((tt (k + 2) - tt k : ℝ) : ℂ))
        = f (k + 1) * ((tt (k + 2) - tt k : ℝ) : ℂ) := fun k => by rw [← hf' (k + 1)]; ring
    simp only [hf', hsum]
    induction m with
    | zero =>
      simp only [Finset.range_zero, Finset.sum_empty, zero_add, Finset.range_one,
        Finset.sum_singleton]
      ring
    | succ m ih =>
      rw [Finset.sum_range_succ _ m, Finset.sum_range_succ _ (m + 1), ← ih]
      push_cast
      ring

/-- Non-uniform grid. -/
example : tt2zTrapz 3 (fun k => (k : ℝ) ^ 2) (fun k => k) 0 = .ok 5 := by
  rw [(tt2z_trapz_correct _ _ _ _).2 (by norm_num)]
  simp only [trapezoid, Finset.sum_range_succ]
  norm_num

private lemma trapezoid_linear (n : ℕ) (t : ℕ → ℝ) (a b : ℂ) :
    trapezoid n t (fun k => a + b * t k) = ∫ x in (t 0)..(t (n - 1)), (a + b * (x : ℂ)) := by
  have hint : ∀ u v : ℝ, ∫ x in u..v, (a + b * (x : ℂ)) = ((v - u : ℝ) : ℂ) * ((a + b * u + (a + b * v)) / 2) := by
    intro u v
    have hder : ∀ τ : ℝ, HasDerivAt (fun τ : ℝ => a * τ + b * ((τ : ℂ) ^ 2 / 2)) (a + b * τ) τ := by
      intro τ
      have h1 : HasDerivAt (fun z : ℂ => a * z + b * (z ^ 2 / 2))
          (a * 1 + b * ((2 : ℕ) * (τ : ℂ) ^ (2 - 1) * 1 / 2)) (τ : ℂ) :=
        ((hasDerivAt_id _).const_mul a).add ((((hasDerivAt_id _).pow 2).div_const 2).const_mul b)
      refine h1.comp_ofReal.congr_deriv ?_
      push_cast
      ring
    rw [intervalIntegral.integral_eq_sub_of_hasDerivAt (fun τ _ => hder τ)
      (by apply Continuous.intervalIntegrable; fun_prop)]
    push_cast
    ring
  unfold trapezoid
  rw [← intervalIntegral.sum_integral_adjacent_intervals (a := t)
    (fun k _ => by apply Continuous.intervalIntegrable; fun_prop)]
  exact Finset.sum_congr rfl fun k _ => (hint _ _).symm

/-- C45: `tt2z_trapz` is exact when the integrand is linear in time, on every grid. -/
theorem tt2z_trapz_exact (n : ℕ) (hn : 2 ≤ n) (tt : ℕ → ℝ) (g : ℕ → ℂ) (z a b : ℂ)
    (hg : ∀ k < n, Complex.exp (I * z * tt k) * g k = a + b * tt k) :
    tt2zTrapz n tt g z = .ok (∫ t in (tt 0)..(tt (n - 1)), (a + b * (t : ℂ))) := by
  rw [(tt2z_trapz_correct n tt g z).2 hn, ← trapezoid_linear]
  congr 1
  unfold trapezoid
  refine Finset.sum_congr rfl fun k hk => ?_
  have := Finset.mem_range.1 hk
  simp only
  rw [hg k (by omega), hg (k + 1) (by omega)]

/-- C45: the trapezoidal weights with endpoint are the trapezoidal rule; without endpoint the last
point has full weight. -/
theorem trapz_weight_correct (n : ℕ) (hn : 2 ≤ n) (dt t0 : ℝ) (g : ℕ → ℂ) :
    ∑ k ∈ Finset.range n, trapzWeight n dt g true k = trapezoid n (fun k => t0 + k * dt) g ∧
    ∑ k ∈ Finset.range n, trapzWeight n dt g false k
      = trapezoid n (fun k => t0 + k * dt) g + dt * g (n - 1) / 2 := by
  have key : ∀ m, ∑ k ∈ Finset.range (m + 1), trapzWeight n dt g false k
      = trapezoid (m + 1) (fun k => t0 + k * dt) g + dt * g m / 2 := by
    intro m
    induction m with
    | zero => simp [trapezoid, trapzWeight]; ring
    | succ m ih =>
      rw [Finset.sum_range_succ, ih]
      simp only [trapezoid, Nat.add_sub_cancel, Finset.sum_range_succ _ m, trapzWeight,
        Nat.add_eq_zero_iff, one_ne_zero, and_false, if_false, Bool.false_eq_true, false_and]
      push_cast
      ring
  obtain ⟨m, rfl⟩ : ∃ m, n = m + 1 := ⟨n - 1, by omega⟩
  refine ⟨?_, key m⟩
  have h1 := key m
  rw [Finset.sum_range_succ] at h1 ⊢
  have h2 : ∀ k ∈ Finset.range m, trapzWeight (m + 1) dt g true k
      = trapzWeight (m + 1) dt g false k := by
    intro k hk
    have := Finset.mem_range.1 hk
    simp [trapzWeight, show k ≠ m by omega]
  rw [Finset.sum_congr rfl h2]
  generalize ∑ k ∈ Finset.range m, trapzWeight (m + 1) dt g false k = S at h1 ⊢
  simp only [trapzWeight, Nat.add_sub_cancel, show m ≠ 0 by omega, if_false, Bool.false_eq_true,
    false_and, true_and, if_true] at h1 ⊢
  linear_combination h1

/-- C45: the trapezoidal weights integrate polynomials of degree one exactly on uniform grids. -/
theorem trapz_weight_exact (n : ℕ) (hn : 2 ≤ n) (dt t0 : ℝ) (a b : ℂ) :
    ∑ k ∈ Finset.range n, trapzWeight n dt (fun k => a + b * ((t0 + k * dt : ℝ) : ℂ)) true k
      = ∫ t in t0..(t0 + (n - 1 : ℕ) * dt), (a + b * (t : ℂ)) := by
  rw [(trapz_weight_correct n hn dt t0 _).1, trapezoid_linear]
  simp

private lemma simps_false (n : ℕ) (dt : ℝ) (g : ℕ → ℂ) (m : ℕ) :
    ∑ k ∈ Finset.range (2 * m + 1), simpsWeight n dt g false k
      = simpson m dt g + dt / 3 * g (2 * m) := by
  induction m with
  | zero => simp [simpson, simpsWeight]
  | succ m ih =>
    rw [show 2 * (m + 1) + 1 = 2 * m + 1 + 1 + 1 by ring, Finset.sum_range_succ,
      Finset.sum_range_succ, ih]
    simp only [simpson, Finset.sum_range_succ _ m, simpsWeight, Bool.false_eq_true,
      not_false_eq_true, if_true]
    rw [if_pos (by omega), if_neg (by omega), if_neg (by omega), if_pos (by omega)]
    rw [show 2 * (m + 1) = 2 * m + 1 + 1 by ring]
    ring

/-- C45: the Simpson weights with endpoint are Simpson's rule for an odd number of points, and
Simpson's rule plus the trapezoidal rule for the last interval for an even number of at least four
points. -/
theorem simps_weight_correct (m : ℕ) (hm : 1 ≤ m) (dt : ℝ) (g : ℕ → ℂ) :
    ∑ k ∈ Finset.range (2 * m + 1), simpsWeight (2 * m + 1) dt g true k = simpson m dt g ∧
    ∑ k ∈ Finset.range (2 * m + 2), simpsWeight (2 * m + 2) dt g true k
      = simpson m dt g + dt * ((g (2 * m) + g (2 * m + 1)) / 2) := by
  have h0 := simps_false 0 dt g m
  rw [Finset.sum_range_succ] at h0
  have e0 : simpsWeight 0 dt g false (2 * m) = dt / 3 * g (2 * m) * 2 := by
    simp only [simpsWeight, Bool.false_eq_true, not_false_eq_true, if_true]
    rw [if_neg (by omega), if_pos (by omega)]
    ring
  rw [e0] at h0
  constructor
  · have h2 : ∀ k ∈ Finset.range (2 * m), simpsWeight (2 * m + 1) dt g true k
        = simpsWeight 0 dt g false k := by
      intro k hk
      have := Finset.mem_range.1 hk
      simp only [simpsWeight, Bool.false_eq_true, not_false_eq_true, if_true, not_true, if_false]
      rw [if_pos (by omega)]
      congr 2
      · congr 1
        exact propext ⟨fun h => by omega, fun h => by omega⟩
      · exact propext ⟨fun h => by omega, fun h => by omega⟩
    rw [Finset.sum_range_succ, Finset.sum_congr rfl h2]
    have e1 : simpsWeight (2 * m + 1) dt g true (2 * m) = dt / 3 * g (2 * m) := by
      simp only [simpsWeight, not_true, if_false]
      rw [if_pos (by omega), if_neg (by omega), if_neg (by omega)]
      ring
    rw [e1]
    linear_combination h0
  · have h2 : ∀ k ∈ Finset.range (2 * m), simpsWeight (2 * m + 2) dt g true k
        = simpsWeight 0 dt g false k := by
      intro k hk
      have := Finset.mem_range.1 hk
      simp only [simpsWeight, Bool.false_eq_true, not_false_eq_true, if_true, not_true, if_false]
      rw [if_neg (by omega), if_neg (show ¬ k + 2 = 2 * m + 2 by omega),
        if_neg (show ¬ k + 1 = 2 * m + 2 by omega), mul_one, mul_one]
      congr 2
      · congr 1
        exact propext ⟨fun h => by omega, fun h => by omega⟩
      · exact propext ⟨fun h => by omega, fun h => by omega⟩
    rw [Finset.sum_range_succ, Finset.sum_range_succ, Finset.sum_congr rfl h2]
    have e1 : simpsWeight (2 * m + 2) dt g true (2 * m) = dt / 3 * g (2 * m) * (5 / 2) := by
      simp only [simpsWeight, not_true, if_false]
      rw [if_neg (show ¬ (2 * m + 2) % 2 = 1 by omega),
        if_neg (show ¬ (1 ≤ 2 * m ∧ 2 * m + 2 < 2 * m + 2 ∧ 2 * m % 2 = 1) by omega),
        if_neg (show ¬ (2 ≤ 2 * m ∧ 2 * m + 2 < 2 * m + 2 ∧ 2 * m % 2 = 0) by omega),
        if_pos trivial, if_neg (show ¬ 2 * m + 1 = 2 * m + 2 by omega)]
      ring
    have e2 : simpsWeight (2 * m + 2) dt g true (2 * m + 1) = dt / 3 * g (2 * m + 1) * (3 / 2) := by
      simp only [simpsWeight, not_true, if_false]
      rw [if_neg (show ¬ (2 * m + 2) % 2 = 1 by omega),
        if_neg (show ¬ (1 ≤ 2 * m + 1 ∧ 2 * m + 1 + 2 < 2 * m + 2 ∧ (2 * m + 1) % 2 = 1) by omega),
        if_neg (show ¬ (2 ≤ 2 * m + 1 ∧ 2 * m + 1 + 2 < 2 * m + 2 ∧ (2 * m + 1) % 2 = 0) by omega),
        if_neg (show ¬ 2 * m + 1 + 2 = 2 * m + 2 by omega), if_pos trivial]
      ring
    rw [e1, e2]
    linear_combination h0

private lemma simpson_cubic (m : ℕ) (d t0 : ℝ) (p : ℂ[X]) (hp : p.natDegree ≤ 3) :
    simpson m d (fun k => p.eval ((t0 + k * d : ℝ) : ℂ))
      = ∫ t in t0..(t0 + (2 * m : ℕ) * d), p.eval (t : ℂ) := by
  have hev : ∀ x : ℂ, p.eval x = p.coeff 0 + p.coeff 1 * x + p.coeff 2 * x ^ 2 + p.coeff 3 * x ^ 3 := by
    intro x
    rw [Polynomial.eval_eq_sum_range' (n := 4) (by omega)]
    simp [Finset.sum_range_succ]
  simp only [hev]
  generalize p.coeff 0 = c0
  generalize p.coeff 1 = c1
  generalize p.coeff 2 = c2
  generalize p.coeff 3 = c3
  have hder : ∀ τ : ℝ, HasDerivAt (fun τ : ℝ => c0 * τ + c1 * ((τ : ℂ) ^ 2 / 2)
      + c2 * ((τ : ℂ) ^ 3 / 3) + c3 * ((τ : ℂ) ^ 4 / 4)) (c0 + c1 * τ + c2 * τ ^ 2 + c3 * τ ^ 3) τ := by
    intro τ
    have h1 : HasDerivAt (fun z : ℂ => c0 * z + c1 * (z ^ 2 / 2) + c2 * (z ^ 3 / 3) + c3 * (z ^ 4 / 4))
        (c0 * 1 + c1 * ((2 : ℕ) * (τ : ℂ) ^ (2 - 1) * 1 / 2)
          + c2 * ((3 : ℕ) * (τ : ℂ) ^ (3 - 1) * 1 / 3)
          + c3 * ((4 : ℕ) * (τ : ℂ) ^ (4 - 1) * 1 / 4)) (τ : ℂ) :=
      ((((hasDerivAt_id _).const_mul c0).add
        ((((hasDerivAt_id _).pow 2).div_const 2).const_mul c1)).add
        ((((hasDerivAt_id _).pow 3).div_const 3).const_mul c2)).add
        ((((hasDerivAt_id _).pow 4).div_const 4).const_mul c3)
    refine h1.comp_ofReal.congr_deriv ?_
    push_cast
    ring
  rw [intervalIntegral.integral_eq_sub_of_hasDerivAt (fun τ _ => hder τ)
      (by apply Continuous.intervalIntegrable; fun_prop)]
  unfold simpson
  induction m with
  | zero => simp
  | succ m ih =>
    rw [Finset.sum_range_succ, ih]
    push_cast
    ring

/-- C45: the Simpson weights integrate polynomials of degree three exactly on uniform grids with an
odd number of points. -/
theorem simps_weight_exact (m : ℕ) (hm : 1 ≤ m) (dt t0 : ℝ) (p : ℂ[X]) (hp : p.natDegree ≤ 3) :
    ∑ k ∈ Finset.range (2 * m + 1),
        simpsWeight (2 * m + 1) dt (fun k => p.eval ((t0 + k * dt : ℝ) : ℂ)) true k
      = ∫ t in t0..(t0 + (2 * m : ℕ) * dt), p.eval (t : ℂ) := by
  rw [(simps_weight_correct m hm dt _).1, simpson_cubic m dt t0 p hp]

example : (X ^ 3 : ℂ[X]).natDegree ≤ 3 := by simp

/-- With an even number of at least four points the Simpson weights are only exact for polynomials
of degree one. -/
theorem simps_weight_even_exact (m : ℕ) (hm : 1 ≤ m) (dt t0 : ℝ) (p : ℂ[X]) (hp : p.natDegree ≤ 1) :
    ∑ k ∈ Finset.range (2 * m + 2),
        simpsWeight (2 * m + 2) dt (fun k => p.eval ((t0 + k * dt : ℝ) : ℂ)) true k
      = ∫ t in t0..(t0 + (2 * m + 1 : ℕ) * dt), p.eval (t : ℂ) := by
  have hev : ∀ x : ℂ, p.eval x = p.coeff 0 + p.coeff 1 * x := by
    intro x
    rw [Polynomial.eval_eq_sum_range' (n := 2) (by omega)]
    simp [Finset.sum_range_succ]
  rw [(simps_weight_correct m hm dt _).2, simpson_cubic m dt t0 p (by omega),
    ← intervalIntegral.integral_add_adjacent_intervals (a := t0) (b := t0 + (2 * m : ℕ) * dt)
      (c := t0 + (2 * m + 1 : ℕ) * dt)
      (by apply Continuous.intervalIntegrable; fun_prop)
      (by apply Continuous.intervalIntegrable; fun_prop)]
  congr 1
  simp only [hev]
  have := trapezoid_linear 2 (fun k => t0 + (2 * m + k : ℕ) * dt) (p.coeff 0) (p.coeff 1)
  simp only [trapezoid, Finset.sum_range_succ, Finset.range_zero, Finset.sum_empty, add_zero,
    zero_add, Nat.add_one_sub_one] at this
  refine Eq.trans ?_ this
  push_cast
  ring

/-- The Simpson weights with endpoint are wrong for two points: the constant one over an interval of
length one gives `4/3`. -/
theorem simps_weight_two_wrong :
    ∑ k ∈ Finset.range 2, simpsWeight 2 1 (fun _ => 1) true k = 4 / 3 := by
  simp [simpsWeight, Finset.sum_range_succ]
  norm_num

/-- C45: `tt2z_simps` is Simpson's rule with twice the weight for the last point (odd number of
equidistant points); as documented, the integral is meant to be truncated where the data vanish. -/
theorem tt2z_simps_correct (m : ℕ) (hm : 1 ≤ m) (t0 dt : ℝ) (g : ℕ → ℂ) (z : ℂ) :
    tt2zSimps (2 * m + 1) (fun k => t0 + k * dt) g z
      = .ok (simpson m dt (fun k => Complex.exp (I * z * ((t0 + k * dt : ℝ) : ℂ)) * g k)
        + dt / 3 * (Complex.exp (I * z * ((t0 + (2 * m : ℕ) * dt : ℝ) : ℂ)) * g (2 * m))) := by
  unfold tt2zSimps
  rw [if_neg (by omega), ← simps_false (2 * m + 1)
    dt (fun k => Complex.exp (I * z * ((t0 + k * dt : ℝ) : ℂ)) * g k)]
  congr 1
  refine Finset.sum_congr rfl fun k _ => ?_
  simp only [simpsWeight, phase, Bool.false_eq_true, not_false_eq_true, if_true]
  push_cast
  ring

/-- C45: `tt2z_simps` integrates cubic integrands that vanish at the last point exactly. -/
theorem tt2z_simps_exact (m : ℕ) (hm : 1 ≤ m) (t0 dt : ℝ) (g : ℕ → ℂ) (z : ℂ) (p : ℂ[X])
    (hp : p.natDegree ≤ 3)
    (hg : ∀ k ≤ 2 * m, Complex.exp (I * z * ((t0 + k * dt : ℝ) : ℂ)) * g k
      = p.eval ((t0 + k * dt : ℝ) : ℂ)) (hlast : g (2 * m) = 0) :
    tt2zSimps (2 * m + 1) (fun k => t0 + k * dt) g z
      = .ok (∫ t in t0..(t0 + (2 * m : ℕ) * dt), p.eval (t : ℂ)) := by
  rw [tt2z_simps_correct m hm, ← simpson_cubic m dt t0 p hp, hlast, mul_zero, mul_zero, add_zero]
  congr 1
  unfold simpson
  refine Finset.sum_congr rfl fun i hi => ?_
  have := Finset.mem_range.1 hi
  simp only
  rw [hg _ (by omega), hg _ (by omega), hg _ (by omega)]

/-- C45: `tt2z_simps` raises exactly for less than two points. -/
theorem tt2z_simps_error_iff (n : ℕ) (tt : ℕ → ℝ) (g : ℕ → ℂ) (z : ℂ) (e : Err) :
    tt2zSimps n tt g z = .error e ↔ e = .indexError ∧ n < 2 := by
  unfold tt2zSimps
  split_ifs with h <;> simp [h, eq_comm]

/-- `tt2z_simps` is not Simpson's rule: for constant data the result is off by a third of the
spacing; this holds for every odd number of points. -/
theorem tt2z_simps_constant_wrong (m : ℕ) (hm : 1 ≤ m) (dt : ℝ) :
    tt2zSimps (2 * m + 1) (fun k => k * dt) (fun _ => 1) 0
      = .ok ((2 * m : ℕ) * dt + dt / 3) := by
  have h := tt2z_simps_correct m hm 0 dt (fun _ => 1) 0
  simp only [zero_add] at h
  rw [h]
  simp only [mul_zero, zero_mul, Complex.exp_zero, mul_one, simpson]
  rw [Finset.sum_const, Finset.card_range, nsmul_eq_mul]
  congr 1
  push_cast
  ring

/-! ## The dispatcher (C45) -/

private lemma mapM_ok {α : Type} (f : α → Except Err ℂ) (r : α → ℂ) (l : List α)
    (h : ∀ i, f i = .ok (r i)) : l.mapM f = .ok (l.map r) := by
  induction l with
  | nil => rfl
  | cons a l ih => simp [List.mapM_cons, h, ih]; rfl

/-- C45: `tt2z` raises a `ValueError` for all arguments which are neither retarded nor advanced,
whatever the backend; for all others it returns what the backend returns for every frequency (NaN
for empty input). -/
theorem tt2z_correct {m : ℕ} (n : ℕ) (tt : ℕ → ℝ) (g : ℕ → ℂ) (z : Fin m → ℂ)
    (laplace : ℕ → (ℕ → ℝ) → (ℕ → ℂ) → ℂ → Except Err ℂ) :
    let retarded := (∀ k < n, 0 ≤ tt k) ∧ ∀ i, 0 ≤ (z i).im
    let advanced := (∀ k < n, tt k ≤ 0) ∧ ∀ i, (z i).im ≤ 0
    (¬ retarded ∧ ¬ advanced → tt2z n tt g z laplace = .error .valueError) ∧
    (retarded ∨ advanced →
      ((m = 0 ∨ n = 0) → tt2z n tt g z laplace = .ok fun _ => none) ∧
      (¬ (m = 0 ∨ n = 0) →
        (∀ r : Fin m → ℂ, (∀ i, laplace n tt g (z i) = .ok (r i)) →
          tt2z n tt g z laplace = .ok fun i => some (r i)) ∧
        ∀ e, (∀ i, laplace n tt g (z i) = .error e) → tt2z n tt g z laplace = .error e)) := by
  intro retarded advanced
  constructor
  · rintro ⟨h1, h2⟩
    simp only [tt2z]
    rw [if_pos (by tauto)]
  · intro h
    refine ⟨fun h0 => ?_, fun h0 => ⟨fun r hr => ?_, fun e he => ?_⟩⟩
    · simp only [tt2z]
      rw [if_neg (by tauto), if_pos h0]
    · simp only [tt2z]
      rw [if_neg (by tauto), if_neg h0, mapM_ok _ r _ hr]
      simp
    · simp only [tt2z]
      rw [if_neg (by tauto), if_neg h0]
      obtain ⟨k, rfl⟩ : ∃ k, m = k + 1 := ⟨m - 1, by omega⟩
      have : List.mapM (fun i => laplace n tt g (z i)) (List.finRange (k + 1)) = .error e := by
        rw [List.finRange_succ, List.mapM_cons, he]
        rfl
      rw [this]

/-- Retarded, advanced, and neither. -/
example : ((∀ k < 3, (0 : ℝ) ≤ ((fun k => k) : ℕ → ℝ) k) ∧ ∀ i, 0 ≤ ((![I, 1 + I] : Fin 2 → ℂ) i).im) ∧
    ((∀ k < 3, ((fun k => -k) : ℕ → ℝ) k ≤ 0) ∧ ∀ i, ((![-I, 1] : Fin 2 → ℂ) i).im ≤ 0) ∧
    ¬ ∀ i, 0 ≤ ((![I, -I] : Fin 2 → ℂ) i).im := by
  refine ⟨⟨fun k _ => by positivity, fun i => by fin_cases i <;> simp⟩,
    ⟨fun k _ => by simp, fun i => by fin_cases i <;> simp⟩, fun h => ?_⟩
  have := h 1
  simp at this
  linarith

/-! ## Filon's rule (C42) -/

/-- C42: on an equidistant grid `tt2z_lin` returns the Laplace integral of the linear spline of the
data, for every frequency including zero. -/
theorem tt2z_lin_exact (n : ℕ) (hn : 2 ≤ n) (t0 dt : ℝ) (hdt : dt ≠ 0) (g : ℕ → ℂ) (z : ℂ)
    (h : ℝ → ℂ) (hh : IsPiecewiseLinear n (fun k => t0 + k * dt) g h) :
    tt2zLin n (fun k => t0 + k * dt) g z
      = .ok (∫ t in t0..(t0 + (n - 1 : ℕ) * dt), h t * Complex.exp (I * z * t)) := by
  obtain ⟨T, rfl⟩ : ∃ T, n = T + 1 := ⟨n - 1, by omega⟩
  have hdtc : (dt : ℂ) ≠ 0 := by exact_mod_cast hdt
  have hs : IsLinSpline (fun k : Fin (T + 1) => g k) t0 dt h := by
    intro k τ hτ
    have := hh k (by simp) τ (by simpa using hτ)
    rw [this]
    have e : (t0 + ((k : ℕ) + 1 : ℕ) * dt - (t0 + (k : ℕ) * dt) : ℝ) = dt := by push_cast; ring
    rw [e]
    simp
  have hf := (filon_sum (I * z) t0 dt hdt h T _ hs).2
  simp only [Nat.add_sub_cancel]
  rw [hf]
  have heq : equidistant (T + 1) (fun k => t0 + k * dt) := by
    intro k _
    have : (t0 + (k + 1 : ℕ) * dt - (t0 + (k : ℕ) * dt) - (t0 + (1 : ℕ) * dt - (t0 + (0 : ℕ) * dt)) : ℝ) = 0 := by
      push_cast; ring
    simp only
    rw [this, abs_zero]
    positivity
  unfold tt2zLin
  rw [if_neg (by omega), if_neg (not_not.2 heq)]
  split_ifs with hz
  · subst hz
    simp [fW1, fW2, Finset.mul_sum, Finset.sum_range]
    refine Finset.sum_congr rfl fun k _ => ?_
    ring
  · have hd : (t0 + (1 : ℕ) * dt - (t0 + (0 : ℕ) * dt) : ℝ) = dt := by push_cast; ring
    simp only [hd]
    have hx : I * z * dt ≠ 0 := by simp [hz, hdtc]
    simp only [fW1, fW2, if_neg hx, filonW1, filonW2, phase, Nat.add_sub_cancel]
    clear hf
    congr 2
    rw [Finset.mul_sum, Finset.mul_sum, ← Finset.sum_add_distrib, Finset.sum_range]
    refine Finset.sum_congr rfl fun k _ => ?_
    simp only [Fin.val_castSucc, Fin.val_succ]
    push_cast
    ring

/-- Data with a spline. -/
example : IsPiecewiseLinear 3 (fun k => (2 : ℝ) + k * (1 / 2)) (fun k => (k : ℂ) + 1)
    (fun t => 2 * (t : ℂ) - 3) := by
  intro k _ x _
  push_cast
  ring

/-- C42: `tt2z_lin` raises an `IndexError` exactly for less than two points and a `ValueError` exactly
when a spacing differs from the first one by more than the tolerances. -/
theorem tt2z_lin_error_iff (n : ℕ) (tt : ℕ → ℝ) (g : ℕ → ℂ) (z : ℂ) (e : Err) :
    tt2zLin n tt g z = .error e ↔ (e = .indexError ∧ n < 2) ∨ (e = .valueError ∧ 2 ≤ n ∧
      ∃ k < n - 1, 1e-8 + 1e-5 * |tt 1 - tt 0| < |tt (k + 1) - tt k - (tt 1 - tt 0)|) := by
  have hne : (∃ k < n - 1, 1e-8 + 1e-5 * |tt 1 - tt 0| < |tt (k + 1) - tt k - (tt 1 - tt 0)|)
      ↔ ¬ equidistant n tt := by
    unfold equidistant
    push Not
    rfl
  rw [hne]
  unfold tt2zLin
  by_cases h1 : n < 2
  · rw [if_pos h1]
    constructor
    · intro h; exact .inl ⟨(Except.error.inj h).symm, h1⟩
    · rintro (⟨rfl, _⟩ | ⟨_, h, _⟩)
      · rfl
      · omega
  rw [if_neg h1]
  by_cases h2 : equidistant n tt
  · rw [if_neg (not_not.2 h2)]
    constructor
    · intro h
      split_ifs at h
    · rintro (⟨_, h⟩ | ⟨_, _, h⟩)
      · exact absurd h h1
      · exact absurd h2 h
  · rw [if_pos h2]
    constructor
    · intro h; exact .inr ⟨(Except.error.inj h).symm, by omega, h2⟩
    · rintro (⟨_, h⟩ | ⟨rfl, _⟩)
      · exact absurd h h1
      · rfl

/-- C42: at frequency zero the result is the integral of the spline on every accepted grid. -/
theorem tt2z_lin_zero (n : ℕ) (hn : 2 ≤ n) (tt : ℕ → ℝ) (htt : equidistant n tt) (g : ℕ → ℂ) :
    tt2zLin n tt g 0 = .ok (trapezoid n tt g) := by
  unfold tt2zLin trapezoid
  rw [if_neg (by omega), if_neg (not_not.2 htt), if_pos rfl]
  congr 1
  exact Finset.sum_congr rfl fun k _ => by ring

/-- The check for equidistant points has an absolute tolerance: for the times `0, 1e-9, 5e-9` and
constant data `tt2z_lin` returns zero at `z = 10⁹ π` although the integral is not zero. -/
theorem tt2z_lin_grid_accepted : ∃ (tt : ℕ → ℝ) (z : ℂ),
    tt 1 - tt 0 ≠ tt 2 - tt 1 ∧ tt2zLin 3 tt (fun _ => 1) z = .ok 0 ∧
    ∫ t in (tt 0)..(tt 2), (1 : ℂ) * Complex.exp (I * z * t) ≠ 0 := by
  refine ⟨fun k => if k = 0 then 0 else if k = 1 then 1e-9 else 5e-9, 1e9 * Real.pi, by norm_num,
    ?_, ?_⟩
  · have hz : (1e9 * Real.pi : ℂ) ≠ 0 := by
      have : (Real.pi : ℂ) ≠ 0 := by exact_mod_cast Real.pi_ne_zero
      simp [this]
      norm_num
    unfold tt2zLin
    rw [if_neg (by norm_num), if_neg, if_neg hz]
    · simp only [Nat.add_one_sub_one, Finset.sum_range_succ, Finset.range_zero, Finset.sum_empty, phase,
        sub_self, mul_zero, add_zero, zero_add, if_true, one_ne_zero, if_false, sub_zero, mul_one,
        Complex.ofReal_zero, Complex.exp_zero]
      have : I * (1e9 * Real.pi : ℂ) * ((1e-9 : ℝ) : ℂ) = Real.pi * I := by
        push_cast; norm_num; ring
      rw [this, Complex.exp_pi_mul_I]
      norm_num
    · rw [not_not]
      intro k hk
      interval_cases k <;> norm_num [abs_le]
  · simp only [if_true, one_mul, OfNat.ofNat_ne_zero, if_false, OfNat.ofNat_ne_one]
    rw [integral_exp_mul_complex (by
      have : (Real.pi : ℂ) ≠ 0 := by exact_mod_cast Real.pi_ne_zero
      simp [this]
      norm_num)]
    have : I * (1e9 * Real.pi : ℂ) * ((5e-9 : ℝ) : ℂ) = 2 * (2 * Real.pi * I) + Real.pi * I := by
      push_cast; norm_num; ring
    rw [this, Complex.exp_add, Complex.exp_pi_mul_I]
    have h2 : Complex.exp (2 * (2 * Real.pi * I)) = 1 := by
      have := Complex.exp_nat_mul_two_pi_mul_I 2
      simpa using this
    rw [h2]
    have : (Real.pi : ℂ) ≠ 0 := by exact_mod_cast Real.pi_ne_zero
    simp
    norm_num [this]

end Gftool.Props
