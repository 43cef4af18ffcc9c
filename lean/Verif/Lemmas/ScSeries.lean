import Verif.Lemmas.OdeSystem
import Mathlib.Topology.Algebra.InfiniteSum.NatInt

/-!
# The power series of the density of states of the simple cubic lattice around the band centre
-/

namespace Gftool.Lemmas

/-! ## Power series with geometrically bounded coefficients -/

/-- Coefficients bounded by a geometric sequence times a polynomial. -/
def GeoBound (g : ℕ → ℝ) (q C : ℝ) (j : ℕ) : Prop := ∀ n, |g n| ≤ C * ((n : ℝ) + 1) ^ j * q ^ n

/-- Coefficients of the derivative. -/
def derivCoeff (g : ℕ → ℝ) (n : ℕ) : ℝ := ((n : ℝ) + 1) * g (n + 1)

/-- The sum of the power series. -/
noncomputable def pSum (g : ℕ → ℝ) (e : ℝ) : ℝ := ∑' n, g n * e ^ n

lemma GeoBound.deriv {g : ℕ → ℝ} {q C : ℝ} {j : ℕ} (hq : 0 < q) (hC : 0 ≤ C) (h : GeoBound g q C j) :
    GeoBound (derivCoeff g) q (C * 2 ^ j * q) (j + 1) := by
  intro n
  rw [derivCoeff, abs_mul, abs_of_nonneg (by positivity)]
  have h1 := h (n + 1)
  push_cast at h1
  have h2 : ((n : ℝ) + 1 + 1) ^ j ≤ 2 ^ j * ((n : ℝ) + 1) ^ j := by
    rw [← mul_pow]
    apply pow_le_pow_left₀ (by positivity)
    have : (0 : ℝ) ≤ n := Nat.cast_nonneg n
    linarith
  calc ((n : ℝ) + 1) * |g (n + 1)| ≤ ((n : ℝ) + 1) * (C * (2 ^ j * ((n : ℝ) + 1) ^ j) * q ^ (n + 1)) := by
        refine mul_le_mul_of_nonneg_left (h1.trans ?_) (by positivity)
        gcongr
    _ = C * 2 ^ j * q * ((n : ℝ) + 1) ^ (j + 1) * q ^ n := by ring

lemma GeoBound.summable {g : ℕ → ℝ} {q C : ℝ} {j : ℕ} (hq : 0 < q) (hC : 0 ≤ C) (h : GeoBound g q C j) {e : ℝ}
    (he : |q * e| < 1) : Summable fun n => g n * e ^ n := by
  have h1 : Summable fun n : ℕ => ((n + 1 : ℕ) : ℝ) ^ j * |q * e| ^ n := by
    have hs : Summable fun n : ℕ => (n : ℝ) ^ j * |q * e| ^ n :=
      summable_pow_mul_geometric_of_norm_lt_one j (by rwa [Real.norm_eq_abs, abs_abs])
    have h2 : Summable fun n : ℕ => (2 : ℝ) ^ j * ((n : ℝ) ^ j * |q * e| ^ n) + 2 ^ j * |q * e| ^ n :=
      (hs.mul_left _).add ((summable_geometric_of_lt_one (abs_nonneg _) he).mul_left _)
    refine Summable.of_nonneg_of_le (fun n => by positivity) (fun n => ?_) h2
    rw [← mul_assoc, ← add_mul]
    apply mul_le_mul_of_nonneg_right _ (by positivity)
    rcases Nat.eq_zero_or_pos n with h | h
    · subst h
      have : (1 : ℝ) ≤ 2 ^ j := one_le_pow₀ (by norm_num)
      have h0 : (0 : ℝ) ≤ 2 ^ j * ((0 : ℕ) : ℝ) ^ j := by positivity
      push_cast at h0 ⊢
      norm_num
      linarith
    · have : ((n + 1 : ℕ) : ℝ) ^ j ≤ 2 ^ j * (n : ℝ) ^ j := by
        rw [← mul_pow]
        apply pow_le_pow_left₀ (by positivity)
        push_cast
        have : (1 : ℝ) ≤ n := by exact_mod_cast h
        linarith
      have : (0 : ℝ) ≤ 2 ^ j := by positivity
      linarith
  refine Summable.of_norm_bounded (h1.mul_left C) fun n => ?_
  rw [Real.norm_eq_abs, abs_mul, abs_pow, abs_mul, abs_of_pos hq, mul_pow]
  have := mul_le_mul_of_nonneg_right (h n) (pow_nonneg (abs_nonneg e) n)
  push_cast
  linarith

lemma GeoBound.hasDerivAt {g : ℕ → ℝ} {q C : ℝ} {j : ℕ} (hq : 0 < q) (hC : 0 ≤ C) (h : GeoBound g q C j) {e : ℝ}
    (he : |q * e| < 1) : HasDerivAt (pSum g) (pSum (derivCoeff g) e) e := by
  have hc : ∀ n, |g n / q ^ n| ≤ C * 2 ^ j * (n : ℝ) ^ j + C * 2 ^ j := by
    intro n
    have hqn : 0 < q ^ n := pow_pos hq n
    rw [abs_div, abs_of_pos hqn, div_le_iff₀ hqn]
    refine (h n).trans (mul_le_mul_of_nonneg_right ?_ hqn.le)
    rw [mul_assoc, ← mul_add]
    apply mul_le_mul_of_nonneg_left _ hC
    rcases Nat.eq_zero_or_pos n with h | h
    · subst h
      have h1 : (1 : ℝ) ≤ 2 ^ j := one_le_pow₀ (by norm_num)
      have h0 : (0 : ℝ) ≤ 2 ^ j * ((0 : ℕ) : ℝ) ^ j := by positivity
      push_cast at h0 ⊢
      rw [zero_add, one_pow]
      linarith
    · have : ((n : ℝ) + 1) ^ j ≤ 2 ^ j * (n : ℝ) ^ j := by
        rw [← mul_pow]
        apply pow_le_pow_left₀ (by positivity)
        have : (1 : ℝ) ≤ n := by exact_mod_cast h
        linarith
      have : (0 : ℝ) ≤ 2 ^ j := by positivity
      linarith
  have h1 := (hasDerivAt_powerSeries hc he).comp e ((hasDerivAt_id e).const_mul q)
  have e1 : pSum g = (fun x => ∑' n, g n / q ^ n * x ^ n) ∘ fun e => q * id e := by
    funext e
    simp only [pSum, Function.comp_apply, id]
    congr 1
    funext n
    rw [mul_pow]
    have : q ^ n ≠ 0 := (pow_pos hq n).ne'
    field_simp
  rw [e1]
  refine h1.congr_deriv ?_
  rw [mul_one, ← tsum_mul_right, pSum]
  rw [← Function.Injective.tsum_eq (g := Nat.succ) Nat.succ_injective]
  · congr 1
    funext n
    rw [derivCoeff, Nat.succ_eq_add_one, Nat.add_sub_cancel]
    have : q ^ n ≠ 0 := (pow_pos hq n).ne'
    rw [mul_pow, pow_succ]
    push_cast
    field_simp
  · intro n hn
    rcases n with _ | n
    · simp at hn
    · exact ⟨n, rfl⟩

/-- Coefficients of the series times `e^k`. -/
def shiftCoeff (k : ℕ) (g : ℕ → ℝ) (n : ℕ) : ℝ := if n < k then 0 else g (n - k)

lemma hasSum_shift {g : ℕ → ℝ} {e s : ℝ} (h : HasSum (fun n => g n * e ^ n) s) (k : ℕ) :
    HasSum (fun n => shiftCoeff k g n * e ^ n) (e ^ k * s) := by
  have h1 : HasSum (fun n => shiftCoeff k g (n + k) * e ^ (n + k)) (e ^ k * s) := by
    have h3 := h.mul_left (e ^ k)
    have e1 : (fun n => shiftCoeff k g (n + k) * e ^ (n + k)) = fun n => e ^ k * (g n * e ^ n) := by
      funext n
      rw [shiftCoeff, if_neg (by omega), Nat.add_sub_cancel, pow_add]
      ring
    rw [e1]
    exact h3
  have h2 := (hasSum_nat_add_iff (f := fun n => shiftCoeff k g n * e ^ n) k).1 h1
  rwa [Finset.sum_eq_zero (fun i hi => by simp [shiftCoeff, Finset.mem_range.1 hi]), add_zero] at h2

/-! ## The series -/

/-- Coefficients of the series around the band centre, with the first even coefficients `a` and `b`. -/
noncomputable def ctrCoeff (a b : ℝ) : ℕ → ℝ
  | 0 => a
  | 1 => 0
  | 2 => b
  | 3 => 0
  | n + 4 => (2 * ((n : ℝ) + 2) * (5 * (n + 1) ^ 2 + 10 * (n + 1) + 6) * ctrCoeff a b (n + 2) - ((n : ℝ) + 1) ^ 3 * ctrCoeff a b n)
      / (9 * ((n + 2) * (n + 3) * (n + 4)))

lemma ctrCoeff_step (a b : ℝ) (n : ℕ) : 9 * (((n : ℝ) + 2) * (n + 3) * (n + 4)) * ctrCoeff a b (n + 4)
    = 2 * ((n : ℝ) + 2) * (5 * (n + 1) ^ 2 + 10 * (n + 1) + 6) * ctrCoeff a b (n + 2) - ((n : ℝ) + 1) ^ 3 * ctrCoeff a b n := by
  rw [ctrCoeff]
  have h : (9 * (((n : ℝ) + 2) * (n + 3) * (n + 4))) ≠ 0 := by positivity
  field_simp

lemma ctrCoeff_bound {a b C : ℝ} (ha : |a| ≤ C) (hb : |b| ≤ C * 1.21) (n : ℕ) : |ctrCoeff a b n| ≤ C * 1.1 ^ n := by
  have hC : 0 ≤ C := (abs_nonneg a).trans ha
  induction n using Nat.strong_induction_on with
  | _ n ih =>
    match n, ih with
    | 0, _ => simpa [ctrCoeff] using ha
    | 1, _ => simp [ctrCoeff]; positivity
    | 2, _ => rw [ctrCoeff]; norm_num at hb ⊢; exact hb
    | 3, _ => simp [ctrCoeff]; positivity
    | n + 4, ih =>
      have h0 := ih n (by omega)
      have h2 := ih (n + 2) (by omega)
      have hn : (0 : ℝ) ≤ n := Nat.cast_nonneg n
      rw [ctrCoeff, abs_div, abs_of_pos (show (0 : ℝ) < 9 * ((n + 2) * (n + 3) * (n + 4)) by positivity), div_le_iff₀ (by positivity)]
      refine (abs_sub _ _).trans ?_
      rw [abs_mul _ (ctrCoeff a b (n + 2)), abs_mul _ (ctrCoeff a b n), abs_of_nonneg (show (0 : ℝ) ≤ 2 * ((n : ℝ) + 2) * (5 * (n + 1) ^ 2 + 10 * (n + 1) + 6) by positivity),
        abs_of_nonneg (show (0 : ℝ) ≤ ((n : ℝ) + 1) ^ 3 by positivity)]
      have hp : 0 ≤ C * 1.1 ^ n := by positivity
      have e2 : C * 1.1 ^ (n + 2) = C * 1.1 ^ n * 1.21 := by rw [pow_add]; norm_num; ring
      have e4 : C * 1.1 ^ (n + 4) = C * 1.1 ^ n * 1.4641 := by rw [pow_add]; norm_num; ring
      rw [e2] at h2
      rw [e4]
      generalize C * 1.1 ^ n = t at *
      have k1 := mul_le_mul_of_nonneg_left h2 (show (0 : ℝ) ≤ 2 * ((n : ℝ) + 2) * (5 * (n + 1) ^ 2 + 10 * (n + 1) + 6) by positivity)
      have k2 := mul_le_mul_of_nonneg_left h0 (show (0 : ℝ) ≤ ((n : ℝ) + 1) ^ 3 by positivity)
      refine (add_le_add k1 k2).trans ?_
      have e : t * 1.4641 * (9 * (((n : ℝ) + 2) * (n + 3) * (n + 4)))
          - (2 * ((n : ℝ) + 2) * (5 * (n + 1) ^ 2 + 10 * (n + 1) + 6) * (t * 1.21) + ((n : ℝ) + 1) ^ 3 * t)
          = t * (0.0769 * (n : ℝ) ^ 3 + 42.9921 * (n : ℝ) ^ 2 + 191.9794 * n + 213.6056 + 0) := by
        ring
      have : 0 ≤ t * (0.0769 * (n : ℝ) ^ 3 + 42.9921 * (n : ℝ) ^ 2 + 191.9794 * n + 213.6056 + 0) := by positivity
      linarith

lemma geoBound_ctrCoeff {a b C : ℝ} (ha : |a| ≤ C) (hb : |b| ≤ C * 1.21) : GeoBound (ctrCoeff a b) 1.1 C 0 := fun n => by
  rw [pow_zero, mul_one]
  exact ctrCoeff_bound ha hb n

/-- The differential equation of third order. -/
lemma ctrCoeff_ode {a b e : ℝ} (he : |1.1 * e| < 1) :
    (1 - e ^ 2) * (9 - e ^ 2) * pSum (derivCoeff (derivCoeff (derivCoeff (ctrCoeff a b)))) e
      = (12 - 7 * e ^ 2) * pSum (derivCoeff (ctrCoeff a b)) e
        + (30 * e - 6 * e ^ 3) * pSum (derivCoeff (derivCoeff (ctrCoeff a b))) e - e * pSum (ctrCoeff a b) e := by
  set C : ℝ := max |a| |b| with hC
  have hC0 : 0 ≤ C := (abs_nonneg a).trans (le_max_left _ _)
  have g0 := geoBound_ctrCoeff (a := a) (b := b) (C := C) (le_max_left _ _) (by have := le_max_right |a| |b|; linarith)
  have hq : (0 : ℝ) < 1.1 := by norm_num
  have g1 := g0.deriv hq hC0
  have g2 := g1.deriv hq (by positivity)
  have g3 := g2.deriv hq (by positivity)
  have s0 := (g0.summable hq hC0 he).hasSum
  have s1 := (g1.summable hq (by positivity) he).hasSum
  have s2 := (g2.summable hq (by positivity) he).hasSum
  have s3 := (g3.summable hq (by positivity) he).hasSum
  have hs := (((((s3.mul_left 9).sub ((hasSum_shift s3 2).mul_left 10)).add (hasSum_shift s3 4)).sub (s1.mul_left 12)).add
    ((hasSum_shift s1 2).mul_left 7)).sub (((hasSum_shift s2 1).mul_left 30).sub ((hasSum_shift s2 3).mul_left 6))
  have hs2 := hs.add (hasSum_shift s0 1)
  have key : ∀ n : ℕ, 9 * (derivCoeff (derivCoeff (derivCoeff (ctrCoeff a b))) n * e ^ n)
      - 10 * (shiftCoeff 2 (derivCoeff (derivCoeff (derivCoeff (ctrCoeff a b)))) n * e ^ n)
      + shiftCoeff 4 (derivCoeff (derivCoeff (derivCoeff (ctrCoeff a b)))) n * e ^ n
      - 12 * (derivCoeff (ctrCoeff a b) n * e ^ n) + 7 * (shiftCoeff 2 (derivCoeff (ctrCoeff a b)) n * e ^ n)
      - (30 * (shiftCoeff 1 (derivCoeff (derivCoeff (ctrCoeff a b))) n * e ^ n)
        - 6 * (shiftCoeff 3 (derivCoeff (derivCoeff (ctrCoeff a b))) n * e ^ n))
      + shiftCoeff 1 (ctrCoeff a b) n * e ^ n = 0 := by
    intro n
    match n with
    | 0 => simp [shiftCoeff, derivCoeff, ctrCoeff]
    | 1 => simp [shiftCoeff, derivCoeff, ctrCoeff]; ring
    | 2 => simp [shiftCoeff, derivCoeff, ctrCoeff]
    | 3 => simp [shiftCoeff, derivCoeff, ctrCoeff]; ring
    | n + 4 =>
      have h := ctrCoeff_step a b (n + 3)
      simp only [shiftCoeff, derivCoeff]
      simp only [show ¬ n + 4 < 2 by omega, show ¬ n + 4 < 4 by omega, show ¬ n + 4 < 1 by omega, show ¬ n + 4 < 3 by omega, if_false,
        show n + 4 - 2 = n + 2 by omega, show n + 4 - 4 = n by omega, show n + 4 - 1 = n + 3 by omega,
        show n + 4 - 3 = n + 1 by omega, Nat.add_assoc, Nat.reduceAdd] at h ⊢
      push_cast at h ⊢
      linear_combination e ^ (n + 4) * h
  have hz := hs2.unique (a₂ := 0) (by
    convert hasSum_zero using 1
    funext n
    exact key n)
  unfold pSum
  linear_combination hz

end Gftool.Lemmas
