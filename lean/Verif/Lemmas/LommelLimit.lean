import Verif.Lemmas.LommelCF

/-!
# Limits of the Lommel polynomials: the denominators of the continued fraction converge to `cos`
-/

namespace Gftool.Lemmas

open Gftool Polynomial Filter Topology

/-- Common factor of the coefficients. -/
noncomputable def lomG (s n k : ℕ) : ℝ := ((n - s - k).choose k : ℝ) * oddFac (n - k) / oddFac n

lemma oddFac_split (n k : ℕ) (h : k ≤ n) : oddFac n = oddFac (n - k) * ∏ i ∈ Finset.range k, (2 * (n : ℝ) - 2 * i - 1) := by
  induction k with
  | zero => simp
  | succ k ih =>
    rw [ih (by omega), Finset.prod_range_succ, ← mul_assoc]
    rw [show n - k = n - (k + 1) + 1 by omega, oddFac_succ, Nat.cast_sub h]
    push_cast
    ring

lemma choose_prod (M k : ℕ) : (M.choose k : ℝ) * k.factorial = ∏ i ∈ Finset.range k, ((M : ℝ) - i) := by
  rw [← Nat.cast_mul, mul_comm, ← Nat.descFactorial_eq_factorial_mul_choose]
  induction k with
  | zero => simp
  | succ k ih =>
    rw [Nat.descFactorial_succ, Finset.prod_range_succ, ← ih, Nat.cast_mul, mul_comm]
    rcases le_or_gt k M with h | h
    · rw [Nat.cast_sub h]
    · rw [Nat.descFactorial_of_lt h]; simp

lemma lomG_eq {s n k : ℕ} (h : s + k ≤ n) :
    lomG s n k = (∏ i ∈ Finset.range k, (((n : ℝ) - s - k - i) / (2 * (n : ℝ) - 2 * i - 1))) / k.factorial := by
  have h1 := choose_prod (n - s - k) k
  have h2 := oddFac_split n k (by omega)
  have hf : (k.factorial : ℝ) ≠ 0 := by exact_mod_cast k.factorial_ne_zero
  have h3 := (oddFac_pos (n - k)).ne'
  rw [Finset.prod_div_distrib, lomG, h2, eq_div_iff hf]
  have e : ((n - s - k : ℕ) : ℝ) = (n : ℝ) - s - k := by
    rw [Nat.cast_sub (by omega), Nat.cast_sub (by omega)]
  rw [e] at h1
  rw [← h1, mul_comm (((n - s - k).choose k : ℝ)) (oddFac (n - k)), mul_div_mul_left _ _ h3, div_mul_eq_mul_div]

lemma lomG_nonneg (s n k : ℕ) : 0 ≤ lomG s n k := by
  have := oddFac_pos (n - k)
  have := oddFac_pos n
  unfold lomG
  positivity

lemma lomG_le (s n k : ℕ) : lomG s n k ≤ 1 / (2 ^ k * k.factorial) := by
  rcases Nat.eq_zero_or_pos k with rfl | hk
  · simp only [lomG, Nat.choose_zero_right, Nat.cast_one, one_mul, Nat.sub_zero, pow_zero, Nat.factorial_zero, mul_one, div_one]
    rw [div_self (oddFac_pos n).ne']
  rcases lt_or_ge (n - s - k) k with h | h
  · rw [lomG, Nat.choose_eq_zero_of_lt h]
    simp only [Nat.cast_zero, zero_mul, zero_div]
    positivity
  · rw [lomG_eq (by omega)]
    have hp : ∏ i ∈ Finset.range k, (((n : ℝ) - s - k - i) / (2 * (n : ℝ) - 2 * i - 1)) ≤ ∏ i ∈ Finset.range k, (1 / 2 : ℝ) := by
      have hn : (s : ℝ) + k + k ≤ n := by exact_mod_cast (by omega : s + k + k ≤ n)
      have hk1 : (1 : ℝ) ≤ k := by exact_mod_cast hk
      have hs : (0 : ℝ) ≤ s := Nat.cast_nonneg _
      refine Finset.prod_le_prod (fun i hi => ?_) fun i hi => ?_
      · have : (i : ℝ) + 1 ≤ k := by exact_mod_cast Finset.mem_range.1 hi
        exact div_nonneg (by linarith) (by linarith)
      · have : (i : ℝ) + 1 ≤ k := by exact_mod_cast Finset.mem_range.1 hi
        rw [div_le_iff₀ (by linarith)]
        linarith
    rw [Finset.prod_const, Finset.card_range] at hp
    calc _ ≤ (1 / 2 : ℝ) ^ k / k.factorial := div_le_div_of_nonneg_right hp (by positivity)
      _ = _ := by rw [one_div_pow, div_div]

lemma half_tendsto (a b : ℝ) : Tendsto (fun n : ℕ => ((n : ℝ) - a) / (2 * n - b)) atTop (𝓝 (1 / 2)) := by
  have h1 : Tendsto (fun n : ℕ => (1 - a / (n : ℝ)) / (2 - b / n)) atTop (𝓝 ((1 - 0) / (2 - 0))) :=
    (tendsto_const_nhds.sub (tendsto_const_div_atTop_nhds_zero_nat a)).div
      (tendsto_const_nhds.sub (tendsto_const_div_atTop_nhds_zero_nat b)) (by norm_num)
  rw [sub_zero, sub_zero] at h1
  refine h1.congr' ?_
  filter_upwards [eventually_gt_atTop 0] with n hn
  have hn : (n : ℝ) ≠ 0 := by exact_mod_cast hn.ne'
  rw [← mul_div_mul_left _ _ hn, mul_sub, mul_sub, mul_div_cancel₀ _ hn, mul_div_cancel₀ _ hn, mul_one, mul_comm (n : ℝ) 2]

lemma lomG_tendsto (s k : ℕ) : Tendsto (fun n => lomG s n k) atTop (𝓝 (1 / (2 ^ k * k.factorial))) := by
  have h1 : Tendsto (fun n : ℕ => (∏ i ∈ Finset.range k, (((n : ℝ) - s - k - i) / (2 * (n : ℝ) - 2 * i - 1))) / k.factorial)
      atTop (𝓝 ((∏ i ∈ Finset.range k, (1 / 2 : ℝ)) / k.factorial)) := by
    refine Tendsto.div_const (tendsto_finsetProd _ fun i _ => ?_) _
    have := half_tendsto ((s : ℝ) + k + i) (2 * i + 1)
    refine this.congr fun n => ?_
    congr 1 <;> ring
  rw [Finset.prod_const, Finset.card_range, one_div_pow, div_div] at h1
  refine h1.congr' ?_
  filter_upwards [eventually_ge_atTop (s + k)] with n hn
  rw [lomG_eq hn]

lemma lomC_zero_div (n k : ℕ) : lomC 0 n k / oddFac n = lomG 0 n k / oddFac k := by
  unfold lomC lomG
  rw [zero_add, zero_add, Nat.sub_zero]
  ring

lemma lomC_one_div {n : ℕ} (hn : 0 < n) (k : ℕ) : lomC 1 (n - 1) k / oddFac n = lomG 1 n k / oddFac (k + 1) := by
  unfold lomC lomG
  rw [show 1 + (n - 1) - k = n - k by omega, add_comm 1 k]
  ring

lemma facB (k : ℕ) : 1 / (2 ^ k * (k.factorial : ℝ)) / oddFac k = 1 / ((2 * k).factorial : ℝ) := by
  rw [← two_pow_factorial_oddFac, div_div]

lemma facB' (k : ℕ) : 1 / (2 ^ k * (k.factorial : ℝ)) / oddFac (k + 1) = 1 / ((2 * k + 1).factorial : ℝ) := by
  rw [Nat.factorial_succ, Nat.cast_mul, ← two_pow_factorial_oddFac, div_div, oddFac_succ]
  push_cast
  ring

lemma denP_tsum (n : ℕ) (t : ℝ) : (denP n).eval t = ∑' k, lomG 0 n k / oddFac k * (t / 4) ^ k := by
  rw [denP_eval, lomP_eval 0 n _ (Nat.lt_succ_self _), Finset.sum_div, tsum_eq_sum (s := Finset.range (n / 2 + 1))]
  · refine Finset.sum_congr rfl fun k _ => ?_
    rw [← lomC_zero_div]; ring
  · intro k hk
    rw [← lomC_zero_div, lomC_eq_zero (by simpa using hk)]
    simp

lemma numP_tsum {n : ℕ} (hn : 0 < n) (t : ℝ) : (numP n).eval t = ∑' k, lomG 1 n k / oddFac (k + 1) * (t / 4) ^ k := by
  rw [numP_eval, lomP_eval 1 (n - 1) _ (Nat.lt_succ_self _), Finset.sum_div, tsum_eq_sum (s := Finset.range ((n - 1) / 2 + 1))]
  · refine Finset.sum_congr rfl fun k _ => ?_
    rw [← lomC_one_div hn]; ring
  · intro k hk
    rw [← lomC_one_div hn, lomC_eq_zero (by simpa using hk)]
    simp

lemma denP_deriv_tsum (n : ℕ) (t : ℝ) :
    (derivative (denP n)).eval t = ∑' k : ℕ, (k + 1) / 4 * (lomG 0 n (k + 1) / oddFac (k + 1)) * (t / 4) ^ k := by
  have h1 : (derivative (denP n)).eval t = (derivative (lomP 0 n)).eval (t / 4) / 4 / oddFac n := by
    simp only [denP, derivative_C_mul, derivative_comp, derivative_X, mul_one, eval_mul, eval_C, eval_comp, eval_X]
    ring_nf
  rw [h1, lomP, derivative_sum, eval_finsetSum, Finset.sum_div, Finset.sum_div, Finset.sum_range_succ',
    tsum_eq_sum (s := Finset.range (n / 2))]
  · simp only [derivative_C_mul, derivative_X_pow, eval_mul, eval_C, eval_pow, eval_X, eval_natCast, Nat.cast_zero, zero_mul,
      mul_zero, zero_div, add_zero]
    refine Finset.sum_congr rfl fun k _ => ?_
    rw [← lomC_zero_div, Nat.add_sub_cancel]
    push_cast
    ring
  · intro k hk
    rw [← lomC_zero_div, lomC_eq_zero (by have := Finset.mem_range.not.1 hk; omega)]
    simp

private lemma pow_bound {r R : ℝ} (h : |r| ≤ R) (k : ℕ) : ‖r ^ k‖ ≤ R ^ k := by
  rw [norm_pow, Real.norm_eq_abs]
  exact pow_le_pow_left₀ (abs_nonneg _) h k

private lemma bounded_near {n : ℕ → ℕ} {t : ℕ → ℝ} {t₀ : ℝ} (ht : Tendsto t atTop (𝓝 t₀)) (_ : n = n) :
    ∀ᶠ i in atTop, |t i / 4| ≤ |t₀| + 1 := by
  have h1 : Tendsto (fun i => |t i / 4|) atTop (𝓝 |t₀ / 4|) := (ht.div_const 4).abs
  have h2 : |t₀ / 4| < |t₀| + 1 := by
    rw [abs_div, abs_of_pos (by norm_num : (0 : ℝ) < 4)]
    have := abs_nonneg t₀
    linarith
  exact (h1.eventually_lt_const h2).mono fun i hi => hi.le

/-- Limit of a power series with coefficients bounded by those of the exponential. -/
private lemma series_tendsto {n : ℕ → ℕ} (hn : Tendsto n atTop atTop) {t : ℕ → ℝ} {t₀ : ℝ} (ht : Tendsto t atTop (𝓝 t₀))
    (a : ℕ → ℕ → ℝ) (b : ℕ → ℝ) (h0 : ∀ m k, 0 ≤ a m k) (h1 : ∀ m k, a m k ≤ b k) (h2 : ∀ k, Tendsto (fun m => a m k) atTop (𝓝 (b k)))
    (h3 : ∀ k, b k ≤ 1 / k.factorial) :
    Tendsto (fun i => ∑' k, a (n i) k * (t i / 4) ^ k) atTop (𝓝 (∑' k, b k * (t₀ / 4) ^ k)) := by
  refine tendsto_tsum_of_dominated_convergence (bound := fun k => (|t₀| + 1) ^ k / k.factorial)
    (Real.summable_pow_div_factorial _) (fun k => ((h2 k).comp hn).mul ((ht.div_const 4).pow k)) ?_
  filter_upwards [bounded_near (n := n) ht rfl] with i hi k
  rw [norm_mul, Real.norm_of_nonneg (h0 _ _)]
  have : (|t₀| + 1) ^ k / (k.factorial : ℝ) = 1 / k.factorial * (|t₀| + 1) ^ k := by ring
  rw [this]
  exact mul_le_mul ((h1 _ _).trans (h3 k)) (pow_bound hi k) (norm_nonneg _) (by positivity)

private lemma fac_le (k : ℕ) : (1 : ℝ) / ((2 * k).factorial : ℝ) ≤ 1 / k.factorial :=
  one_div_le_one_div_of_le (by exact_mod_cast k.factorial_pos) (by exact_mod_cast Nat.factorial_le (by omega))

private lemma fac_le' (k : ℕ) : (1 : ℝ) / ((2 * k + 1).factorial : ℝ) ≤ 1 / k.factorial :=
  one_div_le_one_div_of_le (by exact_mod_cast k.factorial_pos) (by exact_mod_cast Nat.factorial_le (by omega))

lemma denP_tendsto {n : ℕ → ℕ} (hn : Tendsto n atTop atTop) (w : ℝ) :
    Tendsto (fun i => (denP (n i)).eval (-(2 * w) ^ 2)) atTop (𝓝 (Real.cos w)) := by
  have h := series_tendsto hn (t := fun _ => -(2 * w) ^ 2) tendsto_const_nhds (fun m k => lomG 0 m k / oddFac k)
    (fun k => 1 / ((2 * k).factorial : ℝ)) (fun m k => div_nonneg (lomG_nonneg _ _ _) (oddFac_pos k).le)
    (fun m k => by
      rw [← facB]
      exact div_le_div_of_nonneg_right (lomG_le _ _ _) (oddFac_pos k).le)
    (fun k => by
      rw [← facB]
      exact (lomG_tendsto 0 k).div_const _) fac_le
  simp only [← denP_tsum] at h
  convert h using 2
  rw [← (Real.hasSum_cos w).tsum_eq]
  refine tsum_congr fun k => ?_
  rw [show -(2 * w) ^ 2 / 4 = -1 * w ^ 2 by ring, mul_pow, ← pow_mul]
  ring

/-- Limit of the numerator. -/
noncomputable def sincS (t : ℝ) : ℝ := ∑' k : ℕ, 1 / ((2 * k + 1).factorial : ℝ) * (t / 4) ^ k

lemma numP_tendsto {n : ℕ → ℕ} (hn : Tendsto n atTop atTop) {t : ℕ → ℝ} {t₀ : ℝ} (ht : Tendsto t atTop (𝓝 t₀)) :
    Tendsto (fun i => (numP (n i)).eval (t i)) atTop (𝓝 (sincS t₀)) := by
  have h := series_tendsto hn ht (fun m k => lomG 1 m k / oddFac (k + 1))
    (fun k => 1 / ((2 * k + 1).factorial : ℝ)) (fun m k => div_nonneg (lomG_nonneg _ _ _) (oddFac_pos _).le)
    (fun m k => by
      rw [← facB']
      exact div_le_div_of_nonneg_right (lomG_le _ _ _) (oddFac_pos _).le)
    (fun k => by
      rw [← facB']
      exact (lomG_tendsto 1 k).div_const _) fac_le'
  refine h.congr' ?_
  filter_upwards [hn.eventually_gt_atTop 0] with i hi
  rw [numP_tsum hi]

lemma facB'' (k : ℕ) : (k + 1 : ℝ) / 4 * (1 / ((2 * (k + 1)).factorial : ℝ)) = 1 / 8 * (1 / ((2 * k + 1).factorial : ℝ)) := by
  rw [show 2 * (k + 1) = 2 * k + 1 + 1 by ring, Nat.factorial_succ, Nat.cast_mul]
  have : ((2 * k + 1).factorial : ℝ) ≠ 0 := by exact_mod_cast Nat.factorial_ne_zero _
  push_cast
  field_simp
  ring

lemma denP_deriv_tendsto {n : ℕ → ℕ} (hn : Tendsto n atTop atTop) {t : ℕ → ℝ} {t₀ : ℝ} (ht : Tendsto t atTop (𝓝 t₀)) :
    Tendsto (fun i => (derivative (denP (n i))).eval (t i)) atTop (𝓝 (1 / 8 * sincS t₀)) := by
  have hk : ∀ k : ℕ, (0 : ℝ) ≤ (k + 1) / 4 := fun k => by positivity
  have h := series_tendsto hn ht (fun m k => (k + 1 : ℝ) / 4 * (lomG 0 m (k + 1) / oddFac (k + 1)))
    (fun k => 1 / 8 * (1 / ((2 * k + 1).factorial : ℝ)))
    (fun m k => mul_nonneg (hk k) (div_nonneg (lomG_nonneg _ _ _) (oddFac_pos _).le))
    (fun m k => by
      rw [← facB'', ← facB]
      exact mul_le_mul_of_nonneg_left (div_le_div_of_nonneg_right (lomG_le _ _ _) (oddFac_pos _).le) (hk k))
    (fun k => by
      rw [← facB'', ← facB]
      exact ((lomG_tendsto 0 (k + 1)).div_const _).const_mul _)
    (fun k => by
      refine le_trans ?_ (fac_le' k)
      have : (0 : ℝ) ≤ 1 / ((2 * k + 1).factorial : ℝ) := by positivity
      linarith)
  simp only [← denP_deriv_tsum] at h
  convert h using 2
  rw [sincS, ← tsum_mul_left]
  exact tsum_congr fun k => by ring

lemma sincS_eq (w : ℝ) : w * sincS (-(2 * w) ^ 2) = Real.sin w := by
  rw [sincS, ← tsum_mul_left, ← (Real.hasSum_sin w).tsum_eq]
  refine tsum_congr fun k => ?_
  rw [show -(2 * w) ^ 2 / 4 = -1 * w ^ 2 by ring, mul_pow, ← pow_mul]
  ring

/-- Sum rule of the frequencies. -/
lemma IsPadeDecomp.sum_inv_sq_le {num : ℕ} {lam rp : Fin num → ℝ} (h : IsPadeDecomp num lam rp) (hn : 0 < num) :
    ∑ i, 1 / lam i ^ 2 ≤ 1 / 8 := by
  have h1 : (derivative (denP (2 * num))).eval 0 = ∑ i, 1 / lam i ^ 2 := by
    rw [h.den_eq hn, derivative_prod_finset, eval_finsetSum]
    refine Finset.sum_congr rfl fun i _ => ?_
    rw [eval_mul, eval_prod]
    simp
  rw [← h1, denP_deriv_tsum, tsum_eq_single 0]
  · have h2 := lomG_le 0 (2 * num) 1
    simp only [oddFac] at h2 ⊢
    norm_num at h2 ⊢
    linarith
  · intro k hk
    rw [zero_div, zero_pow hk, mul_zero]

end Gftool.Lemmas
