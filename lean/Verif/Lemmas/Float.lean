import Verif.Spec.Float
import Mathlib.Topology.MetricSpace.ProperSpace.Lemmas
import Mathlib.Topology.Instances.Int

/-!
# Rounding to nearest
-/

namespace Gftool.Lemmas

open Gftool Spec

variable (A : FloatArith)

lemma u_pos : 0 < A.u := by unfold FloatArith.u; positivity

lemma eta_pos : 0 < A.eta := by unfold FloatArith.eta; positivity

lemma u_le_one : A.u ≤ 1 := by
  unfold FloatArith.u
  exact pow_le_one₀ (by norm_num) (by norm_num)

lemma u_eq : A.u = (2 : ℝ) ^ (-(A.p : ℤ)) := by
  unfold FloatArith.u
  rw [zpow_neg, zpow_natCast, one_div, inv_pow]

/-- Multiples of `2^k` in the range of the digits are floating point numbers. -/
lemma exists_float_near (p : ℕ) (kmin : ℤ) (x : ℝ) :
    ∃ y, IsFloat p kmin y ∧ (|y - x| ≤ (2 : ℝ) ^ (-(p : ℤ)) * |x| ∨ |y - x| ≤ (2 : ℝ) ^ kmin / 2) := by
  rcases eq_or_ne x 0 with rfl | hx
  · exact ⟨0, ⟨0, kmin, le_rfl, by simp, by simp⟩, Or.inl (by simp)⟩
  have hx0 : 0 < |x| := abs_pos.2 hx
  set l := Int.log 2 |x| with hl
  have hl1 : (2 : ℝ) ^ l ≤ |x| := by
    have := Int.zpow_log_le_self (b := 2) (by norm_num) hx0
    exact_mod_cast this
  have hl2 : |x| < (2 : ℝ) ^ (l + 1) := by
    have := Int.lt_zpow_succ_log_self (b := 2) (by norm_num) |x|
    exact_mod_cast this
  set k := max kmin (l + 1 - p) with hk
  have h2k : (0 : ℝ) < (2 : ℝ) ^ k := by positivity
  set m := round (x / (2 : ℝ) ^ k) with hm
  have herr : |(m : ℝ) * (2 : ℝ) ^ k - x| ≤ (2 : ℝ) ^ k / 2 := by
    have h1 := abs_sub_round (x / (2 : ℝ) ^ k)
    rw [← hm] at h1
    have h2 : (m : ℝ) * (2 : ℝ) ^ k - x = -(x / (2 : ℝ) ^ k - m) * (2 : ℝ) ^ k := by field_simp; ring
    rw [h2, abs_mul, abs_neg, abs_of_pos h2k]
    nlinarith
  refine ⟨m * (2 : ℝ) ^ k, ⟨m, k, le_max_left _ _, ?_, rfl⟩, ?_⟩
  · have h3 : |x / (2 : ℝ) ^ k| < (2 : ℝ) ^ p := by
      rw [abs_div, abs_of_pos h2k, div_lt_iff₀ h2k]
      refine hl2.trans_le ?_
      rw [← zpow_natCast, ← zpow_add₀ (by norm_num)]
      refine zpow_le_zpow_right₀ (by norm_num) ?_
      have := le_max_right kmin (l + 1 - p)
      rw [← hk] at this
      linarith
    have h4 := abs_sub_round (x / (2 : ℝ) ^ k)
    rw [← hm] at h4
    have h5 : |(m : ℝ)| < (2 : ℝ) ^ p + 1 := by
      have := abs_sub_abs_le_abs_sub (m : ℝ) (x / (2 : ℝ) ^ k)
      rw [abs_sub_comm] at this
      linarith
    have h6 : |m| < 2 ^ p + 1 := by
      have : ((|m| : ℤ) : ℝ) < ((2 ^ p + 1 : ℤ) : ℝ) := by
        push_cast
        exact h5
      exact_mod_cast this
    omega
  · rcases max_cases kmin (l + 1 - p) with ⟨h, -⟩ | ⟨h, -⟩
    · right
      rw [hk, h] at herr ⊢
      exact herr
    · left
      refine herr.trans ?_
      rw [hk, h, show l + 1 - (p : ℤ) = -(p : ℤ) + l + 1 by ring, zpow_add₀ (by norm_num), zpow_add₀ (by norm_num), zpow_one]
      have : (0 : ℝ) < (2 : ℝ) ^ (-(p : ℤ)) := by positivity
      nlinarith

/-- Rounding errors. -/
lemma rnd_err (x : ℝ) : |A.rnd x - x| ≤ max (A.u * |x|) A.eta := by
  obtain ⟨y, hy, h⟩ := exists_float_near A.p A.kmin x
  refine (A.nearest x y hy).trans ?_
  rw [u_eq]
  exact le_max_iff.2 h

lemma rnd_err' (x : ℝ) : |A.rnd x - x| ≤ A.u * |x| + A.eta :=
  (rnd_err A x).trans (max_le_add_of_nonneg (mul_nonneg (u_pos A).le (abs_nonneg _)) (eta_pos A).le)

/-- Without underflow. -/
lemma rnd_rel {x : ℝ} (h : A.eta ≤ A.u * |x|) : |A.rnd x - x| ≤ A.u * |x| :=
  (rnd_err A x).trans_eq (max_eq_left h)

lemma rnd_float {x : ℝ} (h : IsFloat A.p A.kmin x) : A.rnd x = x := by
  have := A.nearest x x h
  rw [sub_self, abs_zero] at this
  exact sub_eq_zero.1 (abs_eq_zero.1 (le_antisymm this (abs_nonneg _)))

lemma rnd_zero : A.rnd 0 = 0 := rnd_float A ⟨0, A.kmin, le_rfl, by simp, by simp⟩

lemma rnd_mono : Monotone A.rnd := by
  intro x y hxy
  rcases hxy.eq_or_lt with rfl | hxy
  · exact le_rfl
  by_contra hc
  rw [not_le] at hc
  have h1 := A.nearest x _ (A.float y)
  have h2 := A.nearest y _ (A.float x)
  set X := A.rnd x
  set Y := A.rnd y
  rcases abs_cases (X - x) with ⟨a1, b1⟩ | ⟨a1, b1⟩ <;> rcases abs_cases (Y - x) with ⟨a2, b2⟩ | ⟨a2, b2⟩ <;>
    rcases abs_cases (Y - y) with ⟨a3, b3⟩ | ⟨a3, b3⟩ <;> rcases abs_cases (X - y) with ⟨a4, b4⟩ | ⟨a4, b4⟩ <;>
    rw [a1, a2] at h1 <;> rw [a3, a4] at h2 <;> linarith

lemma float_int {p : ℕ} {kmin : ℤ} (hk : kmin ≤ 0) {n : ℤ} (hn : |n| ≤ 2 ^ p) : IsFloat p kmin n :=
  ⟨n, 0, hk, hn, by simp⟩

/-- Floating point numbers are multiples of the smallest spacing. -/
lemma float_multiple {p : ℕ} {kmin : ℤ} {x : ℝ} (h : IsFloat p kmin x) : ∃ n : ℤ, x = n * (2 : ℝ) ^ kmin := by
  obtain ⟨m, k, hk, -, rfl⟩ := h
  obtain ⟨j, hj⟩ := Int.eq_ofNat_of_zero_le (sub_nonneg.2 hk)
  refine ⟨m * 2 ^ j, ?_⟩
  rw [show k = j + kmin by omega, zpow_add₀ (by norm_num), zpow_natCast]
  push_cast
  ring

/-- Sums of floating point numbers do not underflow. -/
lemma rnd_add_err {x y : ℝ} (hx : IsFloat A.p A.kmin x) (hy : IsFloat A.p A.kmin y) :
    |A.rnd (x + y) - (x + y)| ≤ A.u * |x + y| := by
  obtain ⟨n, hn⟩ := float_multiple hx
  obtain ⟨n', hn'⟩ := float_multiple hy
  have h2 : (0 : ℝ) < (2 : ℝ) ^ A.kmin := by positivity
  have hs : x + y = ((n + n' : ℤ) : ℝ) * (2 : ℝ) ^ A.kmin := by rw [hn, hn']; push_cast; ring
  by_cases hsmall : |n + n'| ≤ 2 ^ A.p
  · rw [rnd_float A ⟨n + n', A.kmin, le_rfl, hsmall, hs⟩, sub_self, abs_zero]
    exact mul_nonneg (u_pos A).le (abs_nonneg _)
  · refine rnd_rel A ?_
    rw [hs, abs_mul, abs_of_pos h2]
    have h3 : (2 : ℝ) ^ A.p ≤ |((n + n' : ℤ) : ℝ)| := by
      have := (not_le.1 hsmall).le
      exact_mod_cast this
    unfold FloatArith.eta FloatArith.u
    have h4 : (1 : ℝ) ≤ (1 / 2) ^ A.p * |((n + n' : ℤ) : ℝ)| := by
      calc (1 : ℝ) = (1 / 2) ^ A.p * 2 ^ A.p := by rw [← mul_pow]; norm_num
        _ ≤ _ := mul_le_mul_of_nonneg_left h3 (by positivity)
    nlinarith

/-- There is a rounding to nearest for every number of digits and every smallest spacing. -/
lemma exists_arith (p : ℕ) (kmin : ℤ) : ∃ A : FloatArith, A.p = p ∧ A.kmin = kmin := by
  have h2 : (0 : ℝ) < (2 : ℝ) ^ kmin := by positivity
  have hex : ∀ x : ℝ, ∃ y, IsFloat p kmin y ∧ ∀ y', IsFloat p kmin y' → |y - x| ≤ |y' - x| := by
    intro x
    set T : Set ℤ := {n : ℤ | IsFloat p kmin (n * (2 : ℝ) ^ kmin)} with hT
    have hne : T.Nonempty := ⟨0, ⟨0, kmin, le_rfl, by simp, by simp⟩⟩
    -- compare with the multiples in a bounded range
    set B : ℕ := ⌈2 * |x| / (2 : ℝ) ^ kmin⌉₊ with hB
    have hfin : ({n : ℤ | n ∈ T ∧ |n| ≤ B}).Finite := by
      refine (Set.finite_Icc (-(B : ℤ)) B).subset fun n hn => ?_
      exact abs_le.1 hn.2
    have hne' : ({n : ℤ | n ∈ T ∧ |n| ≤ B}).Nonempty := ⟨0, ⟨0, kmin, le_rfl, by simp, by simp⟩, by simp⟩
    obtain ⟨n, hn, hmin⟩ := Set.exists_min_image _ (fun n : ℤ => |(n : ℝ) * (2 : ℝ) ^ kmin - x|) hfin hne'
    refine ⟨n * (2 : ℝ) ^ kmin, hn.1, fun y' hy' => ?_⟩
    obtain ⟨n', rfl⟩ := float_multiple hy'
    by_cases hb : |n'| ≤ B
    · exact hmin n' ⟨hy', hb⟩
    · have h0 := hmin 0 ⟨⟨0, kmin, le_rfl, by simp, by simp⟩, by simp⟩
      simp only [Int.cast_zero, zero_mul, zero_sub, abs_neg] at h0
      refine h0.trans ?_
      have h3 : 2 * |x| / (2 : ℝ) ^ kmin ≤ |(n' : ℝ)| := by
        refine (Nat.le_ceil _).trans ?_
        have := (not_le.1 hb).le
        rw [← hB]
        exact_mod_cast this
      rw [div_le_iff₀ h2] at h3
      have h4 := abs_sub_abs_le_abs_sub ((n' : ℝ) * (2 : ℝ) ^ kmin) x
      rw [abs_mul, abs_of_pos h2] at h4
      linarith
  choose f hf using hex
  exact ⟨⟨p, kmin, f, fun x => (hf x).1, fun x y hy => (hf x).2 y hy⟩, rfl, rfl⟩

/-- The neighbours of one. -/
lemma float_gt_one {p : ℕ} {kmin : ℤ} (hp : 1 ≤ p) {y : ℝ} (hy : IsFloat p kmin y) (h1 : 1 < y) : 1 + 2 * (1 / 2) ^ p ≤ y := by
  obtain ⟨m, k, -, hm, rfl⟩ := hy
  have hm' : |(m : ℝ)| ≤ 2 ^ p := by exact_mod_cast hm
  by_cases hk : k ≤ -(p : ℤ)
  · exfalso
    have h2 : (2 : ℝ) ^ k ≤ (2 : ℝ) ^ (-(p : ℤ)) := zpow_le_zpow_right₀ (by norm_num) hk
    have h3 : (m : ℝ) * (2 : ℝ) ^ k ≤ 2 ^ p * (2 : ℝ) ^ (-(p : ℤ)) :=
      mul_le_mul ((le_abs_self _).trans hm') h2 (by positivity) (by positivity)
    rw [zpow_neg, zpow_natCast, mul_inv_cancel₀ (by positivity)] at h3
    linarith
  · obtain ⟨j, hj⟩ := Int.eq_ofNat_of_zero_le (show 0 ≤ k - (1 - p) by omega)
    obtain ⟨q, rfl⟩ : ∃ q, p = q + 1 := ⟨p - 1, by omega⟩
    have hkj : k = j - q := by push_cast at hj; omega
    have h2q : (0 : ℝ) < 2 ^ q := by positivity
    have e1 : (m : ℝ) * (2 : ℝ) ^ k = ((m * 2 ^ j : ℤ) : ℝ) / 2 ^ q := by
      rw [hkj, zpow_sub₀ (by norm_num), zpow_natCast, zpow_natCast]
      push_cast
      ring
    rw [e1] at h1 ⊢
    rw [lt_div_iff₀ h2q, one_mul] at h1
    have h3 : (2 : ℤ) ^ q + 1 ≤ m * 2 ^ j := by
      have : ((2 ^ q : ℤ) : ℝ) < ((m * 2 ^ j : ℤ) : ℝ) := by push_cast at h1 ⊢; exact h1
      have : (2 : ℤ) ^ q < m * 2 ^ j := by exact_mod_cast this
      omega
    have h4 : (2 : ℝ) ^ q + 1 ≤ ((m * 2 ^ j : ℤ) : ℝ) := by exact_mod_cast h3
    rw [le_div_iff₀ h2q, pow_succ, add_mul, one_mul]
    have : 2 * ((1 / 2 : ℝ) ^ q * (1 / 2)) * 2 ^ q = 1 := by
      rw [show 2 * ((1 / 2 : ℝ) ^ q * (1 / 2)) * 2 ^ q = (1 / 2 : ℝ) ^ q * 2 ^ q by ring, ← mul_pow]
      norm_num
    linarith

lemma float_lt_one {p : ℕ} {kmin : ℤ} (hp : 1 ≤ p) {y : ℝ} (hy : IsFloat p kmin y) (h1 : y < 1) : y ≤ 1 - (1 / 2) ^ p := by
  obtain ⟨m, k, -, hm, rfl⟩ := hy
  have hm' : |m| ≤ 2 ^ p := hm
  have h2p : (0 : ℝ) < 2 ^ p := by positivity
  have e0 : (1 / 2 : ℝ) ^ p = 1 / 2 ^ p := by rw [div_pow, one_pow]
  by_cases hm0 : m ≤ 0
  · have : (m : ℝ) * (2 : ℝ) ^ k ≤ 0 := mul_nonpos_of_nonpos_of_nonneg (by exact_mod_cast hm0) (by positivity)
    have h2 : (1 / 2 : ℝ) ^ p ≤ 1 := pow_le_one₀ (by norm_num) (by norm_num)
    linarith
  rw [not_le] at hm0
  by_cases hk : k ≤ -(p : ℤ)
  · rcases (le_abs_self m |>.trans hm').eq_or_lt with h3 | h3
    · -- a power of two below one is at most one half
      by_cases hk' : k = -(p : ℤ)
      · exfalso
        rw [h3, hk', zpow_neg, zpow_natCast] at h1
        push_cast at h1
        rw [mul_inv_cancel₀ h2p.ne'] at h1
        exact lt_irrefl _ h1
      · have h4 : k ≤ -(p : ℤ) - 1 := by omega
        have h5 : (2 : ℝ) ^ k ≤ (2 : ℝ) ^ (-(p : ℤ) - 1) := zpow_le_zpow_right₀ (by norm_num) h4
        rw [h3]
        push_cast
        have h6 : (2 : ℝ) ^ p * (2 : ℝ) ^ k ≤ 1 / 2 := by
          calc (2 : ℝ) ^ p * (2 : ℝ) ^ k ≤ 2 ^ p * (2 : ℝ) ^ (-(p : ℤ) - 1) := mul_le_mul_of_nonneg_left h5 h2p.le
            _ = 1 / 2 := by
              rw [zpow_sub₀ (by norm_num), zpow_neg, zpow_natCast, zpow_one]
              field_simp
        have : (1 / 2 : ℝ) ^ p ≤ 1 / 2 := by
          calc (1 / 2 : ℝ) ^ p ≤ (1 / 2) ^ 1 := pow_le_pow_of_le_one (by norm_num) (by norm_num) hp
            _ = _ := by norm_num
        linarith
    · have h4 : (m : ℝ) ≤ 2 ^ p - 1 := by
        have : m ≤ 2 ^ p - 1 := by omega
        exact_mod_cast this
      have h5 : (2 : ℝ) ^ k ≤ (2 : ℝ) ^ (-(p : ℤ)) := zpow_le_zpow_right₀ (by norm_num) hk
      rw [zpow_neg, zpow_natCast] at h5
      have hm1 : (0 : ℝ) < m := by exact_mod_cast hm0
      calc (m : ℝ) * (2 : ℝ) ^ k ≤ (2 ^ p - 1) * (2 ^ p)⁻¹ := mul_le_mul h4 h5 (by positivity) (by linarith)
        _ = _ := by rw [e0]; field_simp
  · -- then it is a multiple of the spacing below one
    obtain ⟨j, hj⟩ := Int.eq_ofNat_of_zero_le (show 0 ≤ k + p by omega)
    have e1 : (m : ℝ) * (2 : ℝ) ^ k = ((m * 2 ^ j : ℤ) : ℝ) / 2 ^ p := by
      rw [show k = j - p by omega, zpow_sub₀ (by norm_num), zpow_natCast, zpow_natCast]
      push_cast
      ring
    rw [e1] at h1 ⊢
    rw [div_lt_iff₀ h2p, one_mul] at h1
    have h3 : m * 2 ^ j < 2 ^ p := by
      have : ((m * 2 ^ j : ℤ) : ℝ) < ((2 ^ p : ℤ) : ℝ) := by push_cast at h1 ⊢; exact h1
      exact_mod_cast this
    have h4 : ((m * 2 ^ j : ℤ) : ℝ) ≤ 2 ^ p - 1 := by
      have : m * 2 ^ j ≤ 2 ^ p - 1 := by omega
      exact_mod_cast this
    rw [div_le_iff₀ h2p, sub_mul, one_mul, e0]
    have : 1 / (2 : ℝ) ^ p * 2 ^ p = 1 := by field_simp
    linarith

lemma rnd_one (hp : A.kmin ≤ 0) : A.rnd 1 = 1 := by
  have := rnd_float A (float_int (p := A.p) hp (n := 1) (by rw [abs_one]; exact one_le_pow₀ (by norm_num)))
  simpa using this

/-- Numbers close to one are rounded to one. -/
lemma rnd_eq_one (hp : 1 ≤ A.p) (hk : A.kmin ≤ 0) {x : ℝ} (h1 : 1 - A.u / 2 < x) (h2 : x < 1 + A.u) : A.rnd x = 1 := by
  have hf := A.float x
  have hn := A.nearest x 1 (by
    have := float_int (p := A.p) (kmin := A.kmin) hk (n := 1) (by rw [abs_one]; exact one_le_pow₀ (by norm_num))
    simpa using this)
  have hu := u_pos A
  rcases lt_trichotomy (A.rnd x) 1 with h | h | h
  · have h3 := float_lt_one hp hf h
    rw [show (1 / 2 : ℝ) ^ A.p = A.u from rfl] at h3
    exfalso
    rw [abs_of_neg (by linarith)] at hn
    rcases abs_cases (1 - x) with ⟨ha, -⟩ | ⟨ha, -⟩ <;> rw [ha] at hn <;> linarith
  · exact h
  · have h3 := float_gt_one hp hf h
    rw [show (1 / 2 : ℝ) ^ A.p = A.u from rfl] at h3
    exfalso
    rw [abs_of_pos (by linarith)] at hn
    rcases abs_cases (1 - x) with ⟨ha, -⟩ | ⟨ha, -⟩ <;> rw [ha] at hn <;> linarith

end Gftool.Lemmas
