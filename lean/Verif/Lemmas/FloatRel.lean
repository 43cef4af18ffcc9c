import Verif.Lemmas.Float

/-!
# Relative errors
-/

namespace Gftool.Lemmas

open Gftool.Spec

lemma rel_trans {a b x y z : ℝ} (hb : 0 ≤ b) (h1 : |y - x| ≤ a * |x|) (h2 : |z - y| ≤ b * |y|) :
    |z - x| ≤ ((1 + a) * (1 + b) - 1) * |x| := by
  have h3 : |y| ≤ (1 + a) * |x| := by
    have := abs_sub_abs_le_abs_sub y x
    linarith
  calc |z - x| ≤ |z - y| + |y - x| := abs_sub_le _ _ _
    _ ≤ b * ((1 + a) * |x|) + a * |x| := add_le_add (h2.trans (mul_le_mul_of_nonneg_left h3 hb)) h1
    _ = _ := by ring

lemma rel_mul {a b x y x' y' : ℝ} (hb : 0 ≤ b) (h1 : |x' - x| ≤ a * |x|) (h2 : |y' - y| ≤ b * |y|) :
    |x' * y' - x * y| ≤ ((1 + a) * (1 + b) - 1) * |x * y| := by
  refine rel_trans (y := x' * y) hb ?_ ?_
  · rw [← sub_mul, abs_mul, abs_mul, ← mul_assoc]
    exact mul_le_mul_of_nonneg_right h1 (abs_nonneg _)
  · rw [← mul_sub, abs_mul, abs_mul, mul_left_comm]
    exact mul_le_mul_of_nonneg_left h2 (abs_nonneg _)

lemma rel_inv {a x y : ℝ} (ha : a < 1) (hx : x ≠ 0) (h : |y - x| ≤ a * |x|) : |1 / y - 1 / x| ≤ a / (1 - a) * |1 / x| := by
  have hx0 : 0 < |x| := abs_pos.2 hx
  have hy : (1 - a) * |x| ≤ |y| := by
    have h1 := abs_sub_abs_le_abs_sub x y
    rw [abs_sub_comm] at h1
    linarith
  have hy0 : 0 < |y| := lt_of_lt_of_le (mul_pos (by linarith) hx0) hy
  have hyne : y ≠ 0 := abs_pos.1 hy0
  have e : 1 / y - 1 / x = (x - y) / y * (1 / x) := by field_simp
  rw [e, abs_mul]
  refine mul_le_mul_of_nonneg_right ?_ (abs_nonneg _)
  rw [abs_div, abs_sub_comm, div_le_div_iff₀ hy0 (by linarith)]
  have ha0 : 0 ≤ a := by
    by_contra hc
    rw [not_le] at hc
    have := abs_nonneg (y - x)
    nlinarith
  calc |y - x| * (1 - a) ≤ a * |x| * (1 - a) := mul_le_mul_of_nonneg_right h (by linarith)
    _ = a * ((1 - a) * |x|) := by ring
    _ ≤ a * |y| := mul_le_mul_of_nonneg_left hy ha0

variable (A : FloatArith)

lemma rel_rnd {a x y : ℝ} (h1 : |y - x| ≤ a * |x|) (h : A.eta ≤ A.u * |y|) :
    |A.rnd y - x| ≤ ((1 + a) * (1 + A.u) - 1) * |x| :=
  rel_trans (u_pos A).le h1 (rnd_rel A h)

/-- With underflow. -/
lemma rel_rnd' {a x y : ℝ} (h1 : |y - x| ≤ a * |x|) :
    |A.rnd y - x| ≤ ((1 + a) * (1 + A.u) - 1) * |x| + A.eta := by
  have h3 : |y| ≤ (1 + a) * |x| := by
    have := abs_sub_abs_le_abs_sub y x
    linarith
  have h2 := rnd_err' A y
  have hu := u_pos A
  calc |A.rnd y - x| ≤ |A.rnd y - y| + |y - x| := abs_sub_le _ _ _
    _ ≤ (A.u * ((1 + a) * |x|) + A.eta) + a * |x| := add_le_add (h2.trans (by gcongr)) h1
    _ = _ := by ring

lemma rnd_nonneg {x : ℝ} (h : 0 ≤ x) : 0 ≤ A.rnd x := by
  have := rnd_mono A h
  rwa [rnd_zero] at this

lemma rnd_nonpos {x : ℝ} (h : x ≤ 0) : A.rnd x ≤ 0 := by
  have := rnd_mono A h
  rwa [rnd_zero] at this

end Gftool.Lemmas
