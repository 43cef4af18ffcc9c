import Verif.Model.Float
import Verif.Lemmas.FloatDos

/-!
# Property C84: rounding errors of the density of states of the Bethe lattice
-/

namespace Gftool.Props

open Gftool Model Lemmas Spec

variable {A : FloatArith}

/-- C84: the density of states of the Bethe lattice has an absolute error of the order of the square root of the unit
roundoff at all energies, inside and outside of the band and at its edges. -/
theorem bethe_dos_rounding (hp : A.kmin ≤ 0) (hu : A.u ≤ 1 / 16) (he : A.eta ≤ A.u) {κ : ℝ} (hκ : 0 ≤ κ)
    (hκu : (κ + 1) * A.u ≤ 1) {sqrt : ℝ → ℝ} (hs : Accurate A κ Real.sqrt sqrt (Set.Ici 0)) {D : ℝ} (hD : 0 < D)
    (h1 : A.eta ≤ A.u * D) (h2 : A.eta * (8 * D) ≤ A.u) (eps : ℝ) :
    |betheDosFl A sqrt eps D - betheDos eps D| ≤
      2 / (Real.pi * D) * (√(11 * A.u) + (κ + 13) * A.u) + A.eta := by
  refine bethe_dos_core hp hu he hκ hκu hs hD h1 h2 eps _ fun w hw h => ?_
  refine Real.le_sqrt_of_sq_le (le_trans ?_ h)
  set v := max 0 (1 - (eps / D) ^ 2) with hv
  have hv0 : 0 ≤ v := le_max_left _ _
  have e1 := Real.sq_sqrt hw
  have e2 := Real.sq_sqrt hv0
  have a := Real.sqrt_nonneg w
  have b := Real.sqrt_nonneg v
  rw [show w - v = (√w - √v) * (√w + √v) by nlinarith, abs_mul, abs_of_nonneg (add_nonneg a b), sq]
  refine mul_le_mul_of_nonneg_left ?_ (abs_nonneg _)
  rw [abs_le]
  constructor <;> linarith

/-- C84: inside of the band the error is of the order of the unit roundoff, divided by the distance to the edges. -/
theorem bethe_dos_rounding_inside (hp : A.kmin ≤ 0) (hu : A.u ≤ 1 / 16) (he : A.eta ≤ A.u) {κ : ℝ} (hκ : 0 ≤ κ)
    (hκu : (κ + 1) * A.u ≤ 1) {sqrt : ℝ → ℝ} (hs : Accurate A κ Real.sqrt sqrt (Set.Ici 0)) {D : ℝ} (hD : 0 < D)
    (h1 : A.eta ≤ A.u * D) (h2 : A.eta * (8 * D) ≤ A.u) (eps : ℝ) (hin : |eps| < D) :
    |betheDosFl A sqrt eps D - betheDos eps D| ≤
      2 / (Real.pi * D) * (11 * A.u / √(1 - (eps / D) ^ 2) + (κ + 13) * A.u) + A.eta := by
  have hx : (eps / D) ^ 2 < 1 := by
    rw [sq_lt_one_iff_abs_lt_one, abs_div, abs_of_pos hD, div_lt_one hD]
    exact hin
  refine bethe_dos_core hp hu he hκ hκu hs hD h1 h2 eps _ fun w hw h => ?_
  rw [max_eq_right (by linarith)] at h ⊢
  set v := 1 - (eps / D) ^ 2 with hv
  have hv0 : 0 < v := by linarith
  have b := Real.sqrt_pos.2 hv0
  have a := Real.sqrt_nonneg w
  have e1 := Real.sq_sqrt hw
  have e2 := Real.sq_sqrt hv0.le
  rw [le_div_iff₀ b]
  refine le_trans ?_ h
  rw [show w - v = (√w - √v) * (√w + √v) by nlinarith, abs_mul, abs_of_nonneg (add_nonneg a b.le)]
  exact mul_le_mul_of_nonneg_left (by linarith) (abs_nonneg _)

/-- C84: inside of the band of the one-dimensional lattice, at least eleven units roundoff away from its edges, the density
of states has a relative error of the order of the unit roundoff divided by the distance to the edges. -/
theorem onedim_dos_rounding (hp : A.kmin ≤ 0) (hu : A.u ≤ 1 / 16) (he : A.eta ≤ A.u ^ 2) {κ : ℝ} (hκ : 0 ≤ κ)
    (hκu : (κ + 1) * A.u ≤ 1 / 8) {sqrt : ℝ → ℝ} (hs : Accurate A κ Real.sqrt sqrt (Set.Ici 0)) {D : ℝ} (hD : 0 < D)
    (h1 : A.eta ≤ A.u * D) (h2 : A.eta * (16 * D) ≤ A.u) (eps : ℝ) (hin : 22 * A.u ≤ 1 - (eps / D) ^ 2) :
    |onedimDosFl A sqrt eps D - onedimDos eps D| ≤
      onedimDos eps D * ((44 / (1 - (eps / D) ^ 2) + 6 * κ + 24) * A.u) + A.eta := by
  have hu0 := u_pos A
  have he' : A.eta ≤ A.u := by nlinarith
  set x := eps / D with hx
  obtain ⟨k1, k2⟩ := dos_radicand A hp hu he' x
  have hq : |A.rnd x| < 1 := by
    by_contra h
    have := k2 h
    linarith
  have hx1 : |x| ≤ 1 := by
    rw [← sq_le_one_iff_abs_le_one]
    linarith
  obtain ⟨w0, w1, w2⟩ := k1 hq
  have hfl : onedimDosFl A sqrt eps D =
      A.rnd (A.rnd (1 / A.rnd (A.rnd Real.pi * D)) / sqrt (A.rnd (1 - A.rnd (A.rnd x ^ 2)))) := by
    unfold onedimDosFl
    simp only
    rw [← hx, if_pos hq.le]
  set w := A.rnd (1 - A.rnd (A.rnd x ^ 2)) with hw
  set v := 1 - x ^ 2 with hv
  have hv0 : 0 < v := by linarith
  have hdos : onedimDos eps D = 1 / (Real.pi * D) / √v := by
    unfold onedimDos
    simp only
    rw [← hx, if_pos hx1]
  have hwl : 11 * A.u ≤ w := by
    have := (abs_le.1 w2).1
    linarith
  have hsw : w ≤ √w := Real.le_sqrt_of_sq_le (by nlinarith)
  have hη : A.eta ≤ A.u * √w := by nlinarith
  have hss := hs w w0
  rw [abs_of_nonneg (Real.sqrt_nonneg w)] at hss
  have ha : 11 * A.u / v ≤ 1 / 2 := by
    rw [div_le_iff₀ hv0]
    linarith
  have h3 := sqrt_combine (s := sqrt w) (a := 11 * A.u / v) hv0 w0 ha (by rwa [div_mul_cancel₀ _ hv0.ne']) hκ hu0 hη hss rfl
  have hc0 : 0 < 1 / (Real.pi * D) := by have := Real.pi_pos; positivity
  have h4 := quot_combine hc0 (Real.sqrt_pos.2 hv0) hu0 hu (by linarith)
    (dos_prefactor A hu he' hD h1 one_pos (by linarith)) h3 _ (rnd_err' A _)
  rw [hfl, hdos]
  refine h4.trans (le_of_eq ?_)
  ring

/-- C84: outside of the bands, three units roundoff away from the edges, the computed densities of states vanish exactly. -/
theorem dos_rounding_outside (hu : A.u ≤ 1 / 16) (he : A.eta ≤ A.u ^ 2) (sqrt : ℝ → ℝ) (eps D : ℝ)
    (hout : 1 + 3 * A.u ≤ |eps / D|) : betheDosFl A sqrt eps D = 0 ∧ onedimDosFl A sqrt eps D = 0 := by
  have hu0 := u_pos A
  have h : 1 < |A.rnd (eps / D)| := by
    have e1 := rnd_err' A (eps / D)
    have e2 := abs_sub_abs_le_abs_sub (eps / D) (A.rnd (eps / D))
    rw [abs_sub_comm] at e2
    nlinarith
  exact ⟨if_neg (not_lt.2 h.le), if_neg (not_le.2 h)⟩

-- doubles, exactly rounded square root, half-bandwidth one, at the centre of the band
example : ∃ A : FloatArith, A.p = 53 ∧ A.kmin = -1074 ∧
    |betheDosFl A (fun x => A.rnd (√x)) 0 1 - 2 / Real.pi| ≤ 2 / Real.pi * (25 * A.u) + A.eta := by
  obtain ⟨A, hp, hk⟩ := exists_arith 53 (-1074)
  have hu : A.u = (1 / 2) ^ 53 := by
    unfold FloatArith.u
    rw [hp]
  have he : A.eta ≤ A.u / 8 := by
    rw [hu]
    unfold FloatArith.eta
    rw [hk, show (-1074 : ℤ) = -((1074 : ℕ) : ℤ) by norm_num, zpow_neg, zpow_natCast, ← inv_pow]
    have : ((2 : ℝ)⁻¹) ^ 1074 ≤ (2⁻¹) ^ 60 := pow_le_pow_of_le_one (by norm_num) (by norm_num) (by norm_num)
    have h0 : ((2 : ℝ)⁻¹) ^ 60 ≤ (1 / 2) ^ 53 / 8 := by norm_num
    have h1 : (0 : ℝ) ≤ (2⁻¹) ^ 1074 := by positivity
    generalize ((2 : ℝ)⁻¹) ^ 1074 = y at this h1 ⊢
    generalize ((2 : ℝ)⁻¹) ^ 60 = z at this h0
    linarith
  have hu16 : A.u ≤ 1 / 16 := by
    rw [hu]
    norm_num
  have hu0 := u_pos A
  refine ⟨A, hp, hk, ?_⟩
  have h := bethe_dos_rounding_inside (A := A) (κ := 1) (by rw [hk]; norm_num) hu16 (by linarith) zero_le_one (by linarith)
    (sqrt := fun x => A.rnd (√x)) (fun x _ => by rw [one_mul]; exact rnd_err' A _) one_pos (by linarith) (by linarith) 0
    (by simp)
  have hd : betheDos 0 1 = 2 / Real.pi := by
    unfold betheDos
    simp
  rw [hd] at h
  refine h.trans (le_of_eq ?_)
  norm_num
  ring

-- doubles, exactly rounded square root, half-bandwidth one, one-dimensional lattice
example : ∃ A : FloatArith, A.p = 53 ∧ A.kmin = -1074 ∧
    |onedimDosFl A (fun x => A.rnd (√x)) 0 1 - 1 / Real.pi| ≤ 1 / Real.pi * (74 * A.u) + A.eta := by
  obtain ⟨A, hp, hk⟩ := exists_arith 53 (-1074)
  have hu : A.u = (1 / 2) ^ 53 := by
    unfold FloatArith.u
    rw [hp]
  have he : A.eta ≤ A.u ^ 2 := by
    rw [hu, ← pow_mul]
    unfold FloatArith.eta
    rw [hk, show (-1074 : ℤ) = -((1074 : ℕ) : ℤ) by norm_num, zpow_neg, zpow_natCast, ← inv_pow, one_div]
    have : ((2 : ℝ)⁻¹) ^ 1074 ≤ (2⁻¹) ^ (53 * 2) := pow_le_pow_of_le_one (by norm_num) (by norm_num) (by norm_num)
    have h1 : (0 : ℝ) ≤ (2⁻¹) ^ 1074 := by positivity
    generalize ((2 : ℝ)⁻¹) ^ 1074 = y at this h1 ⊢
    generalize ((2 : ℝ)⁻¹) ^ (53 * 2) = z at this ⊢
    linarith
  have hu32 : A.u ≤ 1 / 32 := by
    rw [hu]
    norm_num
  have hu0 := u_pos A
  refine ⟨A, hp, hk, ?_⟩
  have hd : onedimDos 0 1 = 1 / Real.pi := by
    unfold onedimDos
    simp
  have h := onedim_dos_rounding (A := A) (κ := 1) (by rw [hk]; norm_num) (by linarith) he zero_le_one (by linarith)
    (sqrt := fun x => A.rnd (√x)) (fun x _ => by rw [one_mul]; exact rnd_err' A _) one_pos (by nlinarith) (by nlinarith) 0
    (by norm_num; linarith)
  rw [hd] at h
  refine h.trans (le_of_eq ?_)
  norm_num

end Gftool.Props
