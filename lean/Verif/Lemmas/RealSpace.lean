import Verif.Spec.RealSpace
import Mathlib.Topology.Algebra.InfiniteSum.Real
import Mathlib.Analysis.Normed.Group.InfiniteSum
import Mathlib.Topology.Algebra.InfiniteSum.Constructions
import Mathlib.Analysis.SpecificLimits.Normed

/-!
# Hopping Hamiltonians are symmetric; uniqueness of the resolvent
-/

namespace Gftool.Lemmas

open Gftool.Spec

/-- Symmetric hopping with bounded amplitudes and numbers of neighbours. -/
structure HopOk {V : Type*} (H : Hopping V) : Prop where
  nb : ∀ v w, w ∈ H.nb v → v ∈ H.nb w
  amp : ∀ v w, H.amp v w = H.amp w v
  bound : ∃ C : ℝ, ∀ v w, |H.amp v w| ≤ C
  card : ∃ N : ℕ, ∀ v, (H.nb v).card ≤ N

section

variable {V : Type*} [DecidableEq V] {H : Hopping V}

private lemma sum_nb (H : Hopping V) (v : V) (f : V → ℂ) :
    Summable (fun w => if w ∈ H.nb v then f w else 0) ∧
    ∑' w, (if w ∈ H.nb v then f w else 0) = ∑ w ∈ H.nb v, f w := by
  have h : ∀ w ∉ H.nb v, (if w ∈ H.nb v then f w else 0) = 0 := fun w hw => if_neg hw
  refine ⟨summable_of_ne_finset_zero h, ?_⟩
  rw [tsum_eq_sum h]
  exact Finset.sum_congr rfl fun w hw => if_pos hw

private lemma sum_nb_real (H : Hopping V) (v : V) (f : V → ℝ) :
    Summable (fun w => if w ∈ H.nb v then f w else 0) ∧
    ∑' w, (if w ∈ H.nb v then f w else 0) = ∑ w ∈ H.nb v, f w := by
  have h : ∀ w ∉ H.nb v, (if w ∈ H.nb v then f w else 0) = 0 := fun w hw => if_neg hw
  refine ⟨summable_of_ne_finset_zero h, ?_⟩
  rw [tsum_eq_sum h]
  exact Finset.sum_congr rfl fun w hw => if_pos hw

private lemma summable_left (h : HopOk H) {φ : V → ℂ} (hφ : Summable fun v => ‖φ v‖ ^ 2) :
    Summable fun p : V × V => if p.2 ∈ H.nb p.1 then ‖φ p.1‖ ^ 2 else 0 := by
  obtain ⟨N, hN⟩ := h.card
  rw [summable_prod_of_nonneg (fun p => by simp only [Pi.zero_apply]; split_ifs <;> positivity)]
  refine ⟨fun v => (sum_nb_real H v fun _ => ‖φ v‖ ^ 2).1, ?_⟩
  refine Summable.of_nonneg_of_le (fun v => tsum_nonneg fun w => by split_ifs <;> positivity) (fun v => ?_) (hφ.mul_left (N : ℝ))
  rw [(sum_nb_real H v fun _ => ‖φ v‖ ^ 2).2, Finset.sum_const, nsmul_eq_mul]
  exact mul_le_mul_of_nonneg_right (by exact_mod_cast hN v) (by positivity)

private lemma summable_pair (h : HopOk H) {φ ψ : V → ℂ} (hφ : Summable fun v => ‖φ v‖ ^ 2)
    (hψ : Summable fun v => ‖ψ v‖ ^ 2) :
    Summable fun p : V × V => if p.2 ∈ H.nb p.1 then φ p.1 * (H.amp p.1 p.2 * ψ p.2) else 0 := by
  obtain ⟨C, hC⟩ := h.bound
  have h1 := summable_left h hφ
  have h2 : Summable fun p : V × V => if p.2 ∈ H.nb p.1 then ‖ψ p.2‖ ^ 2 else 0 := by
    have := (summable_left h hψ).comp_injective (Equiv.prodComm V V).injective
    refine this.congr fun p => ?_
    simp only [Function.comp, Equiv.prodComm_apply, Prod.fst_swap, Prod.snd_swap]
    exact if_congr ⟨h.nb _ _, h.nb _ _⟩ rfl rfl
  refine Summable.of_norm_bounded ((h1.add h2).mul_left C) fun p => ?_
  split_ifs with hp
  · have hc := hC p.1 p.2
    rw [norm_mul, norm_mul, Complex.norm_real, Real.norm_eq_abs]
    have h3 := two_mul_le_add_sq ‖φ p.1‖ ‖ψ p.2‖
    have h4 : 0 ≤ ‖φ p.1‖ * ‖ψ p.2‖ := by positivity
    have h5 : |H.amp p.1 p.2| * (‖φ p.1‖ * ‖ψ p.2‖) ≤ C * (‖φ p.1‖ * ‖ψ p.2‖) := mul_le_mul_of_nonneg_right hc h4
    have hC0 : 0 ≤ C := (abs_nonneg _).trans hc
    have h6 := mul_le_mul_of_nonneg_left (show ‖φ p.1‖ * ‖ψ p.2‖ ≤ ‖φ p.1‖ ^ 2 + ‖ψ p.2‖ ^ 2 by linarith) hC0
    linarith [mul_left_comm ‖φ p.1‖ |H.amp p.1 p.2| ‖ψ p.2‖]
  · simp

/-- The Hamiltonian is symmetric. -/
lemma ham_symm (h : HopOk H) {φ ψ : V → ℂ} (hφ : Summable fun v => ‖φ v‖ ^ 2) (hψ : Summable fun v => ‖ψ v‖ ^ 2) :
    Summable (fun v => φ v * H.ham ψ v) ∧ ∑' v, φ v * H.ham ψ v = ∑' v, ψ v * H.ham φ v := by
  have key : ∀ {φ ψ : V → ℂ}, (Summable fun v => ‖φ v‖ ^ 2) → (Summable fun v => ‖ψ v‖ ^ 2) →
      Summable (fun v => φ v * H.ham ψ v) ∧ ∑' v, φ v * H.ham ψ v =
      ∑' p : V × V, if p.2 ∈ H.nb p.1 then φ p.1 * (H.amp p.1 p.2 * ψ p.2) else 0 := by
    intro φ ψ hφ hψ
    have hs := summable_pair h hφ hψ
    have e : ∀ v, ∑' w, (if w ∈ H.nb v then φ v * (H.amp v w * ψ w) else 0) = φ v * H.ham ψ v := fun v => by
      rw [(sum_nb H v fun w => φ v * (H.amp v w * ψ w)).2, Hopping.ham, Finset.mul_sum]
    refine ⟨?_, ?_⟩
    · exact hs.prod.congr e
    · rw [hs.tsum_prod]
      exact (tsum_congr e).symm
  refine ⟨(key hφ hψ).1, ?_⟩
  rw [(key hφ hψ).2, (key hψ hφ).2, ← (Equiv.prodComm V V).tsum_eq]
  refine tsum_congr fun p => ?_
  obtain ⟨v, w⟩ := p
  change (if v ∈ H.nb w then φ w * (H.amp w v * ψ v) else 0) = _
  by_cases hv : v ∈ H.nb w
  · have hw := h.nb _ _ hv
    rw [if_pos hv, if_pos hw, h.amp w v]
    ring
  · have hw : w ∉ H.nb v := fun hw => hv (h.nb _ _ hw)
    rw [if_neg hv, if_neg hw]

omit [DecidableEq V] in
lemma summable_mul_sq {φ ψ : V → ℂ} (hφ : Summable fun v => ‖φ v‖ ^ 2) (hψ : Summable fun v => ‖ψ v‖ ^ 2) :
    Summable fun v => φ v * ψ v := by
  refine Summable.of_norm_bounded (hφ.add hψ) fun v => ?_
  rw [norm_mul]
  nlinarith [two_mul_le_add_sq ‖φ v‖ ‖ψ v‖, mul_nonneg (norm_nonneg (φ v)) (norm_nonneg (ψ v))]

/-- If the equation has a solution for every source, the solution is unique. -/
lemma localGreen_of (h : HopOk H) {z : ℂ} (hex : ∀ r, ∃ ψ, IsResolvent H r z ψ) {r : V} {ψ : V → ℂ}
    (hψ : IsResolvent H r z ψ) : LocalGreen H r z (ψ r) := by
  refine ⟨ψ, hψ, rfl, fun φ hφ => ?_⟩
  funext u
  obtain ⟨g, hg⟩ := hex u
  have key : ∀ {φ : V → ℂ}, IsResolvent H r z φ → φ u = g r := by
    intro φ hφ
    have e1 : ∑' v, φ v * (z * g v - H.ham g v) = φ u := by
      rw [tsum_congr fun v => by rw [hg.eq v], tsum_eq_single u]
      · simp
      · intro v hv
        simp [hv]
    have e2 : ∑' v, g v * (z * φ v - H.ham φ v) = g r := by
      rw [tsum_congr fun v => by rw [hφ.eq v], tsum_eq_single r]
      · simp
      · intro v hv
        simp [hv]
    have s1 := (summable_mul_sq hφ.summable hg.summable).mul_left z
    rw [← e1, ← e2]
    have e3 : ∀ v, φ v * (z * g v - H.ham g v) = z * (φ v * g v) - φ v * H.ham g v := fun v => by ring
    have e4 : ∀ v, g v * (z * φ v - H.ham φ v) = z * (φ v * g v) - g v * H.ham φ v := fun v => by ring
    rw [tsum_congr e3, tsum_congr e4, s1.tsum_sub (ham_symm h hφ.summable hg.summable).1,
      s1.tsum_sub (ham_symm h hg.summable hφ.summable).1, (ham_symm h hφ.summable hg.summable).2]
  rw [key hφ, key hψ]

end

end Gftool.Lemmas
