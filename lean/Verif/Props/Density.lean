import Verif.Model.Density
import Verif.Lemmas.Matsubara
import Verif.Props.Statistics
import Verif.Props.PoleFit
import Mathlib.Tactic

/-!
# Properties C26 and C27: density and chemical potential
-/

namespace Gftool.Props

open Gftool Model Lemmas Filter Topology

/-! ## C26 -/

/-- Specification: the real part of a pole Green's function with real poles and residues. -/
noncomputable def rePole {n : ℕ} (g : PoleFct ℝ n) (z : ℂ) : ℝ :=
  (∑ j, (g.residues j : ℂ) / (z - g.poles j)).re

/-- C26: without fit, `density_iw` never raises and is the exact occupation of the function
fitted to the moments plus the weighted sum of the difference to this function. -/
theorem density_iw_eq (ext : LinalgExt ℝ) {k l : ℕ} (iws gf : Fin k → ℂ) (beta : ℝ)
    (weights : Fin k → ℝ) (moments : Fin l → ℝ) :
    ∃ g : PoleFct ℝ l, gfFromMoments moments none = .ok g ∧
      (∀ m : Fin l, ∑ j, g.residues j * g.poles j ^ (m : ℕ) = moments m) ∧
      densityIw ext iws gf beta weights moments 0 = .ok
        (2 / beta * (∑ i, weights i * ((gf i).re - rePole g (iws i)))
          + ∑ j, g.residues j * Spec.fermi beta (g.poles j)) := by
  obtain ⟨g, hg, -, -, hm⟩ := gf_from_moments_correct moments none (Or.inl (by simp))
  refine ⟨g, hg, fun m => ?_, ?_⟩
  · rw [← hm m]
    simp [poleMoments, RCLike.ofReal_real_eq_id]
  · simp only [densityIw, ne_eq, not_true_eq_false, if_false, hg]
    simp only [poleGfZ, poleOcc, rePole, fermi_fct_eq]

/-- C26: exactness for the part carried by the moments, with and without fitted moments: if
the Green's function coincides on the frequencies with the fitted pole function, the result is
the exact occupation of the latter. -/
theorem density_iw_exact (ext : LinalgExt ℝ) {k l : ℕ} (iws gf : Fin k → ℂ) (beta : ℝ)
    (weights : Fin k → ℝ) (moments : Fin l → ℝ) (nFit : ℕ) {n : ℕ} (g : PoleFct ℝ n)
    (hg : (nFit = 0 ∧ ∃ h : l = n, gfFromMoments moments none = .ok (h ▸ g)) ∨
      (nFit ≠ 0 ∧ ∃ h : nFit + l = n, gfFromZ ext iws gf (nFit + l) moments none
        (some fun i => (iws i).im ^ (l + nFit)) = .ok (h ▸ g)))
    (hgf : ∀ i, (gf i).re = rePole g (iws i)) :
    densityIw ext iws gf beta weights moments nFit
      = .ok (∑ j, g.residues j * Spec.fermi beta (g.poles j)) := by
  rcases hg with ⟨h0, h, hg⟩ | ⟨h0, h, hg⟩
  · subst h
    simp only [densityIw, h0, ne_eq, not_true_eq_false, if_false, hg]
    simp only [poleGfZ, poleOcc, fermi_fct_eq, hgf, rePole, sub_self, mul_zero,
      Finset.sum_const_zero, zero_add]
  · subst h
    simp only [densityIw, ne_eq, if_pos h0, hg]
    simp only [poleGfZ, poleOcc, fermi_fct_eq, hgf, rePole, sub_self, mul_zero,
      Finset.sum_const_zero, zero_add]

/-- C26: the result is affine in the data. -/
theorem density_iw_affine (ext : LinalgExt ℝ) {k l : ℕ} (iws gf delta : Fin k → ℂ) (beta : ℝ)
    (weights : Fin k → ℝ) (moments : Fin l → ℝ) :
    ∃ n : ℝ, densityIw ext iws gf beta weights moments 0 = .ok n ∧
      densityIw ext iws (fun i => gf i + delta i) beta weights moments 0
        = .ok (n + 2 / beta * ∑ i, weights i * (delta i).re) := by
  obtain ⟨g, hg, -, h1⟩ := density_iw_eq ext iws gf beta weights moments
  obtain ⟨g', hg', -, h2⟩ := density_iw_eq ext iws (fun i => gf i + delta i) beta weights moments
  have : g' = g := by rw [hg] at hg'; exact (Except.ok.inj hg').symm
  subst this
  refine ⟨_, h1, ?_⟩
  rw [h2]
  congr 1
  have : ∑ i, weights i * ((gf i + delta i).re - rePole g' (iws i))
      = ∑ i, weights i * ((gf i).re - rePole g' (iws i)) + ∑ i, weights i * (delta i).re := by
    rw [← Finset.sum_add_distrib]
    refine Finset.sum_congr rfl fun i _ => ?_
    rw [Complex.add_re]; ring
  rw [this]
  ring

/-- The sum over the Matsubara frequencies of a pole Green's function. -/
private lemma hasSum_rePole {beta : ℝ} (hb : 0 < beta) {n : ℕ} (g : PoleFct ℝ n) :
    HasSum (fun m : ℕ => 2 / beta * rePole g (matsubaraFrequencies m beta))
      (∑ j, g.residues j * (Spec.fermi beta (g.poles j) - 1 / 2)) := by
  have h : HasSum (fun m : ℕ => ∑ j, g.residues j
      * (2 / beta * (1 / (matsubaraFrequencies m beta - g.poles j) : ℂ).re))
      (∑ j, g.residues j * (Spec.fermi beta (g.poles j) - 1 / 2)) :=
    hasSum_sum fun j _ => (hasSum_matsubara hb (g.poles j)).mul_left (g.residues j)
  have hfun : (fun m : ℕ => 2 / beta * rePole g (matsubaraFrequencies m beta))
      = fun m : ℕ => ∑ j, g.residues j
        * (2 / beta * (1 / (matsubaraFrequencies m beta - g.poles j) : ℂ).re) := by
    funext m
    rw [rePole, Complex.re_sum, Finset.mul_sum]
    refine Finset.sum_congr rfl fun j _ => ?_
    rw [div_eq_mul_one_div (g.residues j : ℂ), Complex.re_ofReal_mul]
    ring
  rw [hfun]
  exact h

/-- C26: the Matsubara sum converges to the exact occupation: for every Green's function with
finitely many real poles, if at least the first moment is given and correct, the result for
the first `N` Matsubara frequencies tends to the occupation `∑ w f(ε)` as `N → ∞`. -/
theorem density_iw_tendsto (ext : LinalgExt ℝ) {beta : ℝ} (hb : 0 < beta) {n l : ℕ}
    (gf : PoleFct ℝ n) (moments : Fin (l + 1) → ℝ) (hm : moments 0 = ∑ j, gf.residues j) :
    ∃ d : ℕ → ℝ,
      (∀ N, densityIw ext (fun i : Fin N => matsubaraFrequencies (i : ℕ) beta)
        (fun i => ∑ j, (gf.residues j : ℂ) / (matsubaraFrequencies (i : ℕ) beta - gf.poles j))
        beta (fun _ => 1) moments 0 = .ok (d N)) ∧
      Tendsto d atTop (𝓝 (∑ j, gf.residues j * Spec.fermi beta (gf.poles j))) := by
  obtain ⟨g, hg, -, -, hmom⟩ := gf_from_moments_correct moments none (Or.inl (by simp))
  have hm0 : ∑ j, g.residues j = ∑ j, gf.residues j := by
    have := hmom 0
    simp [poleMoments, RCLike.ofReal_real_eq_id] at this
    rw [this, hm]
  refine ⟨fun N => 2 / beta * (∑ i : Fin N, 1 * (rePole gf (matsubaraFrequencies (i : ℕ) beta)
      - rePole g (matsubaraFrequencies (i : ℕ) beta)))
      + ∑ j, g.residues j * Spec.fermi beta (g.poles j), fun N => ?_, ?_⟩
  · obtain ⟨g', hg', -, h⟩ := density_iw_eq ext
      (fun i : Fin N => matsubaraFrequencies (i : ℕ) beta)
      (fun i => ∑ j, (gf.residues j : ℂ) / (matsubaraFrequencies (i : ℕ) beta - gf.poles j))
      beta (fun _ => 1) moments
    have : g' = g := by rw [hg] at hg'; exact (Except.ok.inj hg').symm
    subst this
    rw [h]
    rfl
  · have h := ((hasSum_rePole hb gf).sub (hasSum_rePole hb g)).tendsto_sum_nat
    have h2 := h.add_const (∑ j, g.residues j * Spec.fermi beta (g.poles j))
    convert h2 using 1
    · funext N
      rw [← Fin.sum_univ_eq_sum_range fun m : ℕ => 2 / beta * rePole gf (matsubaraFrequencies m beta)
        - 2 / beta * rePole g (matsubaraFrequencies m beta), Finset.mul_sum]
      congr 1
      exact Finset.sum_congr rfl fun i _ => by ring
    · congr 1
      simp only [mul_sub, Finset.sum_sub_distrib, ← Finset.sum_mul, hm0]
      ring

example : gfFromMoments (𝕜 := ℝ) (n := 1) ![1] none = .ok ⟨fun _ => 0, fun _ => 1⟩ := by
  obtain ⟨g, hg, -, -, hm⟩ := gf_from_moments_correct (𝕜 := ℝ) (![1] : Fin 1 → ℝ) none
    (Or.inl (by simp))
  have h0 : g.residues 0 = 1 := by simpa [poleMoments] using hm 0
  have hp : g.poles 0 = 0 := by
    simp only [gfFromMoments] at hg
    split at hg
    · rw [← Except.ok.inj hg]; simp [chebyshevPoints]
    · exact absurd hg (by simp)
  rw [hg]
  congr 1
  cases g
  simp only [PoleFct.mk.injEq]
  constructor <;> funext i <;> (have : i = 0 := Subsingleton.elim _ _) <;> subst this <;> assumption

/-! ## C27 -/

lemma npSign_values (x : ℝ) : (npSign x = -1 ↔ x < 0) ∧ (npSign x = 1 ↔ 0 < x) ∧
    (npSign x = 0 ↔ x = 0) := by
  unfold npSign
  split_ifs with h1 h2
  · exact ⟨by simp [h1], by norm_num; linarith, by norm_num; linarith⟩
  · exact ⟨by norm_num; linarith, by simp [h2], by norm_num; linarith⟩
  · have : x = 0 := le_antisymm (not_lt.1 h2) (not_lt.1 h1)
    subst this; norm_num

lemma npSign_cases (x : ℝ) : npSign x = -1 ∨ npSign x = 1 ∨ npSign x = 0 := by
  unfold npSign
  split_ifs <;> simp

private lemma loop_invariant (f : ℝ → ℝ) (mu0 s0 : ℝ) (fuel : ℕ) (mu1 step : ℝ)
    (h1 : npSign (f mu1) = s0) {r : ℝ × ℝ} (h : bracketLoop f mu0 s0 fuel mu1 step = .ok r) :
    npSign (f r.1) = s0 ∧ npSign (f (mu0 + r.2)) ≠ s0 ∧ ∃ k ≤ fuel, r.2 = step * 2 ^ k ∧
      (r.1 = if k = 0 then mu1 else mu0 + step * 2 ^ (k - 1)) ∧
      ∀ i < k, npSign (f (mu0 + step * 2 ^ i)) = s0 := by
  induction fuel generalizing mu1 step with
  | zero =>
    unfold bracketLoop at h
    split_ifs at h with hc
    rw [← Except.ok.inj h]
    exact ⟨h1, hc, 0, le_rfl, by simp, by simp, by simp⟩
  | succ fuel ih =>
    unfold bracketLoop at h
    split_ifs at h with hc
    · obtain ⟨ha, hb, k, hk, hr, hr1, hi⟩ := ih _ _ hc h
      refine ⟨ha, hb, k + 1, by omega, by rw [hr]; ring, ?_, ?_⟩
      · rw [hr1]
        rcases k with _ | k
        · simp
        · simp; ring
      · intro i hik
        rcases i with _ | i
        · simpa using hc
        · have := hi i (by omega)
          rw [show step * 2 * 2 ^ i = step * 2 ^ (i + 1) by ring] at this
          exact this
    · rw [← Except.ok.inj h]
      exact ⟨h1, hc, 0, by omega, by simp, by simp, by simp⟩

/-- C27: the bracket handed to the root finder is an interval whose end points have values of
different sign (one of them may be zero): the product is not positive. One end is the last
point of the search with the sign of the start, the ends are the start or the points
`mu0 - 2^k step0 f(mu0)` with `k ≤ 100`. -/
theorem chem_bracket_sign (f : ℝ → ℝ) (mu0 step0 : ℝ) {a b : ℝ}
    (h : chemBracket f mu0 step0 = .ok (some (a, b))) :
    a ≤ b ∧ f mu0 ≠ 0 ∧ f a * f b ≤ 0 ∧ npSign (f a) ≠ npSign (f b) ∧
    ∃ k ≤ 100, (a = mu0 - 2 ^ k * step0 * f mu0 ∨ b = mu0 - 2 ^ k * step0 * f mu0) ∧
      ((a = mu0 ∨ b = mu0) ∨ ∃ j < k, a = mu0 - 2 ^ j * step0 * f mu0 ∨
        b = mu0 - 2 ^ j * step0 * f mu0) := by
  unfold chemBracket at h
  simp only at h
  split_ifs at h with h0
  · exact absurd h (by simp)
  split at h
  · rename_i mu1 step hl
    obtain ⟨h1, h2, k, hk, hstep, hmu1, -⟩ := loop_invariant f mu0 _ 100 mu0 _ rfl hl
    simp only at h1 h2 hstep hmu1
    obtain ⟨ha, hb⟩ := Prod.mk.inj (Option.some.inj (Except.ok.inj h))
    have hend : mu0 + step = mu0 - 2 ^ k * step0 * f mu0 := by rw [hstep]; ring
    have hne : npSign (f mu1) ≠ npSign (f (mu0 + step)) := by rw [h1]; exact h2.symm
    have hmu1' : mu1 = mu0 ∨ ∃ j < k, mu1 = mu0 - 2 ^ j * step0 * f mu0 := by
      rcases k with _ | k
      · left; simpa using hmu1
      · right
        refine ⟨k, by omega, ?_⟩
        rw [hmu1]; simp; ring
    have hprod : f mu1 * f (mu0 + step) ≤ 0 := by
      have hs := npSign_values (f mu0)
      have hs1 := npSign_values (f mu1)
      have hs2 := npSign_values (f (mu0 + step))
      rcases lt_trichotomy (f mu0) 0 with hneg | hz | hpos
      · rw [hs.1.2 hneg] at h1 h2
        have : ¬ f (mu0 + step) < 0 := fun hc => h2 (hs2.1.2 hc)
        exact mul_nonpos_of_nonpos_of_nonneg (hs1.1.1 h1).le (not_lt.1 this)
      · exact absurd hz h0
      · rw [hs.2.1.2 hpos] at h1 h2
        have : ¬ 0 < f (mu0 + step) := fun hc => h2 (hs2.2.1.2 hc)
        exact mul_nonpos_of_nonneg_of_nonpos (hs1.2.1.1 h1).le (not_lt.1 this)
    rcases le_total mu1 (mu0 + step) with hle | hle
    · rw [min_eq_left hle] at ha
      rw [max_eq_right hle] at hb
      subst ha hb
      refine ⟨hle, h0, hprod, hne, k, hk, Or.inr hend, ?_⟩
      rcases hmu1' with h | ⟨j, hj, h⟩
      · exact Or.inl (Or.inl h)
      · exact Or.inr ⟨j, hj, Or.inl h⟩
    · rw [min_eq_right hle] at ha
      rw [max_eq_left hle] at hb
      subst ha hb
      refine ⟨hle, h0, by rw [mul_comm]; exact hprod, hne.symm, k, hk, Or.inl hend, ?_⟩
      rcases hmu1' with h | ⟨j, hj, h⟩
      · exact Or.inl (Or.inr h)
      · exact Or.inr ⟨j, hj, Or.inr h⟩
  · exact absurd h (by simp)

private lemma loop_error (f : ℝ → ℝ) (mu0 s0 : ℝ) (fuel : ℕ) (mu1 step : ℝ) (e : Err) :
    bracketLoop f mu0 s0 fuel mu1 step = .error e ↔
      e = .runtimeError ∧ ∀ k ≤ fuel, npSign (f (mu0 + step * 2 ^ k)) = s0 := by
  induction fuel generalizing mu1 step with
  | zero =>
    unfold bracketLoop
    split_ifs with hc
    · simp [hc, eq_comm]
    · simp [hc]
  | succ fuel ih =>
    unfold bracketLoop
    split_ifs with hc
    · rw [ih]
      apply and_congr_right
      intro _
      constructor
      · intro h k hk
        rcases k with _ | k
        · simpa using hc
        · have := h k (by omega)
          rw [show step * 2 * 2 ^ k = step * 2 ^ (k + 1) by ring] at this
          exact this
      · intro h k hk
        have := h (k + 1) (by omega)
        rw [show step * 2 * 2 ^ k = step * 2 ^ (k + 1) by ring]
        exact this
    · simp only [false_iff, not_and, not_forall]
      intro _
      exact ⟨0, by omega, by simpa using hc⟩

/-- C27, error branch: the bracket search raises (always `RuntimeError`) iff the start is no
root and all 101 trial points `mu0 - 2^k step0 f(mu0)`, `k = 0 … 100`, have its sign. -/
theorem chem_bracket_error_iff (f : ℝ → ℝ) (mu0 step0 : ℝ) (e : Err) :
    chemBracket f mu0 step0 = .error e ↔ e = .runtimeError ∧ f mu0 ≠ 0 ∧
      ∀ k ≤ 100, npSign (f (mu0 - 2 ^ k * step0 * f mu0)) = npSign (f mu0) := by
  unfold chemBracket
  simp only
  split_ifs with h0
  · simp [h0]
  · have h1 := loop_error f mu0 (npSign (f mu0)) 100 mu0 (-step0 * f mu0)
    have harg : ∀ k : ℕ, mu0 + -step0 * f mu0 * 2 ^ k = mu0 - 2 ^ k * step0 * f mu0 := by
      intro k; ring
    simp only [harg] at h1
    split
    · rename_i heq
      simp only [reduceCtorEq, false_iff, not_and]
      intro _ _ h
      have := (h1 .runtimeError).2 ⟨rfl, h⟩
      rw [heq] at this
      exact absurd this (by simp)
    · rename_i e' heq
      have h2 := (h1 e').1 heq
      constructor
      · intro h
        rw [← Except.error.inj h]
        exact ⟨h2.1, h0, h2.2⟩
      · rintro ⟨rfl, -, -⟩
        rw [h2.1]

/-- C27: for a non-decreasing `occ_root` the search succeeds whenever there is a
point with a value of the opposite sign (or a root) at distance of at most
`2^100 * step0 * |f(mu0)|`. -/
theorem chem_bracket_found (f : ℝ → ℝ) (hf : Monotone f) (mu0 step0 : ℝ)
    (x : ℝ) (hx : |x - mu0| ≤ 2 ^ 100 * step0 * |f mu0|) (hsign : f x * f mu0 ≤ 0) :
    ∃ r, chemBracket f mu0 step0 = .ok r := by
  cases h : chemBracket f mu0 step0 with
  | ok r => exact ⟨r, rfl⟩
  | error e =>
    exfalso
    obtain ⟨-, h0, hall⟩ := (chem_bracket_error_iff f mu0 step0 e).1 h
    have h100 := hall 100 le_rfl
    rcases lt_or_gt_of_ne h0 with hneg | hpos
    · rw [(npSign_values _).1.2 hneg, (npSign_values _).1] at h100
      rw [abs_of_neg hneg] at hx
      have hx1 : x ≤ mu0 - 2 ^ 100 * step0 * f mu0 := by
        have := (abs_le.1 hx).2; linarith
      have h2 : f x < 0 := lt_of_le_of_lt (hf hx1) h100
      nlinarith
    · rw [(npSign_values _).2.1.2 hpos, (npSign_values _).2.1] at h100
      rw [abs_of_pos hpos] at hx
      have hx1 : mu0 - 2 ^ 100 * step0 * f mu0 ≤ x := by
        have := (abs_le.1 hx).1; linarith
      have h2 : 0 < f x := lt_of_lt_of_le h100 (hf hx1)
      nlinarith

/-- C27: for a non-decreasing `occ_root` with a unique root, the root lies in the bracket, i.e.
the search goes in the right direction. -/
theorem chem_bracket_contains (f : ℝ → ℝ) (hf : Monotone f) (mu0 step0 : ℝ) {a b : ℝ}
    (h : chemBracket f mu0 step0 = .ok (some (a, b))) (x : ℝ) (hx : f x = 0)
    (hstrict : ∀ y, f y = 0 → y = x) : a ≤ x ∧ x ≤ b := by
  obtain ⟨hab, -, hprod, hne, -⟩ := chem_bracket_sign f mu0 step0 h
  have hfa : f a ≤ f b := hf hab
  have ha : f a ≤ 0 := by
    by_contra hc
    have hc := not_le.1 hc
    have hb : 0 < f b := hc.trans_le hfa
    nlinarith
  have hb : 0 ≤ f b := by
    by_contra hc
    have hc := not_le.1 hc
    have ha' : f a < 0 := lt_of_le_of_lt hfa hc
    nlinarith
  constructor
  · by_contra hc
    have h1 : f x ≤ f a := hf (not_le.1 hc).le
    rw [hx] at h1
    have := hstrict a (le_antisymm ha h1)
    linarith
  · by_contra hc
    have h1 : f b ≤ f x := hf (not_le.1 hc).le
    rw [hx] at h1
    have := hstrict b (le_antisymm h1 hb)
    linarith

/-- Contract of a bracketing root finder (Brent's method): for a valid bracket it returns; if it
reports convergence, the result is in the bracket and there are points with values of both
signs closer than `tol`. -/
structure HonestRootScalar (rootScalar : (ℝ → ℝ) → ℝ → ℝ → Except Err RootResult) (tol : ℝ) :
    Prop where
  returns : ∀ f a b, a ≤ b → f a * f b ≤ 0 → ∃ r, rootScalar f a b = .ok r
  sound : ∀ f a b r, a ≤ b → f a * f b ≤ 0 → rootScalar f a b = .ok r → r.converged = true →
    a ≤ r.root ∧ r.root ≤ b ∧ ∃ x y, |x - r.root| ≤ tol ∧ |y - r.root| ≤ tol ∧ f x ≤ 0 ∧ 0 ≤ f y

/-- C27: for a continuous `occ_root` the returned chemical potential is within `tol` of a root;
the only exception is `RuntimeError`. -/
theorem chemical_potential_correct {rootScalar : (ℝ → ℝ) → ℝ → ℝ → Except Err RootResult}
    {tol : ℝ} (htol : 0 ≤ tol) (hr : HonestRootScalar rootScalar tol) (f : ℝ → ℝ)
    (hf : Continuous f) (mu0 step0 : ℝ) :
    (∃ mu, chemicalPotential rootScalar f mu0 step0 = .ok mu ∧ ∃ m, |m - mu| ≤ tol ∧ f m = 0) ∨
      chemicalPotential rootScalar f mu0 step0 = .error .runtimeError := by
  unfold chemicalPotential
  cases h : chemBracket f mu0 step0 with
  | error e =>
    right
    rw [((chem_bracket_error_iff f mu0 step0 e).1 h).1]
  | ok o =>
    cases o with
    | none =>
      left
      refine ⟨mu0, rfl, mu0, by simpa using htol, ?_⟩
      unfold chemBracket at h
      simp only at h
      split_ifs at h with h0
      · exact h0
      · split at h <;> simp at h
    | some p =>
      obtain ⟨a, b⟩ := p
      obtain ⟨hab, -, hprod, -⟩ := chem_bracket_sign f mu0 step0 h
      obtain ⟨r, hres⟩ := hr.returns f a b hab hprod
      simp only [hres]
      cases hc : r.converged with
      | false => right; simp
      | true =>
        left
        refine ⟨r.root, by simp, ?_⟩
        obtain ⟨-, -, x, y, hx, hy, hfx, hfy⟩ := hr.sound f a b r hab hprod hres hc
        have hmem : (0 : ℝ) ∈ f '' Set.uIcc x y :=
          intermediate_value_uIcc hf.continuousOn (Set.mem_uIcc.2 (Or.inl ⟨hfx, hfy⟩))
        obtain ⟨m, hm, hfm⟩ := hmem
        refine ⟨m, ?_, hfm⟩
        rw [abs_le] at hx hy ⊢
        rcases Set.mem_uIcc.1 hm with ⟨h1, h2⟩ | ⟨h1, h2⟩ <;> constructor <;> linarith

/-- An example for the bracket search: `f(mu) = mu - 3/2`, starting at `0` with `step0 = 1`. -/
example : chemBracket (fun mu => mu - 3 / 2) 0 1 = .ok (some (0, 3 / 2)) := by
  have h1 : npSign ((0 : ℝ) - 3 / 2) = -1 := (npSign_values _).1.2 (by norm_num)
  have h2 : npSign ((0 : ℝ) + -1 * (0 - 3 / 2) - 3 / 2) = 0 := (npSign_values _).2.2.2 (by norm_num)
  simp only [chemBracket]
  rw [if_neg (by norm_num), bracketLoop, h1, h2, if_neg (by norm_num)]
  norm_num

end Gftool.Props
