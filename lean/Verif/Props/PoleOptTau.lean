import Verif.Props.PoleOpt

/-!
# Property C89: pole fits with optimized pole spread, imaginary times
-/

namespace Gftool.Props

open Gftool Model Lemmas Spec Matrix

private lemma okBind {α β : Type} (a : α) (f : α → Except Err β) : (Except.ok a >>= f) = f a := rfl

private lemma errBind {α β : Type} (e : Err) (f : α → Except Err β) : (Except.error e >>= f) = .error e := rfl

private lemma momentOf_eq {n : ℕ} (p r : Fin n → ℝ) (m : ℕ) : poleMoments p r ((m : ℤ) + 1) = momentOf p r m := by
  unfold poleMoments momentOf
  refine Finset.sum_congr rfl fun j _ => ?_
  rw [add_sub_cancel_right, zpow_natCast]

private lemma linspace0_eq (beta : ℝ) {T : ℕ} (i : Fin (T + 1)) : linspace0 beta (T + 1) i = beta * (i : ℕ) / T := by
  unfold linspace0
  by_cases hT : T = 0
  · subst hT
    have : (i : ℕ) = 0 := by omega
    simp [this]
  · rw [if_neg (by omega)]
    push_cast
    rw [add_sub_cancel_right]
    ring

private lemma deviationTau_eq {T n : ℕ} (beta : ℝ) (g : Fin (T + 1) → ℝ) (poles r : Fin n → ℝ) :
    fitDistanceTau beta g (lehmannTau beta poles r) = Real.sqrt (fitErrorTau beta g (fun _ => 1) poles r) := by
  unfold fitDistanceTau fitErrorTau
  congr 1
  refine Finset.sum_congr rfl fun i _ => ?_
  rw [linspace0_eq]
  ring

private lemma evalGrid {T n : ℕ} {beta : ℝ} (hb : 0 ≤ beta) (p : PoleFct ℝ n) :
    evalTauGrid p beta (T + 1) = .ok fun i => lehmannTau beta p.poles p.residues (beta * (i : ℕ) / T) := by
  have ht : ∀ i : Fin (T + 1), 0 ≤ linspace0 beta (T + 1) i ∧ linspace0 beta (T + 1) i ≤ beta := fun i => linspace_mem hb i
  unfold evalTauGrid
  rw [if_pos ht]
  congr 1
  funext i
  have h1 := pole_gf_tau_eq (linspace0 beta (T + 1) i) p.poles p.residues beta
  rw [if_pos (ht i), poleGfTau, if_pos (ht i), linspace0_eq] at h1
  rw [linspace0_eq]
  exact Except.ok.inj h1

/-- The fit with vanishing pole spread. -/
private lemma gfFromTau_zero_width (ext : LinalgExt ℝ) {T l n : ℕ} (g : Fin (T + 1) → ℝ) {beta : ℝ} (hb : 0 ≤ beta)
    (moments : Fin l → ℝ) (hl : 0 < l) (hln : l ≤ n) : ∃ p, gfFromTau ext g n beta moments 0 0 none = .ok p ∧
      (∀ j, p.poles j = 0) ∧ momentOf p.poles p.residues 0 = moments ⟨0, hl⟩ ∧
      ∀ tau, lehmannTau beta p.poles p.residues tau = -moments ⟨0, hl⟩ / 2 := by
  have hn : n ≠ 0 := by omega
  have hp : (fun j => (0 : ℝ) * chebyshevPoints n j) = fun _ : Fin n => (0 : ℝ) := by
    funext j
    simp
  have ht : ∀ i : Fin (T + 1), 0 ≤ linspace0 beta (T + 1) i ∧ linspace0 beta (T + 1) i ≤ beta := fun i => linspace_mem hb i
  have htr : truncInt 0 = 0 := by simp [truncInt]
  have hnl : ¬ ((n : ℤ) < l + truncInt 0) := by rw [htr]; omega
  obtain ⟨x, hx, hs⟩ := lstsqEc_zero_poles ext (fitMatTau beta (fun _ : Fin n => (0 : ℝ)) fun _ : Fin (T + 1) => 1)
    (fun i => (fun _ : Fin (T + 1) => (1 : ℝ)) i * g i) moments hl hln
  refine ⟨⟨fun _ => 0, x⟩, ?_, fun _ => rfl, ?_, fun y => ?_⟩
  · simp only [gfFromTau, if_neg hn, ht, hl, hl.ne', hnl, implies_true, not_true_eq_false, hp, Option.getD_none,
      if_false, true_or, if_true, and_self, ne_eq, hx]
  · simp [momentOf, hs]
  · unfold lehmannTau fermi
    simp only [mul_zero, Real.exp_zero, neg_zero, zero_mul]
    rw [← Finset.sum_mul, hs]
    norm_num
    ring

/-- The fit and its error for a given spread. -/
private lemma tauFit (ext : LinalgExt ℝ) {T l n : ℕ} (g : Fin (T + 1) → ℝ) {beta : ℝ} (hb : 0 ≤ beta) (moments : Fin l → ℝ)
    (hl : 0 < l) (hln : l ≤ n) (w : ℝ) : ∃ p y, gfFromTau ext g n beta moments 0 w none = .ok p ∧
      tauFitError ext g n beta moments 0 none w = .ok y ∧
      (w ≠ 0 → y = fitDistanceTau beta g (lehmannTau beta p.poles p.residues) ∧
        (∀ m : Fin l, momentOf p.poles p.residues m = moments m) ∧ ∀ r : Fin n → ℝ,
        (∀ m : Fin l, momentOf (fun j => w * chebyshevPoints n j) r m = moments m) →
        y ≤ fitDistanceTau beta g (lehmannTau beta (fun j => w * chebyshevPoints n j) r)) ∧
      (w = 0 → y = fitDistanceTau beta g (fun _ => -tauJump g / 2) ∧
        ∀ tau, lehmannTau beta p.poles p.residues tau = -moments ⟨0, hl⟩ / 2) := by
  by_cases hw : w = 0
  · subst hw
    obtain ⟨p, h1, h2, h3, h4⟩ := gfFromTau_zero_width ext g hb moments hl hln
    obtain ⟨p', h1', -, -, h4'⟩ := gfFromTau_zero_width (n := n) ext g hb (fun _ : Fin 1 => tauJump g) (by omega) (by omega)
    refine ⟨p, _, h1, ?_, fun h => absurd rfl h, fun _ => ⟨rfl, h4⟩⟩
    unfold tauFitError fitDistanceTau
    rw [if_neg (by simp), h1', okBind]
    beta_reduce
    rw [evalGrid hb, okBind]
    simp only [h4']
    rfl
  · obtain ⟨p, h1, h2, h3, h4⟩ := gf_from_tau_moments ext g hb moments (width := w) none (by omega) hln hw
    have hp : p.poles = fun j => w * chebyshevPoints n j := funext h2
    refine ⟨p, _, h1, ?_, fun _ => ⟨rfl, fun m => ?_, fun r hr => ?_⟩, fun h => absurd h hw⟩
    · unfold tauFitError
      rw [if_pos hw, h1, okBind]
      beta_reduce
      rw [evalGrid hb, okBind]
      rfl
    · rw [← momentOf_eq]
      exact h3 m
    · have := h4 r fun m => by
        rw [hp, momentOf_eq]
        exact hr m
      rw [hp] at this ⊢
      rw [deviationTau_eq, deviationTau_eq]
      exact Real.sqrt_le_sqrt this

/-- The possible outcomes of the fit. -/
private lemma tau2polegf_outcome (ext : LinalgExt ℝ) (opt : MinimizeExt) {T l n : ℕ} (g : Fin (T + 1) → ℝ) {beta : ℝ}
    (hb : 0 ≤ beta) (moments : Fin l → ℝ) (hl : 0 < l) (hln : l ≤ n) :
    tau2polegf ext opt g n beta (some ⟨l, moments⟩) 0 none = .error .runtimeError ∨
      ∃ w p, opt.minimize (tauFitError ext g n beta moments 0 none) = .ok w ∧
        tau2polegf ext opt g n beta (some ⟨l, moments⟩) 0 none = .ok p ∧
        gfFromTau ext g n beta moments 0 w none = .ok p := by
  simp only [tau2polegf, if_neg hl.ne']
  rcases h : opt.minimize (tauFitError ext g n beta moments 0 none) with e | w
  · left
    rcases opt.raises _ _ h with rfl | ⟨w, hw⟩
    · rfl
    · obtain ⟨p, y, -, h2, -⟩ := tauFit ext g hb moments hl hln w
      rw [h2] at hw
      simp at hw
  · right
    obtain ⟨p, y, h1, -⟩ := tauFit ext g hb moments hl hln w
    exact ⟨w, p, rfl, by rw [okBind, h1], h1⟩

/-- C89: `tau2izp`, with not more moments than points, either fails because the minimization finds no bracket, or it
evaluates a pole function whose distance to the data is not larger than that of the constant function of a pole at zero,
and that of all functions with the given moments and poles at the Chebyshev points. Missing: the case that the first
moment differs from the jump of the data, see `tau2izp_fit_worse`. -/
theorem tau2izp_fit_error_partial (ext : LinalgExt ℝ) (opt : MinimizeExt) {T k l : ℕ} (g : Fin (T + 1) → ℝ) {beta : ℝ}
    (hb : 0 ≤ beta) (izp : Fin k → ℂ) (moments : Fin l → ℝ) (hl0 : 0 < l) (hl : l ≤ k)
    (hjump : moments ⟨0, hl0⟩ = -g (Fin.last T) - g 0) :
    tau2izpOpt ext opt g beta izp (some ⟨l, moments⟩) 0 none = .error .runtimeError ∨
    ∃ p r : Fin k → ℝ,
      tau2izpOpt ext opt g beta izp (some ⟨l, moments⟩) 0 none = .ok (fun i => ∑ j, (r j : ℂ) / (izp i - p j)) ∧
      (∀ r' : Fin k → ℝ, (∀ m : Fin l, momentOf (chebyshevPoints k) r' m = moments m) →
        fitDistanceTau beta g (lehmannTau beta p r) ≤ fitDistanceTau beta g (lehmannTau beta (chebyshevPoints k) r')) ∧
      fitDistanceTau beta g (lehmannTau beta p r) ≤ fitDistanceTau beta g fun _ => -moments ⟨0, hl0⟩ / 2 := by
  rcases tau2polegf_outcome ext opt g hb moments hl0 hl with h | ⟨w, p, hw, h, hp⟩
  · left
    unfold tau2izpOpt
    rw [h, errBind]
  · right
    obtain ⟨y, hy, hy0, hy1⟩ := opt.descent _ _ hw
    obtain ⟨q, y', q1, q2, q3, q4⟩ := tauFit ext g hb moments hl0 hl w
    obtain rfl : p = q := Except.ok.inj (hp.symm.trans q1)
    obtain rfl : y' = y := Except.ok.inj (q2.symm.trans hy)
    have hdev : fitDistanceTau beta g (lehmannTau beta p.poles p.residues) = y' := by
      by_cases h0 : w = 0
      · rw [(q4 h0).1]
        unfold fitDistanceTau
        simp only [(q4 h0).2, hjump, tauJump]
      · exact (q3 h0).1.symm
    refine ⟨p.poles, p.residues, ?_, fun r' hr' => ?_, ?_⟩
    · unfold tau2izpOpt
      rw [h, okBind]
      rfl
    · obtain ⟨q, y1, -, e2, e3, -⟩ := tauFit ext g hb moments hl0 hl 1
      rw [hdev]
      refine (hy1 _ e2).trans ?_
      have := (e3 one_ne_zero).2.2 r' (by simpa using hr')
      simpa only [one_mul] using this
    · obtain ⟨q, y0, -, e2, -, e4⟩ := tauFit ext g hb moments hl0 hl 0
      rw [hdev]
      refine (hy0 _ e2).trans (le_of_eq ?_)
      rw [(e4 rfl).1, hjump]
      rfl

/-- C89: with the default moments, the jump of the data, this always holds. -/
theorem tau2izp_fit_error_default (ext : LinalgExt ℝ) (opt : MinimizeExt) {T k : ℕ} (g : Fin (T + 1) → ℝ) {beta : ℝ}
    (hb : 0 ≤ beta) (izp : Fin k → ℂ) (hk : k ≠ 0) :
    tau2izpOpt ext opt g beta izp none 0 none = .error .runtimeError ∨
    ∃ p r : Fin k → ℝ,
      tau2izpOpt ext opt g beta izp none 0 none = .ok (fun i => ∑ j, (r j : ℂ) / (izp i - p j)) ∧
      (∀ r' : Fin k → ℝ, ∑ j, r' j = -g (Fin.last T) - g 0 →
        fitDistanceTau beta g (lehmannTau beta p r) ≤ fitDistanceTau beta g (lehmannTau beta (chebyshevPoints k) r')) ∧
      fitDistanceTau beta g (lehmannTau beta p r) ≤ fitDistanceTau beta g fun _ => (g (Fin.last T) + g 0) / 2 := by
  have e : tau2izpOpt ext opt g beta izp none 0 none =
      tau2izpOpt ext opt g beta izp (some ⟨1, fun _ => tauJump g⟩) 0 none := rfl
  rw [e]
  rcases tau2izp_fit_error_partial ext opt g hb izp (fun _ : Fin 1 => tauJump g) one_pos (by omega) rfl with h | ⟨p, r, h1, h2, h3⟩
  · exact Or.inl h
  · refine Or.inr ⟨p, r, h1, fun r' hr' => h2 r' fun m => ?_, h3.trans (le_of_eq ?_)⟩
    · have : (m : ℕ) = 0 := by omega
      simp only [this, momentOf, pow_zero, mul_one, hr']
      rfl
    · congr 1
      funext _
      unfold tauJump
      ring

/-- C89: the spread is the only quantity that is optimized. -/
theorem tau2izp_spread (ext : LinalgExt ℝ) (opt : MinimizeExt) {T k l : ℕ} (g : Fin (T + 1) → ℝ) (beta : ℝ)
    (izp : Fin k → ℂ) (moments : Fin l → ℝ) (occ : ℝ) (weight : Option (Fin (T + 1) → ℝ)) {w : ℝ}
    (hw : opt.minimize (tauFitError ext g k beta moments occ weight) = .ok w) :
    tau2izpOpt ext opt g beta izp (some ⟨l, moments⟩) occ weight =
      tau2izp ext g beta izp (some ⟨l, moments⟩) occ weight w := by
  unfold tau2izpOpt
  simp only [tau2polegf, tau2izp, tau2izpMoments]
  by_cases hl : l = 0
  · rw [if_pos hl, if_pos hl]
    rfl
  · rw [if_neg hl, if_neg hl, hw, okBind]
    rcases gfFromTau ext g k beta moments occ w weight with e | p <;> rfl

/-- Half of a hyperbolic secant. -/
private lemma half_sech {c : ℝ} (hc : c ≠ 0) :
    0 < (1 - fermi 1 c) * Real.exp (-c * (1 / 2)) ∧ (1 - fermi 1 c) * Real.exp (-c * (1 / 2)) < 1 / 2 := by
  obtain ⟨x, hx⟩ : ∃ x, x = Real.exp (c * (1 / 2)) := ⟨_, rfl⟩
  have hx0 : 0 < x := hx ▸ Real.exp_pos _
  have hx1 : x ≠ 1 := by
    intro h
    rw [hx, Real.exp_eq_one_iff] at h
    exact hc (by linarith)
  have e1 : Real.exp (1 * c) = x * x := by
    rw [hx, ← Real.exp_add]
    ring_nf
  have e2 : Real.exp (-c * (1 / 2)) = 1 / x := by
    rw [hx, neg_mul, Real.exp_neg, inv_eq_one_div]
  have e3 : (1 - fermi 1 c) * Real.exp (-c * (1 / 2)) = x / (x * x + 1) := by
    unfold fermi
    rw [e1, e2]
    field_simp
    ring
  rw [e3]
  refine ⟨by positivity, ?_⟩
  rw [div_lt_iff₀ (by positivity)]
  have : 0 < (x - 1) ^ 2 := by
    have : x - 1 ≠ 0 := sub_ne_zero.2 hx1
    positivity
  nlinarith

/-- C89 (violated): for the data -1/2 at three times (with jump 1) and the first moment 2, whatever minimization is used,
the fitted function is farther away from the data than another function with that moment and unit spread: the error of the
spread zero is calculated with the jump instead of the moment. -/
theorem tau2izp_fit_worse (ext : LinalgExt ℝ) (opt : MinimizeExt) :
    tau2polegf ext opt (fun _ : Fin (2 + 1) => (-1 / 2 : ℝ)) 2 1 (some ⟨1, fun _ => 2⟩) 0 none = .error .runtimeError ∨
    ∃ p, tau2polegf ext opt (fun _ : Fin (2 + 1) => (-1 / 2 : ℝ)) 2 1 (some ⟨1, fun _ => 2⟩) 0 none = .ok p ∧
      ∃ r' : Fin 2 → ℝ, momentOf (chebyshevPoints 2) r' 0 = 2 ∧
        fitDistanceTau 1 (fun _ : Fin (2 + 1) => (-1 / 2 : ℝ)) (lehmannTau 1 (chebyshevPoints 2) r') <
          fitDistanceTau 1 (fun _ : Fin (2 + 1) => (-1 / 2 : ℝ)) (lehmannTau 1 p.poles p.residues) := by
  set g : Fin (2 + 1) → ℝ := fun _ => -1 / 2 with hg
  rcases tau2polegf_outcome (n := 2) ext opt g zero_le_one (fun _ : Fin 1 => (2 : ℝ)) one_pos (by norm_num) with
    h | ⟨w, p, hw, h, hp⟩
  · exact Or.inl h
  right
  refine ⟨p, h, fun _ => 1, by simp [momentOf], ?_⟩
  obtain ⟨y, hy, hy0, -⟩ := opt.descent _ _ hw
  obtain ⟨q, y', q1, q2, q3, q4⟩ := tauFit (n := 2) ext g zero_le_one (fun _ : Fin 1 => (2 : ℝ)) one_pos (by norm_num) w
  obtain rfl : p = q := Except.ok.inj (hp.symm.trans q1)
  obtain rfl : y' = y := Except.ok.inj (q2.symm.trans hy)
  obtain ⟨p0, y0, -, e2, -, e4⟩ := tauFit (n := 2) ext g zero_le_one (fun _ : Fin 1 => (2 : ℝ)) one_pos (by norm_num) 0
  have hz : y0 = 0 := by
    rw [(e4 rfl).1]
    unfold fitDistanceTau tauJump
    simp only [hg]
    norm_num
  have hle : y' ≤ 0 := hz ▸ hy0 _ e2
  have sumEnds : ∀ pp rr : Fin 2 → ℝ, lehmannTau 1 pp rr 0 + lehmannTau 1 pp rr 1 = -∑ j, rr j := by
    intro pp rr
    obtain ⟨g0, gb, h1, h2, h3⟩ := pole_gf_tau_jump (poles := pp) (weights := rr) (beta := 1) zero_le_one
    rw [pole_gf_tau_eq, if_pos ⟨le_refl 0, zero_le_one⟩] at h1
    rw [pole_gf_tau_eq, if_pos ⟨zero_le_one, le_refl _⟩] at h2
    rw [Except.ok.inj h1, Except.ok.inj h2, h3]
  have devEq : ∀ f : ℝ → ℝ, fitDistanceTau 1 g f =
      Real.sqrt ((-1 / 2 - f 0) ^ 2 + (-1 / 2 - f (1 / 2)) ^ 2 + (-1 / 2 - f 1) ^ 2) := by
    intro f
    unfold fitDistanceTau
    rw [Fin.sum_univ_three]
    simp [hg]
  have hw0 : w = 0 := by
    by_contra hne
    obtain ⟨d1, d2, -⟩ := q3 hne
    rw [d1, devEq] at hle
    have hs := Real.sqrt_eq_zero'.1 (le_antisymm hle (Real.sqrt_nonneg _))
    have h2 := sumEnds p.poles p.residues
    have h3 : ∑ j, p.residues j = 2 := by
      have := d2 0
      simpa [momentOf] using this
    rw [h3] at h2
    nlinarith [sq_nonneg (-1 / 2 - lehmannTau 1 p.poles p.residues 0), sq_nonneg (-1 / 2 - lehmannTau 1 p.poles p.residues 1),
      sq_nonneg (-1 / 2 - lehmannTau 1 p.poles p.residues (1 / 2)),
      sq_nonneg (lehmannTau 1 p.poles p.residues 0 - lehmannTau 1 p.poles p.residues 1)]
  have hc0 : chebyshevPoints 2 0 = -chebyshevPoints 2 1 := cheb_two.1
  have hc1 : chebyshevPoints 2 1 ≠ 0 := cheb_two.2
  rw [devEq, devEq]
  simp only [(q4 hw0).2]
  refine Real.sqrt_lt_sqrt (by positivity) ?_
  have a0 : lehmannTau 1 (chebyshevPoints 2) (fun _ => 1) 0 = -1 := by
    unfold lehmannTau fermi
    rw [Fin.sum_univ_two, hc0]
    simp only [mul_zero, Real.exp_zero, mul_one, one_mul, Real.exp_neg]
    have := Real.exp_pos (chebyshevPoints 2 1)
    field_simp
    ring
  have a1 : lehmannTau 1 (chebyshevPoints 2) (fun _ => 1) 1 = -1 := by
    have := sumEnds (chebyshevPoints 2) fun _ => 1
    rw [a0] at this
    simp at this
    linarith
  have am : -1 < lehmannTau 1 (chebyshevPoints 2) (fun _ => 1) (1 / 2) ∧
      lehmannTau 1 (chebyshevPoints 2) (fun _ => 1) (1 / 2) < 0 := by
    unfold lehmannTau
    rw [Fin.sum_univ_two]
    simp only [one_mul]
    obtain ⟨u1, u2⟩ := half_sech hc1
    obtain ⟨v1, v2⟩ := half_sech (c := chebyshevPoints 2 0) (by rw [hc0]; exact neg_ne_zero.2 hc1)
    constructor <;> linarith
  rw [a0, a1]
  nlinarith [am.1, am.2]

end Gftool.Props
