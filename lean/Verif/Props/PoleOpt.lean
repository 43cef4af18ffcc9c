import Verif.Model.PoleOpt
import Verif.Spec.PoleOpt
import Verif.Lemmas.LstsqEcMin
import Verif.Props.PoleFit

/-!
# Property C89: pole fits with optimized pole spread

`izp2tau` and `tau2izp` fit a pole function, whose spread is chosen by a scalar minimization.
-/

namespace Gftool.Props

open Gftool Model Lemmas Spec Matrix

/-! ## Helpers -/

private lemma okBind {α β : Type} (a : α) (f : α → Except Err β) : (Except.ok a >>= f) = f a := rfl

private lemma errBind {α β : Type} (e : Err) (f : α → Except Err β) : (Except.error e >>= f) = .error e := rfl

private lemma deviation_eq {k n : ℕ} (z gf : Fin k → ℂ) (poles r : Fin n → ℝ) :
    fitDistance z gf (fun z => poleGfZ z (fun j => (poles j : ℂ)) fun j => (r j : ℂ)) =
      Real.sqrt (fitErrorZ z gf (fun _ => 1) poles r) := by
  unfold fitDistance fitErrorZ
  congr 1
  refine Finset.sum_congr rfl fun i _ => ?_
  rw [Complex.normSq_eq_norm_sq, norm_sub_rev]
  ring

private lemma momentOf_eq {n : ℕ} (p r : Fin n → ℝ) (m : ℕ) : poleMoments p r ((m : ℤ) + 1) = momentOf p r m := by
  unfold poleMoments momentOf
  refine Finset.sum_congr rfl fun j _ => ?_
  rw [add_sub_cancel_right, zpow_natCast]

/-- The fit with vanishing pole spread. -/
private lemma gfFromZ_zero_width (ext : LinalgExt ℝ) {k l n : ℕ} (z gf : Fin k → ℂ) (moments : Fin l → ℝ) (hl : 0 < l)
    (hln : l ≤ n) : ∃ p, gfFromZ ext z gf n moments (some 0) none = .ok p ∧ (∀ j, p.poles j = 0) ∧
      momentOf p.poles p.residues 0 = moments ⟨0, hl⟩ ∧ ∀ x, p.evalZ x = (moments ⟨0, hl⟩ : ℝ) / x := by
  have hn : n ≠ 0 := by omega
  have hp : (fun j => autoWidth n moments (some 0) * chebyshevPoints n j) = fun _ : Fin n => (0 : ℝ) := by
    funext j
    simp [autoWidth]
  obtain ⟨x, hx, hs⟩ := lstsqEc_zero_poles ext (fitMatZ z (fun _ : Fin n => (0 : ℝ)) fun _ => 1) (fitVecZ gf fun _ => 1)
    moments hl hln
  refine ⟨⟨fun _ => 0, x⟩, ?_, fun _ => rfl, ?_, fun y => ?_⟩
  · simp only [gfFromZ, if_neg hn, if_pos hl, if_neg (not_lt.2 hln), hp, Option.getD_none, hx]
  · simp [momentOf, hs]
  · simp only [PoleFct.evalZ, poleGfZ, Complex.ofReal_zero, sub_zero]
    rw [← Finset.sum_div, ← hs]
    push_cast
    rfl

/-- The fit and its error for a given spread. -/
private lemma zFit (ext : LinalgExt ℝ) {k l n : ℕ} (z gf : Fin k → ℂ) (moments : Fin l → ℝ) (hn : n ≠ 0) (hln : l ≤ n)
    (w : ℝ) : ∃ p, gfFromZ ext z gf n moments (some w) none = .ok p ∧
      zFitError ext z gf n moments w = .ok (fitDistance z gf p.evalZ) ∧
      (w ≠ 0 → (∀ m : Fin l, momentOf p.poles p.residues m = moments m) ∧ ∀ r : Fin n → ℝ,
        (∀ m : Fin l, momentOf (fun j => w * chebyshevPoints n j) r m = moments m) →
        fitDistance z gf p.evalZ ≤
          fitDistance z gf fun x => poleGfZ x (fun j => ((w * chebyshevPoints n j : ℝ) : ℂ)) fun j => (r j : ℂ)) ∧
      (w = 0 → ∀ hl : 0 < l, momentOf p.poles p.residues 0 = moments ⟨0, hl⟩ ∧
        ∀ x, p.evalZ x = (moments ⟨0, hl⟩ : ℝ) / x) := by
  by_cases hw : w = 0
  · subst hw
    by_cases hl : 0 < l
    · obtain ⟨p, h1, h2, h3, h4⟩ := gfFromZ_zero_width ext z gf moments hl hln
      obtain ⟨p', h1', -, -, h4'⟩ := gfFromZ_zero_width (n := n) ext z gf (firstMoments moments) (by omega) (by omega)
      refine ⟨p, h1, ?_, fun h => absurd rfl h, fun _ _ => ⟨h3, h4⟩⟩
      unfold zFitError fitDistance
      rw [if_neg (by simp), h1', okBind]
      simp only [h4, h4']
      rfl
    · obtain rfl : l = 0 := by omega
      refine ⟨_, by simp only [gfFromZ, if_neg hn, if_neg hl]; rfl, ?_, fun h => absurd rfl h, fun _ h => absurd h hl⟩
      unfold zFitError
      rw [if_neg (by simp)]
      simp only [gfFromZ, if_neg hn]
      rw [if_neg (by simp)]
      rfl
  · obtain ⟨g, h1, h2, h3, h4⟩ := gf_from_z_correct ext z gf moments (some w) none hn hln (by simpa using hw)
    have hp : g.poles = fun j => w * chebyshevPoints n j := funext h2
    refine ⟨g, h1, ?_, fun _ => ⟨fun m => ?_, fun r hr => ?_⟩, fun h => absurd h hw⟩
    · unfold zFitError
      rw [if_pos hw, h1]
      rfl
    · rw [← momentOf_eq]
      exact h3 m
    · have := h4 r fun m => by
        rw [hp, momentOf_eq]
        exact hr m
      change fitDistance z gf (fun x => poleGfZ x (fun j => (g.poles j : ℂ)) fun j => (g.residues j : ℂ)) ≤ _
      rw [hp] at this ⊢
      rw [deviation_eq, deviation_eq z gf (fun j => w * chebyshevPoints n j) r]
      exact Real.sqrt_le_sqrt this

/-- The possible outcomes of the fit. -/
private lemma z2polegf_outcome (ext : LinalgExt ℝ) (opt : MinimizeExt) {k l n : ℕ} (z gf : Fin k → ℂ) (moments : Fin l → ℝ)
    (hn : n ≠ 0) (hln : l ≤ n) : (opt.minimize (zFitError ext z gf n moments) = .error .runtimeError ∧
      z2polegf ext opt z gf n moments = .error .runtimeError) ∨
      ∃ w p, opt.minimize (zFitError ext z gf n moments) = .ok w ∧ z2polegf ext opt z gf n moments = .ok p ∧
        gfFromZ ext z gf n moments (some w) none = .ok p := by
  unfold z2polegf
  rcases h : opt.minimize (zFitError ext z gf n moments) with e | w
  · left
    rcases opt.raises _ _ h with rfl | ⟨w, hw⟩
    · exact ⟨rfl, rfl⟩
    · obtain ⟨p, -, h2, -⟩ := zFit ext z gf moments hn hln w
      rw [h2] at hw
      simp at hw
  · right
    obtain ⟨p, h1, -⟩ := zFit ext z gf moments hn hln w
    exact ⟨w, p, rfl, by rw [okBind, h1], h1⟩

/-! ## `izp2tau` -/

/-- C89: `izp2tau` with at least as many points as moments either fails because the minimization finds no bracket, or it
evaluates a pole function `p` whose distance to the data is not larger than that of `m₀/z` and that of all functions with
the given moments and poles at the Chebyshev points. This holds whatever spread the minimization returns. -/
theorem izp2tau_fit_error (ext : LinalgExt ℝ) (opt : MinimizeExt) {k l : ℕ} (izp gf : Fin k → ℂ) (moments : Fin l → ℝ)
    (beta : ℝ) (hk : k ≠ 0) (hl : l ≤ k) :
    (∀ tau, izp2tauOpt ext opt izp gf tau beta moments = .error .runtimeError) ∨
    ∃ p r : Fin k → ℝ, (∀ tau, 0 ≤ tau → tau ≤ beta →
        izp2tauOpt ext opt izp gf tau beta moments = .ok (lehmannTau beta p r tau)) ∧
      (∀ r' : Fin k → ℝ, (∀ m : Fin l, momentOf (chebyshevPoints k) r' m = moments m) →
        fitDistance izp gf (fun z => ∑ j, (r j : ℂ) / (z - p j)) ≤ fitDistance izp gf (chebFct r')) ∧
      ∀ h : 0 < l, fitDistance izp gf (fun z => ∑ j, (r j : ℂ) / (z - p j)) ≤
        fitDistance izp gf fun z => (moments ⟨0, h⟩ : ℝ) / z := by
  rcases z2polegf_outcome ext opt izp gf moments hk hl with ⟨-, h⟩ | ⟨w, p, hw, h, hp⟩
  · left
    intro tau
    unfold izp2tauOpt
    rw [h, errBind]
  · right
    obtain ⟨y, hy, hy0, hy1⟩ := opt.descent _ _ hw
    obtain ⟨q, q1, q2, -, -⟩ := zFit ext izp gf moments hk hl w
    obtain rfl : p = q := Except.ok.inj (hp.symm.trans q1)
    obtain rfl : fitDistance izp gf p.evalZ = y := Except.ok.inj (q2.symm.trans hy)
    refine ⟨p.poles, p.residues, fun tau h0 h1 => ?_, fun r' hr' => ?_, fun h0 => ?_⟩
    · unfold izp2tauOpt
      rw [h, okBind, pole_gf_tau_eq, if_pos ⟨h0, h1⟩]
    · obtain ⟨q, -, e2, e3, -⟩ := zFit ext izp gf moments hk hl 1
      refine (hy1 _ e2).trans ?_
      have := (e3 one_ne_zero).2 r' (by simpa using hr')
      simp only [one_mul, poleGfZ] at this
      exact this
    · obtain ⟨q, -, e2, -, e4⟩ := zFit ext izp gf moments hk hl 0
      refine (hy0 _ e2).trans (le_of_eq ?_)
      unfold fitDistance
      simp only [(e4 rfl h0).2]

/-- C89: if some function with the given moments and poles at the Chebyshev points interpolates the data, or if `m₀/z` does,
then the fitted function interpolates them, too. -/
theorem izp2tau_fit_interpolates (ext : LinalgExt ℝ) (opt : MinimizeExt) {k l : ℕ} (izp gf : Fin k → ℂ) (moments : Fin l → ℝ)
    (beta : ℝ) (hk : k ≠ 0) (hl : l ≤ k)
    (hex : (∃ r' : Fin k → ℝ, (∀ m : Fin l, momentOf (chebyshevPoints k) r' m = moments m) ∧ ∀ i, chebFct r' (izp i) = gf i) ∨
      ∃ h : 0 < l, ∀ i, ((moments ⟨0, h⟩ : ℝ) : ℂ) / izp i = gf i) :
    (∀ tau, izp2tauOpt ext opt izp gf tau beta moments = .error .runtimeError) ∨
    ∃ p r : Fin k → ℝ, (∀ tau, 0 ≤ tau → tau ≤ beta →
        izp2tauOpt ext opt izp gf tau beta moments = .ok (lehmannTau beta p r tau)) ∧
      ∀ i, ∑ j, (r j : ℂ) / (izp i - p j) = gf i := by
  rcases izp2tau_fit_error ext opt izp gf moments beta hk hl with h | ⟨p, r, h1, h2, h3⟩
  · exact Or.inl h
  · refine Or.inr ⟨p, r, h1, ?_⟩
    have hz : ∀ f : ℂ → ℂ, (∀ i, f (izp i) = gf i) → fitDistance izp gf f = 0 := fun f hf => by
      unfold fitDistance
      simp [hf]
    have hle : fitDistance izp gf (fun z => ∑ j, (r j : ℂ) / (z - p j)) ≤ 0 := by
      rcases hex with ⟨r', hm, hr'⟩ | ⟨h0, hi⟩
      · exact (h2 r' hm).trans (hz _ hr').le
      · exact (h3 h0).trans (hz (fun z => (moments ⟨0, h0⟩ : ℝ) / z) hi).le
    unfold fitDistance at hle
    have hs := le_antisymm (Real.sqrt_eq_zero'.1 (le_antisymm hle (Real.sqrt_nonneg _)))
      (Finset.sum_nonneg fun i _ => by positivity)
    intro i
    have h0 := (Finset.sum_eq_zero_iff_of_nonneg fun i _ => by positivity).1 hs i (Finset.mem_univ _)
    exact (sub_eq_zero.1 (norm_eq_zero.1 (pow_eq_zero_iff two_ne_zero |>.1 h0))).symm

/-- C89: the fitted function has the first of the given moments. It has all of them, unless it is the function `m₀/z`.
Missing: all moments in that case, see `izp2tau_moments_lost`. -/
theorem izp2tau_fit_moments_partial (ext : LinalgExt ℝ) (opt : MinimizeExt) {k l : ℕ} (izp gf : Fin k → ℂ)
    (moments : Fin l → ℝ) (beta : ℝ) (hk : k ≠ 0) (hl0 : 0 < l) (hl : l ≤ k) :
    (∀ tau, izp2tauOpt ext opt izp gf tau beta moments = .error .runtimeError) ∨
    ∃ p r : Fin k → ℝ, (∀ tau, 0 ≤ tau → tau ≤ beta →
        izp2tauOpt ext opt izp gf tau beta moments = .ok (lehmannTau beta p r tau)) ∧
      momentOf p r 0 = moments ⟨0, hl0⟩ ∧
      ((∀ m : Fin l, momentOf p r m = moments m) ∨ ∀ z : ℂ, ∑ j, (r j : ℂ) / (z - p j) = (moments ⟨0, hl0⟩ : ℝ) / z) := by
  rcases z2polegf_outcome ext opt izp gf moments hk hl with ⟨-, h⟩ | ⟨w, p, hw, h, hp⟩
  · left
    intro tau
    unfold izp2tauOpt
    rw [h, errBind]
  · right
    obtain ⟨q, q1, q2, q3, q4⟩ := zFit ext izp gf moments hk hl w
    obtain rfl : p = q := Except.ok.inj (hp.symm.trans q1)
    refine ⟨p.poles, p.residues, fun tau h0 h1 => ?_, ?_⟩
    · unfold izp2tauOpt
      rw [h, okBind, pole_gf_tau_eq, if_pos ⟨h0, h1⟩]
    · by_cases h0 : w = 0
      · exact ⟨(q4 h0 hl0).1, Or.inr (q4 h0 hl0).2⟩
      · exact ⟨(q3 h0).1 ⟨0, hl0⟩, Or.inl (q3 h0).1⟩

/-- C89: `izp2tau` raises `ZeroDivisionError` without points, and `ValueError` for more moments than points. -/
theorem izp2tau_fit_raises (ext : LinalgExt ℝ) (opt : MinimizeExt) {k l : ℕ} (izp gf : Fin k → ℂ) (moments : Fin l → ℝ)
    (tau beta : ℝ) :
    (k = 0 → izp2tauOpt ext opt izp gf tau beta moments = .error .zeroDivision) ∧
    (k ≠ 0 → k < l → izp2tauOpt ext opt izp gf tau beta moments = .error .valueError) := by
  refine ⟨fun hk => ?_, fun hk hl => ?_⟩
  · have h : zFitError ext izp gf k moments 0 = .error .zeroDivision := by
      unfold zFitError
      rw [if_neg (by simp)]
      simp only [gfFromZ, if_pos hk]
      rfl
    unfold izp2tauOpt z2polegf
    rw [opt.first _ _ h]
    rfl
  · obtain ⟨p, hp, -⟩ := gfFromZ_zero_width (n := k) ext izp gf (firstMoments moments) (by omega) (by omega)
    have h0 : ∃ y, zFitError ext izp gf k moments 0 = .ok y := by
      unfold zFitError
      rw [if_neg (by simp), hp]
      exact ⟨_, rfl⟩
    obtain ⟨y, h0⟩ := h0
    have h1 : zFitError ext izp gf k moments 1 = .error .valueError := by
      unfold zFitError
      rw [if_pos one_ne_zero, gf_from_z_overconstrained ext izp gf moments _ none hk hl]
      rfl
    unfold izp2tauOpt z2polegf
    rw [opt.second _ _ _ h0 h1]
    rfl

/-- C89: the spread is the only quantity that is optimized: the result is that of `izp2tau` at some spread, so all
properties which hold for every spread (C44) carry over. -/
theorem izp2tau_spread (ext : LinalgExt ℝ) (opt : MinimizeExt) {k l : ℕ} (izp gf : Fin k → ℂ) (moments : Fin l → ℝ)
    (beta : ℝ) {w : ℝ} (hw : opt.minimize (zFitError ext izp gf k moments) = .ok w) (tau : ℝ) :
    izp2tauOpt ext opt izp gf tau beta moments = izp2tau ext izp gf tau beta moments w := by
  unfold izp2tauOpt z2polegf izp2tau
  rw [hw, okBind]
  rcases gfFromZ ext izp gf k moments (some w) none with e | p <;> rfl

lemma cheb_two : chebyshevPoints 2 0 = -chebyshevPoints 2 1 ∧ chebyshevPoints 2 1 ≠ 0 := by
  have h0 : chebyshevPoints 2 0 = Real.sin (-(Real.pi / 4)) := by
    unfold chebyshevPoints
    congr 1
    norm_num
    ring
  have h1 : chebyshevPoints 2 1 = Real.sin (Real.pi / 4) := by
    unfold chebyshevPoints
    congr 1
    norm_num
    ring
  rw [h0, h1, Real.sin_neg]
  refine ⟨rfl, ?_⟩
  rw [Real.sin_pi_div_four]
  positivity

/-- C89 (violated): for `1/z` at the points `i` and `2i` with the moments 1 and 1, whatever minimization is used, the
function that is fitted has the second moment 0 instead of 1: the spread is zero, and then no higher moments exist. -/
theorem izp2tau_moments_lost (ext : LinalgExt ℝ) (opt : MinimizeExt) :
    z2polegf ext opt ![Complex.I, 2 * Complex.I] ![1 / Complex.I, 1 / (2 * Complex.I)] 2 ![1, 1] = .error .runtimeError ∨
    ∃ p, z2polegf ext opt ![Complex.I, 2 * Complex.I] ![1 / Complex.I, 1 / (2 * Complex.I)] 2 ![1, 1] = .ok p ∧
      momentOf p.poles p.residues 0 = 1 ∧ momentOf p.poles p.residues 1 = 0 := by
  set z : Fin 2 → ℂ := ![Complex.I, 2 * Complex.I] with hz
  set gf : Fin 2 → ℂ := ![1 / Complex.I, 1 / (2 * Complex.I)] with hgf
  rcases z2polegf_outcome ext opt z gf ![(1 : ℝ), 1] two_ne_zero le_rfl with ⟨-, h⟩ | ⟨w, p, hw, h, hp⟩
  · exact Or.inl h
  right
  obtain ⟨y, hy, hy0, -⟩ := opt.descent _ _ hw
  obtain ⟨q, q1, q2, q3, q4⟩ := zFit ext z gf ![(1 : ℝ), 1] two_ne_zero le_rfl w
  obtain rfl : p = q := Except.ok.inj (hp.symm.trans q1)
  obtain rfl : fitDistance z gf p.evalZ = y := Except.ok.inj (q2.symm.trans hy)
  obtain ⟨p0, -, e2, -, e4⟩ := zFit ext z gf ![(1 : ℝ), 1] two_ne_zero le_rfl 0
  have hd0 : fitDistance z gf p0.evalZ = 0 := by
    unfold fitDistance
    simp only [(e4 rfl (by norm_num)).2]
    simp [hz, hgf]
  have hd := hy0 _ e2
  rw [hd0] at hd
  unfold fitDistance at hd
  have hs : ∑ i, ‖gf i - p.evalZ (z i)‖ ^ 2 = 0 :=
    le_antisymm (Real.sqrt_eq_zero'.1 (le_antisymm hd (Real.sqrt_nonneg _))) (Finset.sum_nonneg fun i _ => by positivity)
  have h0 := (Finset.sum_eq_zero_iff_of_nonneg fun i _ => by positivity).1 hs 0 (Finset.mem_univ _)
  have h0' : p.evalZ Complex.I = 1 / Complex.I := by
    have := sub_eq_zero.1 (norm_eq_zero.1 (pow_eq_zero_iff two_ne_zero |>.1 h0))
    simpa [hz, hgf] using this.symm
  have hw0 : w = 0 := by
    by_contra hne
    have hm1 : ∑ j, p.residues j * p.poles j ^ 1 = 1 := (q3 hne).1 1
    obtain ⟨c1, c2⟩ := cheb_two
    obtain ⟨g, g1, g2, -⟩ := gf_from_z_correct ext z gf ![(1 : ℝ), 1] (some w) none two_ne_zero le_rfl (by simpa using hne)
    obtain rfl : p = g := Except.ok.inj (hp.symm.trans g1)
    have hp0 : p.poles 0 = -p.poles 1 := by
      rw [g2, g2, c1]
      ring
    rw [Fin.sum_univ_two, hp0] at hm1
    have hre := congrArg Complex.re h0'
    simp only [PoleFct.evalZ, poleGfZ, Fin.sum_univ_two, hp0] at hre
    have hpos : (0 : ℝ) < 1 + p.poles 1 ^ 2 := by positivity
    simp [Complex.div_re, Complex.normSq_apply] at hre
    have key : (p.residues 0 * p.poles 1 - p.residues 1 * p.poles 1) / (1 + p.poles 1 ^ 2) = 0 := by
      rw [← hre]
      field_simp
      ring
    rw [div_eq_zero_iff] at key
    rcases key with key | key
    · linarith
    · linarith
  subst hw0
  obtain ⟨p', g1, g2, g3, -⟩ := gfFromZ_zero_width (n := 2) ext z gf ![(1 : ℝ), 1] (by norm_num) le_rfl
  obtain rfl : p = p' := Except.ok.inj (hp.symm.trans g1)
  refine ⟨p, h, by simpa using g3, ?_⟩
  simp [momentOf, g2]

/-- Choosing the better end of the bracket is a minimization that meets the contract. -/
noncomputable def minimizeEnds : MinimizeExt where
  minimize f := match f 0, f 1 with
    | .error e, _ => .error e
    | .ok _, .error e => .error e
    | .ok a, .ok b => if a ≤ b then .ok 0 else .ok 1
  first f e h := by simp only [h]
  second f y e h h' := by simp only [h, h']
  raises f e h := by
    right
    rcases h0 : f 0 with e0 | a
    · rw [h0] at h
      exact ⟨0, by rw [h0]; simpa using h⟩
    · rcases h1 : f 1 with e1 | b
      · rw [h0, h1] at h
        exact ⟨1, by rw [h1]; simpa using h⟩
      · rw [h0, h1] at h
        simp only at h
        split_ifs at h
  descent f x h := by
    rcases h0 : f 0 with e0 | a
    · rw [h0] at h
      simp at h
    · rcases h1 : f 1 with e1 | b
      · rw [h0, h1] at h
        simp at h
      · rw [h0, h1] at h
        simp only at h
        split_ifs at h with hab
        · obtain rfl := Except.ok.inj h
          exact ⟨a, h0, by simp, by simpa using hab⟩
        · obtain rfl := Except.ok.inj h
          exact ⟨b, h1, by simpa using (not_le.1 hab).le, by simp⟩

lemma minimizeEnds_ok {f : ℝ → Except Err ℝ} {a b : ℝ} (h0 : f 0 = .ok a) (h1 : f 1 = .ok b) :
    ∃ x, minimizeEnds.minimize f = .ok x := by
  simp only [minimizeEnds, h0, h1]
  split_ifs
  · exact ⟨_, rfl⟩
  · exact ⟨_, rfl⟩

-- the second alternatives of the theorems occur
example (ext : LinalgExt ℝ) : ∃ p,
    z2polegf ext minimizeEnds ![Complex.I, 2 * Complex.I] ![1 / Complex.I, 1 / (2 * Complex.I)] 2 ![1, 1] = .ok p ∧
      momentOf p.poles p.residues 0 = 1 ∧ momentOf p.poles p.residues 1 = 0 := by
  rcases izp2tau_moments_lost ext minimizeEnds with h | h
  · exfalso
    obtain ⟨p0, -, h0, -⟩ := zFit (n := 2) ext ![Complex.I, 2 * Complex.I] ![1 / Complex.I, 1 / (2 * Complex.I)] ![(1 : ℝ), 1]
      two_ne_zero le_rfl 0
    obtain ⟨p1, -, h1, -⟩ := zFit (n := 2) ext ![Complex.I, 2 * Complex.I] ![1 / Complex.I, 1 / (2 * Complex.I)] ![(1 : ℝ), 1]
      two_ne_zero le_rfl 1
    obtain ⟨x, hx⟩ := minimizeEnds_ok h0 h1
    obtain ⟨p, hp, -⟩ := zFit (n := 2) ext ![Complex.I, 2 * Complex.I] ![1 / Complex.I, 1 / (2 * Complex.I)] ![(1 : ℝ), 1]
      two_ne_zero le_rfl x
    unfold z2polegf at h
    rw [hx, okBind, hp] at h
    simp at h
  · exact h

-- two points and two moments
example (ext : LinalgExt ℝ) (opt : MinimizeExt) (gf : Fin 2 → ℂ) :
    (∀ tau, izp2tauOpt ext opt ![Complex.I, 2 * Complex.I] gf tau 10 ![(1 : ℝ), 0] = .error .runtimeError) ∨
    ∃ p r : Fin 2 → ℝ, (∀ tau, 0 ≤ tau → tau ≤ 10 →
        izp2tauOpt ext opt ![Complex.I, 2 * Complex.I] gf tau 10 ![(1 : ℝ), 0] = .ok (lehmannTau 10 p r tau)) ∧
      fitDistance ![Complex.I, 2 * Complex.I] gf (fun z => ∑ j, (r j : ℂ) / (z - p j)) ≤
        fitDistance ![Complex.I, 2 * Complex.I] gf fun z => 1 / z := by
  rcases izp2tau_fit_error ext opt ![Complex.I, 2 * Complex.I] gf ![(1 : ℝ), 0] 10 two_ne_zero le_rfl with
    h | ⟨p, r, h1, -, h3⟩
  · exact Or.inl h
  · exact Or.inr ⟨p, r, h1, by simpa using h3 two_pos⟩

/-! ## `lstsq_ec` -/

/-- C15: for all constraints (with not more rows than unknowns), also for contradictory ones, the result meets the
constraints as well as possible. -/
theorem lstsq_ec_closest {𝕜 : Type*} [RCLike 𝕜] (ext : LinalgExt 𝕜) {m n l : ℕ} (a : Matrix (Fin m) (Fin n) 𝕜)
    (b : Fin m → 𝕜) (c : Matrix (Fin l) (Fin n) 𝕜) (d : Fin l → 𝕜) (hn : n ≠ 0) (hln : l ≤ n) :
    ∃ x, lstsqEc ext a b c d = .ok x ∧ ∀ x', sqNorm (c *ᵥ x - d) ≤ sqNorm (c *ᵥ x' - d) :=
  lstsqEc_closest ext a b c d hn hln

end Gftool.Props
