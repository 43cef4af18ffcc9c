import Verif.Props.UnitsFit
import Verif.Props.Fourier

/-!
# Property C78: the unit of energy in Fourier transforms
-/

namespace Gftool.Props

open Gftool Model Spec Lemmas Matrix

/-- C78: a transform from imaginary time to frequencies: functions of time are numbers, functions of frequencies inverse
energies. -/
def TauUnits {T K : ℕ} (c beta : ℝ) (F : (Fin T → ℝ) → ℝ → Except Err (Fin K → ℂ)) : Prop :=
  ∀ g, F g (beta / c) = (F g beta).map fun r i => r i / (c : ℂ)

/-- C78: a transform from frequencies to imaginary time. -/
def IwUnits {N K : ℕ} (c beta : ℝ) (F : (Fin N → ℂ) → ℝ → Except Err (Fin K → ℝ)) : Prop :=
  ∀ g, F (fun i => g i / c) (beta / c) = F g beta

/-! ## Transforms without treatment of the high-frequency tail -/

/-- C78: the fermionic transforms from imaginary time to Matsubara frequencies. -/
theorem tau2iw_raw_units {c : ℝ} (beta : ℝ) (T : ℕ) :
    TauUnits c beta (tau2iwDft (T := T)) ∧ TauUnits c beta (tau2iwFtLin (T := T)) := by
  constructor
  · intro g
    unfold tau2iwDft
    cases ihfft fun k : Fin (2 * T) => fullRange g k.castSucc with
    | error e => rfl
    | ok r =>
      simp only [Except.map]
      congr 1
      funext n
      push_cast
      ring
  · intro g
    unfold tau2iwFtLin
    cases ihfft fun k : Fin (2 * T) => fullRange g k.castSucc with
    | error e => rfl
    | ok r =>
      cases ihfft fun k : Fin (2 * T) => fullRange g k.succ - fullRange g k.castSucc with
      | error e => rfl
      | ok dr =>
        simp only [Except.map]
        congr 1
        funext n
        push_cast
        ring

/-- C78: the transforms from Matsubara frequencies to imaginary time. -/
theorem iw2tau_raw_units {c : ℝ} (hc : 0 < c) (beta : ℝ) (N : ℕ) :
    IwUnits c beta (iw2tauDft (N := N)) ∧ IwUnits c beta (iw2tauDftSoft (N := N)) := by
  have hcc : (c : ℂ) ≠ 0 := by exact_mod_cast hc.ne'
  have h1 : ∀ N, IwUnits c beta (iw2tauDft (N := N)) := by
    intro N g
    unfold iw2tauDft
    have : (fun k => 1 / ((beta / c : ℝ) : ℂ) * iwAll (fun i : Fin N => g i / c) k)
        = fun k => 1 / (beta : ℂ) * iwAll g k := by
      funext k
      unfold iwAll
      split_ifs
      · push_cast
        field_simp
      · rw [mul_zero, mul_zero]
    rw [this]
  refine ⟨h1 N, fun g => ?_⟩
  unfold iw2tauDftSoft
  have : softExtend (fun i : Fin N => g i / c) = fun k => softExtend g k / c := by
    funext k
    unfold softExtend
    split_ifs
    · rfl
    · exact (mul_div_assoc _ _ _).symm
  rw [this, h1 (2 * N) (softExtend g)]

/-- C78: the bosonic transforms from imaginary time to Matsubara frequencies. -/
theorem tau2iv_raw_units {c : ℝ} (hc : 0 < c) {beta : ℝ} (hb : beta ≠ 0) (T : ℕ) :
    TauUnits c beta (tau2ivDft (T := T)) ∧ TauUnits c beta (tau2ivFtLin (T := T)) := by
  have hcc : (c : ℂ) ≠ 0 := by exact_mod_cast hc.ne'
  constructor
  · intro g
    by_cases hT : T = 0
    · subst hT
      rfl
    obtain ⟨r, hr, h0, h1⟩ := tau2iv_dft_correct hT g hb
    obtain ⟨r', hr', h0', h1'⟩ := tau2iv_dft_correct hT g (div_ne_zero hb hc.ne' : beta / c ≠ 0)
    rw [hr, hr']
    simp only [Except.map]
    congr 1
    funext n
    by_cases hn : n = 0
    · subst hn
      rw [h0, h0']
      unfold trapz
      rw [Finset.sum_div]
      refine Finset.sum_congr rfl fun k _ => ?_
      push_cast
      field_simp
    · rw [(h1 n hn).1, (h1' n hn).1, mul_div_right_comm]
      congr 1
      · push_cast
        field_simp
      · refine Finset.sum_congr rfl fun k _ => ?_
        congr 2
        rw [(frequencies_units hc beta _ (fun _ _ _ => (0, 0)) 0).2.1]
        unfold tauPt
        push_cast
        field_simp
  · intro g
    unfold tau2ivFtLin
    cases ihfft fun k : Fin T => g k.castSucc with
    | error e => rfl
    | ok r =>
      cases ihfft fun k : Fin T => g k.succ - g k.castSucc with
      | error e => rfl
      | ok dr =>
        simp only [Except.map]
        congr 1
        funext n
        push_cast
        ring

private lemma linspace_div {c beta : ℝ} (k : ℕ) (i : Fin k) : linspace0 (beta / c) k i = linspace0 beta k i / c := by
  unfold linspace0
  split_ifs
  · rw [zero_div]
  · ring

/-- C78: `tau2iv`, for every transform that does not depend on the unit. -/
theorem tau2iv_units {c : ℝ} (hc : 0 < c) (beta : ℝ) {T : ℕ}
    {F : (Fin (T + 1) → ℝ) → ℝ → Except Err (Fin (T / 2 + 1) → ℂ)} (hF : TauUnits c beta F) :
    TauUnits c beta fun g b => tau2iv g b F := by
  have hcc : (c : ℂ) ≠ 0 := by exact_mod_cast hc.ne'
  intro g
  unfold tau2iv
  have e : (fun k => g k - (g (Fin.last T) - g 0) / (beta / c) * linspace0 (beta / c) (T + 1) k)
      = fun k => g k - (g (Fin.last T) - g 0) / beta * linspace0 beta (T + 1) k := by
    funext k
    rw [linspace_div]
    field_simp
  have hF' := hF fun k => g k - (g (Fin.last T) - g 0) / beta * linspace0 beta (T + 1) k
  simp only [e, hF', (fun n : ℤ => (frequencies_units hc beta n (fun _ _ _ => (0, 0)) 0).2.1)]
  cases F (fun k => g k - (g (Fin.last T) - g 0) / beta * linspace0 beta (T + 1) k) beta with
  | error e => rfl
  | ok r =>
    simp only [Except.map]
    congr 1
    funext n
    split_ifs
    · push_cast
      ring
    · rw [mul_comm (c : ℂ), ← div_div, add_div]

/-! ## Transforms with fitted tail -/

lemma evalZ_units {c : ℝ} (hc : 0 < c) {n : ℕ} (p : PoleFct ℝ n) (z : ℂ) :
    (scalePoleFct c p).evalZ (c * z) = p.evalZ z / c := by
  have := (pole_gf_z_units hc z (fun j => (p.poles j : ℂ)) fun j => (p.residues j : ℂ)).1
  unfold PoleFct.evalZ scalePoleFct
  push_cast
  exact this

lemma evalTauGrid_units {c : ℝ} (hc : 0 < c) {n : ℕ} (p : PoleFct ℝ n) (beta : ℝ) (k : ℕ) :
    evalTauGrid (scalePoleFct c p) (beta / c) k = evalTauGrid p beta k := by
  unfold evalTauGrid scalePoleFct
  have h0 : ∀ x : ℝ, 0 ≤ x / c ↔ 0 ≤ x := fun x => by rw [le_div_iff₀ hc, zero_mul]
  simp only [linspace_div, singlePoleGfTau_units hc, div_le_div_iff_of_pos_right hc, h0]

/-- C78: `iw2tau`, for every transform that does not depend on the unit, if the fit of the tail does not depend on it. -/
private lemma iw2tau_of {c : ℝ} (hc : 0 < c) (ext : LinalgExt ℝ) {N l : ℕ} (g : Fin N → ℂ) (beta : ℝ) (m : Fin l → ℝ)
    {F : (Fin N → ℂ) → ℝ → Except Err (Fin (2 * N + 1) → ℝ)} (hF : IwUnits c beta F) (nfit : ℕ)
    (hp : iw2tauPoles ext (fun i => g i / c) (beta / c) (scaleMoments c m) nfit
      = (iw2tauPoles ext g beta m nfit).map (scalePoleFct c)) :
    iw2tau ext (fun i => g i / c) (beta / c) (scaleMoments c m) F nfit = iw2tau ext g beta m F nfit := by
  unfold iw2tau
  rw [hp]
  cases iw2tauPoles ext g beta m nfit with
  | error e => rfl
  | ok p =>
    simp only [Except.map, (fun n : ℤ => (frequencies_units hc beta n (fun _ _ _ => (0, 0)) 0).1), evalZ_units hc,
      evalTauGrid_units hc, ← sub_div]
    rw [hF fun i => g i - p.evalZ (matsubaraFrequencies (i : ℕ) beta)]

/-- C78: `iw2tau` without additional fit and with at most one moment (as by default). Otherwise the result depends on the unit, see
`iw2tau_two_moments_depends_on_unit`. -/
theorem iw2tau_units_partial {c : ℝ} (hc : 0 < c) (ext : LinalgExt ℝ) {N l : ℕ} (g : Fin N → ℂ) (beta : ℝ) (m : Fin l → ℝ)
    {F : (Fin N → ℂ) → ℝ → Except Err (Fin (2 * N + 1) → ℝ)} (hF : IwUnits c beta F) (hl : l ≤ 1) :
    iw2tau ext (fun i => g i / c) (beta / c) (scaleMoments c m) F 0 = iw2tau ext g beta m F 0 := by
  refine iw2tau_of hc ext g beta m hF 0 ?_
  have e : ∀ m : Fin l → ℝ, gfFromMoments m (some 1) = gfFromMoments m none := fun m => by
    have : autoWidth l m none = 1 := by simp only [autoWidth, dif_neg (not_lt.2 hl)]
    simp only [gfFromMoments, this]
    rfl
  have h := (gf_from_moments_units hc m).2 (.inl hl)
  rw [← e, ← e] at h
  exact h

/-- C78: `tau2iw` with the default moments (the jump) or a single given moment, for every transform that does not depend on
the unit. For more moments the result depends on the unit, see `tau2iw_two_moments_depends_on_unit`. -/
theorem tau2iw_units_partial {c : ℝ} (hc : 0 < c) (ext : LinalgExt ℝ) (beta : ℝ) {T : ℕ} (m : Option (Fin 1 → ℝ))
    {F : (Fin (T + 1) → ℝ) → ℝ → Except Err (Fin ((T + 1) / 2) → ℂ)} (hF : TauUnits c beta F) :
    TauUnits c beta fun g b => tau2iw ext g b none (m.map fun m => ⟨1, m⟩) F := by
  have key : ∀ (g : Fin (T + 1) → ℝ) (m : Fin 1 → ℝ), tau2iwMoments ext g (beta / c) 1 m F
      = (tau2iwMoments ext g beta 1 m F).map fun r i => r i / (c : ℂ) := by
    intro g m
    have e1 : scaleMoments c m = m := funext fun i => by simp [scaleMoments]
    have hp := gf_from_tau_single_units ext hc (le_refl 1) g beta m 0 1 1 none (.inl rfl)
    rw [e1] at hp
    unfold tau2iwMoments
    rw [hp]
    cases gfFromTau ext g 1 beta m 0 1 none with
    | error e => rfl
    | ok p =>
      simp only [Except.map, evalTauGrid_units hc]
      cases evalTauGrid p beta (T + 1) with
      | error e => rfl
      | ok pt =>
        have hF' := hF fun k => g k - pt k
        simp only [hF', (fun n : ℤ => (frequencies_units hc beta n (fun _ _ _ => (0, 0)) 0).1), evalZ_units hc]
        cases F (fun k => g k - pt k) beta with
        | error e => rfl
        | ok r =>
          simp only [Except.map]
          congr 1
          funext i
          rw [add_div]
  intro g
  cases m with
  | none => exact key g _
  | some m => exact key g m

/-- C78: `izp2tau` and `tau2izp`, if the optimal width scales. -/
theorem izp_units {c : ℝ} (hc : 0 < c) (ext : LinalgExt ℝ) {k l T : ℕ} (izp gf : Fin k → ℂ) (tau beta : ℝ) (m : Fin l → ℝ)
    {w : ℝ} (hw : w ≠ 0) (g : Fin (T + 1) → ℝ) (occ : ℝ) (hocc : occ = 0 ∨ l = 1) (wt : Option (Fin (T + 1) → ℝ)) :
    izp2tau ext (fun i => c * izp i) (fun i => gf i / c) (tau / c) (beta / c) (scaleMoments c m) (c * w)
      = izp2tau ext izp gf tau beta m w ∧
    tau2izpMoments ext g (beta / c) (fun i => c * izp i) (scaleMoments c m) occ wt (c * w)
      = (tau2izpMoments ext g beta izp m occ wt w).map fun r i => r i / (c : ℂ) := by
  constructor
  · unfold izp2tau
    have := gf_from_z_units ext hc izp gf k m hw none one_ne_zero
    rw [Option.map_none] at this
    rw [this]
    cases gfFromZ ext izp gf k m (some w) none with
    | error e => rfl
    | ok p => exact (pole_gf_tau_units hc tau beta p.poles p.residues (fun j => (p.poles j : ℂ)) fun _ => 0).1
  · unfold tau2izpMoments
    rw [gf_from_tau_units ext hc g k beta m occ hw wt hocc]
    cases gfFromTau ext g k beta m occ w wt with
    | error e => rfl
    | ok p =>
      simp only [Except.map, evalZ_units hc]

/-- C78: `density_iw` without additional fit: for at most one moment, and if the first moment is not below `0.1` in one of
the units. Otherwise the result depends on the unit, see `density_iw_depends_on_unit`. -/
theorem density_iw_units_partial {c : ℝ} (hc : 0 < c) (ext : LinalgExt ℝ) {k l : ℕ} (iws gf : Fin k → ℂ) (beta : ℝ)
    (weights : Fin k → ℝ) (m : Fin l → ℝ) (nFit : ℕ)
    (hm : l ≤ 1 ∧ nFit = 0 ∨ ∃ h : 1 < l, 0.1 ≤ ‖m ⟨1, h⟩‖ ∧ 0.1 ≤ c * ‖m ⟨1, h⟩‖) :
    densityIw ext (fun i => c * iws i) (fun i => gf i / c) (beta / c) weights (scaleMoments c m) nFit
      = densityIw ext iws gf beta weights m nFit := by
  have key : ∀ {n : ℕ} (p : PoleFct ℝ n), 2 / (beta / c) * (∑ i, weights i * ((gf i / (c : ℂ)).re
        - (poleGfZ (c * iws i) (fun j => ((scalePoleFct c p).poles j : ℂ))
          (fun j => ((scalePoleFct c p).residues j : ℂ))).re))
        + poleOcc (scalePoleFct c p).poles (scalePoleFct c p).residues (beta / c)
      = 2 / beta * (∑ i, weights i * ((gf i).re
        - (poleGfZ (iws i) (fun j => (p.poles j : ℂ)) (fun j => (p.residues j : ℂ))).re))
        + poleOcc p.poles p.residues beta := by
    intro n p
    have e : ∀ i, poleGfZ (c * iws i) (fun j => ((scalePoleFct c p).poles j : ℂ))
        (fun j => ((scalePoleFct c p).residues j : ℂ))
        = poleGfZ (iws i) (fun j => (p.poles j : ℂ)) (fun j => (p.residues j : ℂ)) / c := fun i => evalZ_units hc p _
    rw [show poleOcc (scalePoleFct c p).poles (scalePoleFct c p).residues (beta / c) = poleOcc p.poles p.residues beta from
      (pole_moments_units hc p.poles p.residues 0 beta).2]
    simp only [e, Complex.div_ofReal_re, ← sub_div, ← mul_div_assoc]
    rw [← Finset.sum_div]
    field_simp
  unfold densityIw
  by_cases hn : nFit = 0
  · simp only [hn, ne_eq, not_true_eq_false, if_false]
    rw [(gf_from_moments_units hc m).2 (hm.imp_left And.left)]
    cases gfFromMoments m none with
    | error e => rfl
    | ok p =>
      simp only [Except.map]
      rw [key p]
  · obtain ⟨hl, h1, h2⟩ := hm.resolve_left fun h => hn h.2
    simp only [hn, ne_eq, not_false_eq_true, if_true]
    rw [gf_from_z_auto_units ext hc iws gf (nFit + l) m (some fun i => (iws i).im ^ (l + nFit)) _
      (pow_ne_zero (l + nFit) hc.ne') (by
        funext i
        simp only [Option.getD_some, Complex.im_ofReal_mul, mul_pow]) hl (by omega) h1 h2]
    cases gfFromZ ext iws gf (nFit + l) m none (some fun i => (iws i).im ^ (l + nFit)) with
    | error e => rfl
    | ok p =>
      simp only [Except.map]
      rw [key p]

/-- C78, non-vacuity: the default of `iw2tau`, for arbitrary data and two units. -/
example (ext : LinalgExt ℝ) (g : Fin 8 → ℂ) : iw2tau ext (fun i => g i / (3 : ℝ)) (10 / 3) (scaleMoments 3 ![1]) iw2tauDftSoft 0
    = iw2tau ext g 10 ![1] iw2tauDftSoft 0 :=
  iw2tau_units_partial (by norm_num) ext g 10 ![1] (iw2tau_raw_units (by norm_num) 10 8).2 le_rfl

end Gftool.Props
