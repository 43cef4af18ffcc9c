import Verif.Props.FourierPole
import Verif.Props.PoleFitOcc

/-!
# Property C44: transforms to and from general frequencies, also with a given occupation
-/

namespace Gftool.Props

open Gftool Model Spec Lemmas Matrix
open Complex (I)

/-- C44: `izp2tau` is affine in the data at a fixed pole spread. -/
theorem izp2tau_affine (ext : LinalgExt ℝ) {k l : ℕ} (izp : Fin k → ℂ) (hz : Function.Injective izp)
    (him : ∀ i, 0 < (izp i).im) (hk : k ≠ 0) {tau beta : ℝ} (ht : 0 ≤ tau) (htb : tau ≤ beta)
    (hl : l ≤ k) {width : ℝ} (hw : width ≠ 0) (moments : Fin l → ℝ) :
    AffineBackend fun g => izp2tau ext izp g tau beta moments width := by
  intro g h rg rh t hg hh
  simp only [izp2tau] at hg hh ⊢
  obtain ⟨p, x, y, h1, h2, h3⟩ := gf_from_z_affine ext izp hz him moments (some width) none (fun i => one_ne_zero) hk hl
    (by simpa using hw) (by omega) g h t
  have he : g + t • (h - g) = g + (t : ℂ) • (h - g) := by
    funext i
    simp
  rw [he, h3]
  rw [h1] at hg
  rw [h2] at hh
  simp only at hg hh ⊢
  rw [pole_gf_tau_eq, if_pos ⟨ht, htb⟩] at hg hh ⊢
  rw [← Except.ok.inj hg, ← Except.ok.inj hh]
  congr 1
  simp only [lehmannTau, Pi.add_apply, Pi.smul_apply, Pi.sub_apply, smul_eq_mul, add_mul, sub_mul, mul_sub, mul_assoc,
    Finset.sum_add_distrib, Finset.sum_sub_distrib, ← Finset.mul_sum]
  ring

/-- C44: `tau2izp` is affine in the data at a fixed pole spread also for given moments. -/
theorem tau2izp_affine_moments (ext : LinalgExt ℝ) {T k l : ℕ} (hT : T ≠ 0) {beta : ℝ} (hb : 0 < beta)
    (izp : Fin k → ℂ) (hk : k ≠ 0) (hkT : k ≤ T + 1) (hl : l ≤ k) (moments : Fin l → ℝ)
    (weight : Option (Fin (T + 1) → ℝ)) (hwt : ∀ i, (weight.getD fun _ => 1) i ≠ 0)
    {width : ℝ} (hw : width ≠ 0) :
    AffineBackend fun g => tau2izp ext g beta izp (some ⟨l, moments⟩) 0 weight width := by
  intro g h rg rh t hg hh
  by_cases hl0 : l = 0
  · simp only [tau2izp, if_pos hl0] at hg
    cases hg
  simp only [tau2izp, if_neg hl0, tau2izpMoments] at hg hh ⊢
  obtain ⟨p, x, y, h1, h2, h3⟩ := gf_from_tau_affine ext hT hb weight hwt hk hl hw hkT moments moments g h t
  rw [sub_self, smul_zero, add_zero] at h3
  rw [h1] at hg
  rw [h2] at hh
  rw [h3, ← Except.ok.inj hg, ← Except.ok.inj hh]
  change Except.ok _ = Except.ok _
  congr 1
  funext i
  simp only [PoleFct.evalZ]
  rw [poleGfZ_affine]
  simp only [Pi.add_apply, Pi.smul_apply, Pi.sub_apply, Complex.real_smul]

private lemma occMat_one {n : ℕ} (p r : Fin n → ℝ) (beta : ℝ) (mo : Fin 1 → ℝ) (oc : ℝ) :
    occMat 1 p beta *ᵥ r = occVec mo oc ↔ poleMoments p r 1 = mo 0 ∧ poleOcc p r beta = oc := by
  rw [occMat_mulVec p r beta mo oc one_pos]
  refine and_congr_left fun _ => ⟨fun h => by simpa using h 0, fun h m => ?_⟩
  fin_cases m
  simpa using h

/-- The fit with one moment and an occupation is a constrained least squares problem. -/
private lemma gf_from_tau_occ_lsq (ext : LinalgExt ℝ) {k n : ℕ} (gf : Fin k → ℝ) {beta : ℝ}
    (hb : 0 < beta) (moments : Fin 1 → ℝ) {occ width : ℝ} (weight : Option (Fin k → ℝ))
    (hn : 2 ≤ n) (hocc : occ ≠ 0) (hocc2 : |occ| < 2) (hw : width ≠ 0) (p : Fin n → ℝ)
    (hp : p = fun j => width * chebyshevPoints n j) :
    ∃ x, gfFromTau ext gf n beta moments occ width weight = .ok ⟨p, x⟩ ∧
      ConstrLsq (fitMatTau beta p (weight.getD fun _ => 1)) (occMat 1 p beta)
        (fun i => (weight.getD fun _ => 1) i * gf i) (occVec moments occ) x := by
  obtain ⟨⟨q, x⟩, h1, h2, h3, h4, h5⟩ := gf_from_tau_occ_one_moment_optimal ext gf hb moments weight hn hocc hocc2 hw
  have hq : q = p := by rw [hp]; exact funext h2
  subst hq
  have ht := fun i => linspace_mem (k := k) hb.le i
  refine ⟨x, h1, (occMat_one _ _ _ _ _).2 ⟨h3, h4⟩, fun x' hx' => ?_⟩
  rw [← fitErrorTau_eq _ _ _ _ _ ht, ← fitErrorTau_eq _ _ _ _ _ ht]
  have := (occMat_one _ _ _ _ _).1 hx'
  exact h5 x' this.1 this.2

/-- C44: `pole_gf_from_tau` with one moment and the occupation recovers the residues of a pole function on its nodes. -/
theorem gf_from_tau_occ_recovers (ext : LinalgExt ℝ) {T n : ℕ} (hT : T ≠ 0) {beta : ℝ}
    (hb : 0 < beta) (moments : Fin 1 → ℝ) {width : ℝ} (weight : Option (Fin (T + 1) → ℝ))
    (hwt : ∀ i, (weight.getD fun _ => 1) i ≠ 0) (hn : 2 ≤ n) (hw : width ≠ 0) (hnT : n ≤ T + 1) (p r : Fin n → ℝ)
    (hp : p = fun j => width * chebyshevPoints n j) (hmom : poleMoments p r 1 = moments 0)
    (hocc : poleOcc p r beta ≠ 0) (hocc2 : |poleOcc p r beta| < 2) :
    gfFromTau ext (fun i : Fin (T + 1) => lehmannTau beta p r (tauPt beta T i)) n beta moments (poleOcc p r beta) width
      weight = .ok ⟨p, r⟩ := by
  obtain ⟨x, h1, h2⟩ := gf_from_tau_occ_lsq ext
    (fun i : Fin (T + 1) => lehmannTau beta p r (tauPt beta T i)) hb moments weight hn hocc hocc2 hw p hp
  have hinj : Function.Injective p := by
    rw [hp]; exact scaled_injective (Or.inl hw)
  have h3 : ConstrLsq (fitMatTau beta p (weight.getD fun _ => 1)) (occMat 1 p beta)
      (fun i => (weight.getD fun _ => 1) i * lehmannTau beta p r (tauPt beta T i)) (occVec moments (poleOcc p r beta)) r := by
    have hA : (fun i : Fin (T + 1) => (weight.getD fun _ => 1) i * lehmannTau beta p r (tauPt beta T i))
        = fitMatTau beta p (weight.getD fun _ => 1) *ᵥ r := by
      rw [fit_mat_tau_mulVec]
      funext i
      rw [linspace_eq_tauPt _ hT]
    rw [hA, ← (occMat_one p r beta moments _).2 ⟨hmom, rfl⟩]
    exact ConstrLsq.exact r
  rw [h1, h2.unique (fun v _ hv => fit_mat_tau_inj hT hb p hinj _ hwt hnT v hv) h3]

/-- C44: `tau2izp` with a given occupation is exact for pole functions on its nodes, with the default moments. -/
theorem tau2izp_occ_exact (ext : LinalgExt ℝ) {T k : ℕ} (hT : T ≠ 0) {beta : ℝ} (hb : 0 < beta)
    (izp : Fin k → ℂ) (hk : 2 ≤ k) (hkT : k ≤ T + 1)
    (weight : Option (Fin (T + 1) → ℝ)) (hwt : ∀ i, (weight.getD fun _ => 1) i ≠ 0)
    {width : ℝ} (hw : width ≠ 0) (p r : Fin k → ℝ) (hp : p = fun j => width * chebyshevPoints k j)
    (hocc : poleOcc p r beta ≠ 0) (hocc2 : |poleOcc p r beta| < 2) :
    tau2izp ext (fun i => lehmannTau beta p r (tauPt beta T i)) beta izp none (poleOcc p r beta) weight width
      = .ok fun i => poleGfZ (izp i) (fun j => (p j : ℂ)) fun j => (r j : ℂ) := by
  simp only [tau2izp, tau2izpMoments]
  rw [gf_from_tau_occ_recovers ext hT hb _ weight hwt hk hw hkT p r hp (by
    rw [tau_jump_lehmann hT hb.le]
    exact poleMoments_one p r 0) hocc hocc2]
  simp only [PoleFct.evalZ]

/-- C44: `tau2izp` with a given occupation is affine in the data at a fixed pole spread. -/
theorem tau2izp_occ_affine (ext : LinalgExt ℝ) {T k : ℕ} (hT : T ≠ 0) {beta : ℝ} (hb : 0 < beta)
    (izp : Fin k → ℂ) (hk : 2 ≤ k) (hkT : k ≤ T + 1)
    (weight : Option (Fin (T + 1) → ℝ)) (hwt : ∀ i, (weight.getD fun _ => 1) i ≠ 0)
    {width : ℝ} (hw : width ≠ 0) {occ : ℝ} (hocc : occ ≠ 0) (hocc2 : |occ| < 2) :
    AffineBackend fun g => tau2izp ext g beta izp none occ weight width := by
  intro g h rg rh t hg hh
  simp only [tau2izp, tau2izpMoments] at hg hh ⊢
  obtain ⟨p, hp⟩ : ∃ p : Fin k → ℝ, p = fun j => width * chebyshevPoints k j := ⟨_, rfl⟩
  have hinj : Function.Injective p := by
    rw [hp]; exact scaled_injective (Or.inl hw)
  obtain ⟨x, h1, h2⟩ := gf_from_tau_occ_lsq ext g hb (fun _ => tauJump g) weight hk hocc hocc2 hw p hp
  obtain ⟨y, h3, h4⟩ := gf_from_tau_occ_lsq ext h hb (fun _ => tauJump h) weight hk hocc hocc2 hw p hp
  obtain ⟨w, h5, h6⟩ := gf_from_tau_occ_lsq ext (g + t • (h - g)) hb (fun _ => tauJump (g + t • (h - g))) weight hk hocc
    hocc2 hw p hp
  have h7 := h2.affine h4 t
  have he : (fun i => (weight.getD fun _ => 1) i * g i)
      + t • ((fun i => (weight.getD fun _ => 1) i * h i) - fun i => (weight.getD fun _ => 1) i * g i)
      = fun i => (weight.getD fun _ => 1) i * (g + t • (h - g)) i := by
    funext i
    simp only [Pi.add_apply, Pi.smul_apply, Pi.sub_apply, smul_eq_mul]
    ring
  have hd : occVec (fun _ : Fin 1 => tauJump g) occ
      + t • (occVec (fun _ : Fin 1 => tauJump h) occ - occVec (fun _ => tauJump g) occ)
      = occVec (fun _ : Fin 1 => tauJump (g + t • (h - g))) occ := by
    funext i
    refine Fin.addCases (fun i => ?_) (fun i => ?_) i
    · simp only [occVec, Pi.add_apply, Pi.smul_apply, Pi.sub_apply, smul_eq_mul, Fin.append_left, tauJump]
      ring
    · simp only [occVec, Pi.add_apply, Pi.smul_apply, Pi.sub_apply, smul_eq_mul, Fin.append_right]
      ring
  rw [he, hd] at h7
  have hw' := h6.unique (fun v _ hv => fit_mat_tau_inj hT hb p hinj _ hwt hkT v hv) h7
  rw [h1] at hg
  rw [h3] at hh
  rw [h5, hw', ← Except.ok.inj hg, ← Except.ok.inj hh]
  change Except.ok _ = Except.ok _
  congr 1
  funext i
  simp only [PoleFct.evalZ]
  rw [poleGfZ_affine]
  simp only [Pi.add_apply, Pi.smul_apply, Pi.sub_apply, Complex.real_smul]

/-- Two poles of weight one half, so that the occupation is between zero and one. -/
example : ∃ (p r : Fin 2 → ℝ), p = (fun j => 1 * chebyshevPoints 2 j) ∧ poleOcc p r 1 ≠ 0 ∧ |poleOcc p r 1| < 2 := by
  refine ⟨_, fun _ => 1 / 2, rfl, ?_, ?_⟩
  all_goals
    have h0 := fermi_fct_mem_Ioo ((fun j : Fin 2 => 1 * chebyshevPoints 2 j) 0) 1
    have h1 := fermi_fct_mem_Ioo ((fun j : Fin 2 => 1 * chebyshevPoints 2 j) 1) 1
    unfold poleOcc
    rw [Fin.sum_univ_two]
  · nlinarith [h0.1, h1.1]
  · rw [abs_lt]
    constructor <;> nlinarith [h0.1, h1.1, h0.2, h1.2]

end Gftool.Props
