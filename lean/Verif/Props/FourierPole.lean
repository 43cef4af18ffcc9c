import Verif.Lemmas.Fit
import Verif.Props.Fourier

/-!
# Property C44: treatment of the high-frequency moments

The Fourier transforms with moments subtract a fitted pole function and add its exact transform.
-/

namespace Gftool.Props

open Gftool Model Spec Lemmas Matrix
open Complex (I)

/-! ## The fits -/

/-- The fit in frequency space is a constrained least squares problem. -/
lemma gf_from_z_lsq (ext : LinalgExt ℝ) {k l n : ℕ} (z gf : Fin k → ℂ)
    (moments : Fin l → ℝ) (width : Option ℝ) (weight : Option (Fin k → ℝ)) (hn : n ≠ 0)
    (hln : l ≤ n) (hw : width ≠ some 0) (p : Fin n → ℝ)
    (hp : p = fun j => autoWidth n moments width * chebyshevPoints n j) :
    ∃ x, gfFromZ ext z gf n moments width weight = .ok ⟨p, x⟩ ∧
      ConstrLsq (fitMatZ z p (weight.getD fun _ => 1)) (vanderT ℝ l p)
        (fitVecZ gf (weight.getD fun _ => 1)) moments x := by
  obtain ⟨⟨q, x⟩, h1, h2, h3, h4⟩ := gf_from_z_correct ext z gf moments width weight hn hln hw
  have hq : q = p := by rw [hp]; exact funext h2
  subst hq
  refine ⟨x, h1, funext fun m => ?_, fun x' hx' => ?_⟩
  · rw [vander_mulVec]; exact h3 m
  · rw [← fitErrorZ_eq, ← fitErrorZ_eq]
    exact h4 x' fun m => by rw [← vander_mulVec, hx']

/-- The fit matrix in frequency space. -/
lemma fit_mat_z_mulVec {k n : ℕ} (z : Fin k → ℂ) (p r : Fin n → ℝ) (weight : Fin k → ℝ) :
    fitMatZ z p weight *ᵥ r
      = fitVecZ (fun i => poleGfZ (z i) (fun j => (p j : ℂ)) fun j => (r j : ℂ)) weight := by
  have h := fitErrorZ_eq z (fun i => poleGfZ (z i) (fun j => (p j : ℂ)) fun j => (r j : ℂ)) weight p r
  unfold fitErrorZ at h
  simp only [sub_self, map_zero, mul_zero, Finset.sum_const_zero] at h
  rw [sqNorm_eq_dot] at h
  exact sub_eq_zero.1 (dotProduct_self_eq_zero.1 h.symm)

lemma fit_mat_z_inj {k n : ℕ} (z : Fin k → ℂ) (hz : Function.Injective z) (him : ∀ i, 0 < (z i).im)
    (p : Fin n → ℝ) (hp : Function.Injective p) (weight : Fin k → ℝ) (hwt : ∀ i, weight i ≠ 0)
    (hn : n ≤ 2 * k) (v : Fin n → ℝ) (hv : fitMatZ z p weight *ᵥ v = 0) : v = 0 := by
  refine pole_unique p v hp z hz him hn fun i => ?_
  rw [fit_mat_z_mulVec] at hv
  have h1 := congrFun hv (Fin.castAdd k i)
  have h2 := congrFun hv (Fin.natAdd k i)
  simp only [fitVecZ, Fin.append_left, Fin.append_right, Pi.zero_apply, mul_eq_zero, hwt i,
    false_or] at h1 h2
  exact Complex.ext h1 h2

/-- C44: `pole_gf_from_z` recovers the residues of a pole function on its nodes from enough
frequencies. -/
theorem gf_from_z_recovers (ext : LinalgExt ℝ) {k l n : ℕ} (z : Fin k → ℂ)
    (hz : Function.Injective z) (him : ∀ i, 0 < (z i).im)
    (moments : Fin l → ℝ) (width : Option ℝ) (weight : Option (Fin k → ℝ))
    (hwt : ∀ i, (weight.getD fun _ => 1) i ≠ 0) (hn : n ≠ 0)
    (hln : l ≤ n) (hw : width ≠ some 0) (hnk : n ≤ 2 * k) (p r : Fin n → ℝ)
    (hp : p = fun j => autoWidth n moments width * chebyshevPoints n j)
    (hmom : ∀ m : Fin l, poleMoments p r ((m : ℕ) + 1 : ℤ) = moments m) :
    gfFromZ ext z (fun i => poleGfZ (z i) (fun j => (p j : ℂ)) fun j => (r j : ℂ)) n moments width
      weight = .ok ⟨p, r⟩ := by
  obtain ⟨x, h1, h2⟩ := gf_from_z_lsq ext z
    (fun i => poleGfZ (z i) (fun j => (p j : ℂ)) fun j => (r j : ℂ)) moments width weight hn hln hw p hp
  have hinj : Function.Injective p := by
    rw [hp]
    refine scaled_injective ?_
    cases width with
    | none =>
      by_cases h1 : n ≤ 1
      · exact Or.inr h1
      · exact Or.inl (auto_width_pos (Or.inl (by omega)) moments).ne'
    | some v => exact Or.inl fun h => hw (by simpa [autoWidth] using h)
  have h3 : ConstrLsq (fitMatZ z p (weight.getD fun _ => 1)) (vanderT ℝ l p)
      (fitVecZ (fun i => poleGfZ (z i) (fun j => (p j : ℂ)) fun j => (r j : ℂ))
        (weight.getD fun _ => 1)) moments r := by
    rw [← fit_mat_z_mulVec]
    have hm : moments = vanderT ℝ l p *ᵥ r := funext fun m => by rw [vander_mulVec, hmom]
    rw [hm]
    exact ConstrLsq.exact r
  rw [h1, h2.unique (fun v _ hv => fit_mat_z_inj z hz him p hinj _ hwt hnk v hv) h3]

/-- C44: the fit depends affinely on the data. -/
theorem gf_from_z_affine (ext : LinalgExt ℝ) {k l n : ℕ} (z : Fin k → ℂ)
    (hz : Function.Injective z) (him : ∀ i, 0 < (z i).im)
    (moments : Fin l → ℝ) (width : Option ℝ) (weight : Option (Fin k → ℝ))
    (hwt : ∀ i, (weight.getD fun _ => 1) i ≠ 0) (hn : n ≠ 0)
    (hln : l ≤ n) (hw : width ≠ some 0) (hnk : n ≤ 2 * k) (g h : Fin k → ℂ) (t : ℝ) :
    ∃ p x y, gfFromZ ext z g n moments width weight = .ok ⟨p, x⟩ ∧
      gfFromZ ext z h n moments width weight = .ok ⟨p, y⟩ ∧
      gfFromZ ext z (g + (t : ℂ) • (h - g)) n moments width weight = .ok ⟨p, x + t • (y - x)⟩ := by
  obtain ⟨x, h1, h2⟩ := gf_from_z_lsq ext z g moments width weight hn hln hw _ rfl
  obtain ⟨y, h3, h4⟩ := gf_from_z_lsq ext z h moments width weight hn hln hw _ rfl
  obtain ⟨w, h5, h6⟩ := gf_from_z_lsq ext z (g + (t : ℂ) • (h - g)) moments width weight hn hln hw
    _ rfl
  refine ⟨_, x, y, h1, h3, ?_⟩
  rw [h5]
  set p : Fin n → ℝ := fun j => autoWidth n moments width * chebyshevPoints n j with hp
  have hinj : Function.Injective p := by
    rw [hp]
    refine scaled_injective ?_
    cases width with
    | none =>
      by_cases h1 : n ≤ 1
      · exact Or.inr h1
      · exact Or.inl (auto_width_pos (Or.inl (by omega)) moments).ne'
    | some v => exact Or.inl fun h => hw (by simpa [autoWidth] using h)
  have h7 := h2.affine h4 t
  have hb : fitVecZ g (weight.getD fun _ => 1) + t • (fitVecZ h (weight.getD fun _ => 1)
      - fitVecZ g (weight.getD fun _ => 1))
      = fitVecZ (g + (t : ℂ) • (h - g)) (weight.getD fun _ => 1) := by
    funext i
    refine Fin.addCases (fun i => ?_) (fun i => ?_) i
    · simp only [fitVecZ, Pi.add_apply, Pi.smul_apply, Pi.sub_apply, Fin.append_left, smul_eq_mul,
        Complex.add_re, Complex.re_ofReal_mul, Complex.sub_re]
      ring
    · simp only [fitVecZ, Pi.add_apply, Pi.smul_apply, Pi.sub_apply, Fin.append_right, smul_eq_mul,
        Complex.add_im, Complex.im_ofReal_mul, Complex.sub_im]
      ring
  rw [hb, sub_self, smul_zero, add_zero] at h7
  rw [h6.unique (fun v _ hv => fit_mat_z_inj z hz him p hinj _ hwt hnk v hv) h7]

/-- The fit in imaginary time is a constrained least squares problem. -/
lemma gf_from_tau_lsq (ext : LinalgExt ℝ) {k l n : ℕ} (gf : Fin k → ℝ) {beta : ℝ}
    (hb : 0 ≤ beta) (moments : Fin l → ℝ) {width : ℝ} (weight : Option (Fin k → ℝ)) (hn : n ≠ 0)
    (hln : l ≤ n) (hw : width ≠ 0) (p : Fin n → ℝ) (hp : p = fun j => width * chebyshevPoints n j) :
    ∃ x, gfFromTau ext gf n beta moments 0 width weight = .ok ⟨p, x⟩ ∧
      ConstrLsq (fitMatTau beta p (weight.getD fun _ => 1)) (vanderT ℝ l p)
        (fun i => (weight.getD fun _ => 1) i * gf i) moments x := by
  obtain ⟨⟨q, x⟩, h1, h2, h3, h4⟩ := gf_from_tau_moments ext gf hb moments weight hn hln hw
  have hq : q = p := by rw [hp]; exact funext h2
  subst hq
  have ht := fun i => linspace_mem (k := k) hb i
  refine ⟨x, h1, funext fun m => ?_, fun x' hx' => ?_⟩
  · rw [vander_mulVec]; exact h3 m
  · rw [← fitErrorTau_eq _ _ _ _ _ ht, ← fitErrorTau_eq _ _ _ _ _ ht]
    exact h4 x' fun m => by rw [← vander_mulVec, hx']

/-- The fit matrix in imaginary time. -/
lemma fit_mat_tau_mulVec {k n : ℕ} (beta : ℝ) (p r : Fin n → ℝ) (weight : Fin k → ℝ) :
    fitMatTau beta p weight *ᵥ r = fun i => weight i * lehmannTau beta p r (linspace0 beta k i) := by
  funext i
  simp only [mulVec, dotProduct, fitMatTau, of_apply, single_pole_tau_eq, lehmannTau]
  rw [mul_neg, Finset.mul_sum, ← Finset.sum_neg_distrib]
  exact Finset.sum_congr rfl fun j _ => by ring

lemma fit_mat_tau_inj {T n : ℕ} (hT : T ≠ 0) {beta : ℝ} (hb : 0 < beta)
    (p : Fin n → ℝ) (hp : Function.Injective p) (weight : Fin (T + 1) → ℝ)
    (hwt : ∀ i, weight i ≠ 0) (hn : n ≤ T + 1) (v : Fin n → ℝ)
    (hv : fitMatTau beta p weight *ᵥ v = 0) : v = 0 := by
  have hTr : (0 : ℝ) < T := by exact_mod_cast Nat.pos_of_ne_zero hT
  have hD : 0 < beta / T := div_pos hb hTr
  have hf : ∀ j, 1 - Spec.fermi beta (p j) ≠ 0 := by
    intro j
    have := Real.exp_pos (beta * p j)
    unfold Spec.fermi
    have h2 : Real.exp (beta * p j) + 1 ≠ 0 := by positivity
    intro h
    field_simp at h
    linarith
  rw [fit_mat_tau_mulVec] at hv
  have hx : Function.Injective fun j => Real.exp (-(p j) * (beta / T)) := by
    intro a b hab
    have := Real.exp_injective hab
    have := mul_right_cancel₀ hD.ne' this
    exact hp (neg_injective this)
  have h0 : (fun j => v j * (1 - Spec.fermi beta (p j))) = 0 := by
    refine Matrix.eq_zero_of_forall_pow_sum_mul_pow_eq_zero hx fun i => ?_
    have h1 := congrFun hv ⟨i, by have := i.2; omega⟩
    simp only [Pi.zero_apply, mul_eq_zero, hwt, false_or, lehmannTau, neg_eq_zero] at h1
    rw [linspace_eq_tauPt _ hT] at h1
    rw [← h1]
    refine Finset.sum_congr rfl fun j _ => ?_
    rw [← Real.exp_nat_mul, mul_assoc]
    congr 3
    simp only [tauPt]
    ring
  funext j
  have := congrFun h0 j
  simpa [hf j] using this

/-- C44: `pole_gf_from_tau` recovers the residues of a pole function on its nodes. -/
theorem gf_from_tau_recovers (ext : LinalgExt ℝ) {T l n : ℕ} (hT : T ≠ 0) {beta : ℝ}
    (hb : 0 < beta) (moments : Fin l → ℝ) {width : ℝ} (weight : Option (Fin (T + 1) → ℝ))
    (hwt : ∀ i, (weight.getD fun _ => 1) i ≠ 0) (hn : n ≠ 0)
    (hln : l ≤ n) (hw : width ≠ 0) (hnT : n ≤ T + 1) (p r : Fin n → ℝ)
    (hp : p = fun j => width * chebyshevPoints n j)
    (hmom : ∀ m : Fin l, poleMoments p r ((m : ℕ) + 1 : ℤ) = moments m) :
    gfFromTau ext (fun i : Fin (T + 1) => lehmannTau beta p r (tauPt beta T i)) n beta moments 0 width
      weight = .ok ⟨p, r⟩ := by
  obtain ⟨x, h1, h2⟩ := gf_from_tau_lsq ext
    (fun i : Fin (T + 1) => lehmannTau beta p r (tauPt beta T i)) hb.le moments weight hn hln hw p hp
  have hinj : Function.Injective p := by
    rw [hp]; exact scaled_injective (Or.inl hw)
  have h3 : ConstrLsq (fitMatTau beta p (weight.getD fun _ => 1)) (vanderT ℝ l p)
      (fun i => (weight.getD fun _ => 1) i * lehmannTau beta p r (tauPt beta T i)) moments r := by
    have hA : (fun i : Fin (T + 1) => (weight.getD fun _ => 1) i * lehmannTau beta p r (tauPt beta T i))
        = fitMatTau beta p (weight.getD fun _ => 1) *ᵥ r := by
      rw [fit_mat_tau_mulVec]
      funext i
      rw [linspace_eq_tauPt _ hT]
    have hm : moments = vanderT ℝ l p *ᵥ r := funext fun m => by rw [vander_mulVec, hmom]
    rw [hA, hm]
    exact ConstrLsq.exact r
  rw [h1, h2.unique (fun v _ hv => fit_mat_tau_inj hT hb p hinj _ hwt hnT v hv) h3]

/-- C44: the fit depends affinely on data and moments. -/
theorem gf_from_tau_affine (ext : LinalgExt ℝ) {T l n : ℕ} (hT : T ≠ 0) {beta : ℝ}
    (hb : 0 < beta) {width : ℝ} (weight : Option (Fin (T + 1) → ℝ))
    (hwt : ∀ i, (weight.getD fun _ => 1) i ≠ 0) (hn : n ≠ 0)
    (hln : l ≤ n) (hw : width ≠ 0) (hnT : n ≤ T + 1) (mg mh : Fin l → ℝ) (g h : Fin (T + 1) → ℝ)
    (t : ℝ) :
    ∃ p x y, gfFromTau ext g n beta mg 0 width weight = .ok ⟨p, x⟩ ∧
      gfFromTau ext h n beta mh 0 width weight = .ok ⟨p, y⟩ ∧
      gfFromTau ext (g + t • (h - g)) n beta (mg + t • (mh - mg)) 0 width weight
        = .ok ⟨p, x + t • (y - x)⟩ := by
  obtain ⟨x, h1, h2⟩ := gf_from_tau_lsq ext g hb.le mg weight hn hln hw _ rfl
  obtain ⟨y, h3, h4⟩ := gf_from_tau_lsq ext h hb.le mh weight hn hln hw _ rfl
  obtain ⟨w, h5, h6⟩ := gf_from_tau_lsq ext (g + t • (h - g)) hb.le (mg + t • (mh - mg)) weight hn
    hln hw _ rfl
  refine ⟨_, x, y, h1, h3, ?_⟩
  rw [h5]
  have h7 := h2.affine h4 t
  have he : (fun i => (weight.getD fun _ => 1) i * g i)
      + t • ((fun i => (weight.getD fun _ => 1) i * h i) - fun i => (weight.getD fun _ => 1) i * g i)
      = fun i => (weight.getD fun _ => 1) i * (g + t • (h - g)) i := by
    funext i
    simp only [Pi.add_apply, Pi.smul_apply, Pi.sub_apply, smul_eq_mul]
    ring
  rw [he] at h7
  rw [h6.unique (fun v _ hv => fit_mat_tau_inj hT hb _ (scaled_injective (Or.inl hw)) _ hwt hnT v hv)
    h7]

/-! ## Matsubara frequencies and backends -/

lemma matsubara_im (n : ℤ) (beta : ℝ) :
    (matsubaraFrequencies n beta).im = Real.pi / beta * (2 * n + 1) := by
  have : matsubaraFrequencies n beta = ((Real.pi / beta * (2 * n + 1) : ℝ) : ℂ) * I := by
    unfold matsubaraFrequencies
    push_cast
    ring
  rw [this]
  simp

lemma matsubara_im_pos (n : ℕ) {beta : ℝ} (hb : 0 < beta) :
    0 < (matsubaraFrequencies (n : ℤ) beta).im := by
  rw [matsubara_im]
  have := Real.pi_pos
  push_cast
  positivity

lemma matsubara_injective {beta : ℝ} (hb : 0 < beta) (N : ℕ) :
    Function.Injective fun i : Fin N => matsubaraFrequencies ((i : ℕ) : ℤ) beta := by
  intro a b hab
  have := congrArg Complex.im hab
  simp only [matsubara_im] at this
  have hpi := Real.pi_pos
  have h1 := mul_left_cancel₀ (div_pos hpi hb).ne' this
  have h2 : ((a : ℕ) : ℝ) = (b : ℕ) := by push_cast at h1; linarith
  exact Fin.ext (by exact_mod_cast h2)

/-- On the grid of the transforms `eval_tau` is the Lehmann expression. -/
lemma eval_tau_grid {n T : ℕ} (hT : T ≠ 0) {beta : ℝ} (hb : 0 ≤ beta) (p : PoleFct ℝ n) :
    evalTauGrid p beta (T + 1)
      = .ok fun i => lehmannTau beta p.poles p.residues (tauPt beta T i) := by
  unfold evalTauGrid
  rw [if_pos fun i => linspace_mem hb i]
  congr 1
  funext i
  simp only [lehmannTau, single_pole_tau_eq, linspace_eq_tauPt _ hT]
  rw [← Finset.sum_neg_distrib]
  exact Finset.sum_congr rfl fun j _ => by ring

/-- A backend that maps affine combinations of data to those of the results. -/
def AffineBackend {V W : Type*} [AddCommGroup V] [AddCommGroup W] [SMul ℝ V] [SMul ℝ W]
    (F : V → Except Err W) : Prop :=
  ∀ (g h : V) (rg rh : W) (t : ℝ), F g = .ok rg → F h = .ok rh →
    F (g + t • (h - g)) = .ok (rg + t • (rh - rg))

lemma ihfft_affine {n : ℕ} : AffineBackend (ihfft (n := n)) := by
  intro g h rg rh t hg hh
  unfold ihfft at hg hh ⊢
  by_cases hn : n = 0
  · rw [if_pos hn] at hg; cases hg
  · rw [if_neg hn] at hg hh ⊢
    rw [← Except.ok.inj hg, ← Except.ok.inj hh]
    congr 1
    funext m
    simp only [Pi.add_apply, Pi.smul_apply, Pi.sub_apply, Complex.real_smul]
    rw [← mul_sub, ← Finset.sum_sub_distrib, mul_left_comm, ← mul_add, Finset.mul_sum (a := (t : ℂ)),
      ← Finset.sum_add_distrib]
    congr 1
    refine Finset.sum_congr rfl fun k _ => ?_
    simp only [smul_eq_mul]
    push_cast
    ring

lemma hfft_affine {m : ℕ} : AffineBackend (hfft (m := m)) := by
  intro g h rg rh t hg hh
  unfold hfft at hg hh ⊢
  by_cases hn : 2 * (m - 1) < 1
  · rw [if_pos hn] at hg; cases hg
  · rw [if_neg hn] at hg hh ⊢
    rw [← Except.ok.inj hg, ← Except.ok.inj hh]
    congr 1
    funext j
    simp only [Pi.add_apply, Pi.smul_apply, Pi.sub_apply, Complex.real_smul, smul_eq_mul]
    rw [← Finset.sum_sub_distrib, Finset.mul_sum, ← Finset.sum_add_distrib]
    refine Finset.sum_congr rfl fun k _ => ?_
    rw [add_mul, mul_assoc (t : ℂ), sub_mul, Complex.add_re, Complex.re_ofReal_mul, Complex.sub_re]
    ring

/-- C44: `iw2tau_dft` is affine in the data (even linear) … -/
theorem iw2tau_dft_affine {N : ℕ} (beta : ℝ) :
    AffineBackend fun g : Fin N → ℂ => iw2tauDft g beta := by
  intro g h rg rh t hg hh
  simp only [iw2tauDft] at hg hh ⊢
  rcases h1 : hfft fun k => 1 / (beta : ℂ) * iwAll g k with e | a
  · rw [h1] at hg; cases hg
  rcases h2 : hfft fun k => 1 / (beta : ℂ) * iwAll h k with e | b
  · rw [h2] at hh; cases hh
  have h3 := hfft_affine _ _ a b t h1 h2
  have he : ((fun k => 1 / (beta : ℂ) * iwAll g k) + t • ((fun k => 1 / (beta : ℂ) * iwAll h k)
      - fun k => 1 / (beta : ℂ) * iwAll g k)) = fun k => 1 / (beta : ℂ) * iwAll (g + t • (h - g)) k := by
    funext k
    simp only [Pi.add_apply, Pi.smul_apply, Pi.sub_apply, Complex.real_smul, iwAll]
    split_ifs
    · ring
    · ring
  rw [he] at h3
  rw [h1] at hg
  rw [h2] at hh
  rw [h3, ← Except.ok.inj hg, ← Except.ok.inj hh]
  change Except.ok _ = Except.ok _
  congr 1
  funext j
  simp only [Pi.add_apply, Pi.smul_apply, Pi.sub_apply, smul_eq_mul]
  split_ifs <;> ring

/-- … as is the soft variant. -/
theorem iw2tau_dft_soft_affine {N : ℕ} (beta : ℝ) :
    AffineBackend fun g : Fin N → ℂ => iw2tauDftSoft g beta := by
  intro g h rg rh t hg hh
  simp only [iw2tauDftSoft] at hg hh ⊢
  rcases h1 : iw2tauDft (softExtend g) beta with e | a
  · rw [h1] at hg; cases hg
  rcases h2 : iw2tauDft (softExtend h) beta with e | b
  · rw [h2] at hh; cases hh
  have h3 := iw2tau_dft_affine beta _ _ a b t h1 h2
  have he : softExtend g + t • (softExtend h - softExtend g) = softExtend (g + t • (h - g)) := by
    funext k
    simp only [Pi.add_apply, Pi.smul_apply, Pi.sub_apply, Complex.real_smul, softExtend]
    split_ifs
    · ring
    · ring
  simp only [he] at h3
  rw [h1] at hg
  rw [h2] at hh
  rw [h3, ← Except.ok.inj hg, ← Except.ok.inj hh]
  change Except.ok _ = Except.ok _
  congr 1

/-- C44: `tau2iw_dft` is affine … -/
theorem tau2iw_dft_affine {T : ℕ} (beta : ℝ) :
    AffineBackend fun g : Fin (T + 1) → ℝ => tau2iwDft g beta := by
  intro g h rg rh t hg hh
  simp only [tau2iwDft] at hg hh ⊢
  rcases h1 : ihfft fun k : Fin (2 * T) => fullRange g k.castSucc with e | a
  · rw [h1] at hg; cases hg
  rcases h2 : ihfft fun k : Fin (2 * T) => fullRange h k.castSucc with e | b
  · rw [h2] at hh; cases hh
  have h3 := ihfft_affine _ _ a b t h1 h2
  have he : ((fun k : Fin (2 * T) => fullRange g k.castSucc)
      + t • ((fun k : Fin (2 * T) => fullRange h k.castSucc)
        - fun k : Fin (2 * T) => fullRange g k.castSucc))
      = fun k : Fin (2 * T) => fullRange (g + t • (h - g)) k.castSucc := by
    funext k
    simp only [Pi.add_apply, Pi.smul_apply, Pi.sub_apply, smul_eq_mul, fullRange]
    split_ifs
    · ring
    · ring
  rw [he] at h3
  rw [h1] at hg
  rw [h2] at hh
  rw [h3, ← Except.ok.inj hg, ← Except.ok.inj hh]
  change Except.ok _ = Except.ok _
  congr 1
  funext j
  simp only [Pi.add_apply, Pi.smul_apply, Pi.sub_apply, Complex.real_smul]
  ring

/-- … as is `tau2iw_ft_lin`. -/
theorem tau2iw_ft_lin_affine {T : ℕ} (beta : ℝ) :
    AffineBackend fun g : Fin (T + 1) → ℝ => tau2iwFtLin g beta := by
  intro g h rg rh t hg hh
  simp only [tau2iwFtLin] at hg hh ⊢
  rcases h1 : ihfft fun k : Fin (2 * T) => fullRange g k.castSucc with e | a
  · rw [h1] at hg; cases hg
  rcases h2 : ihfft fun k : Fin (2 * T) => fullRange h k.castSucc with e | b
  · rw [h2] at hh; cases hh
  rcases h1' : ihfft fun k : Fin (2 * T) => fullRange g k.succ - fullRange g k.castSucc with e | a'
  · rw [h1, h1'] at hg; cases hg
  rcases h2' : ihfft fun k : Fin (2 * T) => fullRange h k.succ - fullRange h k.castSucc with e | b'
  · rw [h2, h2'] at hh; cases hh
  have h3 := ihfft_affine _ _ a b t h1 h2
  have h3' := ihfft_affine _ _ a' b' t h1' h2'
  have hfr : ∀ k, fullRange (g + t • (h - g)) k = fullRange g k + t * (fullRange h k - fullRange g k) := by
    intro k
    simp only [Pi.add_apply, Pi.smul_apply, Pi.sub_apply, smul_eq_mul, fullRange]
    split_ifs
    · ring
    · ring
  have he : ((fun k : Fin (2 * T) => fullRange g k.castSucc)
      + t • ((fun k : Fin (2 * T) => fullRange h k.castSucc)
        - fun k : Fin (2 * T) => fullRange g k.castSucc))
      = fun k : Fin (2 * T) => fullRange (g + t • (h - g)) k.castSucc := by
    funext k
    rw [hfr]
    simp only [Pi.add_apply, Pi.smul_apply, Pi.sub_apply, smul_eq_mul]
  have he' : ((fun k : Fin (2 * T) => fullRange g k.succ - fullRange g k.castSucc)
      + t • ((fun k : Fin (2 * T) => fullRange h k.succ - fullRange h k.castSucc)
        - fun k : Fin (2 * T) => fullRange g k.succ - fullRange g k.castSucc))
      = fun k : Fin (2 * T) => fullRange (g + t • (h - g)) k.succ
        - fullRange (g + t • (h - g)) k.castSucc := by
    funext k
    rw [hfr, hfr]
    simp only [Pi.add_apply, Pi.smul_apply, Pi.sub_apply, smul_eq_mul]
    ring
  rw [he] at h3
  rw [he'] at h3'
  rw [h1, h1'] at hg
  rw [h2, h2'] at hh
  rw [h3, h3', ← Except.ok.inj hg, ← Except.ok.inj hh]
  change Except.ok _ = Except.ok _
  congr 1
  funext j
  simp only [Pi.add_apply, Pi.smul_apply, Pi.sub_apply, Complex.real_smul]
  ring

/-- The backends map zero to zero. -/
theorem iw2tau_dft_zero {N : ℕ} (hN : N ≠ 0) (beta : ℝ) :
    iw2tauDft (0 : Fin N → ℂ) beta = .ok 0 := by
  unfold iw2tauDft hfft
  rw [if_neg (by omega)]
  simp only
  congr 1
  funext j
  split_ifs
  · refine Finset.sum_eq_zero fun k _ => ?_
    simp [iwAll]
  · rfl

theorem iw2tau_dft_soft_zero {N : ℕ} (hN : N ≠ 0) (beta : ℝ) :
    iw2tauDftSoft (0 : Fin N → ℂ) beta = .ok 0 := by
  have : softExtend (0 : Fin N → ℂ) = 0 := by
    funext k
    simp [softExtend]
  simp only [iw2tauDftSoft, this, iw2tau_dft_zero (N := 2 * N) (by omega)]
  rfl

private lemma fullRange_zero {T : ℕ} (k : Fin (2 * T + 1)) :
    fullRange (0 : Fin (T + 1) → ℝ) k = 0 := by
  simp [fullRange]

theorem tau2iw_dft_zero {T : ℕ} (hT : T ≠ 0) (beta : ℝ) :
    tau2iwDft (0 : Fin (T + 1) → ℝ) beta = .ok 0 := by
  unfold tau2iwDft ihfft
  rw [if_neg (by omega)]
  simp only [fullRange_zero]
  congr 1
  funext n
  simp

theorem tau2iw_ft_lin_zero {T : ℕ} (hT : T ≠ 0) (beta : ℝ) :
    tau2iwFtLin (0 : Fin (T + 1) → ℝ) beta = .ok 0 := by
  unfold tau2iwFtLin ihfft
  rw [if_neg (by omega), if_neg (by omega)]
  simp only [fullRange_zero]
  congr 1
  funext n
  simp

/-! ## C44: transforms with moments -/

/-- Pole fit of `iw2tau`: recovers pole functions on its nodes. -/
lemma iw2tau_poles_recovers (ext : LinalgExt ℝ) {N l nfit : ℕ} {beta : ℝ} (hb : 0 < beta)
    (moments : Fin l → ℝ) (hn : nfit = 0 ∨ l + nfit ≤ 2 * N) (p r : Fin (l + nfit) → ℝ)
    (hp : p = chebyshevPoints (l + nfit))
    (hmom : ∀ m : Fin l, poleMoments p r ((m : ℕ) + 1 : ℤ) = moments m) :
    iw2tauPoles ext (fun i : Fin N => poleGfZ (matsubaraFrequencies (i : ℕ) beta)
      (fun j => (p j : ℂ)) fun j => (r j : ℂ)) beta moments nfit = .ok ⟨p, r⟩ := by
  cases nfit with
  | zero =>
    simp only [iw2tauPoles]
    obtain ⟨⟨q, x⟩, h1, h2, h3, h4⟩ := gf_from_moments_correct moments (some 1) (Or.inl (by simp))
    have hq : q = p := by
      have : gfFromMoments moments (some 1) = .ok ⟨q, x⟩ := h1
      simp only [gfFromMoments, autoWidth, one_mul] at this
      split at this
      · have h5 := congrArg PoleFct.poles (Except.ok.inj this)
        rw [hp]
        exact h5.symm
      · cases this
    subst hq
    rw [h1]
    congr 2
    have hdet := (vander_square_det (𝕜 := ℝ) q).2 h2
    have hx : vanderT ℝ l q *ᵥ (x - r) = 0 := by
      funext m
      rw [mulVec_sub, Pi.sub_apply, vander_mulVec, vander_mulVec]
      have e1 := h4 m
      have e2 := hmom m
      simp only [RCLike.ofReal_real_eq_id, id] at e1
      rw [e1, e2, sub_self, Pi.zero_apply]
    exact sub_eq_zero.1 (Matrix.eq_zero_of_mulVec_eq_zero hdet hx)
  | succ nfit =>
    simp only [iw2tauPoles]
    refine gf_from_z_recovers ext _ (matsubara_injective hb N) (fun i => matsubara_im_pos i hb)
      moments (some 1) _ (fun i => ?_) (by omega) (by omega) (by simp)
      (by rcases hn with hn | hn; omega; exact hn) p r (by simp only [hp, autoWidth, one_mul]) hmom
    exact pow_ne_zero _ (matsubara_im_pos i hb).ne'

/-- C44: `iw2tau` is exact for pole functions: if the data are a pole function on the nodes used,
with the given moments, the result is its imaginary-time Green's function at every point. -/
theorem iw2tau_exact (ext : LinalgExt ℝ) {N l nfit : ℕ} (hN : N ≠ 0) {beta : ℝ} (hb : 0 < beta)
    (moments : Fin l → ℝ) (fourier : (Fin N → ℂ) → ℝ → Except Err (Fin (2 * N + 1) → ℝ))
    (h0 : fourier 0 beta = .ok 0) (hn : nfit = 0 ∨ l + nfit ≤ 2 * N) (p r : Fin (l + nfit) → ℝ)
    (hp : p = chebyshevPoints (l + nfit))
    (hmom : ∀ m : Fin l, poleMoments p r ((m : ℕ) + 1 : ℤ) = moments m) :
    iw2tau ext (fun i : Fin N => poleGfZ (matsubaraFrequencies (i : ℕ) beta)
      (fun j => (p j : ℂ)) fun j => (r j : ℂ)) beta moments fourier nfit
      = .ok fun j => lehmannTau beta p r (tauPt beta (2 * N) j) := by
  unfold iw2tau
  rw [iw2tau_poles_recovers ext hb moments hn p r hp hmom]
  simp only [PoleFct.evalZ, sub_self]
  have hz : (fun _ : Fin N => (0 : ℂ)) = 0 := rfl
  rw [hz, h0, eval_tau_grid (T := 2 * N) (by omega) hb.le]
  simp

/-- Both backends can be used, here with two moments and one additional pole, two frequencies. -/
example (ext : LinalgExt ℝ) : ∃ (p r : Fin (2 + 1) → ℝ) (g : Fin 2 → ℂ) (m : Fin 2 → ℝ),
    r ≠ 0 ∧ iw2tau ext g 10 m iw2tauDftSoft 1 = .ok fun j => lehmannTau 10 p r (tauPt 10 4 j) := by
  set p : Fin 3 → ℝ := chebyshevPoints 3 with hp
  -- residues orthogonal to both moments of these nodes
  obtain ⟨r, hr, h0⟩ : ∃ r : Fin 3 → ℝ, r ≠ 0 ∧
      ∀ m : Fin 2, poleMoments p r ((m : ℕ) + 1 : ℤ) = 0 := by
    refine ⟨![p 1 - p 2, p 2 - p 0, p 0 - p 1], fun h => ?_, fun m => ?_⟩
    · have h1 := congrFun h 0
      have h2 : p 1 = p 2 := sub_eq_zero.1 h1
      have h3 : (1 : Fin 3) = 2 := (chebyshev_strictMono 3).injective h2
      exact absurd h3 (by decide)
    · fin_cases m
      · simp [poleMoments, Fin.sum_univ_three]
      · simp [poleMoments, Fin.sum_univ_three]
        ring
  refine ⟨p, r, _, fun _ => 0, hr, iw2tau_exact ext (nfit := 1) (l := 2) two_ne_zero
    (by norm_num : (0 : ℝ) < 10) _ _ (iw2tau_dft_soft_zero two_ne_zero _) (Or.inr (by norm_num)) p r hp h0⟩

lemma poleGfZ_affine {n : ℕ} (z : ℂ) (p x y : Fin n → ℝ) (t : ℝ) :
    poleGfZ z (fun j => (p j : ℂ)) (fun j => ((x + t • (y - x)) j : ℂ))
      = poleGfZ z (fun j => (p j : ℂ)) (fun j => (x j : ℂ))
        + t * (poleGfZ z (fun j => (p j : ℂ)) (fun j => (y j : ℂ))
          - poleGfZ z (fun j => (p j : ℂ)) (fun j => (x j : ℂ))) := by
  unfold poleGfZ
  rw [← Finset.sum_sub_distrib, Finset.mul_sum, ← Finset.sum_add_distrib]
  refine Finset.sum_congr rfl fun j _ => ?_
  simp only [Pi.add_apply, Pi.smul_apply, Pi.sub_apply, smul_eq_mul]
  push_cast
  ring

private lemma lehmannTau_affine {n : ℕ} (beta τ : ℝ) (p x y : Fin n → ℝ) (t : ℝ) :
    lehmannTau beta p (x + t • (y - x)) τ
      = lehmannTau beta p x τ + t * (lehmannTau beta p y τ - lehmannTau beta p x τ) := by
  unfold lehmannTau
  rw [neg_sub_neg, ← Finset.sum_sub_distrib, Finset.mul_sum, ← Finset.sum_neg_distrib,
    ← Finset.sum_neg_distrib, ← Finset.sum_add_distrib]
  refine Finset.sum_congr rfl fun j _ => ?_
  simp only [Pi.add_apply, Pi.smul_apply, Pi.sub_apply, smul_eq_mul]
  ring

/-- C44: `iw2tau` is affine in the data, for every affine backend. -/
theorem iw2tau_affine (ext : LinalgExt ℝ) {N l nfit : ℕ} (hN : N ≠ 0) {beta : ℝ} (hb : 0 < beta)
    (moments : Fin l → ℝ) (fourier : (Fin N → ℂ) → ℝ → Except Err (Fin (2 * N + 1) → ℝ))
    (hf : AffineBackend fun g => fourier g beta) (hn : nfit = 0 ∨ l + nfit ≤ 2 * N) :
    AffineBackend fun g => iw2tau ext g beta moments fourier nfit := by
  intro g h rg rh t hg hh
  obtain ⟨p, x, y, h1, h2, h3⟩ : ∃ p x y, iw2tauPoles ext g beta moments nfit = .ok ⟨p, x⟩ ∧
      iw2tauPoles ext h beta moments nfit = .ok ⟨p, y⟩ ∧
      iw2tauPoles ext (g + t • (h - g)) beta moments nfit = .ok ⟨p, x + t • (y - x)⟩ := by
    cases nfit with
    | zero =>
      obtain ⟨⟨q, x⟩, h1, _⟩ := gf_from_moments_correct moments (some 1) (Or.inl (by simp))
      refine ⟨q, x, x, h1, h1, ?_⟩
      have hx : x + t • (x - x) = x := by simp
      exact h1.trans (by rw [hx])
    | succ nfit =>
      simp only [iw2tauPoles]
      have := gf_from_z_affine ext (n := l + (nfit + 1)) _ (matsubara_injective hb N)
        (fun i => matsubara_im_pos i hb) moments (some 1)
        (some fun i : Fin N => (matsubaraFrequencies (i : ℕ) beta).im ^ (l + (nfit + 1)))
        (fun i => pow_ne_zero _ (matsubara_im_pos i hb).ne') (by omega) (by omega) (by simp)
        (by rcases hn with hn | hn; omega; exact hn) g h t
      have hsm : (t : ℂ) • (h - g) = t • (h - g) := by
        funext i; simp
      rw [hsm] at this
      exact this
  simp only [iw2tau] at hg hh ⊢
  rw [h1] at hg
  rw [h2] at hh
  rw [h3]
  simp only [eval_tau_grid (T := 2 * N) (by omega) hb.le, PoleFct.evalZ] at hg hh ⊢
  rcases ha : fourier (fun i => g i - poleGfZ (matsubaraFrequencies (i : ℕ) beta)
    (fun j => (p j : ℂ)) fun j => (x j : ℂ)) beta with e | a
  · rw [ha] at hg; cases hg
  rcases hb' : fourier (fun i => h i - poleGfZ (matsubaraFrequencies (i : ℕ) beta)
    (fun j => (p j : ℂ)) fun j => (y j : ℂ)) beta with e | b
  · rw [hb'] at hh; cases hh
  have h4 := hf _ _ a b t ha hb'
  simp only at h4
  have he : ((fun i : Fin N => g i - poleGfZ (matsubaraFrequencies (i : ℕ) beta)
      (fun j => (p j : ℂ)) fun j => (x j : ℂ)) + t • ((fun i : Fin N => h i
        - poleGfZ (matsubaraFrequencies (i : ℕ) beta) (fun j => (p j : ℂ)) fun j => (y j : ℂ))
      - fun i : Fin N => g i - poleGfZ (matsubaraFrequencies (i : ℕ) beta)
      (fun j => (p j : ℂ)) fun j => (x j : ℂ)))
      = fun i : Fin N => (g + t • (h - g)) i - poleGfZ (matsubaraFrequencies (i : ℕ) beta)
      (fun j => (p j : ℂ)) fun j => ((x + t • (y - x)) j : ℂ) := by
    funext i
    rw [poleGfZ_affine]
    simp only [Pi.add_apply, Pi.smul_apply, Pi.sub_apply, Complex.real_smul]
    ring
  rw [he] at h4
  rw [ha] at hg
  rw [hb'] at hh
  rw [h4, ← Except.ok.inj hg, ← Except.ok.inj hh]
  simp only
  congr 1
  funext j
  rw [lehmannTau_affine]
  simp only [Pi.add_apply, Pi.smul_apply, Pi.sub_apply, smul_eq_mul]
  ring

/-- `tau2iw` with given moments and number of poles. -/
lemma tau2iw_moments_exact (ext : LinalgExt ℝ) {T l n : ℕ} (hT : T ≠ 0) {beta : ℝ} (hb : 0 < beta)
    (moments : Fin l → ℝ)
    (fourier : (Fin (T + 1) → ℝ) → ℝ → Except Err (Fin ((T + 1) / 2) → ℂ))
    (h0 : fourier 0 beta = .ok 0) (hn : n ≠ 0) (hln : l ≤ n) (hnT : n ≤ T + 1) (r : Fin n → ℝ)
    (hmom : ∀ m : Fin l, poleMoments (chebyshevPoints n) r ((m : ℕ) + 1 : ℤ) = moments m) :
    tau2iwMoments ext (fun i => lehmannTau beta (chebyshevPoints n) r (tauPt beta T i)) beta n moments
      fourier = .ok fun i => poleGfZ (matsubaraFrequencies (i : ℕ) beta)
        (fun j => (chebyshevPoints n j : ℂ)) fun j => (r j : ℂ) := by
  unfold tau2iwMoments
  rw [gf_from_tau_recovers ext hT hb moments (width := 1) none (fun i => one_ne_zero) hn hln
    one_ne_zero hnT (chebyshevPoints n) r (by funext j; rw [one_mul]) hmom]
  simp only [eval_tau_grid hT hb.le, sub_self]
  have hz : (fun _ : Fin (T + 1) => (0 : ℝ)) = 0 := rfl
  rw [hz, h0]
  simp [PoleFct.evalZ]

/-- C44: `tau2iw` is exact for pole functions on its nodes: with given moments … -/
theorem tau2iw_exact (ext : LinalgExt ℝ) {T l n : ℕ} (hT : T ≠ 0) {beta : ℝ} (hb : 0 < beta)
    (hl : l ≠ 0) (moments : Fin l → ℝ) (npole : Option ℕ) (hnp : npole.getD l = n)
    (fourier : (Fin (T + 1) → ℝ) → ℝ → Except Err (Fin ((T + 1) / 2) → ℂ))
    (h0 : fourier 0 beta = .ok 0) (hln : l ≤ n) (hnT : n ≤ T + 1) (r : Fin n → ℝ)
    (hmom : ∀ m : Fin l, poleMoments (chebyshevPoints n) r ((m : ℕ) + 1 : ℤ) = moments m) :
    tau2iw ext (fun i => lehmannTau beta (chebyshevPoints n) r (tauPt beta T i)) beta npole
      (some ⟨l, moments⟩) fourier = .ok fun i => poleGfZ (matsubaraFrequencies (i : ℕ) beta)
        (fun j => (chebyshevPoints n j : ℂ)) fun j => (r j : ℂ) := by
  simp only [tau2iw, if_neg hl, hnp]
  exact tau2iw_moments_exact ext hT hb moments fourier h0 (by omega) hln hnT r hmom

/-- The jump of a pole Green's function is the sum of its residues. -/
lemma tau_jump_lehmann {T n : ℕ} (hT : T ≠ 0) {beta : ℝ} (hb : 0 ≤ beta) (p r : Fin n → ℝ) :
    tauJump (fun i : Fin (T + 1) => lehmannTau beta p r (tauPt beta T i)) = ∑ j, r j := by
  have hTr : (T : ℝ) ≠ 0 := by exact_mod_cast hT
  obtain ⟨g0, gb, h1, h2, h3⟩ := pole_gf_tau_jump (poles := p) (weights := r) hb
  rw [pole_gf_tau_eq, if_pos ⟨le_refl 0, hb⟩] at h1
  rw [pole_gf_tau_eq, if_pos ⟨hb, le_refl _⟩] at h2
  have e0 : tauPt beta T 0 = 0 := by simp [tauPt]
  have eb : tauPt beta T T = beta := by unfold tauPt; field_simp
  simp only [tauJump, Fin.val_last, Fin.val_zero, e0, eb]
  rw [Except.ok.inj h1, Except.ok.inj h2]
  linarith

lemma poleMoments_one {n : ℕ} (p r : Fin n → ℝ) (m : Fin 1) :
    poleMoments p r ((m : ℕ) + 1 : ℤ) = ∑ j, r j := by
  have : (m : ℕ) = 0 := by omega
  simp [poleMoments, this]

/-- … and with the default moments (the jump). -/
theorem tau2iw_exact_default (ext : LinalgExt ℝ) {T n : ℕ} (hT : T ≠ 0) {beta : ℝ} (hb : 0 < beta)
    (npole : Option ℕ) (hnp : npole.getD 1 = n)
    (fourier : (Fin (T + 1) → ℝ) → ℝ → Except Err (Fin ((T + 1) / 2) → ℂ))
    (h0 : fourier 0 beta = .ok 0) (hn : n ≠ 0) (hnT : n ≤ T + 1) (r : Fin n → ℝ) :
    tau2iw ext (fun i => lehmannTau beta (chebyshevPoints n) r (tauPt beta T i)) beta npole
      none fourier = .ok fun i => poleGfZ (matsubaraFrequencies (i : ℕ) beta)
        (fun j => (chebyshevPoints n j : ℂ)) fun j => (r j : ℂ) := by
  simp only [tau2iw, hnp]
  refine tau2iw_moments_exact ext hT hb _ fourier h0 hn (by omega) hnT r fun m => ?_
  rw [tau_jump_lehmann hT hb.le, poleMoments_one]

/-- Three poles, four intervals, both backends. -/
example (ext : LinalgExt ℝ) :
    (∃ v, tau2iw ext (fun i : Fin 5 => lehmannTau 10 (chebyshevPoints 3) ![1, 2, 3] (tauPt 10 4 i)) 10
      (some 3) none tau2iwDft = .ok v) ∧
    (∃ v, tau2iw ext (fun i : Fin 5 => lehmannTau 10 (chebyshevPoints 3) ![1, 2, 3] (tauPt 10 4 i)) 10
      (some 3) none tau2iwFtLin = .ok v) :=
  ⟨⟨_, tau2iw_exact_default ext (by norm_num) (by norm_num) _ rfl _ (tau2iw_dft_zero (by norm_num) _)
    (by norm_num) (by norm_num) _⟩,
   ⟨_, tau2iw_exact_default ext (by norm_num) (by norm_num) _ rfl _
    (tau2iw_ft_lin_zero (by norm_num) _) (by norm_num) (by norm_num) _⟩⟩

/-- `tau2iw` is affine jointly in data and moments. -/
lemma tau2iw_moments_affine (ext : LinalgExt ℝ) {T l n : ℕ} (hT : T ≠ 0) {beta : ℝ} (hb : 0 < beta)
    (fourier : (Fin (T + 1) → ℝ) → ℝ → Except Err (Fin ((T + 1) / 2) → ℂ))
    (hf : AffineBackend fun g => fourier g beta) (hn : n ≠ 0) (hln : l ≤ n) (hnT : n ≤ T + 1)
    (mg mh : Fin l → ℝ) (g h : Fin (T + 1) → ℝ) (rg rh : Fin ((T + 1) / 2) → ℂ) (t : ℝ)
    (hg : tau2iwMoments ext g beta n mg fourier = .ok rg)
    (hh : tau2iwMoments ext h beta n mh fourier = .ok rh) :
    tau2iwMoments ext (g + t • (h - g)) beta n (mg + t • (mh - mg)) fourier
      = .ok (rg + t • (rh - rg)) := by
  obtain ⟨p, x, y, h1, h2, h3⟩ := gf_from_tau_affine ext hT hb (width := 1) none
    (fun i => one_ne_zero) hn hln one_ne_zero hnT mg mh g h t
  simp only [tau2iwMoments] at hg hh ⊢
  rw [h1] at hg
  rw [h2] at hh
  rw [h3]
  simp only [eval_tau_grid hT hb.le, PoleFct.evalZ] at hg hh ⊢
  rcases ha : fourier (fun k => g k - lehmannTau beta p x (tauPt beta T k)) beta with e | a
  · rw [ha] at hg; cases hg
  rcases hb' : fourier (fun k => h k - lehmannTau beta p y (tauPt beta T k)) beta with e | b
  · rw [hb'] at hh; cases hh
  have h4 := hf _ _ a b t ha hb'
  simp only at h4
  have he : ((fun k : Fin (T + 1) => g k - lehmannTau beta p x (tauPt beta T k))
      + t • ((fun k : Fin (T + 1) => h k - lehmannTau beta p y (tauPt beta T k))
        - fun k : Fin (T + 1) => g k - lehmannTau beta p x (tauPt beta T k)))
      = fun k : Fin (T + 1) => (g + t • (h - g)) k
        - lehmannTau beta p (x + t • (y - x)) (tauPt beta T k) := by
    funext k
    rw [lehmannTau_affine]
    simp only [Pi.add_apply, Pi.smul_apply, Pi.sub_apply, smul_eq_mul]
    ring
  rw [he] at h4
  rw [ha] at hg
  rw [hb'] at hh
  rw [h4, ← Except.ok.inj hg, ← Except.ok.inj hh]
  change Except.ok _ = Except.ok _
  congr 1
  funext i
  rw [poleGfZ_affine]
  simp only [Pi.add_apply, Pi.smul_apply, Pi.sub_apply, Complex.real_smul]
  ring

/-- C44: `tau2iw` is affine in the data, for given moments and for the default. -/
theorem tau2iw_affine (ext : LinalgExt ℝ) {T : ℕ} (hT : T ≠ 0) {beta : ℝ} (hb : 0 < beta)
    (fourier : (Fin (T + 1) → ℝ) → ℝ → Except Err (Fin ((T + 1) / 2) → ℂ))
    (hf : AffineBackend fun g => fourier g beta) (npole : Option ℕ)
    (moments : Option (Σ l, Fin l → ℝ))
    (hln : (moments.elim 1 Sigma.fst) ≤ npole.getD (moments.elim 1 Sigma.fst))
    (hnT : npole.getD (moments.elim 1 Sigma.fst) ≤ T + 1) :
    AffineBackend fun g => tau2iw ext g beta npole moments fourier := by
  intro g h rg rh t hg hh
  rcases moments with _ | ⟨l, m⟩
  · simp only [tau2iw, Option.elim] at hg hh hln hnT ⊢
    have hj : (fun _ : Fin 1 => tauJump (g + t • (h - g)))
        = (fun _ : Fin 1 => tauJump g) + t • ((fun _ : Fin 1 => tauJump h) - fun _ => tauJump g) := by
      funext i
      simp only [tauJump, Pi.add_apply, Pi.smul_apply, Pi.sub_apply, smul_eq_mul]
      ring
    rw [hj]
    exact tau2iw_moments_affine ext hT hb fourier hf (by omega) hln hnT _ _ g h rg rh t hg hh
  · simp only [tau2iw, Option.elim] at hg hh hln hnT ⊢
    by_cases hl : l = 0
    · rw [if_pos hl] at hg; cases hg
    · rw [if_neg hl] at hg hh ⊢
      have := tau2iw_moments_affine ext hT hb fourier hf (by omega) hln hnT _ _ g h rg rh t hg hh
      rwa [sub_self, smul_zero, add_zero] at this

/-- C44 with C42: by default (one pole at zero for the jump) and with the Filon backend, `tau2iw`
returns exactly the Fourier integral over `[0, β]` of the linear spline of the data; the jump is no
problem any more. -/
theorem tau2iw_ft_lin_total (ext : LinalgExt ℝ) {T : ℕ} (hT : T ≠ 0) (g : Fin (T + 1) → ℝ)
    {beta : ℝ} (hb : 0 < beta) (h : ℝ → ℂ) (hh : IsLinSplineR g 0 (beta / T) h) :
    ∃ r, tau2iw ext g beta none none tau2iwFtLin = .ok r ∧ ∀ n : Fin ((T + 1) / 2),
      r n = ∫ τ in (0 : ℝ)..beta, h τ * Complex.exp (matsubaraFrequencies (n : ℕ) beta * τ) := by
  have hTr : (T : ℝ) ≠ 0 := by exact_mod_cast hT
  have hTc : (T : ℂ) ≠ 0 := by exact_mod_cast hT
  have hbc : (beta : ℂ) ≠ 0 := by exact_mod_cast hb.ne'
  obtain ⟨x, h1, h2⟩ := gf_from_tau_lsq ext (n := 1) g hb.le (fun _ : Fin 1 => tauJump g) (width := 1)
    none one_ne_zero le_rfl one_ne_zero (fun _ => 0) (by
      funext j
      have : (j : ℕ) = 0 := by omega
      simp [chebyshevPoints, this])
  have hx : x 0 = tauJump g := by
    have := congrFun h2.1 0
    rw [vander_mulVec] at this
    simpa [poleMoments] using this
  set c := tauJump g with hc
  have hpt : ∀ τ, lehmannTau beta (fun _ : Fin 1 => 0) x τ = -(c / 2) := by
    intro τ
    simp [lehmannTau, Spec.fermi, hx]
    ring
  have hjump : (g (Fin.last T) - -(c / 2)) = -(g 0 - -(c / 2)) := by
    rw [hc]; unfold tauJump; ring
  have hspl : IsLinSplineR (fun k => g k - -(c / 2)) 0 (beta / T) (fun τ => h τ + c / 2) := by
    intro k τ hτ
    simp only
    rw [hh k τ hτ]
    push_cast
    ring
  obtain ⟨r, h3, h4⟩ := tau2iw_ft_lin_no_jump hT (fun k => g k - -(c / 2)) hb.ne' hjump _ hspl
  refine ⟨fun i => r i + poleGfZ (matsubaraFrequencies (i : ℕ) beta) (fun _ : Fin 1 => 0)
    (fun j => (x j : ℂ)), ?_, fun n => ?_⟩
  · simp only [tau2iw, Option.getD_none, tau2iwMoments]
    rw [h1]
    simp only [eval_tau_grid hT hb.le, hpt, h3, PoleFct.evalZ, Complex.ofReal_zero]
  · have hne : matsubaraFrequencies (n : ℕ) beta ≠ 0 := by
      intro h0
      have := matsubara_im_pos n hb
      rw [h0] at this
      simp at this
    have hconst : ∫ τ in (0 : ℝ)..beta, ((c : ℂ) / 2)
        * Complex.exp (matsubaraFrequencies (n : ℕ) beta * τ)
        = -(c / matsubaraFrequencies (n : ℕ) beta) := by
      rw [intervalIntegral.integral_const_mul, integral_exp_mul_complex hne, exp_iw_beta _ hb.ne']
      simp only [Complex.ofReal_zero, mul_zero, Complex.exp_zero]
      field_simp
      ring
    simp only
    rw [h4]
    have hsplit : ∫ τ in (0 : ℝ)..beta, (h τ + c / 2)
        * Complex.exp (matsubaraFrequencies (n : ℕ) beta * τ)
        = (∫ τ in (0 : ℝ)..beta, h τ * Complex.exp (matsubaraFrequencies (n : ℕ) beta * τ))
          + ∫ τ in (0 : ℝ)..beta, ((c : ℂ) / 2)
            * Complex.exp (matsubaraFrequencies (n : ℕ) beta * τ) := by
      rw [← intervalIntegral.integral_add]
      · congr 1
        funext τ
        ring
      · have hD : beta / T ≠ 0 := div_ne_zero hb.ne' hTr
        have hi := (filon_sum (matsubaraFrequencies (n : ℕ) beta) 0 (beta / T) hD _ T _ hh).1
        have hend : (0 : ℝ) + T * (beta / T) = beta := by field_simp; ring
        rwa [hend] at hi
      · apply Continuous.intervalIntegrable
        fun_prop
    rw [hsplit, hconst]
    simp [poleGfZ, hx]

/-- C44: `izp2tau` is exact for pole functions on its nodes, whatever pole spread the optimization
returns (except zero). -/
theorem izp2tau_exact (ext : LinalgExt ℝ) {k l : ℕ} (izp : Fin k → ℂ) (hz : Function.Injective izp)
    (him : ∀ i, 0 < (izp i).im) (hk : k ≠ 0) {tau beta : ℝ} (ht : 0 ≤ tau) (htb : tau ≤ beta)
    (hl : l ≤ k) {width : ℝ} (hw : width ≠ 0) (r : Fin k → ℝ) :
    izp2tau ext izp (fun i => poleGfZ (izp i) (fun j => ((width * chebyshevPoints k j : ℝ) : ℂ))
      fun j => (r j : ℂ)) tau beta
      (fun m : Fin l => poleMoments (fun j => width * chebyshevPoints k j) r ((m : ℕ) + 1 : ℤ)) width
      = .ok (lehmannTau beta (fun j => width * chebyshevPoints k j) r tau) := by
  unfold izp2tau
  rw [gf_from_z_recovers ext izp hz him _ (some width) none (fun i => one_ne_zero) hk hl
    (by simpa using hw) (by omega) _ r (by simp [autoWidth]) (fun m => rfl)]
  simp only
  rw [pole_gf_tau_eq, if_pos ⟨ht, htb⟩]

example : Function.Injective (![I, 3 * I] : Fin 2 → ℂ) ∧ ∀ i, 0 < ((![I, 3 * I] : Fin 2 → ℂ) i).im := by
  constructor
  · intro a b hab
    fin_cases a <;> fin_cases b
    · rfl
    · have := congrArg Complex.im hab
      norm_num at this
    · have := congrArg Complex.im hab
      norm_num at this
    · rfl
  · intro i; fin_cases i <;> simp

/-- C44: outside `[0, β]` `izp2tau` raises, provided the fit succeeds. -/
theorem izp2tau_range (ext : LinalgExt ℝ) {k l : ℕ} (izp gf : Fin k → ℂ) (hk : k ≠ 0)
    {tau beta : ℝ} (ht : ¬ (0 ≤ tau ∧ tau ≤ beta)) (hl : l ≤ k) {width : ℝ} (hw : width ≠ 0)
    (moments : Fin l → ℝ) :
    izp2tau ext izp gf tau beta moments width = .error .assertionError := by
  obtain ⟨p, h1, _⟩ := gf_from_z_correct ext izp gf moments (some width) none hk hl (by simpa using hw)
  unfold izp2tau
  rw [h1]
  simp only
  rw [pole_gf_tau_eq, if_neg ht]

/-- C44: `tau2izp` (no occupation given) is exact for pole functions on its nodes, with given
moments … -/
theorem tau2izp_exact (ext : LinalgExt ℝ) {T k l : ℕ} (hT : T ≠ 0) {beta : ℝ} (hb : 0 < beta)
    (izp : Fin k → ℂ) (hk : k ≠ 0) (hkT : k ≤ T + 1) (hl0 : l ≠ 0) (hl : l ≤ k)
    (weight : Option (Fin (T + 1) → ℝ)) (hwt : ∀ i, (weight.getD fun _ => 1) i ≠ 0)
    {width : ℝ} (hw : width ≠ 0) (r : Fin k → ℝ) :
    tau2izp ext (fun i => lehmannTau beta (fun j => width * chebyshevPoints k j) r (tauPt beta T i))
      beta izp (some ⟨l, fun m => poleMoments (fun j => width * chebyshevPoints k j) r
        ((m : ℕ) + 1 : ℤ)⟩) 0 weight width
      = .ok fun i => poleGfZ (izp i) (fun j => ((width * chebyshevPoints k j : ℝ) : ℂ))
        fun j => (r j : ℂ) := by
  simp only [tau2izp, if_neg hl0, tau2izpMoments]
  rw [gf_from_tau_recovers ext hT hb _ weight hwt hk hl hw hkT _ r rfl fun m => rfl]
  simp only [PoleFct.evalZ]

/-- … and with the default moments. -/
theorem tau2izp_exact_default (ext : LinalgExt ℝ) {T k : ℕ} (hT : T ≠ 0) {beta : ℝ} (hb : 0 < beta)
    (izp : Fin k → ℂ) (hk : k ≠ 0) (hkT : k ≤ T + 1)
    (weight : Option (Fin (T + 1) → ℝ)) (hwt : ∀ i, (weight.getD fun _ => 1) i ≠ 0)
    {width : ℝ} (hw : width ≠ 0) (r : Fin k → ℝ) :
    tau2izp ext (fun i => lehmannTau beta (fun j => width * chebyshevPoints k j) r (tauPt beta T i))
      beta izp none 0 weight width
      = .ok fun i => poleGfZ (izp i) (fun j => ((width * chebyshevPoints k j : ℝ) : ℂ))
        fun j => (r j : ℂ) := by
  simp only [tau2izp, tau2izpMoments]
  rw [gf_from_tau_recovers ext hT hb _ weight hwt hk (by omega) hw hkT _ r rfl fun m => by
    rw [tau_jump_lehmann hT hb.le, poleMoments_one]]
  simp only [PoleFct.evalZ]

/-- C44: `tau2izp` is affine in the data at a fixed pole spread. -/
theorem tau2izp_affine (ext : LinalgExt ℝ) {T k : ℕ} (hT : T ≠ 0) {beta : ℝ} (hb : 0 < beta)
    (izp : Fin k → ℂ) (hk : k ≠ 0) (hkT : k ≤ T + 1)
    (weight : Option (Fin (T + 1) → ℝ)) (hwt : ∀ i, (weight.getD fun _ => 1) i ≠ 0)
    {width : ℝ} (hw : width ≠ 0) :
    AffineBackend fun g => tau2izp ext g beta izp none 0 weight width := by
  intro g h rg rh t hg hh
  simp only [tau2izp, tau2izpMoments] at hg hh ⊢
  have hj : (fun _ : Fin 1 => tauJump (g + t • (h - g)))
      = (fun _ : Fin 1 => tauJump g) + t • ((fun _ : Fin 1 => tauJump h) - fun _ => tauJump g) := by
    funext i
    simp only [tauJump, Pi.add_apply, Pi.smul_apply, Pi.sub_apply, smul_eq_mul]
    ring
  rw [hj]
  obtain ⟨p, x, y, h1, h2, h3⟩ := gf_from_tau_affine ext hT hb weight hwt hk (by omega) hw hkT
    (fun _ : Fin 1 => tauJump g) (fun _ => tauJump h) g h t
  rw [h1] at hg
  rw [h2] at hh
  rw [h3, ← Except.ok.inj hg, ← Except.ok.inj hh]
  change Except.ok _ = Except.ok _
  congr 1
  funext i
  simp only [PoleFct.evalZ]
  rw [poleGfZ_affine]
  simp only [Pi.add_apply, Pi.smul_apply, Pi.sub_apply, Complex.real_smul]

/-- C44: empty moments raise `IndexError` in `tau2iw` and `tau2izp`. -/
theorem tau2iw_no_moments (ext : LinalgExt ℝ) {T k : ℕ} (g : Fin (T + 1) → ℝ) (beta : ℝ)
    (npole : Option ℕ) (m : Fin 0 → ℝ)
    (fourier : (Fin (T + 1) → ℝ) → ℝ → Except Err (Fin ((T + 1) / 2) → ℂ)) (izp : Fin k → ℂ)
    (occ : ℝ) (weight : Option (Fin (T + 1) → ℝ)) (width : ℝ) :
    tau2iw ext g beta npole (some ⟨0, m⟩) fourier = .error .indexError ∧
      tau2izp ext g beta izp (some ⟨0, m⟩) occ weight width = .error .indexError :=
  ⟨rfl, rfl⟩

end Gftool.Props
