import Verif.Props.Linear
import Verif.Props.PoleFit
import Verif.Props.Statistics

/-!
# Property C76: transforms that fit a pole function to the tail
-/

namespace Gftool.Props

open Gftool Model Spec Lemmas Matrix

/-! ## Linear maps -/

section
variable {K V W X : Type*} [Field K] [AddCommGroup V] [Module K V] [AddCommGroup W] [Module K W] [AddCommGroup X] [Module K X]

/-- Either always the same error or the values of a linear map. -/
private def Lin (K : Type*) {V W : Type*} [Field K] [AddCommGroup V] [Module K V] [AddCommGroup W] [Module K W]
    (f : V → Except Err W) : Prop := (∃ e, ∀ g, f g = .error e) ∨ ∃ L : V →ₗ[K] W, ∀ g, f g = .ok (L g)

private lemma lin_of {f : V → Except Err W} (hf : Linear K f ∧ SameErrors f) : Lin K f := by
  cases h0 : f 0 with
  | error e => exact .inl ⟨e, fun g => hf.2 0 g e h0⟩
  | ok x0 =>
    have hok : ∀ g, ∃ x, f g = .ok x := fun g => by
      cases hg : f g with
      | ok x => exact ⟨x, rfl⟩
      | error e => exact absurd (hf.2 g 0 e hg) (by rw [h0]; simp)
    choose F hF using hok
    refine .inr ⟨{ toFun := F, map_add' := fun g h => ?_, map_smul' := fun a g => ?_ }, hF⟩
    · have := hf.1 1 1 g h _ _ (hF g) (hF h)
      rw [one_smul, one_smul, one_smul, one_smul, hF] at this
      exact Except.ok.inj this
    · have := hf.1 a 0 g 0 _ _ (hF g) (hF 0)
      rw [smul_zero, add_zero, zero_smul, add_zero, hF] at this
      exact Except.ok.inj this

private lemma Lin.out {f : V → Except Err W} (hf : Lin K f) : Linear K f ∧ SameErrors f := by
  rcases hf with ⟨e, he⟩ | ⟨L, hL⟩
  · refine ⟨fun a b g h x y hx => absurd hx (by rw [he]; simp), fun g h e' => by rw [he, he]; exact id⟩
  · refine ⟨fun a b g h x y hx hy => ?_, fun g h e' hg => absurd hg (by rw [hL]; simp)⟩
    rw [hL] at hx hy ⊢
    rw [← Except.ok.inj hx, ← Except.ok.inj hy, map_add, map_smul, map_smul]

private lemma lin_bind {f : V → Except Err W} {F : V → W → Except Err X} (hf : Lin K f)
    (hF : Lin K fun p : V × W => F p.1 p.2) : Lin K fun g => (f g).bind (F g) := by
  rcases hf with ⟨e, he⟩ | ⟨L, hL⟩
  · exact .inl ⟨e, fun g => by simp only [he]; rfl⟩
  · rcases hF with ⟨e, he⟩ | ⟨M, hM⟩
    · exact .inl ⟨e, fun g => by simp only [hL]; exact he (g, L g)⟩
    · exact .inr ⟨M.comp (LinearMap.id.prod L), fun g => by simp only [hL]; exact hM (g, L g)⟩

private lemma lin_comp {f : W → Except Err X} (hf : Lin K f) (L : V →ₗ[K] W) : Lin K fun g => f (L g) := by
  rcases hf with ⟨e, he⟩ | ⟨M, hM⟩
  · exact .inl ⟨e, fun g => he _⟩
  · exact .inr ⟨M.comp L, fun g => hM _⟩

private lemma lin_comp' {f : W → Except Err X} (hf : Lin K f) (φ : V → W) (ha : ∀ x y, φ (x + y) = φ x + φ y)
    (hs : ∀ (a : K) x, φ (a • x) = a • φ x) : Lin K fun g => f (φ g) := lin_comp hf ⟨⟨φ, ha⟩, hs⟩

private lemma lin_ok (L : V →ₗ[K] W) : Lin K fun g => Except.ok (ε := Err) (L g) := .inr ⟨L, fun _ => rfl⟩

private lemma lin_ok' (f : V → W) (ha : ∀ x y, f (x + y) = f x + f y) (hs : ∀ (a : K) x, f (a • x) = a • f x) :
    Lin K fun g => Except.ok (ε := Err) (f g) := lin_ok ⟨⟨f, ha⟩, hs⟩

private lemma lin_ite {p : Prop} [Decidable p] {f g : V → Except Err W} (hf : p → Lin K f) (hg : ¬ p → Lin K g) :
    Lin K fun x => if p then f x else g x := by
  by_cases h : p
  · simpa only [if_pos h] using hf h
  · simpa only [if_neg h] using hg h

private lemma lin_error (e : Err) : Lin K fun _ : V => (Except.error e : Except Err W) := .inl ⟨e, fun _ => rfl⟩

private lemma vecsolve_lin {n : ℕ} (A : Matrix (Fin n) (Fin n) K) : Lin K (vecsolve A) := by
  classical
  unfold vecsolve
  exact lin_ite (fun _ => lin_error _) fun _ => lin_ok (Matrix.mulVecLin A⁻¹)
end

/-! ## Least squares -/

section
variable {𝕜 : Type*} [RCLike 𝕜]

private lemma ec_core (ext : LinalgExt 𝕜) {m n l : ℕ} (q : Matrix (Fin n) (Fin n) 𝕜) (A1 : Matrix (Fin m) (Fin l) 𝕜)
    (A2 : Matrix (Fin m) (Fin (n - l)) 𝕜) (s t : 𝕜) (b b' : Fin m → 𝕜) {y y1 y2 : Fin l → 𝕜} (hy : y = s • y1 + t • y2) :
    q *ᵥ concatVec y (ext.lstsq A2 (s • b + t • b' - A1 *ᵥ y))
      = s • q *ᵥ concatVec y1 (ext.lstsq A2 (b - A1 *ᵥ y1)) + t • q *ᵥ concatVec y2 (ext.lstsq A2 (b' - A1 *ᵥ y2)) := by
  have h : s • b + t • b' - A1 *ᵥ (s • y1 + t • y2) = s • (b - A1 *ᵥ y1) + t • (b' - A1 *ᵥ y2) := by
    rw [mulVec_add, mulVec_smul, mulVec_smul, smul_sub, smul_sub]
    abel
  rw [hy, h, lstsq_linear, concatVec_linear, mulVec_add, mulVec_smul, mulVec_smul]

/-- C76: the constrained least squares solution is linear in the data and the right-hand side of the constraints. -/
theorem lstsq_ec_linear (ext : LinalgExt 𝕜) {m n l l' : ℕ} (a : Matrix (Fin m) (Fin n) 𝕜) (c : Matrix (Fin l) (Fin n) 𝕜) :
    Linear 𝕜 (fun p : (Fin m → 𝕜) × (Fin l' → 𝕜) => lstsqEc ext a p.1 c p.2) ∧
      SameErrors fun p : (Fin m → 𝕜) × (Fin l' → 𝕜) => lstsqEc ext a p.1 c p.2 := by
  constructor
  · rintro s t ⟨b, d⟩ ⟨b', d'⟩ x y hx hy
    simp only [lstsqEc, Prod.smul_mk, Prod.mk_add_mk] at hx hy ⊢
    split_ifs at hx hy ⊢ with h1 h2 h3 h4 h5
    · rw [← Except.ok.inj hx, ← Except.ok.inj hy]; simp
    · rw [← Except.ok.inj hx, ← Except.ok.inj hy, lstsq_linear]
    · rw [← Except.ok.inj hx, ← Except.ok.inj hy]
      exact congrArg _ (ec_core ext _ _ _ s t b b' (lstsq_linear ext _ s t _ _))
    · rw [← Except.ok.inj hx, ← Except.ok.inj hy]
      refine congrArg _ (ec_core ext _ _ _ s t b b' ?_)
      rw [← mulVec_smul, ← mulVec_smul, ← mulVec_add]
      rfl
  · rintro ⟨b, d⟩ ⟨b', d'⟩ e he
    simp only [lstsqEc] at he ⊢
    split_ifs at he ⊢ with h1 h2 h3 h4 <;> exact he

private lemma lstsq_lin (ext : LinalgExt 𝕜) {m n : ℕ} (A : Matrix (Fin m) (Fin n) 𝕜) :
    Lin 𝕜 fun b => Except.ok (ε := Err) (ext.lstsq A b) :=
  lin_ok' _ (fun x y => by simpa only [one_smul] using lstsq_linear ext A 1 1 x y)
    fun a x => by simpa only [zero_smul, add_zero] using lstsq_linear ext A a 0 x 0

/-- C76: for a given width the residues of `gf_from_moments` are linear in the moments; the poles do not depend on them. -/
theorem gf_from_moments_linear {n : ℕ} (width : ℝ) :
    (Linear 𝕜 (fun m : Fin n → 𝕜 => (gfFromMoments m (some width)).map PoleFct.residues) ∧
      SameErrors fun m : Fin n → 𝕜 => gfFromMoments m (some width)) ∧
    ∀ (m m' : Fin n → 𝕜) p p', gfFromMoments m (some width) = .ok p → gfFromMoments m' (some width) = .ok p' →
      p.poles = p'.poles := by
  have key : ∀ m : Fin n → 𝕜, gfFromMoments m (some width)
      = (vecsolve (vanderT 𝕜 n fun k => width * chebyshevPoints n k) m).bind
        fun r => .ok ⟨fun k => width * chebyshevPoints n k, r⟩ := by
    intro m
    simp only [gfFromMoments, autoWidth]
    cases vecsolve (vanderT 𝕜 n fun k => width * chebyshevPoints n k) m <;> rfl
  have hl := vecsolve_lin (vanderT 𝕜 n fun k => width * chebyshevPoints n k)
  refine ⟨⟨?_, ?_⟩, ?_⟩
  · have e : (fun m : Fin n → 𝕜 => (gfFromMoments m (some width)).map PoleFct.residues)
        = vecsolve (vanderT 𝕜 n fun k => width * chebyshevPoints n k) := by
      funext m
      rw [key]
      cases vecsolve (vanderT 𝕜 n fun k => width * chebyshevPoints n k) m <;> rfl
    rw [e]
    exact hl.out.1
  · intro g h e he
    beta_reduce at he ⊢
    rcases hl with ⟨e', he'⟩ | ⟨L, hL⟩
    · rw [key, he'] at he ⊢; exact he
    · rw [key, hL] at he; exact absurd he (by simp [Except.bind])
  · intro m m' p p' hp hp'
    rcases hl with ⟨e', he'⟩ | ⟨L, hL⟩
    · rw [key, he'] at hp; exact absurd hp (by simp [Except.bind])
    · rw [key, hL] at hp hp'
      rw [← Except.ok.inj hp, ← Except.ok.inj hp']
end

/-! ## Imaginary time to Matsubara frequencies -/

private lemma tauFit_lin (ext : LinalgExt ℝ) {k l n : ℕ} (beta width : ℝ) (weight : Option (Fin k → ℝ)) :
    ∃ (poles : Fin n → ℝ) (R : (Fin k → ℝ) × (Fin l → ℝ) → Except Err (Fin n → ℝ)), Lin ℝ R ∧ ∀ p,
      gfFromTau ext p.1 n beta p.2 0 width weight = (R p).bind fun r => .ok ⟨poles, r⟩ := by
  classical
  set poles : Fin n → ℝ := fun k => width * chebyshevPoints n k with hpoles
  set wt := weight.getD fun _ => 1 with hwt
  let mulw : (Fin k → ℝ) →ₗ[ℝ] (Fin k → ℝ) :=
    { toFun := fun g i => wt i * g i, map_add' := fun x y => by funext i; simp [mul_add],
      map_smul' := fun a x => by funext i; simp; ring }
  have h1 : Lin ℝ fun p : (Fin k → ℝ) × (Fin l → ℝ) =>
      lstsqEc ext (fitMatTau beta poles wt) (fun i => wt i * p.1 i) (vanderT ℝ l poles) p.2 :=
    lin_comp (lin_of (lstsq_ec_linear (l' := l) ext (fitMatTau beta poles wt) (vanderT ℝ l poles)))
      ((mulw.comp (LinearMap.fst ℝ _ _)).prod (LinearMap.snd ℝ _ _))
  have h2 : Lin ℝ fun p : (Fin k → ℝ) × (Fin l → ℝ) =>
      (Except.ok (ε := Err) (ext.lstsq (fitMatTau beta poles wt) fun i => wt i * p.1 i)) :=
    lin_comp (f := fun b : Fin k → ℝ => Except.ok (ε := Err) (ext.lstsq (fitMatTau beta poles wt) b))
      (lstsq_lin ext _) (mulw.comp (LinearMap.fst ℝ (Fin k → ℝ) (Fin l → ℝ)))
  refine ⟨poles, fun p => if n = 0 then .error .zeroDivision
    else if ¬ ∀ i, 0 ≤ linspace0 beta k i ∧ linspace0 beta k i ≤ beta then .error .assertionError
    else if 0 < l then if (n : ℤ) < l + truncInt 0 then .error .valueError else
      lstsqEc ext (fitMatTau beta poles wt) (fun i => wt i * p.1 i) (vanderT ℝ l poles) p.2
    else .ok (ext.lstsq (fitMatTau beta poles wt) fun i => wt i * p.1 i), ?_, ?_⟩
  · exact lin_ite (fun _ => lin_error _) fun _ => lin_ite (fun _ => lin_error _) fun _ =>
      lin_ite (fun _ => lin_ite (fun _ => lin_error _) fun _ => h1) fun _ => h2
  · intro p
    unfold gfFromTau
    simp only [ne_eq, not_true_eq_false, or_false, if_false, ← hpoles, ← hwt]
    by_cases hn : n = 0
    · rw [if_pos hn, if_pos hn]; rfl
    rw [if_neg hn, if_neg hn]
    by_cases hb : ∀ i, 0 ≤ linspace0 beta k i ∧ linspace0 beta k i ≤ beta
    · rw [if_neg (not_not.2 hb), if_neg (not_not.2 hb)]
      by_cases hl : 0 < l
      · rw [if_pos hl, if_pos hl]
        by_cases hs : (n : ℤ) < l + truncInt 0
        · rw [if_pos hs, if_pos hs]; rfl
        · rw [if_neg hs, if_neg hs, if_neg hl.ne']
          cases lstsqEc ext (fitMatTau beta poles wt) (fun i => wt i * p.1 i) (vanderT ℝ l poles) p.2 <;> rfl
      · rw [if_neg hl, if_neg hl]; rfl
    · rw [if_pos hb, if_pos hb]; rfl

private lemma evalTauGrid_lin {n : ℕ} (poles : Fin n → ℝ) (beta : ℝ) (k : ℕ) :
    Lin ℝ fun r : Fin n → ℝ => evalTauGrid ⟨poles, r⟩ beta k := by
  unfold evalTauGrid
  refine lin_ite (fun _ => lin_ok' _ (fun x y => ?_) fun a x => ?_) fun _ => lin_error _
  · funext i
    simp only [Pi.add_apply, add_mul, Finset.sum_add_distrib]
  · funext i
    simp only [Pi.smul_apply, smul_eq_mul, Finset.mul_sum, mul_assoc]

private noncomputable def evalZLin {n : ℕ} (poles : Fin n → ℝ) (z : ℂ) : (Fin n → ℝ) →ₗ[ℝ] ℂ where
  toFun r := PoleFct.evalZ ⟨poles, r⟩ z
  map_add' x y := by
    simp only [PoleFct.evalZ, poleGfZ, Pi.add_apply, Complex.ofReal_add, add_div, Finset.sum_add_distrib]
  map_smul' a x := by
    simp only [PoleFct.evalZ, poleGfZ, Pi.smul_apply, smul_eq_mul, Complex.ofReal_mul, RingHom.id_apply,
      Complex.real_smul, Finset.mul_sum, mul_div_assoc]

private lemma tau2iwMoments_lin (ext : LinalgExt ℝ) {T l : ℕ} (beta : ℝ) (n : ℕ)
    (fourier : (Fin (T + 1) → ℝ) → ℝ → Except Err (Fin ((T + 1) / 2) → ℂ)) (hf : Lin ℝ fun g => fourier g beta) :
    Lin ℝ fun p : (Fin (T + 1) → ℝ) × (Fin l → ℝ) => tau2iwMoments ext p.1 beta n p.2 fourier := by
  obtain ⟨poles, R, hR, hfit⟩ := tauFit_lin (k := T + 1) (l := l) (n := n) ext beta 1 none
  have e : (fun p : (Fin (T + 1) → ℝ) × (Fin l → ℝ) => tau2iwMoments ext p.1 beta n p.2 fourier) = fun p =>
      (R p).bind fun r => (evalTauGrid ⟨poles, r⟩ beta (T + 1)).bind fun pt =>
        (fourier (p.1 - pt) beta).bind fun x =>
          .ok (x + fun i : Fin ((T + 1) / 2) => PoleFct.evalZ ⟨poles, r⟩ (matsubaraFrequencies (i : ℕ) beta)) := by
    funext p
    unfold tau2iwMoments
    rw [hfit]
    cases R p with
    | error e => rfl
    | ok r =>
      simp only [Except.bind]
      cases evalTauGrid ⟨poles, r⟩ beta (T + 1) with
      | error e => rfl
      | ok pt =>
        simp only
        have : (fun k => p.1 k - pt k) = p.1 - pt := rfl
        rw [this]
        cases fourier (p.1 - pt) beta <;> rfl
  rw [e]
  refine lin_bind hR (lin_bind (lin_comp' (evalTauGrid_lin poles beta (T + 1))
    (fun p : ((Fin (T + 1) → ℝ) × (Fin l → ℝ)) × (Fin n → ℝ) => p.2) (fun _ _ => rfl) fun _ _ => rfl) (lin_bind
    (lin_comp' hf (fun p : (((Fin (T + 1) → ℝ) × (Fin l → ℝ)) × (Fin n → ℝ)) × (Fin (T + 1) → ℝ) => p.1.1.1 - p.2)
      (fun x y => by simp only [Prod.fst_add, Prod.snd_add]; abel)
      fun a x => by simp only [Prod.smul_fst, Prod.smul_snd, smul_sub]) (lin_ok' _ (fun x y => ?_) fun a x => ?_)))
  · funext i
    have := map_add (evalZLin poles (matsubaraFrequencies ((i : ℕ) : ℤ) beta)) x.1.1.2 y.1.1.2
    simp only [evalZLin, LinearMap.coe_mk, AddHom.coe_mk] at this
    simp only [Prod.fst_add, Prod.snd_add, Pi.add_apply, this]
    ring
  · funext i
    have := map_smul (evalZLin poles (matsubaraFrequencies ((i : ℕ) : ℤ) beta)) a x.1.1.2
    simp only [evalZLin, LinearMap.coe_mk, AddHom.coe_mk] at this
    simp only [Prod.smul_fst, Prod.smul_snd, Pi.add_apply, Pi.smul_apply, this, smul_add]

/-- C76: `tau2iw` without moments is linear in the Green's function, for every number of poles and every linear `fourier`. -/
theorem tau2iw_linear (ext : LinalgExt ℝ) {T : ℕ} (beta : ℝ) (npole : Option ℕ)
    (fourier : (Fin (T + 1) → ℝ) → ℝ → Except Err (Fin ((T + 1) / 2) → ℂ))
    (hf : Linear ℝ (fun g => fourier g beta) ∧ SameErrors fun g => fourier g beta) :
    Linear ℝ (fun g => tau2iw ext g beta npole none fourier) ∧ SameErrors fun g => tau2iw ext g beta npole none fourier := by
  let J : (Fin (T + 1) → ℝ) →ₗ[ℝ] (Fin (T + 1) → ℝ) × (Fin 1 → ℝ) :=
    { toFun := fun g => (g, fun _ => tauJump g)
      map_add' := fun x y => by
        refine Prod.ext rfl (funext fun _ => ?_)
        simp only [tauJump, Pi.add_apply, Prod.mk_add_mk]; ring
      map_smul' := fun a x => by
        refine Prod.ext rfl (funext fun _ => ?_)
        simp only [tauJump, Pi.smul_apply, Prod.smul_mk, smul_eq_mul, RingHom.id_apply]; ring }
  exact (lin_comp (tau2iwMoments_lin ext (l := 1) beta (npole.getD 1) fourier (lin_of hf)) J).out

/-- C76: `tau2iw` with `l` moments is jointly linear in the Green's function and its moments. -/
theorem tau2iw_moments_linear (ext : LinalgExt ℝ) {T l : ℕ} (beta : ℝ) (npole : Option ℕ)
    (fourier : (Fin (T + 1) → ℝ) → ℝ → Except Err (Fin ((T + 1) / 2) → ℂ))
    (hf : Linear ℝ (fun g => fourier g beta) ∧ SameErrors fun g => fourier g beta) :
    Linear ℝ (fun p : (Fin (T + 1) → ℝ) × (Fin l → ℝ) => tau2iw ext p.1 beta npole (some ⟨l, p.2⟩) fourier) ∧
      SameErrors fun p : (Fin (T + 1) → ℝ) × (Fin l → ℝ) => tau2iw ext p.1 beta npole (some ⟨l, p.2⟩) fourier :=
  Lin.out (lin_ite (fun _ => lin_error _) fun _ => tau2iwMoments_lin ext beta (npole.getD l) fourier (lin_of hf))

example (ext : LinalgExt ℝ) {T : ℕ} (beta : ℝ) :
    Linear ℝ (fun g : Fin (T + 1) → ℝ => tau2iw ext g beta none none tau2iwFtLin) :=
  (tau2iw_linear ext beta none tau2iwFtLin (tau2iw_ft_lin_linear beta)).1

example (g : Fin 3 → ℝ) : ∃ x, tau2iwFtLin g 1 = .ok x := by simp [tau2iwFtLin, ihfft]

/-! ## Matsubara frequencies to imaginary time -/

private lemma iw2tauPoles_lin (ext : LinalgExt ℝ) {N l : ℕ} (beta : ℝ) (nfit : ℕ) :
    ∃ (poles : Fin (l + nfit) → ℝ) (R : (Fin N → ℂ) × (Fin l → ℝ) → Except Err (Fin (l + nfit) → ℝ)), Lin ℝ R ∧ ∀ p,
      iw2tauPoles ext p.1 beta p.2 nfit = (R p).bind fun r => .ok ⟨poles, r⟩ := by
  have hw : ∀ (n : ℕ) (m : Fin l → ℝ), autoWidth n m (some 1) = 1 := fun n m => rfl
  cases nfit with
  | zero =>
    refine ⟨fun k => 1 * chebyshevPoints l k, fun p => vecsolve (vanderT ℝ l fun k => 1 * chebyshevPoints l k) p.2,
      lin_comp' (vecsolve_lin _) (fun p : (Fin N → ℂ) × (Fin l → ℝ) => p.2) (fun _ _ => rfl) fun _ _ => rfl, fun p => ?_⟩
    simp only [iw2tauPoles, gfFromMoments, hw]
    cases vecsolve (vanderT ℝ l fun k => 1 * chebyshevPoints l k) p.2 <;> rfl
  | succ nfit =>
    set n := l + (nfit + 1) with hn
    set poles : Fin n → ℝ := fun k => 1 * chebyshevPoints n k with hpoles
    set z := fun i : Fin N => matsubaraFrequencies ((i : ℕ) : ℤ) beta with hz
    set wt := fun i : Fin N => (matsubaraFrequencies ((i : ℕ) : ℤ) beta).im ^ n with hwt
    have hfa : ∀ x y : Fin N → ℂ, fitVecZ (x + y) wt = fitVecZ x wt + fitVecZ y wt := fun x y => by
      funext j
      simp only [fitVecZ, Pi.add_apply]
      refine Fin.addCases (fun i => ?_) (fun i => ?_) j
      · simp only [Fin.append_left, Complex.add_re]; ring
      · simp only [Fin.append_right, Complex.add_im]; ring
    have hfs : ∀ (a : ℝ) (x : Fin N → ℂ), fitVecZ (a • x) wt = a • fitVecZ x wt := fun a x => by
      funext j
      simp only [fitVecZ, Pi.smul_apply]
      refine Fin.addCases (fun i => ?_) (fun i => ?_) j
      · simp only [Fin.append_left, Complex.smul_re, smul_eq_mul]; ring
      · simp only [Fin.append_right, Complex.smul_im, smul_eq_mul]; ring
    have h1 : Lin ℝ fun p : (Fin N → ℂ) × (Fin l → ℝ) =>
        lstsqEc ext (fitMatZ z poles wt) (fitVecZ p.1 wt) (vanderT ℝ l poles) p.2 :=
      lin_comp' (lin_of (lstsq_ec_linear (l' := l) ext (fitMatZ z poles wt) (vanderT ℝ l poles)))
        (fun p : (Fin N → ℂ) × (Fin l → ℝ) => (fitVecZ p.1 wt, p.2))
        (fun x y => by rw [Prod.fst_add, hfa]; rfl) fun a x => by rw [Prod.smul_fst, hfs]; rfl
    have h2 : Lin ℝ fun p : (Fin N → ℂ) × (Fin l → ℝ) =>
        (Except.ok (ε := Err) (ext.lstsq (fitMatZ z poles wt) (fitVecZ p.1 wt))) :=
      lin_comp' (lstsq_lin ext _) (fun p : (Fin N → ℂ) × (Fin l → ℝ) => fitVecZ p.1 wt)
        (fun x y => by rw [Prod.fst_add, hfa]) fun a x => by rw [Prod.smul_fst, hfs]
    refine ⟨poles, fun p => if 0 < l then if n < l then .error .valueError else
      lstsqEc ext (fitMatZ z poles wt) (fitVecZ p.1 wt) (vanderT ℝ l poles) p.2
      else .ok (ext.lstsq (fitMatZ z poles wt) (fitVecZ p.1 wt)),
      lin_ite (fun _ => lin_ite (fun _ => lin_error _) fun _ => h1) fun _ => h2, fun p => ?_⟩
    simp only [iw2tauPoles, gfFromZ, hw, Option.getD_some]
    by_cases h0 : 0 < l
    · have hnl : ¬ n < l := by omega
      rw [if_pos h0, if_pos h0, if_neg hnl, if_neg hnl]
      cases lstsqEc ext (fitMatZ z poles wt) (fitVecZ p.1 wt) (vanderT ℝ l poles) p.2 <;> rfl
    · rw [if_neg h0, if_neg h0]; rfl

/-- C76: `iw2tau` is jointly linear in the Green's function and its moments, for every number of moments and fitted poles and
every linear `fourier`. -/
theorem iw2tau_linear (ext : LinalgExt ℝ) {N l : ℕ} (beta : ℝ)
    (fourier : (Fin N → ℂ) → ℝ → Except Err (Fin (2 * N + 1) → ℝ)) (nfit : ℕ)
    (hf : Linear ℝ (fun g => fourier g beta) ∧ SameErrors fun g => fourier g beta) :
    Linear ℝ (fun p : (Fin N → ℂ) × (Fin l → ℝ) => iw2tau ext p.1 beta p.2 fourier nfit) ∧
      SameErrors fun p : (Fin N → ℂ) × (Fin l → ℝ) => iw2tau ext p.1 beta p.2 fourier nfit := by
  obtain ⟨poles, R, hR, hfit⟩ := iw2tauPoles_lin (N := N) ext beta nfit
  have e : (fun p : (Fin N → ℂ) × (Fin l → ℝ) => iw2tau ext p.1 beta p.2 fourier nfit) = fun p =>
      (R p).bind fun r =>
        (fourier (p.1 - fun i : Fin N => PoleFct.evalZ ⟨poles, r⟩ (matsubaraFrequencies (i : ℕ) beta)) beta).bind fun gt =>
          (evalTauGrid ⟨poles, r⟩ beta (2 * N + 1)).bind fun pt => .ok (gt + pt) := by
    funext p
    unfold iw2tau
    rw [hfit]
    cases R p with
    | error e => rfl
    | ok r =>
      simp only [Except.bind]
      have : (fun i : Fin N => p.1 i - PoleFct.evalZ ⟨poles, r⟩ (matsubaraFrequencies (i : ℕ) beta))
        = p.1 - fun i : Fin N => PoleFct.evalZ ⟨poles, r⟩ (matsubaraFrequencies (i : ℕ) beta) := rfl
      rw [this]
      cases fourier (p.1 - fun i : Fin N => PoleFct.evalZ ⟨poles, r⟩ (matsubaraFrequencies (i : ℕ) beta)) beta with
      | error e => rfl
      | ok gt =>
        simp only
        cases evalTauGrid ⟨poles, r⟩ beta (2 * N + 1) <;> rfl
  rw [e]
  refine Lin.out (lin_bind hR (lin_bind (lin_comp' (lin_of hf) (fun p : ((Fin N → ℂ) × (Fin l → ℝ)) × (Fin (l + nfit) → ℝ) =>
    p.1.1 - fun i : Fin N => PoleFct.evalZ ⟨poles, p.2⟩ (matsubaraFrequencies (i : ℕ) beta)) (fun x y => ?_) fun a x => ?_)
    (lin_bind (lin_comp' (evalTauGrid_lin poles beta (2 * N + 1))
      (fun p : (((Fin N → ℂ) × (Fin l → ℝ)) × (Fin (l + nfit) → ℝ)) × (Fin (2 * N + 1) → ℝ) => p.1.2) (fun _ _ => rfl)
      fun _ _ => rfl)
      (lin_ok' _ (fun x y => ?_) fun a x => ?_))))
  · funext i
    have := map_add (evalZLin poles (matsubaraFrequencies ((i : ℕ) : ℤ) beta)) x.2 y.2
    simp only [evalZLin, LinearMap.coe_mk, AddHom.coe_mk] at this
    simp only [Prod.fst_add, Prod.snd_add, Pi.sub_apply, Pi.add_apply, this]
    ring
  · funext i
    have := map_smul (evalZLin poles (matsubaraFrequencies ((i : ℕ) : ℤ) beta)) a x.2
    simp only [evalZLin, LinearMap.coe_mk, AddHom.coe_mk] at this
    simp only [Prod.smul_fst, Prod.smul_snd, Pi.sub_apply, Pi.smul_apply, this, smul_sub]
  · simp only [Prod.fst_add, Prod.snd_add]; abel
  · simp only [Prod.smul_fst, Prod.smul_snd, smul_add]

example (ext : LinalgExt ℝ) {N : ℕ} (beta : ℝ) :
    Linear ℝ (fun p : (Fin N → ℂ) × (Fin 4 → ℝ) => iw2tau ext p.1 beta p.2 iw2tauDft 3) :=
  (iw2tau_linear ext beta iw2tauDft 3 (iw2tau_dft_linear beta)).1

/-! ### Automatic width: the poles depend on the data -/

private lemma two_poles {c : ℝ} (hc : 1 ≤ c) :
    gfFromMoments ![c, c] none = .ok ⟨![-c, c], ![(c - 1) / 2, (c + 1) / 2]⟩ := by
  obtain ⟨g, hg, -⟩ := gf_from_moments_correct (𝕜 := ℝ) ![c, c] none (.inl (by simp))
  have h1 : g.poles 1 = ‖(![c, c] : Fin 2 → ℝ) ⟨1, by norm_num⟩‖ := (gf_from_moments_auto_width (𝕜 := ℝ) (n := 2) (by norm_num) ![c, c]
    (by simp only [Fin.mk_one, cons_val_one, cons_val_fin_one, Real.norm_eq_abs]; rw [abs_of_pos (by linarith)]; linarith) hg).1
  simp only [Fin.mk_one, cons_val_one, cons_val_fin_one, Real.norm_eq_abs, abs_of_pos (by linarith : 0 < c)] at h1
  have h0 : g.poles 0 = - g.poles 1 := by
    have hp : g.poles = fun k => autoWidth 2 ![c, c] none * chebyshevPoints 2 k := by
      simp only [gfFromMoments] at hg
      split at hg
      · rw [← Except.ok.inj hg]
      · exact absurd hg (by simp)
    rw [hp]
    simp only [chebyshevPoints, Fin.val_zero, Fin.val_one]
    rw [← mul_neg, ← Real.sin_neg]
    congr 2
    push_cast
    ring
  have hpoles : g.poles = ![-c, c] := by
    funext k
    fin_cases k
    · simpa [h1] using h0
    · simpa using h1
  have hres := gf_from_moments_unique (𝕜 := ℝ) ![c, c] none (.inl (by simp)) hg ![(c - 1) / 2, (c + 1) / 2] (by
    intro k
    rw [hpoles]
    fin_cases k
    · simp [poleMoments]; ring
    · simp [poleMoments]; ring)
  rw [hg]
  cases g
  simp only at hpoles hres
  rw [hpoles, ← hres]

/-- `gf_from_moments` with `width=None` is not linear: the poles follow the second moment if this is at least `0.1`, so twice the
moments do not give twice the residues (the functions of C76 use a fixed width). -/
theorem gf_from_moments_auto_width_not_linear :
    ¬ Linear ℝ fun m : Fin 2 → ℝ => (gfFromMoments m none).map PoleFct.residues := by
  intro h
  have h1 : (gfFromMoments (![1, 1] : Fin 2 → ℝ) none).map PoleFct.residues = .ok ![(1 - 1) / 2, (1 + 1) / 2] := by
    rw [two_poles le_rfl]; rfl
  have h2 : (gfFromMoments (![2, 2] : Fin 2 → ℝ) none).map PoleFct.residues = .ok ![(2 - 1) / 2, (2 + 1) / 2] := by
    rw [two_poles (by norm_num)]; rfl
  have h3 := h 2 0 ![1, 1] ![1, 1] _ _ h1 h1
  have e : (2 : ℝ) • (![1, 1] : Fin 2 → ℝ) + (0 : ℝ) • (![1, 1] : Fin 2 → ℝ) = ![2, 2] := by simp
  rw [e] at h3
  replace h3 := h2.symm.trans h3
  have := congrFun (Except.ok.inj h3) 0
  norm_num at this

end Gftool.Props
