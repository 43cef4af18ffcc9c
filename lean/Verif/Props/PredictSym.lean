import Verif.Props.LinearPrediction
import Verif.Lemmas.LstsqLinear
import Verif.Model.Laplace

/-!
# Property C77: linear prediction and Laplace transform do not depend on scale and zero of the energy
-/

namespace Gftool.Props

open Gftool Model Lemmas Matrix

/-! ## Prediction with given coefficients -/

/-- The linear combination `a x + b y` of two series. -/
def combine (a b : ℂ) (x y : List ℂ) : List ℂ := List.zipWith (fun u v => a * u + b * v) x y

/-- The series `ω^n x_n`. -/
def modulate (ω : ℂ) (x : List ℂ) : List ℂ := x.mapIdx fun n v => ω ^ n * v

/-- The prediction coefficients `ω^(k+1) a_k`. -/
def modulateCoeff (ω : ℂ) (pc : List ℂ) : List ℂ := pc.mapIdx fun k v => ω ^ (k + 1) * v

private lemma sum_combine (a b : ℂ) : ∀ x y : List ℂ, x.length = y.length →
    (combine a b x y).sum = a * x.sum + b * y.sum
  | [], [], _ => by simp [combine]
  | u :: x, v :: y, h => by
    have := sum_combine a b x y (by simpa using h)
    simp only [combine, List.zipWith_cons_cons, List.sum_cons] at this ⊢
    rw [this]; ring
  | [], _ :: _, h => by simp at h
  | _ :: _, [], h => by simp at h

private lemma sum_zip_combine (a b : ℂ) : ∀ r x y : List ℂ, x.length = y.length →
    (List.zipWith (· * ·) r (combine a b x y)).sum
      = a * (List.zipWith (· * ·) r x).sum + b * (List.zipWith (· * ·) r y).sum
  | [], x, y, _ => by simp
  | c :: r, [], [], _ => by simp [combine]
  | c :: r, u :: x, v :: y, h => by
    have := sum_zip_combine a b r x y (by simpa using h)
    simp only [combine, List.zipWith_cons_cons, List.sum_cons] at this ⊢
    rw [this]; ring
  | _ :: _, [], _ :: _, h => by simp at h
  | _ :: _, _ :: _, [], h => by simp at h

private lemma combine_length (a b : ℂ) {x y : List ℂ} (h : x.length = y.length) : (combine a b x y).length = x.length := by
  simp [combine, h]

private lemma combine_getD (a b : ℂ) {x y : List ℂ} (h : x.length = y.length) {i : ℕ} (hi : i < x.length) :
    (combine a b x y).getD i 0 = a * x.getD i 0 + b * y.getD i 0 := by
  simp only [combine, List.getD_eq_getElem?_getD, List.getElem?_zipWith, List.getElem?_eq_getElem hi,
    List.getElem?_eq_getElem (h ▸ hi : i < y.length), Option.getD_some]

private lemma step_linear (total : ℕ) (pc : List ℂ) (a b : ℂ) {x y : List ℂ} (h : x.length = y.length) {u v : ℂ}
    (hu : predictStep total pc x = .ok u) (hv : predictStep total pc y = .ok v) :
    predictStep total pc (combine a b x y) = .ok (a * u + b * v) := by
  unfold predictStep at hu hv ⊢
  rw [combine_length a b h]
  simp only [h] at hu hv ⊢
  set lo := if pc.length ≤ y.length then y.length - pc.length else total - (pc.length - y.length)
  have hd : (combine a b x y).drop lo = combine a b (x.drop lo) (y.drop lo) := by
    simp only [combine, List.drop_zipWith]
  rw [hd]
  have hl : (x.drop lo).length = (y.drop lo).length := by simp [h]
  generalize x.drop lo = x' at *
  generalize y.drop lo = y' at *
  generalize pc.reverse = r at *
  unfold bcastMul at hu hv ⊢
  rw [combine_length a b hl]
  rw [hl] at hu ⊢
  by_cases c1 : r.length = y'.length
  · rw [if_pos c1] at hu hv ⊢
    simp only [Except.ok.injEq] at hu hv ⊢
    rw [← hu, ← hv, sum_zip_combine a b r x' y' hl]
    ring
  rw [if_neg c1] at hu hv ⊢
  by_cases c2 : r.length = 1
  · rw [if_pos c2] at hu hv ⊢
    simp only [Except.ok.injEq] at hu hv ⊢
    rw [← hu, ← hv]
    have e : ∀ (c : ℂ) (l : List ℂ), (l.map (c * ·)).sum = c * l.sum := fun c l => by
      rw [List.sum_map_mul_left, List.map_id']
    rw [e, e, e, sum_combine a b x' y' hl]
    ring
  rw [if_neg c2] at hu hv ⊢
  by_cases c3 : y'.length = 1
  · rw [if_pos c3] at hu hv ⊢
    simp only [Except.ok.injEq] at hu hv ⊢
    obtain ⟨q, rfl⟩ := List.length_eq_one_iff.1 c3
    obtain ⟨p, rfl⟩ := List.length_eq_one_iff.1 (hl.trans c3)
    rw [← hu, ← hv]
    have e : ∀ (c : ℂ) (l : List ℂ), (l.map (· * c)).sum = l.sum * c := fun c l => by
      rw [List.sum_map_mul_right, List.map_id']
    simp only [combine, List.zipWith_cons_cons, List.zipWith_nil_left, List.headD_cons, e]
    ring
  · rw [if_neg c3] at hu
    exact absurd hu (by simp)

private lemma loop_linear (total : ℕ) (pc : List ℂ) (a b : ℂ) (num : ℕ) : ∀ x y u v : List ℂ, x.length = y.length →
    predictLoop total pc num x = .ok u → predictLoop total pc num y = .ok v →
      predictLoop total pc num (combine a b x y) = .ok (combine a b u v) := by
  induction num with
  | zero =>
    intro x y u v _ hu hv
    simp only [predictLoop, Except.ok.injEq] at hu hv ⊢
    rw [hu, hv]
  | succ num ih =>
    intro x y u v h hu hv
    simp only [predictLoop] at hu hv ⊢
    cases h1 : predictStep total pc x with
    | error e => rw [h1] at hu; exact absurd hu (by simp)
    | ok p =>
      cases h2 : predictStep total pc y with
      | error e => rw [h2] at hv; exact absurd hv (by simp)
      | ok q =>
        rw [h1] at hu
        rw [h2] at hv
        rw [step_linear total pc a b h h1 h2]
        have := ih (x ++ [p]) (y ++ [q]) u v (by simp [h]) hu hv
        simpa only [combine, List.zipWith_append h, List.zipWith_cons_cons, List.zipWith_nil_left] using this

/-- C77: for given coefficients the prediction is linear in the series. -/
theorem predict_linear (pc : List ℂ) (num : ℤ) (a b : ℂ) {x y u v : List ℂ} (h : x.length = y.length)
    (hu : predict x pc num = .ok u) (hv : predict y pc num = .ok v) :
    predict (combine a b x y) pc num = .ok (combine a b u v) := by
  unfold predict at hu hv ⊢
  split_ifs at hu hv ⊢
  rw [combine_length a b h]
  rw [h] at hu ⊢
  exact loop_linear _ _ _ _ _ _ _ _ _ h hu hv

private lemma modulate_append (ω : ℂ) (x : List ℂ) (v : ℂ) : modulate ω (x ++ [v]) = modulate ω x ++ [ω ^ x.length * v] := by
  simp [modulate, List.mapIdx_append]

private lemma modulate_length (ω : ℂ) (x : List ℂ) : (modulate ω x).length = x.length := by simp [modulate]

private lemma modulate_getD (ω : ℂ) (x : List ℂ) (i : ℕ) : (modulate ω x).getD i 0 = ω ^ i * x.getD i 0 := by
  simp only [modulate, List.getD_eq_getElem?_getD, List.getElem?_mapIdx]
  cases x[i]? <;> simp

private lemma loop_modulate (ω : ℂ) (total : ℕ) (pc : List ℂ) (num : ℕ) : ∀ x u : List ℂ, pc.length ≤ x.length →
    predictLoop total pc num x = .ok u →
      predictLoop total (modulateCoeff ω pc) num (modulate ω x) = .ok (modulate ω u) := by
  have hl : (modulateCoeff ω pc).length = pc.length := by simp [modulateCoeff]
  have hg : ∀ k, (modulateCoeff ω pc).getD k 0 = ω ^ (k + 1) * pc.getD k 0 := fun k => by
    simp only [modulateCoeff, List.getD_eq_getElem?_getD, List.getElem?_mapIdx]
    cases pc[k]? <;> simp
  induction num with
  | zero =>
    intro x u _ hu
    simp only [predictLoop, Except.ok.injEq] at hu ⊢
    rw [hu]
  | succ num ih =>
    intro x u h hu
    have h' : (modulateCoeff ω pc).length ≤ (modulate ω x).length := by rw [hl, modulate_length]; exact h
    simp only [predictLoop, predictStep_ok total pc x h, predictStep_ok total _ _ h'] at hu ⊢
    have := ih _ u (by simp; omega) hu
    rw [modulate_append] at this
    rw [← this, hl, modulate_length]
    congr 3
    rw [mul_neg, Finset.mul_sum]
    congr 1
    refine Finset.sum_congr rfl fun k hk => ?_
    have hk' := Finset.mem_range.1 hk
    rw [hg, modulate_getD]
    have e : ω ^ x.length = ω ^ (k + 1) * ω ^ (x.length - 1 - k) := by rw [← pow_add]; congr 1; omega
    rw [e]
    ring

/-- C77: the prediction of the series `ω^n x_n` with the coefficients `ω^(k+1) a_k` is `ω^n` times the prediction of `x`. -/
theorem predict_modulate (ω : ℂ) (x pc u : List ℂ) (num : ℤ) (h : pc.length ≤ x.length) (hu : predict x pc num = .ok u) :
    predict (modulate ω x) (modulateCoeff ω pc) num = .ok (modulate ω u) := by
  unfold predict at hu ⊢
  split_ifs at hu ⊢
  rw [modulate_length]
  exact loop_modulate ω _ pc _ x u h hu

example : ∃ u, predict [1, 2, 3] [1, 1] 4 = .ok u :=
  let ⟨y, h, _⟩ := predict_correct [1, 2, 3] [1, 1] 4 (by simp)
  ⟨y, h⟩

/-! ## Covariance method -/

private lemma covarMat_apply (x : ℕ → ℂ) (N p : ℕ) (i : Fin (N - p)) (j : Fin p) :
    covarMat x N p i j = x (p - 1 + i - j) := by
  unfold covarMat
  simp only [of_apply]
  split_ifs
  · congr 1; omega
  · congr 1; omega

/-- C77: scaling the series by `c ≠ 0` leaves the coefficients of the covariance method unchanged and scales the error;
a shift of the energy, `x_n → ω^n x_n` with `|ω| = 1`, multiplies coefficient `k` by `ω^(k+1)`. -/
theorem pcoeff_covar_units (ext : LinalgExt ℂ) (x : ℕ → ℂ) (N p : ℕ) {c ω : ℂ} (hc : c ≠ 0) (hω : ‖ω‖ = 1) :
    pcoeffCovar ext (fun n => c * ω ^ n * x n) N p
      = (pcoeffCovar ext x N p).map fun r => (fun k : Fin p => ω ^ ((k : ℕ) + 1) * r.1 k, ‖c‖ * r.2) := by
  unfold pcoeffCovar
  split_ifs with h1 h2
  · rfl
  · rfl
  have hω0 : ω ≠ 0 := fun h => by rw [h, norm_zero] at hω; exact zero_ne_one hω
  set φ : (Fin p → ℂ) → (Fin p → ℂ) := fun y k => ω ^ ((k : ℕ) + 1) * y k with hφ
  have hmul : ∀ y (i : Fin (N - p)), (covarMat (fun n => c * ω ^ n * x n) N p *ᵥ φ y) i
      = c * ω ^ (p + i) * (covarMat x N p *ᵥ y) i := by
    intro y i
    simp only [mulVec, dotProduct, Finset.mul_sum]
    refine Finset.sum_congr rfl fun j _ => ?_
    rw [covarMat_apply, covarMat_apply]
    have e : ω ^ (p + (i : ℕ)) = ω ^ (p - 1 + i - j) * ω ^ ((j : ℕ) + 1) := by
      rw [← pow_add]; congr 1; have := j.2; omega
    rw [e]
    simp only [hφ]
    ring
  have hn : ∀ (k : ℕ), ‖ω ^ k‖ = 1 := fun k => by rw [norm_pow, hω, one_pow]
  have hsol : ext.lstsq (covarMat (fun n => c * ω ^ n * x n) N p) (-fun i : Fin (N - p) => c * ω ^ (p + (i : ℕ)) * x (p + i))
      = φ (ext.lstsq (covarMat x N p) (-fun i : Fin (N - p) => x (p + i))) := by
    refine lstsq_map ext _ _ _ _ φ (fun y => ⟨fun k => y k / ω ^ ((k : ℕ) + 1), ?_⟩)
      (r := ‖c‖ ^ 2) (pow_pos (norm_pos_iff.2 hc) 2) (fun y => ?_) fun y => ?_
    · funext k
      simp only [hφ]
      rw [mul_div_cancel₀ _ (pow_ne_zero _ hω0)]
    · simp only [sqNorm, Finset.mul_sum, ← mul_pow]
      refine Finset.sum_congr rfl fun i _ => ?_
      have : (covarMat (fun n => c * ω ^ n * x n) N p *ᵥ φ y - -fun i : Fin (N - p) => c * ω ^ (p + (i : ℕ)) * x (p + i)) i
          = c * ω ^ (p + (i : ℕ)) * ((covarMat x N p *ᵥ y - -fun i : Fin (N - p) => x (p + i)) i) := by
        simp only [Pi.sub_apply, Pi.neg_apply, hmul]; ring
      rw [this, norm_mul, norm_mul, hn, mul_one]
    · simp only [sqNorm]
      refine Finset.sum_congr rfl fun i _ => ?_
      simp only [hφ, norm_mul, hn, one_mul]
  simp only [Except.map, hsol]
  congr 2
  have : sqNorm ((fun i : Fin (N - p) => c * ω ^ (p + (i : ℕ)) * x (p + i)) + covarMat (fun n => c * ω ^ n * x n) N p *ᵥ
      φ (ext.lstsq (covarMat x N p) (-fun i : Fin (N - p) => x (p + i))))
      = ‖c‖ ^ 2 * sqNorm ((fun i : Fin (N - p) => x (p + i)) + covarMat x N p *ᵥ
        ext.lstsq (covarMat x N p) (-fun i : Fin (N - p) => x (p + i))) := by
    simp only [sqNorm, Finset.mul_sum, ← mul_pow]
    refine Finset.sum_congr rfl fun i _ => ?_
    simp only [Pi.add_apply, hmul]
    rw [← mul_add, norm_mul, norm_mul, hn, mul_one]
  rw [this, Real.sqrt_mul (sq_nonneg _), Real.sqrt_sq (norm_nonneg _)]

/-- C77: the complex conjugate series has the complex conjugate coefficients. -/
theorem pcoeff_covar_conj (ext : LinalgExt ℂ) (x : ℕ → ℂ) (N p : ℕ) :
    pcoeffCovar ext (fun n => star (x n)) N p
      = (pcoeffCovar ext x N p).map fun r => (fun k => star (r.1 k), r.2) := by
  unfold pcoeffCovar
  split_ifs with h1 h2
  · rfl
  · rfl
  have hmul : ∀ y (i : Fin (N - p)), (covarMat (fun n => star (x n)) N p *ᵥ (fun k => star (y k))) i
      = star ((covarMat x N p *ᵥ y) i) := by
    intro y i
    simp only [mulVec, dotProduct, star_sum, star_mul', covarMat_apply]
  have hsol : ext.lstsq (covarMat (fun n => star (x n)) N p) (-fun i : Fin (N - p) => star (x (p + i)))
      = fun k => star (ext.lstsq (covarMat x N p) (-fun i : Fin (N - p) => x (p + i)) k) := by
    refine lstsq_map ext _ _ _ _ (fun y k => star (y k)) (fun y => ⟨fun k => star (y k), ?_⟩) one_pos (fun y => ?_) fun y => ?_
    · simp
    · simp only [sqNorm, one_mul]
      refine Finset.sum_congr rfl fun i _ => ?_
      simp only [Pi.sub_apply, Pi.neg_apply, hmul]
      rw [← star_neg, ← star_sub, norm_star]
    · simp only [sqNorm, norm_star]
  simp only [Except.map, hsol]
  congr 3
  simp only [sqNorm]
  refine Finset.sum_congr rfl fun i _ => ?_
  simp only [Pi.add_apply, hmul]
  rw [← star_add, norm_star]

/-- C77: real series have real coefficients (covariance method). -/
theorem pcoeff_covar_real (ext : LinalgExt ℂ) (x : ℕ → ℂ) (hx : ∀ n, (x n).im = 0) (N p : ℕ) (a : Fin p → ℂ) (err : ℝ)
    (h : pcoeffCovar ext x N p = .ok (a, err)) (k : Fin p) : (a k).im = 0 := by
  have e : (fun n => star (x n)) = x := funext fun n => Complex.conj_eq_iff_im.2 (hx n)
  have h' := pcoeff_covar_conj ext x N p
  rw [e, h] at h'
  simp only [Except.map, Except.ok.injEq, Prod.mk.injEq] at h'
  exact Complex.conj_eq_iff_im.1 (congrFun h'.1 k).symm

example (ext : LinalgExt ℂ) : ∃ r, pcoeffCovar ext (fun n => (n : ℂ)) 5 2 = .ok r := by simp [pcoeffCovar]

/-! ## Burg's method -/

/-- How the variables of the loop change. -/
private def BurgRel (c ω : ℂ) (k : ℕ) (s s' : BurgState) : Prop :=
  s'.n = s.n ∧ (∀ i, s'.f i = c * ω ^ (i + k + 1) * s.f i) ∧ (∀ i, s'.b i = c * ω ^ i * s.b i) ∧
    (∀ j, s'.a j = ω ^ (j + 1) * s.a j) ∧ s'.rho = ‖c‖ ^ 2 * s.rho

private lemma burgRel_denom {c ω : ℂ} (hω : ‖ω‖ = 1) {k : ℕ} {s s' : BurgState} (h : BurgRel c ω k s s') :
    burgDenom s' = ‖c‖ ^ 2 * burgDenom s := by
  obtain ⟨h1, h2, h3, -⟩ := h
  simp only [burgDenom, h1, h2, h3, norm_mul, norm_pow, hω, one_pow, mul_one, mul_pow, ← Finset.mul_sum, ← mul_add]

private lemma star_pow_mul {ω : ℂ} (hω : ‖ω‖ = 1) (n : ℕ) : star (ω ^ n) * ω ^ n = 1 := by
  have : star (ω ^ n) * ω ^ n = ((‖ω ^ n‖ ^ 2 : ℝ) : ℂ) := by
    rw [Complex.star_def, ← Complex.normSq_eq_conj_mul_self, Complex.normSq_eq_norm_sq]
  rw [this, norm_pow, hω]; simp

private lemma burgRel_refl {c ω : ℂ} (hc : c ≠ 0) (hω : ‖ω‖ = 1) {k : ℕ} {s s' : BurgState} (h : BurgRel c ω k s s') :
    burgRefl s' = ω ^ (k + 1) * burgRefl s := by
  have hd := burgRel_denom hω h
  obtain ⟨h1, h2, h3, -⟩ := h
  unfold burgRefl
  rw [hd]
  have hcc : (c * star c : ℂ) = ((‖c‖ ^ 2 : ℝ) : ℂ) := by
    rw [Complex.star_def, Complex.mul_conj, Complex.normSq_eq_norm_sq]
  have hsum : ∑ i ∈ Finset.range s'.n, s'.f i * star (s'.b i)
      = ((‖c‖ ^ 2 : ℝ) : ℂ) * (ω ^ (k + 1) * ∑ i ∈ Finset.range s.n, s.f i * star (s.b i)) := by
    rw [h1, Finset.mul_sum, Finset.mul_sum]
    refine Finset.sum_congr rfl fun i _ => ?_
    rw [h2, h3, star_mul', star_mul', ← hcc]
    have e : ω ^ (i + k + 1) = ω ^ i * ω ^ (k + 1) := by rw [← pow_add]; congr 1
    rw [e]
    linear_combination (c * star c * ω ^ (k + 1) * s.f i * star (s.b i)) * star_pow_mul hω i
  rw [hsum]
  have hc2 : ((‖c‖ ^ 2 : ℝ) : ℂ) ≠ 0 := by
    rw [Complex.ofReal_ne_zero]; exact pow_ne_zero _ (norm_ne_zero_iff.2 hc)
  rw [Complex.ofReal_mul]
  by_cases h0 : ((burgDenom s : ℝ) : ℂ) = 0
  · rw [h0]; simp
  · field_simp

private lemma burgRel_state (x : ℕ → ℂ) (N : ℕ) {c ω : ℂ} (hc : c ≠ 0) (hω : ‖ω‖ = 1) (k : ℕ) :
    BurgRel c ω k (burgState x N k) (burgState (fun n => c * ω ^ n * x n) N k) := by
  induction k with
  | zero =>
    refine ⟨rfl, fun i => rfl, fun i => rfl, fun j => ?_, ?_⟩
    · simp [burgState, burgInit]
    · simp only [burgState, burgInit, norm_mul, norm_pow, hω, one_pow, mul_one, mul_pow, ← Finset.mul_sum, mul_div_assoc]
  | succ k ih =>
    have hr := burgRel_refl hc hω ih
    obtain ⟨h1, h2, h3, h4, h5⟩ := ih
    simp only [burgState]
    refine ⟨by simp only [burgStep, h1], fun i => ?_, fun i => ?_, fun j => ?_, ?_⟩
    · simp only [burgStep, hr, h2, h3]; ring
    · simp only [burgStep, hr, h2, h3, star_mul']
      have e : ω ^ (i + k + 1) = ω ^ i * ω ^ (k + 1) := by rw [← pow_add]; congr 1
      rw [e]
      linear_combination (c * ω ^ i * star (burgRefl (burgState x N k)) * (burgState x N k).f i) * star_pow_mul hω (k + 1)
    · simp only [burgStep, Nat.add_sub_cancel, hr, h4]
      by_cases c1 : j = k
      · rw [if_pos c1, if_pos c1, c1]
      · rw [if_neg c1, if_neg c1]
        by_cases c2 : j < k
        · rw [if_pos c2, if_pos c2, star_mul']
          have e1 : k + 1 - 2 - j + 1 = k - j := by omega
          have e : ω ^ (k + 1) = ω ^ (j + 1) * ω ^ (k - j) := by rw [← pow_add]; congr 1; omega
          rw [e1, e]
          linear_combination (ω ^ (j + 1) * burgRefl (burgState x N k) * star ((burgState x N k).a (k + 1 - 2 - j)))
            * star_pow_mul hω (k - j)
        · rw [if_neg c2, if_neg c2, mul_zero]
    · simp only [burgStep, hr, norm_mul, norm_pow, hω, one_pow, one_mul, h5]; ring

/-- C77: scaling the series by `c ≠ 0` leaves the coefficients of Burg's method unchanged and scales the variance;
a shift of the energy, `x_n → ω^n x_n` with `|ω| = 1`, multiplies coefficient `k` by `ω^(k+1)`. -/
theorem pcoeff_burg_units (x : ℕ → ℂ) (N p : ℕ) {c ω : ℂ} (hc : c ≠ 0) (hω : ‖ω‖ = 1) :
    pcoeffBurg (fun n => c * ω ^ n * x n) N p
      = (pcoeffBurg x N p).map (Option.map fun r => (fun k : Fin p => ω ^ ((k : ℕ) + 1) * r.1 k, ‖c‖ ^ 2 * r.2)) := by
  have hd : ∀ k, burgDenom (burgState (fun n => c * ω ^ n * x n) N k) ≠ 0 ↔ burgDenom (burgState x N k) ≠ 0 := fun k => by
    rw [burgRel_denom hω (burgRel_state x N hc hω k)]
    exact ⟨right_ne_zero_of_mul, mul_ne_zero (pow_ne_zero _ (norm_ne_zero_iff.2 hc))⟩
  unfold pcoeffBurg
  simp only [hd]
  obtain ⟨-, -, -, h4, h5⟩ := burgRel_state x N hc hω p
  by_cases h0 : p = 0
  · rw [if_pos h0, if_pos h0]; rfl
  rw [if_neg h0, if_neg h0]
  by_cases h1 : ∀ k < p, burgDenom (burgState x N k) ≠ 0
  · rw [if_pos h1, if_pos h1]
    simp only [Except.map, Option.map_some, h4, h5]
  · rw [if_neg h1, if_neg h1]; rfl

private lemma burg_conj_state (x : ℕ → ℂ) (N k : ℕ) :
    (burgState (fun n => star (x n)) N k).n = (burgState x N k).n ∧
    (∀ i, (burgState (fun n => star (x n)) N k).f i = star ((burgState x N k).f i)) ∧
    (∀ i, (burgState (fun n => star (x n)) N k).b i = star ((burgState x N k).b i)) ∧
    (∀ j, (burgState (fun n => star (x n)) N k).a j = star ((burgState x N k).a j)) ∧
    (burgState (fun n => star (x n)) N k).rho = (burgState x N k).rho ∧
    burgDenom (burgState (fun n => star (x n)) N k) = burgDenom (burgState x N k) ∧
    burgRefl (burgState (fun n => star (x n)) N k) = star (burgRefl (burgState x N k)) := by
  have key : ∀ s s' : BurgState, s'.n = s.n → (∀ i, s'.f i = star (s.f i)) → (∀ i, s'.b i = star (s.b i)) →
      burgDenom s' = burgDenom s ∧ burgRefl s' = star (burgRefl s) := by
    intro s s' h1 h2 h3
    have hd : burgDenom s' = burgDenom s := by simp only [burgDenom, h1, h2, h3, norm_star]
    refine ⟨hd, ?_⟩
    simp only [burgRefl, hd, h1, h2, h3]
    rw [star_div₀, star_mul', star_sum]
    simp only [star_mul', star_neg]
    congr 1
    · congr 1; simp
    · simp
  induction k with
  | zero =>
    have := key (burgState x N 0) (burgState (fun n => star (x n)) N 0) rfl (fun i => rfl) (fun i => rfl)
    refine ⟨rfl, fun i => rfl, fun i => rfl, fun j => by simp [burgState, burgInit], ?_, this.1, this.2⟩
    simp only [burgState, burgInit, norm_star]
  | succ k ih =>
    obtain ⟨h1, h2, h3, h4, h5, -, h7⟩ := ih
    have a1 : (burgState (fun n => star (x n)) N (k + 1)).n = (burgState x N (k + 1)).n := by
      simp only [burgState, burgStep, h1]
    have a2 : ∀ i, (burgState (fun n => star (x n)) N (k + 1)).f i = star ((burgState x N (k + 1)).f i) := fun i => by
      simp only [burgState, burgStep, h2, h3, h7, star_add, star_mul']
    have a3 : ∀ i, (burgState (fun n => star (x n)) N (k + 1)).b i = star ((burgState x N (k + 1)).b i) := fun i => by
      simp only [burgState, burgStep, h2, h3, h7, star_add, star_mul']
    have := key _ _ a1 a2 a3
    refine ⟨a1, a2, a3, fun j => ?_, ?_, this.1, this.2⟩
    · simp only [burgState, burgStep, h4, h7]
      split_ifs
      · rfl
      · simp only [star_add, star_mul']
      · simp
    · simp only [burgState, burgStep, h7, norm_star, h5]

/-- C77: the complex conjugate series has the complex conjugate coefficients (Burg's method). -/
theorem pcoeff_burg_conj (x : ℕ → ℂ) (N p : ℕ) :
    pcoeffBurg (fun n => star (x n)) N p = (pcoeffBurg x N p).map (Option.map fun r => (fun k : Fin p => star (r.1 k), r.2)) := by
  unfold pcoeffBurg
  simp only [fun k => (burg_conj_state x N k).2.2.2.2.2.1]
  obtain ⟨-, -, -, h4, h5, -⟩ := burg_conj_state x N p
  by_cases h0 : p = 0
  · rw [if_pos h0, if_pos h0]; rfl
  rw [if_neg h0, if_neg h0]
  by_cases h1 : ∀ k < p, burgDenom (burgState x N k) ≠ 0
  · rw [if_pos h1, if_pos h1]
    simp only [Except.map, Option.map_some, h4, h5]
  · rw [if_neg h1, if_neg h1]; rfl

/-- C77: real series have real coefficients (Burg's method). -/
theorem pcoeff_burg_real (x : ℕ → ℂ) (hx : ∀ n, (x n).im = 0) (N p : ℕ) (a : Fin p → ℂ) (rho : ℝ)
    (h : pcoeffBurg x N p = .ok (some (a, rho))) (k : Fin p) : (a k).im = 0 := by
  have e : (fun n => star (x n)) = x := funext fun n => Complex.conj_eq_iff_im.2 (hx n)
  have h' := pcoeff_burg_conj x N p
  rw [e, h] at h'
  simp only [Except.map, Option.map_some, Except.ok.injEq, Option.some.injEq, Prod.mk.injEq] at h'
  exact Complex.conj_eq_iff_im.1 (congrFun h'.1 k).symm

private lemma burg_reverse_state (x : ℕ → ℂ) (N k : ℕ) (hk : k < N) :
    (burgState (fun n => star (x (N - 1 - n))) N k).n = N - 1 - k ∧ (burgState x N k).n = N - 1 - k ∧
    (∀ i < N - 1 - k, (burgState (fun n => star (x (N - 1 - n))) N k).f i = star ((burgState x N k).b (N - 1 - k - 1 - i))) ∧
    (∀ i < N - 1 - k, (burgState (fun n => star (x (N - 1 - n))) N k).b i = star ((burgState x N k).f (N - 1 - k - 1 - i))) ∧
    (∀ j, (burgState (fun n => star (x (N - 1 - n))) N k).a j = (burgState x N k).a j) ∧
    (burgState (fun n => star (x (N - 1 - n))) N k).rho = (burgState x N k).rho ∧
    burgDenom (burgState (fun n => star (x (N - 1 - n))) N k) = burgDenom (burgState x N k) ∧
    burgRefl (burgState (fun n => star (x (N - 1 - n))) N k) = burgRefl (burgState x N k) := by
  have key : ∀ (m : ℕ) (s s' : BurgState), s'.n = m → s.n = m → (∀ i < m, s'.f i = star (s.b (m - 1 - i))) →
      (∀ i < m, s'.b i = star (s.f (m - 1 - i))) → burgDenom s' = burgDenom s ∧ burgRefl s' = burgRefl s := by
    intro m s s' h1 h1' h2 h3
    have e1 : ∑ i ∈ Finset.range s'.n, ‖s'.f i‖ ^ 2 = ∑ i ∈ Finset.range s.n, ‖s.b i‖ ^ 2 := by
      rw [h1, h1', ← Finset.sum_range_reflect]
      refine Finset.sum_congr rfl fun i hi => ?_
      have := Finset.mem_range.1 hi
      rw [h2 _ (by omega), norm_star]
      congr 3; omega
    have e2 : ∑ i ∈ Finset.range s'.n, ‖s'.b i‖ ^ 2 = ∑ i ∈ Finset.range s.n, ‖s.f i‖ ^ 2 := by
      rw [h1, h1', ← Finset.sum_range_reflect]
      refine Finset.sum_congr rfl fun i hi => ?_
      have := Finset.mem_range.1 hi
      rw [h3 _ (by omega), norm_star]
      congr 3; omega
    have e3 : ∑ i ∈ Finset.range s'.n, s'.f i * star (s'.b i) = ∑ i ∈ Finset.range s.n, s.f i * star (s.b i) := by
      rw [h1, h1', ← Finset.sum_range_reflect]
      refine Finset.sum_congr rfl fun i hi => ?_
      have := Finset.mem_range.1 hi
      have e : m - 1 - (m - 1 - i) = i := by omega
      rw [h2 _ (by omega), h3 _ (by omega), star_star, e, mul_comm]
    have hd : burgDenom s' = burgDenom s := by rw [burgDenom, burgDenom, e1, e2, add_comm]
    exact ⟨hd, by rw [burgRefl, burgRefl, e3, hd]⟩
  induction k with
  | zero =>
    have a2 : ∀ i < N - 1 - 0, (burgState (fun n => star (x (N - 1 - n))) N 0).f i
        = star ((burgState x N 0).b (N - 1 - 0 - 1 - i)) := fun i hi => by
      simp only [burgState, burgInit]; congr 2; omega
    have a3 : ∀ i < N - 1 - 0, (burgState (fun n => star (x (N - 1 - n))) N 0).b i
        = star ((burgState x N 0).f (N - 1 - 0 - 1 - i)) := fun i hi => by
      simp only [burgState, burgInit]; congr 2; omega
    have := key (N - 1 - 0) (burgState x N 0) (burgState (fun n => star (x (N - 1 - n))) N 0) rfl rfl a2 a3
    refine ⟨rfl, rfl, a2, a3, fun j => rfl, ?_, this.1, this.2⟩
    simp only [burgState, burgInit, norm_star]
    congr 1
    exact Finset.sum_range_reflect (fun i => ‖x i‖ ^ 2) N
  | succ k ih =>
    obtain ⟨h1, h1', h2, h3, h4, h5, -, h7⟩ := ih (by omega)
    have a1 : (burgState (fun n => star (x (N - 1 - n))) N (k + 1)).n = N - 1 - (k + 1) := by
      simp only [burgState, burgStep, h1]; omega
    have a1' : (burgState x N (k + 1)).n = N - 1 - (k + 1) := by
      simp only [burgState, burgStep, h1']; omega
    have a2 : ∀ i < N - 1 - (k + 1), (burgState (fun n => star (x (N - 1 - n))) N (k + 1)).f i
        = star ((burgState x N (k + 1)).b (N - 1 - (k + 1) - 1 - i)) := fun i hi => by
      have e : N - 1 - k - 1 - (i + 1) = N - 1 - (k + 1) - 1 - i := by omega
      simp only [burgState, burgStep]
      rw [h2 _ (by omega), h3 _ (by omega), h7, star_add, star_mul', star_star, e]
    have a3 : ∀ i < N - 1 - (k + 1), (burgState (fun n => star (x (N - 1 - n))) N (k + 1)).b i
        = star ((burgState x N (k + 1)).f (N - 1 - (k + 1) - 1 - i)) := fun i hi => by
      have e : N - 1 - k - 1 - i = N - 1 - (k + 1) - 1 - i + 1 := by omega
      simp only [burgState, burgStep]
      rw [h2 _ (by omega), h3 _ (by omega), h7, star_add, star_mul', e]
    have := key _ _ _ a1 a1' a2 a3
    refine ⟨a1, a1', a2, a3, fun j => ?_, ?_, this.1, this.2⟩
    · simp only [burgState, burgStep, h4, h7]
    · simp only [burgState, burgStep, h7, h5]

/-- C77: Burg's method gives the same coefficients and variance for the time reversed, complex conjugate series. -/
theorem pcoeff_burg_reverse (x : ℕ → ℂ) (N p : ℕ) (hp : p < N) :
    pcoeffBurg (fun n => star (x (N - 1 - n))) N p = pcoeffBurg x N p := by
  unfold pcoeffBurg
  have hd : (∀ k < p, burgDenom (burgState (fun n => star (x (N - 1 - n))) N k) ≠ 0) ↔
      ∀ k < p, burgDenom (burgState x N k) ≠ 0 :=
    forall₂_congr fun k hk => by rw [(burg_reverse_state x N k (by omega)).2.2.2.2.2.2.1]
  obtain ⟨-, -, -, -, h4, h5, -⟩ := burg_reverse_state x N p hp
  by_cases h0 : p = 0
  · rw [if_pos h0, if_pos h0]
  rw [if_neg h0, if_neg h0]
  by_cases h1 : ∀ k < p, burgDenom (burgState x N k) ≠ 0
  · rw [if_pos h1, if_pos (hd.2 h1)]
    simp only [h4, h5]
  · rw [if_neg h1, if_neg (fun h => h1 (hd.1 h))]

example : ∃ r, pcoeffBurg (fun n => if n = 0 then 1 else 0) 3 1 = .ok (some r) := by
  simp [pcoeffBurg, burgDenom, burgState, burgInit, Finset.sum_range_succ]

/-! ## Stable prediction -/

/-- C77: for given coefficients the stable prediction is linear in the series. -/
theorem predict_stable_linear (ext : EigExt) {p : ℕ} (pc : Fin p → ℂ) (num : ℕ) (a b : ℂ) {x y u v : List ℂ}
    (h : x.length = y.length) (hu : predictStable ext x pc num = .ok u) (hv : predictStable ext y pc num = .ok v) :
    predictStable ext (combine a b x y) pc num = .ok (combine a b u v) := by
  unfold predictStable at hu hv ⊢
  cases hM : companion 1 pc with
  | error e => rw [hM] at hu; exact absurd hu (by simp)
  | ok M =>
    simp only [hM] at hu hv ⊢
    cases hD : decomposeMat ext M with
    | error e => rw [hD] at hu; exact absurd hu (by simp)
    | ok dec =>
      simp only [hD] at hu hv ⊢
      by_cases hp : p = 0
      · rw [dif_pos hp] at hu; exact absurd hu (by simp)
      rw [dif_neg hp] at hu hv ⊢
      by_cases hx : x.length < p
      · rw [if_pos hx] at hu; exact absurd hu (by simp)
      rw [if_neg hx] at hu
      rw [if_neg (by omega)] at hv
      rw [if_neg (by rw [combine_length a b h]; exact hx)]
      simp only [Except.ok.injEq] at hu hv ⊢
      have hz : ∀ (f g : ℕ → ℂ), combine a b (x ++ (List.range num).map f) (y ++ (List.range num).map g)
          = combine a b x y ++ (List.range num).map fun k => a * f k + b * g k := fun f g => by
        simp only [combine]
        rw [List.zipWith_append h, List.zipWith_map, List.zipWith_self]
      rw [← hu, ← hv, hz]
      congr 1
      refine List.map_congr_left fun k _ => ?_
      rw [Finset.mul_sum, Finset.mul_sum, ← Finset.sum_add_distrib]
      refine Finset.sum_congr rfl fun j _ => ?_
      have hs : (fun i : Fin p => (combine a b x y).getD ((combine a b x y).length - 1 - i) 0)
          = a • (fun i : Fin p => x.getD (x.length - 1 - i) 0) + b • (fun i : Fin p => y.getD (y.length - 1 - i) 0) := by
        funext i
        have hi := i.2
        simp only [Pi.add_apply, Pi.smul_apply, smul_eq_mul]
        rw [combine_length a b h, ← h, combine_getD a b h (by omega)]
      rw [hs, mulVec_add, mulVec_smul, mulVec_smul]
      simp only [Pi.add_apply, Pi.smul_apply, smul_eq_mul]
      split_ifs
      · ring
      · ring

/-! ## Laplace transform -/

lemma phase_shift (z w : ℂ) (t : ℝ) : phase (z + w) t * Complex.exp (-(Complex.I * w * t)) = phase z t := by
  unfold phase
  rw [← Complex.exp_add]
  congr 1
  ring

/-- C77: `tt2z_trapz` for a shifted zero of the energy. -/
theorem tt2z_trapz_energy_shift (n : ℕ) (tt : ℕ → ℝ) (g : ℕ → ℂ) (z w : ℂ) :
    tt2zTrapz n tt (fun k => Complex.exp (-(Complex.I * w * tt k)) * g k) (z + w) = tt2zTrapz n tt g z := by
  unfold tt2zTrapz
  simp only [← mul_assoc, phase_shift]

private lemma simpsWeight_mul (n : ℕ) (dt : ℝ) (c g : ℕ → ℂ) (e : Bool) (k : ℕ) :
    simpsWeight n dt (fun k => c k * g k) e k = c k * simpsWeight n dt g e k := by
  unfold simpsWeight
  simp only
  split_ifs <;> ring

lemma quadWeight_mul (q : Quad) (n : ℕ) (dt : ℝ) (c g : ℕ → ℂ) :
    quadWeight q n dt (fun k => c k * g k) = fun k => c k * quadWeight q n dt g k := by
  funext k
  cases q
  · simp only [quadWeight, trapzWeight]; ring
  · exact simpsWeight_mul n dt c g false k
  · exact simpsWeight_mul n dt c g false k

/-- C77: `tt2z_simps` for a shifted zero of the energy. -/
theorem tt2z_simps_energy_shift (n : ℕ) (tt : ℕ → ℝ) (g : ℕ → ℂ) (z w : ℂ) :
    tt2zSimps n tt (fun k => Complex.exp (-(Complex.I * w * tt k)) * g k) (z + w) = tt2zSimps n tt g z := by
  unfold tt2zSimps
  simp only [simpsWeight_mul, ← mul_assoc, phase_shift]

/-- C77: `tt2z_lpz` on a grid starting at time zero: scaling the function by `c` scales the result, shifting the zero of
the energy does not change it. -/
theorem tt2z_lpz_units (ext : LinalgExt ℂ) (n : ℕ) (dt : ℝ) (g : ℕ → ℂ) (z : ℂ) (order : Option ℕ) (quad : Quad)
    {c : ℂ} (hc : c ≠ 0) (w : ℝ) :
    tt2zLpz ext n (fun k => k * dt) (fun k => c * (Complex.exp (-(Complex.I * w * ((k * dt : ℝ) : ℂ))) * g k)) (z + w) order quad
      = (tt2zLpz ext n (fun k => k * dt) g z order quad).map (c * ·) := by
  set ω : ℂ := Complex.exp (-(Complex.I * w * dt)) with hω
  have hpow : ∀ k : ℕ, Complex.exp (-(Complex.I * w * ((k * dt : ℝ) : ℂ))) = ω ^ k := fun k => by
    rw [hω, ← Complex.exp_nat_mul]; congr 1; push_cast; ring
  have hn : ‖ω‖ = 1 := by
    rw [hω, Complex.norm_exp]; simp
  have hph : ∀ l : ℕ, phase (z + w) (l * dt) * ω ^ l = phase z (l * dt) := fun l => by
    rw [← hpow]; exact phase_shift z w _
  have hg : (fun k : ℕ => c * (Complex.exp (-(Complex.I * w * ((k * dt : ℝ) : ℂ))) * g k)) = fun k => (c * ω ^ k) * g k := by
    funext k; rw [hpow, mul_assoc]
  rw [hg]
  unfold tt2zLpz
  by_cases h1 : n < 2
  · simp only [if_pos h1]; rfl
  simp only [if_neg h1]
  by_cases h2 : equidistant n fun k => (k : ℝ) * dt
  · simp only [if_neg (not_not.2 h2)]
    by_cases h3 : quad = .other
    · simp only [if_pos h3]; rfl
    simp only [if_neg h3, quadWeight_mul]
    set m := order.getD (n / 2)
    set q := quadWeight quad n (((1 : ℕ) : ℝ) * dt - ((0 : ℕ) : ℝ) * dt) g with hq
    rw [pcoeff_covar_units ext q n m hc hn]
    cases hp : pcoeffCovar ext q n m with
    | error e => rfl
    | ok r =>
      obtain ⟨a, err⟩ := r
      simp only [Except.map]
      congr 1
      set aa : ℕ → ℂ := fun j => if j = 0 then 1 else if h : j - 1 < m then a ⟨j - 1, h⟩ else 0 with haa
      have haa' : ∀ j, (if j = 0 then (1 : ℂ) else if h : j - 1 < m then ω ^ (j - 1 + 1) * a ⟨j - 1, h⟩ else 0) = ω ^ j * aa j := by
        intro j
        simp only [haa]
        split_ifs with c1 c2
        · rw [c1]; simp
        · congr 2; omega
        · simp
      simp only [haa']
      have hden : ∑ l ∈ Finset.range (m + 1), phase (z + w) (l * dt) * (ω ^ l * aa l)
          = ∑ l ∈ Finset.range (m + 1), phase z (l * dt) * aa l :=
        Finset.sum_congr rfl fun l _ => by rw [← mul_assoc, hph]
      have hnum : ∑ l ∈ Finset.range m, phase (z + w) (l * dt) * ∑ j ∈ Finset.range (l + 1),
            ω ^ j * aa j * (c * ω ^ (l - j) * q (l - j))
          = c * ∑ l ∈ Finset.range m, phase z (l * dt) * ∑ j ∈ Finset.range (l + 1), aa j * q (l - j) := by
        rw [Finset.mul_sum]
        refine Finset.sum_congr rfl fun l _ => ?_
        rw [← hph l]
        have : ∑ j ∈ Finset.range (l + 1), ω ^ j * aa j * (c * ω ^ (l - j) * q (l - j))
            = c * ω ^ l * ∑ j ∈ Finset.range (l + 1), aa j * q (l - j) := by
          rw [Finset.mul_sum]
          refine Finset.sum_congr rfl fun j hj => ?_
          have hj' := Finset.mem_range.1 hj
          have e : ω ^ l = ω ^ j * ω ^ (l - j) := by rw [← pow_add]; congr 1; omega
          rw [e]; ring
        rw [this]; ring
      rw [hden, hnum, mul_div_assoc]
  · simp only [if_pos h2]; rfl

end Gftool.Props
