import Verif.Props.PadeMod

/-!
# Property C75: Padé continuation does not depend on units, on the side of the real axis, or on the order of the points
-/

namespace Gftool.Props

open Gftool Model Lemmas Polynomial

/-! ## Units -/

private lemma coefRes_units (z f : ℕ → ℂ) {α c : ℂ} (hα : α ≠ 0) (hc : c ≠ 0) (b : ℂ) (ii j : ℕ) :
    coefRes (fun k => α * z k + b) (fun k => c * f k) ii j
      = (if ii = 0 ∨ j = 0 then c else α⁻¹) * coefRes z f ii j := by
  induction ii generalizing j with
  | zero => simp [coefRes]
  | succ ii ih =>
    simp only [coefRes]
    by_cases h1 : ii < j
    · have hs : (if ii = 0 ∨ ii = 0 then c else α⁻¹) = if ii = 0 ∨ j = 0 then c else α⁻¹ := by
        by_cases h : ii = 0
        · simp [h]
        · simp [h, show j ≠ 0 by omega]
      rw [if_pos h1, if_pos h1, if_neg (by omega), ih, ih, hs]
      have hs0 : (if ii = 0 ∨ j = 0 then c else α⁻¹) ≠ 0 := by split_ifs <;> simp [hα, hc]
      rw [mul_div_mul_left _ _ hs0, show α * z j + b - (α * z ii + b) = α * (z j - z ii) by ring, div_mul_eq_div_div_swap,
        div_eq_inv_mul _ α]
    · rw [if_neg h1, if_neg h1, ih]
      by_cases h : j = 0
      · simp [h]
      · rw [if_neg (by omega), if_neg (by omega)]

private lemma padeState_units (w : ℂ) (z a a' : ℕ → ℂ) {α c : ℂ} (hα : α ≠ 0) (b : ℂ) (h0 : a' 0 = c * a 0)
    {n : ℕ} (h1 : ∀ k, 0 < k → k ≤ n → a' k = α⁻¹ * a k) (k : ℕ) (hk : k ≤ n) :
    padeState (α * w + b) (fun k => α * z k + b) a' k
      = ⟨c * (padeState w z a k).pade, c * (padeState w z a k).padePrev, (padeState w z a k).b2⟩ := by
  induction k with
  | zero => simp [padeState, h0]
  | succ k ih =>
    have e : (α * w + b - (α * z k + b)) * a' (k + 1) = (w - z k) * a (k + 1) := by
      rw [h1 _ (Nat.succ_pos k) hk]
      field_simp
      ring
    simp only [padeState, ih (by omega), e, PadeState.mk.injEq, and_true]
    ring

/-- C75: changing the units of frequencies and values, and shifting the frequencies, gives the same continuation in the new
units: the coefficients are finite for both or for none, and every approximant is the old one in the new units. -/
theorem pade_units (N : ℕ) (z f : ℕ → ℂ) {α c : ℂ} (hα : α ≠ 0) (hc : c ≠ 0) (b : ℂ) :
    (coefficients N N z f = .ok none ↔ coefficients N N (fun k => α * z k + b) (fun k => c * f k) = .ok none) ∧
    ∀ a, coefficients N N z f = .ok (some a) → ∃ a', coefficients N N (fun k => α * z k + b) (fun k => c * f k) = .ok (some a') ∧
      ∀ w, ∃ l, calcIterator w N N z a = .ok l ∧
        calcIterator (α * w + b) N N (fun k => α * z k + b) a' = .ok (l.map (c * ·)) := by
  have hreg : CoefRegular (fun k => α * z k + b) (fun k => c * f k) N ↔ CoefRegular z f N := by
    have key : ∀ ii j, (coefRes (fun k => α * z k + b) (fun k => c * f k) ii j ≠ 0 ∧ α * z j + b - (α * z ii + b) ≠ 0)
        ↔ (coefRes z f ii j ≠ 0 ∧ z j - z ii ≠ 0) := by
      intro ii j
      rw [coefRes_units z f hα hc, show α * z j + b - (α * z ii + b) = α * (z j - z ii) by ring]
      have hs0 : (if ii = 0 ∨ j = 0 then c else α⁻¹) ≠ 0 := by split_ifs <;> simp [hα, hc]
      rw [mul_ne_zero_iff, mul_ne_zero_iff]
      tauto
    unfold CoefRegular
    simp only [key]
  unfold coefficients
  simp only [ne_eq, not_true_eq_false, if_false]
  refine ⟨by split_ifs <;> simp <;> tauto, fun a ha => ?_⟩
  split_ifs at ha with hr
  swap
  · simp at ha
  obtain rfl : coefRes z f (N - 1) = a := Option.some.inj (Except.ok.inj ha)
  refine ⟨coefRes (fun k => α * z k + b) (fun k => c * f k) (N - 1), if_pos (hreg.2 hr), fun w => ⟨_, calcIterator_ok _ _ _ _, ?_⟩⟩
  rw [calcIterator_ok, List.map_map]
  congr 1
  refine List.map_congr_left fun k hk => ?_
  have hk' := List.mem_range.1 hk
  rw [padeState_units w z (coefRes z f (N - 1)) _ hα b (c := c) (n := N - 1) (by rw [coefRes_units z f hα hc]; simp)
    (fun k h1 h2 => by rw [coefRes_units z f hα hc, if_neg (by omega)]) (k + 1) (by omega)]
  rfl

/-- A result in other units. -/
noncomputable def inUnits (c : ℝ) (r : AvgResult) : AvgResult := ⟨r.x.map ((c : ℂ) * ·), r.err.map fun e => (c * e.1, c * e.2)⟩

private lemma islice_mul (kind : KindSelector) {β γ : Type} (g : β → γ) (l : List β) :
    kind.islice (l.map g) = (kind.islice l).map g := by
  unfold KindSelector.islice
  rw [List.map_filterMap]
  simp only [List.getElem?_map]

private lemma stdR_mul {c : ℝ} (hc : 0 < c) (l : List ℝ) : stdR (l.map (c * ·)) = (stdR l).map (c * ·) := by
  unfold stdR
  rw [List.length_map]
  split_ifs with h
  · rfl
  · simp only [Option.map_some, Option.some.injEq, List.map_map]
    have e : (l.map (c * ·)).sum = c * l.sum := by
      rw [List.sum_map_mul_left, List.map_id']
    have e2 : (l.map ((fun x => (x - (l.map (c * ·)).sum / l.length) ^ 2) ∘ (c * ·))).sum
        = c ^ 2 * (l.map fun x => (x - l.sum / l.length) ^ 2).sum := by
      rw [← List.sum_map_mul_left]
      congr 1
      refine List.map_congr_left fun x _ => ?_
      simp only [Function.comp, e]
      ring
    rw [e2, mul_div_assoc, Real.sqrt_mul (sq_nonneg c), Real.sqrt_sq hc.le]

private lemma avgStat_mul {c : ℝ} (hc : 0 < c) (l : List ℂ) : avgStat (l.map ((c : ℂ) * ·)) = inUnits c (avgStat l) := by
  have h1 : meanC (l.map ((c : ℂ) * ·)) = (meanC l).map ((c : ℂ) * ·) := by
    unfold meanC
    rw [List.length_map, List.sum_map_mul_left, List.map_id']
    by_cases h : l = []
    · simp [h]
    · rw [if_neg (by simpa using h), if_neg h, Option.map_some, mul_div_assoc]
  have h2 : (l.map ((c : ℂ) * ·)).map Complex.re = (l.map Complex.re).map (c * ·) := by
    rw [List.map_map, List.map_map]
    exact List.map_congr_left fun x _ => by simp
  have h3 : (l.map ((c : ℂ) * ·)).map Complex.im = (l.map Complex.im).map (c * ·) := by
    rw [List.map_map, List.map_map]
    exact List.map_congr_left fun x _ => by simp
  unfold avgStat inUnits
  rw [h1, h2, h3, stdR_mul hc, stdR_mul hc]
  cases stdR (l.map Complex.re) <;> cases stdR (l.map Complex.im) <;> rfl

private lemma averager_mul {c : ℝ} (hc : 0 < c) (kind : KindSelector) (valid : List Bool) (l : List ℂ) :
    averager kind valid (l.map ((c : ℂ) * ·)) = (averager kind valid l).map (inUnits c) := by
  unfold averager
  by_cases h : valid.any id
  swap
  · rw [if_pos h, if_pos h]
    rfl
  · rw [if_neg (not_not.2 h), if_neg (not_not.2 h), islice_mul]
    change _ = Except.ok (inUnits c (avgStat _))
    rw [← avgStat_mul hc]
    congr 2
    generalize kind.islice l = m
    clear h
    induction m generalizing valid with
    | nil => rfl
    | cons x xs ih =>
      cases valid with
      | nil => rfl
      | cons v vs =>
        have := ih (valid := vs)
        cases v <;> simp_all

/-- C75: averaged continuation in other units (positive factor `c` for the values, any factor and shift of the frequencies):
value and deviation are the old ones in the new units, without filter, and with the filter of positive imaginary parts if its
threshold is converted, too. -/
theorem averaged_units (kind : KindSelector) (zOut : ℂ) (N : ℕ) (zin f : ℕ → ℂ) (validZ : List ℂ) (thr : ℝ) {α : ℂ} (hα : α ≠ 0)
    (b : ℂ) {c : ℝ} (hc : 0 < c) :
    averaged kind (α * zOut + b) N (fun k => α * zin k + b) (fun k => c * f k) (validZ.map (α * · + b)) none
      = (averaged kind zOut N zin f validZ none).map (inUnits c) ∧
    avgNoNegImag kind (α * zOut + b) N (fun k => α * zin k + b) (fun k => c * f k) (validZ.map (α * · + b)) (c * thr)
      = (avgNoNegImag kind zOut N zin f validZ thr).map (inUnits c) := by
  have hc' : (c : ℂ) ≠ 0 := by exact_mod_cast hc.ne'
  obtain ⟨h1, h2⟩ := pade_units (min N kind.stop) zin f hα hc' b
  unfold avgNoNegImag averaged
  simp only
  generalize min N kind.stop = M at *
  rcases hco : coefficients M M zin f with e | _ | a
  · simp [coefficients] at hco
    split_ifs at hco
  · rw [h1.1 hco]
    exact ⟨rfl, rfl⟩
  · obtain ⟨a', h3, h4⟩ := h2 a hco
    obtain ⟨l, h5, h6⟩ := h4 zOut
    rw [h3]
    simp only [h5, h6]
    refine ⟨averager_mul hc _ _ _, ?_⟩
    have hvals : ((List.range (M - 1)).map fun k => (validZ.map (α * · + b)).map fun v =>
          (padeState v (fun k => α * zin k + b) a' (k + 1)).pade)
        = ((List.range (M - 1)).map fun k => validZ.map fun v => (padeState v zin a (k + 1)).pade).map
          (List.map ((c : ℂ) * ·)) := by
      rw [List.map_map]
      refine List.map_congr_left fun k hk => ?_
      have hk' := List.mem_range.1 hk
      rw [List.map_map, Function.comp, List.map_map]
      refine List.map_congr_left fun v _ => ?_
      obtain ⟨m, h7, h8⟩ := h4 v
      rw [calcIterator_ok] at h7 h8
      have h9 := congrArg (fun q => q[k]?) (Except.ok.inj h8)
      rw [← Except.ok.inj h7] at h9
      simpa [List.getElem?_range hk'] using h9
    rw [hvals, islice_mul]
    have hfil : ∀ m : List PadeVals, applyFilter [filterNegImag (c * thr)] (m.map (List.map ((c : ℂ) * ·)))
        = applyFilter [filterNegImag thr] m := by
      intro m
      simp only [applyFilter, filterNegImag, List.map_map]
      congr 1
      refine List.map_congr_left fun x _ => ?_
      simp [hc]
    rw [hfil]
    cases applyFilter [filterNegImag thr] (kind.islice ((List.range (M - 1)).map fun k => validZ.map fun v =>
      (padeState v zin a (k + 1)).pade)) with
    | error e => rfl
    | ok v => exact averager_mul hc _ _ _

/-! ## Complex conjugation -/

private lemma coefRes_star (z f : ℕ → ℂ) (ii j : ℕ) :
    coefRes (fun k => star (z k)) (fun k => star (f k)) ii j = star (coefRes z f ii j) := by
  induction ii generalizing j with
  | zero => rfl
  | succ ii ih =>
    simp only [coefRes]
    split_ifs with h1
    · rw [ih, ih]
      simp only [star_div₀, star_sub, star_one]
    · exact ih j

private lemma padeState_star (w : ℂ) (z a : ℕ → ℂ) (k : ℕ) :
    padeState (star w) (fun k => star (z k)) (fun k => star (a k)) k
      = ⟨star (padeState w z a k).pade, star (padeState w z a k).padePrev, star (padeState w z a k).b2⟩ := by
  induction k with
  | zero => simp [padeState]
  | succ k ih =>
    simp only [padeState, ih, star_div₀, star_add, star_mul', star_sub, star_one]

/-- C75: continuing the complex conjugate data from the conjugate points gives the conjugate continuation. -/
theorem pade_conj (N : ℕ) (z f : ℕ → ℂ) :
    (coefficients N N z f = .ok none ↔ coefficients N N (fun k => star (z k)) (fun k => star (f k)) = .ok none) ∧
    ∀ a, coefficients N N z f = .ok (some a) →
      coefficients N N (fun k => star (z k)) (fun k => star (f k)) = .ok (some fun k => star (a k)) ∧
      ∀ w, ∃ l, calcIterator w N N z a = .ok l ∧
        calcIterator (star w) N N (fun k => star (z k)) (fun k => star (a k)) = .ok (l.map star) := by
  have hreg : CoefRegular (fun k => star (z k)) (fun k => star (f k)) N ↔ CoefRegular z f N := by
    unfold CoefRegular
    simp only [coefRes_star, ← star_sub, ne_eq, star_eq_zero]
  unfold coefficients
  simp only [ne_eq, not_true_eq_false, if_false]
  refine ⟨by split_ifs <;> simp <;> tauto, fun a ha => ?_⟩
  split_ifs at ha with hr
  swap
  · simp at ha
  obtain rfl : coefRes z f (N - 1) = a := Option.some.inj (Except.ok.inj ha)
  refine ⟨?_, fun w => ⟨_, calcIterator_ok _ _ _ _, ?_⟩⟩
  · rw [if_pos (hreg.2 hr)]
    congr 2
    funext k
    rw [coefRes_star]
  · rw [calcIterator_ok, List.map_map]
    congr 1
    refine List.map_congr_left fun k _ => ?_
    rw [padeState_star]
    rfl

/-- C75: for real values at real points, all approximants are real on the real axis. -/
theorem pade_real (N : ℕ) (z f : ℕ → ℝ) {a : ℕ → ℂ} (ha : coefficients N N (fun k => (z k : ℂ)) (fun k => (f k : ℂ)) = .ok (some a))
    (w : ℝ) : ∃ l, calcIterator w N N (fun k => (z k : ℂ)) a = .ok l ∧ ∀ x ∈ l, x.im = 0 := by
  obtain ⟨h1, h2⟩ := (pade_conj N (fun k => (z k : ℂ)) (fun k => (f k : ℂ))).2 a ha
  have hr : ∀ x : ℝ, star (x : ℂ) = x := Complex.conj_ofReal
  simp only [hr] at h1 h2
  have ha' := Option.some.inj (Except.ok.inj (ha.symm.trans h1))
  obtain ⟨l, h3, h4⟩ := h2 w
  rw [hr, ← ha', h3] at h4
  refine ⟨l, h3, fun x hx => ?_⟩
  have h5 : l = l.map star := Except.ok.inj h4
  have h6 : ∀ y ∈ l, star y = y := by
    intro y hy
    obtain ⟨i, hi, rfl⟩ := List.mem_iff_getElem.1 hy
    have := congrArg (fun m => m[i]?) h5
    simp only [List.getElem?_map, List.getElem?_eq_getElem hi, Option.map_some, Option.some.injEq] at this
    exact this.symm
  exact Complex.conj_eq_iff_im.1 (h6 x hx)

/-! ## Order of the points -/

/-- C75: two orders of the same points (with the same values) give the same approximant from all points, at every point at
which both can be evaluated. -/
theorem pade_order (z f z' f' : ℕ → ℂ) (N : ℕ) {a a' : ℕ → ℂ} (ha : coefficients N N z f = .ok (some a))
    (ha' : coefficients N N z' f' = .ok (some a')) (n : ℕ) (hn : n + 2 ≤ N) (σ : Equiv.Perm (Fin (n + 2)))
    (hσ : ∀ k : Fin (n + 2), z' k = z (σ k) ∧ f' k = f (σ k)) (w : ℂ) (hreg : EvalRegular w z a (n + 1))
    (hreg' : EvalRegular w z' a' (n + 1)) :
    ∃ l l', calcIterator w N N z a = .ok l ∧ calcIterator w N N z' a' = .ok l' ∧ l[n]? = l'[n]? ∧ l[n]?.isSome := by
  refine ⟨_, _, calcIterator_ok _ _ _ _, calcIterator_ok _ _ _ _, ?_⟩
  have hk' : n < N - 1 := by omega
  rw [List.getElem?_map, List.getElem?_map, List.getElem?_range hk', Option.map_some, Option.map_some]
  refine ⟨?_, rfl⟩
  congr 1
  unfold coefficients at ha ha'
  rw [if_neg (by simp)] at ha ha'
  split_ifs at ha with hc
  swap
  · exact absurd ha (by simp)
  split_ifs at ha' with hc'
  swap
  · exact absurd ha' (by simp)
  have e : coefRes z f (N - 1) = a := Option.some.inj (Except.ok.inj ha)
  have e' : coefRes z' f' (N - 1) = a' := Option.some.inj (Except.ok.inj ha')
  have hden := (b2_ne_zero_iff z a w (n + 1)).1 hreg
  have hden' := (b2_ne_zero_iff z' a' w (n + 1)).1 hreg'
  rw [(padeState_eq z a w (n + 1) hden).1, (padeState_eq z' a' w (n + 1) hden').1]
  have hcross : padeNum z a (n + 2) * padeDen z' a' (n + 2) - padeNum z' a' (n + 2) * padeDen z a (n + 2) = 0 := by
    have hdeg : (padeNum z a (n + 2) * padeDen z' a' (n + 2) - padeNum z' a' (n + 2) * padeDen z a (n + 2)).natDegree < n + 2 := by
      have h1 := padeNum_natDegree z a (n + 2)
      have h2 := padeDen_natDegree z a (n + 2)
      have h1' := padeNum_natDegree z' a' (n + 2)
      have h2' := padeDen_natDegree z' a' (n + 2)
      have h3 : (padeNum z a (n + 2) * padeDen z' a' (n + 2)).natDegree ≤ n + 1 := natDegree_mul_le.trans (by omega)
      have h4 : (padeNum z' a' (n + 2) * padeDen z a (n + 2)).natDegree ≤ n + 1 := natDegree_mul_le.trans (by omega)
      have h5 := natDegree_sub_le (padeNum z a (n + 2) * padeDen z' a' (n + 2)) (padeNum z' a' (n + 2) * padeDen z a (n + 2))
      have := max_le h3 h4
      omega
    have hinj : Function.Injective fun j : Fin (n + 2) => z' j := by
      intro i j hij
      simp only at hij
      by_contra hne
      rcases lt_or_gt_of_ne hne with h | h
      · exact (hc' i j h (by omega)).2 (by rw [hij, sub_self])
      · exact (hc' j i h (by omega)).2 (by rw [hij, sub_self])
    apply Polynomial.eq_zero_of_natDegree_lt_card_of_eval_eq_zero _ hinj
    · intro j
      have h1 := interpolate_poly z' f' N (n + 2) hn hc' j j.2
      have h2 := interpolate_poly z f N (n + 2) hn hc (σ j) (σ j).2
      rw [e'] at h1
      rw [e] at h2
      obtain ⟨h3, h4⟩ := hσ j
      rw [← h3, ← h4] at h2
      simp only [eval_sub, eval_mul, h1, h2]
      ring
    · simpa using hdeg
  have h1 := congrArg (eval w) hcross
  simp only [eval_sub, eval_mul, eval_zero] at h1
  rw [div_eq_div_iff (hden _ le_rfl) (hden' _ le_rfl)]
  linear_combination h1

/-- Data of `1/(z - 1)` in two orders, and in units with `z = 2 z' + 1`. -/
example : (∃ a, coefficients 2 2 (fun k => (k : ℂ) + 2) (fun k => 1 / ((k : ℂ) + 1)) = .ok (some a)) ∧
    (∃ a, coefficients 2 2 (fun k => 3 - (k : ℂ)) (fun k => 1 / (2 - (k : ℂ))) = .ok (some a)) ∧
    ∀ k : Fin 2, 3 - ((k : ℕ) : ℂ) = ((Equiv.swap 0 1 k : Fin 2) : ℕ) + 2 := by
  refine ⟨((coefficients_cases 2 2 _ _).2 rfl).2 ?_, ((coefficients_cases 2 2 _ _).2 rfl).2 ?_, ?_⟩
  · intro i j h1 h2
    obtain rfl : i = 0 := by omega
    obtain rfl : j = 1 := by omega
    constructor <;> norm_num [coefRes]
  · intro i j h1 h2
    obtain rfl : i = 0 := by omega
    obtain rfl : j = 1 := by omega
    constructor <;> norm_num [coefRes]
  · intro k
    fin_cases k <;> norm_num

end Gftool.Props
