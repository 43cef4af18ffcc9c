import Verif.Lemmas.Pade
import Mathlib.Tactic

/-!
# Properties C28-C32: Padé approximants
-/

namespace Gftool.Props

open Gftool Model Lemmas Polynomial Filter Topology

/-- The evaluation with `n + 1` coefficients divides by no zero. -/
def EvalRegular (z : ℂ) (zin a : ℕ → ℂ) (n : ℕ) : Prop := ∀ k ≤ n, (padeState z zin a k).b2 ≠ 0

/-! ## C29: the recursion evaluates the continued fraction -/

/-- Specification: the tail `1 + a_{k+1} (z - z_k) / (1 + a_{k+2} (z - z_{k+1}) / (1 + …))` of the
continued fraction, with `m` more coefficients. -/
noncomputable def contTail (z : ℂ) (zin a : ℕ → ℂ) : ℕ → ℕ → ℂ
  | _, 0 => 1
  | k, m + 1 => 1 + a (k + 1) * (z - zin k) / contTail z zin a (k + 1) m

/-- Specification: Thiele's continued fraction
`a_0 / (1 + a_1 (z - z_0) / (1 + a_2 (z - z_1) / (1 + …)))` with `n` coefficients. -/
noncomputable def contFrac (z : ℂ) (zin a : ℕ → ℂ) (n : ℕ) : ℂ := a 0 / contTail z zin a 0 (n - 1)

/-- Every solution of the three-term recursion in terms of the tails. -/
private lemma recursion_tail (z : ℂ) (zin a E : ℕ → ℂ)
    (hE : ∀ n, E (n + 2) = E (n + 1) + a (n + 1) * (z - zin n) * E n) (m : ℕ) :
    ∀ k, (∀ i < m, contTail z zin a (k + 1 + i) (m - 1 - i) ≠ 0) →
      E (k + 1 + m) = (∏ i ∈ Finset.range m, contTail z zin a (k + 1 + i) (m - 1 - i))
        * (E (k + 1) + (contTail z zin a k m - 1) * E k) := by
  induction m with
  | zero => intro k _; simp [contTail]
  | succ m ih =>
    intro k h
    have h0 := h 0 (by omega)
    simp only [add_zero, Nat.sub_zero, Nat.add_sub_cancel] at h0
    have h1 := ih (k + 1) fun i hi => by
      have := h (i + 1) (by omega)
      rw [show k + 1 + (i + 1) = k + 1 + 1 + i by ring, show m + 1 - 1 - (i + 1) = m - 1 - i by omega]
        at this
      exact this
    rw [show k + 1 + (m + 1) = k + 1 + 1 + m by ring, h1, hE k, Finset.prod_range_succ']
    have h2 : ∀ i, contTail z zin a (k + 1 + (i + 1)) (m + 1 - 1 - (i + 1))
        = contTail z zin a (k + 1 + 1 + i) (m - 1 - i) := by
      intro i
      rw [show k + 1 + (i + 1) = k + 1 + 1 + i by ring, show m + 1 - 1 - (i + 1) = m - 1 - i by omega]
    rw [Finset.prod_congr rfl fun i _ => h2 i]
    simp only [add_zero, Nat.sub_zero, Nat.add_sub_cancel]
    generalize ∏ i ∈ Finset.range m, contTail z zin a (k + 1 + 1 + i) (m - 1 - i) = P
    have h3 : contTail z zin a k (m + 1) = 1 + a (k + 1) * (z - zin k) / contTail z zin a (k + 1) m :=
      rfl
    rw [h3]
    field_simp
    ring

lemma calcIterator_ok (z : ℂ) (N : ℕ) (zin a : ℕ → ℂ) : calcIterator z N N zin a
    = .ok ((List.range (N - 1)).map fun k => (padeState z zin a (k + 1)).pade) := by
  simp [calcIterator]

/-- C29: the `k`-th value yielded by `calc_iterator` is the continued fraction with `k + 2`
coefficients, whenever neither the loop nor the fraction divides by zero. -/
theorem calc_iterator_contFrac (z : ℂ) (N : ℕ) (zin a : ℕ → ℂ) :
    ∃ l, calcIterator z N N zin a = .ok l ∧ l.length = N - 1 ∧
      ∀ k (hk : k < l.length), EvalRegular z zin a (k + 1) →
        (∀ i j, i + j = k + 1 → contTail z zin a i j ≠ 0) →
        l[k] = contFrac z zin a (k + 2) := by
  refine ⟨_, calcIterator_ok z N zin a, by simp, fun k hk hreg htail => ?_⟩
  simp only [List.getElem_map, List.getElem_range]
  have hden := (b2_ne_zero_iff zin a z (k + 1)).1 hreg
  rw [(padeState_eq zin a z (k + 1) hden).1, contFrac]
  have hprod : ∀ i < k + 1, contTail z zin a (0 + 1 + i) (k + 1 - 1 - i) ≠ 0 := fun i hi =>
    htail _ _ (by omega)
  have hA := recursion_tail z zin a (fun n => (padeNum zin a n).eval z) (padeNum_eval zin a z)
    (k + 1) 0 hprod
  have hB := recursion_tail z zin a (fun n => (padeDen zin a n).eval z) (padeDen_eval zin a z)
    (k + 1) 0 hprod
  simp only [show 0 + 1 + (k + 1) = k + 1 + 1 by ring, zero_add] at hA hB
  have hA0 : (padeNum zin a 0).eval z = 0 := by simp [padeNum]
  have hA1 : (padeNum zin a 1).eval z = a 0 := by simp [padeNum]
  have hB0 : (padeDen zin a 0).eval z = 1 := by simp [padeDen]
  have hB1 : (padeDen zin a 1).eval z = 1 := by simp [padeDen]
  have hP : ∏ i ∈ Finset.range (k + 1), contTail z zin a (1 + i) (k + 1 - 1 - i) ≠ 0 :=
    Finset.prod_ne_zero_iff.2 fun i hi => htail _ _ (by
      have := Finset.mem_range.1 hi; omega)
  rw [hA, hB, hA0, hA1, hB0, hB1]
  have ht := htail 0 (k + 1) (by omega)
  simp only [show k + 2 - 1 = k + 1 by omega]
  generalize contTail z zin a 0 (k + 1) = t at *
  generalize ∏ i ∈ Finset.range (k + 1), contTail z zin a (1 + i) (k + 1 - 1 - i) = P at *
  rw [mul_zero, add_zero, mul_one, add_sub_cancel, mul_div_mul_left _ _ hP]

/-- C29, error branch: the numbers of points and coefficients have to agree. -/
theorem calc_iterator_error (z : ℂ) (M N : ℕ) (zin a : ℕ → ℂ) (h : N ≠ M) :
    calcIterator z M N zin a = .error .assertionError := by
  simp [calcIterator, h]

/-- A continued fraction with three coefficients, evaluated by the loop. -/
example : EvalRegular 2 (fun k => (k : ℂ)) (fun _ => 1) 2 ∧
    (padeState 2 (fun k => (k : ℂ)) (fun _ => 1) 2).pade = 1 / 2 ∧
    contFrac 2 (fun k => (k : ℂ)) (fun _ => 1) 3 = 1 / 2 := by
  refine ⟨?_, ?_, ?_⟩
  · intro k hk
    interval_cases k <;> norm_num [padeState]
  · norm_num [padeState]
  · norm_num [contFrac, contTail]

/-! ## C28: interpolation -/

/-- The coefficient array does not change any more below the diagonal. -/
lemma coefRes_stable (z f : ℕ → ℂ) (k m : ℕ) : coefRes z f (k + m) k = coefRes z f k k := by
  induction m with
  | zero => rfl
  | succ m ih =>
    rw [← add_assoc, coefRes, if_neg (by omega), ih]

/-- The coefficients computed from the data interpolate it: on the level of polynomials. -/
lemma interpolate_poly (z f : ℕ → ℂ) (N n : ℕ) (hn : n ≤ N) (hreg : CoefRegular z f N)
    (j : ℕ) (hj : j < n) :
    (padeNum z (coefRes z f (N - 1)) n).eval (z j)
      = f j * (padeDen z (coefRes z f (N - 1)) n).eval (z j) := by
  set a := coefRes z f (N - 1) with ha
  have hak : ∀ k, k < N → a k = coefRes z f k k := by
    intro k hk
    have := coefRes_stable z f k (N - 1 - k)
    rw [show k + (N - 1 - k) = N - 1 by omega] at this
    exact this
  set E : ℕ → ℂ := fun n => (padeNum z a n).eval (z j) - f j * (padeDen z a n).eval (z j) with hE
  have hrec : ∀ n, E (n + 2) = E (n + 1) + a (n + 1) * (z j - z n) * E n := by
    intro n
    simp only [hE, padeNum_eval, padeDen_eval]
    ring
  have hE0 : E 0 = - f j := by simp [hE, padeNum, padeDen]
  have hE1 : E 1 = a 0 - f j := by simp [hE, padeNum, padeDen]
  -- invariant with the intermediate arrays
  have hinv : ∀ k, k + 1 ≤ j →
      E (k + 1) + (z j - z k) * coefRes z f (k + 1) j * E k = 0 := by
    intro k
    induction k with
    | zero =>
      intro hk
      have h1 := hreg 0 j (by omega) (by omega)
      have hf : f j ≠ 0 := h1.1
      have hz : z j - z 0 ≠ 0 := h1.2
      rw [hE0, hE1, coefRes, if_pos (by omega), hak 0 (by omega)]
      have : coefRes z f 0 j = f j := rfl
      rw [this]
      field_simp
      ring
    | succ k ih =>
      intro hk
      have h1 := ih (by omega)
      obtain ⟨h2, h3⟩ := hreg (k + 1) j (by omega) (by omega)
      rw [hrec k, coefRes, if_pos (by omega), hak (k + 1) (by omega)]
      have h4 : E (k + 1) = -((z j - z k) * coefRes z f (k + 1) j * E k) := by
        linear_combination h1
      rw [h4]
      field_simp
      ring
  -- exact at the point itself
  have hend : E (j + 1) = 0 := by
    cases j with
    | zero =>
      rw [hE1, hak 0 (by omega)]
      simp [coefRes]
    | succ j =>
      rw [hrec j, hak (j + 1) (by omega)]
      linear_combination hinv j le_rfl
  -- and for all later approximants
  have hall : ∀ m, E (j + 1 + m) = 0 ∧ E (j + 1 + (m + 1)) = 0 := by
    intro m
    induction m with
    | zero =>
      refine ⟨hend, ?_⟩
      rw [show j + 1 + (0 + 1) = j + 2 by ring, hrec j, hend, sub_self]
      ring
    | succ m ih =>
      refine ⟨ih.2, ?_⟩
      rw [show j + 1 + (m + 1 + 1) = j + 1 + m + 2 by ring, hrec, show j + 1 + m + 1 = j + 1 + (m + 1) by ring,
        ih.1, ih.2]
      ring
  have := (hall (n - (j + 1))).1
  rw [show j + 1 + (n - (j + 1)) = n by omega] at this
  exact sub_eq_zero.1 this

/-- C28: the approximant with `n = k + 2` coefficients reproduces the data at its `n` points: for
all distinct points and data for which `coefficients` divides by no zero. -/
theorem pade_interpolates (z f : ℕ → ℂ) (N : ℕ) {a : ℕ → ℂ}
    (ha : coefficients N N z f = .ok (some a)) (k j : ℕ) (hk : k + 2 ≤ N) (hj : j < k + 2)
    (hreg : EvalRegular (z j) z a (k + 1)) :
    ∃ l, calcIterator (z j) N N z a = .ok l ∧ l[k]? = some (f j) := by
  refine ⟨_, calcIterator_ok _ _ _ _, ?_⟩
  have hk' : k < N - 1 := by omega
  rw [List.getElem?_map, List.getElem?_range hk', Option.map_some]
  congr 1
  unfold coefficients at ha
  rw [if_neg (by simp)] at ha
  split_ifs at ha with hc
  swap
  · exact absurd ha (by simp)
  have ha' : coefRes z f (N - 1) = a := Option.some.inj (Except.ok.inj ha)
  have hden := (b2_ne_zero_iff z a (z j) (k + 1)).1 hreg
  rw [(padeState_eq z a (z j) (k + 1) hden).1]
  have := interpolate_poly z f N (k + 2) hk hc j hj
  rw [ha'] at this
  rw [this, mul_div_assoc, div_self (hden _ le_rfl), mul_one]

/-- C28: the coefficients are finite iff all points are distinct and no intermediate value vanishes;
`ValueError` is raised iff the sizes do not match. -/
theorem coefficients_cases (N M : ℕ) (z f : ℕ → ℂ) :
    (coefficients N M z f = .error .valueError ↔ N ≠ M) ∧
    (N = M → ((∃ a, coefficients N M z f = .ok (some a)) ↔ CoefRegular z f N)) := by
  unfold coefficients
  constructor
  · split_ifs <;> simp_all
  · rintro rfl
    rw [if_neg (by simp)]
    split_ifs with h <;> simp [h]

/-- Data for which everything is regular: `1/(z+1)` at `0` and `1`, and `2` points. -/
example : CoefRegular (fun k => (k : ℂ)) (fun k => 1 / ((k : ℂ) + 1)) 2 := by
  intro ii j h1 h2
  obtain rfl : ii = 0 := by omega
  obtain rfl : j = 1 := by omega
  constructor <;> norm_num [coefRes]

/-! ## C32: exact rational functions -/

/-- C32: for data of a rational function `p/q` with degrees `deg p ≤ (n-1)/2`, `deg q ≤ n/2`, the
approximant with `n = k + 2` coefficients is this function, at every point at which neither divides
by zero. -/
theorem pade_exact_rational (z f : ℕ → ℂ) (N : ℕ) {a : ℕ → ℂ}
    (ha : coefficients N N z f = .ok (some a)) (k : ℕ) (hk : k + 2 ≤ N) (p q : ℂ[X])
    (hp : p.natDegree ≤ (k + 1) / 2) (hq : q.natDegree ≤ (k + 2) / 2)
    (hdata : ∀ j < k + 2, q.eval (z j) ≠ 0 ∧ f j = p.eval (z j) / q.eval (z j))
    (w : ℂ) (hw : q.eval w ≠ 0) (hreg : EvalRegular w z a (k + 1)) :
    ∃ l, calcIterator w N N z a = .ok l ∧ l[k]? = some (p.eval w / q.eval w) := by
  refine ⟨_, calcIterator_ok _ _ _ _, ?_⟩
  have hk' : k < N - 1 := by omega
  rw [List.getElem?_map, List.getElem?_range hk', Option.map_some]
  congr 1
  unfold coefficients at ha
  rw [if_neg (by simp)] at ha
  split_ifs at ha with hc
  swap
  · exact absurd ha (by simp)
  have ha' : coefRes z f (N - 1) = a := Option.some.inj (Except.ok.inj ha)
  have hden := (b2_ne_zero_iff z a w (k + 1)).1 hreg
  rw [(padeState_eq z a w (k + 1) hden).1]
  -- the cross product has too many roots
  have hcross : padeNum z a (k + 2) * q - p * padeDen z a (k + 2) = 0 := by
    have hdeg : (padeNum z a (k + 2) * q - p * padeDen z a (k + 2)).natDegree < k + 2 := by
      have h1 := padeNum_natDegree z a (k + 2)
      have h2 := padeDen_natDegree z a (k + 2)
      have h3 : (padeNum z a (k + 2) * q).natDegree ≤ k + 1 := natDegree_mul_le.trans (by omega)
      have h4 : (p * padeDen z a (k + 2)).natDegree ≤ k + 1 := natDegree_mul_le.trans (by omega)
      have h5 := natDegree_sub_le (padeNum z a (k + 2) * q) (p * padeDen z a (k + 2))
      have := max_le h3 h4
      omega
    have hinj : Function.Injective fun j : Fin (k + 2) => z j := by
      intro i j hij
      by_contra hne
      rcases lt_or_gt_of_ne hne with h | h
      · have := (hc i j h (by omega)).2
        apply this
        simp only at hij
        rw [hij, sub_self]
      · have := (hc j i h (by omega)).2
        apply this
        simp only at hij
        rw [hij, sub_self]
    apply Polynomial.eq_zero_of_natDegree_lt_card_of_eval_eq_zero _ hinj
    · intro j
      have h1 := interpolate_poly z f N (k + 2) hk hc j j.2
      rw [ha'] at h1
      obtain ⟨h2, h3⟩ := hdata j j.2
      simp only [eval_sub, eval_mul, h1, h3]
      field_simp
      ring
    · simpa using hdeg
  have h1 := congrArg (eval w) hcross
  simp only [eval_sub, eval_mul, eval_zero] at h1
  rw [div_eq_div_iff (hden _ le_rfl) hw]
  linear_combination h1

/-- C32, limit of the property: for more points than needed the coefficients vanish and the next
iteration divides by zero: four or more samples of a single pole do not give finite
coefficients. -/
theorem pade_too_many_points (z : ℕ → ℂ) (p w : ℂ) (hw : w ≠ 0) (N : ℕ) (hN : 4 ≤ N)
    (hz : ∀ i j, i < N → j < N → i ≠ j → z i ≠ z j) (hp : ∀ i, i < N → z i ≠ p) :
    coefficients N N z (fun k => w / (z k - p)) = .ok none := by
  have h1 : ∀ j, 1 ≤ j → j < N → coefRes z (fun k => w / (z k - p)) 1 j = 1 / (z 0 - p) := by
    intro j h1 h2
    rw [coefRes, if_pos (by omega)]
    simp only [coefRes]
    have ha := sub_ne_zero.2 (hp 0 (by omega))
    have hb := sub_ne_zero.2 (hp j h2)
    have hc := sub_ne_zero.2 (hz j 0 h2 (by omega) (by omega))
    field_simp
    ring
  have h2 : coefRes z (fun k => w / (z k - p)) 2 3 = 0 := by
    rw [coefRes, if_pos (by omega), h1 1 le_rfl (by omega), h1 3 (by omega) (by omega)]
    have ha := sub_ne_zero.2 (hp 0 (by omega))
    field_simp
    simp
  unfold coefficients
  rw [if_neg (by simp), if_neg]
  intro h
  exact (h 2 3 (by omega) (by omega)).1 h2

/-! ## C30: kinds of approximants and their tails -/

/-- C30: an even number of coefficients `2m` gives an approximant that decays like `1/z`. -/
theorem pade_even_tail (zin a : ℕ → ℂ) (m : ℕ) (hm : 1 ≤ m)
    (ha : ∀ i < m, a (2 * i + 1) ≠ 0) (hreg : ∃ w, EvalRegular w zin a (2 * m - 1)) :
    ∃ c, Tendsto (fun z => z * (padeState z zin a (2 * m - 1)).pade) (Bornology.cobounded ℂ)
      (𝓝 c) := by
  obtain ⟨m, rfl⟩ : ∃ m', m = m' + 1 := ⟨m - 1, by omega⟩
  obtain ⟨w, hw⟩ := hreg
  have hdw := (b2_ne_zero_iff zin a w _).1 hw
  have hden : ∀ k ≤ 2 * (m + 1), padeDen zin a k ≠ 0 := by
    intro k hk h0
    apply hdw k (by omega)
    rw [h0, eval_zero]
  have hev : ∀ᶠ z : ℂ in Bornology.cobounded ℂ,
      ∀ k ∈ Finset.range (2 * (m + 1) + 1), (padeDen zin a k).eval z ≠ 0 := by
    rw [Filter.eventually_all_finset]
    intro k hk
    exact eventually_eval_ne_zero (hden k (by have := Finset.mem_range.1 hk; omega))
  have hne : ∀ᶠ z : ℂ in Bornology.cobounded ℂ, z ≠ 0 := Bornology.eventually_ne_cobounded 0
  have h1 := tendsto_eval_div_pow (padeNum zin a (2 * (m + 1))) m
    ((padeNum_natDegree zin a _).trans (by omega))
  have h2 := tendsto_eval_div_pow (padeDen zin a (2 * (m + 1))) (m + 1)
    ((padeDen_natDegree zin a _).trans (by omega))
  have h3 : (padeDen zin a (2 * (m + 1))).coeff (m + 1) ≠ 0 := by
    rw [padeDen_coeff_even]
    exact Finset.prod_ne_zero_iff.2 fun i hi => ha i (Finset.mem_range.1 hi)
  refine ⟨_, (h1.div h2 h3).congr' ?_⟩
  filter_upwards [hev, hne] with z hz hz0
  rw [(padeState_eq zin a z (2 * (m + 1) - 1) fun k hk => hz k (Finset.mem_range.2 (by omega))).1]
  rw [show 2 * (m + 1) - 1 + 1 = 2 * (m + 1) by omega]
  have := hz (2 * (m + 1)) (Finset.mem_range.2 (by omega))
  simp only [Pi.div_apply, pow_succ]
  field_simp

/-- The leading coefficient of the denominator with `2m+1` coefficients. -/
noncomputable def selfTailDen (a : ℕ → ℂ) : ℕ → ℂ
  | 0 => 1
  | m + 1 => ∏ i ∈ Finset.range (m + 1), a (2 * i + 1) + a (2 * (m + 1)) * selfTailDen a m

private lemma padeDen_coeff_odd (zin a : ℕ → ℂ) (m : ℕ) :
    (padeDen zin a (2 * m + 1)).coeff m = selfTailDen a m := by
  induction m with
  | zero => simp [padeDen, selfTailDen]
  | succ m ih =>
    rw [show 2 * (m + 1) + 1 = 2 * m + 1 + 2 by ring, padeDen, coeff_add,
      coeff_step _ _ _ _ ((padeDen_natDegree zin a (2 * m + 1)).trans (by omega)), ih,
      show 2 * m + 1 + 1 = 2 * (m + 1) by ring, padeDen_coeff_even, selfTailDen]

/-- C30: an odd number of coefficients `2m+1` gives an approximant that tends to a constant
(`∏ a_{2i}` divided by the leading coefficient of the denominator, which must not vanish). -/
theorem pade_odd_tail (zin a : ℕ → ℂ) (m : ℕ) (ha : selfTailDen a m ≠ 0)
    (hreg : ∃ w, EvalRegular w zin a (2 * m)) :
    Tendsto (fun z => (padeState z zin a (2 * m)).pade) (Bornology.cobounded ℂ)
      (𝓝 ((∏ i ∈ Finset.range (m + 1), a (2 * i)) / selfTailDen a m)) := by
  obtain ⟨w, hw⟩ := hreg
  have hdw := (b2_ne_zero_iff zin a w _).1 hw
  have hden : ∀ k ≤ 2 * m + 1, padeDen zin a k ≠ 0 := by
    intro k hk h0
    apply hdw k (by omega)
    rw [h0, eval_zero]
  have hev : ∀ᶠ z : ℂ in Bornology.cobounded ℂ,
      ∀ k ∈ Finset.range (2 * m + 2), (padeDen zin a k).eval z ≠ 0 := by
    rw [Filter.eventually_all_finset]
    intro k hk
    exact eventually_eval_ne_zero (hden k (by have := Finset.mem_range.1 hk; omega))
  have hne : ∀ᶠ z : ℂ in Bornology.cobounded ℂ, z ≠ 0 := Bornology.eventually_ne_cobounded 0
  have h1 := tendsto_eval_div_pow (padeNum zin a (2 * m + 1)) m
    ((padeNum_natDegree zin a _).trans (by omega))
  have h2 := tendsto_eval_div_pow (padeDen zin a (2 * m + 1)) m
    ((padeDen_natDegree zin a _).trans (by omega))
  rw [padeDen_coeff_odd] at h2
  rw [padeNum_coeff_odd] at h1
  refine (h1.div h2 ha).congr' ?_
  filter_upwards [hev, hne] with z hz hz0
  rw [(padeState_eq zin a z (2 * m) fun k hk => hz k (Finset.mem_range.2 (by omega))).1]
  have := hz (2 * m + 1) (Finset.mem_range.2 (by omega))
  simp only [Pi.div_apply]
  field_simp

private lemma mem_pyRange_two (a b i : ℕ) :
    i ∈ pyRange a b 2 ↔ a ≤ i ∧ i < b ∧ (i - a) % 2 = 0 := by
  simp only [pyRange, rangeLen, List.mem_map, List.mem_range]
  constructor
  · rintro ⟨x, hx, rfl⟩
    refine ⟨by omega, by omega, by omega⟩
  · rintro ⟨h1, h2, h3⟩
    exact ⟨(i - a) / 2, by omega, by omega⟩

/-- C30: `KindGf` selects exactly the approximants with an even number of coefficients above
`n_min` and up to `n_max` (index `i` of `calc_iterator` has `i + 2` coefficients). `ValueError` is
raised iff the range is invalid. -/
theorem kind_gf_select (nMin nMax : ℤ) :
    (∀ k, kindGf nMin nMax = .ok k → ∀ i, i ∈ pyRange k.start k.stop k.step ↔
      Even (i + 2) ∧ nMin < (i + 2 : ℕ) ∧ ((i + 2 : ℕ) : ℤ) ≤ nMax) ∧
    (∀ e, kindGf nMin nMax = .error e ↔ e = .valueError ∧ (nMin < 0 ∨ nMax ≤ nMin ∨
      (nMin % 2 = 0 ∧ nMax = nMin + 1))) := by
  constructor
  · intro k hk i
    unfold kindGf kindInit at hk
    split_ifs at hk <;>
    · first
      | (cases hk; done)
      | (obtain rfl := Except.ok.inj hk
         simp only [mem_pyRange_two, Nat.even_iff]
         omega)
  · intro e
    unfold kindGf kindInit
    split_ifs <;> simp [eq_comm] <;> omega

/-- C30: `KindSelf` selects exactly the approximants with an odd number of coefficients above
`n_min` and up to `n_max`. -/
theorem kind_self_select (nMin nMax : ℤ) :
    (∀ k, kindSelf nMin nMax = .ok k → ∀ i, i ∈ pyRange k.start k.stop k.step ↔
      Odd (i + 2) ∧ nMin < (i + 2 : ℕ) ∧ ((i + 2 : ℕ) : ℤ) ≤ nMax) ∧
    (∀ e, kindSelf nMin nMax = .error e ↔ e = .valueError ∧ (nMin < 1 ∨ nMax ≤ nMin ∨
      (nMin % 2 = 1 ∧ nMax = nMin + 1))) := by
  constructor
  · intro k hk i
    unfold kindSelf kindInit at hk
    split_ifs at hk <;>
    · first
      | (cases hk; done)
      | (obtain rfl := Except.ok.inj hk
         simp only [mem_pyRange_two, Nat.odd_iff]
         omega)
  · intro e
    unfold kindSelf kindInit
    split_ifs <;> simp [eq_comm] <;> omega

/-- C30: length, indexing and slicing of a selector agree: `kind[i]` exists iff `i < len(kind)`,
and for iterables with enough elements `islice` gives the elements at these indices. -/
theorem kind_consistent {α : Type*} (k : KindSelector) (l : List α)
    (hl : ∀ i ∈ pyRange k.start k.stop k.step, i < l.length) :
    (∀ i, (∃ x, k.getitem i = .ok x) ↔ i < k.len) ∧
    (∀ i, k.len ≤ i → k.getitem i = .error .indexError) ∧
    (k.islice l).length = k.len ∧
    ∀ i x, k.getitem i = .ok x → (k.islice l)[i]? = l[x]? := by
  have hlen : (pyRange k.start k.stop k.step).length = k.len := by
    simp [pyRange, KindSelector.len]
  refine ⟨fun i => ?_, fun i hi => ?_, ?_, fun i x hx => ?_⟩
  · unfold KindSelector.getitem
    rw [← hlen]
    by_cases h : i < (pyRange k.start k.stop k.step).length
    · simp [h]
    · simp [h]
  · unfold KindSelector.getitem
    rw [List.getElem?_eq_none (by omega)]
  · rw [← hlen]
    unfold KindSelector.islice
    generalize pyRange k.start k.stop k.step = r at hl
    induction r with
    | nil => rfl
    | cons a r ih =>
      rw [List.filterMap_cons, List.getElem?_eq_getElem (hl a (by simp))]
      simp only [List.length_cons]
      rw [ih fun i hi => hl i (by simp [hi])]
  · unfold KindSelector.getitem at hx
    unfold KindSelector.islice
    generalize pyRange k.start k.stop k.step = r at hl hx
    induction r generalizing i with
    | nil => simp at hx
    | cons a r ih =>
      rw [List.filterMap_cons, List.getElem?_eq_getElem (hl a (by simp))]
      cases i with
      | zero =>
        simp only [List.getElem?_cons_zero, Except.ok.injEq] at hx
        subst hx
        rw [List.getElem?_cons_zero, List.getElem?_eq_getElem (hl a (by simp))]
      | succ i =>
        simp only [List.getElem?_cons_succ] at hx ⊢
        exact ih i (fun i hi => hl i (by simp [hi])) hx

/-- The selectors accept ordinary ranges. -/
example : (kindGf 1 7).map (fun k => pyRange k.start k.stop k.step) = .ok [0, 2, 4] ∧
    (kindSelf 1 7).map (fun k => pyRange k.start k.stop k.step) = .ok [1, 3, 5] := by decide

/-- The hypotheses of the tails are met: coefficients `1, 1, 1, …` and points `0, 1, 2, …`. -/
example : EvalRegular 2 (fun k => (k : ℂ)) (fun _ => 1) (2 * 1) ∧
    selfTailDen (fun _ => 1) 1 ≠ 0 := by
  constructor
  · intro k hk
    interval_cases k <;> norm_num [padeState]
  · norm_num [selfTailDen]

/-! ## C31: filters and averages -/

/-- Specification: the approximants that survive when each filter is applied to the survivors of
the previous one. -/
def survivors {α : Type*} : List (List α → List Bool) → List α → List α
  | [], l => l
  | f :: fs, l => survivors fs (maskGet (f l) l)

private lemma maskGet_maskSet {α : Type*} (v new : List Bool) (l : List α)
    (hv : v.length = l.length) (hn : new.length = v.count true) :
    maskGet (maskSet v new) l = maskGet new (maskGet v l) := by
  induction v generalizing new l with
  | nil => cases l <;> cases new <;> simp_all [maskSet, maskGet]
  | cons b v ih =>
    cases l with
    | nil => simp at hv
    | cons x xs =>
      cases b with
      | false =>
        simp only [maskSet, maskGet]
        exact ih new xs (by simpa using hv) (by simpa using hn)
      | true =>
        cases new with
        | nil => simp at hn
        | cons c new =>
          have := ih new xs (by simpa using hv) (by simpa using hn)
          cases c <;> simp [maskSet, maskGet, this]

private lemma maskSet_length (v new : List Bool) : (maskSet v new).length = v.length := by
  induction v generalizing new with
  | nil => rfl
  | cons b v ih => cases b <;> cases new <;> simp [maskSet, ih]

private lemma maskGet_length {α : Type*} (v : List Bool) (l : List α) (hv : v.length = l.length) :
    (maskGet v l).length = v.count true := by
  induction v generalizing l with
  | nil => simp [maskGet]
  | cons b v ih =>
    cases l with
    | nil => simp at hv
    | cons x xs => cases b <;> simp [maskGet, ih xs (by simpa using hv)]

private lemma maskGet_true {α : Type*} (l : List α) : maskGet (l.map fun _ => true) l = l := by
  induction l with
  | nil => rfl
  | cons x xs ih =>
    rw [List.map_cons, maskGet, ih]

private lemma applyFilterLoop_survivors {α : Type*} (pades : List α)
    (fs : List (List α → List Bool)) (hfs : ∀ f ∈ fs, ∀ l, (f l).length = l.length)
    (v : List Bool) (hv : v.length = pades.length) :
    (∀ r, applyFilterLoop pades fs v = .ok r →
      r.length = pades.length ∧ maskGet r pades = survivors fs (maskGet v pades)) ∧
    (∀ e, applyFilterLoop pades fs v = .error e → e = .runtimeError ∧
      ∃ n ≤ fs.length, survivors (fs.take n) (maskGet v pades) = []) := by
  induction fs generalizing v with
  | nil =>
    constructor
    · intro r hr
      obtain rfl := Except.ok.inj hr
      exact ⟨hv, rfl⟩
    · intro e he
      exact absurd he (by simp [applyFilterLoop])
  | cons f fs ih =>
    have hlen : (f (maskGet v pades)).length = v.count true := by
      rw [hfs f (by simp), maskGet_length _ _ hv]
    have hv' : (maskSet v (f (maskGet v pades))).length = pades.length := by
      rw [maskSet_length, hv]
    have hget := maskGet_maskSet v (f (maskGet v pades)) pades hv hlen
    obtain ⟨ih1, ih2⟩ := ih (fun g hg => hfs g (by simp [hg])) _ hv'
    simp only [applyFilterLoop]
    split_ifs with h0
    · constructor
      · intro r hr
        exact absurd hr (by simp)
      · intro e he
        refine ⟨(Except.error.inj he).symm, 1, by simp, ?_⟩
        simp only [List.take_succ_cons, List.take_zero, survivors]
        rw [← hget]
        exact List.eq_nil_of_length_eq_zero (by rw [maskGet_length _ _ hv', h0])
    · constructor
      · intro r hr
        obtain ⟨h1, h2⟩ := ih1 r hr
        exact ⟨h1, by rw [h2, hget]; rfl⟩
      · intro e he
        obtain ⟨h1, n, h2, h3⟩ := ih2 e he
        refine ⟨h1, n + 1, by simpa using h2, ?_⟩
        rw [hget] at h3
        simpa [survivors] using h3

/-- C31: `apply_filter` applies the filters one after the other, each to the survivors of the
previous ones: the returned mask selects exactly the survivors; the only error is `RuntimeError`,
raised if at some stage no approximant is left. -/
theorem apply_filter_sequential {α : Type*} (fs : List (List α → List Bool)) (pades : List α)
    (hfs : ∀ f ∈ fs, ∀ l, (f l).length = l.length) :
    (∀ r, applyFilter fs pades = .ok r →
      r.length = pades.length ∧ maskGet r pades = survivors fs pades) ∧
    (∀ e, applyFilter fs pades = .error e → e = .runtimeError ∧
      ∃ n ≤ fs.length, survivors (fs.take n) pades = []) := by
  have hloop := applyFilterLoop_survivors pades fs hfs (pades.map fun _ => true) (by simp)
  rw [maskGet_true] at hloop
  rcases fs with _ | ⟨f, _ | ⟨g, fs⟩⟩
  · exact hloop
  · constructor
    · intro r hr
      obtain rfl := Except.ok.inj hr
      exact ⟨hfs f (by simp) pades, rfl⟩
    · intro e he
      exact absurd he (by simp [applyFilter])
  · exact hloop

private lemma maskSet_pointwise {α : Type*} (q p : α → Bool) (l : List α) :
    maskSet (l.map q) ((maskGet (l.map q) l).map p) = l.map fun x => q x && p x := by
  induction l with
  | nil => rfl
  | cons x xs ih => cases hq : q x <;> simp [maskSet, maskGet, hq, ih]

private lemma applyFilterLoop_pointwise {α : Type*} (pades : List α) (ps : List (α → Bool))
    (q : α → Bool) :
    (∀ r, applyFilterLoop pades (ps.map fun p l => l.map p) (pades.map q) = .ok r →
      r = pades.map fun x => q x && ps.all (· x)) ∧
    (ps ≠ [] → (applyFilterLoop pades (ps.map fun p l => l.map p) (pades.map q)
      = .error .runtimeError ↔ ∀ x ∈ pades, (q x && ps.all (· x)) = false)) := by
  induction ps generalizing q with
  | nil =>
    constructor
    · intro r hr
      obtain rfl := Except.ok.inj hr
      simp
    · intro h; exact absurd rfl h
  | cons p ps ih =>
    obtain ⟨ih1, ih2⟩ := ih fun x => q x && p x
    simp only [List.map_cons, applyFilterLoop, maskSet_pointwise]
    have hcount : (pades.map fun x => q x && p x).count true = 0 ↔
        ∀ x ∈ pades, (q x && p x) = false := by
      rw [List.count_eq_zero]
      simp
    split_ifs with h0
    · constructor
      · intro r hr
        exact absurd hr (by simp)
      · intro _
        refine ⟨fun _ x hx => ?_, fun _ => rfl⟩
        have := hcount.1 h0 x hx
        rw [List.all_cons, ← Bool.and_assoc, this, Bool.false_and]
    · constructor
      · intro r hr
        rw [ih1 r hr]
        simp [Bool.and_assoc]
      · intro _
        by_cases hps : ps = []
        · subst hps
          rw [hcount] at h0
          simp only [List.map_nil, applyFilterLoop, reduceCtorEq, List.all_cons, List.all_nil,
            Bool.and_true, false_iff]
          exact h0
        · rw [ih2 hps]
          simp [Bool.and_assoc]

/-- C31: for filters that decide for each approximant separately (as `FilterNegImag`),
`apply_filter` is their conjunction; for several filters, `RuntimeError` is raised iff no
approximant passes all of them. -/
theorem apply_filter_conjunction {α : Type*} (ps : List (α → Bool)) (pades : List α) :
    (∀ r, applyFilter (ps.map fun p l => l.map p) pades = .ok r →
      r = pades.map fun x => ps.all (· x)) ∧
    (2 ≤ ps.length → (applyFilter (ps.map fun p l => l.map p) pades = .error .runtimeError ↔
      ∀ x ∈ pades, ∃ p ∈ ps, p x = false)) := by
  have hloop := applyFilterLoop_pointwise pades ps fun _ => true
  rcases ps with _ | ⟨p, _ | ⟨p', ps⟩⟩
  · refine ⟨fun r hr => by simpa using hloop.1 r hr, by simp⟩
  · refine ⟨fun r hr => ?_, by simp⟩
    obtain rfl := Except.ok.inj hr
    simp
  · refine ⟨fun r hr => by simpa using hloop.1 r hr, fun _ => ?_⟩
    refine (hloop.2 (by simp)).trans ?_
    refine forall₂_congr fun x _ => ?_
    rw [Bool.true_and, ← Bool.not_eq_true, List.all_eq_true]
    push Not
    simp

/-- Two filters on three numbers. -/
example : applyFilter ([fun x : ℕ => decide (x < 3), fun x => decide (0 < x)].map
    fun p l => l.map p) [0, 1, 5] = .ok [false, true, false] := by decide

/-- C31: `FilterNegImag` decides for each approximant separately. -/
theorem filter_neg_imag_iff (thr : ℝ) (pades : List PadeVals) (i : ℕ) (hi : i < pades.length) :
    (filterNegImag thr pades)[i]? = some true ↔ ∀ x ∈ pades[i], x.im < thr := by
  simp [filterNegImag, hi]

/-- C31: `Averager` raises `RuntimeError` iff no approximant is accepted. -/
theorem averager_error_iff (kind : KindSelector) (valid : List Bool) (pades : List ℂ) (e : Err) :
    averager kind valid pades = .error e ↔ e = .runtimeError ∧ ∀ b ∈ valid, b = false := by
  unfold averager
  by_cases h : valid.any id = true
  · rw [if_neg (by simp [h])]
    refine ⟨fun he => (by cases he), ?_⟩
    rintro ⟨_, hall⟩
    obtain ⟨b, hb, hb'⟩ := List.any_eq_true.1 h
    rw [hall b hb] at hb'
    exact absurd hb' (by simp)
  · rw [if_pos h]
    constructor
    · intro he
      refine ⟨(Except.error.inj he).symm, fun b hb => ?_⟩
      by_contra hb'
      exact h (List.any_eq_true.2 ⟨b, hb, by simpa using hb'⟩)
    · rintro ⟨rfl, _⟩; rfl

private lemma accepted_eq (l : List ℂ) (valid : List Bool) (h : valid.length = l.length) :
    ((l.zip valid).filterMap fun p => if p.2 then some p.1 else none).sum
      = ∑ i ∈ Finset.range l.length, (if valid.getD i false then l.getD i 0 else 0) ∧
    (((l.zip valid).filterMap fun p => if p.2 then some p.1 else none).length : ℕ)
      = valid.count true := by
  induction l generalizing valid with
  | nil => cases valid <;> simp_all
  | cons x xs ih =>
    cases valid with
    | nil => simp at h
    | cons b v =>
      obtain ⟨h1, h2⟩ := ih v (by simpa using h)
      rw [List.length_cons, Finset.sum_range_succ']
      cases b <;> simp [h1, h2, add_comm]

/-- C31: the average is the arithmetic mean of exactly the accepted approximants. -/
theorem averager_mean (kind : KindSelector) (valid : List Bool) (pades : List ℂ)
    (hlen : valid.length = (kind.islice pades).length) (hval : true ∈ valid) :
    ∃ r, averager kind valid pades = .ok r ∧
      r.x = some ((∑ i ∈ Finset.range valid.length,
        (if valid.getD i false then (kind.islice pades).getD i 0 else 0)) / valid.count true) := by
  have hany : valid.any id = true := by simpa [List.any_eq_true] using hval
  refine ⟨_, by unfold averager; rw [if_neg (by simp [hany])], ?_⟩
  obtain ⟨h1, h2⟩ := accepted_eq (kind.islice pades) valid hlen
  simp only [avgStat, meanC]
  rw [if_neg, h1, h2, hlen]
  intro h0
  rw [h0] at h2
  have : 0 < valid.count true := List.count_pos_iff.2 hval
  simp at h2
  omega

private lemma stdR_perm {l l' : List ℝ} (h : l.Perm l') : stdR l = stdR l' := by
  unfold stdR
  rw [h.length_eq, h.sum_eq]
  simp only [(h.map _).sum_eq]

/-- C31: mean and deviation do not depend on the order in which the accepted approximants arrive. -/
theorem avgStat_perm {l l' : List ℂ} (h : l.Perm l') : avgStat l = avgStat l' := by
  unfold avgStat meanC
  rw [stdR_perm (h.map Complex.re), stdR_perm (h.map Complex.im), h.sum_eq, h.length_eq]
  congr 1
  by_cases h0 : l' = []
  · simp [h0, (h0 ▸ h : l.Perm []).eq_nil]
  · rw [if_neg h0, if_neg]
    rintro rfl
    exact h0 h.symm.eq_nil

/-- C31: the same for the whole `Averager`. -/
theorem averager_perm (kind kind' : KindSelector) (valid valid' : List Bool) (pades pades' : List ℂ)
    (hlen : valid.length = (kind.islice pades).length)
    (hlen' : valid'.length = (kind'.islice pades').length)
    (h : ((kind.islice pades).zip valid).Perm ((kind'.islice pades').zip valid')) :
    averager kind valid pades = averager kind' valid' pades' := by
  have hv : valid.Perm valid' := by
    have := h.map Prod.snd
    rwa [List.map_snd_zip hlen.le, List.map_snd_zip hlen'.le] at this
  unfold averager
  rw [avgStat_perm (h.filterMap _)]
  have : valid.any id = valid'.any id := hv.any_eq
  rw [this]

example : averager ⟨0, 3, 2⟩ [true, false] [1, 2, 3] = averager ⟨0, 3, 2⟩ [false, true] [3, 2, 1] := by
  apply averager_perm
  · rfl
  · rfl
  · simp only [KindSelector.islice, pyRange, rangeLen]
    exact List.Perm.swap _ _ _

/-- C31: `FilterNegImagNum(abs_num)` never fails its assertion, keeps at least `abs_num`
approximants (if there are as many), keeps all with non-positive imaginary part, and never drops an
approximant better than one it keeps. -/
theorem filter_neg_imag_num_spec (as : ArgSort) (n : ℕ) (badness : List ℝ) :
    ∃ v, filterNegImagNum as (.inl n) badness = .ok v ∧ v.length = badness.length ∧
      min n badness.length ≤ v.count true ∧
      (∀ i < badness.length, badness.getD i 0 ≤ 0 → v.getD i false = true) ∧
      ∀ i < badness.length, ∀ j < badness.length, v.getD i false = true → v.getD j false = false →
        badness.getD i 0 ≤ badness.getD j 0 := by
  unfold filterNegImagNum
  simp only
  by_cases hn : n ≥ badness.length
  · rw [if_pos hn]
    refine ⟨_, rfl, by simp, ?_, ?_, ?_⟩
    · simp
    · intro i hi _
      simp [hi]
    · intro i hi j hj _ h
      simp [hj] at h
  · rw [if_neg hn]
    have hperm := as.perm badness
    have hsorted := as.sorted badness
    set s := as.sort badness with hs
    have hslen : s.length = badness.length := by rw [hperm.length_eq, List.length_range]
    have hnodup : s.Nodup := hperm.nodup_iff.2 List.nodup_range
    set v := (List.range badness.length).map fun i =>
        decide (i ∈ s.take n) || decide (badness.getD i 0 ≤ 0) with hv
    have hvlen : v.length = badness.length := by simp [hv]
    have hvget : ∀ i < badness.length, v.getD i false
        = (decide (i ∈ s.take n) || decide (badness.getD i 0 ≤ 0)) := by
      intro i hi
      simp [hv, hi]
    have hcount : n ≤ v.count true := by
      have h1 : v.count true
          = ((List.range badness.length).filter fun i =>
              decide (i ∈ s.take n) || decide (badness.getD i 0 ≤ 0)).length := by
        rw [hv, List.count_eq_length_filter, List.filter_map, List.length_map]
        congr 2
        ext i
        simp
      rw [h1]
      have h2 : (s.take n).length = n := by rw [List.length_take]; omega
      refine h2.symm.le.trans ?_
      apply List.Subperm.length_le
      apply List.Nodup.subperm (hnodup.sublist (List.take_sublist _ _))
      intro i hi
      rw [List.mem_filter]
      refine ⟨hperm.mem_iff.1 (List.mem_of_mem_take hi), by simp [hi]⟩
    rw [if_pos hcount]
    refine ⟨v, rfl, hvlen, (min_le_left _ _).trans hcount, fun i hi h0 => ?_, ?_⟩
    · rw [hvget i hi]
      simp only [Bool.or_eq_true, decide_eq_true_eq]
      exact Or.inr h0
    · intro i hi j hj h1 h2
      rw [hvget i hi] at h1
      rw [hvget j hj] at h2
      simp only [Bool.or_eq_true, decide_eq_true_eq, Bool.or_eq_false_iff,
        decide_eq_false_iff_not] at h1 h2
      rcases h1 with h1 | h1
      · have hj' : j ∈ s.drop n := by
          have : j ∈ s := hperm.mem_iff.2 (List.mem_range.2 hj)
          rw [← List.take_append_drop n s, List.mem_append] at this
          exact this.resolve_left h2.1
        rw [← List.take_append_drop n s, List.pairwise_append] at hsorted
        exact hsorted.2.2 i h1 j hj'
      · exact h1.trans (not_le.1 h2.2).le

/-- The maximum of the imaginary parts. -/
theorem max_imag_spec {p : PadeVals} (hp : p ≠ []) :
    ∃ m, maxImag p = .ok m ∧ (∃ x ∈ p, x.im = m) ∧ ∀ x ∈ p, x.im ≤ m := by
  cases p with
  | nil => exact absurd rfl hp
  | cons x xs =>
    have key : ∀ (xs : List ℂ) (m : ℝ),
        (xs.foldl (fun m y => max m y.im) m = m ∨ ∃ y ∈ xs, y.im = xs.foldl (fun m y => max m y.im) m) ∧
        m ≤ xs.foldl (fun m y => max m y.im) m ∧ ∀ y ∈ xs, y.im ≤ xs.foldl (fun m y => max m y.im) m := by
      intro xs
      induction xs with
      | nil => intro m; simp
      | cons y ys ih =>
        intro m
        obtain ⟨h1, h2, h3⟩ := ih (max m y.im)
        simp only [List.foldl_cons, List.mem_cons]
        refine ⟨?_, (le_max_left _ _).trans h2, fun w hw => ?_⟩
        · rcases h1 with h1 | ⟨w, hw, hw1⟩
          · rw [h1]
            rcases max_cases m y.im with h | h
            · exact Or.inl h.1
            · exact Or.inr ⟨y, Or.inl rfl, h.1.symm⟩
          · exact Or.inr ⟨w, Or.inr hw, hw1⟩
        · rcases hw with rfl | hw
          · exact (le_max_right _ _).trans h2
          · exact h3 w hw
    obtain ⟨h1, h2, h3⟩ := key xs x.im
    refine ⟨_, rfl, ?_, fun y hy => ?_⟩
    · rcases h1 with h1 | ⟨y, hy, hy1⟩
      · exact ⟨x, by simp, h1.symm⟩
      · exact ⟨y, by simp [hy], hy1⟩
    · rcases List.mem_cons.1 hy with rfl | hy
      · exact h2
      · exact h3 y hy

/-- C31: `FilterNegImagNum(abs_num)` on approximants evaluated at one point at least: it succeeds, keeps at least
`abs_num` of them, keeps all whose imaginary part is nowhere positive, and drops an approximant only if its imaginary part
is positive somewhere and somewhere as large as every imaginary part of every approximant it keeps. -/
theorem filter_neg_imag_num_pades (as : ArgSort) (n : ℕ) (pades : List PadeVals) (hp : ∀ p ∈ pades, p ≠ []) :
    ∃ v, filterNegImagNumPades as (.inl n) pades = .ok v ∧ v.length = pades.length ∧
      min n pades.length ≤ v.count true ∧
      (∀ i < pades.length, (∀ x ∈ pades.getD i [], x.im ≤ 0) → v.getD i false = true) ∧
      ∀ i < pades.length, ∀ j < pades.length, v.getD i false = true → v.getD j false = false →
        ∃ y ∈ pades.getD j [], 0 < y.im ∧ ∀ x ∈ pades.getD i [], x.im ≤ y.im := by
  have hm : ∀ pades : List PadeVals, (∀ p ∈ pades, p ≠ []) → ∃ b : List ℝ, pades.mapM maxImag = .ok b ∧
      b.length = pades.length ∧ ∀ i < pades.length, maxImag (pades.getD i []) = .ok (b.getD i 0) := by
    intro pades
    induction pades with
    | nil => intro _; exact ⟨[], rfl, rfl, by simp⟩
    | cons p ps ih =>
      intro h
      obtain ⟨b, hb, hl, hg⟩ := ih fun q hq => h q (List.mem_cons_of_mem _ hq)
      obtain ⟨m, hm, -⟩ := max_imag_spec (h p (by simp))
      refine ⟨m :: b, ?_, by simp [hl], fun i hi => ?_⟩
      · rw [List.mapM_cons, hm, hb]
        rfl
      · cases i with
        | zero => simpa using hm
        | succ i => simpa using hg i (by simpa using hi)
  obtain ⟨b, hb, hl, hg⟩ := hm pades hp
  obtain ⟨v, hv, hvl, hc, h0, hle⟩ := filter_neg_imag_num_spec as n b
  have hne : ∀ i < pades.length, pades.getD i [] ≠ [] := by
    intro i hi
    have : pades.getD i [] = pades[i] := by simp [hi]
    rw [this]
    exact hp _ (List.getElem_mem hi)
  refine ⟨v, ?_, by rw [hvl, hl], by rwa [hl] at hc, fun i hi hx => ?_, fun i hi j hj h1 h2 => ?_⟩
  · unfold filterNegImagNumPades
    rw [hb]
    exact hv
  · refine h0 i (by omega) ?_
    obtain ⟨m, hm, ⟨x, hxm, hx1⟩, -⟩ := max_imag_spec (hne i hi)
    rw [hg i hi] at hm
    rw [Except.ok.inj hm, ← hx1]
    exact hx x hxm
  · obtain ⟨m, hm, ⟨y, hym, hy1⟩, -⟩ := max_imag_spec (hne j hj)
    obtain ⟨m', hm', -, hle'⟩ := max_imag_spec (hne i hi)
    rw [hg j hj] at hm
    rw [hg i hi] at hm'
    have h3 := hle i (by omega) j (by omega) h1 h2
    have h4 : ¬ b.getD j 0 ≤ 0 := fun h => by
      rw [h0 j (by omega) h] at h2
      exact absurd h2 (by simp)
    rw [Except.ok.inj hm, ← hy1] at h3 h4
    rw [Except.ok.inj hm'] at h3
    exact ⟨y, hym, not_le.1 h4, fun x hx => (hle' x hx).trans h3⟩

/-- No point at all: `np.max` raises. -/
theorem filter_neg_imag_num_empty (as : ArgSort) (num : ℕ ⊕ ℝ) (pades : List PadeVals) (h : [] ∈ pades) :
    filterNegImagNumPades as num pades = .error .valueError := by
  have : ∀ pades : List PadeVals, [] ∈ pades → pades.mapM maxImag = .error .valueError := by
    intro pades
    induction pades with
    | nil => intro h; simp at h
    | cons p ps ih =>
      intro h
      rw [List.mapM_cons]
      cases p with
      | nil => rfl
      | cons x xs =>
        have h' : [] ∈ ps := by simpa using h
        rw [ih h']
        rfl
  unfold filterNegImagNumPades
  rw [this pades h]

/-- C31, disagreement: `FilterNegImagNum(rel_num)` with `rel_num < 1` always raises `TypeError`, as
the number of approximants to keep is a float which is used as slice index. -/
theorem filter_neg_imag_num_rel_fails (as : ArgSort) (rel : ℝ) (hrel : rel < 1) (badness : List ℝ)
    (hb : badness ≠ []) : filterNegImagNum as (.inr rel) badness = .error .typeError := by
  unfold filterNegImagNum
  simp only
  rw [if_neg]
  have : (0 : ℝ) < badness.length := by exact_mod_cast List.length_pos_iff.2 hb
  rw [not_le]
  nlinarith

private lemma highVarianceLoop_perm (as : ArgSort) {N m : ℕ} (pade : Fin N → Fin m → ℂ) (k : ℕ) :
    ∀ nn bad last, (k = 0 → last.Perm (List.range N)) →
      (highVarianceLoop as pade k nn bad last).Perm (List.range N) := by
  induction k with
  | zero => intro _ _ _ h; exact h rfl
  | succ k ih =>
    intro nn bad last _
    simp only [highVarianceLoop]
    apply ih
    intro _
    unfold highVarianceOrder
    refine (List.reverse_perm _).trans ((as.perm _).trans ?_)
    simp

/-- C31: `FilterHighVariance` keeps exactly `abs_num` approximants if there are more, else all. -/
theorem filter_high_variance_count (as : ArgSort) {N m : ℕ} (pade : Fin N → Fin m → ℂ) (n : ℕ)
    (hn : 0 < n) : (filterHighVariance as pade n).count true = min n N := by
  unfold filterHighVariance
  split_ifs with h
  · simp [h]
  · have hperm := highVarianceLoop_perm as pade (N - n) N [] [] (by omega)
    simp only
    set b := highVarianceLoop as pade (N - n) N [] [] with hb
    have hblen : b.length = N := by rw [hperm.length_eq, List.length_range]
    have hnodup : b.Nodup := hperm.nodup_iff.2 List.nodup_range
    rw [sliceNeg, if_neg (by omega), hblen]
    have h1 : ((List.range N).map fun i => decide (i ∉ b.take (N - n))).count true
        = ((List.range N).filter fun i => decide (i ∉ b.take (N - n))).length := by
      rw [List.count_eq_length_filter, List.filter_map, List.length_map]
      congr 2
      ext i
      simp
    rw [h1, min_eq_left (by omega)]
    have h2 : ((List.range N).filter fun i => decide (i ∉ b.take (N - n))).length
        = (b.filter fun i => decide (i ∉ b.take (N - n))).length :=
      (hperm.symm.filter _).length_eq
    rw [h2]
    have h3 : b.filter (fun i => decide (i ∉ b.take (N - n))) = b.drop (N - n) := by
      conv_lhs => rw [← List.take_append_drop (N - n) b]
      rw [List.filter_append]
      have hd : List.Disjoint (b.take (N - n)) (b.drop (N - n)) :=
        List.disjoint_take_drop hnodup le_rfl
      rw [List.filter_eq_nil_iff.2, List.nil_append, List.filter_eq_self.2]
      · intro i hi
        rw [List.take_append_drop]
        simp only [decide_eq_true_eq]
        exact fun h' => hd h' hi
      · intro i hi
        rw [List.take_append_drop]
        simpa using hi
    rw [h3, List.length_drop, hblen]
    omega

/-- C31, disagreement: if `rel_num * N < 1` no approximant is dropped at all, although all but the
fraction `rel_num` should be. -/
theorem filter_high_variance_rel_wrong (as : ArgSort) {N m : ℕ} (pade : Fin N → Fin m → ℂ)
    (rel : ℝ) (h : rel * N < 1) :
    filterHighVariance as pade (relNum rel N) = (List.range N).map fun _ => true := by
  have h0 : relNum rel N = 0 := by
    unfold relNum
    rw [Nat.floor_eq_zero]
    exact h
  rw [h0]
  unfold filterHighVariance
  split_ifs
  · rfl
  · simp [sliceNeg]

/-! ### The complete function -/

/-- C31: `averaged` without filters is the arithmetic mean of the selected approximants that can be
formed with the `n_max - 1` points it uses. -/
theorem averaged_mean (kind : KindSelector) (zOut : ℂ) (N : ℕ) (zin f : ℕ → ℂ) (validZ : List ℂ)
    (hkind : 0 < kind.len) {a : ℕ → ℂ}
    (ha : coefficients (min N kind.stop) (min N kind.stop) zin f = .ok (some a))
    (used : List ℕ)
    (hused : used = (pyRange kind.start kind.stop kind.step).filter
      fun i => decide (i + 1 < min N kind.stop))
    (hne : used ≠ []) :
    ∃ r, averaged kind zOut N zin f validZ none = .ok r ∧
      r.x = some ((used.map fun i => (padeState zOut zin a (i + 1)).pade).sum / used.length) := by
  set M := min N kind.stop with hM
  set pades := (List.range (M - 1)).map fun k => (padeState zOut zin a (k + 1)).pade with hp
  have hsel : kind.islice pades = used.map fun i => (padeState zOut zin a (i + 1)).pade := by
    rw [hused]
    unfold KindSelector.islice
    generalize pyRange kind.start kind.stop kind.step = r
    induction r with
    | nil => rfl
    | cons i r ih =>
      rw [List.filterMap_cons, List.filter_cons]
      by_cases h : i + 1 < M
      · have hi : i < M - 1 := by omega
        have : pades[i]? = some (padeState zOut zin a (i + 1)).pade := by
          rw [hp, List.getElem?_map, List.getElem?_range hi, Option.map_some]
        rw [this]
        simp [h, ih]
      · have : pades[i]? = none := by
          rw [List.getElem?_eq_none]
          simp [hp]
          omega
        rw [this]
        simp [h, ih]
  have hlen : (kind.islice pades).length ≤ kind.len := by
    have : kind.len = (pyRange kind.start kind.stop kind.step).length := by
      simp [pyRange, KindSelector.len]
    rw [this]
    exact List.length_filterMap_le _ _
  have hacc : ∀ l : List ℂ, ∀ n, l.length ≤ n →
      ((l.zip (List.replicate n true)).filterMap fun p => if p.2 then some p.1 else none) = l := by
    intro l
    induction l with
    | nil => simp
    | cons x xs ih =>
      intro n hn
      cases n with
      | zero => simp at hn
      | succ n => simp [List.replicate_succ, ih n (by simpa using hn)]
  simp only [averaged, ← hM, ha, calcIterator_ok, averager]
  rw [if_neg (by simp [List.any_replicate]; omega), hacc _ _ hlen, hsel]
  refine ⟨_, rfl, ?_⟩
  simp only [avgStat, meanC]
  rw [if_neg (by simpa using hne), List.length_map]

/-- C31, disagreement: the approximant with `n_max` points is never used: for
`KindGf(1, 2)`, which selects exactly the approximant with two points, the result is NaN for
all (finite) data. -/
theorem averaged_misses_n_max (zOut : ℂ) (N : ℕ) (zin f : ℕ → ℂ) (validZ : List ℂ) (hN : 2 ≤ N) :
    ∃ kind, kindGf 1 2 = .ok kind ∧ pyRange kind.start kind.stop kind.step = [0] ∧
      ∃ r, averaged kind zOut N zin f validZ none = .ok r ∧ r.x = none := by
  refine ⟨⟨0, 1, 2⟩, rfl, rfl, ?_⟩
  have hM : min N 1 = 1 := by omega
  have hc : CoefRegular zin f 1 := by
    intro i j h1 h2
    omega
  simp only [averaged, hM, coefficients, ne_eq, not_true_eq_false, if_false, hc, if_true,
    calcIterator, averager, KindSelector.islice]
  refine ⟨_, rfl, ?_⟩
  simp [avgStat, meanC]

/-- C31, disagreement: with several functions (2-d data), no filters and an even `n_max`,
`averaged` fails with `IndexError` in `Averager`: the mask has a row for the approximant with
`n_max` points, which is not calculated. Shown for `KindGf(1, 4)` and arbitrary values of the
`n_max - 2` approximants. -/
theorem averaged_2d_index_error (c : ℕ) (p0 p1 : Fin c → ℂ) :
    ∃ kind, kindGf 1 4 = .ok kind ∧ kind.stop = 3 ∧
      averager2d kind (List.replicate kind.len fun _ => true) [p0, p1] = .error .indexError := by
  refine ⟨⟨0, 3, 2⟩, rfl, rfl, ?_⟩
  unfold averager2d
  rw [if_neg (by simp [KindSelector.len, rangeLen])]
  simp [KindSelector.islice, KindSelector.len, pyRange, rangeLen, List.range_succ]

end Gftool.Props
