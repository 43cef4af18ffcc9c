import Verif.Props.Pade
import Verif.Spec.Outliers
import Mathlib.Data.List.GetD

/-!
# Filter by variance, deviations of averages (C31)
-/

namespace Gftool.Props

open Gftool Model Spec

/-- The distances of the model are the deviations from the mean of the remaining approximants. -/
lemma highVariance_distance {N m : ℕ} (pade : Fin N → Fin m → ℂ) {bad : List (Fin N)} (hb : bad.Nodup)
    (hlen : bad.length < N) (i : Fin N) :
    ∑ x, Complex.normSq (((N - bad.length : ℕ) : ℂ) * pade i x - (∑ i, pade i x - (bad.map fun i => pade i x).sum))
      = ((N - bad.length : ℕ) : ℝ) ^ 2 * deviation pade (bad.toFinset)ᶜ i := by
  have hcard : ((bad.toFinset)ᶜ).card = N - bad.length := by
    rw [Finset.card_compl, Fintype.card_fin, List.toFinset_card_of_nodup hb]
  have hpos : ((N - bad.length : ℕ) : ℂ) ≠ 0 := by
    have : N - bad.length ≠ 0 := by omega
    exact_mod_cast this
  unfold deviation
  rw [Finset.mul_sum]
  refine Finset.sum_congr rfl fun x _ => ?_
  have hsum : ∑ i, pade i x - (bad.map fun i => pade i x).sum = ∑ i ∈ (bad.toFinset)ᶜ, pade i x := by
    rw [← Finset.sum_add_sum_compl bad.toFinset, List.sum_toFinset _ hb, add_sub_cancel_left]
  rw [hsum, Complex.normSq_eq_norm_sq, meanOf, hcard]
  have : ((N - bad.length : ℕ) : ℂ) * pade i x - ∑ i ∈ (bad.toFinset)ᶜ, pade i x
      = ((N - bad.length : ℕ) : ℂ) * (pade i x - (∑ i ∈ (bad.toFinset)ᶜ, pade i x) / ((N - bad.length : ℕ) : ℂ)) := by
    rw [mul_sub, mul_div_cancel₀ _ hpos]
  rw [this, norm_mul, mul_pow, Complex.norm_natCast]

/-- The order is a permutation sorted by decreasing deviation. -/
lemma highVarianceOrder_sorted (as : ArgSort) {N m : ℕ} (pade : Fin N → Fin m → ℂ) {bad : List (Fin N)} (hb : bad.Nodup)
    (hlen : bad.length < N) :
    (highVarianceOrder as pade bad (N - bad.length)).Perm (List.range N) ∧
    (highVarianceOrder as pade bad (N - bad.length)).Pairwise fun i j => ∀ (hi : i < N) (hj : j < N),
      deviation pade (bad.toFinset)ᶜ ⟨j, hj⟩ ≤ deviation pade (bad.toFinset)ᶜ ⟨i, hi⟩ := by
  unfold highVarianceOrder
  simp only
  constructor
  · refine (List.reverse_perm _).trans ((as.perm _).trans ?_)
    simp
  · rw [List.pairwise_reverse]
    refine (as.sorted _).imp ?_
    intro i j h hj hi
    have hv : ∀ (k : ℕ) (hk : k < N), ((List.finRange N).map fun i => ∑ x, Complex.normSq (((N - bad.length : ℕ) : ℂ) * pade i x
        - (∑ i, pade i x - (bad.map fun i => pade i x).sum))).getD k 0
        = ((N - bad.length : ℕ) : ℝ) ^ 2 * deviation pade (bad.toFinset)ᶜ ⟨k, hk⟩ := by
      intro k hk
      rw [List.getD_eq_getElem _ _ (by simpa using hk), List.getElem_map, List.getElem_finRange,
        highVariance_distance pade hb hlen]
      rfl
    rw [hv i hi, hv j hj] at h
    have hpos : (0 : ℝ) < ((N - bad.length : ℕ) : ℝ) ^ 2 := by
      have : 0 < N - bad.length := by omega
      positivity
    exact le_of_mul_le_mul_left h hpos

lemma highVarianceLoop_spec (as : ArgSort) {N m : ℕ} (pade : Fin N → Fin m → ℂ) (k : ℕ) :
    ∀ (bad : List (Fin N)) (last : List ℕ), bad.Nodup → bad.length + k < N → Removed pade bad.toFinset →
      ∃ bad' : List (Fin N), bad'.Nodup ∧ bad'.length = bad.length + k ∧ Removed pade bad'.toFinset ∧
        highVarianceLoop as pade (k + 1) (N - bad.length) bad last
          = highVarianceOrder as pade bad' (N - bad'.length) := by
  induction k with
  | zero =>
    intro bad last hb hlen hR
    exact ⟨bad, hb, rfl, hR, rfl⟩
  | succ k ih =>
    intro bad last hb hlen hR
    obtain ⟨hperm, hsort⟩ := highVarianceOrder_sorted as pade hb (by omega)
    rw [highVarianceLoop]
    set badness := highVarianceOrder as pade bad (N - bad.length) with hbd
    -- the next bad index
    obtain ⟨i, hi⟩ : ∃ i, badness.find? (fun i => decide (i ∉ bad.map Fin.val)) = some i := by
      rw [← Option.isSome_iff_exists, List.find?_isSome]
      by_contra hcon
      push Not at hcon
      have hsub : (List.range N) ⊆ bad.map Fin.val := by
        intro j hj
        have := hcon j (hperm.mem_iff.2 hj)
        simpa using this
      have := (List.nodup_range.subperm hsub).length_le
      simp at this
      omega
    obtain ⟨hni, l1, l2, hl, hl1⟩ := List.find?_eq_some_iff_append.1 hi
    have hiN : i < N := by
      have : i ∈ badness := by rw [hl]; simp
      simpa using hperm.mem_iff.1 this
    have hni' : (⟨i, hiN⟩ : Fin N) ∉ bad := by
      intro h
      simp only [decide_eq_true_eq] at hni
      exact hni (List.mem_map.2 ⟨_, h, rfl⟩)
    rw [hi]
    simp only
    rw [dif_pos hiN]
    have hmax : ∀ j, j ∉ bad.toFinset → deviation pade (bad.toFinset)ᶜ j ≤ deviation pade (bad.toFinset)ᶜ ⟨i, hiN⟩ := by
      intro j hj
      rw [List.mem_toFinset] at hj
      have hjm : (j : ℕ) ∈ badness := hperm.mem_iff.2 (by simp)
      rw [hl, List.mem_append, List.mem_cons] at hjm
      rcases hjm with h | h | h
      · exfalso
        have := hl1 _ h
        simp only [decide_not, Bool.not_not, decide_eq_true_eq, List.mem_map] at this
        obtain ⟨j', h1, h2⟩ := this
        rw [Fin.ext h2] at h1
        exact hj h1
      · have : j = ⟨i, hiN⟩ := Fin.ext h
        rw [this]
      · rw [hl, List.pairwise_append, List.pairwise_cons] at hsort
        exact hsort.2.1.1 _ h hiN j.2
    obtain ⟨bad', h1, h2, h3, h4⟩ := ih (bad ++ [⟨i, hiN⟩]) badness (by
        rw [List.nodup_append]
        refine ⟨hb, by simp, ?_⟩
        intro a ha b hbb
        rw [List.mem_singleton] at hbb
        rintro rfl
        exact hni' (hbb ▸ ha))
      (by simp; omega) (by
        have : (bad ++ [(⟨i, hiN⟩ : Fin N)]).toFinset = insert ⟨i, hiN⟩ bad.toFinset := by
          ext j
          simp [or_comm]
        rw [this]
        exact Removed.step hR (by simpa using hni') hmax)
    refine ⟨bad', h1, by simp at h2; omega, h3, ?_⟩
    rw [← h4]
    congr 1
    simp
    omega

/-- C31: `FilterHighVariance`: `N - abs_num - 1` approximants are set aside one after the other, each time the
one which is farthest from the mean of the rest. With respect to the mean of the remaining ones, the kept approximants
are not farther away than the dropped ones. -/
theorem filter_high_variance_spec (as : ArgSort) {N m : ℕ} (pade : Fin N → Fin m → ℂ) {n : ℕ} (hn : 0 < n) (hN : n < N) :
    ∃ S : Finset (Fin N), Removed pade S ∧ S.card = N - n - 1 ∧
      ∀ i j : Fin N, (filterHighVariance as pade n).getD i false = true → (filterHighVariance as pade n).getD j false = false →
        deviation pade Sᶜ i ≤ deviation pade Sᶜ j := by
  obtain ⟨bad, hb, hlen, hR, hloop⟩ := highVarianceLoop_spec as pade (N - n - 1) [] [] (by simp)
    (by simp only [List.length_nil]; omega) Removed.empty
  rw [List.length_nil, zero_add] at hlen
  refine ⟨bad.toFinset, hR, by rw [List.toFinset_card_of_nodup hb, hlen], ?_⟩
  obtain ⟨hperm, hsort⟩ := highVarianceOrder_sorted as pade hb (by omega)
  rw [← hloop] at hperm hsort
  have hk : N - n - 1 + 1 = N - n := by omega
  rw [hk, List.length_nil, Nat.sub_zero] at hperm hsort
  intro i j hi hj
  unfold filterHighVariance at hi hj
  rw [if_neg (by omega)] at hi hj
  simp only at hi hj
  set b := highVarianceLoop as pade (N - n) N [] [] with hbdef
  have hblen : b.length = N := by rw [hperm.length_eq, List.length_range]
  rw [sliceNeg, if_neg (by omega), hblen, List.getD_eq_getElem _ _ (by simp), List.getElem_map, List.getElem_range,
    decide_eq_true_eq] at hi
  rw [sliceNeg, if_neg (by omega), hblen, List.getD_eq_getElem _ _ (by simp), List.getElem_map, List.getElem_range,
    decide_eq_false_iff_not, not_not] at hj
  have hib : (i : ℕ) ∈ b.drop (N - n) := by
    have : (i : ℕ) ∈ b := hperm.mem_iff.2 (by simp)
    rw [← List.take_append_drop (N - n) b, List.mem_append] at this
    exact this.resolve_left hi
  rw [← List.take_append_drop (N - n) b, List.pairwise_append] at hsort
  exact hsort.2.2 _ hj _ hib j.2 i.2

/-- C31: the deviations of the average are the unbiased standard deviations of real and imaginary part; a single
approximant has none. -/
theorem averager_std {n : ℕ} (x : Fin (n + 2) → ℂ) :
    (avgStat (List.ofFn x)).err = some (sampleStd fun i => (x i).re, sampleStd fun i => (x i).im) := by
  have key : ∀ y : Fin (n + 2) → ℝ, stdR (List.ofFn y) = some (sampleStd y) := by
    intro y
    unfold stdR sampleStd
    rw [if_neg (by simp)]
    simp only [List.length_ofFn, List.map_ofFn, List.sum_ofFn, Function.comp_apply]
    congr 3
    · push_cast; rfl
    · push_cast; ring
  unfold avgStat
  simp only [List.map_ofFn]
  rw [key, key]
  rfl

/-- C31: a single approximant has no deviation. -/
theorem averager_std_single (x : ℂ) : (avgStat [x]).x = some x ∧ (avgStat [x]).err = none := by
  simp [avgStat, meanC, stdR]

/-- Eight approximants at a single point. -/
def hvPoints : Fin 8 → ℤ × ℤ := ![(-9, 3), (12, 9), (11, 1), (-5, 7), (9, 5), (11, -2), (-1, -9), (-8, -3)]

noncomputable def hvPade (i : Fin 8) (_ : Fin 1) : ℂ := (hvPoints i).1 + (hvPoints i).2 * Complex.I

/-- Deviations times the squared number of approximants. -/
def hvDev (S : Finset (Fin 8)) (i : Fin 8) : ℤ :=
  (S.card * (hvPoints i).1 - ∑ j ∈ S, (hvPoints j).1) ^ 2 + (S.card * (hvPoints i).2 - ∑ j ∈ S, (hvPoints j).2) ^ 2

lemma hvDev_eq {S : Finset (Fin 8)} (hS : S.Nonempty) (i : Fin 8) :
    (hvDev S i : ℝ) = (S.card : ℝ) ^ 2 * deviation hvPade S i := by
  have hc : (S.card : ℂ) ≠ 0 := by exact_mod_cast hS.card_pos.ne'
  unfold deviation
  rw [Finset.univ_unique, Finset.sum_singleton]
  have h : (S.card : ℂ) * (hvPade i default - meanOf hvPade S default)
      = ((S.card * (hvPoints i).1 - ∑ j ∈ S, (hvPoints j).1 : ℤ) : ℝ)
        + ((S.card * (hvPoints i).2 - ∑ j ∈ S, (hvPoints j).2 : ℤ) : ℝ) * Complex.I := by
    unfold meanOf hvPade
    rw [mul_sub, mul_div_cancel₀ _ hc, Finset.sum_add_distrib, ← Finset.sum_mul]
    push_cast
    ring
  have h2 : (S.card : ℝ) ^ 2 * ‖hvPade i default - meanOf hvPade S default‖ ^ 2
      = ‖(S.card : ℂ) * (hvPade i default - meanOf hvPade S default)‖ ^ 2 := by
    rw [norm_mul, mul_pow, Complex.norm_natCast]
  rw [h2, h, ← Complex.normSq_eq_norm_sq, Complex.normSq_add_mul_I, hvDev]
  push_cast
  rfl

lemma hvDev_le {S : Finset (Fin 8)} (hS : S.Nonempty) (i j : Fin 8) :
    deviation hvPade S i ≤ deviation hvPade S j ↔ hvDev S i ≤ hvDev S j := by
  have hc : (0 : ℝ) < (S.card : ℝ) ^ 2 := by
    have := hS.card_pos
    positivity
  rw [← Int.cast_le (R := ℝ), hvDev_eq hS, hvDev_eq hS, mul_le_mul_iff_right₀ hc]

lemma hv_step {S T : Finset (Fin 8)} {i0 : Fin 8} (hS : ∀ S', Removed hvPade S' → S'.card = S.card → S' = S) (hne : Sᶜ.Nonempty)
    (hdec : ∀ i, i ∉ S → (∀ j, j ∉ S → hvDev Sᶜ j ≤ hvDev Sᶜ i) → i = i0) (hT : T = insert i0 S) (hcard : T.card = S.card + 1) :
    ∀ T', Removed hvPade T' → T'.card = T.card → T' = T := by
  intro T' hR hc
  cases hR with
  | empty => simp at hc; omega
  | step hR' hi hmax =>
    rename_i S' i
    rw [Finset.card_insert_of_notMem hi] at hc
    obtain rfl := hS _ hR' (by omega)
    rw [hdec i hi fun j hj => (hvDev_le hne _ _).1 (hmax j hj), hT]

/-- The approximants removed are determined. -/
lemma hv_removed : (∀ T, Removed hvPade T → T.card = 3 → T = {0, 1, 7}) ∧
    ∀ T, Removed hvPade T → T.card = 4 → T = {0, 1, 3, 7} := by
  have h0 : ∀ T, Removed hvPade T → T.card = (∅ : Finset (Fin 8)).card → T = ∅ := fun T _ h => by
    rwa [Finset.card_empty, Finset.card_eq_zero] at h
  have h1 := hv_step (T := {1}) (i0 := 1) h0 (by decide) (by decide +kernel) (by decide) (by decide)
  have h2 := hv_step (T := {0, 1}) (i0 := 0) h1 (by decide) (by decide +kernel) (by decide) (by decide)
  have h3 := hv_step (T := {0, 1, 7}) (i0 := 7) h2 (by decide) (by decide +kernel) (by decide) (by decide)
  have h4 := hv_step (T := {0, 1, 3, 7}) (i0 := 3) h3 (by decide) (by decide +kernel) (by decide) (by decide)
  exact ⟨h3, h4⟩

/-- C31, disagreement: `FilterHighVariance` does not remove the approximants that were found to be the worst ones
iteratively (the assertion which is commented out in the code fails): for the eight approximants `hvPade` (at a single
point) of which four are to be kept, one that was removed is kept in the end. -/
theorem filter_high_variance_not_iterative (as : ArgSort) (T : Finset (Fin 8)) (hT : Removed hvPade T) (hc : T.card = 4) :
    ∃ i ∈ T, (filterHighVariance as hvPade 4).getD i false = true := by
  obtain ⟨S, hS, hScard, hsep⟩ := filter_high_variance_spec as hvPade (n := 4) (by norm_num) (by norm_num)
  have hcount := filter_high_variance_count as hvPade 4 (by norm_num)
  have hlen : (filterHighVariance as hvPade 4).length = 8 := by
    unfold filterHighVariance
    rw [if_neg (by norm_num)]
    simp
  obtain rfl := hv_removed.1 S hS hScard
  obtain rfl := hv_removed.2 T hT hc
  refine ⟨1, by decide, ?_⟩
  by_contra hcon
  rw [Bool.not_eq_true] at hcon
  have hk : ∀ i, ¬ hvDev ({0, 1, 7} : Finset (Fin 8))ᶜ i ≤ hvDev ({0, 1, 7} : Finset (Fin 8))ᶜ 1 →
      (filterHighVariance as hvPade 4).getD (i : Fin 8) false = false := by
    intro i hi
    by_contra h
    rw [Bool.not_eq_false] at h
    exact hi ((hvDev_le (by decide) _ _).1 (hsep i 1 h hcon))
  have k0 := hk 0 (by decide +kernel)
  have k3 := hk 3 (by decide +kernel)
  have k6 := hk 6 (by decide +kernel)
  have k7 := hk 7 (by decide +kernel)
  generalize filterHighVariance as hvPade 4 = v at hlen hcount hcon k0 k3 k6 k7
  match v, hlen with
  | [v0, v1, v2, v3, v4, v5, v6, v7], _ =>
    simp at hcon k0 k3 k6 k7
    subst hcon k0 k3 k6 k7
    revert hcount
    revert v2 v4 v5
    decide

end Gftool.Props
