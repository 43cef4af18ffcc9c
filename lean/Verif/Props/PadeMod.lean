import Verif.Model.PadeMod
import Verif.Props.Pade

/-!
# C63, C31: masked coefficients and averages of modified approximants
-/

namespace Gftool.Props

open Gftool.Model Gftool.Lemmas

/-! ## C63: ignoring extreme values -/

private lemma maskRun_mask_later (z f : ℕ → ℂ) (n i : ℕ) (h : n < i) :
    (maskRun z f n).mask i = true := by
  induction n with
  | zero => rfl
  | succ n ih =>
    have := ih (by omega)
    simp only [maskRun, maskStep]
    split_ifs
    · exact this
    · simp only
      rw [Function.update_of_ne (by omega)]
      exact this

private lemma maskRun_mask_stable (z f : ℕ → ℂ) (n m i : ℕ) (h : i ≤ n) :
    (maskRun z f (n + m)).mask i = (maskRun z f n).mask i := by
  induction m with
  | zero => rfl
  | succ m ih =>
    rw [← ih, ← add_assoc]
    simp only [maskRun, maskStep]
    split_ifs
    · rfl
    · simp only
      rw [Function.update_of_ne (by omega)]

private lemma maskRun_diag_stable (z f : ℕ → ℂ) (n m i : ℕ) (h : i ≤ n) :
    (maskRun z f (n + m)).diag i = (maskRun z f n).diag i := by
  induction m with
  | zero => rfl
  | succ m ih =>
    rw [← ih, ← add_assoc]
    simp only [maskRun, maskStep]
    split_ifs
    · simp only
      rw [Function.update_of_ne (by omega)]
    · rfl

private lemma maskRun_diag_later (z f : ℕ → ℂ) (n i : ℕ) (h : n < i) :
    (maskRun z f n).diag i = 0 := by
  induction n with
  | zero =>
    simp only [maskRun, maskInit]
    rw [if_neg (by omega)]
  | succ n ih =>
    have := ih (by omega)
    simp only [maskRun, maskStep]
    split_ifs
    · simp only
      rw [Function.update_of_ne (by omega)]
      exact this
    · exact this

/-- The step `n + 1` is regular iff the mask says so. -/
private lemma maskRun_mask_succ (z f : ℕ → ℂ) (n : ℕ) :
    (maskRun z f (n + 1)).mask (n + 1)
      = (signiDiff (maskRun z f n).last ((maskRun z f n).row (n + 1))
        && comparableMag (maskRun z f n).last ((maskRun z f n).row (n + 1))) := by
  have := maskRun_mask_later z f n (n + 1) (by omega)
  simp only [maskRun, maskStep]
  split_ifs with h
  · rw [h]; exact this
  · simp only [Function.update_self]
    simpa using h

private lemma masked_some {N : ℕ} {z f a : ℕ → ℂ} (ha : maskedCoefficients N z f = .ok (some a)) :
    Set.InjOn z (Set.Iio N) ∧ a = (maskRun z f (N - 1)).diag := by
  unfold maskedCoefficients at ha
  by_cases h1 : ¬ ‖f 0‖ > maskCutoff
  · rw [if_pos h1] at ha
    exact absurd ha (by simp)
  rw [if_neg h1] at ha
  by_cases h2 : Set.InjOn z (Set.Iio N)
  · rw [if_pos h2] at ha
    exact ⟨h2, (Option.some.inj (Except.ok.inj ha)).symm⟩
  · rw [if_neg h2] at ha
    exact absurd ha (by simp)

/-- C63: the coefficient of an eliminated point is zero. -/
theorem masked_coefficients_eliminated (z f : ℕ → ℂ) (N i : ℕ) (hi : i < N) {a : ℕ → ℂ}
    (ha : maskedCoefficients N z f = .ok (some a))
    (hmask : (maskRun z f (N - 1)).mask i = false) : a i = 0 := by
  obtain ⟨-, rfl⟩ := masked_some ha
  obtain ⟨m, hm⟩ : ∃ m, N - 1 = i + m := ⟨N - 1 - i, by omega⟩
  rw [hm] at hmask ⊢
  rw [maskRun_mask_stable z f i m i le_rfl] at hmask
  rw [maskRun_diag_stable z f i m i le_rfl]
  cases i with
  | zero => simp [maskRun, maskInit] at hmask
  | succ i =>
    rw [maskRun_mask_succ] at hmask
    simp only [maskRun, maskStep]
    rw [if_neg (by rw [hmask]; simp)]
    exact maskRun_diag_later z f i (i + 1) (by omega)

/-- C63: the assertion of `masked_coefficients`. -/
theorem masked_coefficients_error_iff (N : ℕ) (z f : ℕ → ℂ) :
    (∃ e, maskedCoefficients N z f = .error e) ↔ ‖f 0‖ ≤ 1e-4 := by
  unfold maskedCoefficients maskCutoff
  by_cases h1 : ‖f 0‖ > 1e-4
  · rw [if_neg (not_not.2 h1)]
    constructor
    · rintro ⟨e, h⟩
      split_ifs at h
    · exact fun h => absurd h (not_le.2 h1)
  · rw [if_pos h1]
    exact ⟨fun _ => not_lt.1 h1, fun _ => ⟨_, rfl⟩⟩

private lemma kept_state (z f : ℕ → ℂ) (N M : ℕ) (k : ℕ → ℕ) (hk0 : k 0 = 0) (hk : StrictMono k)
    (hkN : ∀ m ≤ M, k m < N)
    (hmask : ∀ i < N, (maskRun z f (N - 1)).mask i = true ↔ ∃ m ≤ M, i = k m)
    (hcmp : ∀ i m, i < m → m ≤ M →
      comparableMag (coefRes (z ∘ k) (f ∘ k) i i) (some (coefRes (z ∘ k) (f ∘ k) i m)))
    (n : ℕ) (hn : n < N) :
    ∃ m ≤ M, k m ≤ n ∧ (∀ m' ≤ M, k m' ≤ n → m' ≤ m) ∧
      (maskRun z f n).lastIt = k m ∧ (maskRun z f n).last = coefRes (z ∘ k) (f ∘ k) m m ∧
      (∀ j, m < j → j ≤ M → (maskRun z f n).row (k j) = some (coefRes (z ∘ k) (f ∘ k) m j)) ∧
      ∀ m' ≤ m, (maskRun z f n).diag (k m') = coefRes (z ∘ k) (f ∘ k) m' m' := by
  induction n with
  | zero =>
    refine ⟨0, Nat.zero_le _, hk0.le, fun m' _ h => ?_, ?_, ?_, ?_, ?_⟩
    · have := hk.le_apply (x := m'); omega
    · simp [maskRun, maskInit, hk0]
    · simp [maskRun, maskInit, coefRes, hk0]
    · intro j _ _; simp [maskRun, maskInit, coefRes]
    · intro m' hm'
      obtain rfl : m' = 0 := by omega
      simp [maskRun, maskInit, coefRes, hk0]
  | succ n ih =>
    obtain ⟨m, hmM, hkm, hmax, hlast, hcoef, hrow, hdiag⟩ := ih (by omega)
    have hdec := hmask (n + 1) hn
    obtain ⟨d, hd⟩ : ∃ d, N - 1 = (n + 1) + d := ⟨N - 1 - (n + 1), by omega⟩
    rw [hd, maskRun_mask_stable z f (n + 1) d (n + 1) le_rfl, maskRun_mask_succ] at hdec
    by_cases hreg : ∃ m' ≤ M, n + 1 = k m'
    · obtain ⟨m', hm', hkm'⟩ := hreg
      have hmm' : m' = m + 1 := by
        have h1 : m < m' := hk.lt_iff_lt.1 (by omega)
        by_contra hne
        have h2 : m + 1 < m' := by omega
        have h3 := hk h2
        have := hmax (m + 1) (by omega) (by omega)
        omega
      subst hmm'
      have hc := hdec.2 ⟨_, hm', hkm'⟩
      have hstep : maskRun z f (n + 1) = maskStep z (maskRun z f n) (n + 1) := rfl
      have hr : (maskRun z f n).row (n + 1) = some (coefRes (z ∘ k) (f ∘ k) m (m + 1)) := by
        rw [hkm']; exact hrow _ (by omega) hm'
      have hnew : ((maskRun z f n).last / ((maskRun z f n).row (n + 1)).getD 0 - 1)
          / (z (n + 1) - z (maskRun z f n).lastIt) = coefRes (z ∘ k) (f ∘ k) (m + 1) (m + 1) := by
        rw [hr, hcoef, hlast, hkm', coefRes, if_pos (by omega)]
        rfl
      have hs : maskRun z f (n + 1) = _ := hstep.trans (by unfold maskStep; rw [if_pos hc])
      rw [hs]
      simp only
      rw [hnew]
      refine ⟨m + 1, hm', by omega, fun m'' _ h => ?_, hkm', rfl, fun j hj hjM => ?_,
        fun m'' hm'' => ?_⟩
      · exact hk.le_iff_le.1 (by omega)
      · have hkj : n + 1 < k j := by rw [hkm']; exact hk hj
        rw [if_neg (by omega), if_neg (by omega), hrow j (by omega) hjM, hcoef, hlast]
        simp only [maskedEntry]
        rw [if_pos (hcmp m j (by omega) hjM), coefRes, if_pos (by omega)]
        rfl
      · rcases Nat.lt_or_ge m'' (m + 1) with h | h
        · rw [Function.update_of_ne]
          · exact hdiag m'' (by omega)
          · have := hk h; omega
        · obtain rfl : m'' = m + 1 := by omega
          rw [← hkm', Function.update_self]
    · have hc : ¬ _ := fun h => hreg (hdec.1 h)
      have hs : maskRun z f (n + 1) = _ :=
        (rfl : _ = maskStep z (maskRun z f n) (n + 1)).trans (by unfold maskStep; rw [if_neg hc])
      rw [hs]
      refine ⟨m, hmM, by omega, fun m' hm' h => hmax m' hm' ?_, hlast, hcoef, hrow, hdiag⟩
      by_contra hlt
      exact hreg ⟨m', hm', by omega⟩

/-- C63: if `k 0 < k 1 < … < k M` are the points that are kept, and the magnitudes occurring for
them are comparable, the coefficients at these points are exactly those `coefficients` calculates
from the kept points and values alone: the eliminated values have no influence. -/
theorem masked_coefficients_kept (z f : ℕ → ℂ) (N M : ℕ) (k : ℕ → ℕ) (hk0 : k 0 = 0)
    (hk : StrictMono k) (hkN : ∀ m ≤ M, k m < N) {a : ℕ → ℂ}
    (ha : maskedCoefficients N z f = .ok (some a))
    (hmask : ∀ i < N, (maskRun z f (N - 1)).mask i = true ↔ ∃ m ≤ M, i = k m)
    (hcmp : ∀ i m, i < m → m ≤ M →
      comparableMag (coefRes (z ∘ k) (f ∘ k) i i) (some (coefRes (z ∘ k) (f ∘ k) i m))) :
    ∃ b, coefficients (M + 1) (M + 1) (z ∘ k) (f ∘ k) = .ok (some b) ∧ ∀ m ≤ M, a (k m) = b m := by
  obtain ⟨h2, rfl⟩ := masked_some ha
  have hpos : 0 < N := lt_of_le_of_lt (Nat.zero_le _) (hkN 0 (Nat.zero_le _))
  have hreg : CoefRegular (z ∘ k) (f ∘ k) (M + 1) := by
    intro i j hij hj
    have hc := hcmp i j hij (by omega)
    simp only [comparableMag, decide_eq_true_eq] at hc
    refine ⟨?_, sub_ne_zero.2 fun h => ?_⟩
    · intro h0
      rw [h0, norm_zero] at hc
      have : 0 ≤ ‖coefRes (z ∘ k) (f ∘ k) i i‖ * maskCutoff :=
        mul_nonneg (norm_nonneg _) (by norm_num [maskCutoff])
      linarith [hc.2]
    · have := h2 (hkN j (by omega)) (hkN i (by omega)) h
      exact absurd (hk.injective this) (by omega)
  refine ⟨_, by unfold coefficients; rw [if_neg (by simp), if_pos hreg], fun m hm => ?_⟩
  obtain ⟨m0, hm0M, -, hmax, -, -, -, hdiag⟩ :=
    kept_state z f N M k hk0 hk hkN hmask hcmp (N - 1) (by omega)
  have : m ≤ m0 := hmax m hm (by have := hkN m hm; omega)
  rw [hdiag m this]
  obtain ⟨d, hd⟩ : ∃ d, M + 1 - 1 = m + d := ⟨M - m, by omega⟩
  rw [hd, coefRes_stable]

/-- C63: if nothing is eliminated and all magnitudes are comparable, `masked_coefficients` and
`coefficients` agree. -/
theorem masked_coefficients_regular (z f : ℕ → ℂ) (N : ℕ) (hN : 0 < N) {a : ℕ → ℂ}
    (ha : maskedCoefficients N z f = .ok (some a))
    (hmask : ∀ i < N, (maskRun z f (N - 1)).mask i = true)
    (hcmp : ∀ i j, i < j → j < N → comparableMag (coefRes z f i i) (some (coefRes z f i j))) :
    ∃ b, coefficients N N z f = .ok (some b) ∧ ∀ i < N, a i = b i := by
  obtain ⟨b, hb, hab⟩ := masked_coefficients_kept z f N (N - 1) id rfl strictMono_id
    (fun m hm => by simp only [id]; omega) ha
    (fun i hi => ⟨fun _ => ⟨i, by omega, rfl⟩, fun _ => hmask i hi⟩)
    (fun i m h1 h2 => hcmp i m h1 (by omega))
  rw [show N - 1 + 1 = N by omega] at hb
  exact ⟨b, hb, fun i hi => hab i (by omega)⟩

/-- C63: the kept coefficients together with the kept points give an approximant that reproduces the
kept values. -/
theorem masked_coefficients_interpolates (z f : ℕ → ℂ) (N M : ℕ) (k : ℕ → ℕ) (hk0 : k 0 = 0)
    (hk : StrictMono k) (hkN : ∀ m ≤ M + 1, k m < N) {a : ℕ → ℂ}
    (ha : maskedCoefficients N z f = .ok (some a))
    (hmask : ∀ i < N, (maskRun z f (N - 1)).mask i = true ↔ ∃ m ≤ M + 1, i = k m)
    (hcmp : ∀ i m, i < m → m ≤ M + 1 →
      comparableMag (coefRes (z ∘ k) (f ∘ k) i i) (some (coefRes (z ∘ k) (f ∘ k) i m)))
    (j : ℕ) (hj : j ≤ M + 1) (hreg : EvalRegular (z (k j)) (z ∘ k) (a ∘ k) (M + 1)) :
    ∃ l, calcIterator (z (k j)) (M + 2) (M + 2) (z ∘ k) (a ∘ k) = .ok l ∧
      l[M]? = some (f (k j)) := by
  obtain ⟨b, hb, hab⟩ := masked_coefficients_kept z f N (M + 1) k hk0 hk hkN ha hmask hcmp
  have hstate : ∀ n ≤ M + 1, padeState (z (k j)) (z ∘ k) (a ∘ k) n
      = padeState (z (k j)) (z ∘ k) b n := by
    intro n
    induction n with
    | zero => intro _; simp [padeState, hab 0 (by omega)]
    | succ n ih =>
      intro hn
      simp only [padeState]
      rw [ih (by omega), Function.comp_apply (f := a), hab (n + 1) hn]
  obtain ⟨l, hl, hlM⟩ := pade_interpolates (z ∘ k) (f ∘ k) (M + 2) hb M j le_rfl (by omega)
    (fun n hn => by rw [Function.comp_apply, ← hstate n hn]; exact hreg n hn)
  refine ⟨l, ?_, hlM⟩
  rw [← hl]
  unfold calcIterator
  rw [if_neg (by simp), if_neg (by simp)]
  congr 1
  refine List.map_congr_left fun n hn => ?_
  rw [Function.comp_apply, hstate (n + 1) (by have := List.mem_range.1 hn; omega)]

/-- C63: a value that is huge compared to the last kept coefficient is treated as infinite, which
changes its entry of the scheme at most by the cutoff `1e-4` (relative to the distance of the
points); a value is only given up (infinite entry) if the quotient is huge. -/
theorem masked_entry_error (last zLast zj e : ℂ) :
    (∀ x, maskedEntry last zLast zj (some e) = some x →
      ‖x - (last / e - 1) / (zj - zLast)‖ ≤ 1e-4 / ‖zj - zLast‖) ∧
    (maskedEntry last zLast zj (some e) = none → ‖e‖ ≤ ‖last‖ * 1e-4 ∨ ‖e‖ = ‖last‖ / 1e-4) ∧
    maskedEntry last zLast zj none = some ((0 - 1) / (zj - zLast)) := by
  refine ⟨fun x hx => ?_, fun h => ?_, by simp [maskedEntry]⟩
  · simp only [maskedEntry] at hx
    split_ifs at hx with h1 h2
    · rw [← Option.some.inj hx, sub_self, norm_zero]
      positivity
    · rw [← Option.some.inj hx]
      have he : 0 < ‖e‖ := by
        by_contra h3
        have h4 : ‖e‖ = 0 := le_antisymm (not_lt.1 h3) (norm_nonneg e)
        rw [h4, zero_mul] at h2
        exact absurd h2 (not_lt.2 (norm_nonneg _))
      have h5 : -1 / (zj - zLast) - (last / e - 1) / (zj - zLast) = -(last / e) / (zj - zLast) := by
        rw [← sub_div]
        congr 1
        ring
      rw [h5, norm_div, norm_neg, norm_div]
      refine div_le_div_of_nonneg_right ?_ (norm_nonneg _)
      rw [div_le_iff₀ he]
      unfold maskCutoff at h2
      linarith
  · simp only [maskedEntry] at h
    split_ifs at h with h1 h2
    simp only [comparableMag, decide_eq_true_eq, not_and_or, not_lt, gt_iff_lt] at h1
    unfold maskCutoff at h1 h2
    rcases h1 with h1 | h1
    · right
      refine le_antisymm ?_ h1
      rw [le_div_iff₀ (by norm_num)]
      exact not_lt.1 h2
    · left
      exact h1

private lemma maskRun_kept (z f : ℕ → ℂ) (n : ℕ)
    (h : (signiDiff (maskRun z f n).last ((maskRun z f n).row (n + 1))
      && comparableMag (maskRun z f n).last ((maskRun z f n).row (n + 1))) = true) :
    (maskRun z f (n + 1)).lastIt = n + 1 ∧
    (maskRun z f (n + 1)).last = ((maskRun z f n).last / ((maskRun z f n).row (n + 1)).getD 0 - 1)
      / (z (n + 1) - z (maskRun z f n).lastIt) ∧
    (∀ j, n + 1 < j → (maskRun z f (n + 1)).row j
      = maskedEntry (maskRun z f n).last (z (maskRun z f n).lastIt) (z j) ((maskRun z f n).row j)) ∧
    (maskRun z f (n + 1)).diag = Function.update (maskRun z f n).diag (n + 1)
      (maskRun z f (n + 1)).last := by
  simp only [maskRun, maskStep]
  rw [if_pos h]
  refine ⟨rfl, rfl, fun j hj => ?_, rfl⟩
  simp only
  rw [if_neg (by omega), if_neg (by omega)]

/-- C63: if a third value is huge compared to the first, the continued fraction
`f₀ / (1 + a₁ (z - z₀) / (1 + a₂ (z - z₁)))` has its pole at this point. -/
theorem masked_coefficients_huge_value (z f : ℕ → ℂ) {a : ℕ → ℂ}
    (ha : maskedCoefficients 3 z f = .ok (some a)) (hhuge : ‖f 0‖ < ‖f 2‖ * 1e-4)
    (hm1 : (maskRun z f 2).mask 1 = true) (hm2 : (maskRun z f 2).mask 2 = true) :
    a 0 = f 0 ∧ (1 + a 2 * (z 2 - z 1)) + a 1 * (z 2 - z 0) = 0 := by
  obtain ⟨hinj, rfl⟩ := masked_some ha
  have h20 : z 2 - z 0 ≠ 0 := sub_ne_zero.2 fun h => by
    have := hinj (by simp) (by simp) h
    omega
  have h21 : z 2 - z 1 ≠ 0 := sub_ne_zero.2 fun h => by
    have := hinj (by simp) (by simp) h
    omega
  rw [show (2 : ℕ) = 1 + 1 from rfl, maskRun_mask_stable z f 1 1 1 le_rfl,
    show maskRun z f 1 = maskRun z f (0 + 1) from rfl, maskRun_mask_succ] at hm1
  rw [show maskRun z f 2 = maskRun z f (1 + 1) from rfl, maskRun_mask_succ] at hm2
  obtain ⟨hl1, -, hr1, hd1⟩ := maskRun_kept z f 0 hm1
  obtain ⟨-, hc2, -, hd2⟩ := maskRun_kept z f 1 hm2
  have hnc : ¬ comparableMag (f 0) (some (f 2)) = true := by
    simp only [comparableMag, decide_eq_true_eq, not_and_or, not_lt, gt_iff_lt]
    left
    unfold maskCutoff
    rw [div_le_iff₀ (by norm_num)]
    exact hhuge.le
  have hrow2 : (maskRun z f 1).row 2 = some (-1 / (z 2 - z 0)) := by
    have hent : maskedEntry (f 0) (z 0) (z 2) (some (f 2)) = some (-1 / (z 2 - z 0)) := by
      simp only [maskedEntry]
      rw [if_neg hnc, if_pos (by unfold maskCutoff; exact hhuge)]
    rw [hr1 2 (by omega)]
    exact hent
  simp only [zero_add, Nat.reduceAdd] at hl1 hd1 hc2 hd2 
  simp only [show 3 - 1 = 2 from rfl]
  rw [hd2, hd1, Function.update_self, Function.update_of_ne (by omega),
    Function.update_of_ne (by omega), Function.update_of_ne (by omega), Function.update_self, hc2,
    hrow2, hl1, Option.getD_some]
  refine ⟨by simp [maskRun, maskInit], ?_⟩
  field_simp
  ring

/-- The hypotheses are met: a third value that is huge, none of the points is eliminated. -/
example : ∃ (z f a : ℕ → ℂ), maskedCoefficients 3 z f = .ok (some a) ∧ ‖f 0‖ < ‖f 2‖ * 1e-4 ∧
    (maskRun z f 2).mask 1 = true ∧ (maskRun z f 2).mask 2 = true := by
  set z : ℕ → ℂ := fun n => (n : ℂ) with hz
  set f : ℕ → ℂ := fun n => if n = 0 then 1 else if n = 1 then 3 else 20000 with hf
  have h1 : (signiDiff (maskRun z f 0).last ((maskRun z f 0).row (0 + 1))
      && comparableMag (maskRun z f 0).last ((maskRun z f 0).row (0 + 1))) = true := by
    have : ‖(1 : ℂ) - 3‖ = 2 := by norm_num
    simp [maskRun, maskInit, signiDiff, comparableMag, maskCutoff, hf, this]
    norm_num
  obtain ⟨hl1, hc1, hr1, -⟩ := maskRun_kept z f 0 h1
  have hc1' : (maskRun z f 1).last = -2 / 3 := by
    refine hc1.trans ?_
    simp [maskRun, maskInit, hf, hz]
    norm_num
  have hr1' : (maskRun z f 1).row 2 = some (-1 / 2) := by
    refine (hr1 2 (by omega)).trans ?_
    have hent : maskedEntry (f 0) (z 0) (z 2) (some (f 2)) = some (-1 / 2) := by
      simp [maskedEntry, comparableMag, maskCutoff, hf, hz]
      norm_num
    exact hent
  have h2 : (signiDiff (maskRun z f 1).last ((maskRun z f 1).row (1 + 1))
      && comparableMag (maskRun z f 1).last ((maskRun z f 1).row (1 + 1))) = true := by
    rw [hc1', hr1']
    have e1 : ‖(-2 / 3 : ℂ) - -1 / 2‖ = 1 / 6 := by
      rw [show (-2 / 3 : ℂ) - -1 / 2 = ((-1 / 6 : ℝ) : ℂ) by push_cast; ring, Complex.norm_real]
      norm_num
    have e2 : ‖(-2 / 3 : ℂ)‖ = 2 / 3 := by
      rw [show (-2 / 3 : ℂ) = ((-2 / 3 : ℝ) : ℂ) by push_cast; ring, Complex.norm_real]
      norm_num
    have e3 : ‖(-1 / 2 : ℂ)‖ = 1 / 2 := by
      rw [show (-1 / 2 : ℂ) = ((-1 / 2 : ℝ) : ℂ) by push_cast; ring, Complex.norm_real]
      norm_num
    simp only [signiDiff, comparableMag, e1, e2, e3, maskCutoff]
    norm_num
  refine ⟨z, f, (maskRun z f (3 - 1)).diag, ?_, by norm_num [hf], ?_, ?_⟩
  · unfold maskedCoefficients
    rw [if_neg (by norm_num [hf, maskCutoff]), if_pos]
    intro i _ j _ h
    simpa [hz] using h
  · rw [show maskRun z f 2 = maskRun z f (1 + 1) from rfl, maskRun_mask_stable z f 1 1 1 le_rfl,
      show maskRun z f 1 = maskRun z f (0 + 1) from rfl, maskRun_mask_succ]
    exact h1
  · rw [show maskRun z f 2 = maskRun z f (1 + 1) from rfl, maskRun_mask_succ]
    exact h2

/-- C63: a zero coefficient ends the continued fraction: all approximants with more coefficients
equal the one without it. -/
theorem calc_iterator_zero_coeff (w : ℂ) (zin a : ℕ → ℂ) (i : ℕ) (hi : a (i + 1) = 0) (n : ℕ)
    (hn : i ≤ n) (hreg : EvalRegular w zin a n) :
    (padeState w zin a n).pade = (padeState w zin a i).pade := by
  have key : ∀ d, i + 1 + d ≤ n → (padeState w zin a (i + 1 + d)).pade = (padeState w zin a i).pade ∧
      (padeState w zin a (i + 1 + d)).padePrev = (padeState w zin a i).pade := by
    intro d
    induction d with
    | zero =>
      intro _
      simp [padeState, hi]
    | succ d ih =>
      intro hd
      obtain ⟨h1, h2⟩ := ih (by omega)
      have hb := hreg (i + 1 + (d + 1)) hd
      rw [← add_assoc] at hb ⊢
      simp only [padeState] at hb ⊢
      rw [h1, h2]
      refine ⟨?_, rfl⟩
      rw [div_eq_iff hb]
      ring
  rcases Nat.eq_or_lt_of_le hn with h | h
  · rw [h]
  · have := (key (n - (i + 1)) (by omega)).1
    rwa [show i + 1 + (n - (i + 1)) = n by omega] at this

/-- C63, disagreement: used the way the result of `coefficients` is used, the coefficients of
`masked_coefficients` do not ignore just the eliminated value but all values after it: no
approximant depends on the data behind the first eliminated point. -/
theorem masked_coefficients_truncates (z f g : ℕ → ℂ) (N i : ℕ) (hi : i + 1 < N) {a b : ℕ → ℂ}
    (ha : maskedCoefficients N z f = .ok (some a)) (hb : maskedCoefficients N z g = .ok (some b))
    (hfg : ∀ j ≤ i + 1, f j = g j)
    (hmask : (maskRun z f (N - 1)).mask (i + 1) = false) (w : ℂ) (n : ℕ) (hin : i ≤ n)
    (hrega : EvalRegular w z a n) (hregb : EvalRegular w z b n) :
    (padeState w z a n).pade = (padeState w z b n).pade := by
  -- the state up to `i + 1` only depends on the first values
  have hrun : ∀ n ≤ i + 1, (maskRun z f n).lastIt = (maskRun z g n).lastIt ∧
      (maskRun z f n).last = (maskRun z g n).last ∧
      (∀ j ≤ i + 1, (maskRun z f n).row j = (maskRun z g n).row j) ∧
      (maskRun z f n).diag = (maskRun z g n).diag ∧
      (maskRun z f n).mask = (maskRun z g n).mask := by
    intro n
    induction n with
    | zero =>
      intro _
      have h0 := hfg 0 (by omega)
      refine ⟨rfl, h0, fun j hj => ?_, ?_, rfl⟩
      · simp only [maskRun, maskInit, hfg j hj]
      · simp only [maskRun, maskInit, h0]
    | succ n ih =>
      intro hn
      obtain ⟨h1, h2, h3, h4, h5⟩ := ih (by omega)
      simp only [maskRun, maskStep]
      rw [h2, h3 (n + 1) hn, h1, h4, h5]
      split_ifs
      · refine ⟨rfl, rfl, fun j hj => ?_, rfl, rfl⟩
        simp only
        rw [h3 j hj]
      · exact ⟨rfl, rfl, h3, rfl, rfl⟩
  have hN : N - 1 = (i + 1) + (N - 1 - (i + 1)) := by omega
  have hmask' : (maskRun z g (N - 1)).mask (i + 1) = false := by
    rw [hN, maskRun_mask_stable _ _ _ _ _ le_rfl] at hmask ⊢
    rw [← (hrun (i + 1) le_rfl).2.2.2.2]
    exact hmask
  have ha0 := masked_coefficients_eliminated z f N (i + 1) hi ha hmask
  have hb0 := masked_coefficients_eliminated z g N (i + 1) hi hb hmask'
  rw [calc_iterator_zero_coeff w z a i ha0 n hin hrega,
    calc_iterator_zero_coeff w z b i hb0 n hin hregb]
  have hab : ∀ j ≤ i + 1, a j = b j := by
    obtain ⟨-, rfl⟩ := masked_some ha
    obtain ⟨-, rfl⟩ := masked_some hb
    intro j hj
    rw [hN, maskRun_diag_stable _ _ _ _ _ hj, maskRun_diag_stable _ _ _ _ _ hj,
      (hrun (i + 1) le_rfl).2.2.2.1]
  have : ∀ n ≤ i, padeState w z a n = padeState w z b n := by
    intro n
    induction n with
    | zero => intro _; simp [padeState, hab 0 (by omega)]
    | succ n ih =>
      intro hn
      simp only [padeState]
      rw [ih (by omega), hab (n + 1) (by omega)]
  rw [this i le_rfl]

/-- C63, disagreement: the values `1, 1, 2` at the points `0, 1, 2`. The second value is eliminated
as it equals the first one, the first and last are kept; but the approximant from all coefficients
is the constant `1`, also at the kept point `2`. The hypotheses of `masked_coefficients_kept` and
`masked_coefficients_interpolates` hold for these data (with `k m = 2 m`). -/
theorem masked_coefficients_wrong :
    ∃ z f a : ℕ → ℂ, maskedCoefficients 3 z f = .ok (some a) ∧
      (∀ i < 3, (maskRun z f 2).mask i = true ↔ i = 0 ∨ i = 2) ∧
      (∀ i m, i < m → m ≤ 1 → comparableMag (coefRes (z ∘ (2 * ·)) (f ∘ (2 * ·)) i i)
        (some (coefRes (z ∘ (2 * ·)) (f ∘ (2 * ·)) i m))) ∧
      EvalRegular (z 2) (z ∘ (2 * ·)) (a ∘ (2 * ·)) 1 ∧ EvalRegular (z 2) z a 2 ∧
      ∃ l, calcIterator (z 2) 3 3 z a = .ok l ∧ l[1]? = some 1 ∧ f 2 = 2 := by
  set z : ℕ → ℂ := fun k => k with hz
  set f : ℕ → ℂ := fun k => if k = 2 then 2 else 1 with hf
  have h1 : maskRun z f 1 = { maskInit f with mask := Function.update (fun _ => true) 1 false } := by
    have hc : ¬ (signiDiff (maskRun z f 0).last ((maskRun z f 0).row 1)
        && comparableMag (maskRun z f 0).last ((maskRun z f 0).row 1)) = true := by
      have : signiDiff (maskRun z f 0).last ((maskRun z f 0).row 1) = false := by
        simp only [maskRun, maskInit, hf, signiDiff, maskCutoff]
        norm_num
      rw [this]
      simp
    have : maskRun z f 1 = maskStep z (maskRun z f 0) 1 := rfl
    rw [this]
    unfold maskStep
    rw [if_neg hc]
    rfl
  have h2 : (signiDiff (maskRun z f 1).last ((maskRun z f 1).row 2)
      && comparableMag (maskRun z f 1).last ((maskRun z f 1).row 2)) = true := by
    rw [h1]
    simp only [maskInit, hf, signiDiff, comparableMag, maskCutoff]
    norm_num
  have h3 : (maskRun z f 2).diag = Function.update (maskInit f).diag 2 (-1 / 4) := by
    have : maskRun z f 2 = maskStep z (maskRun z f 1) 2 := rfl
    rw [this]
    unfold maskStep
    rw [if_pos h2]
    simp only [h1]
    congr 1
    simp only [maskInit, hf, hz]
    norm_num
  have h4 : (maskRun z f 2).mask = Function.update (fun _ => true) 1 false := by
    have : maskRun z f 2 = maskStep z (maskRun z f 1) 2 := rfl
    rw [this]
    unfold maskStep
    rw [if_pos h2]
    simp only [h1]
  refine ⟨z, f, (maskRun z f 2).diag, ?_, ?_, ?_, ?_, ?_, ?_⟩
  · unfold maskedCoefficients
    have hf0 : ‖f 0‖ > maskCutoff := by simp [hf, maskCutoff]; norm_num
    have hinj : Set.InjOn z (Set.Iio 3) := fun x _ y _ h => by simpa [hz] using h
    rw [if_neg (not_not.2 hf0), if_pos hinj]
  · intro i hi
    rw [h4]
    interval_cases i <;> simp
  · intro i m h1 h2
    obtain rfl : m = 1 := by omega
    obtain rfl : i = 0 := by omega
    simp only [comparableMag, coefRes, Function.comp_apply, hf, maskCutoff]
    norm_num
  · intro k hk
    rw [h3]
    interval_cases k <;> simp [padeState, hz] <;> norm_num
  · intro k hk
    rw [h3]
    interval_cases k <;> simp [padeState, maskInit, hz] <;> norm_num
  · refine ⟨_, by unfold calcIterator; rw [if_neg (by simp)], ?_, by simp [hf]⟩
    rw [h3]
    simp [padeState, maskInit, hf, hz]
    try norm_num

/-! ## C31: averages of modified approximants -/

/-- C31: without modification, `Mod_Averager` is `Averager`. -/
theorem mod_averager_id (kind : KindSelector) (valid : List Bool) (z : ℂ) (pades : List ℂ) :
    modAverager kind (.vectorized fun _ l => l) valid z pades = averager kind valid pades ∧
    modAverager kind (.single fun _ p => p) valid z pades = averager kind valid pades := by
  unfold modAverager averager
  simp [ModFct.apply]

/-- C31: for a function that acts on every approximant on its own, `vectorized` makes no
difference. -/
theorem mod_averager_vectorized (kind : KindSelector) (valid : List Bool) (z : ℂ) (pades : List ℂ)
    (fct : ℂ → ℂ → ℂ) :
    modAverager kind (.vectorized fun z l => l.map (fct z)) valid z pades
      = modAverager kind (.single fct) valid z pades := rfl

/-- C31: the same for real results. -/
theorem mod_averager_real_vectorized (kind : KindSelector) (valid : List Bool) (z : ℂ)
    (pades : List ℂ) (fct : ℂ → ℂ → ℝ) :
    modAveragerReal kind (.vectorized fun z l => l.map (fct z)) valid z pades
      = modAveragerReal kind (.single fct) valid z pades := rfl

private lemma islice_map {α β : Type*} (kind : KindSelector) (g : α → β) (l : List α) :
    kind.islice (l.map g) = (kind.islice l).map g := by
  unfold KindSelector.islice
  simp only [List.getElem?_map, List.map_filterMap]

private lemma accepted_map {α β : Type*} (g : α → β) (l : List α) (valid : List Bool) :
    (((l.map g).zip valid).filterMap fun p => if p.2 then some p.1 else none)
      = ((l.zip valid).filterMap fun p => if p.2 then some p.1 else none).map g := by
  induction l generalizing valid with
  | nil => simp
  | cons x xs ih =>
    cases valid with
    | nil => simp
    | cons b v => cases b <;> simp [ih v]

/-- C31: `Mod_Averager` averages the modified approximants: it is `Averager` for the approximants
`mod_fct(z, pade)`. In particular mean, deviation, errors and the independence of the order are
those of `Averager`. -/
theorem mod_averager_eq (kind : KindSelector) (valid : List Bool) (z : ℂ) (pades : List ℂ)
    (fct : ℂ → ℂ → ℂ) :
    modAverager kind (.single fct) valid z pades = averager kind valid (pades.map (fct z)) := by
  unfold modAverager averager
  rw [islice_map, accepted_map]
  rfl

/-- C31: the real case is the real part of the complex one: the mean has no imaginary part and the
deviation is the real deviation. -/
theorem mod_averager_real_eq (kind : KindSelector) (valid : List Bool) (z : ℂ) (pades : List ℂ)
    (fct : ℂ → ℂ → ℝ) (hval : true ∈ valid) :
    ∃ r x err, modAverager kind (.single fun z p => (fct z p : ℂ)) valid z pades = .ok r ∧
      modAveragerReal kind (.single fct) valid z pades = .ok (x, err) ∧
      r.x = x.map (fun t : ℝ => (t : ℂ)) ∧ r.err = err.map fun e => (e, 0) := by
  have hany : valid.any id = true := by simpa [List.any_eq_true] using hval
  unfold modAverager modAveragerReal
  rw [if_neg (by simp [hany]), if_neg (by simp [hany])]
  refine ⟨_, _, _, rfl, rfl, ?_, ?_⟩
  all_goals
    simp only [ModFct.apply]
    generalize ((kind.islice pades).zip valid).filterMap _ = l
  · simp only [avgStat, meanC, List.map_eq_nil_iff]
    split_ifs with h
    · rfl
    · simp only [Option.map_some, List.length_map]
      push_cast
      congr 2
      induction l with
      | nil => simp
      | cons p l ih =>
        by_cases hl : l = []
        · simp [hl]
        · simp [ih hl]
  · have h1 : (l.map fun p => (fct z p : ℂ)).map Complex.re = l.map (fct z) := by
      simp [Function.comp_def]
    have h2 : (l.map fun p => (fct z p : ℂ)).map Complex.im = l.map fun _ => 0 := by
      simp [Function.comp_def]
    simp only [avgStat, h1, h2]
    have h3 : stdR (l.map fun _ => (0 : ℝ)) = if l.length ≤ 1 then none else some 0 := by
      unfold stdR
      simp
    rw [h3]
    unfold stdR
    simp only [List.length_map]
    split_ifs <;> simp

/-- C31: averaging commutes with modifications `c(z) · pade + d(z)`: the average of the modified
approximants is the modified average. -/
theorem mod_averager_affine (kind : KindSelector) (valid : List Bool) (z : ℂ) (pades : List ℂ)
    (c d : ℂ → ℂ) (hval : true ∈ valid) :
    ∃ r r', modAverager kind (.single fun z p => c z * p + d z) valid z pades = .ok r ∧
      averager kind valid pades = .ok r' ∧ r.x = r'.x.map fun x => c z * x + d z := by
  have hany : valid.any id = true := by simpa [List.any_eq_true] using hval
  unfold modAverager averager
  rw [if_neg (by simp [hany]), if_neg (by simp [hany])]
  refine ⟨_, _, rfl, rfl, ?_⟩
  simp only [ModFct.apply]
  generalize ((kind.islice pades).zip valid).filterMap _ = l
  simp only [avgStat, meanC, List.map_eq_nil_iff]
  split_ifs with h
  · rfl
  · simp only [Option.map_some, List.length_map]
    congr 1
    have hl : (l.length : ℂ) ≠ 0 := by simpa using h
    have hs : (l.map fun p => c z * p + d z).sum = c z * l.sum + l.length * d z := by
      clear h hl
      induction l with
      | nil => simp
      | cons p l ih => simp [ih]; ring
    rw [hs]
    field_simp

open scoped Classical in
/-- C31: `avg_no_neg_imag` is the arithmetic mean of exactly those selected approximants whose
imaginary part is below the threshold at all validation points, and it fails with `RuntimeError` iff
there is none. -/
theorem avg_no_neg_imag_mean (kind : KindSelector) (zOut : ℂ) (N : ℕ) (zin f : ℕ → ℂ)
    (validZ : List ℂ) (threshold : ℝ) {a : ℕ → ℂ}
    (ha : coefficients (min N kind.stop) (min N kind.stop) zin f = .ok (some a))
    (used : List ℕ)
    (hused : used = (pyRange kind.start kind.stop kind.step).filter fun i =>
      decide (i + 1 < min N kind.stop ∧
        ∀ v ∈ validZ, (padeState v zin a (i + 1)).pade.im < threshold)) :
    (used = [] → avgNoNegImag kind zOut N zin f validZ threshold = .error .runtimeError) ∧
    (used ≠ [] → ∃ r, avgNoNegImag kind zOut N zin f validZ threshold = .ok r ∧
      r.x = some ((used.map fun i => (padeState zOut zin a (i + 1)).pade).sum / used.length)) := by
  set M := min N kind.stop with hM
  have hsel : ∀ {α : Type} (g : ℕ → α), kind.islice ((List.range (M - 1)).map g)
      = ((pyRange kind.start kind.stop kind.step).filter fun i => decide (i + 1 < M)).map g := by
    intro α g
    unfold KindSelector.islice
    generalize pyRange kind.start kind.stop kind.step = r
    induction r with
    | nil => rfl
    | cons i r ih =>
      rw [List.filterMap_cons, List.filter_cons, ih]
      by_cases h : i + 1 < M
      · have hi : i < M - 1 := by omega
        rw [List.getElem?_map, List.getElem?_range hi, Option.map_some, if_pos (by simpa using h)]
        rfl
      · have : ((List.range (M - 1)).map g)[i]? = none := by
          rw [List.getElem?_eq_none]
          simp
          omega
        rw [this, if_neg (by simpa using h)]
  set P : ℕ → Prop := fun i => ∀ v ∈ validZ, (padeState v zin a (i + 1)).pade.im < threshold
    with hP
  have hused' : used = ((pyRange kind.start kind.stop kind.step).filter
      fun i => decide (i + 1 < M)).filter fun i => decide (P i) := by
    rw [hused, List.filter_filter]
    congr 1
    funext i
    simp [hP, Bool.and_comm]
  have hco : calcIterator zOut M M zin a
      = .ok ((List.range (M - 1)).map fun k => (padeState zOut zin a (k + 1)).pade) := by
    simp [calcIterator]
  simp only [avgNoNegImag, averaged, ← hM, ha, hco, applyFilter, averager, hsel]
  generalize ((pyRange kind.start kind.stop kind.step).filter fun i => decide (i + 1 < M)) = sel
    at hused'
  have hmask : filterNegImag threshold (sel.map fun k =>
      validZ.map fun v => (padeState v zin a (k + 1)).pade)
      = sel.map fun i => decide (P i) := by
    simp [filterNegImag, Function.comp_def, hP]
  rw [hmask]
  have hacc : (((sel.map fun k => (padeState zOut zin a (k + 1)).pade).zip (sel.map fun i =>
      decide (P i))).filterMap fun p => if p.2 then some p.1 else none)
      = used.map fun i => (padeState zOut zin a (i + 1)).pade := by
    rw [hused']
    clear hused' hmask hused
    induction sel with
    | nil => rfl
    | cons i sel ih =>
      rw [List.map_cons, List.map_cons, List.zip_cons_cons, List.filterMap_cons, ih,
        List.filter_cons]
      by_cases h : P i
      · simp [h]
      · simp [h]
  have hany : ((sel.map fun i => decide (P i)).any id = true) ↔ used ≠ [] := by
    rw [hused']
    simp [List.filter_eq_nil_iff]
  constructor
  · intro h
    rw [if_pos]
    rw [hany]
    simp [h]
  · intro h
    rw [if_neg (by rw [not_not]; exact hany.2 h)]
    refine ⟨_, rfl, ?_⟩
    simp only [avgStat, meanC, hacc, List.map_eq_nil_iff, if_neg h, List.length_map]

end Gftool.Props
