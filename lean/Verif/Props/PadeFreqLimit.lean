import Verif.Lemmas.LommelLimit
import Verif.Props.PadeFreqFull
import Mathlib.NumberTheory.ZetaValues
import Mathlib.Analysis.Real.Pi.Bounds

/-!
# Property C67: Padé frequencies approach the Matsubara frequencies
-/

namespace Gftool.Props

open Gftool Model Lemmas Filter Topology

/-- `beta` times the `j`-th fermionic Matsubara frequency. -/
private noncomputable def matY (j : ℕ) : ℝ := (2 * j + 1) * Real.pi

private lemma matY_pos (j : ℕ) : 0 < matY j := mul_pos (by positivity) Real.pi_pos

private lemma matY_ge (j : ℕ) : 3 ≤ matY j := by
  have := Real.pi_gt_three
  have h2 : (0 : ℝ) ≤ j := Nat.cast_nonneg j
  unfold matY
  nlinarith

private lemma matY_hasSum : HasSum (fun j => 1 / matY j ^ 2) (1 / 8) := by
  obtain ⟨f, hf⟩ : ∃ f : ℕ → ℝ, f = fun n : ℕ => 1 / (n : ℝ) ^ 2 := ⟨_, rfl⟩
  have h : HasSum f (Real.pi ^ 2 / 6) := hf ▸ hasSum_zeta_two
  have he : Summable fun j : ℕ => f (2 * j) := h.summable.comp_injective fun a b h => by simpa using h
  have ho : Summable fun j : ℕ => f (2 * j + 1) := h.summable.comp_injective fun a b h => by simpa using h
  have e1 : ∑' j : ℕ, f (2 * j) = 1 / 4 * (Real.pi ^ 2 / 6) := by
    rw [← h.tsum_eq, ← tsum_mul_left]
    refine tsum_congr fun j => ?_
    simp only [hf]
    push_cast
    rw [mul_pow, one_div, one_div, mul_inv]
    norm_num
  have e2 := tsum_even_add_odd he ho
  rw [e1, h.tsum_eq] at e2
  have e3 : ∑' j : ℕ, f (2 * j + 1) = Real.pi ^ 2 / 8 := by linarith
  have h2 := (ho.hasSum.mul_left (1 / Real.pi ^ 2))
  rw [e3] at h2
  have hp : Real.pi ^ 2 ≠ 0 := (pow_pos Real.pi_pos 2).ne'
  have e4 : (fun j => 1 / matY j ^ 2) = fun i => 1 / Real.pi ^ 2 * f (2 * i + 1) := by
    funext j
    simp only [hf]
    unfold matY
    push_cast
    rw [mul_pow, one_div_mul_one_div, mul_comm]
  have e5 : 1 / Real.pi ^ 2 * (Real.pi ^ 2 / 8) = 1 / 8 := by field_simp
  rw [e4, ← e5]
  exact h2

/-- If a root is found near each of the first Matsubara frequencies, the sum rule leaves no room for further roots. -/
private lemma kth_root {num : ℕ} {lam : Fin num → ℝ} (hpos : ∀ i, 0 < lam i) (hmono : StrictMono lam)
    (hs : ∑ i, 1 / lam i ^ 2 ≤ 1 / 8) {k K : ℕ} {ε : ℝ} (hε : ε ≤ 1) (hk : k ≤ K)
    (hex : ∀ j ≤ K, ∃ i, |lam i - matY j| < ε)
    (hbig : 1 / 8 < ∑ j ∈ Finset.range (K + 1), 1 / (matY j + ε) ^ 2 + 1 / (matY k + ε) ^ 2) :
    ∃ hk : k < num, |lam ⟨k, hk⟩ - matY k| < ε := by
  classical
  have hex' : ∀ j : Fin (K + 1), ∃ i, |lam i - matY j| < ε := fun j => hex j (by omega)
  choose g hg using hex'
  have hlt : ∀ a b : Fin (K + 1), a < b → lam (g a) < lam (g b) := by
    intro a b hab
    have h1 := abs_lt.1 (hg a)
    have h2 := abs_lt.1 (hg b)
    have h3 : matY a + 6 ≤ matY b := by
      have : ((a : ℕ) : ℝ) + 1 ≤ (b : ℕ) := by exact_mod_cast hab
      have := Real.pi_gt_three
      unfold matY
      nlinarith
    linarith [h1.2, h2.1]
  have hgm : StrictMono g := fun a b hab => hmono.lt_iff_lt.1 (hlt a b hab)
  have hge : ∀ j : Fin (K + 1), (j : ℕ) ≤ g j := by
    intro j
    obtain ⟨j, hj⟩ := j
    induction j with
    | zero => exact Nat.zero_le _
    | succ j ih =>
      have h1 := ih (by omega)
      have h2 : g ⟨j, by omega⟩ < g ⟨j + 1, hj⟩ := hgm (by simp)
      exact lt_of_le_of_lt h1 h2
  set kk : Fin (K + 1) := ⟨k, by omega⟩ with hkk
  have hgk : (g kk : ℕ) = k := by
    by_contra hne
    have hgt : k < g kk := lt_of_le_of_ne (hge kk) (Ne.symm hne)
    have hcard : (Finset.image g (Finset.Iio kk)).card < (Finset.Iio (g kk)).card := by
      refine lt_of_le_of_lt Finset.card_image_le ?_
      rw [Fin.card_Iio, Fin.card_Iio]
      exact hgt
    obtain ⟨i, hi, hni⟩ := Finset.exists_mem_notMem_of_card_lt_card hcard
    have hi' : i < g kk := Finset.mem_Iio.1 hi
    have hnr : i ∉ Finset.univ.image g := by
      intro hm
      obtain ⟨j, -, rfl⟩ := Finset.mem_image.1 hm
      exact hni (Finset.mem_image.2 ⟨j, Finset.mem_Iio.2 (hgm.lt_iff_lt.1 hi'), rfl⟩)
    have hb : ∀ (a : Fin num) (j : Fin (K + 1)), lam a ≤ lam (g j) → 1 / (matY j + ε) ^ 2 ≤ 1 / lam a ^ 2 := by
      intro a j haj
      refine one_div_le_one_div_of_le (pow_pos (hpos a) 2) (pow_le_pow_left₀ (hpos a).le ?_ 2)
      have := (abs_lt.1 (hg j)).2
      linarith
    have h1 : ∑ j ∈ Finset.range (K + 1), 1 / (matY j + ε) ^ 2 ≤ ∑ a ∈ Finset.univ.image g, 1 / lam a ^ 2 := by
      rw [Finset.sum_image fun a _ b _ h => hgm.injective h, ← Fin.sum_univ_eq_sum_range (fun j => 1 / (matY j + ε) ^ 2)]
      exact Finset.sum_le_sum fun j _ => hb _ j le_rfl
    have h2 := hb i kk (hmono hi').le
    have h3 : ∑ a ∈ insert i (Finset.univ.image g), 1 / lam a ^ 2 ≤ ∑ a, 1 / lam a ^ 2 :=
      Finset.sum_le_sum_of_subset_of_nonneg (Finset.subset_univ _) fun a _ _ => by positivity
    rw [Finset.sum_insert hnr] at h3
    have h4 : matY ((kk : ℕ)) = matY k := rfl
    rw [h4] at h2
    linarith
  refine ⟨hgk ▸ (g kk).2, ?_⟩
  have : (⟨k, hgk ▸ (g kk).2⟩ : Fin num) = g kk := Fin.ext hgk.symm
  rw [this]
  exact hg kk

/-- Every Matsubara frequency is approached by a root of the denominator. -/
private lemma root_near {lam rp : ∀ num, Fin num → ℝ} (h : ∀ num, 0 < num → IsPadeDecomp num (lam num) (rp num)) (j : ℕ)
    {ε : ℝ} (hε : 0 < ε) (hε1 : ε ≤ 1) : ∀ᶠ num in atTop, ∃ i, |lam num i - matY j| < ε := by
  have hn : Tendsto (fun num : ℕ => 2 * num) atTop atTop := tendsto_id.const_mul_atTop' (by norm_num)
  have hc : ∀ s : ℝ, Real.cos ((matY j + s) / 2) = -(Real.sin (matY j / 2) * Real.sin (s / 2)) := by
    intro s
    rw [add_div, Real.cos_add]
    have : Real.cos (matY j / 2) = 0 := by
      rw [Real.cos_eq_zero_iff]
      exact ⟨j, by unfold matY; push_cast; ring⟩
    rw [this]
    ring
  have h1 := denP_tendsto hn ((matY j + ε / 2) / 2)
  have h2 := denP_tendsto hn ((matY j + -(ε / 2)) / 2)
  have h3 := h1.mul h2
  have hsin : Real.sin (matY j / 2) ^ 2 = 1 := by
    have := Real.sin_sq_add_cos_sq (matY j / 2)
    have h0 := hc 0
    simp only [add_zero, zero_div, Real.sin_zero, mul_zero, neg_zero] at h0
    rw [h0] at this
    linarith
  have hlt : Real.cos ((matY j + ε / 2) / 2) * Real.cos ((matY j + -(ε / 2)) / 2) < 0 := by
    rw [hc, hc, neg_div, Real.sin_neg]
    have : 0 < Real.sin (ε / 2 / 2) := Real.sin_pos_of_pos_of_lt_pi (by linarith) (by have := Real.pi_gt_three; linarith)
    have h5 : 0 < Real.sin (ε / 2 / 2) ^ 2 := by positivity
    have : -(Real.sin (matY j / 2) * Real.sin (ε / 2 / 2)) * -(Real.sin (matY j / 2) * -Real.sin (ε / 2 / 2))
        = -(Real.sin (matY j / 2) ^ 2 * Real.sin (ε / 2 / 2) ^ 2) := by ring
    rw [this, hsin]
    linarith
  filter_upwards [h3.eventually_lt_const hlt, eventually_gt_atTop 0] with num hneg hnum
  have hY := matY_ge j
  set f : ℝ → ℝ := fun y => (denP (2 * num)).eval (-y ^ 2) with hf
  have hcont : Continuous f := by
    have := (denP (2 * num)).continuous
    fun_prop
  have e1 : (denP (2 * num)).eval (-(2 * ((matY j + ε / 2) / 2)) ^ 2) = f (matY j + ε / 2) := by
    rw [hf]; simp only; congr 3; ring
  have e2 : (denP (2 * num)).eval (-(2 * ((matY j + -(ε / 2)) / 2)) ^ 2) = f (matY j - ε / 2) := by
    rw [hf]; simp only; congr 3; ring
  rw [e1, e2] at hneg
  have hmem : (0 : ℝ) ∈ Set.uIcc (f (matY j - ε / 2)) (f (matY j + ε / 2)) := by
    rw [Set.mem_uIcc]
    rcases mul_neg_iff.1 hneg with ⟨h1, h2⟩ | ⟨h1, h2⟩
    · exact Or.inl ⟨h2.le, h1.le⟩
    · exact Or.inr ⟨h1.le, h2.le⟩
  obtain ⟨c, hcm, hc0⟩ := intermediate_value_uIcc hcont.continuousOn hmem
  rw [Set.uIcc_of_le (by linarith)] at hcm
  have hd := (h num hnum).den_eval hnum (-c ^ 2)
  rw [show (denP (2 * num)).eval (-c ^ 2) = f c from rfl, hc0] at hd
  obtain ⟨i, -, hi⟩ := Finset.prod_eq_zero_iff.1 hd.symm
  have hl := (h num hnum).pos i
  have hcp : 0 < c := by linarith [hcm.1]
  have hci : lam num i = c := by
    have : lam num i ^ 2 = c ^ 2 := by
      have h0 : lam num i ^ 2 ≠ 0 := by positivity
      field_simp at hi
      linarith
    exact (pow_left_inj₀ hl.le hcp.le (by norm_num)).1 this
  refine ⟨i, ?_⟩
  rw [hci, abs_lt]
  constructor <;> linarith [hcm.1, hcm.2]

private lemma freq_near {lam rp : ∀ num, Fin num → ℝ} (h : ∀ num, 0 < num → IsPadeDecomp num (lam num) (rp num)) (k : ℕ)
    {ε : ℝ} (hε : 0 < ε) : ∀ᶠ num in atTop, ∃ hk : k < num, |lam num ⟨k, hk⟩ - matY k| < ε := by
  have hY := matY_pos k
  have hd : 0 < 1 / matY k ^ 2 := by positivity
  obtain ⟨K, hK, hKk⟩ : ∃ K, 1 / 8 - 1 / matY k ^ 2 < ∑ j ∈ Finset.range (K + 1), 1 / matY j ^ 2 ∧ k ≤ K := by
    have h1 := (matY_hasSum.tendsto_sum_nat.comp (tendsto_add_atTop_nat 1)).eventually_const_lt
      (show 1 / 8 - 1 / matY k ^ 2 < 1 / 8 by linarith)
    obtain ⟨K, hK⟩ := (h1.and (eventually_ge_atTop k)).exists
    exact ⟨K, hK.1, hK.2⟩
  have hcont : ContinuousAt (fun e : ℝ => ∑ j ∈ Finset.range (K + 1), 1 / (matY j + e) ^ 2 + 1 / (matY k + e) ^ 2) 0 := by
    have hc : ∀ j, ContinuousAt (fun e : ℝ => 1 / (matY j + e) ^ 2) 0 := by
      intro j
      refine ContinuousAt.div continuousAt_const (by fun_prop) ?_
      have := matY_pos j
      rw [add_zero]
      positivity
    exact (tendsto_finsetSum _ fun j _ => hc j).add (hc k)
  have hev : ∀ᶠ e in 𝓝 (0 : ℝ), 1 / 8 < ∑ j ∈ Finset.range (K + 1), 1 / (matY j + e) ^ 2 + 1 / (matY k + e) ^ 2 := by
    refine hcont.tendsto.eventually_const_lt ?_
    simp only [add_zero]
    linarith
  obtain ⟨r, hr, hball⟩ := Metric.eventually_nhds_iff.1 hev
  set e := min (min ε 1) (r / 2) with he
  have he0 : 0 < e := lt_min (lt_min hε one_pos) (by linarith)
  have he1 : e ≤ 1 := (min_le_left _ _).trans (min_le_right _ _)
  have heε : e ≤ ε := (min_le_left _ _).trans (min_le_left _ _)
  have hbig := hball (y := e) (by
    rw [Real.dist_eq, sub_zero, abs_of_pos he0]
    exact lt_of_le_of_lt (min_le_right _ _) (by linarith))
  have hall : ∀ᶠ num in atTop, ∀ j ∈ Finset.range (K + 1), ∃ i, |lam num i - matY j| < e :=
    (Filter.eventually_all_finset _).2 fun j _ => root_near h j he0 he1
  filter_upwards [hall, eventually_gt_atTop 0] with num hex hnum
  obtain ⟨hk, hlt⟩ := kth_root (h num hnum).pos (h num hnum).inj ((h num hnum).sum_inv_sq_le hnum) he1 hKk
    (fun j hj => hex j (Finset.mem_range.2 (by omega))) hbig
  exact ⟨hk, lt_of_lt_of_le hlt heε⟩

private lemma decomp_tendsto {lam rp : ∀ num, Fin num → ℝ} (h : ∀ num, 0 < num → IsPadeDecomp num (lam num) (rp num)) (k : ℕ) :
    Tendsto (fun num => if hk : k < num then lam num ⟨k, hk⟩ else 0) atTop (𝓝 (matY k)) ∧
      Tendsto (fun num => if hk : k < num then rp num ⟨k, hk⟩ else 0) atTop (𝓝 1) := by
  have h1 : Tendsto (fun num => if hk : k < num then lam num ⟨k, hk⟩ else 0) atTop (𝓝 (matY k)) := by
    rw [Metric.tendsto_nhds]
    intro ε hε
    filter_upwards [freq_near h k hε] with num hnum
    obtain ⟨hk, hlt⟩ := hnum
    rw [dif_pos hk, Real.dist_eq]
    exact hlt
  refine ⟨h1, ?_⟩
  have hn : Tendsto (fun num : ℕ => 2 * num) atTop atTop := tendsto_id.const_mul_atTop' (by norm_num)
  have ht : Tendsto (fun num => -(if hk : k < num then lam num ⟨k, hk⟩ else 0) ^ 2) atTop (𝓝 (-matY k ^ 2)) := (h1.pow 2).neg
  have h2 := numP_tendsto hn ht
  have h3 := (denP_deriv_tendsto hn ht).const_mul 8
  have hS : sincS (-matY k ^ 2) ≠ 0 := by
    have h4 := sincS_eq (matY k / 2)
    rw [show (2 * (matY k / 2)) = matY k by ring] at h4
    intro h0
    rw [h0, mul_zero] at h4
    have h5 : Real.cos (matY k / 2) = 0 := by
      rw [Real.cos_eq_zero_iff]
      exact ⟨k, by unfold matY; push_cast; ring⟩
    have := Real.sin_sq_add_cos_sq (matY k / 2)
    rw [← h4, h5] at this
    norm_num at this
  rw [show 8 * (1 / 8 * sincS (-matY k ^ 2)) = sincS (-matY k ^ 2) by ring] at h3
  have h4 := h2.div h3 hS
  rw [div_self hS] at h4
  refine h4.congr' ?_
  filter_upwards [h3.eventually_ne hS, eventually_gt_atTop k] with num hne hk
  simp only [dif_pos hk] at hne ⊢
  simp only [Pi.div_apply]
  simp only [dif_pos hk]
  rw [(h num (by omega)).num_eq (by omega), div_eq_iff hne]
  ring

lemma decomp_of_correct {num : ℕ} {beta : ℝ} (hb : 0 < beta) {izp : Fin num → ℂ} {rp : Fin num → ℝ}
    (h1 : ∀ i, (izp i).re = 0 ∧ 0 < (izp i).im) (h2 : StrictMono fun i => (izp i).im) (h3 : ∀ i, 0 < rp i)
    (h4 : ∀ eps : ℝ, (Spec.fermiApprox (2 * num) (beta * eps) : ℂ)
        = 1 / 2 + ∑ i, -(rp i : ℂ) / beta * (1 / (eps - izp i) + 1 / (eps + izp i))) :
    IsPadeDecomp num (fun i => beta * (izp i).im) rp := by
  refine ⟨fun i => mul_pos hb (h1 i).2, fun i j hij => mul_lt_mul_of_pos_left (h2 hij) hb, h3, fun x => ?_⟩
  have h5 := h4 (x / beta)
  rw [mul_div_cancel₀ x hb.ne', Spec.fermiApprox] at h5
  have e : ∀ i, -(rp i : ℂ) / beta * (1 / ((x / beta : ℝ) - izp i) + 1 / ((x / beta : ℝ) + izp i))
      = ((-(rp i * (2 * x / (x ^ 2 + (beta * (izp i).im) ^ 2))) : ℝ) : ℂ) := by
    intro i
    have hz : izp i = ((izp i).im : ℂ) * Complex.I := by
      apply Complex.ext <;> simp [(h1 i).1]
    have hy := (h1 i).2
    have hne : ∀ a y : ℝ, 0 < y → ((a : ℂ) - y * Complex.I ≠ 0 ∧ (a : ℂ) + y * Complex.I ≠ 0) := by
      intro a y hy
      constructor <;> intro h0 <;> have := congrArg Complex.im h0 <;> simp at this <;> exact hy.ne' this
    have hn := hne (x / beta) (izp i).im hy
    have hb' : (beta : ℂ) ≠ 0 := by exact_mod_cast hb.ne'
    have hden : x ^ 2 + (beta * (izp i).im) ^ 2 ≠ 0 := by
      have : 0 < beta * (izp i).im := mul_pos hb hy
      positivity
    have hden' : (x : ℂ) ^ 2 + ((beta : ℂ) * ((izp i).im : ℂ)) ^ 2 ≠ 0 := by exact_mod_cast hden
    rw [hz]
    simp only [Complex.mul_im, Complex.ofReal_re, Complex.I_im, mul_one, Complex.ofReal_im, Complex.I_re, mul_zero, add_zero]
    generalize (izp i).im = y at *
    rw [div_add_div _ _ hn.1 hn.2]
    have hprod : (((x / beta : ℝ) : ℂ) - y * Complex.I) * (((x / beta : ℝ) : ℂ) + y * Complex.I)
        = ((x : ℂ) ^ 2 + ((beta : ℂ) * y) ^ 2) / beta ^ 2 := by
      push_cast
      field_simp
      ring_nf
      rw [Complex.I_sq]
      ring
    rw [hprod]
    push_cast
    field_simp
    ring
  rw [Finset.sum_congr rfl fun i _ => e i, ← Complex.ofReal_sum] at h5
  have h6 : 1 / 2 - x / 4 / Spec.fermiCF x 0 (2 * num - 1)
      = 1 / 2 + ∑ i, -(rp i * (2 * x / (x ^ 2 + (beta * (izp i).im) ^ 2))) := by
    have : ((1 / 2 - x / 4 / Spec.fermiCF x 0 (2 * num - 1) : ℝ) : ℂ)
        = ((1 / 2 + ∑ i, -(rp i * (2 * x / (x ^ 2 + (beta * (izp i).im) ^ 2))) : ℝ) : ℂ) := by
      rw [h5]; push_cast; ring
    exact_mod_cast this
  rw [Finset.sum_neg_distrib] at h6
  linarith

/-- C67: as their number grows, the Padé frequencies approach the Matsubara frequencies of the same index, and their residues
approach one, the weight of a Matsubara frequency. -/
theorem pade_frequencies_tendsto {geig : GEig} (h : ExactGEig geig) {beta : ℝ} (hb : 0 < beta) (k : ℕ) {ε : ℝ} (hε : 0 < ε) :
    ∃ n0, ∀ num ≥ n0, ∃ izp rp, padeFrequencies geig num beta = .ok (izp, rp) ∧
      ∃ hk : k < num, ‖izp ⟨k, hk⟩ - matsubaraFrequencies k beta‖ < ε ∧ |rp ⟨k, hk⟩ - 1| < ε := by
  have hex : ∀ num : ℕ, ∃ izp : Fin num → ℂ, ∃ rp : Fin num → ℝ, 0 < num →
      padeFrequencies geig num beta = .ok (izp, rp) ∧ (∀ i, (izp i).re = 0) ∧
        IsPadeDecomp num (fun i => beta * (izp i).im) rp := by
    intro num
    rcases Nat.eq_zero_or_pos num with rfl | hnum
    · exact ⟨fun i => 0, fun i => 0, fun h => absurd h (lt_irrefl _)⟩
    · obtain ⟨izp, rp, h1, h2, h3, h4, h5⟩ := pade_frequencies_correct h hnum hb
      exact ⟨izp, rp, fun _ => ⟨h1, fun i => (h2 i).1, decomp_of_correct hb h2 h3 h4 h5⟩⟩
  choose izp rp H using hex
  obtain ⟨h1, h2⟩ := decomp_tendsto (lam := fun num i => beta * (izp num i).im) (rp := rp) (fun num hn => (H num hn).2.2) k
  have e1 := (Metric.tendsto_nhds.1 h1) (beta * ε) (by positivity)
  have e2 := (Metric.tendsto_nhds.1 h2) ε hε
  obtain ⟨n0, hn0⟩ := ((e1.and e2).and (eventually_gt_atTop k)).exists_forall_of_atTop
  refine ⟨n0, fun num hnum => ?_⟩
  obtain ⟨⟨a1, a2⟩, hk⟩ := hn0 num hnum
  rw [dif_pos hk, Real.dist_eq] at a1 a2
  obtain ⟨b1, b2, -⟩ := H num (by omega)
  refine ⟨izp num, rp num, b1, hk, ?_, a2⟩
  have e3 : izp num ⟨k, hk⟩ - matsubaraFrequencies k beta
      = (((beta * (izp num ⟨k, hk⟩).im - matY k) / beta : ℝ) : ℂ) * Complex.I := by
    have hz : izp num ⟨k, hk⟩ = ((izp num ⟨k, hk⟩).im : ℂ) * Complex.I := by
      apply Complex.ext <;> simp [b2]
    have hb' : (beta : ℂ) ≠ 0 := by exact_mod_cast hb.ne'
    conv_lhs => rw [hz]
    unfold matsubaraFrequencies matY
    push_cast
    field_simp
    try ring
  rw [e3, norm_mul, Complex.norm_I, mul_one, Complex.norm_real, Real.norm_eq_abs, abs_div, abs_of_pos hb, div_lt_iff₀ hb]
  linarith

/-- The hypotheses can be met: there is an exact eigenvalue routine, and for instance the third frequency comes as close as
desired to `5π/beta`. -/
example : ∃ geig : GEig, ∃ n0, ∀ num ≥ n0, ∃ izp rp, padeFrequencies geig num 10 = .ok (izp, rp) ∧
    ∃ hk : 2 < num, ‖izp ⟨2, hk⟩ - matsubaraFrequencies 2 10‖ < 1 / 1000 ∧ |rp ⟨2, hk⟩ - 1| < 1 / 1000 := by
  obtain ⟨geig, h⟩ := exact_geig_exists
  exact ⟨geig, pade_frequencies_tendsto h (by norm_num) 2 (by norm_num)⟩

end Gftool.Props
