import Verif.Lemmas.FccSystem
import Verif.Lemmas.Identity

/-!
# Elliptic integrals of the face-centred cubic lattice
-/

namespace Gftool.Lemmas

open Gftool Spec MeasureTheory ComplexConjugate

open scoped Topology

/-- First parameter of the elliptic integrals. -/
noncomputable def fccAl (q : ℂ) : ℂ := (q - 1) * (q + 3) ^ 3 / (16 * q ^ 3)

/-- Second parameter of the elliptic integrals. -/
noncomputable def fccBe (q : ℂ) : ℂ := (q - 1) ^ 3 * (q + 3) / (16 * q)

lemma inv_eq_conj_div {q : ℂ} : q⁻¹ = conj q / (Complex.normSq q : ℂ) := by
  rw [Complex.inv_def, div_eq_mul_inv, Complex.ofReal_inv]

lemma fccAl_eq {q : ℂ} (h : q ≠ 0) : 16 * fccAl q = q + 8 + 18 * q⁻¹ - 27 * q⁻¹ ^ 3 := by
  unfold fccAl
  field_simp
  ring

lemma fccBe_eq {q : ℂ} (h : q ≠ 0) : 16 * (1 - fccBe q) = -q ^ 3 + 6 * q + 8 + 3 * q⁻¹ := by
  unfold fccBe
  field_simp
  ring

lemma fccAl_im {q : ℂ} (h : q ≠ 0) :
    16 * Complex.normSq q ^ 3 * (fccAl q).im
      = q.im * (Complex.normSq q * (9 - Complex.normSq q) ^ 2 - 108 * q.im ^ 2) := by
  have e := congrArg Complex.im (fccAl_eq h)
  have hN : Complex.normSq q ≠ 0 := by simpa using h
  have hn := Complex.normSq_apply q
  rw [inv_eq_conj_div] at e
  generalize Complex.normSq q = N at *
  have e2 : ((conj q / (N : ℂ)) ^ 3).im = -(3 * q.re ^ 2 * q.im - q.im ^ 3) / N ^ 3 := by
    have : (conj q / (N : ℂ)) ^ 3 = conj (q ^ 3) / ((N ^ 3 : ℝ) : ℂ) := by
      rw [div_pow, map_pow]; push_cast; rfl
    rw [this, Complex.div_ofReal_im, Complex.conj_im]
    congr 2
    simp [pow_succ]
    ring
  have e3 : (conj q / (N : ℂ)).im = -q.im / N := by
    rw [Complex.div_ofReal_im, Complex.conj_im]
  have e4 : (16 * fccAl q).im = 16 * (fccAl q).im := by simp
  have e5 : (q + 8 + 18 * (conj q / (N : ℂ)) - 27 * (conj q / (N : ℂ)) ^ 3).im
      = q.im + 18 * (conj q / (N : ℂ)).im - 27 * ((conj q / (N : ℂ)) ^ 3).im := by simp
  rw [e4, e5, e2, e3] at e
  have e6 : 16 * N ^ 3 * (fccAl q).im = N ^ 3 * (16 * (fccAl q).im) := by ring
  rw [e6, e]
  field_simp
  rw [hn]
  ring

lemma fccAl_re {q : ℂ} (h : q ≠ 0) :
    16 * Complex.normSq q ^ 3 * (fccAl q).re
      = Complex.normSq q ^ 3 * (q.re + 8) + 18 * Complex.normSq q ^ 2 * q.re - 27 * (q.re ^ 3 - 3 * q.re * q.im ^ 2) := by
  have e := congrArg Complex.re (fccAl_eq h)
  have hN : Complex.normSq q ≠ 0 := by simpa using h
  rw [inv_eq_conj_div] at e
  generalize Complex.normSq q = N at *
  have e2 : ((conj q / (N : ℂ)) ^ 3).re = (q.re ^ 3 - 3 * q.re * q.im ^ 2) / N ^ 3 := by
    have : (conj q / (N : ℂ)) ^ 3 = conj (q ^ 3) / ((N ^ 3 : ℝ) : ℂ) := by
      rw [div_pow, map_pow]; push_cast; rfl
    rw [this, Complex.div_ofReal_re, Complex.conj_re]
    congr 1
    simp [pow_succ]
    ring
  have e3 : (conj q / (N : ℂ)).re = q.re / N := by
    rw [Complex.div_ofReal_re, Complex.conj_re]
  have e4 : (16 * fccAl q).re = 16 * (fccAl q).re := by simp
  have e5 : (q + 8 + 18 * (conj q / (N : ℂ)) - 27 * (conj q / (N : ℂ)) ^ 3).re
      = q.re + 8 + 18 * (conj q / (N : ℂ)).re - 27 * ((conj q / (N : ℂ)) ^ 3).re := by simp
  rw [e4, e5, e2, e3] at e
  have e6 : 16 * N ^ 3 * (fccAl q).re = N ^ 3 * (16 * (fccAl q).re) := by ring
  rw [e6, e]
  field_simp

/-- The closed quarter disc without the origin. -/
structure FccQ (q : ℂ) : Prop where
  ne : q ≠ 0
  re : 0 ≤ q.re
  im : 0 ≤ q.im
  le : Complex.normSq q ≤ 3

lemma fccBe_re {q : ℂ} (h : q ≠ 0) (hre : 0 ≤ q.re) (hle : Complex.normSq q ≤ 3) : 0 < (1 - fccBe q).re := by
  have e := congrArg Complex.re (fccBe_eq h)
  rw [inv_eq_conj_div] at e
  have hN : 0 < Complex.normSq q := Complex.normSq_pos.2 h
  have hn := Complex.normSq_apply q
  generalize Complex.normSq q = N at *
  have e1 : (16 * (1 - fccBe q)).re = 16 * (1 - fccBe q).re := by simp
  have e2 : (-q ^ 3 + 6 * q + 8 + 3 * (conj q / (N : ℂ))).re = -(q.re ^ 3 - 3 * q.re * q.im ^ 2) + 6 * q.re + 8 + 3 * (q.re / N) := by
    rw [Complex.add_re, Complex.add_re, Complex.add_re, Complex.neg_re]
    have : (q ^ 3).re = q.re ^ 3 - 3 * q.re * q.im ^ 2 := by simp [pow_succ]; ring
    rw [this]
    have : (3 * (conj q / (N : ℂ))).re = 3 * (q.re / N) := by
      have : (conj q / (N : ℂ)).re = q.re / N := by rw [Complex.div_ofReal_re, Complex.conj_re]
      rw [← this]; simp
    rw [this]
    simp
  rw [e1, e2] at e
  have h1 : 0 ≤ q.re / N := by positivity
  have h2 : q.re ^ 2 ≤ 3 := by nlinarith [sq_nonneg q.im]
  have h3 : q.re ^ 3 ≤ 3 * q.re := by nlinarith
  have h4 : 0 ≤ q.re * q.im ^ 2 := by positivity
  nlinarith

lemma fccBe_mem {q : ℂ} (h : q ≠ 0) (hre : 0 ≤ q.re) (hle : Complex.normSq q ≤ 3) : fccBe q ∈ ellipDom := by
  rw [ellipDom, Set.mem_ofPred_eq, Complex.mem_slitPlane_iff]
  exact Or.inl (fccBe_re h hre hle)

lemma fccAl_mem {q : ℂ} (h : FccQ q) (hi : 0 < q.im) : fccAl q ∈ ellipJDom := by
  rw [ellipJDom, Set.mem_ofPred_eq, Complex.mem_slitPlane_iff, Complex.sub_re, Complex.one_re, Complex.sub_im, Complex.one_im,
    sub_zero]
  by_cases h0 : (fccAl q).im = 0
  · left
    have ei := fccAl_im h.ne
    have er := fccAl_re h.ne
    have hN : 0 < Complex.normSq q := Complex.normSq_pos.2 h.ne
    have hn := Complex.normSq_apply q
    have hle := h.le
    have hre := h.re
    rw [h0, mul_zero] at ei
    generalize Complex.normSq q = N at *
    have hz : N * (9 - N) ^ 2 - 108 * q.im ^ 2 = 0 := by
      rcases mul_eq_zero.1 ei.symm with h | h
      · exact absurd h hi.ne'
      · exact h
    have hx : 108 * q.re ^ 2 = N * (27 + 18 * N - N ^ 2) := by nlinarith
    have hx3 : 108 * q.re ^ 3 = N * (27 + 18 * N - N ^ 2) * q.re := by rw [← hx]; ring
    have hy : 108 * (q.re * q.im ^ 2) = q.re * (N * (9 - N) ^ 2) := by linear_combination (-q.re) * hz
    have key : 16 * N ^ 3 * ((fccAl q).re - 1) = 2 * N * (q.re * (N ^ 2 + 27) - 4 * N ^ 2) := by
      linear_combination er - hx3 / 4 + 3 / 4 * hy
    have hsq : (4 * N ^ 2) ^ 2 < (q.re * (N ^ 2 + 27)) ^ 2 := by
      have a1 : 108 * N ^ 2 ≤ (N ^ 2 + 27) ^ 2 := by nlinarith [sq_nonneg (N ^ 2 - 27)]
      have a2 : 24 * N ≤ 27 + 18 * N - N ^ 2 := by nlinarith
      have a3 : 24 * N * (108 * N ^ 2) ≤ (27 + 18 * N - N ^ 2) * (N ^ 2 + 27) ^ 2 :=
        mul_le_mul a2 a1 (by positivity) (by nlinarith)
      have a4 : 108 * (q.re * (N ^ 2 + 27)) ^ 2 = N * ((27 + 18 * N - N ^ 2) * (N ^ 2 + 27) ^ 2) := by
        linear_combination (N ^ 2 + 27) ^ 2 * hx
      have a5 : N * (24 * N * (108 * N ^ 2)) ≤ N * ((27 + 18 * N - N ^ 2) * (N ^ 2 + 27) ^ 2) :=
        mul_le_mul_of_nonneg_left a3 hN.le
      have a6 : 0 < N ^ 4 := by positivity
      nlinarith
    have hlt : 4 * N ^ 2 < q.re * (N ^ 2 + 27) := lt_of_pow_lt_pow_left₀ 2 (by positivity) hsq
    have : 0 < 16 * N ^ 3 * ((fccAl q).re - 1) := by
      rw [key]
      have : 0 < q.re * (N ^ 2 + 27) - 4 * N ^ 2 := by linarith
      positivity
    exact pos_of_mul_pos_right this (by positivity)
  · exact Or.inr h0

/-! ## The cubic modular relation -/

/-- The relation holds near one on the real axis. -/
lemma fcc_modular_near : ∃ r : ℝ, 0 < r ∧ r ≤ 1 / 16 ∧ ∀ t ∈ Set.Ioo 0 r,
    ellipK (fccAl ((1 + t : ℝ) : ℂ)) = ((1 + t : ℝ) : ℂ) * ellipK (fccBe ((1 + t : ℝ) : ℂ)) := by
  obtain ⟨r1, h1, h1', hB⟩ := fcc_joyceB
  obtain ⟨r2, h2, h2', hA⟩ := fcc_joyceA
  refine ⟨min r1 r2, lt_min h1 h2, (min_le_left _ _).trans h1', fun t ht => ?_⟩
  have ht0 := ht.1
  have hb := hB t ⟨ht0, ht.2.trans_le (min_le_left _ _)⟩
  have ha := hA t ⟨ht0, ht.2.trans_le (min_le_right _ _)⟩
  have ht1 : t < 1 / 16 := ht.2.trans_le ((min_le_left _ _).trans h1')
  have hq : 0 < 1 + t := by linarith
  have h2t : 0 < 2 - t := by linarith
  have eB : fccBe ((1 + t : ℝ) : ℂ) = ((fccMB t : ℝ) : ℂ) := by
    rw [fccMB_eq hq.ne', fccBe]
    push_cast
    ring
  have eA : fccAl ((1 + t : ℝ) : ℂ) = ((fccMA t : ℝ) : ℂ) := by
    rw [fccMA_eq hq.ne', fccAl]
    push_cast
    ring
  have lB : fccMB t < 1 := by
    have : 0 < 1 - fccMB t := by rw [one_sub_fccMB hq.ne']; positivity
    linarith
  have lA : fccMA t < 1 := by
    have : 0 < 1 - fccMA t := by rw [one_sub_fccMA hq.ne']; positivity
    linarith
  rw [eA, eB, ellipK_ofReal lA, ellipK_ofReal lB]
  rw [ellipK_ofReal lA] at ha
  rw [ellipK_ofReal lB] at hb
  have ha' : rat [0, 1] 0 t * dser fccCoeff 0 (fccV t) = (2 / Real.pi * ellipKR (fccMA t)) ^ 2 := by exact_mod_cast ha
  have hb' : rat [1] 1 t * dser fccCoeff 0 (fccV t) = (2 / Real.pi * ellipKR (fccMB t)) ^ 2 := by exact_mod_cast hb
  have r1e : rat [0, 1] 0 t = (1 + t) ^ 2 * rat [1] 1 t := by
    unfold rat
    simp only [horner]
    field_simp
    ring
  have hsq : (ellipKR (fccMA t)) ^ 2 = ((1 + t) * ellipKR (fccMB t)) ^ 2 := by
    have hpi := Real.pi_pos
    have : (2 / Real.pi * ellipKR (fccMA t)) ^ 2 = (1 + t) ^ 2 * (2 / Real.pi * ellipKR (fccMB t)) ^ 2 := by
      rw [← ha', ← hb', r1e]; ring
    have h3 : (2 / Real.pi) ^ 2 ≠ 0 := by positivity
    refine mul_left_cancel₀ h3 ?_
    linear_combination this
  have hnn : ∀ m : ℝ, 0 ≤ ellipKR m := fun m => by
    unfold ellipKR
    exact intervalIntegral.integral_nonneg (by positivity) fun θ _ => by positivity
  have := (pow_left_inj₀ (hnn _) (mul_nonneg hq.le (hnn _)) (two_ne_zero)).1 hsq
  rw [this]
  push_cast
  rfl

/-- The first elliptic integral continued analytically. -/
noncomputable def fccKii (m : ℂ) : ℂ := ellipJ m + Complex.I * ellipK (1 - m)

lemma differentiableAt_fccKii {m : ℂ} (h : m ∈ ellipJDom) : DifferentiableAt ℂ fccKii m := by
  have h1 : DifferentiableAt ℂ ellipJ m := (hasDerivAt_ellipJ h).differentiableAt
  have hs : m ∈ Complex.slitPlane := by
    have := slit_seg_J h (s := 0) ⟨le_rfl, zero_le_one⟩
    simpa using this
  have h2 : DifferentiableAt ℂ (fun m => ellipK (1 - m)) m :=
    DifferentiableAt.comp (f := fun m : ℂ => 1 - m) (g := ellipK) m
      (hasDerivAt_ellipK (one_sub_mem_ellipDom hs)).differentiableAt (by fun_prop)
  exact h1.add (h2.const_mul _)

lemma differentiableAt_fccAl {q : ℂ} (h : q ≠ 0) : DifferentiableAt ℂ fccAl q := by
  unfold fccAl
  exact DifferentiableAt.div (by fun_prop) (by fun_prop) (mul_ne_zero (by norm_num) (pow_ne_zero 3 h))

lemma differentiableAt_fccBe {q : ℂ} (h : q ≠ 0) : DifferentiableAt ℂ fccBe q := by
  unfold fccBe
  exact DifferentiableAt.div (by fun_prop) (by fun_prop) (mul_ne_zero (by norm_num) h)

lemma differentiableAt_ellipK_fccBe {q : ℂ} (h : q ≠ 0) (hre : 0 ≤ q.re) (hle : Complex.normSq q ≤ 3) :
    DifferentiableAt ℂ (fun q => ellipK (fccBe q)) q :=
  DifferentiableAt.comp (f := fccBe) (g := ellipK) q
    (hasDerivAt_ellipK (fccBe_mem h hre hle)).differentiableAt (differentiableAt_fccBe h)

/-- The difference of both sides of the relation. -/
noncomputable def fccDiff (q : ℂ) : ℂ := fccKii (fccAl q) - q * ellipK (fccBe q)

lemma differentiableAt_fccDiff {q : ℂ} (h : FccQ q) (hi : 0 < q.im) : DifferentiableAt ℂ fccDiff q := by
  have h1 : DifferentiableAt ℂ (fun q => fccKii (fccAl q)) q :=
    DifferentiableAt.comp (f := fccAl) (g := fccKii) q (differentiableAt_fccKii (fccAl_mem h hi)) (differentiableAt_fccAl h.ne)
  exact h1.sub (differentiableAt_id.mul (differentiableAt_ellipK_fccBe h.ne h.re h.le))

/-- The open quarter disc. -/
def fccOpen : Set ℂ := {q | 0 < q.re ∧ 0 < q.im ∧ Complex.normSq q < 3}

lemma isOpen_fccOpen : IsOpen fccOpen :=
  (isOpen_lt continuous_const Complex.continuous_re).inter ((isOpen_lt continuous_const Complex.continuous_im).inter
    (isOpen_lt Complex.continuous_normSq continuous_const))

lemma normSq_segment {p q : ℂ} {a b N : ℝ} (ha : 0 ≤ a) (hb : 0 < b) (hab : a + b = 1)
    (hp : Complex.normSq p ≤ N) (hq : Complex.normSq q < N) : Complex.normSq (a • p + b • q) < N := by
  rw [Complex.normSq_apply] at hp hq ⊢
  simp only [Complex.add_re, Complex.add_im, Complex.real_smul, Complex.mul_re, Complex.mul_im, Complex.ofReal_re,
    Complex.ofReal_im, zero_mul, sub_zero, add_zero]
  obtain rfl : a = 1 - b := by linarith
  have h1 : 0 ≤ (1 - b) * b * ((p.re - q.re) ^ 2 + (p.im - q.im) ^ 2) := by positivity
  have h2 : (1 - b) * (p.re * p.re + p.im * p.im) ≤ (1 - b) * N := mul_le_mul_of_nonneg_left hp ha
  have h3 : b * (q.re * q.re + q.im * q.im) < b * N := mul_lt_mul_of_pos_left hq hb
  nlinarith

lemma convex_fccOpen : Convex ℝ fccOpen := by
  intro p hp q hq a b ha hb hab
  rcases eq_or_lt_of_le hb with h | h
  · obtain rfl : b = 0 := h.symm
    obtain rfl : a = 1 := by linarith
    simpa using hp
  · refine ⟨?_, ?_, normSq_segment ha h hab hp.2.2.le hq.2.2⟩
    · simp only [Complex.add_re, Complex.real_smul, Complex.mul_re, Complex.ofReal_re, Complex.ofReal_im, zero_mul, sub_zero]
      have := mul_nonneg ha hp.1.le
      have := mul_pos h hq.1
      linarith
    · simp only [Complex.add_im, Complex.real_smul, Complex.mul_im, Complex.ofReal_re, Complex.ofReal_im, zero_mul, add_zero]
      have := mul_nonneg ha hp.2.1.le
      have := mul_pos h hq.2.1
      linarith

lemma fccQ_of_open {q : ℂ} (h : q ∈ fccOpen) : FccQ q :=
  ⟨fun h0 => by have := h.1; rw [h0] at this; simp at this, h.1.le, h.2.1.le, h.2.2.le⟩

/-- The parameter above the real axis. -/
lemma fccAl_im_pos {q : ℂ} (h : q ≠ 0) (hi : 0 < q.im)
    (h1 : 108 * q.im ^ 2 < Complex.normSq q * (9 - Complex.normSq q) ^ 2) : 0 < (fccAl q).im := by
  have e := fccAl_im h
  have hN : 0 < Complex.normSq q := Complex.normSq_pos.2 h
  have : 0 < 16 * Complex.normSq q ^ 3 * (fccAl q).im := by
    rw [e]
    exact mul_pos hi (by linarith)
  exact pos_of_mul_pos_right this (by positivity)

lemma eventually_fccAl_im {x : ℝ} (h0 : 0 < x) (h3 : x < 3) :
    ∀ᶠ q in 𝓝 (x : ℂ), 0 < q.im → 0 < (fccAl q).im := by
  have hc1 : Continuous fun q : ℂ => 108 * q.im ^ 2 := by
    have := Complex.continuous_im
    fun_prop
  have hc2 : Continuous fun q : ℂ => Complex.normSq q * (9 - Complex.normSq q) ^ 2 := by
    have := Complex.continuous_normSq
    fun_prop
  have h1 : ∀ᶠ q in 𝓝 (x : ℂ), 108 * q.im ^ 2 < Complex.normSq q * (9 - Complex.normSq q) ^ 2 := by
    refine hc1.continuousAt.eventually_lt hc2.continuousAt ?_
    simp only [Complex.ofReal_im, Complex.normSq_ofReal]
    have : 0 < 9 - x * x := by nlinarith
    have : 0 < x * x * (9 - x * x) ^ 2 := by positivity
    simpa using this
  have h2 : ∀ᶠ q in 𝓝 (x : ℂ), q ≠ 0 := by
    have : (x : ℂ) ≠ 0 := by exact_mod_cast h0.ne'
    exact continuousAt_id.eventually_ne this
  filter_upwards [h1, h2] with q a b c using fccAl_im_pos b c a

lemma fccDiff_open {q : ℂ} (hq : q ∈ fccOpen) : fccDiff q = 0 := by
  obtain ⟨r, hr0, hr16, hr⟩ := fcc_modular_near
  set t : ℝ := r / 2 with ht
  have ht0 : 0 < t := by positivity
  have htr : t < r := by rw [ht]; linarith
  set x : ℂ := ((1 + t : ℝ) : ℂ) with hx
  have hxne : x ≠ 0 := by rw [hx]; exact_mod_cast (by linarith : (0:ℝ) < 1 + t).ne'
  have hN1 : (1 + t) * (1 + t) < 3 := by nlinarith
  have hre : ∀ᶠ q in 𝓝 x, 0 < q.re := Complex.continuous_re.continuousAt.eventually_const_lt (by
    rw [hx, Complex.ofReal_re]; linarith)
  have hnq : ∀ᶠ q in 𝓝 x, Complex.normSq q < 3 := Complex.continuous_normSq.continuousAt.eventually_lt_const (by
    rw [hx, Complex.normSq_ofReal]; exact hN1)
  have hne : ∀ᶠ q in 𝓝 x, q ≠ 0 := continuousAt_id.eventually_ne hxne
  have hAd : ∀ᶠ q in 𝓝 x, fccAl q ∈ ellipDom := by
    refine (differentiableAt_fccAl hxne).continuousAt.eventually (isOpen_ellipDom.mem_nhds ?_)
    have e : fccAl x = ((fccMA t : ℝ) : ℂ) := by
      rw [hx, fccMA_eq (by linarith), fccAl]
      push_cast
      ring
    rw [e, ellipDom, Set.mem_ofPred_eq, ← Complex.ofReal_one, ← Complex.ofReal_sub, Complex.ofReal_mem_slitPlane,
      one_sub_fccMA (by linarith)]
    have : 0 < 2 - t := by linarith
    positivity
  set h : ℂ → ℂ := fun q => ellipK (fccAl q) - q * ellipK (fccBe q) with hh
  have hd : ∀ᶠ q in 𝓝 x, DifferentiableAt ℂ h q := by
    filter_upwards [hre, hnq, hne, hAd] with q a b c d
    have h1 : DifferentiableAt ℂ (fun q => ellipK (fccAl q)) q :=
      DifferentiableAt.comp (f := fccAl) (g := ellipK) q (hasDerivAt_ellipK d).differentiableAt (differentiableAt_fccAl c)
    exact h1.sub (differentiableAt_id.mul (differentiableAt_ellipK_fccBe c a.le b.le))
  have han : AnalyticAt ℂ h x := Complex.analyticAt_iff_eventually_differentiableAt.2 hd
  have hfreq : ∃ᶠ q in 𝓝[≠] x, h q = 0 := by
    have htend : Filter.Tendsto (fun s : ℝ => ((1 + s : ℝ) : ℂ)) (𝓝[>] t) (𝓝[≠] x) := by
      refine tendsto_nhdsWithin_iff.2 ⟨?_, ?_⟩
      · have : Continuous fun s : ℝ => ((1 + s : ℝ) : ℂ) := by fun_prop
        exact (this.tendsto t).mono_left nhdsWithin_le_nhds
      · filter_upwards [self_mem_nhdsWithin] with s hs
        have hs' : t < s := hs
        simp only [Set.mem_compl_iff, Set.mem_singleton_iff, hx]
        intro h
        have : 1 + s = 1 + t := by exact_mod_cast h
        linarith
    refine htend.frequently (Filter.Eventually.frequently ?_)
    filter_upwards [Ioo_mem_nhdsGT htr] with s hs
    simp only [hh]
    rw [hr s ⟨ht0.trans hs.1, hs.2⟩, sub_self]
  have hzero : ∀ᶠ q in 𝓝 x, h q = 0 := han.frequently_zero_iff_eventually_zero.1 hfreq
  have hloc : ∀ᶠ q in 𝓝 x, 0 < q.im → q ∈ fccOpen ∧ fccDiff q = 0 := by
    filter_upwards [hzero, hre, hnq, eventually_fccAl_im (x := 1 + t) (by linarith) (by linarith)] with q a b c d hi
    refine ⟨⟨b, hi, c⟩, ?_⟩
    have e : fccKii (fccAl q) = ellipK (fccAl q) := (ellipK_conn (d hi)).symm
    unfold fccDiff
    rw [e]
    exact a
  obtain ⟨ε, hε, hball⟩ := Metric.eventually_nhds_iff.1 hloc
  set y : ℂ := x + (ε / 2 : ℝ) * Complex.I with hy
  have hyim : 0 < y.im := by
    rw [hy, hx]
    simp
    exact hε
  have hyx : dist y x < ε := by
    rw [hy, dist_eq_norm, add_sub_cancel_left, norm_mul, Complex.norm_I, mul_one, Complex.norm_real, Real.norm_eq_abs,
      abs_of_pos (by positivity)]
    linarith
  have hyU := (hball hyx hyim).1
  have hev : fccDiff =ᶠ[𝓝 y] 0 := by
    have h1 : ∀ᶠ q in 𝓝 y, dist q x < ε := (continuous_id.dist continuous_const).continuousAt.eventually_lt_const hyx
    have h2 : ∀ᶠ q in 𝓝 y, 0 < q.im := Complex.continuous_im.continuousAt.eventually_const_lt hyim
    filter_upwards [h1, h2] with q a b using (hball a b).2
  have hd : DifferentiableOn ℂ fccDiff fccOpen := fun q hq =>
    (differentiableAt_fccDiff (fccQ_of_open hq) hq.2.1).differentiableWithinAt
  exact (hd.analyticOnNhd isOpen_fccOpen).eqOn_zero_of_preconnected_of_eventuallyEq_zero
    convex_fccOpen.isPreconnected hyU hev hq

/-- Points of the closed quarter disc are limits of interior points. -/
lemma fccQ_limit {q : ℂ} (h : FccQ q) :
    ∃ γ : ℝ → ℂ, Filter.Tendsto γ (𝓝[>] 0) (𝓝 q) ∧ ∀ᶠ τ in 𝓝[>] (0 : ℝ), γ τ ∈ fccOpen := by
  refine ⟨fun τ => (1 - τ) • q + τ • ((1 / 2 : ℝ) + (1 / 2 : ℝ) * Complex.I), ?_, ?_⟩
  · have hc : Continuous fun τ : ℝ => (1 - τ) • q + τ • (((1 / 2 : ℝ) : ℂ) + ((1 / 2 : ℝ) : ℂ) * Complex.I) := by fun_prop
    have := (hc.tendsto 0).mono_left (nhdsWithin_le_nhds (s := Set.Ioi 0))
    simpa using this
  · filter_upwards [Ioo_mem_nhdsGT (zero_lt_one (α := ℝ))] with τ hτ
    have h0 := hτ.1
    have h1 : 0 ≤ 1 - τ := by linarith [hτ.2]
    refine ⟨?_, ?_, normSq_segment h1 h0 (by ring) h.le ?_⟩
    · have := mul_nonneg h1 h.re
      simp
      linarith
    · have := mul_nonneg h1 h.im
      simp
      linarith
    · rw [Complex.normSq_apply]
      simp
      norm_num

/-- The cubic modular relation above the real axis. -/
lemma fcc_modular {q : ℂ} (h : FccQ q) (hi : 0 < q.im) : fccKii (fccAl q) = q * ellipK (fccBe q) := by
  obtain ⟨γ, ht, ho⟩ := fccQ_limit h
  have hc := (differentiableAt_fccDiff h hi).continuousAt
  have h1 : Filter.Tendsto (fun τ => fccDiff (γ τ)) (𝓝[>] 0) (𝓝 (fccDiff q)) := hc.tendsto.comp ht
  have h2 : Filter.Tendsto (fun τ => fccDiff (γ τ)) (𝓝[>] 0) (𝓝 0) := by
    refine tendsto_const_nhds.congr' ?_
    filter_upwards [ho] with τ hτ using (fccDiff_open hτ).symm
  have := tendsto_nhds_unique h1 h2
  exact sub_eq_zero.1 this

lemma fccAl_real {x : ℝ} (h0 : 0 < x) (h3 : x < 3) : ∃ m : ℝ, m < 1 ∧ fccAl x = (m : ℂ) := by
  refine ⟨(x - 1) * (x + 3) ^ 3 / (16 * x ^ 3), ?_, by unfold fccAl; push_cast; rfl⟩
  have e : 1 - (x - 1) * (x + 3) ^ 3 / (16 * x ^ 3) = (x + 1) * (3 - x) ^ 3 / (16 * x ^ 3) := by
    field_simp
    ring
  have : 0 < 3 - x := by linarith
  have : 0 < 1 - (x - 1) * (x + 3) ^ 3 / (16 * x ^ 3) := by rw [e]; positivity
  linarith

/-- The cubic modular relation on the real axis. -/
lemma fcc_modular_real {x : ℝ} (h0 : 0 < x) (h3 : x ^ 2 ≤ 3) : ellipK (fccAl x) = x * ellipK (fccBe x) := by
  have hx3 : x < 3 := by nlinarith
  have hxc : (x : ℂ) ≠ 0 := by exact_mod_cast h0.ne'
  have hQ : FccQ (x : ℂ) := ⟨hxc, by simpa using h0.le, by simp, by rw [Complex.normSq_ofReal]; nlinarith⟩
  obtain ⟨γ, ht, ho⟩ := fccQ_limit hQ
  have hAd : fccAl x ∈ ellipDom := by
    obtain ⟨m, hm, e⟩ := fccAl_real h0 hx3
    rw [e, ellipDom, Set.mem_ofPred_eq, ← Complex.ofReal_one, ← Complex.ofReal_sub, Complex.ofReal_mem_slitPlane]
    linarith
  have hc : ContinuousAt (fun q => ellipK (fccAl q) - q * ellipK (fccBe q)) (x : ℂ) := by
    have h1 : DifferentiableAt ℂ (fun q => ellipK (fccAl q)) (x : ℂ) :=
      DifferentiableAt.comp (f := fccAl) (g := ellipK) _ (hasDerivAt_ellipK hAd).differentiableAt (differentiableAt_fccAl hxc)
    exact (h1.sub (differentiableAt_id.mul (differentiableAt_ellipK_fccBe hQ.ne hQ.re hQ.le))).continuousAt
  have h1 := hc.tendsto.comp ht
  have h2 : Filter.Tendsto ((fun q => ellipK (fccAl q) - q * ellipK (fccBe q)) ∘ γ) (𝓝[>] 0) (𝓝 0) := by
    refine tendsto_const_nhds.congr' ?_
    filter_upwards [ho, ht.eventually (eventually_fccAl_im h0 hx3)] with τ hτ hτ'
    have e := fccDiff_open hτ
    unfold fccDiff fccKii at e
    rw [← ellipK_conn (hτ' hτ.2.1)] at e
    exact e.symm
  have := tendsto_nhds_unique h1 h2
  exact sub_eq_zero.1 this

/-- On the cut the continued integral is the complex conjugate of the elliptic integral. -/
lemma fccKii_cut {m : ℝ} (hm : 1 < m) : fccKii m = conj (ellipK m) := by
  have hm0 : 0 < m := by linarith
  have hJ : ellipJ m = ((ellipKR (1 / m) / √m : ℝ) : ℂ) := by
    unfold ellipJ ellipKR
    rw [← intervalIntegral.integral_div, ← intervalIntegral.integral_ofReal]
    congr 1
    funext θ
    have h1 : 0 ≤ 1 - 1 / m * Real.sin θ ^ 2 := by
      have : 1 / m * Real.sin θ ^ 2 ≤ 1 * 1 :=
        mul_le_mul (by rw [div_le_one hm0]; exact hm.le) (Real.sin_sq_le_one θ) (sq_nonneg _) zero_le_one
      linarith
    have e : (m : ℂ) - ((Real.sin θ ^ 2 : ℝ) : ℂ) = ((m * (1 - 1 / m * Real.sin θ ^ 2) : ℝ) : ℂ) := by
      rw [← Complex.ofReal_sub]
      congr 1
      field_simp
    rw [e, sqrt_ofReal (by positivity), Real.sqrt_mul hm0.le]
    push_cast
    rw [div_div, mul_comm]
  have hK : ellipK (1 - m) = ((ellipKR (1 - 1 / m) / √m : ℝ) : ℂ) := by
    rw [show (1 : ℂ) - m = ((1 - m : ℝ) : ℂ) by push_cast; rfl, ellipK_ofReal (by linarith)]
    congr 1
    unfold ellipKR
    rw [← intervalIntegral.integral_div]
    have h := integral_reflect (fun s => (((1 / √(1 - (1 - m) * s) : ℝ) : ℂ)))
    have h1 := congrArg Complex.re h
    rw [intervalIntegral.integral_ofReal, intervalIntegral.integral_ofReal, Complex.ofReal_re, Complex.ofReal_re] at h1
    rw [h1]
    congr 1
    funext θ
    have e : 1 - (1 - m) * (1 - Real.sin θ ^ 2) = m * (1 - (1 - 1 / m) * Real.sin θ ^ 2) := by
      field_simp
      ring
    rw [e, Real.sqrt_mul hm0.le, div_div, mul_comm]
  unfold fccKii
  rw [hJ, hK, ellipK_cut hm]
  simp

end Gftool.Lemmas
