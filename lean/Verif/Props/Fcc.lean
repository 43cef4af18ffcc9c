import Verif.Lemmas.FccGreen
import Verif.Props.Sc
import Verif.Model.Fcc

/-!
# Face-centred cubic lattice (C57, C61, C62)
-/

namespace Gftool.Props

open Gftool Model Spec Lemmas MeasureTheory ComplexConjugate

open scoped ENNReal Topology

/-! ### The square roots of the code -/

/-- In the closed lower half-plane, `_signed_sqrt` is the square root in the closed fourth quadrant. -/
lemma fccSignedSqrt_spec {z : ℂ} (hz : z.im ≤ 0) :
    fccSignedSqrt z ^ 2 = z ∧ 0 ≤ (fccSignedSqrt z).re ∧ (fccSignedSqrt z).im ≤ 0 := by
  unfold fccSignedSqrt
  by_cases h : z.re < 0
  · simp only [if_pos h]
    rw [if_neg (by norm_num : ¬((-1 : ℤ) = 1))]
    have e : ((-1 : ℤ) : ℂ) * z = -z := by push_cast; ring
    rw [e]
    have hsl : -z ∈ Complex.slitPlane := by
      rw [Complex.mem_slitPlane_iff]
      left
      rw [Complex.neg_re]
      linarith
    have h1 := sqrt_re_pos hsl
    have h2 := sqrt_sq' (-z)
    have h3 := congrArg Complex.im h2
    rw [pow_two, Complex.mul_im, Complex.neg_im] at h3
    refine ⟨?_, ?_, ?_⟩
    · rw [mul_pow, h2, neg_sq, Complex.I_sq]
      ring
    · have : (-Complex.I * Complex.sqrt (-z)).re = (Complex.sqrt (-z)).im := by simp
      rw [this]
      nlinarith
    · have : (-Complex.I * Complex.sqrt (-z)).im = -(Complex.sqrt (-z)).re := by simp
      rw [this]
      linarith
  · simp only [if_neg h]
    rw [if_pos trivial, Int.cast_one, one_mul, one_mul]
    refine ⟨sqrt_sq' z, sqrt_re_nonneg z, ?_⟩
    rcases eq_or_ne z 0 with rfl | hz0
    · have := sqrt_sq' 0
      rw [pow_eq_zero_iff (by norm_num)] at this
      rw [this]
      simp
    · have hsl : z ∈ Complex.slitPlane := by
        rw [Complex.mem_slitPlane_iff]
        by_contra hcon
        push Not at hcon
        exact hz0 (Complex.ext (le_antisymm hcon.1 (not_lt.1 h)) hcon.2)
      have h1 := sqrt_re_pos hsl
      have h3 := congrArg Complex.im (sqrt_sq' z)
      rw [pow_two, Complex.mul_im] at h3
      nlinarith

/-- Roots in the closed fourth quadrant are unique. -/
lemma root_unique {x y : ℂ} (h : x ^ 2 = y ^ 2) (hx : 0 ≤ x.re) (hx' : x.im ≤ 0) (hy : 0 ≤ y.re) (hy' : y.im ≤ 0) : x = y := by
  rcases sq_eq_sq_iff_eq_or_eq_neg.1 h with h | h
  · exact h
  · have h1 := congrArg Complex.re h
    have h2 := congrArg Complex.im h
    rw [Complex.neg_re] at h1
    rw [Complex.neg_im] at h2
    exact Complex.ext (by linarith) (by linarith)

/-- Quotient of the roots of two energies. -/
lemma fcc_ratio {z : ℂ} {δ : ℝ} (hz : z.im ≤ 0) (hδ : 0 ≤ δ) (hw : z + δ ≠ 0) :
    (fccSignedSqrt z / fccSignedSqrt (z + δ)) ^ 2 = z / (z + δ) ∧
    0 ≤ (fccSignedSqrt z / fccSignedSqrt (z + δ)).re ∧ (fccSignedSqrt z / fccSignedSqrt (z + δ)).im ≤ 0 := by
  have hwi : (z + δ).im ≤ 0 := by simpa using hz
  obtain ⟨a1, a2, a3⟩ := fccSignedSqrt_spec hz
  obtain ⟨b1, b2, b3⟩ := fccSignedSqrt_spec hwi
  set x := fccSignedSqrt z with hx
  set y := fccSignedSqrt (z + δ) with hy
  have hy0 : y ≠ 0 := fun h => hw (by rw [← b1, h]; simp)
  have hN : 0 < Complex.normSq y := Complex.normSq_pos.2 hy0
  have ere : (x / y).re = (x.re * y.re + x.im * y.im) / Complex.normSq y := by rw [Complex.div_re]; ring
  have eim : (x / y).im = (x.im * y.re - x.re * y.im) / Complex.normSq y := by rw [Complex.div_im]; ring
  refine ⟨by rw [div_pow, a1, b1], ?_, ?_⟩
  · rw [ere]
    apply div_nonneg _ hN.le
    nlinarith [mul_nonneg a2 b2, mul_nonneg_of_nonpos_of_nonpos a3 b3]
  · rw [eim]
    apply div_nonpos_of_nonpos_of_nonneg _ hN.le
    have h1 := congrArg Complex.re a1
    have h2 := congrArg Complex.im a1
    have h3 := congrArg Complex.re b1
    have h4 := congrArg Complex.im b1
    rw [pow_two, Complex.mul_re] at h1 h3
    rw [pow_two, Complex.mul_im] at h2 h4
    rw [Complex.add_re, Complex.ofReal_re] at h3
    rw [Complex.add_im, Complex.ofReal_im] at h4
    -- `x.re ≤ y.re`
    have hle : x.re ≤ y.re := by
      by_contra hcon
      push Not at hcon
      have e1 : x.re * x.im = y.re * y.im := by linarith
      have e2 : y.re ^ 2 - y.im ^ 2 = x.re ^ 2 - x.im ^ 2 + δ := by nlinarith
      have e3 : x.im ^ 2 ≤ y.im ^ 2 := by
        have : x.re ^ 2 * x.im ^ 2 = y.re ^ 2 * y.im ^ 2 := by rw [← mul_pow, ← mul_pow, e1]
        have hx2 : 0 < x.re ^ 2 := by nlinarith
        have hyx : y.re ^ 2 ≤ x.re ^ 2 := by nlinarith
        nlinarith [sq_nonneg y.im, mul_le_mul_of_nonneg_right hyx (sq_nonneg y.im)]
      nlinarith
    have hle2 : y.im ^ 2 ≤ x.im ^ 2 := by
      by_contra hcon
      push Not at hcon
      have e1 : x.re * x.im = y.re * y.im := by linarith
      have e2 : y.re ^ 2 - y.im ^ 2 = x.re ^ 2 - x.im ^ 2 + δ := by nlinarith
      have : x.re ^ 2 * x.im ^ 2 = y.re ^ 2 * y.im ^ 2 := by rw [← mul_pow, ← mul_pow, e1]
      have hyp : 0 < y.re ^ 2 := by nlinarith [sq_nonneg x.re]
      have hyx : x.re ^ 2 ≤ y.re ^ 2 := by nlinarith
      have h5 := mul_le_mul_of_nonneg_right hyx (sq_nonneg x.im)
      have h6 : y.re ^ 2 * x.im ^ 2 < y.re ^ 2 * y.im ^ 2 := mul_lt_mul_of_pos_left hcon hyp
      linarith
    have hle3 : x.im ≤ y.im := by nlinarith
    nlinarith

/-- The two roots of the code. -/
noncomputable def fccS (z : ℂ) : ℂ := fccSignedSqrt z / fccSignedSqrt (z + 1)

@[inherit_doc fccS]
noncomputable def fccA (z : ℂ) : ℂ := fccSignedSqrt (z - 3) / fccSignedSqrt (z + 1)

/-- The uniformising variable of the code. -/
noncomputable def fccQv (z : ℂ) : ℂ := 2 * fccS z - fccA z

lemma fcc_roots_code {z : ℂ} (hz : z.im ≤ 0) (hw : z + 1 ≠ 0) :
    FccRoots (1 / (z + 1)) (fccS z) (fccA z) ∧ (fccS z).im ≤ 0 ∧ (fccA z).im ≤ 0 := by
  obtain ⟨s1, s2, s3⟩ := fcc_ratio hz (δ := 1) (by norm_num) (by simpa using hw)
  have hz3 : (z - 3).im ≤ 0 := by simpa using hz
  have e3 : z - 3 + ((4 : ℝ) : ℂ) = z + 1 := by push_cast; ring
  obtain ⟨a1, a2, a3⟩ := fcc_ratio hz3 (δ := 4) (by norm_num) (by rw [e3]; exact hw)
  rw [e3] at a1 a2 a3
  rw [Complex.ofReal_one] at s1 s2 s3
  refine ⟨⟨?_, ?_, s2, a2, mul_nonneg_of_nonpos_of_nonpos s3 a3⟩, s3, a3⟩
  · unfold fccS
    rw [s1]
    field_simp
    ring
  · unfold fccA
    rw [a1]
    field_simp
    ring

lemma fccQv_spec {z : ℂ} (hz : z.im ≤ 0) (hw : z + 1 ≠ 0) : FccQ (fccQv z) := by
  obtain ⟨h, hs, ha⟩ := fcc_roots_code hz hw
  exact h.toQ hs ha

lemma fcc_sums {z : ℂ} (hz : z.im ≤ 0) (hw : z + 1 ≠ 0) :
    4 * fccSignedSqrt z * fccSignedSqrt (z + 1) ^ (-3 : ℤ) = 4 * (1 / (z + 1) * fccS z) ∧
    (z - 1) * fccSignedSqrt (z - 3) * fccSignedSqrt (z + 1) ^ (-3 : ℤ) = (1 - 2 * (1 / (z + 1))) * fccA z := by
  have hwi : (z + 1).im ≤ 0 := by simpa using hz
  obtain ⟨b1, -, -⟩ := fccSignedSqrt_spec hwi
  unfold fccS fccA
  set y := fccSignedSqrt (z + 1) with hy
  have hy0 : y ≠ 0 := fun h => hw (by rw [← b1, h]; simp)
  have e : y ^ (-3 : ℤ) = 1 / (y ^ 2 * y) := by
    rw [zpow_neg, one_div, ← pow_succ]
    norm_cast
  rw [e, b1]
  constructor
  · field_simp
  · have : z - 1 = (z + 1) * (1 - 2 * (1 / (z + 1))) := by field_simp; ring
    rw [this]
    field_simp

lemma fccMp_eq {z : ℂ} (hz : z.im ≤ 0) (hw : z + 1 ≠ 0) : fccMp z = fccAl (fccQv z) := by
  obtain ⟨h1, h2⟩ := fcc_sums hz hw
  unfold fccMp
  simp only
  rw [h1, h2, fccQv, (fcc_roots_code hz hw).1.al, show (0.5 : ℂ) = 1 / 2 by norm_num]
  ring

lemma fccMm_eq {z : ℂ} (hz : z.im ≤ 0) (hw : z + 1 ≠ 0) : fccMm z = fccBe (fccQv z) := by
  obtain ⟨h1, h2⟩ := fcc_sums hz hw
  unfold fccMm
  simp only
  rw [h1, h2, fccQv, (fcc_roots_code hz hw).1.be, show (0.5 : ℂ) = 1 / 2 by norm_num]
  ring

/-- The elliptic integral `kii` of the code off its branch cut. -/
lemma fccKiiOf_eq {ellipk : ℂ → ℂ} (hk : EllipkContract ellipk) {q : ℂ} (hq : FccQ q)
    (h : (fccAl q).im ≠ 0 ∨ (fccAl q).re ≤ 1) : fccKiiOf ellipk (fccAl q) = q * ellipK (fccBe q) := by
  unfold fccKiiOf
  simp only
  rcases eq_or_lt_of_le hq.im with hi | hi
  · have hqr : q = ((q.re : ℝ) : ℂ) := Complex.ext rfl (by rw [Complex.ofReal_im, ← hi])
    have hx0 : 0 < q.re := lt_of_le_of_ne hq.re fun h0 => hq.ne (Complex.ext h0.symm hi.symm)
    have hx3 : q.re ^ 2 ≤ 3 := by
      have := hq.le
      rw [Complex.normSq_apply, ← hi] at this
      nlinarith
    rw [hqr]
    obtain ⟨m, hm, em⟩ := fccAl_real hx0 (by nlinarith)
    rw [← fcc_modular_real hx0 hx3, em, if_neg (by simp), hk.off]
    rw [← Complex.ofReal_one, ← Complex.ofReal_sub, Complex.ofReal_mem_slitPlane]
    linarith
  · rw [← fcc_modular hq hi, fccKii]
    rcases lt_trichotomy (fccAl q).im 0 with h0 | h0 | h0
    · rw [if_pos h0, hk.off, hk.off, ellipK_conn' h0]
      · ring
      · rw [sub_sub_cancel, Complex.mem_slitPlane_iff]; exact Or.inr h0.ne
      · exact mem_ellipDom_of_im h0.ne
    · exfalso
      have hJ := fccAl_mem hq hi
      rw [ellipJDom, Set.mem_ofPred_eq, Complex.mem_slitPlane_iff, Complex.sub_re, Complex.one_re, Complex.sub_im,
        Complex.one_im, sub_zero] at hJ
      rcases hJ with hJ | hJ
      · rcases h with h | h
        · exact h h0
        · linarith
      · exact hJ h0
    · rw [if_neg (not_lt.2 h0.le), hk.off _ (mem_ellipDom_of_im h0.ne'), ellipK_conn h0]

/-- The elliptic integral `kii` of the code on its branch cut. -/
lemma fccKiiOf_cut {ellipk : ℂ → ℂ} {q : ℂ} (hq : FccQ q) {m : ℝ} (hm : 1 < m) (h : fccAl q = m) :
    fccKiiOf ellipk (fccAl q) = ellipk m ∧ conj (ellipK m) = q * ellipK (fccBe q) := by
  constructor
  · unfold fccKiiOf
    simp only
    rw [h, if_neg (by simp)]
  · have hi : 0 < q.im := by
      refine lt_of_le_of_ne hq.im fun hi => ?_
      have hqr : q = ((q.re : ℝ) : ℂ) := Complex.ext rfl (by rw [Complex.ofReal_im, ← hi])
      have hx0 : 0 < q.re := lt_of_le_of_ne hq.re fun h0 => hq.ne (Complex.ext h0.symm hi.symm)
      have hx3 : q.re ^ 2 ≤ 3 := by
        have := hq.le
        rw [Complex.normSq_apply, ← hi] at this
        nlinarith
      obtain ⟨m', hm', em⟩ := fccAl_real hx0 (by nlinarith)
      rw [← hqr, h] at em
      have : m = m' := by exact_mod_cast em
      linarith
    rw [← fcc_modular hq hi, h, fccKii_cut hm]

/-- The advanced Green's function computed by the code. -/
noncomputable def fccLow (z : ℂ) : ℂ := fccR (1 / (z + 1)) (fccQv z)

lemma fccLow_eq {z : ℂ} (hz : z.im ≤ 0) (hoff : ∀ e ∈ Set.Icc (-1 : ℝ) 3, z ≠ (e : ℂ)) : fccLow z = fccForm z := by
  have hw : z + 1 ≠ 0 := fun h => hoff (-1) (by norm_num) (by push_cast; linear_combination h)
  rw [fccForm_of hoff (fcc_roots_code hz hw).1, fccLow, fccQv]

lemma fcc_core {ellipk : ℂ → ℂ} (hk : EllipkContract ellipk) {z d : ℂ} (hz : z.im ≤ 0) (hw : z + 1 ≠ 0)
    (h : (fccMp z).im ≠ 0 ∨ (fccMp z).re ≤ 1) :
    4 / (Real.pi ^ 2 * d * (z + 1)) * ellipk (fccMm z) * fccKiiOf ellipk (fccMp z) = 1 / d * fccLow z := by
  have hq := fccQv_spec hz hw
  rw [fccMp_eq hz hw] at h ⊢
  rw [fccMm_eq hz hw, fccKiiOf_eq hk hq h, hk.off _ (fccBe_mem hq.ne hq.re hq.le), fccLow, fccR]
  generalize z + 1 = w
  ring

lemma fccEnergy_im (z : ℂ) (D : ℝ) : (fccEnergy z D).im ≤ 0 := by
  unfold fccEnergy
  simp only
  split_ifs with h
  · rw [Complex.conj_im]; linarith
  · exact not_lt.1 h

lemma fccEnergy_cases (z : ℂ) (D : ℝ) :
    (0 < (1 / ((D : ℂ) / 2) * z).im ∧ fccEnergy z D = 2 / D * conj z) ∨
    (¬0 < (1 / ((D : ℂ) / 2) * z).im ∧ fccEnergy z D = 2 / D * z) := by
  unfold fccEnergy
  simp only
  have e : 1 / ((D : ℂ) / 2) = 2 / D := by rw [one_div_div]
  rw [e]
  split_ifs with h
  · left
    refine ⟨h, ?_⟩
    rw [map_mul, map_div₀, Complex.conj_ofReal, Complex.conj_ofNat]
  · exact Or.inr ⟨h, rfl⟩

/-- The parameter `m_p` is not on the branch cut of the elliptic integral. -/
def FccRegular (z : ℂ) (D : ℝ) : Prop := (fccMp (fccEnergy z D)).im ≠ 0 ∨ (fccMp (fccEnergy z D)).re ≤ 1

lemma fcc_conj_off {z : ℂ} {a b : ℝ} (hz : ∀ e ∈ Set.Icc a b, z ≠ (e : ℂ)) : ∀ e ∈ Set.Icc a b, conj z ≠ (e : ℂ) := by
  intro e he h
  refine hz e he ?_
  rw [← Complex.conj_conj z, h, Complex.conj_ofReal]

/-- C62: `fcc.gf_z` and `fcc.hilbert_transform` are the local Green's function of the dispersion for all energies off the
band for which `m_p` is not on the branch cut of the elliptic integral. What is missing: the energies where it is,
there the result is wrong, see `fcc_gf_z_cut`. -/
theorem fcc_gf_z_partial {ellipk : ℂ → ℂ} (hk : EllipkContract ellipk) {D : ℝ} (hD : 0 < D) {z : ℂ}
    (hz : ∀ e ∈ Set.Icc (-(D / 2)) (3 * D / 2), z ≠ (e : ℂ)) (hr : FccRegular z D) :
    fccGfZ ellipk z D = bzGreen bz3 (fccDisp D) z ∧ fccHilbert ellipk z D = bzGreen bz3 (fccDisp D) z := by
  suffices h : fccGfZ ellipk z D = bzGreen bz3 (fccDisp D) z from ⟨h, h⟩
  unfold fccGfZ
  simp only
  have hi := fccEnergy_im z D
  rcases fccEnergy_cases z D with ⟨h, e⟩ | ⟨h, e⟩
  · have hc := fcc_conj_off hz
    have hoff := fcc_offBand hD hc
    rw [← e] at hoff
    have hw : fccEnergy z D + 1 ≠ 0 := fun h => hoff (-1) (by norm_num) (by push_cast; linear_combination h)
    rw [if_pos h, fcc_core hk hi hw hr, fccLow_eq hi hoff, e, one_div_div, ← fcc_green hD hc, bzGreen_conj, Complex.conj_conj]
  · have hoff := fcc_offBand hD hz
    rw [← e] at hoff
    have hw : fccEnergy z D + 1 ≠ 0 := fun h => hoff (-1) (by norm_num) (by push_cast; linear_combination h)
    rw [if_neg h, fcc_core hk hi hw hr, fccLow_eq hi hoff, e, one_div_div, ← fcc_green hD hz]

/-! ### The branch cut -/

/-- On the branch cut: the energy as function of the uniformising variable. -/
lemma fcc_cut_norm {q v : ℂ} (hq : FccQ q) (hi : 0 < q.im) (h : (fccAl q).im = 0)
    (hv : v = (q ^ 2 - 1) * (9 - q ^ 2) / (16 * q ^ 2)) : 1 / 4 ≤ Complex.normSq v := by
  have hN : 0 < Complex.normSq q := Complex.normSq_pos.2 hq.ne
  have h1 := fccAl_im hq.ne
  rw [h, mul_zero] at h1
  have h2 : Complex.normSq q * (9 - Complex.normSq q) ^ 2 = 108 * q.im ^ 2 := by
    rcases mul_eq_zero.1 h1.symm with h' | h'
    · exact absurd h' hi.ne'
    · linarith
  set N := Complex.normSq q with hNd
  have hNq : N = q.re ^ 2 + q.im ^ 2 := by rw [hNd, Complex.normSq_apply]; ring
  have hA : Complex.normSq (q ^ 2 - 1) = N ^ 2 + 1 - 2 * (N - 2 * q.im ^ 2) := by
    rw [hNq, Complex.normSq_apply, pow_two q]
    simp only [Complex.sub_re, Complex.sub_im, Complex.mul_re, Complex.mul_im, Complex.one_re, Complex.one_im]
    ring
  have hB : Complex.normSq (9 - q ^ 2) = N ^ 2 + 81 - 18 * (N - 2 * q.im ^ 2) := by
    rw [hNq, Complex.normSq_apply, pow_two q]
    simp only [Complex.sub_re, Complex.sub_im, Complex.mul_re, Complex.mul_im]
    norm_num
    ring
  have hV : Complex.normSq v = Complex.normSq (q ^ 2 - 1) * Complex.normSq (9 - q ^ 2) / (256 * N ^ 2) := by
    rw [hv, map_div₀, map_mul, map_mul, map_pow]
    norm_num [Complex.normSq_apply]
    rfl
  rw [hV, le_div_iff₀ (by positivity), hA, hB]
  have hle : N ≤ 3 := hq.le
  have e : q.im ^ 2 = N * (9 - N) ^ 2 / 108 := by linarith
  rw [e]
  have e1 : N ^ 2 + 1 - 2 * (N - 2 * (N * (9 - N) ^ 2 / 108)) = (N + 3) ^ 3 / 27 := by ring
  have e2 : N ^ 2 + 81 - 18 * (N - 2 * (N * (9 - N) ^ 2 / 108)) = (9 - N) ^ 2 * (N + 3) / 3 := by ring
  rw [e1, e2]
  have h3 : 72 * N ≤ (N + 3) ^ 2 * (9 - N) := by nlinarith [mul_nonneg (sub_nonneg.2 hle) (by positivity : 0 ≤ N ^ 2 + 27)]
  have h4 : (72 * N) ^ 2 ≤ ((N + 3) ^ 2 * (9 - N)) ^ 2 := pow_le_pow_left₀ (by positivity) h3 2
  nlinarith

/-- C62: for energies further than the half-bandwidth from the lower band edge, and for energies above the upper
band edge, the parameter `m_p` is not on the branch cut. -/
theorem fcc_regular_of_far {D : ℝ} (hD : 0 < D) {z : ℂ} (hz : D < ‖z + D / 2‖) : FccRegular z D := by
  have hDc : (D : ℂ) ≠ 0 := by exact_mod_cast hD.ne'
  have hi := fccEnergy_im z D
  have hn : 2 < ‖fccEnergy z D + 1‖ := by
    have h1 : ‖(2 / (D : ℂ)) * (z + D / 2)‖ = ‖fccEnergy z D + 1‖ := by
      rcases fccEnergy_cases z D with ⟨_, e⟩ | ⟨_, e⟩
      · rw [e, ← Complex.norm_conj (2 / (D : ℂ) * (z + D / 2))]
        congr 1
        simp only [map_mul, map_add, map_div₀, Complex.conj_ofReal, Complex.conj_ofNat]
        field_simp
      · rw [e]
        congr 1
        field_simp
    rw [← h1, norm_mul, norm_div, Complex.norm_ofNat, Complex.norm_real, Real.norm_eq_abs, abs_of_pos hD, div_mul_eq_mul_div,
      lt_div_iff₀ hD]
    linarith
  have hw : fccEnergy z D + 1 ≠ 0 := fun h => by rw [h] at hn; norm_num at hn
  have hq := fccQv_spec hi hw
  unfold FccRegular
  rw [fccMp_eq hi hw]
  by_contra hcon
  push Not at hcon
  obtain ⟨him, hre⟩ := hcon
  have hqi : 0 < (fccQv (fccEnergy z D)).im := by
    refine lt_of_le_of_ne hq.im fun h0 => ?_
    set q := fccQv (fccEnergy z D) with hqd
    have hqr : q = ((q.re : ℝ) : ℂ) := Complex.ext rfl (by rw [Complex.ofReal_im, ← h0])
    have hx0 : 0 < q.re := lt_of_le_of_ne hq.re fun h => hq.ne (Complex.ext h.symm h0.symm)
    have hx3 : q.re ^ 2 ≤ 3 := by
      have := hq.le
      rw [Complex.normSq_apply, ← h0] at this
      nlinarith
    obtain ⟨m', hm', em⟩ := fccAl_real hx0 (by nlinarith)
    rw [← hqr] at em
    rw [em, Complex.ofReal_re] at hre
    linarith
  obtain ⟨q, hq0, e1, -, -, e4⟩ := (fcc_roots_code hi hw).1.param
  change fccQv (fccEnergy z D) = q at e1
  rw [e1] at hq hqi him
  have h1 := fcc_cut_norm hq hqi him e4
  rw [Complex.normSq_eq_norm_sq, norm_div, norm_one, div_pow, one_pow, one_div, one_div] at h1
  have h2 := (inv_le_inv₀ (by norm_num) (by positivity)).1 h1
  nlinarith

/-- The Green's function has no zeros off the real axis. -/
lemma bzGreen_ne_zero {κ : Type*} [MeasurableSpace κ] {μ : Measure κ} [IsProbabilityMeasure μ] {disp : κ → ℝ}
    (hm : Measurable disp) {M : ℝ} (hb : ∀ k, |disp k| ≤ M) {z : ℂ} (hz : 0 < z.im) : bzGreen μ disp z ≠ 0 := by
  have hint : Integrable (fun k => 1 / (z - (disp k : ℂ))) μ := by
    refine Integrable.of_bound (C := 1 / z.im) (by apply Measurable.aestronglyMeasurable; fun_prop) (.of_forall fun k => ?_)
    rw [norm_div, norm_one]
    apply one_div_le_one_div_of_le hz
    refine le_trans (le_of_eq ?_) (Complex.im_le_norm _)
    simp
  have hne : ∀ k, z - (disp k : ℂ) ≠ 0 := fun k h => by
    have := congrArg Complex.im h
    simp at this
    exact hz.ne' this
  set c := z.im / (‖z‖ + M) ^ 2 with hc
  have hMz : 0 < ‖z‖ := norm_pos_iff.2 fun h => by rw [h] at hz; simp at hz
  have hk : ∀ k, (1 / (z - (disp k : ℂ))).im ≤ -c := by
    intro k
    have hM : 0 ≤ M := (abs_nonneg _).trans (hb k)
    have h1 : ‖z - (disp k : ℂ)‖ ≤ ‖z‖ + M := (norm_sub_le _ _).trans (by
      rw [Complex.norm_real, Real.norm_eq_abs]
      linarith [hb k])
    have h2 : 0 < ‖z - (disp k : ℂ)‖ := norm_pos_iff.2 (hne k)
    have : (1 / (z - (disp k : ℂ))).im = -(z.im / ‖z - (disp k : ℂ)‖ ^ 2) := by
      rw [one_div, Complex.inv_im, Complex.normSq_eq_norm_sq]
      simp
      ring
    rw [this, hc]
    apply neg_le_neg
    gcongr
  intro h0
  have h1 : (∫ k, 1 / (z - (disp k : ℂ)) ∂μ).im = ∫ k, (1 / (z - (disp k : ℂ))).im ∂μ := (integral_im hint).symm
  unfold bzGreen at h0
  rw [h0, Complex.zero_im] at h1
  have h2 : ∫ k, (1 / (z - (disp k : ℂ))).im ∂μ ≤ ∫ _, -c ∂μ := integral_mono hint.im (integrable_const _) hk
  rw [integral_const, probReal_univ, one_smul, ← h1] at h2
  have : Nonempty κ := nonempty_of_isProbabilityMeasure μ
  have hM : 0 ≤ M := (abs_nonneg _).trans (hb this.some)
  have : 0 < c := by positivity
  linarith

lemma fccDisp_abs {D : ℝ} (hD : 0 ≤ D) (k : ℝ × ℝ × ℝ) : |fccDisp D k| ≤ 3 * D / 2 := by
  have := fccDisp_range hD k
  rw [abs_le]
  constructor <;> linarith [this.1, this.2]

lemma fcc_green_ne {D : ℝ} (hD : 0 < D) {z : ℂ} (hz : z.im ≠ 0) : bzGreen bz3 (fccDisp D) z ≠ 0 := by
  rcases lt_or_gt_of_ne hz with h | h
  · have := bzGreen_ne_zero (μ := bz3) (measurable_fccDisp D) (fccDisp_abs hD.le) (z := conj z) (by simpa using h)
    rw [bzGreen_conj] at this
    exact fun h0 => this (by rw [h0, map_zero])
  · exact bzGreen_ne_zero (measurable_fccDisp D) (fccDisp_abs hD.le) h

lemma ellipK_cut_im {m : ℝ} (hm : 1 < m) : (ellipK m).im < 0 := by
  have hm0 : 0 < m := by linarith
  rw [ellipK_cut hm]
  have : 0 < ellipKR (1 - 1 / m) / √m :=
    div_pos (ellipKR_pos (by have : 0 < 1 / m := by positivity
                             linarith)) (Real.sqrt_pos.2 hm0)
  simpa using this

lemma fcc_core_cut {ellipk : ℂ → ℂ} (hk : EllipkContract ellipk) {z d : ℂ} (hz : z.im ≤ 0) (hw : z + 1 ≠ 0)
    (h : ¬((fccMp z).im ≠ 0 ∨ (fccMp z).re ≤ 1)) : ∃ m : ℝ, 1 < m ∧ fccMp z = m ∧
    4 / (Real.pi ^ 2 * d * (z + 1)) * ellipk (fccMm z) * fccKiiOf ellipk (fccMp z)
      = 4 / (Real.pi ^ 2 * d * (z + 1)) * ellipK (fccBe (fccQv z)) * ellipk m ∧
    1 / d * fccLow z = 4 / (Real.pi ^ 2 * d * (z + 1)) * ellipK (fccBe (fccQv z)) * conj (ellipK m) := by
  push Not at h
  have hq := fccQv_spec hz hw
  have em : fccMp z = (((fccMp z).re : ℝ) : ℂ) := Complex.ext rfl (by rw [Complex.ofReal_im, h.1])
  refine ⟨(fccMp z).re, h.2, em, ?_, ?_⟩
  · rw [fccMm_eq hz hw, hk.off _ (fccBe_mem hq.ne hq.re hq.le)]
    have e2 : fccAl (fccQv z) = (((fccMp z).re : ℝ) : ℂ) := by rw [← fccMp_eq hz hw, ← em]
    rw [← (fccKiiOf_cut (ellipk := ellipk) hq h.2 e2).1, fccMp_eq hz hw]
  · have e2 : fccAl (fccQv z) = (((fccMp z).re : ℝ) : ℂ) := by rw [← fccMp_eq hz hw, ← em]
    rw [(fccKiiOf_cut (ellipk := ellipk) hq h.2 e2).2, fccLow, fccR]
    generalize z + 1 = w
    ring

/-- C62, disagreement: on the branch cut of the elliptic integral (with mpmath's value `ellipK` there) the result of
`fcc.gf_z` is not the Green's function. -/
theorem fcc_gf_z_cut {D : ℝ} (hD : 0 < D) {z : ℂ} (hz : z.im ≠ 0) (hr : ¬FccRegular z D) :
    fccGfZ ellipK z D ≠ bzGreen bz3 (fccDisp D) z := by
  have hoff : ∀ e ∈ Set.Icc (-(D / 2)) (3 * D / 2), z ≠ (e : ℂ) := fun e _ h => hz (by rw [h, Complex.ofReal_im])
  have hi := fccEnergy_im z D
  have key : ∀ y : ℂ, fccEnergy z D = 2 / D * y → (∀ e ∈ Set.Icc (-(D / 2)) (3 * D / 2), y ≠ (e : ℂ)) →
      bzGreen bz3 (fccDisp D) y ≠ 0 →
      4 / (Real.pi ^ 2 * ((D : ℂ) / 2) * (fccEnergy z D + 1)) * ellipK (fccMm (fccEnergy z D))
        * fccKiiOf ellipK (fccMp (fccEnergy z D)) ≠ bzGreen bz3 (fccDisp D) y := by
    intro y e hy hy0 heq
    have hoff := fcc_offBand hD hy
    rw [← e] at hoff
    have hw : fccEnergy z D + 1 ≠ 0 := fun h => hoff (-1) (by norm_num) (by push_cast; linear_combination h)
    obtain ⟨m, hm, -, h1, h2⟩ := fcc_core_cut EllipkContract.exact (d := (D : ℂ) / 2) hi hw hr
    have h3 : bzGreen bz3 (fccDisp D) y = 1 / ((D : ℂ) / 2) * fccLow (fccEnergy z D) := by
      rw [fccLow_eq hi hoff, one_div_div, e, fcc_green hD hy]
    rw [h1, h3, h2] at heq
    rw [h3, h2] at hy0
    have h4 := mul_left_cancel₀ (left_ne_zero_of_mul hy0) heq
    have h5 := congrArg Complex.im h4
    rw [Complex.conj_im] at h5
    linarith [ellipK_cut_im hm]
  unfold fccGfZ
  simp only
  rcases fccEnergy_cases z D with ⟨h, e⟩ | ⟨h, e⟩
  · rw [if_pos h]
    intro heq
    refine key (conj z) e (fcc_conj_off hoff) (fcc_green_ne hD (by simpa using hz)) ?_
    rw [bzGreen_conj, ← heq, Complex.conj_conj]
  · rw [if_neg h]
    exact key z e hoff (fcc_green_ne hD hz)

/-- Energies with given roots. -/
lemma fccQv_of {z s a : ℂ} (hz : z.im ≤ 0) (hw : z + 1 ≠ 0) (h : FccRoots (1 / (z + 1)) s a) (hs : s.im ≤ 0) (ha : a.im ≤ 0) :
    fccQv z = 2 * s - a := by
  obtain ⟨h', hs', ha'⟩ := fcc_roots_code hz hw
  unfold fccQv
  rw [root_unique (h'.s_sq.trans h.s_sq.symm) h'.s_re hs' h.s_re hs, root_unique (h'.a_sq.trans h.a_sq.symm) h'.a_re ha' h.a_re ha]

/-- C62, disagreement: for the half-bandwidth 2 and the energy `z = (-1 - 3√11 i)/16`, the parameter `m_p` is
on the branch cut, and `fcc.gf_z` is not the Green's function. -/
theorem fcc_gf_z_wrong : ¬FccRegular ⟨-1 / 16, -(3 * √11 / 16)⟩ 2 ∧
    fccGfZ ellipK ⟨-1 / 16, -(3 * √11 / 16)⟩ 2 ≠ bzGreen bz3 (fccDisp 2) ⟨-1 / 16, -(3 * √11 / 16)⟩ := by
  have h11 : √11 ^ 2 = 11 := Real.sq_sqrt (by norm_num)
  have hp11 : 0 < √11 := Real.sqrt_pos.2 (by norm_num)
  have h27 : √27 ^ 2 = 27 := Real.sq_sqrt (by norm_num)
  have hp27 : 0 < √27 := Real.sqrt_pos.2 (by norm_num)
  obtain ⟨z, hz⟩ : ∃ z : ℂ, z = ⟨-1 / 16, -(3 * √11 / 16)⟩ := ⟨_, rfl⟩
  rw [← hz]
  have hzi : z.im < 0 := by
    rw [hz]
    simp only [Left.neg_neg_iff]
    positivity
  obtain ⟨x, hx⟩ : ∃ x : ℝ, x = √11 / √27 := ⟨_, rfl⟩
  obtain ⟨y, hy⟩ : ∃ y : ℝ, y = 4 / √27 := ⟨_, rfl⟩
  have hx0 : 0 < x := by rw [hx]; positivity
  have hy0 : 0 < y := by rw [hy]; positivity
  have hx2 : x ^ 2 = 11 / 27 := by rw [hx, div_pow, h11, h27]
  have hy2 : y ^ 2 = 16 / 27 := by rw [hy, div_pow, h27]; norm_num
  have hxy : x * y = 4 * √11 / 27 := by
    rw [hx, hy, div_mul_div_comm, ← pow_two, h27]
    ring
  have hE : fccEnergy z 2 = z := by
    rcases fccEnergy_cases z 2 with ⟨h, e⟩ | ⟨h, e⟩
    · exfalso
      norm_num at h
      linarith
    · rw [e]
      norm_num
  have hw : z + 1 ≠ 0 := fun h => by
    have := congrArg Complex.im h
    rw [Complex.add_im, Complex.one_im, Complex.zero_im] at this
    linarith
  have hv : 1 / (z + 1) = ⟨20 / 27, 4 * √11 / 27⟩ := by
    rw [div_eq_iff hw, hz]
    apply Complex.ext
    · rw [Complex.mul_re, Complex.one_re, Complex.add_re, Complex.add_im, Complex.one_re, Complex.one_im]
      linear_combination (-1 / 36) * h11
    · rw [Complex.mul_im, Complex.one_im, Complex.add_re, Complex.add_im, Complex.one_re, Complex.one_im]
      ring
  have hroots : FccRoots (1 / (z + 1)) ⟨x, -(y / 2)⟩ ⟨x, -(2 * y)⟩ := by
    rw [hv]
    refine ⟨?_, ?_, hx0.le, hx0.le, ?_⟩
    · apply Complex.ext
      · rw [pow_two, Complex.mul_re, Complex.sub_re, Complex.one_re]
        linear_combination hx2 - hy2 / 4
      · rw [pow_two, Complex.mul_im, Complex.sub_im, Complex.one_im]
        linear_combination -hxy
    · apply Complex.ext
      · rw [pow_two, Complex.mul_re, Complex.sub_re, Complex.one_re, Complex.mul_re]
        norm_num
        linear_combination hx2 - 4 * hy2
      · rw [pow_two, Complex.mul_im, Complex.sub_im, Complex.one_im, Complex.mul_im]
        norm_num
        linear_combination -4 * hxy
    · change 0 ≤ -(y / 2) * -(2 * y)
      have := mul_pos hy0 hy0
      nlinarith
  have hs : ((⟨x, -(y / 2)⟩ : ℂ)).im ≤ 0 := by simp only [Left.neg_nonpos_iff]; positivity
  have ha : ((⟨x, -(2 * y)⟩ : ℂ)).im ≤ 0 := by simp only [Left.neg_nonpos_iff]; positivity
  have hqv := fccQv_of hzi.le hw hroots hs ha
  have hq : fccQv z = ⟨x, y⟩ := by
    rw [hqv]
    apply Complex.ext
    · rw [Complex.sub_re, Complex.mul_re]
      norm_num
      ring
    · rw [Complex.sub_im, Complex.mul_im]
      norm_num
      ring
  have hQ := fccQv_spec hzi.le hw
  have hi : 0 < (fccQv z).im := by rw [hq]; exact hy0
  have hJ := fccAl_mem hQ hi
  have him : (fccAl (fccQv z)).im = 0 := by
    have h1 := fccAl_im hQ.ne
    have hN : Complex.normSq (fccQv z) = 1 := by
      rw [hq, Complex.normSq_apply]
      linear_combination hx2 + hy2
    rw [hN] at h1
    have h2 : (fccQv z).im ^ 2 = 16 / 27 := by rw [hq]; exact hy2
    rw [h2] at h1
    linarith
  have hreg : ¬FccRegular z 2 := by
    unfold FccRegular
    rw [hE, fccMp_eq hzi.le hw]
    push Not
    refine ⟨him, ?_⟩
    rw [ellipJDom, Set.mem_ofPred_eq, Complex.mem_slitPlane_iff, Complex.sub_re, Complex.one_re, Complex.sub_im,
      Complex.one_im, sub_zero] at hJ
    rcases hJ with h | h
    · linarith
    · exact absurd him h
  exact ⟨hreg, fcc_gf_z_cut (by norm_num) hzi.ne hreg⟩

/-! ### Boundary values -/

/-- The retarded Green's function in the closed upper half-plane. -/
noncomputable def fccUp (z : ℂ) : ℂ := fccR (1 / (z + 1)) (2 * sqrtU (1 - 1 / (z + 1)) - sqrtU (1 - 4 * (1 / (z + 1))))

lemma fcc_inv_im (z : ℂ) : (1 / (z + 1)).im = -(z.im / Complex.normSq (z + 1)) := by
  rw [one_div, Complex.inv_im, Complex.add_im, Complex.one_im, add_zero]
  ring

lemma fccRootsU {z : ℂ} (hi : 0 ≤ z.im) :
    FccRoots (1 / (z + 1)) (sqrtU (1 - 1 / (z + 1))) (sqrtU (1 - 4 * (1 / (z + 1)))) := by
  have h0 : (1 / (z + 1)).im ≤ 0 := by
    rw [fcc_inv_im]
    have : 0 ≤ z.im / Complex.normSq (z + 1) := div_nonneg hi (Complex.normSq_nonneg _)
    linarith
  refine ⟨sqrtU_sq ?_, sqrtU_sq ?_, sqrtU_re_nonneg _, sqrtU_re_nonneg _, mul_nonneg (sqrtU_im_nonneg _) (sqrtU_im_nonneg _)⟩
  · rw [Complex.sub_im, Complex.one_im]
    linarith
  · rw [Complex.sub_im, Complex.one_im, show (4 : ℂ) = ((4 : ℝ) : ℂ) by norm_num, Complex.im_ofReal_mul]
    linarith

lemma continuousAt_fccUp {z : ℂ} (hi : 0 ≤ z.im) (hw : z + 1 ≠ 0) : ContinuousAt fccUp z := by
  have hv : ContinuousAt (fun z : ℂ => 1 / (z + 1)) z := ContinuousAt.div continuousAt_const (by fun_prop) hw
  have hs : ContinuousAt (fun z : ℂ => sqrtU (1 - 1 / (z + 1))) z :=
    continuous_sqrtU.continuousAt.comp (f := fun z : ℂ => 1 - 1 / (z + 1)) (continuousAt_const.sub hv)
  have ha : ContinuousAt (fun z : ℂ => sqrtU (1 - 4 * (1 / (z + 1)))) z :=
    continuous_sqrtU.continuousAt.comp (f := fun z : ℂ => 1 - 4 * (1 / (z + 1)))
      (continuousAt_const.sub (continuousAt_const.mul hv))
  have hq : ContinuousAt (fun z : ℂ => 2 * sqrtU (1 - 1 / (z + 1)) - sqrtU (1 - 4 * (1 / (z + 1)))) z :=
    (continuousAt_const.mul hs).sub ha
  have hk : ContinuousAt (fun z : ℂ => ellipK (fccBe (2 * sqrtU (1 - 1 / (z + 1)) - sqrtU (1 - 4 * (1 / (z + 1)))))) z :=
    ContinuousAt.comp (f := fun z : ℂ => 2 * sqrtU (1 - 1 / (z + 1)) - sqrtU (1 - 4 * (1 / (z + 1))))
      (g := fun q => ellipK (fccBe q)) (fccRootsU hi).differentiableAt.continuousAt hq
  exact (hv.mul hq).mul ((continuousAt_const.mul hk).pow 2)

lemma fccUp_upper {z : ℂ} (hi : 0 < z.im) : fccUp z = fccForm z := by
  rw [fccForm_of (fun e _ h => hi.ne' (by rw [h, Complex.ofReal_im])) (fccRootsU hi.le), fccUp]

lemma fccR_conj {v s a : ℂ} (h : FccRoots v s a) : fccR (conj v) (conj (2 * s - a)) = conj (fccR v (2 * s - a)) := by
  have e : fccBe (conj (2 * s - a)) = conj (fccBe (2 * s - a)) := by
    unfold fccBe
    simp only [map_mul, map_div₀, map_sub, map_add, map_pow, map_one, Complex.conj_ofNat]
  unfold fccR
  rw [e, ellipK_conj (fccBe_mem h.ne h.q_re h.normSq_le)]
  simp only [map_mul, map_div₀, map_pow, Complex.conj_ofNat, Complex.conj_ofReal]

/-- On the real axis the code has the boundary values from below. -/
lemma fccLow_real {x : ℝ} (hx : x ≠ -1) : fccLow x = conj (fccUp x) := by
  have hw : (x : ℂ) + 1 ≠ 0 := fun h => hx (by
    have : x + 1 = 0 := by exact_mod_cast h
    linarith)
  have hr := fccRootsU (z := (x : ℂ)) (by rw [Complex.ofReal_im])
  have hv : conj (1 / ((x : ℂ) + 1)) = 1 / ((x : ℂ) + 1) := by simp
  unfold fccLow fccUp
  rw [← fccR_conj hr, hv]
  congr 1
  have hc : FccRoots (1 / ((x : ℂ) + 1)) (conj (sqrtU (1 - 1 / ((x : ℂ) + 1)))) (conj (sqrtU (1 - 4 * (1 / ((x : ℂ) + 1))))) := by
    refine ⟨?_, ?_, ?_, ?_, ?_⟩
    · rw [← map_pow, hr.s_sq, map_sub, hv, map_one]
    · rw [← map_pow, hr.a_sq, map_sub, map_mul, hv, map_one, Complex.conj_ofNat]
    · rw [Complex.conj_re]; exact hr.s_re
    · rw [Complex.conj_re]; exact hr.a_re
    · rw [Complex.conj_im, Complex.conj_im]; linarith [hr.im]
  rw [fccQv_of (by rw [Complex.ofReal_im]) hw hc, map_sub, map_mul, Complex.conj_ofNat]
  · rw [Complex.conj_im]; linarith [sqrtU_im_nonneg (1 - 1 / ((x : ℂ) + 1))]
  · rw [Complex.conj_im]; linarith [sqrtU_im_nonneg (1 - 4 * (1 / ((x : ℂ) + 1)))]

/-- Outside of the band the Green's function is real. -/
lemma fccUp_out {x : ℝ} (hx : x < -1 ∨ 3 ≤ x) : (fccUp x).im = 0 := by
  have hv1 : 0 ≤ 1 - 1 / (x + 1) ∧ 0 ≤ 1 - 4 * (1 / (x + 1)) := by
    rcases hx with h | h
    · have : 1 / (x + 1) < 0 := one_div_neg.2 (by linarith)
      constructor <;> linarith
    · have h1 : 1 / (x + 1) ≤ 1 / 4 := one_div_le_one_div_of_le (by norm_num) (by linarith)
      constructor <;> linarith
  have hr := fccRootsU (z := (x : ℂ)) (by rw [Complex.ofReal_im])
  have e1 : (1 : ℂ) - 1 / ((x : ℂ) + 1) = ((1 - 1 / (x + 1) : ℝ) : ℂ) := by push_cast; ring
  have e4 : (1 : ℂ) - 4 * (1 / ((x : ℂ) + 1)) = ((1 - 4 * (1 / (x + 1)) : ℝ) : ℂ) := by push_cast; ring
  unfold fccUp
  rw [e1, e4, sqrtU_ofReal hv1.1, sqrtU_ofReal hv1.2] at hr ⊢
  have h := fccR_conj hr
  have h1 : conj (2 * ((√(1 - 1 / (x + 1)) : ℝ) : ℂ) - ((√(1 - 4 * (1 / (x + 1))) : ℝ) : ℂ))
      = 2 * ((√(1 - 1 / (x + 1)) : ℝ) : ℂ) - ((√(1 - 4 * (1 / (x + 1))) : ℝ) : ℂ) := by
    rw [map_sub, map_mul, Complex.conj_ofNat, Complex.conj_ofReal, Complex.conj_ofReal]
  have hv : conj (1 / ((x : ℂ) + 1)) = 1 / ((x : ℂ) + 1) := by simp
  rw [h1, hv] at h
  exact Complex.conj_eq_iff_im.1 h.symm

/-- The retarded Green's function on the real axis. -/
lemma fcc_tendsto {D x : ℝ} (hD : 0 < D) (hx : x ≠ -(D / 2)) :
    Filter.Tendsto (fun η : ℝ => bzGreen bz3 (fccDisp D) (x + η * Complex.I)) (𝓝[>] 0)
      (𝓝 (2 / D * fccUp ((2 / D * x : ℝ) : ℂ))) := by
  have hDc : (D : ℂ) ≠ 0 := by exact_mod_cast hD.ne'
  have hl : Filter.Tendsto (fun η : ℝ => (2 / D : ℂ) * ((x : ℂ) + η * Complex.I)) (𝓝[>] 0) (𝓝 ((2 / D * x : ℝ) : ℂ)) := by
    have : Filter.Tendsto (fun η : ℝ => (2 / D : ℂ) * ((x : ℂ) + η * Complex.I)) (𝓝 0)
        (𝓝 ((2 / D : ℂ) * ((x : ℂ) + (0 : ℝ) * Complex.I))) := by
      apply Continuous.tendsto
      have := Complex.continuous_ofReal
      fun_prop
    simp only [Complex.ofReal_zero, zero_mul, add_zero] at this
    push_cast
    exact this.mono_left nhdsWithin_le_nhds
  have hw : ((2 / D * x : ℝ) : ℂ) + 1 ≠ 0 := by
    intro h
    have h' : 2 / D * x + 1 = 0 := by exact_mod_cast h
    apply hx
    field_simp at h'
    linarith
  have hcont := continuousAt_fccUp (z := ((2 / D * x : ℝ) : ℂ)) (by rw [Complex.ofReal_im]) hw
  have h := (hcont.tendsto.comp hl).const_mul (2 / (D : ℂ))
  refine h.congr' ?_
  filter_upwards [self_mem_nhdsWithin] with η hη
  have hη : 0 < η := hη
  simp only [Function.comp]
  have him : ((2 / (D : ℂ)) * ((x : ℂ) + η * Complex.I)).im = 2 / D * η := by
    rw [show (2 : ℂ) / (D : ℂ) = ((2 / D : ℝ) : ℂ) by push_cast; rfl, Complex.im_ofReal_mul]
    simp
  rw [fcc_green hD (fun e _ h => hη.ne' (by
    have := congrArg Complex.im h
    simpa using this)), fccUp_upper]
  rw [him]
  positivity

/-- The density of states. -/
noncomputable def fccRho (D e : ℝ) : ℝ := 2 / D * (-(fccUp ((2 / D * e : ℝ) : ℂ)).im / Real.pi)

lemma fccUp_im_nonpos (x : ℝ) : (fccUp x).im ≤ 0 := by
  by_cases hx : x = -1
  · rw [hx, fccUp, fccR]
    norm_num
  have h := fcc_tendsto (D := 2) (by norm_num) (x := x) (by norm_num; exact hx)
  norm_num at h
  have h2 := (Complex.continuous_im.tendsto _).comp h
  refine le_of_tendsto h2 ?_
  filter_upwards [self_mem_nhdsWithin] with η hη
  exact bzGreen_im_nonpos (measurable_fccDisp 2) (by simpa using hη)

lemma fccRho_nonneg {D : ℝ} (hD : 0 < D) (e : ℝ) : 0 ≤ fccRho D e := by
  have := fccUp_im_nonpos (2 / D * e)
  have h2 : 0 ≤ -(fccUp ((2 / D * e : ℝ) : ℂ)).im := by linarith
  have := Real.pi_pos
  unfold fccRho
  positivity

lemma fcc_scaled_ne {D e : ℝ} (hD : 0 < D) (he : e ≠ -(D / 2)) : ((2 / D * e : ℝ) : ℂ) + 1 ≠ 0 := by
  intro h
  have h' : 2 / D * e + 1 = 0 := by exact_mod_cast h
  apply he
  field_simp at h'
  linarith

lemma continuousAt_fccRho {D e : ℝ} (hD : 0 < D) (he : e ≠ -(D / 2)) : ContinuousAt (fccRho D) e := by
  have hH := continuousAt_fccUp (z := ((2 / D * e : ℝ) : ℂ)) (by rw [Complex.ofReal_im]) (fcc_scaled_ne hD he)
  have h0 : ContinuousAt (fun e : ℝ => 2 / D * e) e := by fun_prop
  have h1 : ContinuousAt (fun e : ℝ => ((2 / D * e : ℝ) : ℂ)) e :=
    ContinuousAt.comp (f := fun e : ℝ => 2 / D * e) (g := fun x : ℝ => (x : ℂ)) Complex.continuous_ofReal.continuousAt h0
  have h2 : ContinuousAt (fun e : ℝ => fccUp ((2 / D * e : ℝ) : ℂ)) e :=
    ContinuousAt.comp (f := fun e : ℝ => ((2 / D * e : ℝ) : ℂ)) (g := fccUp) hH h1
  have h3 : ContinuousAt (fun e : ℝ => (fccUp ((2 / D * e : ℝ) : ℂ)).im) e :=
    ContinuousAt.comp (f := fun e : ℝ => fccUp ((2 / D * e : ℝ) : ℂ)) (g := Complex.im) Complex.continuous_im.continuousAt h2
  exact (h3.neg.div_const _).const_mul _

lemma bz_cos_half_null (c : ℝ) : bz {x : ℝ | Real.cos (x / 2) = c} = 0 := by
  have hc : {x : ℝ | Real.cos (x / 2) = c}.Countable := by
    by_cases hne : ∃ y, Real.cos y = c
    · obtain ⟨y, rfl⟩ := hne
      have : {x : ℝ | Real.cos (x / 2) = Real.cos y} ⊆ (Set.range fun k : ℤ => 2 * (y - 2 * (k : ℝ) * Real.pi)) ∪
          Set.range fun k : ℤ => 2 * (2 * (k : ℝ) * Real.pi - y) := by
        intro x hx
        obtain ⟨k, hk | hk⟩ := Real.cos_eq_cos_iff.1 hx
        · exact Or.inl ⟨k, by simp only; linarith⟩
        · exact Or.inr ⟨k, by simp only; linarith⟩
      exact ((Set.countable_range _).union (Set.countable_range _)).mono this
    · convert Set.countable_empty
      ext x
      simp only [Set.mem_ofPred_eq, Set.mem_empty_iff_false, iff_false]
      exact fun h => hne ⟨x / 2, h⟩
  have hv : volume.restrict (Set.Ioc 0 (2 * Real.pi)) {x : ℝ | Real.cos (x / 2) = c} = 0 :=
    Measure.restrict_le_self.absolutelyContinuous (hc.measure_zero volume)
  unfold bz
  rw [Measure.smul_apply, hv, smul_zero]

/-- Every energy has weight zero. -/
lemma fcc_null {D : ℝ} (hD : 0 < D) (E : ℝ) : bz3.map (fccDisp D) {E} = 0 := by
  rw [Measure.map_apply (measurable_fccDisp D) (measurableSet_singleton E)]
  have hmeas : MeasurableSet (fccDisp D ⁻¹' {E}) := measurable_fccDisp D (measurableSet_singleton E)
  unfold bz3
  rw [Measure.measure_prod_null hmeas]
  refine .of_forall fun x => ?_
  have hm2 : MeasurableSet (Prod.mk x ⁻¹' (fccDisp D ⁻¹' {E})) := measurable_prodMk_left hmeas
  change (bz.prod bz) (Prod.mk x ⁻¹' (fccDisp D ⁻¹' {E})) = 0
  rw [Measure.measure_prod_null hm2]
  have hae : ∀ᵐ y ∂bz, Real.cos (y / 2) ≠ -Real.cos (x / 2) := by
    rw [ae_iff]
    simp only [not_not]
    exact bz_cos_half_null _
  filter_upwards [hae] with y hy
  have hsum : Real.cos (x / 2) + Real.cos (y / 2) ≠ 0 := fun h => hy (by linarith)
  refine measure_mono_null ?_
    (bz_cos_half_null ((E * (2 / D) - Real.cos (x / 2) * Real.cos (y / 2)) / (Real.cos (x / 2) + Real.cos (y / 2))))
  intro z hz
  have hz : D / 2 * (Real.cos (x / 2) * Real.cos (y / 2) + Real.cos (x / 2) * Real.cos (z / 2)
    + Real.cos (y / 2) * Real.cos (z / 2)) = E := hz
  change Real.cos (z / 2) = _
  rw [eq_div_iff hsum, ← hz]
  field_simp
  ring

lemma isDosOf_fccRho {D : ℝ} (hD : 0 < D) : IsDosOf bz3 (fccDisp D) (fccRho D) := by
  have hp : 0 < 2 / D := by positivity
  have hre : ∀ w : ℂ, (2 / (D : ℂ) * w).re = 2 / D * w.re ∧ (2 / (D : ℂ) * w).im = 2 / D * w.im := fun w => by
    rw [show (2 : ℂ) / (D : ℂ) = ((2 / D : ℝ) : ℂ) by push_cast; rfl, Complex.re_ofReal_mul, Complex.im_ofReal_mul]
    exact ⟨rfl, rfl⟩
  refine isDosOf_of_boundary (measurable_fccDisp D) (measurable_of_continuousOn_compl_singleton (-(D / 2))
    fun e he => (continuousAt_fccRho hD he).continuousWithinAt) (fccRho_nonneg hD) (fcc_null hD (-(D / 2))) (by simp) ?_
  intro e he
  have he : e ≠ -(D / 2) := he
  have hd : 0 < |e - -(D / 2)| := abs_pos.2 (sub_ne_zero.2 he)
  set r := |e - -(D / 2)| / 2 with hr
  have hr0 : 0 < r := by positivity
  refine ⟨e - r, e + r, fun z => 2 / D * fccUp (2 / D * z), by linarith, by linarith, ?_, ?_, ?_⟩
  · intro z hz
    apply ContinuousAt.continuousWithinAt
    refine continuousAt_const.mul (ContinuousAt.comp (f := fun z : ℂ => 2 / (D : ℂ) * z) (g := fccUp)
      (continuousAt_fccUp ?_ ?_) (by fun_prop))
    · rw [(hre _).2]
      have := hz.2.1
      positivity
    · intro h
      have h1 := congrArg Complex.re h
      rw [Complex.add_re, (hre _).1, Complex.one_re, Complex.zero_re] at h1
      have h2 : z.re = -(D / 2) := by field_simp at h1; linarith
      have h3 : |e - z.re| ≤ r := abs_le.2 ⟨by linarith [hz.1.2], by linarith [hz.1.1]⟩
      rw [h2] at h3
      linarith
  · intro z hz hi
    simp only
    rw [fccUp_upper (by rw [(hre _).2]; positivity), ← fcc_green hD (fun e _ h => hi.ne' (by rw [h, Complex.ofReal_im]))]
  · intro x hx
    simp only
    rw [(hre _).2, fccRho]
    push_cast
    ring

/-! ### Real energies -/

lemma fccEnergy_real (x D : ℝ) : ¬0 < (1 / ((D : ℂ) / 2) * (x : ℂ)).im ∧ fccEnergy x D = ((2 / D * x : ℝ) : ℂ) := by
  have him : (1 / ((D : ℂ) / 2) * (x : ℂ)).im = 0 := by
    rw [show 1 / ((D : ℂ) / 2) * (x : ℂ) = ((1 / (D / 2) * x : ℝ) : ℂ) by push_cast; rfl, Complex.ofReal_im]
  rcases fccEnergy_cases x D with ⟨h, e⟩ | ⟨h, e⟩
  · linarith
  · exact ⟨h, by rw [e]; push_cast; rfl⟩

/-- For real energies, the branch cut is hit at exactly one energy. -/
lemma fcc_cut_real {x : ℝ} (hx : x ≠ -1) (h : ¬((fccMp x).im ≠ 0 ∨ (fccMp x).re ≤ 1)) :
    x = 1 ∧ fccBe (fccQv x) = (((1 - √2) / 2 : ℝ) : ℂ) := by
  push Not at h
  have hw : (x : ℂ) + 1 ≠ 0 := fun h => hx (by
    have : x + 1 = 0 := by exact_mod_cast h
    linarith)
  have hi : (x : ℂ).im ≤ 0 := by rw [Complex.ofReal_im]
  have hq := fccQv_spec hi hw
  rw [fccMp_eq hi hw] at h
  obtain ⟨him, hre⟩ := h
  have hqi : 0 < (fccQv x).im := by
    refine lt_of_le_of_ne hq.im fun h0 => ?_
    set q := fccQv x with hqd
    have hqr : q = ((q.re : ℝ) : ℂ) := Complex.ext rfl (by rw [Complex.ofReal_im, ← h0])
    have hx0 : 0 < q.re := lt_of_le_of_ne hq.re fun h => hq.ne (Complex.ext h.symm h0.symm)
    have hx3 : q.re ^ 2 ≤ 3 := by
      have := hq.le
      rw [Complex.normSq_apply, ← h0] at this
      nlinarith
    obtain ⟨m', hm', em⟩ := fccAl_real hx0 (by nlinarith)
    rw [← hqr] at em
    rw [em, Complex.ofReal_re] at hre
    linarith
  obtain ⟨q, hq0, e1, -, -, e4⟩ := (fcc_roots_code hi hw).1.param
  change fccQv x = q at e1
  rw [e1] at hq hqi him ⊢
  have hN : 0 < Complex.normSq q := Complex.normSq_pos.2 hq.ne
  have hA := fccAl_im hq.ne
  rw [him, mul_zero] at hA
  have hcurve : Complex.normSq q * (9 - Complex.normSq q) ^ 2 = 108 * q.im ^ 2 := by
    rcases mul_eq_zero.1 hA.symm with h' | h'
    · exact absurd h' hqi.ne'
    · linarith
  have hNq : Complex.normSq q = q.re ^ 2 + q.im ^ 2 := by rw [Complex.normSq_apply]; ring
  -- the energy is real
  have e5 : 16 * (((1 / (x + 1) : ℝ)) : ℂ) * q ^ 2 = (q ^ 2 - 1) * (9 - q ^ 2) := by
    have : (((1 / (x + 1) : ℝ)) : ℂ) = 1 / ((x : ℂ) + 1) := by push_cast; rfl
    rw [this, e4]
    field_simp
  have hle := hq.le
  have hc : (10 - 16 * (((1 / (x + 1) : ℝ)) : ℂ)) * q ^ 2 = (q ^ 2) ^ 2 + 9 := by linear_combination -e5
  set c : ℝ := 10 - 16 * (1 / (x + 1)) with hcd
  have hc' : (c : ℂ) * q ^ 2 = (q ^ 2) ^ 2 + 9 := by rw [← hc, hcd]; push_cast; ring
  have r1 := congrArg Complex.re hc'
  have r2 := congrArg Complex.im hc'
  rw [Complex.re_ofReal_mul] at r1
  rw [Complex.im_ofReal_mul] at r2
  simp only [pow_two, Complex.add_re, Complex.add_im, Complex.mul_re, Complex.mul_im] at r1 r2
  norm_num at r1 r2
  have hN3 : Complex.normSq q = 3 := by
    by_cases hqr : q.re = 0
    · exfalso
      rw [hNq, hqr] at hcurve hle
      have hy2 : 0 < q.im ^ 2 := by positivity
      have h1 : (9 - (0 ^ 2 + q.im ^ 2)) ^ 2 = 108 := by
        apply mul_left_cancel₀ hy2.ne'
        linarith
      have h2 : 0 ≤ 9 - (0 ^ 2 + q.im ^ 2) := by linarith
      nlinarith
    · have hqp : 0 < q.re := lt_of_le_of_ne hq.re (Ne.symm hqr)
      have h1 : c = 2 * (q.re ^ 2 - q.im ^ 2) := by
        have : (c - 2 * (q.re ^ 2 - q.im ^ 2)) * (2 * (q.re * q.im)) = 0 := by linear_combination r2
        rcases mul_eq_zero.1 this with h | h
        · linarith
        · exact absurd h (by positivity)
      rw [h1] at r1
      have h2 : Complex.normSq q ^ 2 = 9 := by
        rw [hNq]
        linear_combination r1
      nlinarith
  rw [hN3] at hcurve
  have hy1 : q.im = 1 := by nlinarith
  have hx2 : q.re ^ 2 = 2 := by rw [hNq, hy1] at hN3; linarith
  have hxs : q.re = √2 := by rw [← hx2, Real.sqrt_sq hq.re]
  have h2 : √2 ^ 2 = 2 := Real.sq_sqrt (by norm_num)
  have hs0 : 0 < √2 := Real.sqrt_pos.2 (by norm_num)
  rw [hy1, hxs] at r2
  have hcc : c = 2 := by
    have : (c - 2) * (2 * √2) = 0 := by linear_combination r2 + 4 * √2 * h2
    rcases mul_eq_zero.1 this with h | h
    · linarith
    · exact absurd h (by positivity)
  constructor
  · have h3 : 1 / (x + 1) = 1 / 2 := by linarith
    rw [div_eq_div_iff (fun h => hx (by linarith)) (by norm_num)] at h3
    linarith
  · have hqe : q = (√2 : ℂ) + Complex.I := Complex.ext (by simp [hxs]) (by simp [hy1])
    have hc2 : ((√2 : ℝ) : ℂ) ^ 2 = 2 := by exact_mod_cast h2
    unfold fccBe
    rw [div_eq_iff (mul_ne_zero (by norm_num) hq0), hqe]
    push_cast
    have hI := Complex.I_sq
    generalize ((√2 : ℝ) : ℂ) = s at *
    generalize Complex.I = i at *
    linear_combination ((s + i) ^ 2 + 1 + 2 * s * i - 6) * (hc2 + hI) + (4 * i ^ 2 + 8) * hc2 + 8 * hI

/-- The code for real energies other than half of the half-bandwidth: the advanced Green's function. -/
lemma fccGfZ_real {ellipk : ℂ → ℂ} (hk : EllipkContract ellipk) {D x : ℝ} (hD : 0 < D) (hx : x ≠ -(D / 2)) (hx2 : x ≠ D / 2) :
    fccGfZ ellipk x D = conj (2 / D * fccUp ((2 / D * x : ℝ) : ℂ)) := by
  obtain ⟨h, e⟩ := fccEnergy_real x D
  have hX : 2 / D * x ≠ -1 := fun h => hx (by field_simp at h; linarith)
  have hX1 : 2 / D * x ≠ 1 := fun h => hx2 (by field_simp at h; linarith)
  unfold fccGfZ
  simp only
  rw [if_neg h, e, fcc_core hk (by rw [Complex.ofReal_im]) (fcc_scaled_ne hD hx), fccLow_real hX, one_div_div]
  · simp only [map_mul, map_div₀, Complex.conj_ofNat, Complex.conj_ofReal]
  · by_contra hcon
    exact hX1 (fcc_cut_real hX hcon).1

lemma fccMp_one : fccMp ((1 : ℝ) : ℂ) = (((1 + √2) / 2 : ℝ) : ℂ) := by
  have hw : ((1 : ℝ) : ℂ) + 1 ≠ 0 := by norm_num
  have hi : ((1 : ℝ) : ℂ).im ≤ 0 := by rw [Complex.ofReal_im]
  have h2 : √2 ^ 2 = 2 := Real.sq_sqrt (by norm_num)
  have hc2 : ((√2 : ℝ) : ℂ) ^ 2 = 2 := by exact_mod_cast h2
  have hroots : FccRoots (1 / (((1 : ℝ) : ℂ) + 1)) ((√2 / 2 : ℝ) : ℂ) (-Complex.I) := by
    refine ⟨?_, ?_, ?_, by simp, by simp⟩
    · push_cast
      linear_combination hc2 / 4
    · rw [neg_sq, Complex.I_sq]
      norm_num
    · rw [Complex.ofReal_re]
      positivity
  rw [fccMp_eq hi hw, fccQv_of hi hw hroots (by simp) (by simp), hroots.al]
  push_cast
  ring

lemma fcc_cut_one : ¬((fccMp ((1 : ℝ) : ℂ)).im ≠ 0 ∨ (fccMp ((1 : ℝ) : ℂ)).re ≤ 1) := by
  have : 1 < √2 := by rw [Real.lt_sqrt] <;> norm_num
  rw [fccMp_one, Complex.ofReal_im, Complex.ofReal_re]
  push Not
  exact ⟨rfl, by linarith⟩

/-- The code at half of the half-bandwidth. -/
lemma fccGfZ_half {ellipk : ℂ → ℂ} (hk : EllipkContract ellipk) {D : ℝ} (hD : 0 < D) : ∃ m : ℝ, 1 < m ∧
    (ellipk m = conj (ellipK m) → fccGfZ ellipk ((D / 2 : ℝ) : ℂ) D = conj (2 / D * fccUp 1)) ∧
    (ellipk m = ellipK m → fccGfZ ellipk ((D / 2 : ℝ) : ℂ) D = 2 / D * fccUp 1) := by
  obtain ⟨h, e⟩ := fccEnergy_real (D / 2) D
  have hX : 2 / D * (D / 2) = 1 := by field_simp
  rw [hX] at e
  have h11 : (1 : ℝ) ≠ -1 := by norm_num
  have hw : ((1 : ℝ) : ℂ) + 1 ≠ 0 := by norm_num
  have hi : ((1 : ℝ) : ℂ).im ≤ 0 := by rw [Complex.ofReal_im]
  have hlow : 1 / ((D : ℂ) / 2) * fccLow ((1 : ℝ) : ℂ) = conj (2 / D * fccUp 1) := by
    rw [fccLow_real h11, one_div_div, map_mul, map_div₀, Complex.conj_ofNat, Complex.conj_ofReal, Complex.ofReal_one]
  obtain ⟨m, hm, -, h1, h2⟩ := fcc_core_cut hk (d := (D : ℂ) / 2) hi hw fcc_cut_one
  refine ⟨m, hm, ?_⟩
  unfold fccGfZ
  simp only
  rw [if_neg h, e, h1]
  rw [hlow] at h2
  constructor
  · intro h3
    rw [h3, h2]
  · intro h3
    have hbe := (fcc_cut_real h11 fcc_cut_one).2
    have hs : 0 < √2 := Real.sqrt_pos.2 (by norm_num)
    have h4 := congrArg conj h2
    rw [Complex.conj_conj] at h4
    rw [h3, h4, hbe, ellipK_ofReal (by linarith)]
    simp only [map_mul, map_div₀, map_add, map_pow, Complex.conj_ofNat, Complex.conj_ofReal, map_one, Complex.conj_conj]

lemma fccGfZ_real_im {ellipk : ℂ → ℂ} (hk : EllipkContract ellipk) {D x : ℝ} (hD : 0 < D) (hx : x ≠ -(D / 2)) :
    |1 / Real.pi * (fccGfZ ellipk x D).im| = fccRho D x := by
  have hpi := Real.pi_pos
  have key : |1 / Real.pi * (2 / (D : ℂ) * fccUp ((2 / D * x : ℝ) : ℂ)).im| = fccRho D x := by
    have h1 := fccUp_im_nonpos (2 / D * x)
    rw [show (2 : ℂ) / (D : ℂ) = ((2 / D : ℝ) : ℂ) by push_cast; rfl, Complex.im_ofReal_mul, fccRho, abs_of_nonpos]
    · ring
    · exact mul_nonpos_of_nonneg_of_nonpos (by positivity) (mul_nonpos_of_nonneg_of_nonpos (by positivity) h1)
  by_cases hx2 : x = D / 2
  · have hX : 2 / D * (D / 2) = 1 := by field_simp
    rw [← key, hx2, hX, Complex.ofReal_one]
    obtain ⟨m, hm, h1, h2⟩ := fccGfZ_half hk hD
    rcases hk.cut m hm with h | h
    · rw [h2 h]
    · rw [h1 h, Complex.conj_im, mul_neg, abs_neg]
  · rw [fccGfZ_real hk hD hx hx2, Complex.conj_im, mul_neg, abs_neg, key]

lemma fccRho_out {D e : ℝ} (hD : 0 < D) (he : e ≤ -(D / 2) ∨ 3 * D / 2 ≤ e) : fccRho D e = 0 := by
  have hp : 0 < 2 / D := by positivity
  unfold fccRho
  by_cases h1 : e = -(D / 2)
  · have : 2 / D * e = -1 := by rw [h1]; field_simp
    rw [this, fccUp, fccR]
    norm_num
  · rw [fccUp_out]
    · simp
    · rcases he with h | h
      · left
        have h2 : e < -(D / 2) := lt_of_le_of_ne h h1
        rw [div_mul_eq_mul_div, div_lt_iff₀ hD]
        linarith
      · right
        rw [div_mul_eq_mul_div, le_div_iff₀ hD]
        linarith

/-- The density of states of the code. -/
lemma fccDos_eq {ellipk : ℂ → ℂ} (hk : EllipkContract ellipk) {D : ℝ} (hD : 0 < D) (e : ℝ) :
    fccDos ellipk e D = if e = -(D / 2) then ⊤ else ((fccRho D e : ℝ) : WithTop ℝ) := by
  unfold fccDos
  have e1 : -0.5 * D = -(D / 2) := by ring
  have e2 : 1.5 * D = 3 * D / 2 := by ring
  rw [e1, e2]
  by_cases h : e = -(D / 2)
  · rw [if_pos h, if_pos h]
  · rw [if_neg h, if_neg h]
    split_ifs with h2
    · rw [fccGfZ_real_im hk hD h]
    · rw [fccRho_out hD]
      by_contra hcon
      push Not at hcon
      exact h2 hcon

lemma fccDos_untop {ellipk : ℂ → ℂ} (hk : EllipkContract ellipk) {D : ℝ} (hD : 0 < D) :
    (fun e => (fccDos ellipk e D).untopD 0) = fccRho D := by
  funext e
  rw [fccDos_eq hk hD]
  split_ifs with h
  · rw [fccRho_out hD (Or.inl h.le)]
    rfl
  · rfl

/-- C61: `fcc.dos` is the density of the energies of the dispersion. -/
theorem fcc_dos {ellipk : ℂ → ℂ} (hk : EllipkContract ellipk) {D : ℝ} (hD : 0 < D) :
    IsDosOf bz3 (fccDisp D) (fun e => (fccDos ellipk e D).untopD 0) := by
  rw [fccDos_untop hk hD]
  exact isDosOf_fccRho hD

/-- C57: `fcc.dos` is infinite exactly at the lower band edge, vanishes outside of the band and is continuous at all
other energies. -/
theorem fcc_dos_band {ellipk : ℂ → ℂ} (hk : EllipkContract ellipk) {D : ℝ} (hD : 0 < D) (e : ℝ) :
    (fccDos ellipk e D = ⊤ ↔ e = -(D / 2)) ∧
    (e < -(D / 2) ∨ 3 * D / 2 ≤ e → fccDos ellipk e D = ((0 : ℝ) : WithTop ℝ)) ∧
    (e ≠ -(D / 2) → ContinuousAt (fun e => (fccDos ellipk e D).untopD 0) e) := by
  refine ⟨?_, ?_, fun he => ?_⟩
  · rw [fccDos_eq hk hD]
    split_ifs with h
    · simp [h]
    · simp [h]
  · intro h
    rw [fccDos_eq hk hD, if_neg, fccRho_out hD]
    · rcases h with h | h
      · exact Or.inl h.le
      · exact Or.inr h
    · rintro rfl
      rcases h with h | h <;> linarith
  · rw [fccDos_untop hk hD]
    exact continuousAt_fccRho hD he

/-- C61: `fcc.gf_z` is the Hilbert transform of `fcc.dos`, which is normalised and vanishes outside of the band, for
energies off the branch cut of `m_p`. -/
theorem fcc_hilbert_partial {ellipk : ℂ → ℂ} (hk : EllipkContract ellipk) {D : ℝ} (hD : 0 < D) :
    HilbertPair (fun e => (fccDos ellipk e D).untopD 0) (bzGreen bz3 (fccDisp D)) (-(D / 2)) (3 * D / 2) 1 ∧
    ∀ z : ℂ, (∀ e ∈ Set.Icc (-(D / 2)) (3 * D / 2), z ≠ (e : ℂ)) → FccRegular z D →
      fccGfZ ellipk z D = ∫ e, (((fccDos ellipk e D).untopD 0 : ℝ) : ℂ) / (z - e) := by
  have h : HilbertPair (fun e => (fccDos ellipk e D).untopD 0) (bzGreen bz3 (fccDisp D)) (-(D / 2)) (3 * D / 2) 1 := by
    refine (fcc_dos hk hD).hilbertPair (measurable_fccDisp D) fun e he => ?_
    have h1 : e < -(D / 2) ∨ 3 * D / 2 ≤ e := by
      by_contra hcon
      push Not at hcon
      exact he ⟨hcon.1, hcon.2.le⟩
    rw [(fcc_dos_band hk hD e).2.1 h1]
    rfl
  exact ⟨h, fun z hz hr => by rw [(fcc_gf_z_partial hk hD hz hr).1, h.hilbert z hz]⟩

/-! ### Positivity -/

/-- The fraction of one momentum component in an energy window, for fixed values of the other two. -/
lemma fcc_section {D e : ℝ} (hD : 0 < D) {x y : ℝ}
    (hxy : |2 / D * e - Real.cos (x / 2) * Real.cos (y / 2)| < Real.cos (x / 2) + Real.cos (y / 2)) {δ : ℝ} (hδ0 : 0 < δ)
    (hδ1 : δ ≤ 1) :
    ENNReal.ofReal (1 / (2 * Real.pi) * δ)
      ≤ bz {z : ℝ | fccDisp D (x, y, z) ∈ Set.Icc (e - D / 2 * δ) (e + D / 2 * δ)} := by
  have hpi := Real.pi_gt_three
  set E := 2 / D * e with hE
  set S := Real.cos (x / 2) + Real.cos (y / 2) with hS
  set P := Real.cos (x / 2) * Real.cos (y / 2) with hP
  have hS0 : 0 < S := lt_of_le_of_lt (abs_nonneg _) hxy
  have hS2 : S ≤ 2 := by
    have := Real.cos_le_one (x / 2)
    have := Real.cos_le_one (y / 2)
    rw [hS]; linarith
  have hu : |(E - P) / S| < 1 := by rw [abs_div, abs_of_pos hS0, div_lt_one hS0]; exact hxy
  obtain ⟨hl, hr⟩ := abs_lt.1 hu
  set θ := 2 * Real.arccos ((E - P) / S) with hθ
  have hcθ : S * Real.cos (θ / 2) = E - P := by
    rw [hθ, mul_div_cancel_left₀ _ (by norm_num), Real.cos_arccos hl.le hr.le, mul_div_cancel₀ _ hS0.ne']
  have hθ0 : 0 < θ := by have := Real.arccos_pos.2 hr; rw [hθ]; linarith
  have hθ1 : θ ≤ 2 * Real.pi := by have := Real.arccos_le_pi ((E - P) / S); rw [hθ]; linarith
  have hmem : ∀ z, |z - θ| ≤ δ → fccDisp D (x, y, z) ∈ Set.Icc (e - D / 2 * δ) (e + D / 2 * δ) := by
    intro z hz
    have h1 : |Real.cos (z / 2) - Real.cos (θ / 2)| ≤ |z / 2 - θ / 2| := Real.abs_cos_sub_cos_le _ _
    have h2 : |z / 2 - θ / 2| ≤ δ / 2 := by
      rw [← sub_div, abs_div, abs_of_pos (by norm_num : (0 : ℝ) < 2)]
      linarith
    have h3 : |S * Real.cos (z / 2) - S * Real.cos (θ / 2)| ≤ δ := by
      rw [← mul_sub, abs_mul, abs_of_pos hS0]
      have := mul_le_mul hS2 (h1.trans h2) (abs_nonneg _) (by norm_num)
      linarith
    rw [hcθ] at h3
    obtain ⟨a1, a2⟩ := abs_le.1 h3
    have hD2 : 0 < D / 2 := by positivity
    have hEe : D / 2 * E = e := by rw [hE]; field_simp
    have ev : fccDisp D (x, y, z) = D / 2 * (P + S * Real.cos (z / 2)) := by
      rw [hP, hS]
      unfold fccDisp
      ring
    have b1 := mul_le_mul_of_nonneg_left a1 hD2.le
    have b2 := mul_le_mul_of_nonneg_left a2 hD2.le
    rw [ev]
    constructor <;> linarith
  rcases le_or_gt θ Real.pi with h | h
  · have hsub : Set.Ioc θ (θ + δ) ⊆ {z : ℝ | fccDisp D (x, y, z) ∈ Set.Icc (e - D / 2 * δ) (e + D / 2 * δ)} := fun z hz =>
      hmem z (abs_le.2 ⟨by linarith [hz.1], by linarith [hz.2]⟩)
    refine le_trans ?_ (measure_mono hsub)
    rw [bz_apply measurableSet_Ioc fun z hz => ⟨by linarith [hz.1], by linarith [hz.2]⟩, Real.volume_Ioc,
      ENNReal.ofReal_mul (by positivity), add_sub_cancel_left]
  · have hsub : Set.Ioc (θ - δ) θ ⊆ {z : ℝ | fccDisp D (x, y, z) ∈ Set.Icc (e - D / 2 * δ) (e + D / 2 * δ)} := fun z hz =>
      hmem z (abs_le.2 ⟨by linarith [hz.1], by linarith [hz.2]⟩)
    refine le_trans ?_ (measure_mono hsub)
    rw [bz_apply measurableSet_Ioc fun z hz => ⟨by linarith [hz.1], by linarith [hz.2]⟩, Real.volume_Ioc,
      ENNReal.ofReal_mul (by positivity), sub_sub_cancel]

lemma fcc_window {D e : ℝ} (hD : 0 < D) (h1 : -(D / 2) < e) (h2 : e < 3 * D / 2) :
    ∃ c : ℝ, 0 < c ∧ ∀ δ, 0 < δ → δ ≤ 1 →
      ENNReal.ofReal (c * δ) ≤ bz3 (fccDisp D ⁻¹' Set.Icc (e - D / 2 * δ) (e + D / 2 * δ)) := by
  have hpi := Real.pi_gt_three
  set E := 2 / D * e with hE
  have hE1 : -1 < E := by rw [hE, div_mul_eq_mul_div, lt_div_iff₀ hD]; linarith
  have hE3 : E < 3 := by rw [hE, div_mul_eq_mul_div, div_lt_iff₀ hD]; linarith
  set r := √(E + 1) with hr
  have hr0 : 0 < r := Real.sqrt_pos.2 (by linarith)
  have hr2 : r ^ 2 = E + 1 := Real.sq_sqrt (by linarith)
  have hr4 : r < 2 := by nlinarith
  set t := min r (2 - r) / 2 with ht
  have ht0 : 0 < t := by
    have : 0 < min r (2 - r) := lt_min hr0 (by linarith)
    positivity
  have htr : t < r := by
    have := min_le_left r (2 - r)
    rw [ht]; linarith
  have ht2 : t < 2 - r := by
    have := min_le_right r (2 - r)
    rw [ht]; linarith
  have ht1 : t < 1 := by
    have := min_le_left r (2 - r)
    have := min_le_right r (2 - r)
    rw [ht]; linarith
  set x0 := 2 * Real.arccos (1 - t) with hx0
  have hcos : Real.cos (x0 / 2) = 1 - t := by
    rw [hx0, mul_div_cancel_left₀ _ (by norm_num), Real.cos_arccos (by linarith) (by linarith)]
  have hx0pos : 0 < x0 := by have := Real.arccos_pos.2 (by linarith : 1 - t < 1); rw [hx0]; linarith
  have hx0lt : x0 < 2 * Real.pi := by
    have := Real.arccos_lt_pi_div_two.2 (by linarith : 0 < 1 - t)
    rw [hx0]; linarith
  have hB : IsOpen {p : ℝ × ℝ | |E - Real.cos (p.1 / 2) * Real.cos (p.2 / 2)| < Real.cos (p.1 / 2) + Real.cos (p.2 / 2)} := by
    have := Real.continuous_cos
    exact isOpen_lt (by fun_prop) (by fun_prop)
  have hmem : (x0, x0) ∈
      {p : ℝ × ℝ | |E - Real.cos (p.1 / 2) * Real.cos (p.2 / 2)| < Real.cos (p.1 / 2) + Real.cos (p.2 / 2)} := by
    change |E - Real.cos (x0 / 2) * Real.cos (x0 / 2)| < Real.cos (x0 / 2) + Real.cos (x0 / 2)
    rw [hcos, abs_lt]
    constructor <;> nlinarith
  obtain ⟨U, V, hU, hV, hxU, hxV, hUV⟩ := isOpen_prod_iff.1 hB x0 x0 hmem
  have hUp := bz_open_pos hU hxU hx0pos hx0lt
  have hVp := bz_open_pos hV hxV hx0pos hx0lt
  have hUf : bz U ≠ ⊤ := measure_ne_top _ _
  have hVf : bz V ≠ ⊤ := measure_ne_top _ _
  refine ⟨(bz U).toReal * (bz V).toReal * (1 / (2 * Real.pi)), ?_, fun δ hδ hδ1 => ?_⟩
  · have := ENNReal.toReal_pos hUp.ne' hUf
    have := ENNReal.toReal_pos hVp.ne' hVf
    positivity
  have hmeas : MeasurableSet (fccDisp D ⁻¹' Set.Icc (e - D / 2 * δ) (e + D / 2 * δ)) := measurable_fccDisp D measurableSet_Icc
  obtain ⟨S, hS⟩ : ∃ S, S = fccDisp D ⁻¹' Set.Icc (e - D / 2 * δ) (e + D / 2 * δ) := ⟨_, rfl⟩
  have hsec : ∀ x ∈ U, ∀ y ∈ V, ENNReal.ofReal (1 / (2 * Real.pi) * δ) ≤ bz (Prod.mk y ⁻¹' (Prod.mk x ⁻¹' S)) := by
    rw [hS]
    exact fun x hx y hy => fcc_section hD (hUV (Set.mk_mem_prod hx hy)) hδ hδ1
  rw [← hS] at hmeas ⊢
  have h1 : ENNReal.ofReal ((bz U).toReal * (bz V).toReal * (1 / (2 * Real.pi)) * δ)
      = bz U * (bz V * ENNReal.ofReal (1 / (2 * Real.pi) * δ)) := by
    rw [mul_assoc, mul_assoc, ENNReal.ofReal_mul (by positivity), ENNReal.ofReal_mul (by positivity),
      ENNReal.ofReal_toReal hUf, ENNReal.ofReal_toReal hVf]
  rw [h1]
  unfold bz3
  rw [Measure.prod_apply hmeas]
  have h2 : ∀ x ∈ U, bz V * ENNReal.ofReal (1 / (2 * Real.pi) * δ) ≤ (bz.prod bz) (Prod.mk x ⁻¹' S) := by
    intro x hx
    rw [Measure.prod_apply (measurable_prodMk_left hmeas)]
    calc _ = ∫⁻ _ in V, ENNReal.ofReal (1 / (2 * Real.pi) * δ) ∂bz := by rw [setLIntegral_const, mul_comm]
      _ ≤ ∫⁻ y in V, bz (Prod.mk y ⁻¹' (Prod.mk x ⁻¹' S)) ∂bz :=
        setLIntegral_mono' hV.measurableSet fun y hy => hsec x hx y hy
      _ ≤ _ := setLIntegral_le_lintegral _ _
  calc _ = ∫⁻ _ in U, bz V * ENNReal.ofReal (1 / (2 * Real.pi) * δ) ∂bz := by rw [setLIntegral_const, mul_comm]
    _ ≤ ∫⁻ x in U, (bz.prod bz) (Prod.mk x ⁻¹' S) ∂bz := setLIntegral_mono' hU.measurableSet h2
    _ ≤ _ := setLIntegral_le_lintegral _ _

lemma fccRho_pos {D e : ℝ} (hD : 0 < D) (h1 : -(D / 2) < e) (h2 : e < 3 * D / 2) : 0 < fccRho D e := by
  obtain ⟨c, hc, hw⟩ := fcc_window hD h1 h2
  exact pos_of_window (isDosOf_fccRho hD) (measurable_fccDisp D) hc (by positivity : 0 < D / 2)
    (continuousAt_fccRho hD h1.ne') hw

/-- C57: the density of states is positive inside of the band. -/
theorem fcc_dos_pos {ellipk : ℂ → ℂ} (hk : EllipkContract ellipk) {D e : ℝ} (hD : 0 < D) (h1 : -(D / 2) < e)
    (h2 : e < 3 * D / 2) : ((0 : ℝ) : WithTop ℝ) < fccDos ellipk e D := by
  rw [fccDos_eq hk hD, if_neg h1.ne', WithTop.coe_lt_coe]
  exact fccRho_pos hD h1 h2

lemma fccUp_im_neg {D x : ℝ} (hD : 0 < D) (h1 : -(D / 2) < x) (h2 : x < 3 * D / 2) :
    (2 / (D : ℂ) * fccUp ((2 / D * x : ℝ) : ℂ)).im < 0 := by
  have hpi := Real.pi_pos
  have h := fccRho_pos hD h1 h2
  unfold fccRho at h
  rw [show (2 : ℂ) / (D : ℂ) = ((2 / D : ℝ) : ℂ) by push_cast; rfl, Complex.im_ofReal_mul]
  have e1 : 2 / D * (-(fccUp ((2 / D * x : ℝ) : ℂ)).im / Real.pi) * Real.pi
      = -(2 / D * (fccUp ((2 / D * x : ℝ) : ℂ)).im) := by field_simp
  have := mul_pos h hpi
  rw [e1] at this
  linarith

/-- C62, disagreement: for real energies inside of the band `fcc.gf_z` is the advanced Green's function, its imaginary
part is positive. -/
theorem fcc_gf_z_real_advanced {ellipk : ℂ → ℂ} (hk : EllipkContract ellipk) {D x : ℝ} (hD : 0 < D) (h1 : -(D / 2) < x)
    (h2 : x < 3 * D / 2) (hx : x ≠ D / 2) :
    Filter.Tendsto (fun η : ℝ => bzGreen bz3 (fccDisp D) (x - η * Complex.I)) (𝓝[>] 0) (𝓝 (fccGfZ ellipk x D)) ∧
    0 < (fccGfZ ellipk x D).im := by
  rw [fccGfZ_real hk hD h1.ne' hx]
  constructor
  · refine ((Complex.continuous_conj.tendsto _).comp (fcc_tendsto hD h1.ne')).congr fun η => ?_
    simp only [Function.comp]
    rw [← bzGreen_conj]
    congr 1
    simp [sub_eq_add_neg]
  · rw [Complex.conj_im]
    linarith [fccUp_im_neg hD h1 h2]

/-- C62, disagreement: at half of the half-bandwidth, unlike at all other energies inside of the band, `fcc.gf_z` (with
mpmath's value on the branch cut) is the retarded Green's function. -/
theorem fcc_gf_z_half_retarded {D : ℝ} (hD : 0 < D) :
    Filter.Tendsto (fun η : ℝ => bzGreen bz3 (fccDisp D) ((D / 2 : ℝ) + η * Complex.I)) (𝓝[>] 0)
      (𝓝 (fccGfZ ellipK ((D / 2 : ℝ) : ℂ) D)) ∧ (fccGfZ ellipK ((D / 2 : ℝ) : ℂ) D).im < 0 := by
  obtain ⟨m, -, -, h2⟩ := fccGfZ_half EllipkContract.exact hD
  have hX : 2 / D * (D / 2) = 1 := by field_simp
  have h3 := fcc_tendsto hD (x := D / 2) (by linarith)
  have h4 := fccUp_im_neg hD (x := D / 2) (by linarith) (by linarith)
  rw [hX, Complex.ofReal_one] at h3 h4
  rw [h2 rfl]
  exact ⟨h3, h4⟩

/-! ### Multi-precision version -/

lemma fccSignedMpSqrt_eq (x : ℝ) : fccSignedMpSqrt x = fccSignedSqrt x := by
  unfold fccSignedMpSqrt fccSignedSqrt
  simp only [Complex.ofReal_re]
  by_cases h : x < 0
  · simp only [if_neg (not_le.2 h), if_pos h]
    rw [if_neg (by norm_num : ¬((-1 : ℤ) = 1))]
    congr 2
    push_cast
    ring
  · simp only [if_pos (not_lt.1 h), if_neg h]
    simp

/-- C57: `fcc.dos_mp` is the same function as `fcc.dos`; the guard for energies outside of the band in `fcc.dos_mp` never
applies, but the formula vanishes there. -/
theorem fcc_dos_mp {ellipk : ℂ → ℂ} (hk : EllipkContract ellipk) {D : ℝ} (hD : 0 < D) (e : ℝ) :
    fccDosMp ellipk e D = fccDos ellipk e D := by
  rw [fccDos_eq hk hD]
  unfold fccDosMp
  simp only
  have eX : e / (D * (1 / 2)) = 2 / D * e := by field_simp
  rw [eX, if_neg (by rintro ⟨h1, h2⟩; linarith)]
  by_cases h : e = -(D / 2)
  · have : 2 / D * e = -1 := by rw [h]; field_simp
    rw [if_pos this, if_pos h]
  · have hX : 2 / D * e ≠ -1 := fun h' => h (by field_simp at h'; linarith)
    rw [if_neg hX, if_neg h, ← fccGfZ_real_im hk hD h]
    obtain ⟨h1, h2⟩ := fccEnergy_real e D
    unfold fccGfZ
    simp only
    rw [if_neg h1, h2]
    generalize 2 / D * e = X
    have e1 : (0.5 : ℂ) * (1 + 4 * fccSignedMpSqrt X * fccSignedMpSqrt (X + 1) ^ (-3 : ℤ)
        - ((X - 1 : ℝ) : ℂ) * fccSignedMpSqrt (X - 3) * fccSignedMpSqrt (X + 1) ^ (-3 : ℤ)) = fccMp X := by
      unfold fccMp
      simp only [fccSignedMpSqrt_eq]
      push_cast
      rfl
    have e2 : (0.5 : ℂ) * (1 - 4 * fccSignedMpSqrt X * fccSignedMpSqrt (X + 1) ^ (-3 : ℤ)
        - ((X - 1 : ℝ) : ℂ) * fccSignedMpSqrt (X - 3) * fccSignedMpSqrt (X + 1) ^ (-3 : ℤ)) = fccMm X := by
      unfold fccMm
      simp only [fccSignedMpSqrt_eq]
      push_cast
      rfl
    rw [e1, e2]
    have e3 : (if (fccMp X).im < 0 then ellipk (fccMp X) + 2 * Complex.I * ellipk (1 - fccMp X) else ellipk (fccMp X))
        = fccKiiOf ellipk (fccMp X) := rfl
    rw [e3]
    have e4 : 4 / ((Real.pi : ℂ) ^ 2 * ((D : ℂ) / 2) * ((X : ℂ) + 1)) = ((4 / (Real.pi ^ 2 * (D / 2) * (X + 1)) : ℝ) : ℂ) := by
      push_cast; rfl
    rw [e4, mul_assoc ((_ : ℝ) : ℂ), Complex.im_ofReal_mul, ← mul_assoc]
    have e5 : 4 / (Real.pi ^ 3 * D * (1 / 2) * (X + 1)) = 1 / Real.pi * (4 / (Real.pi ^ 2 * (D / 2) * (X + 1))) := by
      generalize X + 1 = w
      ring
    rw [e5, mul_assoc (1 / Real.pi)]

/-- C57, disagreement: for integer energies `fcc.dos` fails. -/
theorem fcc_dos_int (ellipk : ℂ → ℂ) (e : ℤ) (D : ℝ) : fccDosInt ellipk e D = none := rfl

/-- C57: scaling of energies with the half-bandwidth. -/
theorem fcc_scaling (ellipk : ℂ → ℂ) {s : ℝ} (hs : 0 < s) {D : ℝ} (hD : 0 < D) (z : ℂ) :
    fccGfZ ellipk (s * z) (s * D : ℝ) = fccGfZ ellipk z D / s := by
  have hsc : (s : ℂ) ≠ 0 := by exact_mod_cast hs.ne'
  have hDc : (D : ℂ) ≠ 0 := by exact_mod_cast hD.ne'
  have e1 : 1 / (((s * D : ℝ) : ℂ) / 2) * ((s : ℂ) * z) = 1 / ((D : ℂ) / 2) * z := by push_cast; field_simp
  have e2 : fccEnergy (s * z) (s * D : ℝ) = fccEnergy z D := by
    unfold fccEnergy
    simp only
    rw [e1]
  unfold fccGfZ
  simp only
  rw [e1, e2]
  have e3 : 4 / ((Real.pi : ℂ) ^ 2 * (((s * D : ℝ) : ℂ) / 2) * (fccEnergy z D + 1))
      = 4 / ((Real.pi : ℂ) ^ 2 * ((D : ℂ) / 2) * (fccEnergy z D + 1)) / s := by
    generalize fccEnergy z D + 1 = w
    push_cast
    ring
  rw [e3]
  split_ifs
  · simp only [map_mul, map_div₀, Complex.conj_ofReal]
    ring
  · ring

/-- C57: the Green's function is symmetric with respect to complex conjugation. -/
theorem fcc_gf_z_conj (ellipk : ℂ → ℂ) {D : ℝ} (hD : 0 < D) {z : ℂ} (hz : z.im ≠ 0) :
    fccGfZ ellipk (conj z) D = conj (fccGfZ ellipk z D) := by
  have him : ∀ w : ℂ, (1 / ((D : ℂ) / 2) * w).im = 2 / D * w.im := fun w => by
    rw [show 1 / ((D : ℂ) / 2) * w = ((2 / D : ℝ) : ℂ) * w by push_cast; rw [one_div_div], Complex.im_ofReal_mul]
  have hp : 0 < 2 / D := by positivity
  have hE : fccEnergy (conj z) D = fccEnergy z D := by
    rcases fccEnergy_cases z D with ⟨h, e⟩ | ⟨h, e⟩ <;> rcases fccEnergy_cases (conj z) D with ⟨h', e'⟩ | ⟨h', e'⟩
    · rw [him] at h h'
      rw [Complex.conj_im] at h'
      nlinarith
    · rw [e, e']
    · rw [e, e', Complex.conj_conj]
    · exfalso
      rw [him] at h h'
      rw [Complex.conj_im] at h'
      have h1 : z.im ≤ 0 := by
        by_contra hcon
        exact h (mul_pos hp (not_le.1 hcon))
      have h2 : 0 ≤ z.im := by
        by_contra hcon
        exact h' (mul_pos hp (by linarith [not_le.1 hcon]))
      exact hz (le_antisymm h1 h2)
  unfold fccGfZ
  simp only
  rw [hE, him, him, Complex.conj_im]
  rcases lt_or_gt_of_ne hz with h | h
  · rw [if_pos (mul_pos hp (by linarith)), if_neg (not_lt.2 (mul_nonpos_of_nonneg_of_nonpos hp.le h.le))]
  · rw [if_neg (not_lt.2 (mul_nonpos_of_nonneg_of_nonpos hp.le (by linarith))), if_pos (mul_pos hp h), Complex.conj_conj]

example : ∃ ellipk : ℂ → ℂ, EllipkContract ellipk ∧ FccRegular (3 * Complex.I) 2 :=
  ⟨ellipK, EllipkContract.exact, fcc_regular_of_far (by norm_num) (by
    have h := Complex.abs_im_le_norm (3 * Complex.I + ((2 : ℝ) : ℂ) / 2)
    have e : (3 * Complex.I + ((2 : ℝ) : ℂ) / 2).im = 3 := by simp
    rw [e, abs_of_pos (by norm_num)] at h
    linarith)⟩

end Gftool.Props
