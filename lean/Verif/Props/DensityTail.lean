import Verif.Model.DensityTail
import Verif.Props.Density
import Verif.Props.Matrix

/-!
# Property C60: the tail-corrected Matsubara sum and its error estimates
-/

namespace Gftool.Props

open Gftool Model Lemmas Filter Topology

lemma matsubaraIm_eq (beta : ℝ) (n : ℕ) : matsubaraIm beta n = Real.pi / beta * (2 * n + 1) := by
  unfold matsubaraIm matsubaraFrequencies
  have : Complex.I * Real.pi / beta * (2 * ((n : ℤ) : ℂ) + 1)
      = ((Real.pi / beta * (2 * n + 1) : ℝ) : ℂ) * Complex.I := by
    push_cast
    ring
  rw [this, Complex.re_ofReal_mul_I_im]
where
  Complex.re_ofReal_mul_I_im (r : ℝ) : ((r : ℂ) * Complex.I).im = r := by simp

lemma matsubaraIm_pos {beta : ℝ} (hb : 0 < beta) (n : ℕ) : 0 < matsubaraIm beta n := by
  rw [matsubaraIm_eq]
  have := Real.pi_pos
  positivity

lemma matsubaraIm_succ {beta : ℝ} (n : ℕ) :
    matsubaraIm beta (n + 1) = matsubaraIm beta n + 2 * Real.pi / beta := by
  rw [matsubaraIm_eq, matsubaraIm_eq]
  push_cast
  ring

/-! ## The density -/

/-- C60: the density is the sum over the difference to the tail plus the Fermi function of the tail. -/
theorem density_eq {N : ℕ} (gf : Fin N → ℂ) (potential beta : ℝ) :
    density gf potential beta
      = 2 / beta * ∑ n : Fin N, (gf n - 1 / (matsubaraFrequencies (n : ℕ) beta + potential)).re
        + Spec.fermi beta (-potential) := by
  unfold density densityDelta
  rw [fermi_fct_eq]
  congr 1
  rw [mul_div_right_comm]
  congr 1
  refine Finset.sum_congr rfl fun n _ => ?_
  rw [Complex.sub_re, add_comm]

/-- C60: the single-pole tail is treated exactly, for any number of frequencies. -/
theorem density_exact {N : ℕ} {gf : Fin N → ℂ} {potential beta : ℝ}
    (h : ∀ n : Fin N, gf n = 1 / (matsubaraFrequencies (n : ℕ) beta + potential)) :
    density gf potential beta = Spec.fermi beta (-potential) := by
  rw [density_eq]
  simp [h]

/-- C60: for every Green's function with finitely many real poles of total weight one, and every potential, the
density tends to the exact occupation. -/
theorem density_tendsto {beta : ℝ} (hb : 0 < beta) {n : ℕ} (poles residues : Fin n → ℝ)
    (hsum : ∑ j, residues j = 1) (potential : ℝ) :
    Tendsto (fun N : ℕ => density (fun i : Fin N =>
        ∑ j, (residues j : ℂ) / (matsubaraFrequencies (i : ℕ) beta - poles j)) potential beta) atTop
      (𝓝 (∑ j, residues j * Spec.fermi beta (poles j))) := by
  have h1 : HasSum (fun m : ℕ => ∑ j, residues j
      * (2 / beta * (1 / (matsubaraFrequencies m beta - poles j) : ℂ).re))
      (∑ j, residues j * (Spec.fermi beta (poles j) - 1 / 2)) :=
    hasSum_sum fun j _ => (hasSum_matsubara hb (poles j)).mul_left (residues j)
  have h2 := h1.sub (hasSum_matsubara hb (-potential))
  have h3 := (h2.tendsto_sum_nat).add_const (Spec.fermi beta (-potential))
  have e1 : (∑ j, residues j * (Spec.fermi beta (poles j) - 1 / 2)) - (Spec.fermi beta (-potential) - 1 / 2)
      + Spec.fermi beta (-potential) = ∑ j, residues j * Spec.fermi beta (poles j) := by
    simp_rw [mul_sub]
    rw [Finset.sum_sub_distrib, ← Finset.sum_mul, hsum]
    ring
  rw [e1] at h3
  refine h3.congr fun N => ?_
  rw [density_eq, Finset.mul_sum, ← Fin.sum_univ_eq_sum_range (fun m : ℕ => (∑ j, residues j
      * (2 / beta * (1 / (matsubaraFrequencies m beta - poles j) : ℂ).re))
      - 2 / beta * (1 / (matsubaraFrequencies m beta - ((-potential : ℝ) : ℂ)) : ℂ).re)]
  congr 1
  refine Finset.sum_congr rfl fun i _ => ?_
  rw [Complex.sub_re, mul_sub, Complex.re_sum, Finset.mul_sum]
  congr 1
  · refine Finset.sum_congr rfl fun j _ => ?_
    rw [div_eq_mul_one_div (residues j : ℂ), Complex.re_ofReal_mul]
    ring
  · push_cast
    rw [sub_neg_eq_add]

/-- C60: the total density is the sum of the densities of the sites. -/
theorem density_total {N M : ℕ} (gf : Fin M → Fin N → ℂ) (potential : Fin M → ℝ) (beta : ℝ) :
    densityTotal (fun n => ∑ i, gf i n) potential beta = ∑ i, density (gf i) (potential i) beta := by
  unfold densityTotal density densityDelta
  rw [Finset.sum_add_distrib, ← Finset.sum_div, ← Finset.mul_sum, Finset.sum_comm]
  congr 4
  funext n
  rw [Finset.sum_sub_distrib, Complex.re_sum]

/-- C60: for a real symmetric matrix as potential the tail `[(iω + P)⁻¹]ᵢᵢ` is treated exactly: the result are the
diagonal elements of the Fermi function of `-P`. -/
theorem density_matrix_exact (ext : EigExt) {N M : ℕ} {gf : Fin M → Fin N → ℂ} {P : Matrix (Fin M) (Fin M) ℂ}
    (hP : P.IsHermitian) {beta : ℝ} (hb : 0 < beta)
    (h : ∀ i (n : Fin N), gf i n = (matsubaraFrequencies (n : ℕ) beta • (1 : Matrix (Fin M) (Fin M) ℂ) + P)⁻¹ i i) :
    ∃ dec, decomposeHer ext P true = .ok dec ∧ IsDecomposition P dec ∧
      densityMatrix ext false gf P beta
        = .ok fun i => (dec.reconstructFull (some fun j => (Spec.fermi beta (-(dec.eig j).re) : ℂ)) i i).re := by
  obtain ⟨dec, hdec, his, him, -, -⟩ := decompose_her_correct ext P hP true
  refine ⟨dec, hdec, his, ?_⟩
  unfold densityMatrix
  rw [hdec]
  simp only [Bool.false_eq_true, if_false]
  congr 1
  funext i
  have hne : ∀ (n : ℕ) j, matsubaraFrequencies n beta + dec.eig j ≠ 0 := by
    intro n j h0
    have h1 := congrArg Complex.im h0
    rw [Complex.add_im, him j] at h1
    have h2 := matsubaraIm_pos hb n
    unfold matsubaraIm at h2
    simp at h1
    linarith
  have h1 : ∀ n : Fin N, gf i n
      = dec.reconstructDiag (some fun j => 1 / (matsubaraFrequencies (n : ℕ) beta + dec.eig j)) i := by
    intro n
    rw [h, reconstruct_diag]
    have hr : dec.reconstructFull (some fun j => 1 / (matsubaraFrequencies (n : ℕ) beta + dec.eig j))
        = (matsubaraFrequencies (n : ℕ) beta • (1 : Matrix (Fin M) (Fin M) ℂ) + P)⁻¹ := by
      symm
      apply Matrix.inv_eq_right_inv
      have h0 : matsubaraFrequencies (n : ℕ) beta • (1 : Matrix (Fin M) (Fin M) ℂ) + P
          = dec.reconstructFull (some fun j => matsubaraFrequencies (n : ℕ) beta + dec.eig j) := by
        have := reconstruct_add dec (fun _ => matsubaraFrequencies (n : ℕ) beta) dec.eig 1
        rw [reconstruct_one his, (reconstruct_default his).2] at this
        simpa using this.symm
      rw [h0, ← reconstruct_mul his]
      have h2 : (fun j => (matsubaraFrequencies (n : ℕ) beta + dec.eig j)
          * (1 / (matsubaraFrequencies (n : ℕ) beta + dec.eig j))) = fun _ => (1 : ℂ) := by
        funext j
        rw [mul_one_div_cancel (hne n j)]
      rw [h2]
      simpa using reconstruct_one his 1
    rw [hr]
  simp only [h1, sub_self, Finset.sum_const_zero, mul_zero, zero_div, zero_add]
  rw [reconstruct_diag]
  simp_rw [fermi_fct_eq]

/-- C60 fails for matrix potentials of complex data type: `density` raises `TypeError` for every Hermitian
potential, although such potentials are documented. -/
theorem density_matrix_complex_fails (ext : EigExt) {N M : ℕ} (gf : Fin M → Fin N → ℂ)
    {P : Matrix (Fin M) (Fin M) ℂ} (hP : P.IsHermitian) (beta : ℝ) :
    densityMatrix ext true gf P beta = .error .typeError := by
  obtain ⟨dec, hdec, -⟩ := decompose_her_correct ext P hP true
  unfold densityMatrix
  rw [hdec]
  simp

/-! ## Error estimates -/

lemma summable_telescope {a u : ℕ → ℝ} (hu : ∀ n, 0 ≤ u n) (ha : ∀ n, 0 ≤ a n) (h : ∀ n, a n ≤ u n - u (n + 1)) :
    Summable a ∧ ∑' n, a n ≤ u 0 := by
  have hle : ∀ k, ∑ n ∈ Finset.range k, a n ≤ u 0 := by
    intro k
    calc ∑ n ∈ Finset.range k, a n ≤ ∑ n ∈ Finset.range k, (u n - u (n + 1)) := Finset.sum_le_sum fun n _ => h n
      _ = u 0 - u k := Finset.sum_range_sub' u k
      _ ≤ u 0 := by linarith [hu k]
  have hs : Summable a := summable_of_sum_range_le ha hle
  exact ⟨hs, hs.tsum_le_of_sum_range_le hle⟩

/-- Integral test, by telescoping. -/
lemma tail_bound {beta F c : ℝ} (hb : 0 < beta) {N : ℕ} {delta : ℕ → ℝ} {p : ℕ}
    (hF : ∀ n, N < n → |delta n| * matsubaraIm beta n ^ p ≤ F)
    {v : ℕ → ℝ} (hv : ∀ n, 0 ≤ v n)
    (hstep : ∀ n, 2 / beta * (1 / matsubaraIm beta (n + 1) ^ p) ≤ v n - v (n + 1)) (hc : v N ≤ c) :
    Summable (fun n => 2 / beta * delta (n + (N + 1))) ∧ |∑' n, 2 / beta * delta (n + (N + 1))| ≤ F * c := by
  have hF0 : 0 ≤ F := le_trans (by have := matsubaraIm_pos hb (N + 1); positivity) (hF (N + 1) (Nat.lt_succ_self N))
  have ht := summable_telescope (a := fun n => ‖2 / beta * delta (n + (N + 1))‖) (u := fun n => F * v (n + N))
    (fun n => mul_nonneg hF0 (hv _)) (fun n => norm_nonneg _) (by
      intro n
      have h1 := hF (n + N + 1) (by omega)
      have h2 := hstep (n + N)
      have hw := matsubaraIm_pos hb (n + N + 1)
      rw [Real.norm_eq_abs, abs_mul, abs_of_pos (by positivity : 0 < 2 / beta), show n + (N + 1) = n + N + 1 by ring,
        show n + 1 + N = n + N + 1 by ring, ← mul_sub]
      have h3 : |delta (n + N + 1)| ≤ F * (1 / matsubaraIm beta (n + N + 1) ^ p) := by
        rw [mul_one_div, le_div_iff₀ (by positivity)]
        exact h1
      calc 2 / beta * |delta (n + N + 1)| ≤ 2 / beta * (F * (1 / matsubaraIm beta (n + N + 1) ^ p)) :=
            mul_le_mul_of_nonneg_left h3 (by positivity)
        _ = F * (2 / beta * (1 / matsubaraIm beta (n + N + 1) ^ p)) := by ring
        _ ≤ F * (v (n + N) - v (n + N + 1)) := mul_le_mul_of_nonneg_left h2 hF0)
  refine ⟨ht.1.of_norm, ?_⟩
  rw [← Real.norm_eq_abs]
  refine (norm_tsum_le_tsum_norm ht.1).trans (ht.2.trans ?_)
  rw [zero_add]
  exact mul_le_mul_of_nonneg_left hc hF0

/-- C60: `density_error(noisy=False)` is an upper bound of the truncation error, if `|ΔG| ω²` does not grow beyond
the considered frequencies. -/
theorem density_error_bound {beta : ℝ} (hb : 0 < beta) {N : ℕ} (delta : ℕ → ℝ)
    (hmax : ∀ n, N < n → ∃ m : Fin (N + 1), (N + 1) / 10 ≤ (m : ℕ) ∧
      |delta n| * matsubaraIm beta n ^ 2 ≤ |delta m| * matsubaraIm beta m ^ 2) :
    Summable (fun n => 2 / beta * delta (n + (N + 1))) ∧
    |∑' n, 2 / beta * delta (n + (N + 1))| ≤ densityError (fun n : Fin (N + 1) => delta n) beta false := by
  have hpi := Real.pi_pos
  unfold densityError
  simp only [Bool.false_eq_true, if_false, Fin.val_last]
  refine tail_bound hb (p := 2) (fun n hn => ?_) (v := fun n => 1 / Real.pi / matsubaraIm beta n) (fun n => ?_)
    (fun n => ?_) le_rfl
  · obtain ⟨m, hm, h⟩ := hmax n hn
    exact h.trans (Finset.le_sup' (fun n : Fin (N + 1) => |delta n| * matsubaraIm beta n ^ 2)
      (by simp only [densityPart, Finset.mem_filter, Finset.mem_univ, true_and]; exact hm))
  · have := matsubaraIm_pos hb n
    positivity
  · have h0 := matsubaraIm_pos hb n
    have h1 := matsubaraIm_pos hb (n + 1)
    have hs := matsubaraIm_succ (beta := beta) n
    generalize matsubaraIm beta n = a at *
    generalize matsubaraIm beta (n + 1) = b at *
    have e1 : 2 / beta = (b - a) / Real.pi := by
      rw [hs]
      field_simp
      ring
    have hab : 0 < b - a := by rw [hs]; have : 0 < 2 * Real.pi / beta := by positivity
                               linarith
    have e2 : 1 / Real.pi / a - 1 / Real.pi / b = (b - a) / Real.pi * (1 / (a * b)) := by
      field_simp
    rw [e2, e1]
    refine mul_le_mul_of_nonneg_left ?_ (by positivity)
    apply one_div_le_one_div_of_le (by positivity)
    nlinarith

/-- C60: `density_error2` is an upper bound of the truncation error, if `|ΔG| ω³` does not grow beyond
the considered frequencies. -/
theorem density_error2_bound {beta : ℝ} (hb : 0 < beta) {N : ℕ} (delta : ℕ → ℝ)
    (hmax : ∀ n, N < n → ∃ m : Fin (N + 1), (N + 1) / 10 ≤ (m : ℕ) ∧
      |delta n| * matsubaraIm beta n ^ 3 ≤ |delta m| * matsubaraIm beta m ^ 3) :
    Summable (fun n => 2 / beta * delta (n + (N + 1))) ∧
    |∑' n, 2 / beta * delta (n + (N + 1))| ≤ densityError2 (fun n : Fin (N + 1) => delta n) beta := by
  have hpi := Real.pi_pos
  unfold densityError2
  simp only [Fin.val_last]
  refine tail_bound hb (p := 3) (fun n hn => ?_) (v := fun n => 1 / 2 / Real.pi / matsubaraIm beta n ^ 2) (fun n => ?_)
    (fun n => ?_) ?_
  · obtain ⟨m, hm, h⟩ := hmax n hn
    exact h.trans (Finset.le_sup' (fun n : Fin (N + 1) => |delta n| * matsubaraIm beta n ^ 3)
      (by simp only [densityPart, Finset.mem_filter, Finset.mem_univ, true_and]; exact hm))
  · have := matsubaraIm_pos hb n
    positivity
  · have h0 := matsubaraIm_pos hb n
    have h1 := matsubaraIm_pos hb (n + 1)
    have hs := matsubaraIm_succ (beta := beta) n
    generalize matsubaraIm beta n = a at *
    generalize matsubaraIm beta (n + 1) = b at *
    have e1 : 2 / beta = (b - a) / Real.pi := by
      rw [hs]
      field_simp
      ring
    have hab : 0 < b - a := by rw [hs]; have : 0 < 2 * Real.pi / beta := by positivity
                               linarith
    have e2 : 1 / 2 / Real.pi / a ^ 2 - 1 / 2 / Real.pi / b ^ 2
        = (b - a) / Real.pi * ((a + b) / (2 * a ^ 2 * b ^ 2)) := by
      field_simp
      ring
    rw [e2, e1]
    refine mul_le_mul_of_nonneg_left ?_ (by positivity)
    rw [div_le_div_iff₀ (by positivity) (by positivity)]
    have : 2 * a ^ 2 ≤ (a + b) * b := by nlinarith
    nlinarith [pow_pos h1 2]
  · have h0 := matsubaraIm_pos hb N
    rw [div_le_div_iff_of_pos_right (by positivity), div_le_iff₀ hpi]
    nlinarith [Real.two_le_pi]

/-- C60: applied to `density`: the result for `N + 1` frequencies differs from the exact occupation of a Green's
function with real poles by at most `density_error`. -/
theorem density_accuracy {beta : ℝ} (hb : 0 < beta) {k : ℕ} (poles residues : Fin k → ℝ)
    (hsum : ∑ j, residues j = 1) (potential : ℝ) (N : ℕ)
    (gf : ℕ → ℂ) (hgf : ∀ n : ℕ, gf n = ∑ j, (residues j : ℂ) / (matsubaraFrequencies n beta - poles j))
    (delta : ℕ → ℝ) (hdelta : ∀ n : ℕ, delta n = (gf n).re - (1 / (potential + matsubaraFrequencies n beta) : ℂ).re)
    (hmax : ∀ n, N < n → ∃ m : Fin (N + 1), (N + 1) / 10 ≤ (m : ℕ) ∧
      |delta n| * matsubaraIm beta n ^ 2 ≤ |delta m| * matsubaraIm beta m ^ 2) :
    |density (fun n : Fin (N + 1) => gf n) potential beta - ∑ j, residues j * Spec.fermi beta (poles j)|
      ≤ densityError (densityDelta (fun n : Fin (N + 1) => gf n) potential beta) beta false := by
  obtain ⟨hs, hle⟩ := density_error_bound hb delta hmax
  have hd : (fun n : Fin (N + 1) => delta n) = densityDelta (fun n : Fin (N + 1) => gf n) potential beta := by
    funext n
    rw [hdelta]
    rfl
  rw [hd] at hle
  refine le_trans (le_of_eq ?_) hle
  have hs' : Summable fun n => 2 / beta * delta n := (summable_nat_add_iff (f := fun n => 2 / beta * delta n) (N + 1)).1 hs
  have hden : ∀ K : ℕ, density (fun n : Fin K => gf n) potential beta
      = ∑ n ∈ Finset.range K, 2 / beta * delta n + Spec.fermi beta (-potential) := by
    intro K
    unfold density
    rw [fermi_fct_eq, ← Finset.mul_sum, ← Fin.sum_univ_eq_sum_range (fun n => delta n), mul_div_right_comm]
    congr 3
    funext n
    rw [hdelta]
    rfl
  have hlim := density_tendsto hb poles residues hsum potential
  have hlim2 := hs'.hasSum.tendsto_sum_nat.add_const (Spec.fermi beta (-potential))
  have huniq : ∑ j, residues j * Spec.fermi beta (poles j)
      = (∑' n, 2 / beta * delta n) + Spec.fermi beta (-potential) := by
    refine tendsto_nhds_unique hlim (hlim2.congr fun K => ?_)
    rw [← hden K]
    congr 1
    funext n
    rw [hgf]
  rw [huniq, hden, ← hs'.sum_add_tsum_nat_add (N + 1), ← abs_neg]
  congr 1
  ring

/-- The assumption of the estimate is met by `ΔG = 1/ω²`. -/
example (N : ℕ) : ∀ n, N < n → ∃ m : Fin (N + 1), (N + 1) / 10 ≤ (m : ℕ) ∧
    |1 / matsubaraIm 1 n ^ 2| * matsubaraIm 1 n ^ 2 ≤ |1 / matsubaraIm 1 m ^ 2| * matsubaraIm 1 m ^ 2 := by
  intro n _
  refine ⟨Fin.last N, by rw [Fin.val_last]; omega, le_of_eq ?_⟩
  have h : ∀ n : ℕ, |1 / matsubaraIm 1 n ^ 2| * matsubaraIm 1 n ^ 2 = 1 := by
    intro n
    have := matsubaraIm_pos one_pos n
    rw [abs_of_pos (by positivity)]
    field_simp
  rw [h, h]

/-- And by the Green's function with the poles `1` and `-3` of weights `9/10` and `1/10`: `|ΔG| ω²` decreases. -/
example (N : ℕ) : ∀ n, N < n → ∃ m : Fin (N + 1), (N + 1) / 10 ≤ (m : ℕ) ∧
    |(9 / 10 * (-1 / (matsubaraIm (1 / 2) n ^ 2 + 1)) + 1 / 10 * (3 / (matsubaraIm (1 / 2) n ^ 2 + 9)))| * matsubaraIm (1 / 2) n ^ 2
      ≤ |(9 / 10 * (-1 / (matsubaraIm (1 / 2) m ^ 2 + 1)) + 1 / 10 * (3 / (matsubaraIm (1 / 2) m ^ 2 + 9)))|
        * matsubaraIm (1 / 2) m ^ 2 := by
  intro n hn
  refine ⟨Fin.last N, by rw [Fin.val_last]; omega, ?_⟩
  rw [Fin.val_last]
  have h0 : ∀ n : ℕ, 16 ≤ matsubaraIm (1 / 2) n ^ 2 := by
    intro n
    rw [matsubaraIm_eq]
    have h1 : 4 ≤ Real.pi / (1 / 2) * (2 * n + 1) := by
      have := Real.two_le_pi
      have : (0 : ℝ) ≤ n := Nat.cast_nonneg n
      nlinarith
    nlinarith
  have h1 : ∀ n : ℕ, |(9 / 10 * (-1 / (matsubaraIm (1 / 2) n ^ 2 + 1)) + 1 / 10 * (3 / (matsubaraIm (1 / 2) n ^ 2 + 9)))|
      * matsubaraIm (1 / 2) n ^ 2 = 6 / 10 * matsubaraIm (1 / 2) n ^ 2 * (matsubaraIm (1 / 2) n ^ 2 + 13)
        / ((matsubaraIm (1 / 2) n ^ 2 + 1) * (matsubaraIm (1 / 2) n ^ 2 + 9)) := by
    intro n
    have := h0 n
    generalize matsubaraIm (1 / 2) n ^ 2 = x at *
    have e : 9 / 10 * (-1 / (x + 1)) + 1 / 10 * (3 / (x + 9)) = -(6 / 10 * (x + 13) / ((x + 1) * (x + 9))) := by
      field_simp
      ring
    rw [e, abs_neg, abs_of_pos (by positivity)]
    ring
  rw [h1, h1]
  have hle : matsubaraIm (1 / 2) N ^ 2 ≤ matsubaraIm (1 / 2) n ^ 2 := by
    rw [matsubaraIm_eq, matsubaraIm_eq]
    have h2 : (N : ℝ) ≤ n := by exact_mod_cast hn.le
    have h3 := Real.pi_pos
    have h4 : (0 : ℝ) ≤ N := Nat.cast_nonneg N
    gcongr
  have hx := h0 N
  have hy := h0 n
  generalize matsubaraIm (1 / 2) n ^ 2 = y at *
  generalize matsubaraIm (1 / 2) N ^ 2 = x at *
  rw [div_le_div_iff₀ (by positivity) (by positivity)]
  have h5 : 0 ≤ x * y * 3 - 9 * (x + y) - 117 := by nlinarith
  nlinarith [mul_nonneg (sub_nonneg.2 hle) h5]

/-- C60 fails for the default `noisy=True`: the estimated upper bound is negative for negative data, and `density`
never warns, however large the error is. -/
theorem density_error_noisy_negative {beta : ℝ} (hb : 0 < beta) {N : ℕ} (delta : Fin (N + 1) → ℝ)
    (h : ∀ n, delta n < 0) : densityError delta beta true < 0 := by
  unfold densityError
  simp only [if_true]
  have hne := densityPart_nonempty N
  have h1 : ∑ n ∈ densityPart N, delta n * matsubaraIm beta n ^ 2 < 0 := by
    refine Finset.sum_neg (fun n _ => ?_) hne
    have := matsubaraIm_pos hb n
    exact mul_neg_of_neg_of_pos (h n) (by positivity)
  have h2 : (0 : ℝ) < (densityPart N).card := by exact_mod_cast hne.card_pos
  have h3 := matsubaraIm_pos hb (Fin.last N)
  exact mul_neg_of_neg_of_pos (div_neg_of_neg_of_pos h1 h2) (by have := Real.pi_pos; positivity)

/-- A concrete case: one pole at `1` and the potential `0`. The density deviates for every number of frequencies,
but no positive tolerance triggers a warning. -/
theorem density_never_warns {beta : ℝ} (hb : 0 < beta) (N : ℕ) {tol : ℝ} (htol : 0 ≤ tol) :
    ¬ densityWarns (fun n : Fin (N + 1) => 1 / (matsubaraFrequencies (n : ℕ) beta - 1)) 0 beta tol := by
  unfold densityWarns
  refine not_lt.2 (le_trans (density_error_noisy_negative hb _ fun n => ?_).le htol)
  unfold densityDelta
  have hre : (matsubaraFrequencies ((n : ℕ) : ℤ) beta).re = 0 := by
    unfold matsubaraFrequencies
    have : Complex.I * Real.pi / beta * (2 * (((n : ℕ) : ℤ) : ℂ) + 1)
        = ((Real.pi / beta * (2 * (n : ℕ) + 1) : ℝ) : ℂ) * Complex.I := by
      push_cast
      ring
    rw [this]
    simp
  have him := matsubaraIm_pos hb n
  unfold matsubaraIm at him
  simp only [Complex.ofReal_zero, zero_add, one_div, Complex.inv_re, Complex.sub_re, Complex.one_re, hre, zero_div,
    sub_zero]
  apply div_neg_of_neg_of_pos (by norm_num)
  rw [Complex.normSq_apply]
  simp only [Complex.sub_re, Complex.one_re, hre, Complex.sub_im, Complex.one_im, sub_zero]
  positivity

/-! ## Convergence check -/

/-- C60: for Green's functions with real poles of total weight one `check_convergence` of order two converges to the
difference of the first moments. -/
theorem check_convergence_tendsto {beta : ℝ} (hb : 0 < beta) {k : ℕ} (poles residues : Fin k → ℝ)
    (potential : ℝ) (c : ℕ → ℝ)
    (hc : ∀ N (n : Fin N), c n = checkConvergence (fun i : Fin N =>
        ∑ j, (residues j : ℂ) / (matsubaraFrequencies (i : ℕ) beta - poles j)) potential beta 2 n) :
    Tendsto c atTop (𝓝 (-∑ j, residues j * poles j - potential)) := by
  have hre : ∀ (n : ℕ) (e : ℝ), (1 / (matsubaraFrequencies n beta - e) : ℂ).re
      = -e / (matsubaraIm beta n ^ 2 + e ^ 2) := by
    intro n e
    have h0 : matsubaraFrequencies n beta = (matsubaraIm beta n : ℂ) * Complex.I := by
      rw [matsubaraIm_eq]
      unfold matsubaraFrequencies
      push_cast
      ring
    rw [h0, one_div, Complex.inv_re, Complex.normSq_apply]
    simp
    ring
  have hinf : Tendsto (fun n : ℕ => matsubaraIm beta n) atTop atTop := by
    simp_rw [matsubaraIm_eq]
    have hp : 0 < Real.pi / beta := by have := Real.pi_pos; positivity
    refine Tendsto.const_mul_atTop hp (tendsto_atTop_add_const_right _ _ ?_)
    exact Tendsto.const_mul_atTop (by norm_num) tendsto_natCast_atTop_atTop
  have hone : ∀ e : ℝ, Tendsto (fun n : ℕ => matsubaraIm beta n ^ 2 * (-e / (matsubaraIm beta n ^ 2 + e ^ 2)))
      atTop (𝓝 (-e)) := by
    intro e
    have h1 : Tendsto (fun n : ℕ => e ^ 2 / matsubaraIm beta n ^ 2) atTop (𝓝 0) :=
      tendsto_const_nhds.div_atTop ((tendsto_pow_atTop (by norm_num)).comp hinf)
    have h2 : Tendsto (fun n : ℕ => -e / (1 + e ^ 2 / matsubaraIm beta n ^ 2)) atTop (𝓝 (-e / (1 + 0))) :=
      tendsto_const_nhds.div (tendsto_const_nhds.add h1) (by norm_num)
    rw [add_zero, div_one] at h2
    refine h2.congr fun n => ?_
    have := matsubaraIm_pos hb n
    have h3 : 0 < matsubaraIm beta n ^ 2 + e ^ 2 := by positivity
    field_simp
  have hlim : Tendsto (fun n : ℕ => ∑ j, residues j * (matsubaraIm beta n ^ 2
      * (-poles j / (matsubaraIm beta n ^ 2 + poles j ^ 2)))
      - matsubaraIm beta n ^ 2 * (- -potential / (matsubaraIm beta n ^ 2 + (-potential) ^ 2))) atTop
      (𝓝 (∑ j, residues j * -poles j - - -potential)) :=
    (tendsto_finsetSum _ fun j _ => (hone (poles j)).const_mul _).sub (hone (-potential))
  have e0 : ∑ j, residues j * -poles j - - -potential = -∑ j, residues j * poles j - potential := by
    simp
  rw [e0] at hlim
  refine hlim.congr fun n => ?_
  rw [hc (n + 1) ⟨n, Nat.lt_succ_self n⟩]
  unfold checkConvergence densityDelta
  simp only
  have h5 : (1 / (potential + matsubaraFrequencies n beta) : ℂ).re
      = - -potential / (matsubaraIm beta n ^ 2 + (-potential) ^ 2) := by
    rw [← hre n (-potential)]
    push_cast
    rw [sub_neg_eq_add, add_comm]
  rw [h5, Complex.re_sum, mul_sub, Finset.mul_sum]
  congr 1
  refine Finset.sum_congr rfl fun j _ => ?_
  rw [div_eq_mul_one_div (residues j : ℂ), Complex.re_ofReal_mul, hre]
  ring

/-- C60 fails: `check_convergence(matrix=True)` raises `ValueError` unless the number of frequencies is the size of
the matrix. -/
theorem check_convergence_matrix_fails (ext : EigExt) {N M : ℕ} (hNM : N ≠ M) (gf : Fin M → Fin N → ℂ)
    {P : Matrix (Fin M) (Fin M) ℂ} (hP : P.IsHermitian) (beta : ℝ) (order : ℕ) :
    checkConvergenceMatrix ext gf P beta order = .error .valueError := by
  obtain ⟨dec, hdec, -⟩ := decompose_her_correct ext P hP true
  unfold checkConvergenceMatrix
  rw [hdec]
  simp [hNM]

end Gftool.Props
