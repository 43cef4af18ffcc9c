import Verif.Model.StackFit
import Verif.Props.Beb
import Verif.Props.DensityTail
import Verif.Props.RetTime

/-!
# Error kinds, tolerances and cutoffs (C18, C25, C55, C60)

The properties of these functions are stated elsewhere; here the numbers are explicit.
-/

namespace Gftool.Props

open Gftool Model Lemmas Matrix Spec

/-! ## Tolerance of the symmetry checks -/

/-- C18: `decompose_her` with check raises `ValueError` exactly for the matrices with an element that differs by more
than `10⁻⁸` from the adjoint one. -/
theorem decompose_her_tolerance (ext : EigExt) {n : ℕ} (mat : Matrix (Fin n) (Fin n) ℂ) :
    decomposeHer ext mat true = .error .valueError ↔ ∃ i j, 1 / 10 ^ 8 < ‖mat i j - star (mat j i)‖ := by
  rw [decompose_her_error_iff]
  unfold allcloseAtol
  simp

/-- C18: `decompose_sym` with check raises `ValueError` exactly for the matrices with an element that differs by more
than `10⁻⁸` from the transposed one. -/
theorem decompose_sym_tolerance (ext : EigExt) {n : ℕ} (mat : Matrix (Fin n) (Fin n) ℂ) :
    decomposeSym ext mat true = .error .valueError ↔ ∃ i j, 1 / 10 ^ 8 < ‖mat i j - mat j i‖ := by
  have hi : (∃ i j, 1 / 10 ^ 8 < ‖mat i j - mat j i‖) ↔ ¬ ∀ i j, ‖mat i j - mat j i‖ ≤ allcloseAtol := by
    unfold allcloseAtol
    push Not
    rfl
  rw [hi]
  unfold decomposeSym
  by_cases h : ∀ i j, ‖mat i j - mat j i‖ ≤ allcloseAtol
  · rw [if_neg (by simp [h])]
    simp only [h, implies_true, not_true, iff_false]
    unfold npInv
    split_ifs <;> simp
  · rw [if_pos ⟨rfl, h⟩]
    simp [h]

/-- Both cases occur: `10⁻⁷` is detected, `10⁻⁹` is not. -/
example (ext : EigExt) : decomposeHer ext !![0, 1 / 10 ^ 7; 0, 0] true = .error .valueError ∧
    decomposeHer ext !![0, 1 / 10 ^ 9; 0, 0] true ≠ .error .valueError := by
  rw [Ne, decompose_her_tolerance, decompose_her_tolerance]
  constructor
  · exact ⟨0, 1, by norm_num⟩
  · push Not
    intro i j
    fin_cases i <;> fin_cases j <;> norm_num

/-! ## Singular effective medium in BEB -/

/-- The root equation of BEB can only fail with `LinAlgError`. -/
lemma beb_root_eq_error (ext : EigExt) {n : ℕ} {σ : Type} [Fintype σ] [DecidableEq σ] (d : SpecDec n σ)
    (s : Matrix (Fin n) (Fin n) ℂ) (z : ℂ) (e : Fin n → ℂ) (c : Fin n → ℝ) (hilbert : ℂ → ℂ) {err : Err}
    (h : bebSelfRootEq ext d s z e c hilbert = .error err) : err = .linAlgError := by
  have hinv : ∀ {m : Type} [Fintype m] [DecidableEq m] (a : Matrix m m ℂ) (x : Err),
      npInv a = .error x → x = .linAlgError := by
    intro m _ _ a x hx
    unfold npInv at hx
    split_ifs at hx
    exact (Except.error.inj hx).symm
  unfold bebSelfRootEq at h
  cases hg : gfLocInv ext d z s hilbert with
  | ok inv => rw [hg] at h; exact absurd h (by simp)
  | error x =>
    rw [hg] at h
    have hx : x = err := Except.error.inj h
    subst hx
    unfold gfLocInv at hg
    cases h1 : npInv (zMSelf z s) with
    | error y => rw [h1] at hg; rw [← Except.error.inj hg]; exact hinv _ _ h1
    | ok inv =>
      rw [h1] at hg
      simp only at hg
      cases h2 : decomposeMat ext (d.suh * inv * d.us) with
      | error y =>
        rw [h2] at hg
        rw [← Except.error.inj hg]
        unfold decomposeMat at h2
        simp only at h2
        cases h3 : npInv (ext.eig (d.suh * inv * d.us)).2 with
        | error w => rw [h3] at h2; rw [← Except.error.inj h2]; exact hinv _ _ h3
        | ok w => rw [h3] at h2; exact absurd h2 (by simp)
      | ok dec =>
        rw [h2] at hg
        simp only at hg
        split_ifs at hg

/-- C25: without starting guess `solve_root` raises `LinAlgError` if one of the frequencies is zero: the first
self-energy is evaluated for the medium `z·1`. -/
theorem beb_solve_root_zero_frequency (ext : EigExt) {n : ℕ} (hn : 0 < n) {σ κ : Type} [Fintype σ] [DecidableEq σ]
    (solver : ExceptSolver (κ → Matrix (Fin n) (Fin n) ℂ)) (d : SpecDec n σ) (z : κ → ℂ) (e : κ → Fin n → ℂ)
    (c : κ → Fin n → ℝ) (hilbert : ℂ → ℂ) (restricted : Bool) {k : κ} (hk : z k = 0) :
    bebSolveRoot ext solver d z e c hilbert none restricted = .error .linAlgError := by
  have h0 : bebSelfRootEq ext d 0 (z k) (e k) (c k) hilbert = .error .linAlgError := by
    unfold bebSelfRootEq gfLocInv npInv
    have : (zMSelf (z k) (0 : Matrix (Fin n) (Fin n) ℂ)).det = 0 := by
      unfold zMSelf
      haveI : Nonempty (Fin n) := ⟨⟨0, hn⟩⟩
      rw [hk, zero_smul, sub_zero, Matrix.det_zero]
    rw [if_pos this]
  have h1 : (forAll fun k => bebSelfRootEq ext d ((0 : κ → Matrix (Fin n) (Fin n) ℂ) k) (z k) (e k) (c k) hilbert)
      = .error .linAlgError := by
    unfold forAll
    rw [dif_neg]
    intro h
    obtain ⟨a, ha⟩ := h k
    have ha' : bebSelfRootEq ext d 0 (z k) (e k) (c k) hilbert = .ok a := ha
    rw [h0] at ha'
    exact absurd ha' (by simp)
  unfold bebSolveRoot bebStart
  simp only [h1]

/-! ## Cutoff of the series for small times -/

lemma ret_small_bound {x : ℝ} (h0 : 0 ≤ x) (h : x < retSmall) : 7 / 4320 * x ^ 6 ≤ 1 / 10 ^ 26 := by
  have h1 : x ^ 6 ≤ retSmall ^ 6 := pow_le_pow_left₀ h0 h.le 6
  unfold retSmall at h1
  norm_num at h1 ⊢
  linarith

/-- C55: switching to the series for small times costs at most `10⁻²⁶`, far below the precision of a double. -/
theorem bethe_gf_ret_t_accuracy (jv1 : ℝ → ℝ) {t D : ℝ} (hD : 0 < D) (h0 : 0 ≤ t) :
    ‖betheGfRetT jv1 t D 0 - retardedTime (fun e => betheDos e D) t‖ ≤ 1 / 10 ^ 26
      ∨ betheGfRetT jv1 t D 0 = -2 * Complex.I * jv1 (D * t) / (D * t) := by
  have hx : 0 ≤ D * t := by positivity
  rcases lt_or_ge (D * t) retSmall with h | h
  · exact Or.inl ((bethe_gf_ret_t_small jv1 hD h0 h).trans (ret_small_bound hx h))
  · right
    unfold betheGfRetT
    simp only
    rw [if_neg (by simp), if_pos hx, if_neg (by rw [abs_of_nonneg hx]; exact not_lt.2 h)]
    push_cast
    rfl

/-- C55: at all times `box.gf_ret_t` is the retarded Green's function up to `10⁻²⁶`. -/
theorem box_gf_ret_t_accuracy {t D : ℝ} (hD : 0 < D) (h0 : 0 ≤ t) :
    ‖boxGfRetT t D 0 - retardedTime (fun e => boxDos e D) t‖ ≤ 1 / 10 ^ 26 := by
  rcases lt_or_ge (D * t) retSmall with h | h
  · exact (box_gf_ret_t_small hD h0 h).trans (ret_small_bound (by positivity) h)
  · rw [box_gf_ret_t_fourier hD h, sub_self, norm_zero]
    positivity

/-! ## Convergence check of matrices -/

/-- C60: for a single orbital and a single frequency `check_convergence(matrix=True)` agrees with the scalar one. -/
theorem check_convergence_matrix_partial (ext : EigExt) (gf : Fin 1 → Fin 1 → ℂ) (p beta : ℝ) (order : ℕ) :
    ∃ r, checkConvergenceMatrix ext gf !![(p : ℂ)] beta order = .ok r ∧
      r 0 0 = checkConvergence (gf 0) p beta order 0 := by
  have hP : (!![(p : ℂ)] : Matrix (Fin 1) (Fin 1) ℂ).IsHermitian := by
    ext i j; fin_cases i; fin_cases j; simp
  obtain ⟨dec, hdec, hd, hinv⟩ := decompose_her_correct ext _ hP true
  obtain ⟨hA, hI⟩ := hd
  unfold checkConvergenceMatrix
  rw [hdec]
  refine ⟨fun i n => matsubaraIm beta n ^ order * ((gf i n).re
    - (dec.reconstructDiag (some fun j => 1 / (dec.eig i + matsubaraFrequencies ((j : ℕ) : ℤ) beta)) n).re), rfl, ?_⟩
  have h1 : dec.rv 0 0 * dec.rvInv 0 0 = 1 := by
    have := congrFun (congrFun hI 0) 0
    rw [Matrix.mul_apply] at this
    simp at this
    linear_combination this
  have h2 : dec.eig 0 = p := by
    have := congrFun (congrFun hA 0) 0
    rw [Matrix.mul_apply] at this
    simp [Matrix.mul_apply, Matrix.diagonal] at this
    linear_combination -this - dec.eig 0 * h1
  unfold checkConvergence densityDelta Decomposition.reconstructDiag
  have h3 : dec.rvInv 0 0 * dec.rv 0 0 = 1 := by linear_combination h1
  simp [Matrix.mulVec, dotProduct, h2, h3]

/-! ## Linear prediction without coefficients -/

/-- C69: `predict(stable=True)` with no coefficients raises `ValueError` for every stack. -/
theorem predict_stable_no_coefficients (ext : EigExt) (x pc : Nd ℂ) (num : ℕ) (ps : List ℕ) (hp : pc.dims = 0 :: ps) :
    predictStableNd ext x pc num = .error .valueError := by
  unfold predictStableNd
  simp only [hp]

/-- C69: `predict(stable=True)` with scalar coefficients raises `IndexError`. -/
theorem predict_stable_scalar_coefficients (ext : EigExt) (x pc : Nd ℂ) (num : ℕ) (hp : pc.dims = []) :
    predictStableNd ext x pc num = .error .indexError := by
  unfold predictStableNd
  simp only [hp]

end Gftool.Props
