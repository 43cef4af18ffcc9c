import Verif.Model.Cpa
import Verif.Props.PoleFit
import Mathlib.Tactic

/-!
# Properties C22-C24: coherent potential approximation
-/

namespace Gftool.Props

open Gftool Model

variable {ι κ : Type*} [Fintype ι]

/-! ## C22 -/

/-- Specification: the average of the component Green's functions. -/
noncomputable def avgGf (z s : ℂ) (e : ι → ℂ) (c : ι → ℝ) (hilbert : ℂ → ℂ) : ℂ :=
  ∑ i, (c i : ℂ) * gfCmptZ z s e hilbert i

omit [Fintype ι] in
/-- C22: the component Green's function is the coherent one with the local self-energy
replaced by the on-site energy (Dyson equation `1/g_i = 1/g + Σ - e_i`). -/
theorem gf_cmpt_dyson (z s : ℂ) (e : ι → ℂ) (hilbert : ℂ → ℂ) (i : ι)
    (hg : hilbert (z - s) ≠ 0) (h1 : 1 - (e i - s) * hilbert (z - s) ≠ 0) :
    gfCmptZ z s e hilbert i ≠ 0 ∧
      (gfCmptZ z s e hilbert i)⁻¹ = (hilbert (z - s))⁻¹ + s - e i := by
  constructor
  · exact div_ne_zero hg h1
  · simp only [gfCmptZ, inv_div]
    field_simp
    ring

lemma avg_eq (z s : ℂ) (e : ι → ℂ) (c : ι → ℝ) (hilbert : ℂ → ℂ) (hc : ∑ i, c i = 1)
    (h1 : ∀ i, 1 - (e i - s) * hilbert (z - s) ≠ 0) :
    avgGf z s e c hilbert
      = hilbert (z - s) * (1 + cpaT s z e c hilbert * hilbert (z - s)) := by
  have hc' : ∑ i, (c i : ℂ) = 1 := by exact_mod_cast congrArg (fun x : ℝ => (x : ℂ)) hc
  simp only [avgGf, gfCmptZ, cpaT]
  generalize hilbert (z - s) = g at *
  have h2 : g * (1 + (∑ i, (c i : ℂ) * (e i - s) / (1 - (e i - s) * g)) * g)
      = ∑ i, ((c i : ℂ) * g + g * ((c i : ℂ) * (e i - s) / (1 - (e i - s) * g) * g)) := by
    rw [Finset.sum_add_distrib, ← Finset.mul_sum, ← Finset.sum_mul, ← Finset.sum_mul, hc']
    ring
  rw [h2]
  refine Finset.sum_congr rfl fun i _ => ?_
  have h3 := h1 i
  have h4 : 1 - g * (e i - s) ≠ 0 := by rwa [mul_comm g]
  field_simp
  ring

/-- C22: the root equation is the difference of the inverse coherent and the inverse average
Green's function. -/
theorem self_root_eq_inv (z s : ℂ) (e : ι → ℂ) (c : ι → ℝ) (hilbert : ℂ → ℂ)
    (hc : ∑ i, c i = 1) (hg : hilbert (z - s) ≠ 0)
    (h1 : ∀ i, 1 - (e i - s) * hilbert (z - s) ≠ 0) (havg : avgGf z s e c hilbert ≠ 0) :
    selfRootEq s z e c hilbert = (hilbert (z - s))⁻¹ - (avgGf z s e c hilbert)⁻¹ := by
  rw [avg_eq z s e c hilbert hc h1] at havg ⊢
  have h2 := right_ne_zero_of_mul havg
  simp only [selfRootEq]
  field_simp
  ring

/-- C22: the root equation vanishes iff the average of the component Green's functions is the
coherent Green's function. (`havg` excludes `1 + T g = 0`, where the code divides by zero.) -/
theorem self_root_eq_iff_avg (z s : ℂ) (e : ι → ℂ) (c : ι → ℝ) (hilbert : ℂ → ℂ)
    (hc : ∑ i, c i = 1) (hg : hilbert (z - s) ≠ 0)
    (h1 : ∀ i, 1 - (e i - s) * hilbert (z - s) ≠ 0) (havg : avgGf z s e c hilbert ≠ 0) :
    selfRootEq s z e c hilbert = 0 ↔ avgGf z s e c hilbert = hilbert (z - s) := by
  rw [self_root_eq_inv z s e c hilbert hc hg h1 havg, sub_eq_zero, inv_inj, eq_comm]

/-- C22: roots are fixed points. -/
theorem self_root_eq_iff_fxdpnt (z s : ℂ) (e : ι → ℂ) (c : ι → ℝ) (hilbert : ℂ → ℂ) :
    selfRootEq s z e c hilbert = 0 ↔ selfFxdpntEq s z e c hilbert = s := by
  simp [selfFxdpntEq]

/-- C22: one iteration of the fixed-point equation gives the self-energy `Σ'` for which the
averaged Green's function obeys the Dyson equation of the medium. -/
theorem self_fxdpnt_dyson (z s : ℂ) (e : ι → ℂ) (c : ι → ℝ) (hilbert : ℂ → ℂ)
    (hc : ∑ i, c i = 1) (hg : hilbert (z - s) ≠ 0)
    (h1 : ∀ i, 1 - (e i - s) * hilbert (z - s) ≠ 0) (havg : avgGf z s e c hilbert ≠ 0) :
    (avgGf z s e c hilbert)⁻¹ = (hilbert (z - s))⁻¹ + s - selfFxdpntEq s z e c hilbert := by
  rw [selfFxdpntEq, self_root_eq_inv z s e c hilbert hc hg h1 havg]
  ring

/-- C22: without disorder (all energies equal) the only root is that energy. -/
theorem self_root_eq_pure (z s e0 : ℂ) (c : ι → ℝ) (hilbert : ℂ → ℂ) (hc : ∑ i, c i = 1)
    (h1 : 1 - (e0 - s) * hilbert (z - s) ≠ 0) :
    selfRootEq s z (fun _ => e0) c hilbert = 0 ↔ s = e0 := by
  have hc' : ∑ i, (c i : ℂ) = 1 := by exact_mod_cast congrArg (fun x : ℝ => (x : ℂ)) hc
  have hT : cpaT s z (fun _ => e0) c hilbert = (e0 - s) / (1 - (e0 - s) * hilbert (z - s)) := by
    simp only [cpaT]
    rw [← Finset.sum_div, ← Finset.sum_mul, hc', one_mul]
  have h2 : 1 + cpaT s z (fun _ => e0) c hilbert * hilbert (z - s) ≠ 0 := by
    rw [hT]
    have : 1 + (e0 - s) / (1 - (e0 - s) * hilbert (z - s)) * hilbert (z - s)
        = 1 / (1 - (e0 - s) * hilbert (z - s)) := by field_simp; ring
    rw [this]
    exact one_div_ne_zero h1
  simp only [selfRootEq]
  rw [div_eq_zero_iff, or_iff_left h2, hT, div_eq_zero_iff, or_iff_left h1, sub_eq_zero, eq_comm]

/-- Two components with equal concentration: `Σ = 0` is the solution for `g(z) = 1/z` only if
the average vanishes to first order; a concrete instance of the hypotheses. -/
example : (∑ i : Fin 2, (![1 / 2, 1 / 2] : Fin 2 → ℝ) i = 1) ∧
    avgGf 2 0 (![1, -1] : Fin 2 → ℂ) ![1 / 2, 1 / 2] (fun x => 1 / x) = 2 / 3 ∧
    selfRootEq 0 2 (![1, -1] : Fin 2 → ℂ) ![1 / 2, 1 / 2] (fun x => 1 / x) = 1 / 2 := by
  refine ⟨by norm_num [Fin.sum_univ_two], ?_, ?_⟩
  · simp [avgGf, gfCmptZ, Fin.sum_univ_two]; norm_num
  · simp [selfRootEq, cpaT, Fin.sum_univ_two]; norm_num

/-! ## C23 -/

/-- C23: at physical self-energies the restricted equation is the unrestricted one, and the
argument is left alone. -/
theorem restrict_physical (rootEq : (κ → ℂ) → κ → ℂ) (s : κ → ℂ) (h : ∀ k, (s k).im ≤ 0) :
    restrictSelfRootEq rootEq s = (rootEq s, s) := by
  unfold restrictSelfRootEq
  rw [if_pos fun k => not_lt.2 (h k)]

lemma enlarge_re_im (r : ℂ) {d : ℝ} (hd : 0 < d) :
    1e-3 * d ≤ |(enlarge r d).re| ∧ 1e-3 * d ≤ |(enlarge r d).im| := by
  have key : ∀ x : ℝ, 1e-3 * d ≤ |x + 1e-3 * d * (if 0 ≤ x then 1 else -1)| := by
    intro x
    have hd' : 0 < 1e-3 * d := by positivity
    split_ifs with hx
    · rw [abs_of_nonneg (by linarith)]; linarith
    · rw [abs_of_neg (by linarith)]; linarith
  exact ⟨key _, key _⟩

lemma norm_le_enlarge (r : ℂ) {d : ℝ} (hd : 0 ≤ d) : ‖r‖ ≤ ‖enlarge r d‖ := by
  have key : ∀ x : ℝ, |x| ≤ |x * (1 + d) + 1e-3 * d * (if 0 ≤ x * (1 + d) then 1 else -1)| := by
    intro x
    have hd' : 0 ≤ 1e-3 * d := by positivity
    split_ifs with hx
    · have h0 : 0 ≤ x := nonneg_of_mul_nonneg_left hx (by linarith)
      rw [abs_of_nonneg h0, abs_of_nonneg (by linarith)]
      nlinarith
    · have h0 : x < 0 := by
        by_contra hc
        exact hx (mul_nonneg (not_lt.1 hc) (by linarith))
      rw [abs_of_neg h0, abs_of_neg (by linarith)]
      nlinarith
  have hre : (r * (1 + (d : ℂ))).re = r.re * (1 + d) := by simp
  have him : (r * (1 + (d : ℂ))).im = r.im * (1 + d) := by simp
  rw [Complex.norm_eq_sqrt_sq_add_sq, Complex.norm_eq_sqrt_sq_add_sq]
  apply Real.sqrt_le_sqrt
  apply add_le_add
  · apply sq_le_sq.2
    simp only [enlarge, hre]
    exact key r.re
  · apply sq_le_sq.2
    simp only [enlarge, him]
    exact key r.im

/-- C23: at an unphysical entry real and imaginary part of the restricted equation are at
least a thousandth of the distance to the physical region … -/
theorem restrict_unphysical (rootEq : (κ → ℂ) → κ → ℂ) (s : κ → ℂ) (k : κ) (h : 0 < (s k).im) :
    1e-3 * (s k).im ≤ |((restrictSelfRootEq rootEq s).1 k).re| ∧
    1e-3 * (s k).im ≤ |((restrictSelfRootEq rootEq s).1 k).im| := by
  unfold restrictSelfRootEq
  rw [if_neg fun hc => hc k h]
  simp only [if_pos h]
  exact enlarge_re_im _ h

/-- C23: … so there are no unphysical roots: a root of the restricted equation is a physical
root of the unrestricted equation and vice versa. -/
theorem restrict_root_iff (rootEq : (κ → ℂ) → κ → ℂ) (s : κ → ℂ) :
    (∀ k, (restrictSelfRootEq rootEq s).1 k = 0) ↔
      (∀ k, rootEq s k = 0) ∧ ∀ k, (s k).im ≤ 0 := by
  constructor
  · intro h
    have hp : ∀ k, (s k).im ≤ 0 := by
      intro k
      by_contra hc
      have := (restrict_unphysical rootEq s k (not_le.1 hc)).1
      rw [h k] at this
      simp only [Complex.zero_re, abs_zero] at this
      have := not_le.1 hc
      linarith
    refine ⟨?_, hp⟩
    rw [restrict_physical rootEq s hp] at h
    exact h
  · rintro ⟨h, hp⟩
    rw [restrict_physical rootEq s hp]
    exact h

lemma clip_physical (x : ℂ) : (clip x).im ≤ 0 ∧ (clip x).re = x.re ∧ (x.im ≤ 0 → clip x = x) := by
  unfold clip
  split_ifs with h
  · exact ⟨le_rfl, rfl, fun h' => absurd h (not_lt.2 h')⟩
  · exact ⟨not_lt.1 h, rfl, fun _ => rfl⟩

/-- C23: in any case the residual dominates that of the equation evaluated at the clipped
self-energy, which is what the argument is overwritten with. -/
theorem restrict_residual (rootEq : (κ → ℂ) → κ → ℂ) (s : κ → ℂ) :
    (restrictSelfRootEq rootEq s).2 = (fun k => clip (s k)) ∧
    ∀ k, ‖rootEq (fun k => clip (s k)) k‖ ≤ ‖(restrictSelfRootEq rootEq s).1 k‖ := by
  by_cases h : ∀ k, ¬ 0 < (s k).im
  · have hs : (fun k => clip (s k)) = s := funext fun k => (clip_physical _).2.2 (not_lt.1 (h k))
    rw [hs, restrict_physical rootEq s fun k => not_lt.1 (h k)]
    exact ⟨rfl, fun k => le_rfl⟩
  · unfold restrictSelfRootEq
    rw [if_neg h]
    refine ⟨rfl, fun k => ?_⟩
    simp only
    split_ifs with hk
    · exact norm_le_enlarge _ hk.le
    · exact le_rfl

example : (restrictSelfRootEq (fun s k => s k) (fun _ : Fin 1 => Complex.I)).1 0 ≠ 0 := by
  intro h
  have := (restrict_unphysical (fun s k => s k) (fun _ : Fin 1 => Complex.I) 0 (by simp)).1
  rw [h] at this
  norm_num at this

/-! ## C24 -/

/-- Contract of the external `scipy.optimize.root`: if it reports success, it has evaluated
the function at some point with a residual below the tolerance, and returns that point
(possibly after the function changed it in place). -/
def HonestSolver (solver : Solver (κ → ℂ)) (tol : ℝ) : Prop :=
  ∀ F x0, (solver F x0).success = true →
    ∃ x, (∀ k, ‖(F x).1 k‖ ≤ tol) ∧ ((solver F x0).x = x ∨ (solver F x0).x = (F x).2)

/-- C24: without restriction the returned self-energy solves the CPA equation within the
tolerance of the solver. -/
theorem solve_root_unrestricted (solver : Solver (κ → ℂ)) {tol : ℝ} (hs : HonestSolver solver tol)
    (z : κ → ℂ) (e : κ → ι → ℂ) (c : κ → ι → ℝ) (hilbert : ℂ → ℂ) (x0 : Option (κ → ℂ))
    {s : κ → ℂ} (h : solveRoot solver z e c hilbert x0 false = .ok s) (k : κ) :
    ‖selfRootEq (s k) (z k) (e k) (c k) hilbert‖ ≤ tol := by
  simp only [solveRoot, Bool.false_eq_true, if_false] at h
  split_ifs at h with hsucc
  obtain ⟨x, hx, hx'⟩ := hs _ _ hsucc
  have hsx := Except.ok.inj h
  have : s = x := by rw [← hsx]; rcases hx' with hx' | hx' <;> exact hx'
  rw [this]
  exact hx k

/-- C24: with restriction the imaginary parts are at most `1000 tol`, and the CPA equation is
solved within the tolerance by the self-energy with the remaining positive imaginary parts
removed. -/
theorem solve_root_restricted (solver : Solver (κ → ℂ)) {tol : ℝ} (hs : HonestSolver solver tol)
    (htol : 0 ≤ tol) (z : κ → ℂ) (e : κ → ι → ℂ) (c : κ → ι → ℝ) (hilbert : ℂ → ℂ)
    (x0 : Option (κ → ℂ)) {s : κ → ℂ} (h : solveRoot solver z e c hilbert x0 true = .ok s)
    (k : κ) :
    (s k).im ≤ 1000 * tol ∧ ‖selfRootEq (clip (s k)) (z k) (e k) (c k) hilbert‖ ≤ tol := by
  simp only [solveRoot, if_true] at h
  split_ifs at h with hsucc
  obtain ⟨x, hx, hx'⟩ := hs _ _ hsucc
  have hsx := Except.ok.inj h
  set rootEq := fun (s : κ → ℂ) k => selfRootEq (s k) (z k) (e k) (c k) hilbert with hr
  have hres := restrict_residual rootEq x
  have hcl : clip (s k) = clip (x k) := by
    rcases hx' with hx' | hx'
    · rw [← hsx, hx']
    · rw [← hsx, hx', hres.1]
      exact (clip_physical _).2.2 (clip_physical _).1
  constructor
  · rcases hx' with hx' | hx'
    · rw [← hsx, hx']
      by_contra hc
      have hpos : 0 < (x k).im := lt_of_le_of_lt (by positivity) (not_le.1 hc)
      have h1 := (restrict_unphysical rootEq x k hpos).1
      have h2 := (Complex.abs_re_le_norm _).trans (hx k)
      have h3 := not_le.1 hc
      norm_num at h1
      linarith
    · rw [← hsx, hx', hres.1]
      exact (clip_physical _).1.trans (by positivity)
  · rw [hcl]
    exact (hres.2 k).trans (hx k)

/-- C24: in exact arithmetic the result is a physical solution of the CPA equation; for valid
concentrations the averaged component Green's function is then the coherent one. -/
theorem solve_root_cpa_condition (solver : Solver (κ → ℂ)) (hs : HonestSolver solver 0)
    (z : κ → ℂ) (e : κ → ι → ℂ) (c : κ → ι → ℝ) (hilbert : ℂ → ℂ) (x0 : Option (κ → ℂ))
    (restricted : Bool) {s : κ → ℂ} (h : solveRoot solver z e c hilbert x0 restricted = .ok s)
    (k : κ) :
    selfRootEq (s k) (z k) (e k) (c k) hilbert = 0 ∧ (restricted = true → (s k).im ≤ 0) ∧
    ((∑ i, c k i = 1) → hilbert (z k - s k) ≠ 0 →
      (∀ i, 1 - (e k i - s k) * hilbert (z k - s k) ≠ 0) →
      avgGf (z k) (s k) (e k) (c k) hilbert ≠ 0 →
      avgGf (z k) (s k) (e k) (c k) hilbert = hilbert (z k - s k)) := by
  have hroot : selfRootEq (s k) (z k) (e k) (c k) hilbert = 0 ∧
      (restricted = true → (s k).im ≤ 0) := by
    cases restricted with
    | false =>
      exact ⟨norm_le_zero_iff.1 (solve_root_unrestricted solver hs z e c hilbert x0 h k),
        fun h => absurd h (by simp)⟩
    | true =>
      obtain ⟨h1, h2⟩ := solve_root_restricted solver hs le_rfl z e c hilbert x0 h k
      rw [mul_zero] at h1
      rw [(clip_physical (s k)).2.2 h1] at h2
      exact ⟨norm_le_zero_iff.1 h2, fun _ => h1⟩
  exact ⟨hroot.1, hroot.2, fun hc hg h1 havg =>
    (self_root_eq_iff_avg _ _ _ _ _ hc hg h1 havg).1 hroot.1⟩

/-- C24, error branch: `RuntimeError` is raised iff the solver does not report success; no
other exception occurs. -/
theorem solve_root_error_iff (solver : Solver (κ → ℂ)) (z : κ → ℂ) (e : κ → ι → ℂ) (c : κ → ι → ℝ)
    (hilbert : ℂ → ℂ) (x0 : Option (κ → ℂ)) (restricted : Bool) (err : Err) :
    solveRoot solver z e c hilbert x0 restricted = .error err ↔ err = .runtimeError ∧
      (solver (if restricted then
          restrictSelfRootEq fun s k => selfRootEq (s k) (z k) (e k) (c k) hilbert
        else fun s => (fun k => selfRootEq (s k) (z k) (e k) (c k) hilbert, s))
        (x0.getD fun k => ∑ i, e k i * c k i)).success = false := by
  simp only [solveRoot]
  generalize (solver _ _).success = b
  cases b
  · simp [eq_comm]
  · simp

/-- The contract is met by a solver that tries the starting point only. -/
example : HonestSolver (κ := Fin 1) (fun F x0 => ⟨x0, decide (‖(F x0).1 0‖ ≤ 1)⟩) 1 := by
  intro F x0 h
  refine ⟨x0, fun k => ?_, Or.inl rfl⟩
  have : k = 0 := Subsingleton.elim _ _
  subst this
  simpa using h

/-- C24: packing arrays into one vector and unpacking them is lossless. -/
theorem cpa_split_join (args : List NdArray) {joined : List ℝ} {shapes : List (List ℕ)}
    (h : cpaJoin args = .ok (joined, shapes)) : cpaSplit joined shapes = .ok args := by
  unfold cpaJoin at h
  split_ifs at h with hne
  obtain ⟨rfl, rfl⟩ := Prod.mk.inj (Except.ok.inj h)
  clear h
  have hsplit : ∀ args : List NdArray, args ≠ [] →
      npSplit (args.map NdArray.data).flatten ((args.map NdArray.shape).dropLast.map List.prod)
        = args.map NdArray.data := by
    intro args
    induction args with
    | nil => intro h; exact absurd rfl h
    | cons a rest ih =>
      intro _
      cases rest with
      | nil => simp [npSplit]
      | cons b rest =>
        have := ih (by simp)
        simp only [List.map_cons, List.dropLast_cons_cons, npSplit, List.flatten_cons] at this ⊢
        rw [← a.size_eq, List.take_left, List.drop_left, this]
  unfold cpaSplit
  rw [hsplit args hne]
  have hzip : List.zip (args.map NdArray.data) (args.map NdArray.shape)
      = args.map fun a => (a.data, a.shape) := by
    rw [List.zip_map', ]
  rw [hzip]
  clear hzip hne hsplit
  induction args with
  | nil => rfl
  | cons a rest ih =>
    simp only [List.map_cons, List.mapM_cons]
    rw [ih]
    simp [reshape, a.size_eq]
    rfl

/-- C24, error branch: only the empty argument list cannot be joined. -/
theorem cpa_join_error_iff (args : List NdArray) (e : Err) :
    cpaJoin args = .error e ↔ args = [] ∧ e = .valueError := by
  unfold cpaJoin
  split_ifs with h
  · simp [h, eq_comm]
  · simp [h]

example : cpaJoin [⟨[1], [5], rfl⟩, ⟨[2, 1], [6, 7], rfl⟩] = .ok ([5, 6, 7], [[1], [2, 1]]) := rfl

/-- `density_iw` does not raise for the arguments used in `solve_fxdocc_root`. -/
theorem occ_density_ok (ext : LinalgExt ℝ) {k : ℕ} (iws gf : Fin k → ℂ) (beta : ℝ)
    (weights : Fin k → ℝ) (m2 : ℝ) (nFit : ℕ) :
    ∃ d, densityIw ext iws gf beta weights ![1, m2] nFit = .ok d := by
  unfold densityIw
  by_cases h : nFit = 0
  · obtain ⟨g, hg, -⟩ := gf_from_moments_correct (![1, m2] : Fin 2 → ℝ) none (Or.inl (by simp))
    simp [h, hg]
  · obtain ⟨g, hg, -⟩ := gf_from_z_correct ext iws gf (n := nFit + 2) ![1, m2] none
      (some fun i => (iws i).im ^ (2 + nFit)) (by omega) (by omega) (by simp)
    simp only [if_pos h, hg]
    exact ⟨_, rfl⟩

/-- Contract of `scipy.optimize.root` for the combined real system, in exact arithmetic. -/
def HonestSolverFxdocc {k : ℕ}
    (solver : (FxdOccVec k → FxdOccVec k) → FxdOccVec k → SolverResult (FxdOccVec k)) : Prop :=
  ∀ F x0, (solver F x0).success = true →
    (F (solver F x0).x).mu = 0 ∧ (∀ j, (F (solver F x0).x).re j = 0) ∧
      ∀ j, (F (solver F x0).x).im j = 0

open scoped Classical in
/-- The contract can be met, with success whenever there is a solution. -/
example {k : ℕ} : ∃ solver : (FxdOccVec k → FxdOccVec k) → FxdOccVec k →
    SolverResult (FxdOccVec k), HonestSolverFxdocc solver ∧
      ∀ F x0, (∃ x, (F x).mu = 0 ∧ (∀ j, (F x).re j = 0) ∧ ∀ j, (F x).im j = 0) →
        (solver F x0).success = true := by
  refine ⟨fun F x0 =>
    if h : ∃ x, (F x).mu = 0 ∧ (∀ j, (F x).re j = 0) ∧ ∀ j, (F x).im j = 0
    then ⟨h.choose, true⟩ else ⟨x0, false⟩, fun F x0 h => ?_, fun F x0 h => ?_⟩
  · simp only at h ⊢
    split_ifs at h ⊢ with hx
    exact hx.choose_spec
  · simp only [dif_pos h]

/-- C24: `solve_fxdocc_root` returns a self-energy and chemical potential that solve the CPA
equation with shifted energies, have the requested occupation, and (if restricted) are
physical. -/
theorem solve_fxdocc_root_correct (ext : LinalgExt ℝ)
    (rootScalar : (ℝ → ℝ) → ℝ → ℝ → Except Err RootResult) {k : ℕ}
    (solver : (FxdOccVec k → FxdOccVec k) → FxdOccVec k → SolverResult (FxdOccVec k))
    (hs : HonestSolverFxdocc solver) (a : FxdOccArgs ι k) (x0 : Option (Fin (k + 1) → ℂ))
    (mu0 : ℝ) (restricted : Bool) {s : Fin (k + 1) → ℂ} {mu : ℝ}
    (h : solveFxdoccRoot ext rootScalar solver a x0 mu0 restricted = .ok (s, mu)) :
    (∀ j, selfRootEq (s j) (a.iws j) (fun i => a.eOnsite j i - mu) a.conc a.hilbert = 0) ∧
    densityIw ext a.iws (fun j => a.hilbert (a.iws j - s j)) a.beta a.weights
      ![1, (s (Fin.last k)).re] a.nFit = .ok a.occ ∧
    (restricted = true → ∀ j, (s j).im ≤ 0) := by
  simp only [solveFxdoccRoot] at h
  split at h
  · exact absurd h (by simp)
  split at h
  · exact absurd h (by simp)
  split_ifs at h with hsucc
  obtain ⟨h1, h2, h3⟩ := hs _ _ hsucc
  obtain ⟨hsx, hmux⟩ := Prod.mk.inj (Except.ok.inj h)
  generalize (solver _ _).x = x at *
  have hroot : (∀ j, a.rootEq x.mu x.selfCpa j = 0) ∧
      occDiff ext a.iws a.hilbert a.beta a.weights a.nFit a.occ x.selfCpa = 0 ∧
      (restricted = true → ∀ j, (x.selfCpa j).im ≤ 0) := by
    have hk : ((k + 1 : ℕ) : ℝ) ≠ 0 := by positivity
    cases restricted with
    | false =>
      simp only [FxdOccArgs.system, Bool.false_eq_true, if_false] at h1 h2 h3
      exact ⟨fun j => Complex.ext (h2 j) (h3 j), (mul_eq_zero.1 h1).resolve_left hk,
        fun h => absurd h (by simp)⟩
    | true =>
      simp only [FxdOccArgs.system, if_true] at h1 h2 h3
      have hr := (restrict_root_iff (a.rootEq x.mu) x.selfCpa).1
        fun j => Complex.ext (h2 j) (h3 j)
      rw [restrict_physical _ _ hr.2] at h1
      exact ⟨hr.1, (mul_eq_zero.1 h1).resolve_left hk, fun _ => hr.2⟩
  rw [← hsx, ← hmux]
  refine ⟨hroot.1, ?_, hroot.2.2⟩
  have h5 := hroot.2.1
  unfold occDiff at h5
  obtain ⟨d, hd⟩ := occ_density_ok ext a.iws (fun i => a.hilbert (a.iws i - x.selfCpa i)) a.beta
    a.weights (x.selfCpa (Fin.last k)).re a.nFit
  rw [hd] at h5 ⊢
  simp only at h5
  rw [sub_eq_zero.1 h5]

end Gftool.Props
