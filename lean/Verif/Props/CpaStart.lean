import Verif.Props.Cpa

/-!
# C24: the starting point of the solver in `solve_fxdocc_root`
-/

namespace Gftool.Props

open Gftool Model Spec

variable {ι : Type*} [Fintype ι]

/-- The self-energy without chemical potential is packed and unpacked without loss: adding the chemical potential and
splitting into real and imaginary part is undone by `self_cpa_re + 1j*self_cpa_im - mu`. -/
theorem fxdocc_pack_unpack {k : ℕ} (s : Fin (k + 1) → ℂ) (mu : ℝ) :
    (⟨mu, fun j => (s j + mu).re, fun j => (s j + mu).im⟩ : FxdOccVec k).selfCpa = s := by
  funext j
  unfold FxdOccVec.selfCpa
  apply Complex.ext <;> simp

/-- C24: an exact solution passed as starting value, together with its chemical potential, is what the solver starts
from: the two preliminary steps (adjusting the chemical potential, one fixed-point iteration) leave it unchanged and the
system solved vanishes there. A solver that stops at roots returns it. -/
theorem solve_fxdocc_root_exact_start (ext : LinalgExt ℝ)
    (rootScalar : (ℝ → ℝ) → ℝ → ℝ → Except Err RootResult) {k : ℕ}
    (solver : (FxdOccVec k → FxdOccVec k) → FxdOccVec k → SolverResult (FxdOccVec k))
    (a : FxdOccArgs ι k) (s : Fin (k + 1) → ℂ) (mu : ℝ) (restricted : Bool)
    (hroot : ∀ j, selfRootEq (s j) (a.iws j) (fun i => a.eOnsite j i - mu) a.conc a.hilbert = 0)
    (hocc : densityIw ext a.iws (fun j => a.hilbert (a.iws j - s j)) a.beta a.weights
      ![1, (s (Fin.last k)).re] a.nFit = .ok a.occ)
    (hphys : restricted = true → ∀ j, (s j).im ≤ 0) :
    ∃ x0 : FxdOccVec k, x0.selfCpa = s ∧ x0.mu = mu ∧
      a.system ext restricted x0 = ⟨0, fun _ => 0, fun _ => 0⟩ ∧
      solveFxdoccRoot ext rootScalar solver a (some s) mu restricted
        = (if (solver (a.system ext restricted) x0).success
            then .ok ((solver (a.system ext restricted) x0).x.selfCpa, (solver (a.system ext restricted) x0).x.mu)
            else .error .runtimeError) ∧
      (solver (a.system ext restricted) x0 = ⟨x0, true⟩ →
        solveFxdoccRoot ext rootScalar solver a (some s) mu restricted = .ok (s, mu)) := by
  have hd : occDiff ext a.iws a.hilbert a.beta a.weights a.nFit a.occ s = 0 := by
    unfold occDiff
    rw [hocc]
    exact sub_self _
  have hchem : ∀ f : ℝ → ℝ, f mu = 0 → chemicalPotential rootScalar f mu 1 = .ok mu := by
    intro f hf
    unfold chemicalPotential chemBracket
    simp only [hf, if_true]
  have hfx : ∀ j, selfFxdpntEq (s j) (a.iws j) (fun i => a.eOnsite j i - mu) a.conc a.hilbert = s j := by
    intro j
    unfold selfFxdpntEq
    rw [hroot j, add_zero]
  set x0 : FxdOccVec k := ⟨mu, fun j => (s j + mu).re, fun j => (s j + mu).im⟩ with hx0
  have hs0 : x0.selfCpa = s := fxdocc_pack_unpack s mu
  have hsol : solveFxdoccRoot ext rootScalar solver a (some s) mu restricted
        = (if (solver (a.system ext restricted) x0).success
            then .ok ((solver (a.system ext restricted) x0).x.selfCpa, (solver (a.system ext restricted) x0).x.mu)
            else .error .runtimeError) := by
    have h1 : (fun m : ℝ => occDiff ext a.iws a.hilbert a.beta a.weights a.nFit a.occ fun j => s j + mu - m) mu = 0 := by
      simp only [add_sub_cancel_right]
      exact hd
    simp only [solveFxdoccRoot, Option.getD_some]
    rw [hchem _ h1]
    simp only [add_sub_cancel_right, hfx]
    rw [hchem _ h1]
  refine ⟨x0, hs0, rfl, ?_, hsol, fun h => ?_⟩
  · have hr : ∀ j, a.rootEq mu s j = 0 := hroot
    unfold FxdOccArgs.system
    rw [hs0]
    cases restricted with
    | false =>
      simp only [Bool.false_eq_true, if_false, hd, mul_zero]
      simp only [hx0, hr, Complex.zero_re, Complex.zero_im]
    | true =>
      simp only [if_true]
      rw [restrict_physical _ _ (hphys rfl)]
      simp only [hd, mul_zero]
      simp only [hx0, hr, Complex.zero_re, Complex.zero_im]
  · rw [hsol, h]
    simp only [if_true]
    rw [hs0]

/-- The hypotheses are met by the non-interacting lattice: one component with energy zero. -/
example (ext : LinalgExt ℝ) (iws : Fin 3 → ℂ) (hilbert : ℂ → ℂ) (beta : ℝ) (weights : Fin 3 → ℝ) :
    ∃ occ : ℝ, ∃ a : FxdOccArgs (Fin 1) 2, a.occ = occ ∧ a.iws = iws ∧ a.hilbert = hilbert ∧
      (∀ j, selfRootEq 0 (a.iws j) (fun i => a.eOnsite j i - (0 : ℝ)) a.conc a.hilbert = 0) ∧
      densityIw ext a.iws (fun j => a.hilbert (a.iws j - 0)) a.beta a.weights
        ![1, ((0 : ℂ)).re] a.nFit = .ok a.occ := by
  obtain ⟨d, hd⟩ := occ_density_ok ext iws (fun j => hilbert (iws j - 0)) beta weights (0 : ℂ).re 0
  refine ⟨d, ⟨iws, fun _ _ => 0, fun _ => 1, hilbert, beta, d, weights, 0⟩, rfl, rfl, rfl, fun j => ?_, hd⟩
  simp [selfRootEq, cpaT]

end Gftool.Props
