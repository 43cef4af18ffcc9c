import Verif.Lemmas.Tree
import Verif.Lemmas.WordTree
import Verif.Props.Bethez

/-!
# C64: the Bethe lattice in real space
-/

namespace Gftool.Props

open Gftool.Spec Gftool.Model Gftool.Lemmas

section

variable {V : Type*} [DecidableEq V] {G : SimpleGraph V} [G.LocallyFinite]

lemma graphHopping_ok {Z : ℕ} (hZ : G.IsRegularOfDegree Z) (t : ℝ) : HopOk (graphHopping G t) where
  nb v w h := by
    simp only [graphHopping, SimpleGraph.mem_neighborFinset] at h ⊢
    exact h.symm
  amp _ _ := rfl
  bound := ⟨|t|, fun _ _ => le_rfl⟩
  card := ⟨Z, fun v => by
    simp only [graphHopping, SimpleGraph.card_neighborFinset_eq_degree]
    exact (hZ v).le⟩

lemma tree_resolvent {Z : ℕ} (hG : G.IsTree) (hZ : G.IsRegularOfDegree Z) (h2 : 2 ≤ Z) {t : ℝ} {z g : ℂ}
    (hg : g * (z - (Z - 1) * (t : ℂ) ^ 2 * g) = 1) (hd : z - Z * (t : ℂ) ^ 2 * g ≠ 0) (hn : (Z - 1) * ‖t * g‖ ^ 2 < 1)
    (r : V) : IsResolvent (graphHopping G t) r z
      fun v => 1 / (z - Z * (t : ℂ) ^ 2 * g) * (t * g) ^ G.dist r v where
  summable := by
    have := (tree_summable hG hZ h2 r (sq_nonneg ‖t * g‖) hn).mul_left (‖1 / (z - Z * (t : ℂ) ^ 2 * g)‖ ^ 2)
    refine this.congr fun v => ?_
    rw [norm_mul (1 / _), norm_pow, mul_pow ‖1 / _‖, ← pow_mul, ← pow_mul, mul_comm 2]
  eq := by
    intro v
    simp only [Hopping.ham, graphHopping]
    by_cases hv : v = r
    · subst hv
      rw [if_pos rfl, tree_sum_root hZ v fun n => (t : ℂ) * (1 / (z - Z * (t : ℂ) ^ 2 * g) * (t * g) ^ n),
        SimpleGraph.dist_self]
      field_simp
    · rw [if_neg hv]
      obtain ⟨n, hn, hs⟩ := tree_sum hG hZ r hv fun n => (t : ℂ) * (1 / (z - Z * (t : ℂ) ^ 2 * g) * (t * g) ^ n)
      rw [hs, hn]
      generalize 1 / (z - Z * (t : ℂ) ^ 2 * g) = c
      rw [pow_succ (t * g) (n + 1), pow_succ (t * g) n]
      linear_combination c * t * (t * g) ^ n * hg

/-- C64: `bethez_gf_z` is the local Green's function of electrons which hop with the amplitude `D / (2 √(Z-1))` between
neighbouring sites of the infinite tree where every site has `Z` neighbours. -/
theorem bethez_real_space {Z : ℕ} (hG : G.IsTree) (hZ : G.IsRegularOfDegree Z) (h2 : 2 ≤ Z) {D : ℝ} (hD : 0 < D) {z : ℂ}
    (hz : OffBand z D) (r : V) :
    ∃ g, bethezGfZ z D Z = .ok g ∧ LocalGreen (graphHopping G (D / (2 * √(Z - 1)))) r z g := by
  have h2' : (2 : ℝ) ≤ Z := by exact_mod_cast h2
  obtain ⟨g, hg, -, hgn, hd, he⟩ := bethez_cavity (t := D / (2 * √((Z : ℝ) - 1))) hD (by linarith) rfl hz (.inl h2')
  refine ⟨_, he, ?_⟩
  have hn : (Z - 1) * ‖((D / (2 * √((Z : ℝ) - 1)) : ℝ) : ℂ) * g‖ ^ 2 < 1 := by
    rw [norm_mul, Complex.norm_real, Real.norm_eq_abs, mul_pow, sq_abs, div_pow, mul_pow, Real.sq_sqrt (by linarith)]
    have h1 : ‖g‖ ^ 2 < (2 / D) ^ 2 := by
      apply pow_lt_pow_left₀ hgn (norm_nonneg _) (by norm_num)
    have h3 : D ^ 2 * ‖g‖ ^ 2 < 4 := by
      calc D ^ 2 * ‖g‖ ^ 2 < D ^ 2 * (2 / D) ^ 2 := by
            apply mul_lt_mul_of_pos_left h1; positivity
        _ = 4 := by field_simp; norm_num
    have h4 : (Z : ℝ) - 1 ≠ 0 := by linarith
    have h5 : ((Z : ℝ) - 1) * (D ^ 2 / (2 ^ 2 * (Z - 1)) * ‖g‖ ^ 2) = D ^ 2 * ‖g‖ ^ 2 / 4 := by
      field_simp
      ring
    rw [h5]
    linarith
  have hg' : g * (z - (Z - 1) * ((D / (2 * √((Z : ℝ) - 1)) : ℝ) : ℂ) ^ 2 * g) = 1 := by simpa using hg
  have hd' : z - Z * ((D / (2 * √((Z : ℝ) - 1)) : ℝ) : ℂ) ^ 2 * g ≠ 0 := by simpa using hd
  have hres := fun r => tree_resolvent hG hZ h2 hg' hd' hn r
  have := localGreen_of (graphHopping_ok hZ _) (fun r => ⟨_, hres r⟩) (hres r)
  rw [SimpleGraph.dist_self, pow_zero, mul_one] at this
  simpa using this

end

/-- For every coordination there is such a tree. -/
example (Z : ℕ) (h2 : 2 ≤ Z) (r : Word Z) :
    ∃ g, bethezGfZ (0.1 + 0.2 * Complex.I) 1.5 Z = .ok g ∧
      LocalGreen (graphHopping (wordTree Z) (1.5 / (2 * √(Z - 1)))) r (0.1 + 0.2 * Complex.I) g := by
  refine bethez_real_space (wordTree_isTree Z) (wordTree_regular Z) h2 (by norm_num) ?_ r
  intro e _ h
  have := congrArg Complex.im h
  norm_num at this

end Gftool.Props
