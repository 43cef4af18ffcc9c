import Verif.Lemmas.RealSpace
import Mathlib.Combinatorics.SimpleGraph.Acyclic
import Mathlib.Combinatorics.SimpleGraph.Metric
import Mathlib.Combinatorics.SimpleGraph.Finite

/-!
# Regular trees
-/

namespace Gftool.Lemmas

open Gftool.Spec

section

variable {V : Type*} {G : SimpleGraph V} [G.LocallyFinite] {Z : ℕ}

omit [G.LocallyFinite] in
/-- Every vertex except of the root has exactly one neighbour closer to the root. -/
lemma tree_parent (hG : G.IsTree) (r : V) {v : V} (hv : v ≠ r) :
    ∃ p, G.Adj v p ∧ G.dist r v = G.dist r p + 1 ∧ ∀ w, G.Adj v w → w ≠ p → G.dist r w = G.dist r v + 1 := by
  classical
  obtain ⟨q, hq, hlen⟩ := hG.connected.exists_path_of_dist r v
  have hadj : ∀ w, G.Adj v w → G.dist r v = G.dist r w + 1 → w = q.penultimate := by
    intro w hw hd
    obtain ⟨s, hs, hs'⟩ := hG.connected.exists_path_of_dist r w
    apply hG.isAcyclic.eq_penultimate_of_adj_end hq hw
    by_contra hns
    have := hG.isAcyclic.mem_support_of_ne_mem_support_of_adj_of_isPath hs hq hw.symm hns
    have h2 := SimpleGraph.dist_le (s.takeUntil v this)
    have h3 := s.length_takeUntil_le_length this
    omega
  have hnn : ¬q.Nil := by
    intro h
    exact hv h.eq.symm
  have hp := (q.adj_penultimate hnn).symm
  have hdp : G.dist r v = G.dist r q.penultimate + 1 := by
    rcases hG.dist_eq_dist_add_one_of_adj r hp with h | h
    · exact h
    · have h2 := SimpleGraph.dist_le q.dropLast
      have h3 : q.dropLast.length + 1 = q.length := by
        simpa using q.length_dropLast_add_one hnn
      omega
  refine ⟨q.penultimate, hp, hdp, fun w hw hne => ?_⟩
  rcases hG.dist_eq_dist_add_one_of_adj r hw with h | h
  · exact absurd (hadj w hw h) hne
  · exact h

lemma tree_sum_root (hZ : G.IsRegularOfDegree Z) (r : V) (f : ℕ → ℂ) :
    ∑ w ∈ G.neighborFinset r, f (G.dist r w) = Z * f 1 := by
  rw [Finset.sum_congr rfl fun w hw => by
    rw [SimpleGraph.dist_eq_one_iff_adj.2 ((G.mem_neighborFinset r w).1 hw)], Finset.sum_const, nsmul_eq_mul,
    SimpleGraph.card_neighborFinset_eq_degree, hZ r]

lemma tree_sum (hG : G.IsTree) (hZ : G.IsRegularOfDegree Z) (r : V) {v : V} (hv : v ≠ r) (f : ℕ → ℂ) :
    ∃ n, G.dist r v = n + 1 ∧ ∑ w ∈ G.neighborFinset v, f (G.dist r w) = f n + (Z - 1) * f (n + 2) := by
  classical
  obtain ⟨p, hp, hd, hw⟩ := tree_parent hG r hv
  refine ⟨G.dist r p, hd, ?_⟩
  have hmem : p ∈ G.neighborFinset v := (G.mem_neighborFinset v p).2 hp
  rw [← Finset.add_sum_erase _ _ hmem, Finset.sum_congr rfl fun w hw' => by
    rw [hw w ((G.mem_neighborFinset v w).1 (Finset.mem_of_mem_erase hw')) (Finset.ne_of_mem_erase hw'), hd],
    Finset.sum_const, nsmul_eq_mul, Finset.card_erase_of_mem hmem, SimpleGraph.card_neighborFinset_eq_degree, hZ v]
  have : 1 ≤ Z := by
    rw [← hZ v, ← SimpleGraph.card_neighborFinset_eq_degree]
    exact Finset.card_pos.2 ⟨p, hmem⟩
  rw [Nat.cast_sub this, Nat.cast_one]

/-- There are at most `Z (Z-1)^n` vertices at distance `n`. -/
lemma tree_sphere (hG : G.IsTree) (hZ : G.IsRegularOfDegree Z) (h2 : 2 ≤ Z) (r : V) (n : ℕ) :
    ∃ S : Finset V, (∀ v, v ∈ S ↔ G.dist r v = n) ∧ S.card ≤ Z * (Z - 1) ^ n := by
  classical
  induction n with
  | zero =>
    refine ⟨{r}, fun v => ?_, by simp; omega⟩
    rw [Finset.mem_singleton, hG.connected.dist_eq_zero_iff, eq_comm]
  | succ n ih =>
    obtain ⟨S, hS, hc⟩ := ih
    refine ⟨S.biUnion fun v => (G.neighborFinset v).filter fun w => G.dist r w = n + 1, fun w => ?_, ?_⟩
    · simp only [Finset.mem_biUnion, Finset.mem_filter, SimpleGraph.mem_neighborFinset]
      constructor
      · rintro ⟨v, -, -, h⟩
        exact h
      · intro h
        have hw : w ≠ r := by
          rintro rfl
          simp at h
        obtain ⟨p, hp, hd, -⟩ := tree_parent hG r hw
        exact ⟨p, (hS p).2 (by omega), hp.symm, h⟩
    · have hb : ∀ v ∈ S, v ≠ r → ((G.neighborFinset v).filter fun w => G.dist r w = n + 1).card ≤ Z - 1 := by
        intro v hv hvr
        obtain ⟨p, hp, hd, -⟩ := tree_parent hG r hvr
        have hmem : p ∈ G.neighborFinset v := (G.mem_neighborFinset v p).2 hp
        rw [← hZ v, ← SimpleGraph.card_neighborFinset_eq_degree, ← Finset.card_erase_of_mem hmem]
        refine Finset.card_le_card fun w hw => ?_
        rw [Finset.mem_filter] at hw
        refine Finset.mem_erase.2 ⟨?_, hw.1⟩
        rintro rfl
        have := (hS v).1 hv
        omega
      rcases Nat.eq_zero_or_pos n with rfl | hn
      · have hS0 : S = {r} := by
          ext v
          rw [hS v, Finset.mem_singleton, hG.connected.dist_eq_zero_iff, eq_comm]
        rw [hS0, Finset.singleton_biUnion]
        refine (Finset.card_le_card (Finset.filter_subset _ _)).trans ?_
        rw [SimpleGraph.card_neighborFinset_eq_degree, hZ r, zero_add, pow_one]
        exact Nat.le_mul_of_pos_right _ (by omega)
      · refine (Finset.card_biUnion_le_card_mul S _ (Z - 1) fun v hv => hb v hv ?_).trans ?_
        · rintro rfl
          have := (hS v).1 hv
          simp at this
          omega
        · rw [pow_succ, ← mul_assoc]
          exact Nat.mul_le_mul_right _ hc

lemma tree_summable (hG : G.IsTree) (hZ : G.IsRegularOfDegree Z) (h2 : 2 ≤ Z) (r : V) {a : ℝ} (ha : 0 ≤ a)
    (h1 : (Z - 1) * a < 1) : Summable fun v => a ^ G.dist r v := by
  choose S hS hc using tree_sphere hG hZ h2 r
  have hgeo : Summable fun n : ℕ => (Z : ℝ) * ((Z - 1) * a) ^ n :=
    (summable_geometric_of_lt_one (mul_nonneg (by
      have : (2 : ℝ) ≤ Z := by exact_mod_cast h2
      linarith) ha) h1).mul_left _
  rw [← (Equiv.sigmaFiberEquiv (G.dist r)).summable_iff]
  have e : ((fun v => a ^ G.dist r v) ∘ (Equiv.sigmaFiberEquiv (G.dist r))) = fun p : (Σ n, {v // G.dist r v = n}) => a ^ p.1 := by
    funext ⟨n, v, hv⟩
    simp [Equiv.sigmaFiberEquiv, hv]
  rw [e, summable_sigma_of_nonneg fun p => by positivity]
  have hfin : ∀ n, Finite {v // G.dist r v = n} := fun n =>
    Set.Finite.to_subtype (s := {v | G.dist r v = n}) ((S n).finite_toSet.subset fun v hv => (hS n v).2 hv)
  have hcard : ∀ n, Nat.card {v // G.dist r v = n} = (S n).card := fun n => by
    rw [Nat.card_congr (Equiv.subtypeEquivRight fun v => (hS n v).symm), Nat.card_eq_fintype_card, Fintype.card_coe]
  refine ⟨fun n => Summable.of_finite, ?_⟩
  refine Summable.of_nonneg_of_le (fun n => tsum_nonneg fun _ => by positivity) (fun n => ?_) hgeo
  have := Fintype.ofFinite {v // G.dist r v = n}
  simp only
  rw [tsum_fintype, Finset.sum_const, nsmul_eq_mul, mul_pow, ← mul_assoc, Finset.card_univ, ← Nat.card_eq_fintype_card,
    hcard]
  refine mul_le_mul_of_nonneg_right ?_ (by positivity)
  have h := hc n
  have h' : ((S n).card : ℝ) ≤ ((Z * (Z - 1) ^ n : ℕ) : ℝ) := by exact_mod_cast h
  rw [Nat.cast_mul, Nat.cast_pow, Nat.cast_sub (by omega), Nat.cast_one] at h'
  exact h'

end

end Gftool.Lemmas
