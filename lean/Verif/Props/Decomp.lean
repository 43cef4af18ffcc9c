import Verif.Model.Decomp
import Verif.Spec.Decomp
import Verif.Props.Matrix

/-!
# C65: decomposition objects
-/

namespace Gftool.Props

open Gftool.Model Gftool.Spec Matrix Polynomial

private lemma npSort_perm (l : List ℝ) : (npSort l).Perm l := List.mergeSort_perm l _

private lemma npSort_sorted (l : List ℝ) : (npSort l).Pairwise (· ≤ ·) := by
  have h := List.pairwise_mergeSort (le := fun a b : ℝ => decide (a ≤ b))
    (fun a b c hab hbc => by simp only [decide_eq_true_eq] at *; exact hab.trans hbc)
    (fun a b => by simp only [Bool.or_eq_true, decide_eq_true_eq]; exact le_total a b) l
  exact h.imp fun hab => by simpa using hab

/-- C65: the attribute `s` of the decomposition of a Hermitian matrix are the singular values in descending order. -/
theorem udec_singular_values (ext : EigExt) {n : ℕ} {mat : Matrix (Fin n) (Fin n) ℂ} (hmat : mat.IsHermitian)
    {check : Bool} {dec : Decomposition (Fin n) (Fin n)} (h : decomposeHer ext mat check = .ok dec) :
    IsSingularValues mat (udecS (List.ofFn dec.eig)) := by
  obtain ⟨dec', h', hdec, hre, hinv, hu⟩ := decompose_her_correct ext mat hmat check
  obtain rfl : dec = dec' := Except.ok.inj (h.symm.trans h')
  refine ⟨fun x hx => ?_, ?_, ?_⟩
  · obtain ⟨y, -, rfl⟩ := List.mem_map.1 ((npSort_perm _).mem_iff.1 (List.mem_reverse.1 hx))
    exact norm_nonneg y
  · exact List.pairwise_reverse.2 (npSort_sorted _)
  · have hprod : matᴴ * mat = dec.rv * diagonal (fun i => ((‖dec.eig i‖ ^ 2 : ℝ) : ℂ)) * dec.rvInv := by
      have hd : diagonal (fun i => ((‖dec.eig i‖ ^ 2 : ℝ) : ℂ)) = diagonal dec.eig * diagonal dec.eig := by
        rw [diagonal_mul_diagonal]
        congr 1
        funext i
        have hr : dec.eig i = ((dec.eig i).re : ℂ) := Complex.ext (by simp) (by simpa using hre i)
        rw [hr, Complex.norm_real, Real.norm_eq_abs, sq_abs]
        push_cast
        ring
      rw [hmat.eq, hd]
      conv_lhs => rw [hdec.1]
      calc dec.rv * diagonal dec.eig * dec.rvInv * (dec.rv * diagonal dec.eig * dec.rvInv)
          = dec.rv * diagonal dec.eig * (dec.rvInv * dec.rv) * diagonal dec.eig * dec.rvInv := by
            simp only [Matrix.mul_assoc]
        _ = dec.rv * (diagonal dec.eig * diagonal dec.eig) * dec.rvInv := by
            rw [hdec.2, Matrix.mul_one]
            simp only [Matrix.mul_assoc]
    have hch : (matᴴ * mat).charpoly = ∏ i, (X - C (((‖dec.eig i‖ ^ 2 : ℝ) : ℂ))) := by
      rw [hprod, ← charpoly_diagonal, charpoly_mul_comm, ← Matrix.mul_assoc, hdec.2, Matrix.one_mul]
    have hroots : (∏ i, (X - C (((‖dec.eig i‖ ^ 2 : ℝ) : ℂ)))).roots =
        (List.ofFn fun i => (((‖dec.eig i‖ ^ 2 : ℝ) : ℂ)) : Multiset ℂ) := by
      rw [← Fin.univ_val_map, ← roots_multiset_prod_X_sub_C (Multiset.map _ _), Multiset.map_map]
      rfl
    have hperm : (udecS (List.ofFn dec.eig)).Perm ((List.ofFn dec.eig).map fun x => ‖x‖) :=
      (List.reverse_perm _).trans (npSort_perm _)
    have h2 := Multiset.coe_eq_coe.2 (hperm.map fun x => ((x ^ 2 : ℝ) : ℂ))
    rw [hch, hroots, h2, List.map_map, List.map_ofFn]
    rfl

/-- C65: with a stack of matrices the attribute `s` contains for each matrix the singular values of *another* matrix of
the stack, in *ascending* order: element `i` of the result belongs to matrix `k - 1 - i`. -/
theorem udec_stack (eig : List (List ℂ)) {i : ℕ} (hi : i < eig.length) :
    (udecSStack eig)[i]? = some (udecS (eig[eig.length - 1 - i]'(by omega))).reverse := by
  unfold udecSStack udecS
  rw [List.getElem?_reverse (by simpa using hi), List.length_map, List.reverse_reverse, List.getElem?_map,
    List.getElem?_eq_getElem (by omega), Option.map_some]

/-- C65, violation: the singular values of a stack of matrices, here `diag(1, -2)` twice, are not in descending order. -/
theorem udec_stack_order_wrong : ∃ eig : List (List ℂ), ∃ s ∈ udecSStack eig, ¬ s.Pairwise (· ≥ ·) := by
  have h : (udecS [1, -2]).reverse = [1, 2] := by
    have : npSort [‖(1 : ℂ)‖, ‖(-2 : ℂ)‖] = [1, 2] := by
      refine (List.Perm.eq_of_pairwise (le := (· ≤ ·)) ?_ (npSort_sorted _) ?_ ?_)
      · exact fun a b _ _ => le_antisymm
      · norm_num
      · refine (npSort_perm _).trans ?_
        norm_num
    simpa [udecS] using this
  refine ⟨[[1, -2], [1, -2]], (udecS [1, -2]).reverse, ?_, ?_⟩
  · exact List.mem_of_getElem? (udec_stack [[1, -2], [1, -2]] (i := 0) (by simp))
  · rw [h]
    norm_num

/-- C65, violation: the elements of a stack are interchanged, so for a stack of two matrices with different singular
values the result is assigned to the wrong matrices, even up to the order. -/
theorem udec_stack_swapped {a b : List ℂ} (hab : ¬ (a.map fun x => ‖x‖).Perm (b.map fun x => ‖x‖)) :
    ∃ s, (udecSStack [a, b])[0]? = some s ∧ ¬ s.Perm (udecS a) ∧ s.Perm (udecS b) := by
  refine ⟨(udecS b).reverse, udec_stack [a, b] (i := 0) (by simp), fun h => hab ?_, List.reverse_perm _⟩
  have hp : ∀ l, (udecS l).Perm (l.map fun x => ‖x‖) := fun l => (List.reverse_perm _).trans (npSort_perm _)
  exact ((hp b).symm.trans ((List.reverse_perm _).symm.trans (h.trans (hp a)))).symm

example : ¬ (([1, 1] : List ℂ).map fun x => ‖x‖).Perm (([2, 3] : List ℂ).map fun x => ‖x‖) := by
  intro h
  have := h.sum_eq
  norm_num at this

/-- C65: a decomposition is unpacked as `rv, eig, rv_inv`; the iteration ends after these three elements. -/
theorem dec_unpack {m n : Type*} (dec : Decomposition m n) {fuel : ℕ} (hf : 3 ≤ fuel) :
    iterItems dec.getItem fuel 0 = [.rv dec.rv, .eig dec.eig, .rvInv dec.rvInv] ∧
      (iterItems dec.getItem fuel 0).length = dec.len := by
  obtain ⟨k, rfl⟩ := Nat.exists_eq_add_of_le' hf
  have h : iterItems dec.getItem (k + 3) 0 = [.rv dec.rv, .eig dec.eig, .rvInv dec.rvInv] := by
    cases k <;> simp [iterItems, Decomposition.getItem, tupleIndex]
  exact ⟨h, by rw [h]; rfl⟩

/-- C65: indexing behaves like a tuple of three elements: negative keys count from the end, other keys raise
`IndexError`. -/
theorem dec_getitem {m n : Type*} (dec : Decomposition m n) (key : ℤ) :
    dec.getItem key = if key = 0 ∨ key = -3 then .ok (.rv dec.rv) else if key = 1 ∨ key = -2 then .ok (.eig dec.eig)
      else if key = 2 ∨ key = -1 then .ok (.rvInv dec.rvInv) else .error .indexError := by
  by_cases h : -3 ≤ key ∧ key < 3
  · obtain ⟨h1, h2⟩ := h
    interval_cases key <;> rfl
  · have h1 : ¬ (0 ≤ key ∧ key < ((3 : ℕ) : ℤ)) := by push_cast; omega
    have h2 : ¬ (-((3 : ℕ) : ℤ) ≤ key ∧ key < 0) := by push_cast; omega
    have h3 : tupleIndex 3 key = .error .indexError := by rw [tupleIndex, if_neg h1, if_neg h2]
    simp only [Decomposition.getItem, List.length_cons, List.length_nil, Nat.zero_add, Nat.reduceAdd, h3]
    rw [if_neg (by omega), if_neg (by omega), if_neg (by omega)]

/-- C65: `u` and `uh` are unitary and Hermitian conjugates, also without the check. -/
theorem udec_unitary (ext : EigExt) {n : ℕ} {mat : Matrix (Fin n) (Fin n) ℂ} {check : Bool}
    {dec : Decomposition (Fin n) (Fin n)} (h : decomposeHer ext mat check = .ok dec) :
    dec.uh = dec.uᴴ ∧ dec.u * dec.uh = 1 ∧ dec.uh * dec.u = 1 := by
  unfold decomposeHer at h
  split_ifs at h
  have hd := Except.ok.inj h
  have hu := ext.eigh_unitary mat
  have hu1 := Matrix.mem_unitaryGroup_iff'.1 hu
  have hu2 := Matrix.mem_unitaryGroup_iff.1 hu
  rw [star_eq_conjTranspose] at hu1 hu2
  rw [← hd]
  exact ⟨rfl, hu2, hu1⟩

/-- C65: `decompose_hamiltonian` and `from_hamiltonian` never raise; for a Hermitian matrix the result is its
decomposition, in general it is the decomposition of the Hermitian matrix given by the lower triangle. -/
theorem decompose_hamiltonian_correct (ext : EigExt) {n : ℕ} (mat : Matrix (Fin n) (Fin n) ℂ) :
    ∃ dec, decomposeHamiltonian ext mat = .ok dec ∧ fromHamiltonian ext (.inr mat) = .ok dec ∧
      fromHamiltonian ext (.inl dec) = .ok dec ∧ (mat.IsHermitian → IsDecomposition mat dec) ∧
      IsDecomposition (lowerHer mat) dec := by
  have h : ∃ dec, decomposeHamiltonian ext mat = .ok dec := by
    unfold decomposeHamiltonian decomposeHer
    simp
  obtain ⟨dec, hdec⟩ := h
  have hlow : IsDecomposition (lowerHer mat) dec := by
    unfold decomposeHamiltonian decomposeHer at hdec
    simp only [Bool.false_eq_true, false_and, if_false] at hdec
    have hd := Except.ok.inj hdec
    have hu := ext.eigh_unitary mat
    rw [← hd]
    refine ⟨?_, Matrix.mem_unitaryGroup_iff'.1 hu⟩
    simp only
    rw [← ext.eigh_eig mat, Matrix.mul_assoc, ← star_eq_conjTranspose, Matrix.mem_unitaryGroup_iff.1 hu, Matrix.mul_one]
  refine ⟨dec, hdec, hdec, rfl, fun hm => ?_, hlow⟩
  obtain ⟨dec', h', hd', -⟩ := decompose_her_correct ext mat hm false
  obtain rfl : dec = dec' := Except.ok.inj (hdec.symm.trans h')
  exact hd'

/-- C65: `decompose_gf` and `from_gf` are `decompose_mat`; a given decomposition is returned unchanged. -/
theorem decompose_gf_correct (ext : EigExt) {n : Type} [Fintype n] [DecidableEq n] (mat : Matrix n n ℂ)
    (hdet : (ext.eig mat).2.det ≠ 0) :
    ∃ dec, decomposeGf ext mat = .ok dec ∧ fromGf ext (.inr mat) = .ok dec ∧ fromGf ext (.inl dec) = .ok dec ∧
      IsDecomposition mat dec := by
  rcases decompose_mat_correct ext mat with ⟨dec, h, hd⟩ | ⟨-, h⟩
  · exact ⟨dec, h, h, rfl, hd⟩
  · exact absurd h hdet

end Gftool.Props
