import Verif.Model.StackSiam
import Verif.Props.StackLaplace
import Verif.Props.Siam

/-!
# Leading axes are stacks: the impurity Green's functions in time (property C69)
-/

namespace Gftool.Props

open Model Spec Lemmas

private lemma bc_strip {s d : List ℕ} (h : bcast s d = some s) : bcast s (d.rdropWhile (· = 1)) = some s := by
  have h1 : bc (some s) (some d) = some s := h
  have h2 : bc (some d) (some (d.rdropWhile (· = 1))) = some d := bcast_strip d
  change bc (some s) (some (d.rdropWhile (· = 1))) = some s
  conv_lhs => rw [← h1]
  rw [bc_assoc, h2, h1]

private lemma proj_lead {d t : List ℕ} (h : bcast d.tail t = some t) (k : ℕ) (i : List ℕ) :
    proj d (k :: proj t i) = proj d (k :: i) := by
  cases d with
  | nil => rfl
  | cons n d =>
    simp only [proj_cons, List.headD_cons, List.tail_cons] at h ⊢
    rw [proj_proj_left h]

private lemma assign_ok {α : Type} (a v : Nd α) (s sub : List ℕ) (pos : ℕ → ℕ → Option (List ℕ))
    (h : bcast (sub ++ s) (v.dims.rdropWhile (· = 1)) = some (sub ++ s)) :
    a.assign v s sub pos = .ok ⟨a.dims, fun i => match pos (i.headD 0) (i.tail.headD 0) with
      | some j => v.at (j ++ i.tail.tail)
      | none => a.get i⟩ := if_neg (by rw [not_not]; exact h)

private lemma ok_bind {α β : Type} (a : α) (k : α → Except Err β) : ((Except.ok a : Except Err α) >>= k) = k a := rfl

/-- Shape of the Hamiltonian. -/
private lemma ham_shape (es ebd hd : List ℕ) {n : ℕ} (hn : bdim (ebd.headD 1) (hd.headD 1) = some n) :
    bcastAll [1 :: es, ebd, hd] = (bcastAll [es, ebd.tail, hd.tail]).map (n :: ·) := by
  have h1 : bcast ebd hd = bcast ([ebd.headD 1] ++ ebd.tail) ([hd.headD 1] ++ hd.tail) ∨ (ebd = [] ∧ hd = []) := by
    cases ebd <;> cases hd <;> simp [bcast_cons]
  rw [bcastAll_cons, bcastAll_cons, bcastAll_one, bcastAll_cons, bcastAll_cons, bcastAll_one]
  rcases h1 with h1 | ⟨rfl, rfl⟩
  · rw [bc_some, h1, List.singleton_append, List.singleton_append, bcast_cons, hn, Option.bind_some,
      show some (1 :: es) = (some es).map (1 :: ·) from rfl, bc_map_cons (bdim_one_left _)]
    rfl
  · simp only [List.headD_nil, bdim_self, Option.some.injEq] at hn
    subst hn
    simp

private lemma ham_row (eOnsite eBath : Nd ℝ) (hopping : Nd ℂ) {n : ℕ}
    (hn : bdim (eBath.dims.headD 1) (hopping.dims.headD 1) = some n) :
    match bcastAll [eOnsite.dims, eBath.dims.tail, hopping.dims.tail] with
    | none => hamiltonianNd eOnsite eBath hopping = .error .valueError
    | some t => ∃ ham, hamiltonianNd eOnsite eBath hopping = .ok ham ∧ ham.dims = (n + 1) :: (n + 1) :: t ∧
        ∀ i, ∀ r c : Fin (n + 1), ham.get (c :: r :: proj t i)
          = siamHamiltonian id (eOnsite.at i) (fun k : Fin n => eBath.at (k :: i)) (fun k => hopping.at (k :: i)) r c := by
  have hshape := ham_shape eOnsite.dims eBath.dims hopping.dims hn
  cases ht : bcastAll [eOnsite.dims, eBath.dims.tail, hopping.dims.tail] with
  | none =>
    rw [ht] at hshape
    unfold hamiltonianNd
    rw [show eOnsite.newaxis.dims = 1 :: eOnsite.dims from rfl, hshape]
    rfl
  | some t =>
    rw [ht] at hshape
    have he : bcast eOnsite.dims t = some t := by
      have : bc (some eOnsite.dims) (some t) = some t := by rw [← ht, bcastAll_cons, bc_absorb]
      exact this
    have hb : bcast eBath.dims.tail t = some t := by
      have : bc (some eBath.dims.tail) (some t) = some t := by
        rw [← ht, bcastAll_cons, bcastAll_cons, bc_left_comm, bc_absorb]
      exact this
    have hh : bcast hopping.dims.tail t = some t := by
      have : bc (some hopping.dims.tail) (some t) = some t := by
        rw [← ht, bcastAll_cons, bcastAll_cons, bcastAll_one, bc_left_comm, bc_left_comm (some hopping.dims.tail), bc_self]
      exact this
    have full : ∀ d : List ℕ, bcast d.tail t = some t → (d.headD 1 = n ∨ d.headD 1 = 1) →
        bcast ([n] ++ t) (d.rdropWhile (· = 1)) = some ([n] ++ t) := by
      intro d h1 h2
      refine bc_strip ?_
      cases d with
      | nil => simp
      | cons m d =>
        rw [List.singleton_append, bcast_cons, bcast_comm t]
        simp only [List.headD_cons, List.tail_cons] at h1 h2
        rcases h2 with rfl | rfl <;> simp [h1]
    have fb := full _ hb (bdim_some hn).1
    have fh := full _ hh (bdim_some hn).2
    have fe : bcast ([] ++ t) (eOnsite.dims.rdropWhile (· = 1)) = some ([] ++ t) := by
      refine bc_strip ?_
      rw [List.nil_append, bcast_comm, he]
    unfold hamiltonianNd
    rw [show eOnsite.newaxis.dims = 1 :: eOnsite.dims from rfl, hshape]
    simp only [Option.map_some, List.headD_cons, List.tail_cons]
    rw [assign_ok _ (eOnsite.map fun e : ℝ => (e : ℂ)) _ _ _ fe, ok_bind, assign_ok _ hopping _ _ _ fh, ok_bind,
      assign_ok _ (hopping.map star) _ _ _ fh, ok_bind, assign_ok _ (eBath.map fun e : ℝ => (e : ℂ)) _ _ _ fb]
    refine ⟨_, rfl, rfl, fun i r c => ?_⟩
    simp only [List.headD_cons, List.tail_cons, Nd.at, Nd.map]
    refine Fin.cases ?_ (fun r => ?_) r <;> refine Fin.cases ?_ (fun c => ?_) c
    · simp [siamHamiltonian, proj_proj_left he, Nd.at]
    · simp [siamHamiltonian, proj_lead hh, Nd.at]
    · simp [siamHamiltonian, proj_lead hh, Nd.at]
    · by_cases h : r = c
      · subst h
        simp [siamHamiltonian, proj_lead hb, Nd.at]
      · have h' : (c : ℕ) ≠ r := fun e => h (Fin.ext e.symm)
        simp [siamHamiltonian, h, h']

/-- `hamiltonian_matrix` treats leading axes of on-site energy, bath energies and hopping as a stack. -/
theorem hamiltonian_matrix_stack (eOnsite eBath : Nd ℝ) (hopping : Nd ℂ) {n : ℕ}
    (hn : bdim (eBath.dims.headD 1) (hopping.dims.headD 1) = some n) :
    match bcastAll [eOnsite.dims, eBath.dims.tail, hopping.dims.tail] with
    | none => hamiltonianNd eOnsite eBath hopping = .error .valueError
    | some t => ∃ ham, hamiltonianNd eOnsite eBath hopping = .ok ham ∧ ham.dims = (n + 1) :: (n + 1) :: t ∧
        ∀ i, InRange i t → (Matrix.of fun r c : Fin (n + 1) => ham.get (c :: r :: i))
          = siamHamiltonian id (eOnsite.at i) (fun k : Fin n => eBath.at (k :: i)) (fun k => hopping.at (k :: i)) := by
  have h := ham_row eOnsite eBath hopping hn
  cases ht : bcastAll [eOnsite.dims, eBath.dims.tail, hopping.dims.tail] with
  | none =>
    rw [ht] at h
    exact h
  | some t =>
    rw [ht] at h
    obtain ⟨ham, h1, h2, h3⟩ := h
    refine ⟨ham, h1, h2, fun i hi => ?_⟩
    ext r c
    rw [Matrix.of_apply, ← h3, proj_inRange hi]

/-- The local Green's functions in time treat the leading axes of all arguments as a stack. -/
theorem siam_local_stack (ext : EigExt) (tt eOnsite eBath : Nd ℝ) (hopping : Nd ℂ) (f : ℝ → ℂ → ℂ) {n : ℕ}
    (hn : bdim (eBath.dims.headD 1) (hopping.dims.headD 1) = some n) :
    StackedOk (siamLocalNd ext tt eOnsite eBath hopping f) (bcastAll [tt.dims, eOnsite.dims, eBath.dims.tail, hopping.dims.tail])
      fun i => siamLocal ext (eOnsite.at i) (fun k : Fin n => eBath.at (k :: i)) (fun k => hopping.at (k :: i)) (f (tt.at i)) := by
  have h := ham_row eOnsite eBath hopping hn
  rw [bcastAll_cons]
  cases ht : bcastAll [eOnsite.dims, eBath.dims.tail, hopping.dims.tail] with
  | none =>
    rw [ht] at h
    simp only at h
    rw [bc_none_right]
    change siamLocalNd ext tt eOnsite eBath hopping f = _
    unfold siamLocalNd
    rw [h]
    rfl
  | some t =>
    rw [ht] at h
    obtain ⟨ham, h1, h2, h3⟩ := h
    set H : List ℕ → Matrix (Fin (n + 1)) (Fin (n + 1)) ℂ := fun i =>
      siamHamiltonian id (eOnsite.at i) (fun k : Fin n => eBath.at (k :: i)) (fun k => hopping.at (k :: i)) with hH
    have hdec : ∀ i, decomposeHer ext (H i) true
        = .ok ⟨(ext.eigh (H i)).2, fun k => ((ext.eigh (H i)).1 k : ℂ), (ext.eigh (H i)).2.conjTranspose⟩ := by
      intro i
      unfold decomposeHer
      rw [if_neg]
      rintro ⟨-, h⟩
      refine h fun a b => ?_
      have := congrFun (congrFun (siam_hamiltonian_hermitian (eOnsite.at i) (fun k : Fin n => eBath.at (k :: i))
        (fun k => hopping.at (k :: i))) a) b
      rw [Matrix.conjTranspose_apply] at this
      rw [this]
      simp only [hH, sub_self, norm_zero]
      unfold allcloseAtol
      positivity
    have hM : ∀ i, (Matrix.of fun r c : Fin (n + 1) => ham.get (c :: r :: proj t i)) = H i := fun i => by
      ext r c
      exact h3 i r c
    have hf : firstErr (fun i : List ℕ => decomposeHer ext (Matrix.of fun r c : Fin (n + 1) => ham.get (c :: r :: i)) true) t = none := by
      cases he : firstErr (fun i : List ℕ => decomposeHer ext (Matrix.of fun r c : Fin (n + 1) => ham.get (c :: r :: i)) true) t with
      | none => rfl
      | some e =>
        obtain ⟨i, hi, h⟩ := firstErr_some he
        have := hM i
        rw [proj_inRange hi] at this
        simp only [this, hdec] at h
        cases h
    set E : List ℕ → ℂ := fun i => ((ext.eigh (H i.tail)).1 (Fin.ofNat (n + 1) (if n + 1 = 1 then 0 else i.headD 0)) : ℂ) with hE
    set W : List ℕ → ℂ := fun i => (ext.eigh (H i.tail.tail)).2.conjTranspose (Fin.ofNat (n + 1) (if n + 1 = 1 then 0 else i.headD 0)) 0
      * (ext.eigh (H i.tail.tail)).2 0 (Fin.ofNat (n + 1) (if n + 1 = 1 then 0 else i.headD 0)) with hW
    refine Rep.stackedOk' (F := fun i => ∑ k ∈ Finset.range (n + 1), W (k :: 0 :: i) * f (tt.at i) (E (k :: i))) ?_ ?_
    · unfold siamLocalNd
      rw [h1]
      change Rep (match ham.dims with
        | 0 :: _ => _
        | (N + 1) :: _ :: s => _
        | _ => _) _ _
      rw [h2]
      simp only [hf]
      set eig : Nd ℂ := ⟨(n + 1) :: t, fun i => match decomposeHer ext (Matrix.of fun r c : Fin (n + 1) =>
          ham.get (c :: r :: i.tail)) true with
        | .ok dec => dec.eig (Fin.ofNat (n + 1) (i.headD 0))
        | .error _ => 0⟩ with heig
      have he : Rep (.ok eig) ((some t).map ((n + 1) :: ·)) E := by
        refine ⟨_, rfl, rfl, fun i => ?_⟩
        simp only [heig, proj_cons, List.tail_cons, List.headD_cons, hM, hdec, hE]
      set rvRv : Nd ℂ := ⟨(n + 1) :: 1 :: t, fun i => match decomposeHer ext (Matrix.of fun r c : Fin (n + 1) =>
          ham.get (c :: r :: i.tail.tail)) true with
        | .ok dec => dec.rvInv (Fin.ofNat (n + 1) (i.headD 0)) 0 * dec.rv 0 (Fin.ofNat (n + 1) (i.headD 0))
        | .error _ => 0⟩ with hrv
      have hr : Rep (.ok rvRv) (((some t).map (1 :: ·)).map ((n + 1) :: ·)) W := by
        refine ⟨_, rfl, rfl, fun i => ?_⟩
        simp only [hrv, proj_cons, List.tail_cons, List.headD_cons, hM, hdec, hW]
      have hex := Rep.map2' (Rep.of tt).newaxis' he f
      rw [show some tt.dims = some tt.dims from rfl, bc_map_cons (bdim_one_left _)] at hex
      refine Rep.bindC hex (by rw [bc_self]) fun ex hex => ?_
      have hm := Rep.matvec' hr hex
      refine Rep.bindC hm (by rw [bc_left_comm (some t), bc_self, bc_self]) fun d hd => ?_
      refine (hd.select' (by norm_num)).congr (by rw [bc_left_comm, bc_self]) fun i => ?_
      simp only [List.tail_cons, hW, hE, List.headD_cons]
    · intro i
      unfold siamLocal
      simp only
      rw [show siamHamiltonian id (eOnsite.at i) (fun k : Fin n => eBath.at (k :: i)) (fun k => hopping.at (k :: i)) = H i from rfl,
        hdec]
      simp only [Decomposition.reconstructDiag, Option.getD_some, Matrix.mulVec, dotProduct, Matrix.of_apply, Matrix.transpose_apply]
      congr 1
      rw [Finset.sum_range]
      refine Finset.sum_congr rfl fun k _ => ?_
      have hk : Fin.ofNat (n + 1) (if n + 1 = 1 then 0 else (k : ℕ)) = k := by
        apply Fin.ext
        have := k.2
        split_ifs with h
        · simp; omega
        · simp
      simp only [hW, hE, List.headD_cons, List.tail_cons, hk]
      rfl

/-- `gf0_loc_ret_t`, `gf0_loc_gr_t` and `gf0_loc_le_t` treat the leading axes of all arguments as a stack. -/
theorem siam_time_stack (ext : EigExt) (tt eOnsite eBath : Nd ℝ) (hopping : Nd ℂ) (beta : ℝ) {n : ℕ}
    (hn : bdim (eBath.dims.headD 1) (hopping.dims.headD 1) = some n) :
    let s := bcastAll [tt.dims, eOnsite.dims, eBath.dims.tail, hopping.dims.tail]
    StackedOk (siamRetTNd ext tt eOnsite eBath hopping) s (fun i =>
      siamRetT ext (tt.at i) (eOnsite.at i) (fun k : Fin n => eBath.at (k :: i)) fun k => hopping.at (k :: i)) ∧
    StackedOk (siamGrTNd ext tt eOnsite eBath hopping beta) s (fun i =>
      siamGrT ext (tt.at i) (eOnsite.at i) (fun k : Fin n => eBath.at (k :: i)) (fun k => hopping.at (k :: i)) beta) ∧
    StackedOk (siamLeTNd ext tt eOnsite eBath hopping beta) s fun i =>
      siamLeT ext (tt.at i) (eOnsite.at i) (fun k : Fin n => eBath.at (k :: i)) (fun k => hopping.at (k :: i)) beta :=
  ⟨siam_local_stack ext tt eOnsite eBath hopping (fun t p => singlePoleGfRetT t p) hn,
    siam_local_stack ext tt eOnsite eBath hopping (fun t p => singlePoleGfGrT t p.re beta) hn,
    siam_local_stack ext tt eOnsite eBath hopping (fun t p => singlePoleGfLeT t p.re beta) hn⟩

/-- Two impurities with three bath sites, seven times: the times need an additional axis. -/
example (ext : EigExt) (tt eOnsite eBath : Nd ℝ) (hopping : Nd ℂ) (h1 : tt.dims = [1, 7]) (h2 : eOnsite.dims = [2])
    (h3 : eBath.dims = [3]) (h4 : hopping.dims = [3, 2]) :
    ∃ r, siamRetTNd ext tt eOnsite eBath hopping = .ok r ∧ r.dims = [2, 7] := by
  have h := (siam_time_stack ext tt eOnsite eBath hopping 1 (n := 3) (by rw [h3, h4]; rfl)).1
  rw [h1, h2, h3, h4, show bcastAll [[1, 7], [2], [3].tail, [3, 2].tail] = some [2, 7] by decide] at h
  obtain ⟨r, h, hd, -⟩ := h
  exact ⟨r, h, hd⟩

end Gftool.Props
