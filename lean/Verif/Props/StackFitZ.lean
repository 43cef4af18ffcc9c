import Verif.Model.StackFitZ
import Verif.Lemmas.NdConcat
import Verif.Props.StackFit

/-!
# Leading axes are stacks: fits to data on the complex plane (property C69)
-/

namespace Gftool.Props

open Model Spec Lemmas

/-- Normalise shapes. -/
local macro "bc_simp" : tactic =>
  `(tactic| simp only [bcastAll_cons, bcastAll_nil, bc_nil_right, bc_nil_left, bc_assoc, bc_comm, bc_left_comm, bc_self, bc_absorb])

/-- The least-squares solver with constraints never fails for fitting shapes. -/
lemma lstsqEc_ok (ext : LinalgExt ℝ) {m n l : ℕ} (a : Matrix (Fin m) (Fin n) ℝ) (b : Fin m → ℝ)
    (c : Matrix (Fin l) (Fin n) ℝ) (d : Fin l → ℝ) (h : l ≤ n) : ∃ x, lstsqEc ext a b c d = .ok x := by
  unfold lstsqEc
  split_ifs with h1 h2 h3 h4
  · exact ⟨_, rfl⟩
  · exact absurd rfl h3
  · exact ⟨_, rfl⟩
  · exact ⟨_, rfl⟩
  · exact absurd ⟨rfl, h⟩ h4

/-- The poles of the fit: shared by all elements, or one set for every element of the stack of moments. -/
private lemma fitPoles (n l : ℕ) (ms : List ℕ) (moments : Nd ℝ) (hm : moments.dims = l :: ms) (width : Option ℝ) :
    ∃ (p : Nd ℝ) (ps : List ℕ), fitPolesNd n moments width = .ok p ∧ (ps = [] ∨ ps = ms) ∧ p.dims = n :: ps ∧
      (width ≠ none → ps = []) ∧
      ∀ i (k : Fin n), p.at (k :: i) = autoWidth n (fun k : Fin l => moments.at (k :: i)) width * chebyshevPoints n k := by
  have hc : ∀ (k : Fin n) i, (chebNd n).at ((k : ℕ) :: i) = chebyshevPoints n k := by
    intro k i
    have hk : (if n = 1 then 0 else (k : ℕ)) = k := by
      have := k.2
      split_ifs <;> omega
    rw [Nd.at, show (chebNd n).dims = [n] from rfl, proj_cons, List.headD_cons, hk]
    change (if h : (k : ℕ) < n then chebyshevPoints n ⟨k, h⟩ else 0) = _
    rw [dif_pos k.2]
  have hcr : Rep (.ok (chebNd n)) ((some []).map (n :: ·)) (chebNd n).at := Rep.ofCons rfl
  have key : ∀ w : Nd ℝ, w.dims.headD 1 = 1 → (∀ i j k, w.at (j :: i) = w.at (k :: i)) →
      (∀ i, w.at (0 :: i) = autoWidth n (fun k : Fin l => moments.at (k :: i)) width) →
      ∃ p : Nd ℝ, Nd.map2 (fun x y : ℝ => x * y) w (chebNd n) = .ok p ∧ p.dims = n :: w.dims.tail ∧
        ∀ i (k : Fin n), p.at (k :: i) = autoWidth n (fun k : Fin l => moments.at (k :: i)) width * chebyshevPoints n k := by
    intro w h1 h2 h3
    have h := Rep.map2' (Rep.of w) hcr (fun x y : ℝ => x * y)
    rw [bc_comm, bc_cons n _ w.dims (m := n) (by rw [h1]; exact bdim_one_right n), bc_nil_left] at h
    obtain ⟨p, e1, e2, e3⟩ := h
    refine ⟨p, e1, e2, fun i k => ?_⟩
    rw [Nd.at, e2, e3]
    simp only
    rw [hc, h2 i _ 0, h3]
  unfold fitPolesNd
  cases width with
  | some w =>
    obtain ⟨p, e1, e2, e3⟩ := key (Nd.scalar w) rfl (fun _ _ _ => rfl) fun _ => rfl
    exact ⟨p, [], e1, .inl rfl, e2, fun _ => rfl, e3⟩
  | none =>
    simp only [hm]
    by_cases hl : l ≤ 1
    · obtain ⟨p, e1, e2, e3⟩ := key (Nd.scalar 1) rfl (fun _ _ _ => rfl) fun i => by
        unfold autoWidth
        rw [dif_neg (by omega)]
        rfl
      simp only [if_pos hl]
      exact ⟨p, [], e1, .inl rfl, e2, fun _ => rfl, e3⟩
    · simp only [if_neg hl]
      have hsl := (Rep.ofCons hm).slice' (by omega) 1 fun _ => 1
      obtain ⟨m1, q1, q2, q3⟩ := hsl
      rw [q1]
      simp only at q2
      have hat : ∀ i j, (m1.map fun x => if 0.1 ≤ |x| then |x| / chebMax n else 1 : Nd ℝ).at (j :: i)
          = if 0.1 ≤ |moments.at (1 :: i)| then |moments.at (1 :: i)| / chebMax n else 1 := by
        intro i j
        simp only [Nd.at, Nd.map, q2]
        have := q3 (j :: i)
        simp only [List.tail_cons, Nd.at] at this
        rw [this]
        by_cases h : (0.1 : ℝ) ≤ |moments.get (proj moments.dims (1 :: i))|
        · rw [if_pos h]
          exact (if_pos h).symm
        · rw [if_neg h]
          exact (if_neg h).symm
      obtain ⟨p, e1, e2, e3⟩ := key (m1.map fun x => if 0.1 ≤ |x| then |x| / chebMax n else 1) (by simp [Nd.map, q2])
        (fun i j k => by rw [hat, hat]) fun i => by
          rw [hat]
          unfold autoWidth
          rw [dif_pos (by omega)]
          rfl
      exact ⟨p, ms, e1, .inr rfl, by rw [e2]; simp [Nd.map, q2], fun h => absurd rfl h, e3⟩

/-- The matrix of the fit before the weighting. -/
private lemma fitMat (z : Nd ℂ) (nz n : ℕ) (zs ps as : List ℕ) (p : Nd ℝ) (hz : z.dims = nz :: zs) (hp : p.dims = n :: ps)
    (has : bcast zs ps = some as) :
    ∃ p2 m0 m : Nd _, p.newaxis2 = .ok p2 ∧
      poleGfZNd z.newaxis (p2.newaxis.map fun x : ℝ => (x : ℂ)) (Nd.scalar 1) = .ok m0 ∧ Nd.reim2 m0 = .ok m ∧
      Rep (.ok m) (((some as).map ((nz + nz) :: ·)).map (n :: ·)) fun i =>
        if i.tail.headD 0 < nz then (1 / (z.at i.tail - (p.at (i.headD 0 :: i.tail.tail) : ℂ))).re
        else (1 / (z.at ((i.tail.headD 0 - nz) :: i.tail.tail) - (p.at (i.headD 0 :: i.tail.tail) : ℂ))).im := by
  obtain ⟨p2, e1, e2, e3⟩ := (Rep.ofCons hp).newaxis2'
  have hp2 : Rep (.ok p2) (((some ps).map (1 :: ·)).map (n :: ·)) fun i => p.at (i.headD 0 :: i.tail.tail) :=
    ⟨p2, rfl, e2, e3⟩
  have hpm := (hp2.newaxis').map' fun x : ℝ => (x : ℂ)
  have h := gf_z_rep z.newaxis (p2.newaxis.map fun x : ℝ => (x : ℂ)) (Nd.scalar 1) 1
    (by rw [hpm.dims_eq]; exact bdim_self 1)
  have hs : bcastAll [z.newaxis.dims, (p2.newaxis.map fun x : ℝ => (x : ℂ)).dims.tail, (Nd.scalar (1 : ℂ)).dims.tail]
      = ((some as).map (nz :: ·)).map (n :: ·) := by
    rw [hpm.dims_eq, show z.newaxis.dims = 1 :: z.dims from rfl, hz]
    change bcastAll [1 :: nz :: zs, n :: 1 :: ps, []] = _
    rw [bcastAll_cons, bcastAll_cons, bcastAll_one, bc_nil_right, bc_some, bcast_cons, bcast_cons, has]
    simp
  rw [hs] at h
  obtain ⟨m0, f1, f2, f3⟩ := h
  have hm0 : Rep (.ok m0) (((some as).map (nz :: ·)).map (n :: ·)) fun i =>
      1 / (z.at i.tail - (p.at (i.headD 0 :: i.tail.tail) : ℂ)) := by
    refine ⟨m0, rfl, f2, fun i => ?_⟩
    rw [f3]
    simp only [poleGfZ, Finset.univ_unique, Fin.default_eq_zero, Finset.sum_singleton]
    rw [hpm.at_eq]
    rfl
  obtain ⟨m, g1, g2, g3⟩ := hm0.reim2'
  exact ⟨p2, m0, m, e1, f1, g1, m, rfl, g2, g3⟩

private lemma at1 {α : Type} {a : Nd α} {n : ℕ} {d s : List ℕ} (h : a.dims = n :: d) (hs : bcast d s = some s) (k : ℕ)
    (i : List ℕ) : a.at (k :: proj s i) = a.at (k :: i) := by
  rw [Nd.at, Nd.at, h, proj_cons, proj_cons]
  simp only [List.headD_cons, List.tail_cons, proj_proj_left hs]

private lemma at2 {α : Type} {a : Nd α} {n m : ℕ} {d s : List ℕ} (h : a.dims = n :: m :: d) (hs : bcast d s = some s)
    (j k : ℕ) (i : List ℕ) : a.at (j :: k :: proj s i) = a.at (j :: k :: i) := by
  rw [Nd.at, Nd.at, h]
  simp only [proj_cons, List.headD_cons, List.tail_cons, proj_proj_left hs]

/-- The vectorised fits. -/
private lemma fitCore (ext : LinalgExt ℝ) (mat gf p moments : Nd ℝ) (n N l : ℕ) (as bs ps ms s : List ℕ)
    (hn : n ≠ 0) (hmat : mat.dims = n :: N :: as) (hgf : gf.dims = N :: bs) (hp : p.dims = n :: ps)
    (hm : moments.dims = l :: ms) (hln : l ≤ n) (h0 : l = 0 → bcast as bs = some s)
    (hs : bcastAll [as, bs, ps, ms] = some s) :
    ∃ r : Nd ℝ, (match moments.dims with
      | [] => .error .indexError
      | 0 :: _ => do
        let resid ← lstsqNd ext mat gf
        .ok (p, resid)
      | (l + 1) :: _ =>
        if n < l + 1 then .error .valueError
        else do
          let resid ← lstsqEcNd ext mat gf p moments
          .ok (p, resid) : Except Err (Nd ℝ × Nd ℝ)) = .ok (p, r) ∧ r.dims = n :: s ∧
      ∀ i, (if 0 < l then lstsqEc ext (Matrix.of fun (k : Fin N) (j : Fin n) => mat.at (j :: k :: i))
          (fun k : Fin N => gf.at (k :: i)) (vanderT ℝ l fun j : Fin n => p.at (j :: i)) (fun k : Fin l => moments.at (k :: i))
        else .ok (ext.lstsq (Matrix.of fun (k : Fin N) (j : Fin n) => mat.at (j :: k :: i))
          fun k : Fin N => gf.at (k :: i))) = .ok fun k => r.at (k :: i) := by
  classical
  have ia : bcast as s = some s := by
    rw [← bc_some, ← hs]
    bc_simp
  have ib : bcast bs s = some s := by
    rw [← bc_some, ← hs]
    bc_simp
  have ip : bcast ps s = some s := by
    rw [← bc_some, ← hs]
    bc_simp
  have im : bcast ms s = some s := by
    rw [← bc_some, ← hs]
    bc_simp
  have hk : ∀ (k : Fin n) i, proj (n :: s) ((k : ℕ) :: i) = (k : ℕ) :: proj s i := by
    intro k i
    rw [proj_cons, List.headD_cons, List.tail_cons]
    congr 1
    have := k.2
    split_ifs <;> omega
  cases l with
  | zero =>
    have hs' := h0 rfl
    rw [hm]
    simp only
    unfold lstsqNd
    rw [hmat, hgf]
    simp only [ne_eq, not_true_eq_false, if_false, hs']
    refine ⟨_, rfl, rfl, fun i => ?_⟩
    rw [if_neg (lt_irrefl 0)]
    congr 1
    funext k
    rw [Nd.at]
    simp only [hk, List.headD_cons, List.tail_cons, Fin.is_lt, ↓reduceDIte, Fin.eta, at2 hmat ia, at1 hgf ib]
  | succ l =>
    rw [hm]
    simp only
    rw [if_neg (by omega)]
    unfold lstsqEcNd
    rw [hmat, hgf, hp, hm]
    simp only [ne_eq, not_true_eq_false, or_self, if_false, hs]
    rw [if_neg]
    · refine ⟨_, rfl, rfl, fun i => ?_⟩
      rw [if_pos (Nat.succ_pos l)]
      obtain ⟨x, hx⟩ := lstsqEc_ok ext (Matrix.of fun (k : Fin N) (j : Fin n) => mat.at (j :: k :: i))
        (fun k : Fin N => gf.at (k :: i)) (vanderT ℝ (l + 1) fun j : Fin n => p.at (j :: i))
        (fun k : Fin (l + 1) => moments.at (k :: i)) hln
      rw [hx]
      congr 1
      funext k
      rw [Nd.at]
      simp only [hk, List.headD_cons, List.tail_cons, at2 hmat ia, at1 hgf ib, at1 hp ip, at1 hm im, hx, Fin.is_lt,
        ↓reduceDIte, Fin.eta]
    · rintro ⟨i, -, e, he⟩
      obtain ⟨x, hx⟩ := lstsqEc_ok ext (Matrix.of fun (k : Fin N) (j : Fin n) => mat.at (j :: k :: i))
        (fun k : Fin N => gf.at (k :: i)) (vanderT ℝ (l + 1) fun j : Fin n => p.at (j :: i))
        (fun k : Fin (l + 1) => moments.at (k :: i)) hln
      rw [hx] at he
      cases he

private lemma append_eq {n : ℕ} {α : Type} (f g : Fin n → α) (F : ℕ → α) (k : Fin (n + n))
    (hf : ∀ j : Fin n, (k : ℕ) = j → F k = f j) (hg : ∀ j : Fin n, (k : ℕ) = n + j → F k = g j) :
    F k = Fin.append f g k := by
  induction k using Fin.addCases with
  | left j =>
    rw [Fin.append_left]
    exact hf j rfl
  | right j =>
    rw [Fin.append_right]
    exact hg j rfl

private lemma sh1 {P M : Option (List ℕ)} (h : bc P M = M) (Z G : Option (List ℕ)) :
    bc (bc Z P) (bc G M) = bc Z (bc G M) := by
  conv_rhs => rw [← h]
  bc_simp

private lemma sh2 {Z W : Option (List ℕ)} (h : bc Z W = Z) (P : Option (List ℕ)) : bc (bc Z P) W = bc Z P := by
  conv_rhs => rw [← h]
  bc_simp

private lemma sh3 {Z W P M : Option (List ℕ)} (h : bc Z W = Z) (h' : bc P M = M) (G : Option (List ℕ)) :
    bc (bc Z P) (bc (bc G W) (bc P M)) = bc Z (bc G M) := by
  conv_rhs => rw [← h, ← h']
  bc_simp

private lemma sh4 {Z W : Option (List ℕ)} (h : bc Z W = Z) (G M : Option (List ℕ)) :
    bc Z (bc (bc G W) M) = bc Z (bc G M) := by
  conv_rhs => rw [← h]
  bc_simp

private lemma sh5 {P M G : Option (List ℕ)} (h : bc P M = M) (h' : bc G M = G) (Z : Option (List ℕ)) :
    bc (bc Z P) G = bc Z (bc G M) := by
  conv_lhs => rw [← h']
  rw [sh1 h]

private lemma sh6 {Z W P M G : Option (List ℕ)} (h0 : bc Z W = Z) (h : bc P M = M) (h' : bc G M = G) :
    bc (bc Z P) (bc G W) = bc Z (bc G M) := by
  rw [← sh5 h h' Z]
  conv_rhs => rw [← h0]
  bc_simp

/-- `gf_from_z` for stacks, at every index. -/
lemma fromZStack (ext : LinalgExt ℝ) (z gf : Nd ℂ) (n : ℕ) (hn : n ≠ 0) (moments : Nd ℝ) (width : Option ℝ)
    (weight : Option (Nd ℝ)) (nz l : ℕ) (zs gs ms s : List ℕ) (hz : z.dims = nz :: zs) (hg : gf.dims = nz :: gs)
    (hm : moments.dims = l :: ms) (hln : l ≤ n) (hms : l = 0 → bcast gs ms = some gs)
    (hw : ∀ w, weight = some w → ∃ ws, w.dims = nz :: ws ∧ bcast zs ws = some zs)
    (hs : bcastAll [zs, gs, ms] = some s) :
    ∃ p r : Nd ℝ, gfFromZNd ext z gf n moments width weight = .ok (p, r) ∧ r.dims = n :: s ∧
      (p.dims = [n] ∨ p.dims = n :: ms) ∧
      ∀ i, gfFromZ ext (fun k : Fin nz => z.at (k :: i)) (fun k : Fin nz => gf.at (k :: i)) n
        (fun k : Fin l => moments.at (k :: i)) width (weight.map fun w k => w.at ((k : ℕ) :: i))
        = .ok ⟨fun k => p.at (k :: i), fun k => r.at (k :: i)⟩ := by
  obtain ⟨p, ps, p1, p2, p3, -, p4⟩ := fitPoles n l ms moments hm width
  have hpm : bc (some ps) (some ms) = some ms := by
    rcases p2 with rfl | rfl <;> simp
  obtain ⟨as, has⟩ : ∃ as, bcast zs ps = some as := by
    cases h : bcast zs ps with
    | some as => exact ⟨as, rfl⟩
    | none =>
      have : bc (bc (some zs) (some ps)) (bc (some gs) (some ms)) = some s := by
        rw [sh1 hpm, ← hs, bcastAll_cons, bcastAll_cons, bcastAll_one]
      rw [bc_some zs ps, h] at this
      cases this
  obtain ⟨q2, m0, mat, e1, e2, e3, hmat⟩ := fitMat z nz n zs ps as p hz p3 has
  obtain ⟨g2, f1, f2, f3⟩ := (Rep.ofCons hg).reim'
  have hg2 : Rep (.ok g2) ((some gs).map ((nz + nz) :: ·)) _ := ⟨g2, rfl, f2, f3⟩
  have hpd : p.dims = [n] ∨ p.dims = n :: ms := by
    rcases p2 with rfl | rfl
    · exact .inl p3
    · exact .inr p3
  have hpi : ∀ i, (fun k : Fin n => p.at (k :: i))
      = fun k => autoWidth n (fun k : Fin l => moments.at (k :: i)) width * chebyshevPoints n k := fun i =>
    funext fun k => p4 i k
  -- the end of the function
  have fin : ∀ (m g : Nd ℝ) (bs : List ℕ), m.dims = n :: (nz + nz) :: as → g.dims = (nz + nz) :: bs →
      bcastAll [as, bs, ps, ms] = some s → (l = 0 → bcast as bs = some s) →
      (∀ i, (Matrix.of fun (k : Fin (nz + nz)) (j : Fin n) => m.at (j :: k :: i))
        = fitMatZ (fun k : Fin nz => z.at (k :: i)) (fun k : Fin n => p.at (k :: i))
          ((weight.map fun w k => w.at (((k : Fin nz) : ℕ) :: i)).getD fun _ => 1)) →
      (∀ i, (fun k : Fin (nz + nz) => g.at (k :: i)) = fitVecZ (fun k : Fin nz => gf.at (k :: i))
          ((weight.map fun w k => w.at (((k : Fin nz) : ℕ) :: i)).getD fun _ => 1)) →
      ∃ r : Nd ℝ, (match moments.dims with
        | [] => .error .indexError
        | 0 :: _ => do
          let resid ← lstsqNd ext m g
          .ok (p, resid)
        | (l + 1) :: _ =>
          if n < l + 1 then .error .valueError
          else do
            let resid ← lstsqEcNd ext m g p moments
            .ok (p, resid) : Except Err (Nd ℝ × Nd ℝ)) = .ok (p, r) ∧ r.dims = n :: s ∧
        ∀ i, gfFromZ ext (fun k : Fin nz => z.at (k :: i)) (fun k : Fin nz => gf.at (k :: i)) n
          (fun k : Fin l => moments.at (k :: i)) width (weight.map fun w k => w.at ((k : ℕ) :: i))
          = .ok ⟨fun k => p.at (k :: i), fun k => r.at (k :: i)⟩ := by
    intro m g bs hm1 hg1 hbs h0 hM hG
    obtain ⟨r, r1, r2, r3⟩ := fitCore ext m g p moments n (nz + nz) l as bs ps ms s hn hm1 hg1 p3 hm hln h0 hbs
    refine ⟨r, r1, r2, fun i => ?_⟩
    have r3 := r3 i
    rw [hM, hG] at r3
    unfold gfFromZ
    rw [if_neg hn]
    simp only
    rw [← hpi]
    by_cases hl : 0 < l
    · rw [if_pos hl] at r3 ⊢
      rw [if_neg (by omega), r3]
    · rw [if_neg hl] at r3 ⊢
      rw [Except.ok.inj r3]
  have hmf : ∀ (k : Fin nz) (j : Fin n) i, mat.at ((j : ℕ) :: (k : ℕ) :: i)
      = (1 / (z.at (k :: i) - (p.at (j :: i) : ℂ))).re := by
    intro k j i
    rw [hmat.at_eq]
    simp only [List.headD_cons, List.tail_cons]
    exact if_pos k.2
  have hmf' : ∀ (k : Fin nz) (j : Fin n) i, mat.at ((j : ℕ) :: (nz + (k : ℕ)) :: i)
      = (1 / (z.at (k :: i) - (p.at (j :: i) : ℂ))).im := by
    intro k j i
    rw [hmat.at_eq]
    simp only [List.headD_cons, List.tail_cons, Nat.add_sub_cancel_left]
    exact if_neg (by omega)
  have hgf : ∀ (k : Fin nz) i, g2.at ((k : ℕ) :: i) = (gf.at (k :: i)).re := by
    intro k i
    rw [hg2.at_eq]
    simp only [List.headD_cons, List.tail_cons]
    exact if_pos k.2
  have hgf' : ∀ (k : Fin nz) i, g2.at ((nz + (k : ℕ)) :: i) = (gf.at (k :: i)).im := by
    intro k i
    rw [hg2.at_eq]
    simp only [List.headD_cons, List.tail_cons, Nat.add_sub_cancel_left]
    exact if_neg (by omega)
  suffices h : ∃ r, gfFromZNd ext z gf n moments width weight = .ok (p, r) ∧ r.dims = n :: s ∧
      ∀ i, gfFromZ ext (fun k : Fin nz => z.at (k :: i)) (fun k : Fin nz => gf.at (k :: i)) n
        (fun k : Fin l => moments.at (k :: i)) width (weight.map fun w k => w.at ((k : ℕ) :: i))
        = .ok ⟨fun k => p.at (k :: i), fun k => r.at (k :: i)⟩ by
    obtain ⟨r, r1, r2, r3⟩ := h
    exact ⟨p, r, r1, r2, hpd, r3⟩
  unfold gfFromZNd
  rw [if_neg hn, p1]
  change ∃ r, (p.newaxis2 >>= _) = _ ∧ _
  rw [e1]
  change ∃ r, (poleGfZNd z.newaxis (q2.newaxis.map fun x : ℝ => (x : ℂ)) (Nd.scalar 1) >>= _) = _ ∧ _
  rw [e2]
  change ∃ r, (m0.reim2 >>= _) = _ ∧ _
  rw [e3]
  change ∃ r, (gf.reim >>= _) = _ ∧ _
  rw [f1]
  cases weight with
  | none =>
    refine fin mat g2 gs hmat.dims_eq f2 ?_ ?_ (fun i => ?_) (fun i => ?_)
    · rw [← hs]
      simp only [bcastAll_cons, bcastAll_nil, bc_nil_right]
      rw [← has, ← bc_some, hpm, sh1 hpm]
    · intro h
      rw [← bc_some, ← has, ← bc_some, ← hs, bcastAll_cons, bcastAll_cons, bcastAll_one, sh5 hpm (show bc (some gs) (some ms) = some gs from hms h)]
    · ext k j
      simp only [fitMatZ, Matrix.of_apply, Option.map_none, Option.getD_none, one_mul]
      exact append_eq _ _ (fun k => mat.at (j :: k :: i)) k (fun k' h => by simp only [h, hmf])
        (fun k' h => by simp only [h, hmf'])
    · funext k
      simp only [fitVecZ, Option.map_none, Option.getD_none, one_mul]
      exact append_eq _ _ (fun k => g2.at (k :: i)) k (fun k' h => by simp only [h, hgf])
        (fun k' h => by simp only [h, hgf'])
  | some w =>
    obtain ⟨ws, hwd, hws⟩ := hw w rfl
    obtain ⟨w2, w1, wd2, wf2⟩ := (Rep.ofCons hwd).twice'
    have hw2 : Rep (.ok w2) ((some ws).map ((nz + nz) :: ·)) _ := ⟨w2, rfl, wd2, wf2⟩
    have hwf : ∀ (k : Fin nz) i, w2.at ((k : ℕ) :: i) = w.at (k :: i) := by
      intro k i
      rw [hw2.at_eq]
      simp only [List.headD_cons, List.tail_cons]
      exact if_pos k.2
    have hwf' : ∀ (k : Fin nz) i, w2.at ((nz + (k : ℕ)) :: i) = w.at (k :: i) := by
      intro k i
      rw [hw2.at_eq]
      simp only [List.headD_cons, List.tail_cons, Nat.add_sub_cancel_left]
      exact if_neg (by omega)
    have hwz : bc (some zs) (some ws) = some zs := hws
    have haw : bc (some as) (some ws) = some as := by
      rw [← has, ← bc_some, sh2 hwz]
    have hmm := (Rep.of mat).congr (by rw [hmat.dims_eq]; rfl) (fun _ => rfl) (s' := ((some as).map ((nz + nz) :: ·)).map (n :: ·))
    have hM := Rep.imap2' hmm (Rep.of w2).newaxis' (by
      rw [wd2]
      change bc (((some as).map ((nz + nz) :: ·)).map (n :: ·)) (((some ws).map ((nz + nz) :: ·)).map (1 :: ·)) = _
      rw [bc_map_cons (bdim_one_right _), bc_map_cons (bdim_self _), haw]) (fun x y : ℝ => x * y)
    have hG := Rep.map2' (Rep.ofCons f2) (Rep.ofCons wd2) (fun x y : ℝ => x * y)
    rw [bc_map_cons (bdim_self _)] at hG
    obtain ⟨bs, hbs⟩ : ∃ bs, bc (some gs) (some ws) = some bs := by
      cases h : bc (some gs) (some ws) with
      | some bs => exact ⟨bs, rfl⟩
      | none =>
        have : bc (some zs) (bc (bc (some gs) (some ws)) (some ms)) = some s := by
          rw [sh4 hwz, ← hs, bcastAll_cons, bcastAll_cons, bcastAll_one]
        rw [h] at this
        simp at this
    rw [hbs] at hG
    obtain ⟨m3, u1, u2, u3⟩ := hM
    obtain ⟨g3, v1, v2, v3⟩ := hG
    simp only [w1]
    change ∃ r, (Nd.imap2 (fun x y : ℝ => x * y) mat w2.newaxis >>= _) = _ ∧ _
    rw [u1]
    change ∃ r, (Nd.map2 (fun x y : ℝ => x * y) g2 w2 >>= _) = _ ∧ _
    rw [v1]
    have hm3 : ∀ i, m3.at i = mat.at i * w2.at i.tail := fun i => by
      rw [Nd.at, u2, u3]
    have hg3 : ∀ i, g3.at i = g2.at i * w2.at i := fun i => by
      rw [Nd.at, v2, v3]
    refine fin m3 g3 bs u2 v2 ?_ ?_ (fun i => ?_) (fun i => ?_)
    · rw [← hs]
      simp only [bcastAll_cons, bcastAll_nil, bc_nil_right]
      rw [← has, ← bc_some, ← hbs, sh3 hwz hpm]
    · intro h
      rw [← bc_some, ← has, ← bc_some, ← hbs, ← hs, bcastAll_cons, bcastAll_cons, bcastAll_one, sh6 hwz hpm (show bc (some gs) (some ms) = some gs from hms h)]
    · ext k j
      simp only [fitMatZ, Matrix.of_apply, Option.map_some, Option.getD_some]
      refine append_eq _ _ (fun k => m3.at (j :: k :: i)) k (fun k' h => ?_) (fun k' h => ?_)
      · simp only [h, hm3, List.tail_cons, hmf, hwf, mul_comm]
      · simp only [h, hm3, List.tail_cons, hmf', hwf', mul_comm]
    · funext k
      simp only [fitVecZ, Option.map_some, Option.getD_some]
      refine append_eq _ _ (fun k => g3.at (k :: i)) k (fun k' h => ?_) (fun k' h => ?_)
      · simp only [h, hg3, hgf, hwf, mul_comm]
      · simp only [h, hg3, hgf', hwf', mul_comm]

/-- `gf_from_z` for stacks of points, data and moments of any broadcastable shapes, and a `weight` whose leading axes are among those
of the points: the poles and residues of every element of the stack are those of its data.  (Poles without leading axes are
shared by all elements.) -/
theorem gf_from_z_stack_partial (ext : LinalgExt ℝ) (z gf : Nd ℂ) (n : ℕ) (hn : n ≠ 0) (moments : Nd ℝ) (width : Option ℝ)
    (weight : Option (Nd ℝ)) (nz l : ℕ) (zs gs ms s : List ℕ) (hz : z.dims = nz :: zs) (hg : gf.dims = nz :: gs)
    (hm : moments.dims = l :: ms) (hln : l ≤ n) (hms : l = 0 → bcast gs ms = some gs)
    (hw : ∀ w, weight = some w → ∃ ws, w.dims = nz :: ws ∧ bcast zs ws = some zs)
    (hs : bcastAll [zs, gs, ms] = some s) :
    ∃ p r : Nd ℝ, gfFromZNd ext z gf n moments width weight = .ok (p, r) ∧ r.dims = n :: s ∧
      (p.dims = [n] ∨ p.dims = n :: ms) ∧
      ∀ i, InRange i s → gfFromZ ext (fun k : Fin nz => z.at (k :: i)) (fun k : Fin nz => gf.at (k :: i)) n
        (fun k : Fin l => moments.at (k :: i)) width (weight.map fun w k => w.at ((k : ℕ) :: i))
        = .ok ⟨fun k => p.at (k :: i), fun k => r.get (k :: i)⟩ := by
  obtain ⟨p, r, h1, h2, h3, h4⟩ := fromZStack ext z gf n hn moments width weight nz l zs gs ms s hz hg hm hln hms hw hs
  refine ⟨p, r, h1, h2, h3, fun i hi => ?_⟩
  rw [h4]
  congr 2
  funext k
  rw [Nd.at, h2, proj_inRange (List.Forall₂.cons k.2 hi)]

/-- **Violation**: `weight` is documented as `(..., N_z)`, but `gf_from_z` with a float `width` raises `ValueError` for points without and
weights with leading axes: the matrix of the fit is multiplied in place. -/
theorem gf_from_z_weight_fails (ext : LinalgExt ℝ) (z gf : Nd ℂ) (n : ℕ) (hn : n ≠ 0) (moments : Nd ℝ) (width : ℝ)
    (weight : Nd ℝ) (nz A l : ℕ) (gs ms ws : List ℕ) (hz : z.dims = [nz]) (hg : gf.dims = nz :: gs)
    (hm : moments.dims = l :: ms) (hw : weight.dims = nz :: A :: ws) :
    gfFromZNd ext z gf n moments (some width) (some weight) = .error .valueError := by
  obtain ⟨p, ps, p1, -, p3, p5, -⟩ := fitPoles n l ms moments hm (some width)
  obtain rfl := p5 (by simp)
  obtain ⟨q2, m0, mat, e1, e2, e3, hmat⟩ := fitMat z nz n [] [] [] p hz p3 rfl
  obtain ⟨g2, f1, f2, f3⟩ := (Rep.ofCons hg).reim'
  obtain ⟨w2, w1, wd2, wf2⟩ := (Rep.ofCons hw).twice'
  have hi : Nd.imap2 (fun x y : ℝ => x * y) mat w2.newaxis = .error .valueError := by
    have hb : bcast mat.dims w2.newaxis.dims = some (n :: (nz + nz) :: A :: ws) := by
      rw [hmat.dims_eq]
      change bcast [n, nz + nz] (1 :: w2.dims) = _
      rw [wd2]
      simp [bcast_cons]
    unfold Nd.imap2
    rw [hb]
    simp only
    rw [if_neg]
    rw [hmat.dims_eq]
    simp
  unfold gfFromZNd
  rw [if_neg hn, p1]
  change (p.newaxis2 >>= _) = _
  rw [e1]
  change (poleGfZNd z.newaxis (q2.newaxis.map fun x : ℝ => (x : ℂ)) (Nd.scalar 1) >>= _) = _
  rw [e2]
  change (m0.reim2 >>= _) = _
  rw [e3]
  change (gf.reim >>= _) = _
  rw [f1]
  simp only [w1]
  change (Nd.imap2 (fun x y : ℝ => x * y) mat w2.newaxis >>= _) = _
  rw [hi]
  rfl

private lemma okBind {α β : Type} (a : α) (f : α → Except Err β) : (Except.ok a >>= f) = f a := rfl

/-- The end of `density_iw`. -/
private lemma densityEnd (iws gfIw : Nd ℂ) (beta : ℝ) (weights p r : Nd ℝ) (N K : ℕ) (gs ws ms s : List ℕ)
    (hi : iws.dims = [K]) (hg : gfIw.dims = K :: gs) (hwK : weights.dims = K :: ws ∨ weights.dims = [] ∧ ws = [])
    (hs : bcast gs ms = some s) (e2 : r.dims = N :: 1 :: s) (e3 : p.dims = [N] ∨ p.dims = N :: 1 :: ms) :
    Rep (densityIwEndNd iws gfIw beta weights p r) (bcast s ws)
      fun i => 2 / beta * (∑ k ∈ Finset.range K, weights.at (k :: i) * ((gfIw.at (k :: i)).re
        - (poleGfZ (iws.at (k :: i)) (fun j : Fin N => ((p.at (j :: k :: i) : ℝ) : ℂ))
          (fun j : Fin N => ((r.at (j :: k :: i) : ℝ) : ℂ))).re))
        + ∑ j ∈ Finset.range N, r.at (j :: 0 :: i) * fermiFct (p.at (j :: 0 :: i)) beta := by
  have hpt : bc (some p.dims.tail) (some (1 :: s)) = some (1 :: s) := by
    rcases e3 with h | h
    · rw [h]
      exact bc_nil_left _
    · rw [h, List.tail_cons, bc_some, bcast_cons]
      have : bcast ms s = some s := by
        rw [← bc_some, ← hs, ← bc_some]
        bc_simp
      rw [this]
      simp
  have hrr : Rep (.ok r) (((some s).map (1 :: ·)).map (N :: ·)) r.at := ⟨r, rfl, e2, fun i => by rw [Nd.at, e2]⟩
  have hpr : Rep (.ok p) ((some p.dims.tail).map (N :: ·)) p.at := by
    rcases e3 with h | h <;> exact ⟨p, rfl, by rw [h]; rfl, fun i => by rw [Nd.at, h]; rfl⟩
  unfold densityIwEndNd
  have hpd : (p.map fun x : ℝ => (x : ℂ)).dims = p.dims := rfl
  have hrd : (r.map fun x : ℝ => (x : ℂ)).dims = r.dims := rfl
  have hmom := gf_z_rep iws (p.map fun x : ℝ => (x : ℂ)) (r.map fun x : ℝ => (x : ℂ)) N (by
    rw [hpd, hrd, e2]
    rcases e3 with h | h <;> rw [h] <;> exact bdim_self _)
  rw [hpd, hrd, e2, List.tail_cons, bcastAll_cons, bcastAll_cons, bcastAll_one, hpt, hi,
    show (some (1 :: s)) = (some s).map (1 :: ·) from rfl,
    show (some [K]) = (some []).map (K :: ·) from rfl, bc_map_cons (bdim_one_right _), bc_nil_left] at hmom
  have hgss : bc (some gs) (some s) = some s := by
    rw [← hs, ← bc_some]
    bc_simp
  refine Rep.bindC (s' := bcast s ws) hmom (by rw [← bc_some]; bc_simp) fun mom hmom => ?_
  have hdl := Rep.map2' (Rep.ofCons hg) hmom (fun g m : ℂ => g.re - m.re)
  rw [bc_map_cons (bdim_self _), hgss] at hdl
  refine Rep.bindC hdl (by rw [← bc_some]; bc_simp) fun dl hdl => ?_
  have hwd := Rep.map2' (Rep.of weights) hdl (fun x y : ℝ => x * y)
  have hwt : weights.dims.tail = ws := by
    rcases hwK with h | h
    · rw [h]
      rfl
    · rw [h.1, h.2]
      rfl
  have hwh : bdim K (weights.dims.headD 1) = some K := by
    rcases hwK with h | h
    · rw [h]
      exact bdim_self K
    · rw [h.1]
      exact bdim_one_right K
  rw [bc_comm, bc_cons K _ weights.dims hwh, hwt] at hwd
  refine Rep.bindC hwd (by rw [← bc_some]; bc_simp) fun wd hwd => ?_
  have hoc := Rep.map2' hrr hpr (fun r p => r * fermiFct p beta)
  rw [bc_map_cons (bdim_self _), bc_comm, show (some s).map (1 :: ·) = some (1 :: s) from rfl, hpt] at hoc
  refine Rep.bind hoc (fun h => by simp at h) fun oc hoc => ?_
  have hsum := hoc.sum'
  rw [show (some (1 :: s)) = (some s).map (1 :: ·) from rfl] at hsum
  have hoc0 := Rep.select' (k := 0) hsum (by norm_num)
  refine Rep.bindA hoc0 (by rw [← bc_some]; bc_simp) fun oc0 hoc0 => ?_
  exact (Rep.map2' hwd.sum' hoc0 _).congr (by rw [← bc_some]; bc_simp) fun i => rfl

/-- `density_iw` with `n_fit≠0`, for one-dimensional frequencies and stacks of Green's functions, weights and moments of any
broadcastable shapes. -/
theorem density_iw_fit_stack_partial (ext : LinalgExt ℝ) (iws gfIw : Nd ℂ) (beta : ℝ) (weights moments : Nd ℝ)
    (nFit : ℕ) (hn : nFit ≠ 0) (K M : ℕ) (gs ws ms s : List ℕ) (hi : iws.dims = [K]) (hg : gfIw.dims = K :: gs)
    (hwK : weights.dims = K :: ws ∨ weights.dims = [] ∧ ws = []) (hm : moments.dims = M :: ms) (hms : M = 0 → ms = [])
    (hs : bcast gs ms = some s) :
    StackedOk (densityIwFitNd ext iws gfIw beta weights moments nFit) (bcast s ws)
      fun i => densityIw ext (fun k : Fin K => iws.at [(k : ℕ)]) (fun k : Fin K => gfIw.at (k :: i)) beta
        (fun k : Fin K => weights.at (k :: i)) (fun k : Fin M => moments.at (k :: i)) nFit := by
  obtain ⟨m2, hm1, hm2, hm3⟩ := (Rep.ofCons hm).newaxis2'
  obtain ⟨g2, hg1, hg2, hg3⟩ := (Rep.ofCons hg).newaxis2'
  simp only at hm2 hg2
  have hm2at : ∀ i (k w : ℕ), m2.at (k :: w :: i) = moments.at (k :: i) := by
    intro i k w
    have := hm3 (k :: w :: i)
    simp only [List.headD_cons, List.tail_cons] at this
    rw [← this, Nd.at, hm2]
  have hg2at : ∀ i (k w : ℕ), g2.at (k :: w :: i) = gfIw.at (k :: i) := by
    intro i k w
    have := hg3 (k :: w :: i)
    simp only [List.headD_cons, List.tail_cons] at this
    rw [← this, Nd.at, hg2]
  have hziw : ∀ (i : List ℕ) (k : ℕ), iws.at (k :: i) = iws.at [k] := by
    intro i k
    rw [Nd.at, Nd.at, hi]
    rfl
  have hwat : ∀ (i : List ℕ) (k : ℕ), (iws.map fun z => z.im ^ (M + nFit) : Nd ℝ).at (k :: i)
      = (iws.at [k]).im ^ (M + nFit) := by
    intro i k
    rw [← hziw i]
    rfl
  obtain ⟨p, r, e1, e2, e3, e4⟩ := fromZStack ext iws g2 (nFit + M) (by omega) m2 none
    (some (iws.map fun z => z.im ^ (M + nFit))) K M [] (1 :: gs) (1 :: ms) (1 :: s) hi hg2 hm2 (by omega)
    (fun h => by rw [hms h]; simp [bcast_cons]) (fun w h => ⟨[], by cases h; exact hi, rfl⟩)
    (by rw [bcastAll_cons, bcastAll_cons, bcastAll_one, bc_nil_left, bc_some, bcast_cons, hs]; simp)
  obtain ⟨N, hN⟩ : ∃ N, N = nFit + M := ⟨_, rfl⟩
  have hrat : ∀ i (j k : ℕ), r.at (j :: k :: i) = r.at (j :: 0 :: i) := by
    intro i j k
    rw [Nd.at, Nd.at, e2]
    rfl
  have hpat : ∀ i (j k : ℕ), p.at (j :: k :: i) = p.at (j :: 0 :: i) := by
    intro i j k
    rcases e3 with h | h
    · rw [Nd.at, Nd.at, h]
      rfl
    · rw [Nd.at, Nd.at, h]
      rfl
  have hscal : ∀ i, gfFromZ ext (fun k : Fin K => iws.at [(k : ℕ)]) (fun k : Fin K => gfIw.at (k :: i)) (nFit + M)
      (fun k : Fin M => moments.at (k :: i)) none (some fun k => (iws.at [(k : ℕ)]).im ^ (M + nFit))
      = .ok ⟨fun k => p.at (k :: 0 :: i), fun k => r.at (k :: 0 :: i)⟩ := by
    intro i
    rw [← e4 (0 :: i)]
    congr 1
    · funext k
      exact (hziw _ _).symm
    · funext k
      rw [hg2at]
    · funext k
      rw [hm2at]
    · rw [Option.map_some]
      congr 1
      funext k
      rw [hwat]
  refine Rep.stackedOk' (F := fun i => 2 / beta * (∑ k ∈ Finset.range K, weights.at (k :: i) * ((gfIw.at (k :: i)).re
      - (poleGfZ (iws.at (k :: i)) (fun j : Fin (nFit + M) => ((p.at (j :: k :: i) : ℝ) : ℂ))
        (fun j : Fin (nFit + M) => ((r.at (j :: k :: i) : ℝ) : ℂ))).re))
      + ∑ j ∈ Finset.range (nFit + M), r.at (j :: 0 :: i) * fermiFct (p.at (j :: 0 :: i)) beta) ?_ ?_
  · have hhd : m2.dims.headD 0 = M := by rw [hm2]; rfl
    have hfit : densityIwFitNd ext iws gfIw beta weights moments nFit = densityIwEndNd iws gfIw beta weights p r := by
      unfold densityIwFitNd
      simp only [hm1, okBind, hg1, hhd, e1]
    rw [hfit]
    exact densityEnd iws gfIw beta weights p r (nFit + M) K gs ws ms s hi hg hwK hs e2 e3
  · intro i
    unfold densityIw
    rw [if_pos hn, hscal]
    simp only
    congr 2
    · congr 1
      rw [Finset.sum_range]
      refine Finset.sum_congr rfl fun k _ => ?_
      simp only [hrat, hpat, hziw]
    · rw [poleOcc, Finset.sum_range]

/-- **Violation**: `iws` is documented as `(..., N_iw)`, but `density_iw` with `n_fit≠0` raises `ValueError` for `A` sets of `K` frequencies,
unless `A` is `1` or `K`: the data get an additional axis, the weights of the fit do not. -/
theorem density_iw_fit_stacked_frequencies_fail (ext : LinalgExt ℝ) (iws gfIw : Nd ℂ) (beta : ℝ) (weights moments : Nd ℝ)
    (nFit : ℕ) (hn : nFit ≠ 0) (K A M : ℕ) (hi : iws.dims = [K, A]) (hg : gfIw.dims = [K, A]) (hm : moments.dims = [M])
    (hA : A ≠ 1) (hK : K ≠ 1) (hAK : A ≠ K) :
    densityIwFitNd ext iws gfIw beta weights moments nFit = .error .valueError := by
  obtain ⟨m2, hm1, hm2, -⟩ := (Rep.ofCons hm).newaxis2'
  obtain ⟨g2, hg1, hg2, -⟩ := (Rep.ofCons hg).newaxis2'
  simp only at hm2 hg2
  have hhd : m2.dims.headD 0 = M := by rw [hm2]; rfl
  obtain ⟨n, hN⟩ : ∃ n, n = nFit + M := ⟨_, rfl⟩
  have hn0 : n ≠ 0 := by omega
  obtain ⟨p, ps, p1, p2, p3, -, -⟩ := fitPoles n M [1] m2 hm2 none
  have has : bcast [A] ps = some [A] := by
    rcases p2 with rfl | rfl
    · rfl
    · rw [bcast_cons, bdim_one_right]
      rfl
  obtain ⟨q2, m0, mat, e1, e2, e3, hmat⟩ := fitMat iws K n [A] ps [A] p hi p3 has
  obtain ⟨g3, f1, f2, -⟩ := (Rep.ofCons hg2).reim'
  obtain ⟨w, hw⟩ : ∃ w : Nd ℝ, w = iws.map fun z => z.im ^ (M + nFit) := ⟨_, rfl⟩
  have hwd : w.dims = [K, A] := by rw [hw]; exact hi
  obtain ⟨w2, w1, wd2, -⟩ := (Rep.ofCons hwd).twice'
  have hmm := (Rep.of mat).congr (by rw [hmat.dims_eq]; rfl) (fun _ => rfl) (s' := ((some [A]).map ((K + K) :: ·)).map (n :: ·))
  obtain ⟨m3, u1, u2, -⟩ := Rep.imap2' hmm (Rep.of w2).newaxis' (by
    rw [wd2]
    change bc (((some [A]).map ((K + K) :: ·)).map (n :: ·)) (((some [A]).map ((K + K) :: ·)).map (1 :: ·)) = _
    rw [bc_map_cons (bdim_one_right _), bc_map_cons (bdim_self _), bc_self]) (fun x y : ℝ => x * y)
  have hG := Rep.map2' (Rep.ofCons f2) (Rep.ofCons wd2) (fun x y : ℝ => x * y)
  rw [bc_map_cons (bdim_self _), show bc (some [1, A]) (some [A]) = some [A, A] by
    rw [bc_some, bcast_cons, bdim_one_left]; rfl] at hG
  obtain ⟨g4, v1, v2, -⟩ := hG
  have hb : bcast [A] [A, A] = some [A, A] := by
    rw [bcast_cons, bdim_self]
    rfl
  have hs1 : bcast [A, A] [1] = some [A, A] := by
    rw [bcast_cons, bdim_one_right]
    rfl
  have hps : bc (some ps) (some [A, A]) = some [A, A] := by
    rcases p2 with rfl | rfl
    · rfl
    · rw [bc_comm]
      exact hs1
  obtain ⟨r, r1, r2, -⟩ := fitCore ext m3 g4 p m2 n (K + K) M [A] [A, A] ps [1] [A, A] hn0 u2 v2 p3 hm2 (by omega) (fun _ => hb)
    (by
      rw [bcastAll_cons, bcastAll_cons, bcastAll_cons, bcastAll_one, bc_left_comm (some [A, A]),
        show bc (some [A, A]) (some [1]) = some [A, A] from hs1, hps]
      exact hb)
  have hfit : gfFromZNd ext iws g2 n m2 none (some w) = .ok (p, r) := by
    unfold gfFromZNd
    rw [if_neg hn0]
    simp only [p1, okBind, e1, e2, e3, f1, w1, u1, v1]
    exact r1
  unfold densityIwFitNd
  simp only [hm1, okBind, hg1, hhd]
  rw [← hw, ← hN, hfit]
  simp only [okBind]
  unfold densityIwEndNd
  have hz := gf_z_rep iws (p.map fun x : ℝ => (x : ℂ)) (r.map fun x : ℝ => (x : ℂ)) n (by
    change bdim (p.dims.headD 1) (r.dims.headD 1) = _
    rw [p3, r2]
    exact bdim_self n)
  have hsh : bcastAll [iws.dims, (p.map fun x : ℝ => (x : ℂ)).dims.tail, (r.map fun x : ℝ => (x : ℂ)).dims.tail] = none := by
    change bcastAll [iws.dims, p.dims.tail, r.dims.tail] = none
    rw [hi, p3, r2, bcastAll_cons, bcastAll_cons, bcastAll_one, List.tail_cons, List.tail_cons, hps, bc_some, bcast_cons]
    have : bdim K A = none := by
      unfold bdim
      rw [if_neg (Ne.symm hAK), if_neg hK, if_neg hA]
    rw [this]
    rfl
  rw [hsh] at hz
  rw [show poleGfZNd iws (p.map fun x : ℝ => (x : ℂ)) (r.map fun x : ℝ => (x : ℂ)) = .error .valueError from hz]
  rfl

/-- Two sets of three frequencies. -/
example (ext : LinalgExt ℝ) (x : ℂ) (y : ℝ) :
    densityIwFitNd ext ⟨[3, 2], fun _ => x⟩ ⟨[3, 2], fun _ => x⟩ y (Nd.scalar 1) ⟨[1], fun _ => 1⟩ 1 = .error .valueError :=
  density_iw_fit_stacked_frequencies_fail ext _ _ y _ _ 1 (by norm_num) 3 2 1 rfl rfl rfl (by norm_num) (by norm_num) (by norm_num)

/-- The same with one-dimensional frequencies is fine: the result has shape `(2,)`. -/
example (ext : LinalgExt ℝ) (x : ℂ) (y : ℝ) :
    ∃ r, densityIwFitNd ext ⟨[3], fun _ => x⟩ ⟨[3, 2], fun _ => x⟩ y (Nd.scalar 1) ⟨[1], fun _ => 1⟩ 1 = .ok r ∧ r.dims = [2] := by
  have h := density_iw_fit_stack_partial ext ⟨[3], fun _ => x⟩ ⟨[3, 2], fun _ => x⟩ y (Nd.scalar 1) ⟨[1], fun _ => 1⟩ 1
    (by norm_num) 3 1 [2] [] [] [2] rfl rfl (.inr ⟨rfl, rfl⟩) rfl (by norm_num) rfl
  obtain ⟨r, h1, h2, -⟩ := h
  exact ⟨r, h1, h2⟩

end Gftool.Props
