import Verif.Model.Stack
import Verif.Lemmas.Nd

/-!
# Leading axes are stacks (property C69)
-/

namespace Gftool.Props

open Model Spec Lemmas

/-- Normalise shapes. -/
local macro "bc_simp" : tactic =>
  `(tactic| simp only [bcastAll_cons, bcastAll_nil, bc_nil_right, bc_nil_left, bc_assoc, bc_comm, bc_left_comm, bc_self, bc_absorb])

/-- Auxiliary form of `gf_z_stack`. -/
lemma gf_z_rep (z poles weights : Nd ℂ) (N : ℕ) (hN : bdim (poles.dims.headD 1) (weights.dims.headD 1) = some N) :
    Rep (poleGfZNd z poles weights) (bcastAll [z.dims, poles.dims.tail, weights.dims.tail])
      fun i => poleGfZ (z.at i) (fun k : Fin N => poles.at (k :: i)) (fun k : Fin N => weights.at (k :: i)) := by
  have hd := Rep.map2' ((Rep.of z).newaxis') (Rep.atleast1d poles) (fun x y : ℂ => x - y)
  rw [bc_map_cons (bdim_one_left _)] at hd
  unfold poleGfZNd
  have h3 : bcastAll [z.dims, poles.dims.tail, weights.dims.tail]
      = bc (bc (some z.dims) (some poles.dims.tail)) (some weights.dims.tail) := by
    rw [bcastAll_cons, bcastAll_cons, bcastAll_one, bc_assoc]
  rw [h3]
  refine Rep.bind hd (by simp +contextual) fun d hd => ?_
  have hq := Rep.map2' (Rep.of weights) hd (fun x y : ℂ => x / y)
  rw [bc_comm, bc_cons _ _ _ hN] at hq
  refine Rep.bind hq (by simp) fun q hq => ?_
  exact hq.sum'.congr rfl fun i => by
    rw [Finset.sum_range]
    rfl

/-- `gf_z` of the pole Green's function, for arguments of any (broadcastable) shapes: the last axes of `poles` and `weights`
are summed, everything else is a stack. -/
theorem gf_z_stack (z poles weights : Nd ℂ) (N : ℕ) (hN : bdim (poles.dims.headD 1) (weights.dims.headD 1) = some N) :
    Stacked (poleGfZNd z poles weights) (bcastAll [z.dims, poles.dims.tail, weights.dims.tail])
      fun i => poleGfZ (z.at i) (fun k : Fin N => poles.at (k :: i)) (fun k : Fin N => weights.at (k :: i)) :=
  (gf_z_rep z poles weights N hN).stacked

/-- If the numbers of poles and weights do not fit, `gf_z` raises `ValueError`. -/
theorem gf_z_stack_mismatch (z poles weights : Nd ℂ)
    (hN : bdim (poles.dims.headD 1) (weights.dims.headD 1) = none) :
    poleGfZNd z poles weights = .error .valueError := by
  have hd := Rep.map2' ((Rep.of z).newaxis') (Rep.atleast1d poles) (fun x y : ℂ => x - y)
  rw [bc_map_cons (bdim_one_left _)] at hd
  have : Rep (poleGfZNd z poles weights) none fun _ => 0 := by
    unfold poleGfZNd
    refine Rep.bind hd (by simp) fun d hd => ?_
    have hq := Rep.map2' (Rep.of weights) hd (fun x y : ℂ => x / y)
    rw [bc_comm, bc_cons_fail _ _ _ hN] at hq
    exact Rep.bind hq (by simp) fun q hq => by cases hq
  exact this

/-- `gf_d1_z`. -/
theorem gf_d1_z_stack (z poles weights : Nd ℂ) (N : ℕ)
    (hN : bdim (poles.dims.headD 1) (weights.dims.headD 1) = some N) :
    Stacked (poleGfD1ZNd z poles weights) (bcastAll [z.dims, poles.dims.tail, weights.dims.tail])
      fun i => poleGfD1Z (z.at i) (fun k : Fin N => poles.at (k :: i)) (fun k : Fin N => weights.at (k :: i)) := by
  refine Rep.stacked ?_
  have hd := Rep.map2' ((Rep.of z).newaxis') (Rep.atleast1d poles) (fun x y : ℂ => x - y)
  rw [bc_map_cons (bdim_one_left _)] at hd
  unfold poleGfD1ZNd
  have h3 : bcastAll [z.dims, poles.dims.tail, weights.dims.tail]
      = bc (bc (some z.dims) (some poles.dims.tail)) (some weights.dims.tail) := by
    rw [bcastAll_cons, bcastAll_cons, bcastAll_one, bc_assoc]
  rw [h3]
  refine Rep.bind hd (by simp +contextual) fun d hd => ?_
  have hq := Rep.map2' (Rep.of weights) (hd.map' (· ^ (-2 : ℤ))) (fun x y : ℂ => x * y)
  rw [bc_comm, bc_cons _ _ _ hN] at hq
  refine Rep.bind hq (by simp) fun q hq => ?_
  exact (hq.sum'.map' (- ·)).congr rfl fun i => by
    rw [Finset.sum_range]
    rfl

/-- `gf_ret_t`. -/
theorem gf_ret_t_stack (tt : Nd ℝ) (poles weights : Nd ℂ) (N : ℕ)
    (hN : bdim (poles.dims.headD 1) (weights.dims.headD 1) = some N) :
    Stacked (poleGfRetTNd tt poles weights) (bcastAll [tt.dims, poles.dims.tail, weights.dims.tail])
      fun i => poleGfRetT (tt.at i) (fun k : Fin N => poles.at (k :: i)) (fun k : Fin N => weights.at (k :: i)) := by
  refine Rep.stacked ?_
  have ht := (Rep.of tt).newaxis'
  have he := Rep.map2' (Rep.atleast1d poles) ht
    (fun p (t : ℝ) => -Complex.I * Complex.exp (-Complex.I * p * t))
  rw [bc_map_cons (bdim_one_right _)] at he
  unfold poleGfRetTNd
  have h3 : bcastAll [tt.dims, poles.dims.tail, weights.dims.tail]
      = bc (bc (some poles.dims.tail) (some tt.dims)) (some weights.dims.tail) := by
    rw [bcastAll_cons, bcastAll_cons, bcastAll_one, ← bc_assoc, bc_comm (some tt.dims)]
  rw [h3]
  refine Rep.bind he (by simp +contextual) fun e he => ?_
  have hw := Rep.where' (ht.map' (0 ≤ ·)) he (Rep.of (Nd.scalar (0 : ℂ)))
  rw [show (Nd.scalar (0 : ℂ)).dims = [] from rfl, bc_nil_right, bc_map_cons (bdim_one_left _),
    bc_comm (some tt.dims), bc_assoc, bc_self] at hw
  refine Rep.bind hw (by simp +contextual) fun w hw => ?_
  have hq := Rep.map2' (Rep.of weights) hw (fun x y : ℂ => x * y)
  rw [bc_comm, bc_cons _ _ _ hN] at hq
  refine Rep.bind hq (by simp) fun q hq => ?_
  exact hq.sum'.congr rfl fun i => by
    rw [Finset.sum_range]
    rfl

/-- Auxiliary form of `gf_tau_stack`. -/
lemma gf_tau_rep (tau poles weights beta : Nd ℝ) (N : ℕ)
    (hN : bdim (poles.dims.headD 1) (weights.dims.headD 1) = some N)
    (ht : ∀ s, bcast tau.dims beta.dims = some s → ∀ i, InRange i s → 0 ≤ tau.at i ∧ tau.at i ≤ beta.at i) :
    Rep (poleGfTauNd tau poles weights beta)
      (bcastAll [tau.dims, beta.dims, poles.dims.tail, weights.dims.tail])
      fun i => ∑ k : Fin N, weights.at (k :: i) * singlePoleGfTau (tau.at i) (poles.at (k :: i)) (beta.at i) := by
  have h3 : bcastAll [tau.dims, beta.dims, poles.dims.tail, weights.dims.tail]
      = bc (bc (some tau.dims) (some beta.dims)) (bc (some poles.dims.tail) (some weights.dims.tail)) := by
    rw [bcastAll_cons, bcastAll_cons, bcastAll_cons, bcastAll_one, bc_assoc]
  rw [h3]
  have hc := Rep.map2' (Rep.of tau) (Rep.of beta) (fun t b : ℝ => 0 ≤ t ∧ t ≤ b)
  unfold poleGfTauNd
  refine Rep.bind hc (by simp +contextual) fun c hc => ?_
  have hall : c.all := by
    cases hs : bcast tau.dims beta.dims with
    | none => rw [bc_some, hs] at hc; cases hc
    | some s =>
      rw [bc_some, hs] at hc
      obtain ⟨a, ha, h2, h3⟩ := hc
      cases ha
      intro i hi
      rw [h2] at hi
      rw [← proj_inRange hi, h3]
      exact ht s hs i hi
  rw [if_neg (not_not.2 hall)]
  have hp := Rep.atleast1d poles
  have hnt := (Rep.of tau).newaxis'.map' (- ·)
  have hb := (Rep.of beta).newaxis'
  have hnb := Rep.map2' hnt hb (fun x y : ℝ => x + y)
  rw [bc_map_cons (bdim_self 1)] at hnb
  refine Rep.bind hnb (by simp +contextual) fun nb hnb => ?_
  have hw := Rep.where' (hp.map' (0 ≤ ·)) hnt hnb
  rw [bc_map_cons (bdim_self 1), bc_map_cons (bdim_one_right _)] at hw
  refine Rep.bindC hw (by bc_simp) fun w hw => ?_
  have hex := Rep.map2' hw hp (fun x y : ℝ => x * y)
  rw [bc_map_cons (bdim_self _)] at hex
  refine Rep.bindC hex (by bc_simp) fun ex hex => ?_
  have hf := Rep.map2' (hp.map' fun p => -npSign p * p) hb fermiFct
  rw [bc_map_cons (bdim_one_right _)] at hf
  refine Rep.bindC hf (by bc_simp) fun f hf => ?_
  have hg := Rep.map2' hex hf (fun e f => -Real.exp e * f)
  rw [bc_map_cons (bdim_self _)] at hg
  refine Rep.bindC hg (by bc_simp) fun g hg => ?_
  have hq := Rep.map2' (Rep.of weights) hg (fun x y : ℝ => x * y)
  rw [bc_comm, bc_cons _ _ _ hN] at hq
  refine Rep.bindC hq (by bc_simp) fun q hq => ?_
  exact hq.sum'.congr (by bc_simp) fun i => by
    rw [Finset.sum_range]
    rfl

/-- `gf_tau` for times in `[0, beta]`. -/
theorem gf_tau_stack (tau poles weights beta : Nd ℝ) (N : ℕ)
    (hN : bdim (poles.dims.headD 1) (weights.dims.headD 1) = some N)
    (ht : ∀ s, bcast tau.dims beta.dims = some s → ∀ i, InRange i s → 0 ≤ tau.at i ∧ tau.at i ≤ beta.at i) :
    StackedOk (poleGfTauNd tau poles weights beta)
      (bcastAll [tau.dims, beta.dims, poles.dims.tail, weights.dims.tail])
      fun i => poleGfTau (tau.at i) (fun k : Fin N => poles.at (k :: i)) (fun k : Fin N => weights.at (k :: i))
        (beta.at i) := by
  have h3 : bcastAll [tau.dims, beta.dims, poles.dims.tail, weights.dims.tail]
      = bc (bc (some tau.dims) (some beta.dims)) (bc (some poles.dims.tail) (some weights.dims.tail)) := by
    rw [bcastAll_cons, bcastAll_cons, bcastAll_cons, bcastAll_one, bc_assoc]
  rw [h3]
  refine Rep.stackedOk (F := fun i => ∑ k : Fin N, weights.at (k :: i)
    * singlePoleGfTau (tau.at i) (poles.at (k :: i)) (beta.at i)) ?_ ?_
  · rw [← h3]
    exact gf_tau_rep tau poles weights beta N hN ht
  · intro t hst i hi
    cases hs : bcast tau.dims beta.dims with
    | none => rw [bc_some, hs] at hst; simp at hst
    | some s =>
      rw [bc_some, hs] at hst
      cases hr : bc (some poles.dims.tail) (some weights.dims.tail) with
      | none => rw [hr] at hst; simp at hst
      | some r =>
        rw [hr, bc_some] at hst
        have := ht s hs _ (proj_mem_left hst hi)
        unfold Nd.at at this
        rw [proj_proj_left hs, proj_proj_right hs] at this
        exact if_pos this

/-- `gf_tau` raises `AssertionError` if any of the times is outside of its interval `[0, beta]`. -/
theorem gf_tau_stack_assert (tau poles weights beta : Nd ℝ) (s : List ℕ) (hs : bcast tau.dims beta.dims = some s)
    (i : List ℕ) (hi : InRange i s) (h : ¬ (0 ≤ tau.at i ∧ tau.at i ≤ beta.at i)) :
    poleGfTauNd tau poles weights beta = .error .assertionError := by
  unfold poleGfTauNd
  have : Nd.map2 (fun t b : ℝ => 0 ≤ t ∧ t ≤ b) tau beta
      = .ok ⟨s, fun i => 0 ≤ tau.at i ∧ tau.at i ≤ beta.at i⟩ := by
    unfold Nd.map2
    rw [hs]
  rw [this]
  exact if_pos fun hall => h (hall i hi)

/-- `moments`: every axis of `order` but the last one is broadcast against the leading axes of `poles` and `weights`. -/
theorem moments_stack (poles weights : Nd ℝ) (order : Nd ℤ) (N : ℕ)
    (hN : bdim (poles.dims.headD 1) (weights.dims.headD 1) = some N) :
    Stacked (poleMomentsNd poles weights order)
      ((bcastAll [order.dims.tail, poles.dims.tail, weights.dims.tail]).map (order.dims.headD 1 :: ·))
      fun i => poleMoments (fun k : Fin N => poles.at (k :: i.tail)) (fun k : Fin N => weights.at (k :: i.tail))
        (order.at i) := by
  refine Rep.stacked ?_
  have hO := Rep.of order
  unfold poleMomentsNd
  cases hs : bcast poles.dims weights.dims with
  | none =>
    have := (bcast_tail hN).1 hs
    rw [bcastAll_cons, bcastAll_cons, bcastAll_one, bc_some poles.dims.tail, this]
    rfl
  | some s =>
    obtain ⟨h1, h2⟩ := (bcast_tail hN).2 s hs
    have hp := Rep.broadcast (a := poles) (s := s) (proj_proj_left hs)
    have hw := Rep.broadcast (a := weights) (s := s) (proj_proj_right hs)
    have h3 : (bcastAll [order.dims.tail, poles.dims.tail, weights.dims.tail]).map (order.dims.headD 1 :: ·)
        = bc ((some s.tail).map (1 :: ·)) (some order.dims) := by
      rw [bc_cons 1 _ _ (bdim_one_left _), bcastAll_cons, bcastAll_cons, bcastAll_one, bc_some poles.dims.tail, h1,
        bc_comm]
    rw [h3]
    simp only
    refine Rep.bindC hp.newaxis2' (by bc_simp) fun p2 hp2 => ?_
    have hpw := Rep.map2' hp2 hO.newaxis' (fun p (o : ℤ) => p ^ (o - 1))
    rw [bc_map_cons (bdim_one_right _)] at hpw
    refine Rep.bindC hpw (by bc_simp) fun pw hpw => ?_
    refine Rep.bindC hw.newaxis2' (by bc_simp) fun w2 hw2 => ?_
    have hq := Rep.map2' hw2 hpw (fun x y : ℝ => x * y)
    rw [bc_map_cons (bdim_self _)] at hq
    refine Rep.bindC hq (by bc_simp) fun q hq => ?_
    refine hq.sum'.congr (by bc_simp) fun i => ?_
    rw [h2, Finset.sum_range]
    rfl

private lemma hybridRep (z : Nd ℂ) (eBath : Nd ℝ) (hoppingSqr : Nd ℂ) (N : ℕ) (es hs : List ℕ)
    (he : eBath.dims = N :: es) (hh : hoppingSqr.dims = N :: hs) :
    Rep (hybridZNd z eBath hoppingSqr) (bcastAll [z.dims, es, hs])
      fun i => hybridZ (z.at i) (fun k : Fin N => eBath.at (k :: i)) (fun k : Fin N => hoppingSqr.at (k :: i)) := by
  unfold hybridZNd
  have hd := Rep.map2' (Rep.of z).newaxis' (Rep.ofCons he) (fun (z : ℂ) (e : ℝ) => z - e)
  rw [bc_map_cons (bdim_one_left _)] at hd
  refine Rep.bindC hd (by bc_simp) fun d hd => ?_
  have hq := Rep.map2' (Rep.ofCons hh) hd (fun x y : ℂ => x / y)
  rw [bc_map_cons (bdim_self _)] at hq
  refine Rep.bindC hq (by bc_simp) fun q hq => ?_
  exact hq.sum'.congr (by bc_simp) fun i => by
    rw [Finset.sum_range]
    rfl

/-- `hybrid_z` of the SIAM. -/
theorem hybrid_z_stack (z : Nd ℂ) (eBath : Nd ℝ) (hoppingSqr : Nd ℂ) (N : ℕ) (es hs : List ℕ)
    (he : eBath.dims = N :: es) (hh : hoppingSqr.dims = N :: hs) :
    Stacked (hybridZNd z eBath hoppingSqr) (bcastAll [z.dims, es, hs])
      fun i => hybridZ (z.at i) (fun k : Fin N => eBath.at (k :: i)) (fun k : Fin N => hoppingSqr.at (k :: i)) :=
  (hybridRep z eBath hoppingSqr N es hs he hh).stacked

/-- `gf0_loc_z` of the SIAM. -/
theorem siam_gf0_loc_z_stack (z : Nd ℂ) (eOnsite eBath : Nd ℝ) (hoppingSqr : Nd ℂ) (N : ℕ) (es hs : List ℕ)
    (he : eBath.dims = N :: es) (hh : hoppingSqr.dims = N :: hs) :
    Stacked (siamGf0LocZNd z eOnsite eBath hoppingSqr) (bcastAll [z.dims, eOnsite.dims, es, hs])
      fun i => siamGf0LocZ (z.at i) (eOnsite.at i) (fun k : Fin N => eBath.at (k :: i))
        (fun k : Fin N => hoppingSqr.at (k :: i)) := by
  refine Rep.stacked ?_
  unfold siamGf0LocZNd
  refine Rep.bindA (Rep.map2' (Rep.of z) (Rep.of eOnsite) _) (by bc_simp) fun d hd => ?_
  refine Rep.bindA (hybridRep z eBath hoppingSqr N es hs he hh) (by bc_simp) fun h hh => ?_
  refine Rep.bindA (Rep.map2' hd hh _) (by bc_simp) fun q hq => ?_
  exact (hq.map' (1 / ·)).congr (by bc_simp) fun i => rfl

/-- `gf_cmpt_z` of the CPA: the components are the last axis of the result. -/
theorem gf_cmpt_z_stack (z selfCpa eOnsite : Nd ℂ) (hilbert : ℂ → ℂ) (N : ℕ) (es : List ℕ)
    (he : eOnsite.dims = N :: es) :
    Stacked (gfCmptZNd z selfCpa eOnsite hilbert) ((bcastAll [z.dims, selfCpa.dims, es]).map (N :: ·))
      fun i => gfCmptZ (z.at i.tail) (selfCpa.at i.tail) (fun k : ℕ => eOnsite.at (k :: i.tail)) hilbert (i.headD 0) := by
  have h : Rep (gfCmptZNd z selfCpa eOnsite hilbert) ((bcastAll [z.dims, selfCpa.dims, es]).map (N :: ·)) fun i =>
      hilbert (z.at i.tail - selfCpa.at i.tail)
        / (1 - (eOnsite.at i - selfCpa.at i.tail) * hilbert (z.at i.tail - selfCpa.at i.tail)) := by
    unfold gfCmptZNd
    have hd := Rep.map2' (Rep.of z) (Rep.of selfCpa) (fun x y : ℂ => x - y)
    refine Rep.bind hd (fun h => by
      rw [show bcastAll [z.dims, selfCpa.dims, es] = bc (bc (some z.dims) (some selfCpa.dims)) (some es) by bc_simp, h]
      rfl) fun d hd => ?_
    have hg := (hd.map' hilbert).newaxis'
    have hed := Rep.map2' (Rep.ofCons he) (Rep.of selfCpa).newaxis' (fun x y : ℂ => x - y)
    rw [bc_map_cons (bdim_one_right _)] at hed
    refine Rep.bind hed (fun h => by
      rw [Option.map_eq_none_iff] at h
      rw [show bcastAll [z.dims, selfCpa.dims, es] = bc (bc (some es) (some selfCpa.dims)) (some z.dims) by bc_simp, h]
      rfl) fun ed hed => ?_
    have hp := Rep.map2' hed hg (fun x y : ℂ => x * y)
    rw [bc_map_cons (bdim_one_right _)] at hp
    refine Rep.bind hp (fun h => by
      rw [← h]
      congr 1
      bc_simp) fun p hp => ?_
    have hq := Rep.map2' hg (hp.map' (1 - ·)) (fun x y : ℂ => x / y)
    rw [bc_map_cons (bdim_one_left _)] at hq
    exact hq.congr (by bc_simp) fun i => rfl
  cases hs : bcastAll [z.dims, selfCpa.dims, es] with
  | none =>
    rw [hs] at h
    exact h
  | some s =>
    rw [hs] at h
    obtain ⟨a, h1, h2, h3⟩ := h
    refine ⟨a, h1, h2, fun i hi => ?_⟩
    rw [← proj_inRange hi, h3]
    cases hi with
    | cons _ _ =>
      rw [proj_inRange (List.Forall₂.cons ‹_› ‹_›)]
      rfl

private lemma selfRootRep (selfCpa z eOnsite : Nd ℂ) (conc : Nd ℝ) (hilbert : ℂ → ℂ) (N : ℕ) (es cs : List ℕ)
    (he : eOnsite.dims = N :: es) (hc : conc.dims = N :: cs) :
    Rep (selfRootEqNd selfCpa z eOnsite conc hilbert) (bcastAll [z.dims, selfCpa.dims, es, cs])
      fun i => selfRootEq (selfCpa.at i) (z.at i) (fun k : Fin N => eOnsite.at (k :: i))
        (fun k : Fin N => conc.at (k :: i)) hilbert := by
  unfold selfRootEqNd
  refine Rep.bindA (Rep.map2' (Rep.of z) (Rep.of selfCpa) _) (by bc_simp) fun d hd => ?_
  have hg := hd.map' hilbert
  have hed := Rep.map2' (Rep.ofCons he) (Rep.of selfCpa).newaxis' (fun x y : ℂ => x - y)
  rw [bc_map_cons (bdim_one_right _)] at hed
  refine Rep.bindC hed (by bc_simp) fun ed hed => ?_
  have hce := Rep.map2' (Rep.ofCons hc) hed (fun (c : ℝ) e => (c : ℂ) * e)
  rw [bc_map_cons (bdim_self _)] at hce
  refine Rep.bindC hce (by bc_simp) fun ce hce => ?_
  have hp := Rep.map2' hed hg.newaxis' (fun x y : ℂ => x * y)
  rw [bc_map_cons (bdim_one_right _)] at hp
  refine Rep.bindC hp (by bc_simp) fun p hp => ?_
  have hq := Rep.map2' hce (hp.map' (1 - ·)) (fun x y : ℂ => x / y)
  rw [bc_map_cons (bdim_self _)] at hq
  refine Rep.bindC hq (by bc_simp) fun q hq => ?_
  have hT := hq.sum'
  refine Rep.bindA (Rep.map2' hT hg _) (by bc_simp) fun tg htg => ?_
  exact (Rep.map2' hT (htg.map' (1 + ·)) _).congr (by bc_simp) fun i => by
    rw [Finset.sum_range]
    rfl

/-- `self_root_eq` of the CPA. -/
theorem self_root_eq_stack (selfCpa z eOnsite : Nd ℂ) (conc : Nd ℝ) (hilbert : ℂ → ℂ) (N : ℕ) (es cs : List ℕ)
    (he : eOnsite.dims = N :: es) (hc : conc.dims = N :: cs) :
    Stacked (selfRootEqNd selfCpa z eOnsite conc hilbert) (bcastAll [z.dims, selfCpa.dims, es, cs])
      fun i => selfRootEq (selfCpa.at i) (z.at i) (fun k : Fin N => eOnsite.at (k :: i))
        (fun k : Fin N => conc.at (k :: i)) hilbert :=
  (selfRootRep selfCpa z eOnsite conc hilbert N es cs he hc).stacked

/-- `self_fxdpnt_eq` of the CPA. -/
theorem self_fxdpnt_eq_stack (selfCpa z eOnsite : Nd ℂ) (conc : Nd ℝ) (hilbert : ℂ → ℂ) (N : ℕ) (es cs : List ℕ)
    (he : eOnsite.dims = N :: es) (hc : conc.dims = N :: cs) :
    Stacked (selfFxdpntEqNd selfCpa z eOnsite conc hilbert) (bcastAll [z.dims, selfCpa.dims, es, cs])
      fun i => selfFxdpntEq (selfCpa.at i) (z.at i) (fun k : Fin N => eOnsite.at (k :: i))
        (fun k : Fin N => conc.at (k :: i)) hilbert := by
  refine Rep.stacked ?_
  unfold selfFxdpntEqNd
  refine Rep.bindA (selfRootRep selfCpa z eOnsite conc hilbert N es cs he hc) (by bc_simp) fun r hr => ?_
  exact (Rep.map2' (Rep.of selfCpa) hr _).congr (by bc_simp) fun i => rfl

private lemma compRep {eps mean sq gfp gfm : Nd ℂ} {e z' : Option (List ℕ)} {Fe Fm Fs Fp Fq : List ℕ → ℂ}
    (he : Rep (.ok eps) e Fe) (hm : Rep (.ok mean) e Fm) {h : Option (List ℕ)} (hs : Rep (.ok sq) (bc e h) Fs)
    (hp : Rep (.ok gfp) (bc z' (bc e h)) Fp) (hq : Rep (.ok gfm) (bc z' (bc e h)) Fq) :
    Rep (do
      let em ← Nd.map2 (· - ·) eps mean
      let a ← Nd.map2 (· + ·) em sq
      let ap ← Nd.map2 (· * ·) a gfp
      let b ← Nd.map2 (· - ·) em sq
      let bm ← Nd.map2 (· * ·) b gfm
      let d ← Nd.map2 (· - ·) ap bm
      Nd.map2 (fun s d => 0.5 / s * d) sq d) (bc z' (bc e h)) fun i =>
      0.5 / Fs i * ((Fe i - Fm i + Fs i) * Fp i - (Fe i - Fm i - Fs i) * Fq i) := by
  refine Rep.bindA (Rep.map2' he hm _) (by bc_simp) fun em hem => ?_
  refine Rep.bindA (Rep.map2' hem hs _) (by bc_simp) fun a ha => ?_
  refine Rep.bindA (Rep.map2' ha hp _) (by bc_simp) fun ap hap => ?_
  refine Rep.bindA (Rep.map2' hem hs _) (by bc_simp) fun b hb => ?_
  refine Rep.bindA (Rep.map2' hb hq _) (by bc_simp) fun bm hbm => ?_
  refine Rep.bindA (Rep.map2' hap hbm _) (by bc_simp) fun d hd => ?_
  exact (Rep.map2' hs hd _).congr (by bc_simp) fun i => rfl

/-- `gf_2x2_z` for on-site energies of equal shape: the last axis of the result are the two sites. -/
theorem gf_2x2_z_stack (z eps0 eps1 hopping : Nd ℂ) (hilbert : Option (ℂ → ℂ)) (he : eps0.dims = eps1.dims) :
    match bcastAll [z.dims, eps0.dims, hopping.dims] with
    | none => gf2x2zNd z eps0 eps1 hopping hilbert = .error .valueError
    | some s => ∃ a, gf2x2zNd z eps0 eps1 hopping hilbert = .ok a ∧ a.dims = 2 :: s ∧ ∀ i, InRange i s → ∀ v,
        gf2x2z (z.at i) (eps0.at i) (eps1.at i) (hopping.at i) hilbert = some v → ∀ k : Fin 2, a.get (k :: i) = v k := by
  have h0 := Rep.of eps0
  have h1 : Rep (.ok eps1) (some eps0.dims) eps1.at := he ▸ Rep.of eps1
  have hm : Rep (Nd.mean2 eps0 eps1) (some eps0.dims) fun i => (eps0.at i + eps1.at i) / 2 := by
    unfold Nd.mean2
    rw [if_pos he]
    refine ⟨_, rfl, rfl, fun i => ?_⟩
    simp only [Nd.at]
    rw [← he]
  set sqrt_ : List ℕ → ℂ := fun i => (0.25 * (eps0.at i - eps1.at i) ^ 2 + hopping.at i * star (hopping.at i)) ^ (1 / 2 : ℂ)
    with hsq
  set H : ℂ → ℂ := hilbert.getD fun x => 1 / x with hH
  set P : List ℕ → ℂ := fun i => H (z.at i - (eps0.at i + eps1.at i) / 2 - sqrt_ i) with hP
  set Q : List ℕ → ℂ := fun i => H (z.at i - (eps0.at i + eps1.at i) / 2 + sqrt_ i) with hQ
  have key : Rep (gf2x2zNd z eps0 eps1 hopping hilbert) ((bcastAll [z.dims, eps0.dims, hopping.dims]).map (2 :: ·))
      fun i => if i.headD 0 = 0
        then 0.5 / sqrt_ i.tail * ((eps0.at i.tail - (eps0.at i.tail + eps1.at i.tail) / 2 + sqrt_ i.tail) * P i.tail
          - (eps0.at i.tail - (eps0.at i.tail + eps1.at i.tail) / 2 - sqrt_ i.tail) * Q i.tail)
        else 0.5 / sqrt_ i.tail * ((eps1.at i.tail - (eps0.at i.tail + eps1.at i.tail) / 2 + sqrt_ i.tail) * P i.tail
          - (eps1.at i.tail - (eps0.at i.tail + eps1.at i.tail) / 2 - sqrt_ i.tail) * Q i.tail) := by
    have hbc : bcastAll [z.dims, eps0.dims, hopping.dims]
        = bc (some z.dims) (bc (some eps0.dims) (some hopping.dims)) := by bc_simp
    rw [hbc]
    obtain ⟨E, hE⟩ : ∃ E, E = some eps0.dims := ⟨_, rfl⟩
    rw [← hE] at h0 h1 hm ⊢
    unfold gf2x2zNd
    refine Rep.bind hm (fun h => by rw [h]; simp) fun mean hmean => ?_
    refine Rep.bind (Rep.map2' h0 h1 _) (fun h => by rw [bc_self] at h; rw [h]; simp) fun de hde => ?_
    rw [bc_self] at hde
    refine Rep.bind (Rep.map2' hde ((Rep.of hopping).map' _) _) (fun h => by
      erw [h]
      simp) fun sq hsq => ?_
    refine Rep.bind (Rep.map2' (Rep.of z) hmean _) (fun h => by
      rw [← bc_assoc, h]
      simp) fun zm hzm => ?_
    have hz3 : bc (bc (some z.dims) E) (bc E (some hopping.dims)) = bc (some z.dims) (bc E (some hopping.dims)) := by bc_simp
    have hp := Rep.map2' hzm hsq (fun a s => H (a - s))
    have hq := Rep.map2' hzm hsq (fun a s => H (a + s))
    erw [hz3] at hp hq
    refine Rep.bind hp (fun h => by rw [h]; rfl) fun gfp hgfp => ?_
    refine Rep.bind hq (fun h => by rw [h]; rfl) fun gfm hgfm => ?_
    refine Rep.bind (compRep h0 hmean hsq hgfp hgfm) (fun h => by rw [h]; rfl) fun g0 hg0 => ?_
    refine Rep.bind (compRep h1 hmean hsq hgfp hgfm) (fun h => by rw [h]; rfl) fun g1 hg1 => ?_
    cases hs : bc (some z.dims) (bc E (some hopping.dims)) with
    | none =>
      rw [hs] at hg0
      cases hg0
    | some s =>
      rw [hs] at hg0 hg1
      obtain ⟨_, a0, a1, a2⟩ := hg0
      obtain ⟨_, b0, b1, b2⟩ := hg1
      cases a0
      cases b0
      refine ⟨_, if_pos (a1.trans b1.symm), by rw [a1], fun i => ?_⟩
      have hi : (proj (2 :: s) i).tail = proj s i.tail := rfl
      have hi' : (proj (2 :: s) i).headD 0 = i.headD 0 := rfl
      simp only [hi, hi', a2, b2]
      rfl
  cases hs : bcastAll [z.dims, eps0.dims, hopping.dims] with
  | none =>
    rw [hs] at key
    exact key
  | some s =>
    rw [hs] at key
    obtain ⟨a, k1, k2, k3⟩ := key
    refine ⟨a, k1, k2, fun i hi v hv k => ?_⟩
    have hk : InRange ((k : ℕ) :: i) (2 :: s) := List.Forall₂.cons k.2 hi
    have := k3 (k :: i)
    simp only at this
    rw [proj_inRange hk] at this
    rw [this]
    unfold gf2x2z at hv
    simp only at hv
    split_ifs at hv
    rw [← Option.some.inj hv]
    fin_cases k <;> rfl

/-- **Violation**: `eps0`, `eps1` are documented as `(...)`, but are not broadcast: different shapes always raise. -/
theorem gf_2x2_z_stack_fails (z eps0 eps1 hopping : Nd ℂ) (hilbert : Option (ℂ → ℂ)) (he : eps0.dims ≠ eps1.dims) :
    gf2x2zNd z eps0 eps1 hopping hilbert = .error .valueError := by
  unfold gf2x2zNd Nd.mean2
  rw [if_neg he]
  rfl

/-! ## Concrete shapes -/

/-- Four frequencies of shape `(4, 1)`, two sets of three poles of shape `(2, 3)`, common weights of shape `(3,)`: the result has shape
`(4, 2)`. -/
example : bdim ([3, 2].headD 1) ([3].headD 1) = some 3 ∧ bcastAll [[1, 4], [3, 2].tail, [3].tail] = some [2, 4] := by decide

/-- … and its element is the Green's function at that frequency for that set of poles. -/
example (z poles weights : Nd ℂ) (hz : z.dims = [1, 4]) (hp : poles.dims = [3, 2]) (hw : weights.dims = [3]) :
    ∃ a, poleGfZNd z poles weights = .ok a ∧ a.dims = [2, 4] ∧ ∀ s < 2, ∀ w < 4, a.get [s, w]
      = ∑ k : Fin 3, weights.get [(k : ℕ)] / (z.get [0, w] - poles.get [(k : ℕ), s]) := by
  have h := gf_z_stack z poles weights 3 (by rw [hp, hw]; decide)
  rw [hz, hp, hw, show bcastAll [[1, 4], [3, 2].tail, [3].tail] = some [2, 4] by decide] at h
  obtain ⟨a, h1, h2, h3⟩ := h
  refine ⟨a, h1, h2, fun s hs w hw' => ?_⟩
  rw [h3 [s, w] (.cons hs (.cons hw' .nil))]
  unfold poleGfZ
  refine Finset.sum_congr rfl fun k _ => ?_
  simp [Nd.at, hz, hp, hw, proj]

/-- Three poles and two weights do not fit. -/
example : bdim ([3].headD 1) ([2].headD 1) = none := by decide

/-- Imaginary times of shape `(2,)` within `[0, β]`. -/
example : ∀ s, bcast (Nd.vec 2 fun k => (k : ℝ) * 5).dims (Nd.scalar (5 : ℝ)).dims = some s → ∀ i, InRange i s →
    0 ≤ (Nd.vec 2 fun k => (k : ℝ) * 5).at i ∧ (Nd.vec 2 fun k => (k : ℝ) * 5).at i ≤ (Nd.scalar (5 : ℝ)).at i := by
  intro s hs i hi
  have : s = [2] := by
    have : bcast [2] [] = some s := hs
    simpa using this.symm
  subst this
  cases hi with
  | cons h _ =>
    rename_i a l _ 
    have ha : (a : ℝ) ≤ 1 := by exact_mod_cast Nat.lt_succ_iff.1 h
    simp only [Nd.at, Nd.vec, Nd.scalar, proj_cons, List.headD_cons]
    norm_num
    linarith

/-- Two impurities with three bath sites each, common hopping elements. -/
example : bcastAll [[5, 1], [2], [2], []] = none ∧ bcastAll [[1, 5], [2], [2], []] = some [2, 5] := by decide

/-- A level common to all sites and a stack of levels: `gf_2x2_z` fails, although they can be broadcast. -/
example : ([] : List ℕ) ≠ [3] ∧ bcast [] [3] = some [3] := by decide

end Gftool.Props
