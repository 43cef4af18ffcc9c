import Verif.Model.StackFourier
import Verif.Props.StackFitZ

/-!
# Leading axes are stacks: Fourier transformations (property C69)
-/

namespace Gftool.Props

open Model Spec Lemmas

/-- Normalise shapes. -/
local macro "bc_simp" : tactic =>
  `(tactic| simp only [bcastAll_cons, bcastAll_nil, bc_nil_right, bc_nil_left, bc_assoc, bc_comm, bc_left_comm, bc_self, bc_absorb])

private lemma okBind {α β : Type} (a : α) (f : α → Except Err β) : (Except.ok a >>= f) = f a := rfl

private lemma get_at {α : Type} {a : Nd α} {n : ℕ} {s i : List ℕ} (h : a.dims = n :: s) (hi : InRange i s) {k : ℕ}
    (hk : k < n) : a.at (k :: i) = a.get (k :: i) := by
  rw [Nd.at, h, proj_inRange (d := n :: s) (List.Forall₂.cons hk hi)]

private lemma mk_at {α : Type} {f : List ℕ → α} {n : ℕ} {s i : List ℕ} (hi : InRange i s) {k : ℕ}
    (hk : k < n) : (⟨n :: s, f⟩ : Nd α).at (k :: i) = f (k :: i) := get_at rfl hi hk

private lemma slice_ok {α : Type} {a : Nd α} {n : ℕ} {s : List ℕ} (h : a.dims = n :: s) (m : ℕ) (f : ℕ → ℕ) :
    a.slice m f = .ok ⟨m :: s, fun i => a.get (f (i.headD 0) :: i.tail)⟩ := by
  unfold Nd.slice
  rw [h]

private lemma map2_ok {α β γ : Type} (f : α → β → γ) {a : Nd α} {b : Nd β} {s : List ℕ} (h : bcast a.dims b.dims = some s) :
    Nd.map2 f a b = .ok ⟨s, fun i => f (a.at i) (b.at i)⟩ := by
  unfold Nd.map2
  rw [h]

private lemma vecGet_fin {α : Type} [Zero α] {n : ℕ} (f : Fin n → α) (k : Fin n) : vecGet f k = f k := by
  unfold vecGet
  rw [dif_pos k.2]

private lemma hfftNd_row {m : ℕ} (hm : ¬ 2 * (m - 1) < 1) : RowWise hfftNd (hfft (m := m)) := by
  intro a s h
  unfold hfftNd
  rw [h]
  simp only [if_neg hm]
  refine ⟨_, rfl, rfl, fun i hi => ?_⟩
  beta_reduce
  cases hx : hfft fun k : Fin m => a.at (k :: i) with
  | error e =>
    unfold hfft at hx
    rw [if_neg hm] at hx
    cases hx
  | ok r =>
    congr 1
    funext k
    simp only [List.tail_cons, List.headD_cons, hx, vecGet_fin]

private lemma ihfftNd_row {n : ℕ} (hn : n ≠ 0) : RowWise ihfftNd (ihfft (n := n)) := by
  intro a s h
  unfold ihfftNd
  rw [h]
  simp only [if_neg hn]
  refine ⟨_, rfl, rfl, fun i hi => ?_⟩
  beta_reduce
  cases hx : ihfft fun k : Fin n => a.at (k :: i) with
  | error e =>
    unfold ihfft at hx
    rw [if_neg hn] at hx
    cases hx
  | ok r =>
    congr 1
    funext k
    simp only [List.tail_cons, List.headD_cons, hx, vecGet_fin]

/-- `iw2tau_dft`: every row of a stack is transformed. -/
theorem iw2tau_dft_stack (N : ℕ) (hN : N ≠ 0) (beta : ℝ) :
    RowWise (fun a => iw2tauDftNd a beta) fun g : Fin N → ℂ => iw2tauDft g beta := by
  intro a s h
  simp only
  unfold iw2tauDftNd
  rw [h]
  simp only
  obtain ⟨r, h1, h2, h3⟩ := hfftNd_row (m := 2 * N + 1) (by omega)
    ((⟨(2 * N + 1) :: s, fun i => if i.headD 0 % 2 = 1 then a.at (i.headD 0 / 2 :: i.tail) else 0⟩ : Nd ℂ).map
      (1 / (beta : ℂ) * ·)) s rfl
  rw [h1, okBind, slice_ok h2]
  refine ⟨_, rfl, rfl, fun i hi => ?_⟩
  beta_reduce
  have h4 := h3 i hi
  beta_reduce at h4
  unfold iw2tauDft
  have : (fun k : Fin (2 * N + 1) => 1 / (beta : ℂ) * iwAll (fun k : Fin N => a.at (k :: i)) k)
      = fun k : Fin (2 * N + 1) => (((⟨(2 * N + 1) :: s, fun i => if i.headD 0 % 2 = 1 then a.at (i.headD 0 / 2 :: i.tail) else 0⟩ :
        Nd ℂ).map (1 / (beta : ℂ) * ·)).at ((k : ℕ) :: i)) := by
    funext k
    rw [get_at rfl hi k.2]
    simp only [Nd.map, iwAll, List.headD_cons, List.tail_cons]
    congr 1
  rw [this, h4]
  simp only
  congr 1
  funext k
  rw [dif_pos (by have := k.2; omega)]
  rfl

/-- `iw2tau_dft_soft`. -/
theorem iw2tau_dft_soft_stack (N : ℕ) (hN : N ≠ 0) (beta : ℝ) :
    RowWise (fun a => iw2tauDftSoftNd a beta) fun g : Fin N → ℂ => iw2tauDftSoft g beta := by
  intro a s h
  simp only
  unfold iw2tauDftSoftNd
  rw [h]
  simp only
  have hmin : min 1 N = 1 := by omega
  rw [hmin, slice_ok h, okBind, map2_ok (s := N :: s), okBind]
  swap
  · change bcast [N] (1 :: s) = _
    rw [bcast_cons]
    simp
  obtain ⟨t, ht⟩ : ∃ t : Nd ℂ, t = ⟨N :: s, fun i => (Nd.vec N fun j => ((0.5 * (Real.cos (Real.pi * (j + 1 : ℕ) / N) + 1) : ℝ) : ℂ)).at i
    * (⟨1 :: s, fun i => a.get ((N - 1) :: i.tail)⟩ : Nd ℂ).at i⟩ := ⟨_, rfl⟩
  rw [← ht]
  have hc : a.concat t = .ok ⟨(N + N) :: s, fun i =>
      if i.headD 0 < N then a.at i else t.at ((i.headD 0 - N) :: i.tail)⟩ := by
    unfold Nd.concat
    rw [h, ht]
    simp only [if_true]
  rw [hc, okBind]
  obtain ⟨r, h1, h2, h3⟩ := iw2tau_dft_stack (2 * N) (by omega) beta ⟨(N + N) :: s, fun i =>
      if i.headD 0 < N then a.at i else t.at ((i.headD 0 - N) :: i.tail)⟩ s (by rw [two_mul])
  beta_reduce at h1
  rw [h1, okBind, slice_ok h2]
  refine ⟨_, rfl, rfl, fun i hi => ?_⟩
  beta_reduce
  have h4 := h3 i hi
  beta_reduce at h4
  unfold iw2tauDftSoft
  have : softExtend (fun k : Fin N => a.at (k :: i)) = fun k : Fin (2 * N) => (⟨(N + N) :: s, fun i =>
      if i.headD 0 < N then a.at i else t.at ((i.headD 0 - N) :: i.tail)⟩ : Nd ℂ).at (k :: i) := by
    funext k
    have hk := k.2
    rw [get_at rfl hi (by omega)]
    unfold softExtend
    by_cases hkN : (k : ℕ) < N
    · rw [dif_pos hkN]
      exact (if_pos hkN).symm
    · rw [dif_neg hkN]
      refine Eq.trans ?_ (if_neg hkN).symm
      change _ = t.at (((k : ℕ) - N) :: i)
      rw [get_at (a := t) (n := N) (by rw [ht]) hi (by omega), ht]
      simp only
      rw [get_at (a := a) (n := N) (s := s) h hi (by omega)]
      congr 1
      · have : (Nd.vec N fun j => ((0.5 * (Real.cos (Real.pi * (j + 1 : ℕ) / N) + 1) : ℝ) : ℂ)).at (((k : ℕ) - N) :: i)
            = ((0.5 * (Real.cos (Real.pi * ((k : ℕ) - N + 1 : ℕ) / N) + 1) : ℝ) : ℂ) := by
          have e : (Nd.vec N fun j => ((0.5 * (Real.cos (Real.pi * (j + 1 : ℕ) / N) + 1) : ℝ) : ℂ)).at (((k : ℕ) - N) :: i)
              = (Nd.vec N fun j => ((0.5 * (Real.cos (Real.pi * (j + 1 : ℕ) / N) + 1) : ℝ) : ℂ)).get [(k : ℕ) - N] := by
            rw [Nd.at]
            congr 1
            change proj [N] _ = _
            rw [proj_cons, List.headD_cons, proj_nil]
            congr 1
            split_ifs <;> omega
          rw [e]
          rfl
        rw [this]
      · rw [Nd.at]
        simp only [proj_cons, List.tail_cons, proj_inRange hi]
  rw [this, h4]
  rfl

private lemma map2_get {α β γ : Type} (f : α → β → γ) {a : Nd α} {b : Nd β} {n : ℕ} {s i : List ℕ} (ha : a.dims = n :: s)
    (hb : b.dims = n :: s) (hi : InRange i s) {k : ℕ} (hk : k < n) :
    (⟨n :: s, fun i => f (a.at i) (b.at i)⟩ : Nd γ).at (k :: i) = f (a.get (k :: i)) (b.get (k :: i)) := by
  rw [get_at rfl hi hk]
  simp only
  rw [get_at ha hi hk, get_at hb hi hk]

private lemma bcast_row (n : ℕ) (s : List ℕ) : bcast (n :: s) (1 :: s) = some (n :: s) := by
  rw [bcast_cons]
  simp

private lemma bcast_vec (n : ℕ) (s : List ℕ) : bcast [n] (n :: s) = some (n :: s) := by
  rw [bcast_cons]
  simp

private lemma vec_at {α : Type} (n : ℕ) (f : ℕ → α) {k : ℕ} (hk : k < n) (i : List ℕ) : (Nd.vec n f).at (k :: i) = f k := by
  rw [Nd.at]
  change f ((proj [n] (k :: i)).headD 0) = _
  rw [proj_cons, List.headD_cons, List.headD_cons]
  congr 1
  split_ifs <;> omega

/-- `tau2iv_dft`. -/
theorem tau2iv_dft_stack (T : ℕ) (hT : T ≠ 0) (beta : ℝ) :
    RowWise (fun a => tau2ivDftNd a beta) fun g : Fin (T + 1) → ℝ => tau2ivDft g beta := by
  intro a s h
  beta_reduce
  unfold tau2ivDftNd
  rw [h]
  simp only
  rw [if_neg (by omega), slice_ok h, okBind, slice_ok h, okBind, map2_ok (s := T :: s) _ (bcast_self _), okBind]
  obtain ⟨gl, hgl⟩ : ∃ gl : Nd ℝ, gl = ⟨(T + 1 - 1) :: s, fun i => a.get (id (i.headD 0) :: i.tail)⟩ := ⟨_, rfl⟩
  obtain ⟨gr, hgr⟩ : ∃ gr : Nd ℝ, gr = ⟨(T + 1 - 1) :: s, fun i => a.get ((i.headD 0 + 1) :: i.tail)⟩ := ⟨_, rfl⟩
  rw [← hgl, ← hgr]
  have hdl : gl.dims = T :: s := by rw [hgl, Nat.add_sub_cancel]
  have hdr : gr.dims = T :: s := by rw [hgr, Nat.add_sub_cancel]
  obtain ⟨mean, hmean⟩ : ∃ mean : Nd ℝ, mean = (⟨T :: s, fun i => beta / (((T + 1 : ℕ) : ℝ) - 1) * (gr.at i + gl.at i) / 2⟩ : Nd ℝ).sum :=
    ⟨_, rfl⟩
  rw [← hmean]
  have hmd : mean.dims = s := by rw [hmean]; rfl
  have hmg : ∀ i, InRange i s → mean.get i = trapezoidDx (fun k : Fin (T + 1) => a.at (k :: i)) (beta / T) := by
    intro i hi
    rw [hmean]
    change ∑ k ∈ Finset.range T, beta / (((T + 1 : ℕ) : ℝ) - 1) * (gr.at (k :: i) + gl.at (k :: i)) / 2 = _
    rw [Finset.sum_range]
    unfold trapezoidDx
    refine Finset.sum_congr rfl fun k _ => ?_
    beta_reduce
    rw [get_at hdr hi k.2, get_at hdl hi k.2, get_at h hi (Fin.is_lt _), get_at h hi (Fin.is_lt _), hgl, hgr]
    simp
  rw [map2_ok (s := T :: s) _ (by rw [hdl]; change bcast (T :: s) (1 :: mean.dims) = _; rw [hmd]; exact bcast_row T s), okBind]
  obtain ⟨r, h1, h2, h3⟩ := ihfftNd_row hT ⟨T :: s, fun i => gl.at i - mean.newaxis.at i⟩ s rfl
  rw [h1, okBind]
  unfold Nd.setLast
  rw [if_pos (by
    change bcast r.dims.tail (List.rdropWhile _ mean.dims) = some r.dims.tail
    rw [h2, hmd]
    exact bcast_strip s)]
  refine ⟨_, rfl, h2, fun i hi => ?_⟩
  beta_reduce
  unfold tau2ivDft
  rw [if_neg hT]
  simp only
  have : (fun k : Fin T => a.at ((k.castSucc : ℕ) :: i) - trapezoidDx (fun k : Fin (T + 1) => a.at (k :: i)) (beta / T))
      = fun k : Fin T => (⟨T :: s, fun i => gl.at i - mean.newaxis.at i⟩ : Nd ℝ).at (k :: i) := by
    funext k
    rw [get_at rfl hi k.2]
    simp only
    rw [get_at hdl hi k.2, ← hmg i hi, get_at h hi (by have := k.2; omega), hgl]
    congr 1
    rw [Nd.at]
    change _ = mean.get (proj (1 :: mean.dims) (k :: i)).tail
    rw [hmd, proj_cons, List.tail_cons, List.tail_cons, proj_inRange hi]
  have h4 := h3 i hi
  beta_reduce at h4
  rw [this, h4]
  simp only
  congr 1
  funext k
  simp only [Nd.map, List.headD_cons, List.tail_cons]
  by_cases hk : (k : ℕ) = 0
  · rw [if_pos hk]
    refine Eq.trans ?_ (if_pos hk).symm
    rw [Nd.at]
    simp only [hmd, proj_inRange hi, hmg i hi]
  · rw [if_neg hk]
    exact (if_neg hk).symm

/-- `tau2iv_ft_lin`. -/
theorem tau2iv_ft_lin_stack (T : ℕ) (hT : T ≠ 0) (beta : ℝ) :
    RowWise (fun a => tau2ivFtLinNd a beta) fun g : Fin (T + 1) → ℝ => tau2ivFtLin g beta := by
  intro a s h
  beta_reduce
  unfold tau2ivFtLinNd
  rw [h]
  simp only
  rw [slice_ok h, okBind]
  obtain ⟨gl, hgl⟩ : ∃ gl : Nd ℝ, gl = ⟨(T + 1 - 1) :: s, fun i => a.get (id (i.headD 0) :: i.tail)⟩ := ⟨_, rfl⟩
  obtain ⟨gr, hgr⟩ : ∃ gr : Nd ℝ, gr = ⟨(T + 1 - 1) :: s, fun i => a.get ((i.headD 0 + 1) :: i.tail)⟩ := ⟨_, rfl⟩
  have hdl : gl.dims = T :: s := by rw [hgl, Nat.add_sub_cancel]
  have hdr : gr.dims = T :: s := by rw [hgr, Nat.add_sub_cancel]
  rw [← hgl]
  obtain ⟨r, h1, h2, h3⟩ := ihfftNd_row hT gl s hdl
  rw [h1, okBind, slice_ok h, okBind, ← hgr, map2_ok (s := T :: s) _ (by rw [hdl, hdr]; exact bcast_self _), okBind]
  obtain ⟨r', h1', h2', h3'⟩ := ihfftNd_row hT ⟨T :: s, fun i => gr.at i - gl.at i⟩ s rfl
  rw [h1', okBind, h2, List.headD_cons, map2_ok _ (by rw [h2]; exact bcast_vec _ s), okBind,
    map2_ok _ (by rw [h2']; exact bcast_vec _ s), okBind, map2_ok (s := (T / 2 + 1) :: s) _ (bcast_self _), okBind]
  refine ⟨_, rfl, rfl, fun i hi => ?_⟩
  beta_reduce
  unfold tau2ivFtLin
  have e1 : (fun k : Fin T => a.at ((k.castSucc : ℕ) :: i)) = fun k : Fin T => gl.at (k :: i) := by
    funext k
    rw [get_at hdl hi k.2, get_at h hi (Fin.is_lt _), hgl]
    rfl
  have e2 : (fun k : Fin T => a.at ((k.succ : ℕ) :: i) - a.at ((k.castSucc : ℕ) :: i))
      = fun k : Fin T => (⟨T :: s, fun i => gr.at i - gl.at i⟩ : Nd ℝ).at (k :: i) := by
    funext k
    rw [get_at rfl hi k.2]
    simp only
    rw [get_at hdl hi k.2, get_at hdr hi k.2, get_at h hi (Fin.is_lt _), get_at h hi (Fin.is_lt _), hgl, hgr]
    simp
  have h4 := h3 i hi
  have h4' := h3' i hi
  beta_reduce at h4 h4'
  rw [e1, e2, h4, h4']
  simp only
  congr 1
  funext k
  simp only [Nd.map]
  congr 1
  rw [get_at rfl hi k.2, get_at rfl hi k.2]
  simp only
  rw [vec_at _ _ k.2, vec_at _ _ k.2, get_at h2 hi k.2, get_at h2' hi k.2]
  have : ((T + 1 : ℕ) : ℂ) - 1 = T := by push_cast; ring
  rw [this]

private lemma fullRangeNd_row (T : ℕ) (a : Nd ℝ) (s : List ℕ) (h : a.dims = (T + 1) :: s) :
    ∃ f, fullRangeNd a = .ok f ∧ f.dims = (2 * T + 1) :: s ∧
      ∀ i, InRange i s → ∀ k : Fin (2 * T + 1), f.get (k :: i) = fullRange (fun k : Fin (T + 1) => a.at (k :: i)) k := by
  unfold fullRangeNd
  rw [slice_ok h, okBind]
  unfold Nd.concat
  rw [h]
  simp only [Nd.map, if_true, List.headD_cons, Nat.add_sub_cancel]
  refine ⟨_, rfl, ?_, fun i hi k => ?_⟩
  · simp only
    congr 1
    omega
  · have hk := k.2
    unfold fullRange
    by_cases hkT : (k : ℕ) < T
    · rw [dif_pos hkT]
      refine (if_pos hkT).trans ?_
      beta_reduce
      rw [get_at (n := T) (s := s) rfl hi hkT, get_at h hi (by omega)]
      rfl
    · rw [dif_neg hkT]
      exact if_neg hkT

/-- `tau2iw_dft`. -/
theorem tau2iw_dft_stack (T : ℕ) (hT : T ≠ 0) (beta : ℝ) :
    RowWise (fun a => tau2iwDftNd a beta) fun g : Fin (T + 1) → ℝ => tau2iwDft g beta := by
  intro a s h
  beta_reduce
  obtain ⟨f, f1, f2, f3⟩ := fullRangeNd_row T a s h
  unfold tau2iwDftNd
  rw [f1, okBind, f2, List.headD_cons, slice_ok f2, okBind, Nat.add_sub_cancel]
  obtain ⟨fl, hfl⟩ : ∃ fl : Nd ℝ, fl = ⟨2 * T :: s, fun i => f.get (id (i.headD 0) :: i.tail)⟩ := ⟨_, rfl⟩
  have hdl : fl.dims = 2 * T :: s := by rw [hfl]
  rw [← hfl]
  obtain ⟨r, h1, h2, h3⟩ := ihfftNd_row (n := 2 * T) (by omega) fl s hdl
  rw [h1, okBind, h2, List.headD_cons, slice_ok h2, okBind]
  refine ⟨_, rfl, ?_, fun i hi => ?_⟩
  · simp only [Nd.map]
    congr 1
    omega
  · beta_reduce
    unfold tau2iwDft
    have e1 : (fun k : Fin (2 * T) => fullRange (fun k : Fin (T + 1) => a.at (k :: i)) k.castSucc)
        = fun k : Fin (2 * T) => fl.at (k :: i) := by
      funext k
      rw [get_at hdl hi k.2, ← f3 i hi, hfl]
      rfl
    have h4 := h3 i hi
    beta_reduce at h4
    rw [e1, h4]
    rfl

/-- `tau2iw_ft_lin`. -/
theorem tau2iw_ft_lin_stack (T : ℕ) (hT : T ≠ 0) (beta : ℝ) :
    RowWise (fun a => tau2iwFtLinNd a beta) fun g : Fin (T + 1) → ℝ => tau2iwFtLin g beta := by
  intro a s h
  beta_reduce
  obtain ⟨f, f1, f2, f3⟩ := fullRangeNd_row T a s h
  unfold tau2iwFtLinNd
  rw [f1, okBind, f2, List.headD_cons]
  simp only [Nat.add_sub_cancel]
  rw [slice_ok f2, okBind]
  obtain ⟨fl, hfl⟩ : ∃ fl : Nd ℝ, fl = ⟨2 * T :: s, fun i => f.get (id (i.headD 0) :: i.tail)⟩ := ⟨_, rfl⟩
  obtain ⟨fr, hfr⟩ : ∃ fr : Nd ℝ, fr = ⟨2 * T :: s, fun i => f.get ((i.headD 0 + 1) :: i.tail)⟩ := ⟨_, rfl⟩
  have hdl : fl.dims = 2 * T :: s := by rw [hfl]
  have hdr : fr.dims = 2 * T :: s := by rw [hfr]
  rw [← hfl]
  obtain ⟨r, h1, h2, h3⟩ := ihfftNd_row (n := 2 * T) (by omega) fl s hdl
  rw [h1, okBind, slice_ok f2, okBind, ← hfr, map2_ok (s := 2 * T :: s) _ (by rw [hdl, hdr]; exact bcast_self _), okBind]
  obtain ⟨r', h1', h2', h3'⟩ := ihfftNd_row (n := 2 * T) (by omega) ⟨2 * T :: s, fun i => fr.at i - fl.at i⟩ s rfl
  have hm : r.dims.headD 0 / 2 = (T + 1) / 2 := by
    rw [h2, List.headD_cons]
    omega
  rw [h1', okBind, hm, slice_ok h2, okBind, map2_ok _ (bcast_vec _ s), okBind, slice_ok h2', okBind,
    map2_ok _ (bcast_vec _ s), okBind, map2_ok (s := (T + 1) / 2 :: s) _ (bcast_self _), okBind]
  refine ⟨_, rfl, rfl, fun i hi => ?_⟩
  beta_reduce
  unfold tau2iwFtLin
  have e1 : (fun k : Fin (2 * T) => fullRange (fun k : Fin (T + 1) => a.at (k :: i)) k.castSucc)
      = fun k : Fin (2 * T) => fl.at (k :: i) := by
    funext k
    rw [get_at hdl hi k.2, ← f3 i hi, hfl]
    rfl
  have e2 : (fun k : Fin (2 * T) => fullRange (fun k : Fin (T + 1) => a.at (k :: i)) k.succ
        - fullRange (fun k : Fin (T + 1) => a.at (k :: i)) k.castSucc)
      = fun k : Fin (2 * T) => (⟨2 * T :: s, fun i => fr.at i - fl.at i⟩ : Nd ℝ).at (k :: i) := by
    funext k
    rw [get_at rfl hi k.2]
    simp only
    rw [get_at hdl hi k.2, get_at hdr hi k.2, ← f3 i hi, ← f3 i hi, hfl, hfr]
    simp
  have h4 := h3 i hi
  have h4' := h3' i hi
  beta_reduce at h4 h4'
  rw [e1, e2, h4, h4']
  simp only
  congr 1
  funext k
  simp only [Nd.map]
  congr 1
  rw [get_at rfl hi k.2, get_at rfl hi k.2]
  simp only
  rw [vec_at _ _ k.2, vec_at _ _ k.2, get_at rfl hi k.2, get_at rfl hi k.2]
  rfl

private lemma select_ok {α : Type} {a : Nd α} {n k : ℕ} {s : List ℕ} (h : a.dims = n :: s) (hk : k < n) :
    a.select k = .ok ⟨s, fun i => a.get (k :: i)⟩ := by
  unfold Nd.select
  rw [h]
  exact if_pos hk

private lemma imap2_ok {α β : Type} (f : α → β → α) {a : Nd α} {b : Nd β} (h : bcast a.dims b.dims = some a.dims) :
    Nd.imap2 f a b = .ok ⟨a.dims, fun i => f (a.at i) (b.at i)⟩ := by
  unfold Nd.imap2
  rw [h]
  simp only [if_true]

private lemma get_at' {α : Type} {a : Nd α} {s i : List ℕ} (h : a.dims = s) (hi : InRange i s) : a.at i = a.get i := by
  rw [Nd.at, h, proj_inRange hi]

private lemma newaxis_at {α : Type} {a : Nd α} {s i : List ℕ} (h : a.dims = s) (hi : InRange i s) (k : ℕ) :
    a.newaxis.at (k :: i) = a.get i := by
  rw [Nd.at]
  change a.get (proj (1 :: a.dims) (k :: i)).tail = _
  rw [h, proj_cons, List.tail_cons, List.tail_cons, proj_inRange hi]

private lemma bcast_vec' (n : ℕ) (s : List ℕ) : bcast (1 :: s) [n] = some (n :: s) := by
  rw [bcast_cons]
  simp

/-- `tau2iv` for a stack, if the transformation treats the leading axes as stack (`tau2iv_dft_stack`, `tau2iv_ft_lin_stack`). -/
theorem tau2iv_stack (T : ℕ) (beta : ℝ) (F : Nd ℝ → ℝ → Except Err (Nd ℂ))
    (f : (Fin (T + 1) → ℝ) → ℝ → Except Err (Fin (T / 2 + 1) → ℂ)) (hF : RowWise (F · beta) (f · beta)) :
    RowWise (fun a => tau2ivNd a beta F) fun g : Fin (T + 1) → ℝ => tau2iv g beta f := by
  intro a s h
  beta_reduce
  unfold tau2ivNd
  rw [h]
  simp only [Nat.add_sub_cancel]
  rw [select_ok h (by omega), okBind, select_ok h (by omega), okBind, map2_ok (s := s) _ (bcast_self s), okBind]
  obtain ⟨g1, hg1⟩ : ∃ g1 : Nd ℝ, g1 = ⟨s, fun i => (⟨s, fun i => a.get (T :: i)⟩ : Nd ℝ).at i - (⟨s, fun i => a.get (0 :: i)⟩ : Nd ℝ).at i⟩ :=
    ⟨_, rfl⟩
  have hd1 : g1.dims = s := by rw [hg1]
  have hg1g : ∀ i, InRange i s → g1.get i = a.at (T :: i) - a.at (0 :: i) := by
    intro i hi
    rw [hg1, get_at h hi (by omega), get_at h hi (by omega)]
    simp only
    rw [get_at' rfl hi, get_at' rfl hi]
  rw [← hg1]
  have hna : ((g1.newaxis.map (· / beta) : Nd ℝ)).dims = 1 :: s := by
    change 1 :: g1.dims = _
    rw [hd1]
  have hn1 : g1.newaxis.dims = 1 :: s := by
    change 1 :: g1.dims = _
    rw [hd1]
  rw [map2_ok (s := (T + 1) :: s) _ (by rw [hna]; exact bcast_vec' _ s), okBind,
    map2_ok (s := (T + 1) :: s) _ (by rw [h]; exact bcast_self _), okBind]
  obtain ⟨g, hg⟩ : ∃ g : Nd ℝ, g = ⟨(T + 1) :: s, fun i => a.at i - (⟨(T + 1) :: s, fun i =>
    (g1.newaxis.map (· / beta)).at i * (linspaceNd beta (T + 1)).at i⟩ : Nd ℝ).at i⟩ := ⟨_, rfl⟩
  rw [← hg]
  obtain ⟨r, h1, h2, h3⟩ := hF g s (by rw [hg])
  beta_reduce at h1
  rw [h1, okBind, h2, List.headD_cons, Nat.add_sub_cancel, map2_ok (s := T / 2 :: s) _ (by rw [hn1]; exact bcast_vec' _ s), okBind]
  obtain ⟨q, hq⟩ : ∃ q : Nd ℂ, q = ⟨T / 2 :: s, fun i => ((g1.newaxis.at i : ℝ) : ℂ)
    / (Nd.vec (T / 2) fun k => matsubaraFrequenciesB ((k + 1 : ℕ) : ℤ) beta).at i⟩ := ⟨_, rfl⟩
  rw [← hq]
  have hqd : q.dims = T / 2 :: s := by rw [hq]
  have ha1 : r.addFrom1 q = .ok ⟨(T / 2 + 1) :: s, fun i => if i.headD 0 = 0 then r.get i
      else (⟨T / 2 :: s, fun i => (⟨T / 2 :: s, fun i => r.get ((i.headD 0 + 1) :: i.tail)⟩ : Nd ℂ).at i + q.at i⟩ : Nd ℂ).get
        ((i.headD 0 - 1) :: i.tail)⟩ := by
    unfold Nd.addFrom1
    rw [slice_ok h2, okBind, h2, List.headD_cons, Nat.add_sub_cancel, imap2_ok _ (by rw [hqd]; exact bcast_self _), okBind]
  rw [ha1, okBind]
  unfold Nd.addAt0
  rw [select_ok (n := T / 2 + 1) (s := s) rfl (by omega), okBind, imap2_ok _ (by change bcast s g1.dims = some s; rw [hd1]; exact bcast_self _), okBind]
  refine ⟨_, rfl, rfl, fun i hi => ?_⟩
  beta_reduce
  unfold tau2iv
  have e1 : (fun k : Fin (T + 1) => a.at ((k : ℕ) :: i) - (a.at (((Fin.last T : Fin (T + 1)) : ℕ) :: i) - a.at (((0 : Fin (T + 1)) : ℕ) :: i))
      / beta * linspace0 beta (T + 1) k) = fun k : Fin (T + 1) => g.at (k :: i) := by
    funext k
    rw [get_at (a := g) (by rw [hg]) hi k.2, hg]
    simp only
    rw [mk_at hi k.2]
    simp only [linspaceNd]
    rw [vec_at _ _ k.2, vecGet_fin]
    congr 2
    change _ = g1.newaxis.at (k :: i) / beta
    rw [newaxis_at hd1 hi, hg1g i hi]
    rfl
  simp only
  have h4 := h3 i hi
  beta_reduce at h4
  rw [e1, h4]
  simp only
  congr 1
  funext k
  by_cases hk : (k : ℕ) = 0
  · rw [if_pos hk]
    refine Eq.trans ?_ (if_pos hk).symm
    simp only [List.tail_cons]
    rw [get_at' (i := i) rfl hi,
      get_at' (a := g1.map fun g : ℝ => 0.5 * (g : ℂ) * beta) (s := s) hd1 hi]
    simp only [Nd.map, List.headD_cons, if_true]
    rw [hg1g i hi, hk]
    push_cast
    rfl
  · rw [if_neg hk]
    refine Eq.trans ?_ (if_neg hk).symm
    refine Eq.trans ?_ (if_neg hk).symm
    have hk2 := k.2
    simp only [List.headD_cons, List.tail_cons]
    rw [mk_at hi (by omega), get_at hqd hi (by omega), hq]
    simp only [List.headD_cons, List.tail_cons]
    rw [newaxis_at hd1 hi, hg1g i hi, vec_at _ _ (by omega), Nat.sub_add_cancel (by omega)]
    push_cast
    rfl

private lemma linspaceNd_range {beta : ℝ} (hb : 0 ≤ beta) (M : ℕ) :
    ∀ s, bcast (linspaceNd beta M).dims (Nd.scalar beta).dims = some s → ∀ i, InRange i s →
      0 ≤ (linspaceNd beta M).at i ∧ (linspaceNd beta M).at i ≤ (Nd.scalar beta).at i := by
  intro s hs i hi
  have hs' : s = [M] := by
    have : bcast [M] [] = some s := hs
    simpa using this.symm
  subst hs'
  cases hi with
  | cons h1 h2 =>
    unfold linspaceNd
    rw [vec_at _ _ h1, vecGet, dif_pos h1]
    exact tauAll hb M _

private lemma evalTauGrid_ok {n : ℕ} (p : PoleFct ℝ n) {beta : ℝ} (hb : 0 ≤ beta) (k : ℕ) :
    evalTauGrid p beta k = .ok fun i => ∑ j, p.residues j * singlePoleGfTau (linspace0 beta k i) (p.poles j) beta :=
  if_pos (tauAll hb k)

/-- Poles for every element of the stack: shapes. -/
private lemma poleShape {p r : Nd ℝ} {n : ℕ} {ms rs : List ℕ} (e2 : r.dims = n :: 1 :: rs)
    (e3 : p.dims = [n] ∨ p.dims = n :: 1 :: ms) (hm : bcast ms rs = some rs) (N : ℕ) :
    bdim (p.dims.headD 1) (r.dims.headD 1) = some n ∧ bc (some [N]) (bc (some p.dims.tail) (some r.dims.tail)) = (some rs).map (N :: ·) ∧
      (∀ i (j k : ℕ), r.at (j :: k :: i) = r.at (j :: 0 :: i)) ∧ ∀ i (j k : ℕ), p.at (j :: k :: i) = p.at (j :: 0 :: i) := by
  have hpt : bc (some p.dims.tail) (some (1 :: rs)) = some (1 :: rs) := by
    rcases e3 with h | h
    · rw [h]
      exact bc_nil_left _
    · rw [h, List.tail_cons, bc_some, bcast_cons, hm]
      simp
  refine ⟨?_, ?_, ?_, ?_⟩
  · rw [e2]
    rcases e3 with h | h <;> rw [h] <;> exact bdim_self _
  · rw [e2, List.tail_cons, hpt, bc_some, bcast_cons]
    simp
  · intro i j k
    rw [Nd.at, Nd.at, e2]
    rfl
  · intro i j k
    rcases e3 with h | h
    · rw [Nd.at, Nd.at, h]
      rfl
    · rw [Nd.at, Nd.at, h]
      rfl

private lemma iwEnd (gf : Nd ℂ) (beta : ℝ) (hb : 0 ≤ beta) (N M n : ℕ) (F : Nd ℂ → ℝ → Except Err (Nd ℝ))
    (f : (Fin N → ℂ) → ℝ → Except Err (Fin M → ℝ)) (hF : RowWise (F · beta) (f · beta)) (p r : Nd ℝ) (gs ms rs s : List ℕ)
    (hg : gf.dims = N :: gs) (e2 : r.dims = n :: 1 :: rs) (e3 : p.dims = [n] ∨ p.dims = n :: 1 :: ms)
    (hm : bcast ms rs = some rs) (hs : bcast gs rs = some s) :
    ∃ b, iw2tauEndNd gf (matsubaraNd N beta) beta F p r = .ok b ∧ b.dims = M :: s ∧ ∀ i, InRange i s →
      ∃ gt, f (fun k => gf.at (k :: i) - (⟨fun j : Fin n => p.at (j :: 0 :: i), fun j => r.at (j :: 0 :: i)⟩ : PoleFct ℝ n).evalZ
          (matsubaraFrequencies (k : ℕ) beta)) beta = .ok gt ∧
        ∀ k : Fin M, b.get (k :: i) = gt k + ∑ j : Fin n, r.at (j :: 0 :: i) * singlePoleGfTau (linspace0 beta M k) (p.at (j :: 0 :: i)) beta := by
  obtain ⟨q1, q2, hrat, hpat⟩ := poleShape e2 e3 hm N
  obtain ⟨q1', q2', -, -⟩ := poleShape e2 e3 hm M
  have hmom := gf_z_rep (matsubaraNd N beta) (p.map fun x : ℝ => (x : ℂ)) (r.map fun x : ℝ => (x : ℂ)) n q1
  rw [show bcastAll [(matsubaraNd N beta).dims, (p.map fun x : ℝ => (x : ℂ)).dims.tail, (r.map fun x : ℝ => (x : ℂ)).dims.tail]
    = (some rs).map (N :: ·) by rw [bcastAll_cons, bcastAll_cons, bcastAll_one]; exact q2] at hmom
  obtain ⟨mom, m1, m2, m3⟩ := hmom
  have hmom : Rep (.ok mom) ((some rs).map (N :: ·)) _ := ⟨mom, rfl, m2, m3⟩
  have hdl := Rep.map2' (Rep.ofCons hg) hmom (fun x y : ℂ => x - y)
  rw [bc_map_cons (bdim_self _), bc_some, hs] at hdl
  obtain ⟨g, g1, g2, g3⟩ := hdl
  have hgr : Rep (.ok g) ((some s).map (N :: ·)) _ := ⟨g, rfl, g2, g3⟩
  obtain ⟨gt, t1, t2, t3⟩ := hF g s g2
  beta_reduce at t1
  have htau := gf_tau_rep (linspaceNd beta M) p r (Nd.scalar beta) n q1' (linspaceNd_range hb M)
  rw [show bcastAll [(linspaceNd beta M).dims, (Nd.scalar beta).dims, p.dims.tail, r.dims.tail]
    = (some rs).map (M :: ·) by
      rw [bcastAll_cons, bcastAll_cons, bcastAll_cons, bcastAll_one, show (Nd.scalar beta).dims = [] from rfl, bc_nil_left]
      exact q2'] at htau
  obtain ⟨pt, p1, p2, p3⟩ := htau
  have hpt : Rep (.ok pt) ((some rs).map (M :: ·)) _ := ⟨pt, rfl, p2, p3⟩
  have hb := Rep.imap2' (Rep.ofCons t2) hpt (by
    rw [bc_map_cons (bdim_self _), ← hs, ← bc_some]
    bc_simp) (fun x y : ℝ => x + y)
  obtain ⟨b, b1, b2, b3⟩ := hb
  have hbr : Rep (.ok b) ((some s).map (M :: ·)) _ := ⟨b, rfl, b2, b3⟩
  refine ⟨b, ?_, b2, fun i hi => ⟨fun k => gt.get (k :: i), ?_, fun k => ?_⟩⟩
  · unfold iw2tauEndNd
    simp only [m1, okBind, g1, t1, t2, List.headD_cons, p1]
    exact b1
  · have := t3 i hi
    beta_reduce at this
    rw [← this]
    congr 1
    funext k
    rw [hgr.at_eq]
    congr 1
    unfold PoleFct.evalZ
    unfold matsubaraNd
    rw [vec_at _ _ k.2]
    congr 1
    · funext j
      change _ = ((p.at _ : ℝ) : ℂ)
      rw [hpat]
    · funext j
      change _ = ((r.at _ : ℝ) : ℂ)
      rw [hrat]
  · rw [← get_at b2 hi k.2, hbr.at_eq]
    simp only
    rw [get_at t2 hi k.2]
    congr 1
    refine Finset.sum_congr rfl fun j _ => ?_
    rw [hpat, hrat]
    congr 2
    unfold linspaceNd
    rw [vec_at _ _ k.2, vecGet_fin]

/-- `iw2tau` for stacks of data and moments, if the transformation treats the leading axes as stack (`iw2tau_dft_stack`,
`iw2tau_dft_soft_stack`). -/
theorem iw2tau_stack_partial (ext : LinalgExt ℝ) (gf : Nd ℂ) (beta : ℝ) (hb : 0 ≤ beta) (moments : Nd ℝ) (N l nfit : ℕ)
    (F : Nd ℂ → ℝ → Except Err (Nd ℝ)) (f : (Fin N → ℂ) → ℝ → Except Err (Fin (2 * N + 1) → ℝ))
    (hF : RowWise (F · beta) (f · beta)) (gs ms s : List ℕ) (hg : gf.dims = N :: gs) (hm : moments.dims = l :: ms)
    (hms : l = 0 → nfit ≠ 0 → ms = []) (hs : bcast gs ms = some s) :
    StackedRows (iw2tauNd ext gf beta moments F nfit) (some s)
      fun i => iw2tau ext (fun k : Fin N => gf.at (k :: i)) beta (fun k : Fin l => moments.at (k :: i)) f nfit := by
  obtain ⟨m2, hm1, hm2, hm3⟩ := (Rep.ofCons hm).newaxis2'
  obtain ⟨g2, hg1, hg2, hg3⟩ := (Rep.ofCons hg).newaxis2'
  simp only at hm2 hg2
  have hm2at : ∀ i (k w : ℕ), m2.at (k :: w :: i) = moments.at (k :: i) := by
    intro i k w
    have := hm3 (k :: w :: i)
    simp only [List.headD_cons, List.tail_cons] at this
    rw [← this, Nd.at, hm2]
  have hg2at : ∀ i (k w : ℕ), g2.at (k :: w :: i) = gf.at (k :: i) := by
    intro i k w
    have := hg3 (k :: w :: i)
    simp only [List.headD_cons, List.tail_cons] at this
    rw [← this, Nd.at, hg2]
  have hmss : bcast ms s = some s := by
    rw [← bc_some, ← hs, ← bc_some]
    bc_simp
  have hgss : bcast gs s = some s := by
    rw [← bc_some, ← hs, ← bc_some]
    bc_simp
  suffices h : ∃ (p r : Nd ℝ) (rs : List ℕ), iw2tauNd ext gf beta moments F nfit = iw2tauEndNd gf (matsubaraNd N beta) beta F p r ∧
      r.dims = (l + nfit) :: 1 :: rs ∧ (p.dims = [l + nfit] ∨ p.dims = (l + nfit) :: 1 :: ms) ∧ bcast ms rs = some rs ∧
      bcast gs rs = some s ∧
      ∀ i, iw2tauPoles ext (fun k : Fin N => gf.at (k :: i)) beta (fun k : Fin l => moments.at (k :: i)) nfit
        = .ok ⟨fun k => p.at (k :: 0 :: i), fun k => r.at (k :: 0 :: i)⟩ by
    obtain ⟨p, r, rs, e1, e2, e3, e4, e5, e6⟩ := h
    obtain ⟨b, b1, b2, b3⟩ := iwEnd gf beta hb N (2 * N + 1) (l + nfit) F f hF p r gs ms rs s hg e2 e3 e4 e5
    refine ⟨b, e1.trans b1, b2, fun i hi => ?_⟩
    obtain ⟨gt, c1, c2⟩ := b3 i hi
    beta_reduce
    unfold iw2tau
    rw [e6]
    simp only
    rw [c1]
    simp only
    rw [evalTauGrid_ok _ hb]
    simp only
    congr 1
    funext k
    rw [c2]
  cases nfit with
  | zero =>
    obtain ⟨p, r, e1, e2, e3, e4⟩ := momStack l (1 :: ms) m2 hm2 (some 1) (by simp)
    refine ⟨p, r, ms, ?_, e2, e3.symm, bcast_self _, hs, fun i => ?_⟩
    · unfold iw2tauNd
      rw [hg]
      simp only [ne_eq, not_true_eq_false, if_false, hm1, okBind]
      rw [show gfFromMomentsNd m2 (some (Nd.scalar 1)) = .ok (p, r) from e1]
      rfl
    · unfold iw2tauPoles
      simp only
      have := e4 (0 :: proj ms i)
      have hmi : (fun k : Fin l => m2.at (k :: 0 :: proj ms i)) = fun k : Fin l => moments.at (k :: i) := by
        funext k
        rw [hm2at, Nd.at, Nd.at, hm, proj_cons, proj_cons]
        simp only [List.headD_cons, List.tail_cons, proj_self]
      rw [hmi] at this
      rw [this]
      have hk : ∀ k : Fin l, (if l = 1 then 0 else (k : ℕ)) = k := by
        intro k
        have := k.2
        split_ifs <;> omega
      congr 2
      · funext k
        rcases e3 with h | h
        · rw [Nd.at, Nd.at, h]
          simp only [proj_cons, List.headD_cons, List.tail_cons, proj_self]
        · rw [Nd.at, Nd.at, h]
          rfl
      · funext k
        rw [Nd.at, e2]
        simp only [proj_cons, List.headD_cons, List.tail_cons, if_true, hk]
  | succ nf =>
    obtain ⟨p, r, e1, e2, e3, e4⟩ := fromZStack ext (matsubaraNd N beta) g2 (l + (nf + 1)) (by omega) m2 (some 1)
      (some ((matsubaraNd N beta).map fun z => z.im ^ (l + (nf + 1)))) N l [] (1 :: gs) (1 :: ms) (1 :: s) rfl hg2 hm2 (by omega)
      (fun h => by rw [hms h (by omega)]; simp [bcast_cons]) (fun w h => ⟨[], by cases h; rfl, rfl⟩)
      (by rw [bcastAll_cons, bcastAll_cons, bcastAll_one, bc_nil_left, bc_some, bcast_cons, hs]; simp)
    refine ⟨p, r, s, ?_, e2, e3, hmss, hgss, fun i => ?_⟩
    · unfold iw2tauNd
      rw [hg]
      simp only [ne_eq, Nat.succ_ne_zero, not_false_eq_true, if_true, hm, List.headD_cons, hm1, hg1, okBind, e1]
    · unfold iw2tauPoles
      simp only
      have h4 := e4 (0 :: i)
      have hz : (fun k : Fin N => (matsubaraNd N beta).at ((k : ℕ) :: 0 :: i)) = fun k : Fin N => matsubaraFrequencies (k : ℕ) beta := by
        funext k
        unfold matsubaraNd
        rw [vec_at _ _ k.2]
      have hw : ((some ((matsubaraNd N beta).map fun z => z.im ^ (l + (nf + 1)))).map fun (w : Nd ℝ) (k : Fin N) => w.at ((k : ℕ) :: 0 :: i))
          = some fun k : Fin N => (matsubaraFrequencies (k : ℕ) beta).im ^ (l + (nf + 1)) := by
        rw [Option.map_some]
        congr 1
        funext k
        have := congrFun hz k
        rw [← this]
        rfl
      rw [hz, hw] at h4
      simp only [hm2at, hg2at] at h4
      exact h4

/-- The fit of imaginary-time data without weights for stacks of data and moments. -/
private lemma fromTauStack (ext : LinalgExt ℝ) (gfTau : Nd ℝ) (n : ℕ) (beta : ℝ) (hb : 0 ≤ beta) (moments : Nd ℝ) (width : ℝ)
    (nt l : ℕ) (gs ms s : List ℕ) (hg : gfTau.dims = nt :: gs) (hm : moments.dims = l :: ms) (hl : 0 < l) (hln : l ≤ n)
    (hs : bcast gs ms = some s) :
    ∃ r : Nd ℝ, gfFromTauNd ext gfTau n beta moments width none = .ok r ∧ r.dims = n :: s ∧
      ∀ i, gfFromTau ext (fun k : Fin nt => gfTau.at (k :: i)) n beta (fun k : Fin l => moments.at (k :: i)) 0 width none
        = .ok ⟨fun k => width * chebyshevPoints n k, fun k => r.at (k :: i)⟩ := by
  classical
  have hn : n ≠ 0 := by omega
  have htau := tauAll hb nt
  obtain ⟨A, hA⟩ : ∃ A, A = fitMatTau (k := nt) beta (fun k => width * chebyshevPoints n k) (fun _ => 1) := ⟨_, rfl⟩
  have hexp : ∀ i, gfFromTau ext (fun k : Fin nt => gfTau.at (k :: i)) n beta
      (fun k : Fin l => moments.at (k :: i)) 0 width none
      = match lstsqEc ext A (fun k => gfTau.at (k :: i)) (vanderT ℝ l fun k => width * chebyshevPoints n k)
          (fun k : Fin l => moments.at (k :: i)) with
        | .ok resid => .ok ⟨fun k => width * chebyshevPoints n k, resid⟩
        | .error e => .error e := by
    intro i
    unfold gfFromTau
    rw [if_neg hn]
    simp only
    rw [if_neg (not_not.2 htau), if_pos (.inl hl), show (none : Option (Fin nt → ℝ)).getD (fun _ => 1) = fun _ => 1 from rfl, ← hA]
    have h0 : truncInt 0 = 0 := by simp [truncInt]
    simp only [h0, add_zero, Nat.cast_lt, ne_eq, not_true_eq_false, if_false, if_neg hl.ne', not_lt.2 hln, one_mul]
    cases lstsqEc ext A (fun k => gfTau.at (k :: i)) (vanderT ℝ l fun k => width * chebyshevPoints n k)
      (fun k : Fin l => moments.at (k :: i)) <;> rfl
  have hmat : (Matrix.of fun (i : Fin nt) (j : Fin n) => (⟨[n, nt], fun i => if h : i.tail.headD 0 < nt ∧ i.headD 0 < n then
        singlePoleGfTau (linspace0 beta nt ⟨_, h.1⟩) (width * chebyshevPoints n ⟨_, h.2⟩) beta else 0⟩ : Nd ℝ).get [(j : ℕ), (i : ℕ)]) = A := by
    rw [hA]
    ext i j
    simp [fitMatTau]
  have hix : ∀ i, bcast gs s = some s ∧ bcast ms s = some s ∧ (fun k : Fin nt => gfTau.at (k :: proj s i)) = (fun k : Fin nt => gfTau.at (k :: i))
      ∧ (fun k : Fin l => moments.at (k :: proj s i)) = (fun k : Fin l => moments.at (k :: i)) := by
    intro i
    have h1 : bcast gs s = some s := by
      rw [← bc_some, ← hs, ← bc_some]
      bc_simp
    have h2 : bcast ms s = some s := by
      rw [← bc_some, ← hs, ← bc_some]
      bc_simp
    refine ⟨h1, h2, ?_, ?_⟩
    · funext k
      rw [Nd.at, Nd.at, hg, proj_cons, proj_cons]
      simp only [List.headD_cons, List.tail_cons]
      rw [proj_proj_left h1]
    · funext k
      rw [Nd.at, Nd.at, hm, proj_cons, proj_cons]
      simp only [List.headD_cons, List.tail_cons]
      rw [proj_proj_left h2]
  refine ⟨⟨n :: s, fun i => match lstsqEc ext A (fun k : Fin nt => gfTau.at (k :: i.tail)) (vanderT ℝ l fun k => width * chebyshevPoints n k)
    (fun k : Fin l => moments.at (k :: i.tail)) with
    | .ok r => if h : i.headD 0 < n then r ⟨_, h⟩ else 0
    | .error _ => 0⟩, ?_, rfl, fun i => ?_⟩
  · unfold gfFromTauNd
    rw [hg, hm]
    simp only
    rw [if_neg hn, if_neg (not_not.2 htau)]
    simp only [okBind, if_pos hl, if_neg (not_lt.2 hln), hg, hmat, ne_eq, not_true_eq_false, if_false, hs]
    rw [if_neg]
    · rfl
    rintro ⟨i, -, e, he⟩
    obtain ⟨x, hx⟩ := lstsqEc_ok ext A (fun k : Fin nt => gfTau.at (k :: i)) (vanderT ℝ l fun k => width * chebyshevPoints n k)
      (fun k : Fin l => moments.at (k :: i)) hln
    rw [hx] at he
    cases he
  · rw [hexp]
    obtain ⟨-, -, h3, h4⟩ := hix i
    obtain ⟨x, hx⟩ := lstsqEc_ok ext A (fun k : Fin nt => gfTau.at (k :: i)) (vanderT ℝ l fun k => width * chebyshevPoints n k)
      (fun k : Fin l => moments.at (k :: i)) hln
    rw [hx]
    simp only
    congr 2
    funext k
    have hk : (if n = 1 then 0 else (k : ℕ)) = k := by
      have := k.2
      split_ifs <;> omega
    rw [Nd.at]
    simp only [proj_cons, List.headD_cons, List.tail_cons, hk, h3, h4, hx, Fin.is_lt, ↓reduceDIte, Fin.eta]

private lemma tauEnd (gf : Nd ℝ) (beta : ℝ) (hb : 0 ≤ beta) (N M n : ℕ) (F : Nd ℝ → ℝ → Except Err (Nd ℂ))
    (f : (Fin N → ℝ) → ℝ → Except Err (Fin M → ℂ)) (hF : RowWise (F · beta) (f · beta)) (p r : Nd ℝ) (gs ms rs s : List ℕ)
    (hg : gf.dims = N :: gs) (e2 : r.dims = n :: 1 :: rs) (e3 : p.dims = [n] ∨ p.dims = n :: 1 :: ms)
    (hm : bcast ms rs = some rs) (hs : bcast gs rs = some s) :
    ∃ b, tau2iwEndNd gf beta F p r = .ok b ∧ b.dims = M :: s ∧ ∀ i, InRange i s →
      ∃ gi, f (fun k => gf.at (k :: i) - ∑ j : Fin n, r.at (j :: 0 :: i) * singlePoleGfTau (linspace0 beta N k) (p.at (j :: 0 :: i)) beta) beta
          = .ok gi ∧
        ∀ k : Fin M, b.get (k :: i) = gi k + (⟨fun j : Fin n => p.at (j :: 0 :: i), fun j => r.at (j :: 0 :: i)⟩ : PoleFct ℝ n).evalZ
          (matsubaraFrequencies (k : ℕ) beta) := by
  obtain ⟨q1, q2, hrat, hpat⟩ := poleShape e2 e3 hm N
  obtain ⟨q1', q2', -, -⟩ := poleShape e2 e3 hm M
  have htau := gf_tau_rep (linspaceNd beta N) p r (Nd.scalar beta) n q1 (linspaceNd_range hb N)
  rw [show bcastAll [(linspaceNd beta N).dims, (Nd.scalar beta).dims, p.dims.tail, r.dims.tail]
    = (some rs).map (N :: ·) by
      rw [bcastAll_cons, bcastAll_cons, bcastAll_cons, bcastAll_one, show (Nd.scalar beta).dims = [] from rfl, bc_nil_left]
      exact q2] at htau
  obtain ⟨pt, p1, p2, p3⟩ := htau
  have hpt : Rep (.ok pt) ((some rs).map (N :: ·)) _ := ⟨pt, rfl, p2, p3⟩
  have hdl := Rep.map2' (Rep.ofCons hg) hpt (fun x y : ℝ => x - y)
  rw [bc_map_cons (bdim_self _), bc_some, hs] at hdl
  obtain ⟨g, g1, g2, g3⟩ := hdl
  have hgr : Rep (.ok g) ((some s).map (N :: ·)) _ := ⟨g, rfl, g2, g3⟩
  obtain ⟨gi, t1, t2, t3⟩ := hF g s g2
  beta_reduce at t1
  have hmom := gf_z_rep (matsubaraNd M beta) (p.map fun x : ℝ => (x : ℂ)) (r.map fun x : ℝ => (x : ℂ)) n q1'
  rw [show bcastAll [(matsubaraNd M beta).dims, (p.map fun x : ℝ => (x : ℂ)).dims.tail, (r.map fun x : ℝ => (x : ℂ)).dims.tail]
    = (some rs).map (M :: ·) by rw [bcastAll_cons, bcastAll_cons, bcastAll_one]; exact q2'] at hmom
  obtain ⟨mom, m1, m2, m3⟩ := hmom
  have hmom : Rep (.ok mom) ((some rs).map (M :: ·)) _ := ⟨mom, rfl, m2, m3⟩
  have hb := Rep.imap2' (Rep.ofCons t2) hmom (by
    rw [bc_map_cons (bdim_self _), ← hs, ← bc_some]
    bc_simp) (fun x y : ℂ => x + y)
  obtain ⟨b, b1, b2, b3⟩ := hb
  have hbr : Rep (.ok b) ((some s).map (M :: ·)) _ := ⟨b, rfl, b2, b3⟩
  refine ⟨b, ?_, b2, fun i hi => ⟨fun k => gi.get (k :: i), ?_, fun k => ?_⟩⟩
  · unfold tau2iwEndNd
    rw [hg]
    simp only [m1, okBind, g1, t1, t2, List.headD_cons, p1]
    exact b1
  · have := t3 i hi
    beta_reduce at this
    rw [← this]
    congr 1
    funext k
    rw [hgr.at_eq]
    congr 1
    refine Finset.sum_congr rfl fun j _ => ?_
    rw [hpat i j k, hrat i j k]
    congr 2
    unfold linspaceNd
    rw [vec_at _ _ k.2, vecGet_fin]
  · rw [← get_at b2 hi k.2, hbr.at_eq]
    simp only
    rw [get_at t2 hi k.2]
    congr 1
    unfold PoleFct.evalZ
    unfold matsubaraNd
    rw [vec_at _ _ k.2]
    congr 1
    · funext j
      change ((p.at _ : ℝ) : ℂ) = _
      rw [hpat]
    · funext j
      change ((r.at _ : ℝ) : ℂ) = _
      rw [hrat]

private lemma tauMoments (ext : LinalgExt ℝ) (gf : Nd ℝ) (beta : ℝ) (hb : 0 ≤ beta) (m : Nd ℝ) (T l n : ℕ)
    (F : Nd ℝ → ℝ → Except Err (Nd ℂ)) (f : (Fin (T + 1) → ℝ) → ℝ → Except Err (Fin ((T + 1) / 2) → ℂ))
    (hF : RowWise (F · beta) (f · beta)) (gs ms s : List ℕ) (hg : gf.dims = (T + 1) :: gs) (hm : m.dims = l :: ms)
    (hl : 0 < l) (hln : l ≤ n) (hs : bcast gs ms = some s) :
    StackedRows (do
        let g2 ← gf.newaxis2
        let m2 ← m.newaxis2
        let resid ← gfFromTauNd ext g2 n beta m2 1 none
        tau2iwEndNd gf beta F ((chebNd n).map (1 * ·)) resid) (some s)
      fun i => tau2iwMoments ext (fun k : Fin (T + 1) => gf.at (k :: i)) beta n (fun k : Fin l => m.at (k :: i)) f := by
  obtain ⟨m2, hm1, hm2, hm3⟩ := (Rep.ofCons hm).newaxis2'
  obtain ⟨g2, hg1, hg2, hg3⟩ := (Rep.ofCons hg).newaxis2'
  simp only at hm2 hg2
  have hm2at : ∀ i (k w : ℕ), m2.at (k :: w :: i) = m.at (k :: i) := by
    intro i k w
    have := hm3 (k :: w :: i)
    simp only [List.headD_cons, List.tail_cons] at this
    rw [← this, Nd.at, hm2]
  have hg2at : ∀ i (k w : ℕ), g2.at (k :: w :: i) = gf.at (k :: i) := by
    intro i k w
    have := hg3 (k :: w :: i)
    simp only [List.headD_cons, List.tail_cons] at this
    rw [← this, Nd.at, hg2]
  have hgss : bcast gs s = some s := by
    rw [← bc_some, ← hs, ← bc_some]
    bc_simp
  have hmss : bcast ms s = some s := by
    rw [← bc_some, ← hs, ← bc_some]
    bc_simp
  obtain ⟨r, r1, r2, r3⟩ := fromTauStack ext g2 n beta hb m2 1 (T + 1) l (1 :: gs) (1 :: ms) (1 :: s) hg2 hm2 hl hln
    (by rw [bcast_cons, hs]; simp)
  obtain ⟨b, b1, b2, b3⟩ := tauEnd gf beta hb (T + 1) ((T + 1) / 2) n F f hF ((chebNd n).map (1 * ·)) r gs ms s s hg r2 (.inl rfl) hmss hgss
  refine ⟨b, ?_, b2, fun i hi => ?_⟩
  · simp only [hg1, hm1, okBind, r1, b1]
  · obtain ⟨gi, c1, c2⟩ := b3 i hi
    have hr := r3 (0 :: i)
    simp only [hm2at, hg2at] at hr
    have hp : ∀ j : Fin n, ((chebNd n).map (1 * ·)).at ((j : ℕ) :: 0 :: i) = 1 * chebyshevPoints n j := by
      intro j
      change 1 * (chebNd n).at _ = _
      unfold chebNd
      rw [vec_at _ _ j.2, dif_pos j.2]
    simp only [hp] at c1 c2
    beta_reduce
    unfold tau2iwMoments
    rw [hr]
    simp only
    rw [evalTauGrid_ok _ hb]
    simp only
    rw [c1]
    simp only
    congr 1
    funext k
    rw [c2]

/-- `tau2iw` for stacks of data and moments, if the transformation treats the leading axes as stack (`tau2iw_dft_stack`,
`tau2iw_ft_lin_stack`), with the number of poles at least the number of moments. -/
theorem tau2iw_stack_partial (ext : LinalgExt ℝ) (gf : Nd ℝ) (beta : ℝ) (hb : 0 ≤ beta) (moments : Nd ℝ) (npole : Option ℕ) (T l : ℕ)
    (F : Nd ℝ → ℝ → Except Err (Nd ℂ)) (f : (Fin (T + 1) → ℝ) → ℝ → Except Err (Fin ((T + 1) / 2) → ℂ))
    (hF : RowWise (F · beta) (f · beta)) (gs ms : List ℕ) (hg : gf.dims = (T + 1) :: gs) (hm : moments.dims = l :: ms)
    (hl : 0 < l) (hln : l ≤ npole.getD l) :
    StackedRows (tau2iwNd ext gf beta npole (some moments) F) (bcast gs ms)
      fun i => tau2iw ext (fun k : Fin (T + 1) => gf.at (k :: i)) beta npole (some ⟨l, fun k : Fin l => moments.at (k :: i)⟩) f := by
  have hmom : ∃ m1 : Nd ℝ, m1.dims = gs ∧ ∃ m0 : Nd ℝ, m0.dims = ms ∧ tau2iwMomNd gf (some moments)
      = (Nd.map2 (fun a b => |a - b|) m1 m0 >>= fun _ => .ok moments) := by
    refine ⟨⟨gs, fun i => -(⟨gs, fun i => gf.get (T :: i)⟩ : Nd ℝ).at i - (⟨gs, fun i => gf.get (0 :: i)⟩ : Nd ℝ).at i⟩, rfl,
      ⟨ms, fun i => moments.get (0 :: i)⟩, rfl, ?_⟩
    unfold tau2iwMomNd
    rw [hg, List.headD_cons, Nat.add_sub_cancel, select_ok hg (by omega), okBind, select_ok hg (by omega), okBind,
      map2_ok (s := gs) _ (bcast_self gs), okBind]
    simp only
    rw [select_ok hm hl, okBind]
  obtain ⟨m1, hd1, m0, hd0, hmom⟩ := hmom
  rcases hs : bcast gs ms with _ | s
  · change _ = _
    unfold tau2iwNd
    rw [hmom, Nd.map2, hd1, hd0, hs]
    rfl
  · have h2 : ∃ x, Nd.map2 (fun a b => |a - b|) m1 m0 = .ok x := ⟨_, map2_ok (s := s) _ (by rw [hd1, hd0]; exact hs)⟩
    obtain ⟨x, hx⟩ := h2
    unfold tau2iwNd
    rw [hmom, hx, okBind, okBind]
    simp only [hm, List.headD_cons]
    unfold tau2iw
    simp only [if_neg hl.ne']
    exact tauMoments ext gf beta hb moments T l _ F f hF gs ms s hg hm hl hln hs

/-- The same with the default of the moments, which is the jump of every element. -/
theorem tau2iw_stack_default_partial (ext : LinalgExt ℝ) (beta : ℝ) (hb : 0 ≤ beta) (npole : Option ℕ) (T : ℕ)
    (F : Nd ℝ → ℝ → Except Err (Nd ℂ)) (f : (Fin (T + 1) → ℝ) → ℝ → Except Err (Fin ((T + 1) / 2) → ℂ))
    (hF : RowWise (F · beta) (f · beta)) (hn : npole ≠ some 0) :
    RowWise (fun gf => tau2iwNd ext gf beta npole none F) fun g : Fin (T + 1) → ℝ => tau2iw ext g beta npole none f := by
  intro gf gs hg
  beta_reduce
  have hmom : ∃ m1 : Nd ℝ, m1.dims = gs ∧ (∀ i, m1.at i = tauJump fun k : Fin (T + 1) => gf.at (k :: i)) ∧
      tau2iwMomNd gf none = .ok m1.newaxis := by
    refine ⟨⟨gs, fun i => -(⟨gs, fun i => gf.get (T :: i)⟩ : Nd ℝ).at i - (⟨gs, fun i => gf.get (0 :: i)⟩ : Nd ℝ).at i⟩, rfl,
      fun i => ?_, ?_⟩
    · unfold tauJump
      simp only [Nd.at, hg, proj_cons, List.headD_cons, List.tail_cons, proj_self, Fin.val_last, Fin.val_zero, ite_self]
      have : (if T + 1 = 1 then 0 else T) = T := by split_ifs <;> omega
      rw [this]
    · unfold tau2iwMomNd
      rw [hg, List.headD_cons, Nat.add_sub_cancel, select_ok hg (by omega), okBind, select_ok hg (by omega), okBind,
        map2_ok (s := gs) _ (bcast_self gs), okBind]
  obtain ⟨m1, hd1, hat, hmom⟩ := hmom
  have h := tauMoments ext gf beta hb m1.newaxis T 1 (npole.getD 1) F f hF gs gs gs hg (by rw [Nd.newaxis, hd1]) one_pos
    (by cases npole with
        | none => simp
        | some k => cases k <;> simp_all) (bcast_self gs)
  unfold tau2iwNd
  rw [hmom, okBind]
  unfold tau2iw
  have hj : ∀ i, (fun k : Fin 1 => m1.newaxis.at ((k : ℕ) :: i)) = fun _ => tauJump fun k : Fin (T + 1) => gf.at (k :: i) := by
    intro i
    funext k
    rw [← hat, Nd.at, Nd.at]
    rfl
  simp only [hj] at h
  exact h

/-- Three Green's functions on four frequencies share two moments: the rows are transformed independently. -/
example (ext : LinalgExt ℝ) (g : List ℕ → ℂ) :
    StackedRows (iw2tauNd ext ⟨[4, 3], g⟩ 10 (Nd.vec 2 fun k => (k : ℝ) + 1) iw2tauDftNd 3) (some [3])
      fun i => iw2tau ext (fun k : Fin 4 => (⟨[4, 3], g⟩ : Nd ℂ).at (k :: i)) 10
        (fun k : Fin 2 => (Nd.vec 2 fun k => (k : ℝ) + 1).at (k :: i)) iw2tauDft 3 :=
  iw2tau_stack_partial ext _ 10 (by norm_num) _ 4 2 3 _ _ (iw2tau_dft_stack 4 (by norm_num) 10) [3] [] [3] rfl rfl (by simp) rfl

/-- `tau2iv` of three functions with both transformations. -/
example (g : List ℕ → ℝ) : StackedRows (tau2ivNd ⟨[5, 3], g⟩ 10 tau2ivFtLinNd) (some [3])
    fun i => tau2iv (fun k : Fin (4 + 1) => (⟨[5, 3], g⟩ : Nd ℝ).at (k :: i)) 10 tau2ivFtLin :=
  tau2iv_stack 4 10 _ _ (tau2iv_ft_lin_stack 4 (by norm_num) 10) ⟨[5, 3], g⟩ [3] rfl

/-- `tau2iw` of a 2 × 3 stack of functions, each row of the stack with its own two moments. -/
example (ext : LinalgExt ℝ) (g m : List ℕ → ℝ) :
    StackedRows (tau2iwNd ext ⟨[5, 3, 2], g⟩ 10 (some 4) (some ⟨[2, 1, 2], m⟩) tau2iwFtLinNd) (some [3, 2])
      fun i => tau2iw ext (fun k : Fin (4 + 1) => (⟨[5, 3, 2], g⟩ : Nd ℝ).at (k :: i)) 10 (some 4)
        (some ⟨2, fun k : Fin 2 => (⟨[2, 1, 2], m⟩ : Nd ℝ).at (k :: i)⟩) tau2iwFtLin :=
  tau2iw_stack_partial ext _ 10 (by norm_num) _ (some 4) 4 2 _ _ (tau2iw_ft_lin_stack 4 (by norm_num) 10) [3, 2] [1, 2] rfl rfl
    (by norm_num) (by simp)

/-! ## Failures -/

/-- C70: for a single time the transformations of stacks, of all shapes, fail with the exception of the transformation of
one function. -/
theorem tau_transform_stack_single (a : Nd ℝ) (s : List ℕ) (h : a.dims = 1 :: s) (beta : ℝ) (g : Fin (0 + 1) → ℝ) :
    (tau2ivDftNd a beta = .error .zeroDivision ∧ tau2ivDft g beta = .error .zeroDivision) ∧
    (tau2ivFtLinNd a beta = .error .valueError ∧ tau2ivFtLin g beta = .error .valueError) ∧
    (tau2iwDftNd a beta = .error .valueError ∧ tau2iwDft g beta = .error .valueError) ∧
    (tau2iwFtLinNd a beta = .error .valueError ∧ tau2iwFtLin g beta = .error .valueError) := by
  obtain ⟨full, hf, hd⟩ : ∃ full, fullRangeNd a = .ok full ∧ full.dims = 1 :: s := by
    unfold fullRangeNd
    rw [slice_ok h, okBind]
    unfold Nd.concat
    simp [Nd.map, h]
  refine ⟨⟨?_, ?_⟩, ⟨?_, ?_⟩, ⟨?_, ?_⟩, ⟨?_, ?_⟩⟩
  · unfold tau2ivDftNd
    rw [h]
    rfl
  · unfold tau2ivDft
    exact if_pos rfl
  · unfold tau2ivFtLinNd
    rw [h]
    simp only
    rw [slice_ok h, okBind]
    rfl
  · unfold tau2ivFtLin ihfft
    rfl
  · unfold tau2iwDftNd
    rw [hf, okBind, hd, slice_ok hd, okBind]
    rfl
  · unfold tau2iwDft ihfft
    rfl
  · unfold tau2iwFtLinNd
    rw [hf, okBind, hd]
    simp only
    rw [slice_ok hd, okBind]
    rfl
  · unfold tau2iwFtLin ihfft
    rfl

/-- C70: for no frequency at all the transformations of stacks fail with the exception of the transformation of one
function. -/
theorem iw_transform_stack_empty (a : Nd ℂ) (s : List ℕ) (h : a.dims = 0 :: s) (beta : ℝ) (g : Fin 0 → ℂ) :
    (iw2tauDftNd a beta = .error .valueError ∧ iw2tauDft g beta = .error .valueError) ∧
    (iw2tauDftSoftNd a beta = .error .valueError ∧ iw2tauDftSoft g beta = .error .valueError) := by
  refine ⟨⟨?_, ?_⟩, ?_, ?_⟩
  · unfold iw2tauDftNd
    rw [h]
    rfl
  · rfl
  · unfold iw2tauDftSoftNd
    rw [h]
    simp only
    rw [slice_ok h, okBind]
    rw [map2_ok (s := 0 :: s) _ (bcast_vec 0 s), okBind]
    unfold Nd.concat
    rw [h]
    simp only [if_true, okBind]
    rfl
  · rfl

end Gftool.Props
