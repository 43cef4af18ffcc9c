import Verif.Model.Generator
import Verif.Spec.Memory

/-!
# Specification of histories of a generator
-/

namespace Gftool.Spec

open Gftool Model

variable {σ ι : Type} {N M : ℕ}

/-- The finite sequence as function of natural numbers. -/
def extend {n : ℕ} (f : Fin n → ℂ) (j : ℕ) : ℂ := if h : j < n then f ⟨j, h⟩ else 0

/-- The approximant with `k + 2` coefficients for the arguments `z_out`, `z_in`, `coeff` with the contents they have in
the memory `m`. -/
noncomputable def approximant (m : Mem ℂ) (zOut : Arr ι) (zIn : Arr (Fin M)) (coeff : Arr (σ × Fin (N + 1))) (k : ℕ) :
    σ × ι → ℂ :=
  fun p => (padeState (contents m zOut p.2) (extend (contents m zIn)) (extend fun j => contents m coeff (p.1, j))
    (k + 1)).pade

section

variable [Encodable σ] [Encodable ι] (act : List (Except Err (Option (Arr (σ × ι)))) → Mem ℂ → Mem ℂ) (zOut : Arr ι)
  (zIn : Arr (Fin M)) (coeff : Arr (σ × Fin (N + 1))) (m : Mem ℂ)

/-- The memory when `next` is called the `k`-th time (counted from 0). -/
noncomputable def memBefore (k : ℕ) : Mem ℂ := ((padeSession act zOut zIn coeff m k).caller act).mem

/-- The memory after the `k`-th call of `next` (counted from 1), before the caller goes on. -/
noncomputable def memAfter (k : ℕ) : Mem ℂ := (padeSession act zOut zIn coeff m k).mem

/-- The buffers which the first `k` calls of `next` have allocated. -/
def genBuffers (k : ℕ) : Set ℕ :=
  {a | ∃ j < k, (memBefore act zOut zIn coeff m j).next ≤ a ∧ a < (memAfter act zOut zIn coeff m (j + 1)).next}

/-- The result of the `k`-th call of `next` (counted from 0). -/
noncomputable def nextResult (k : ℕ) : Except Err (Option (Arr (σ × ι))) :=
  ((padeSession act zOut zIn coeff m (k + 1)).out[k]?).getD (.ok none)

/-- The buffer `a` is that of an array yielded before the last two of `k` calls. -/
def OldYield (k a : ℕ) : Prop :=
  ∃ j, j + 2 < k ∧ ∃ y, nextResult act zOut zIn coeff m j = .ok (some y) ∧ y.addr = a

/-- The caller does not write to the buffers of the generator; they may write to all their own arrays, including
`z_out`, `z_in`, `coeff`, and also to the yielded arrays except for the last two. -/
def Polite : Prop :=
  ∀ k, (memAfter act zOut zIn coeff m k).next ≤ (memBefore act zOut zIn coeff m k).next ∧
    ∀ a ∈ genBuffers act zOut zIn coeff m k, ¬ OldYield act zOut zIn coeff m k a →
      (memBefore act zOut zIn coeff m k).buf a = (memAfter act zOut zIn coeff m k).buf a

end

end Gftool.Spec
