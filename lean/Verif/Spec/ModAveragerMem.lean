import Verif.Model.ModAveragerMem
import Verif.Spec.AveragerMem

/-!
# Specification of histories of functions returned by `Mod_Averager`
-/

namespace Gftool.Spec

open Gftool Model

variable {ι : Type} {N M L : ℕ}

/-- The code `mod` calculates `p` at each point. It may write to the approximants it is given, and return them, but to no
other array that exists. -/
def Modifies (mod : ModMem ι) (p : ModFct ℂ) : Prop :=
  match mod, p with
  | .vectorized f, .vectorized g => ∀ (m : Mem ℂ) (z : Arr ι) (pades : List (Arr ι)), Allocated m z →
      (∀ a ∈ pades, Allocated m a ∧ a.addr ≠ z.addr ∧ a.pos.Injective) → (pades.map Arr.addr).Nodup →
      ∃ r m', f z pades m = (.ok r, m') ∧ m.next ≤ m'.next ∧ (∀ b < m.next, b ∉ pades.map Arr.addr → m'.buf b = m.buf b) ∧
        ∀ i, (r.map fun a => contents m' a i) = g (contents m z i) (pades.map fun a => contents m a i)
  | .single f, .single g => ∀ (m : Mem ℂ) (z a : Arr ι), Allocated m z → Allocated m a → a.addr ≠ z.addr →
      a.pos.Injective → ∃ r m', f z a m = (.ok r, m') ∧ m.next ≤ m'.next ∧ (∀ b < m.next, b ≠ a.addr → m'.buf b = m.buf b) ∧
        (r.addr = a.addr ∨ m.next ≤ r.addr ∧ r.addr < m'.next) ∧
        contents m' r = fun i => g (contents m z i) (contents m a i)
  | _, _ => False

/-- The averages of modified approximants, for given contents of `z_in`, `coeff` and `valid_pades`, without memory. -/
noncomputable def modAverageAt (kind : KindSelector) (mod : ModFct ℂ) (valid : List Bool) (zin : Fin M → ℂ)
    (coeff : Fin (N + 1) → ℂ) (z : ℂ) : Except Err AvgResult :=
  match calcIterator z M (N + 1) (extend zin) (extend coeff) with
  | .ok pades => modAverager kind mod valid z pades
  | .error e => .error e

variable [Encodable ι] (f : AvgFct N M L) (mod : ModMem ι)
  (act : List (Except Err (ι → AvgResult)) → Mem ℂ → Mem ℂ × Arr ι) (m : Mem ℂ)

/-- The memory after `k` calls of the function. -/
noncomputable def modMemAfter (k : ℕ) : Mem ℂ := (modSession f mod act m k).mem

/-- The memory when the function is called the `k`-th time (counted from 0). -/
noncomputable def modMemBefore (k : ℕ) : Mem ℂ := (act (modSession f mod act m k).out (modSession f mod act m k).mem).1

/-- The argument of the `k`-th call (counted from 0). -/
noncomputable def modArgument (k : ℕ) : Arr ι := (act (modSession f mod act m k).out (modSession f mod act m k).mem).2

/-- The result of the `k`-th call (counted from 0). -/
noncomputable def modOutcome (k : ℕ) : Except Err (ι → AvgResult) :=
  ((modSession f mod act m (k + 1)).out[k]?).getD (.error .notImplemented)

/-- The caller passes existing arrays, and never writes to the buffers in `s`. -/
def ModLeavesAlone (s : Set ℕ) : Prop :=
  ∀ k, Allocated (modMemBefore f mod act m k) (modArgument f mod act m k) ∧
    (modMemAfter f mod act m k).next ≤ (modMemBefore f mod act m k).next ∧
    ∀ a ∈ s, (modMemBefore f mod act m k).buf a = (modMemAfter f mod act m k).buf a

end Gftool.Spec
