import Verif.Model.Memory
import Verif.Model.Pade

/-!
# The generator `calc_iterator` in memory

`calc_iterator` is a python generator: its code runs only inside of `next`, between two `yield` the caller executes
arbitrary code. The yielded array is a view (`reshape` of a contiguous array) of the array with which the generator
goes on.

`coeff` has the shape `(σ, N + 1)`, `z_out` the shape `ι`. An array of zero coefficients is not modelled.
-/

namespace Gftool.Model

open MM

variable {σ ι : Type} {N M : ℕ}

/-- An array broadcast along additional leading axes (numpy; strides 0). -/
def Arr.bcast (σ : Type) (a : Arr ι) : Arr (σ × ι) := ⟨a.addr, fun p => a.pos p.2⟩

/-- The frame of the generator `calc_iterator`, pade.py:351-403: before the first `next` there are only the arguments;
at the `yield` in iteration `k - 1` of the loop there are the local variables `multiplier`, `pade`, `pade_prev`, `B2`. -/
inductive PadeGen (σ ι : Type) (N M : ℕ) where
  | created (zOut : Arr ι) (zIn : Arr (Fin M)) (coeff : Arr (σ × Fin (N + 1)))
  | running (mult : Arr (Fin N × σ × ι)) (k : ℕ) (pade prev b2 : Arr (σ × ι))
  | finished

/-- Iteration `k` of the loop of `calc_iterator`, pade.py:398-403, up to `yield` or the end of the loop (`none`). -/
noncomputable def padeGenLoop [Encodable σ] [Encodable ι] (mult : Arr (Fin N × σ × ι)) (k : ℕ)
    (pade prev b2 : Arr (σ × ι)) : MM ℂ (Option (Arr (σ × ι)) × PadeGen σ ι N M) :=
  if h : k < N then do
    let multVal ← read mult
    let b2Val ← read b2
    let multIm ← new fun p : σ × ι => multVal (⟨k, h⟩, p) / b2Val p
    let multImVal ← read multIm
    let b2' ← new fun p : σ × ι => 1 + multImVal p
    let b2Val' ← read b2'
    let padeVal ← read pade
    let prevVal ← read prev
    let pade' ← new fun p : σ × ι => (padeVal p + multImVal p * prevVal p) / b2Val' p
    pure (some pade', .running mult (k + 1) pade' pade b2')
  else pure (none, .finished)

/-- `next` of the generator `calc_iterator`, pade.py:384-403; `none` stands for `StopIteration`. -/
noncomputable def padeGenNext [Encodable σ] [Encodable ι] :
    PadeGen σ ι N M → MM ℂ (Option (Arr (σ × ι)) × PadeGen σ ι N M)
  | .created zOut zIn coeff =>
    if h : N + 1 = M then do
      let zOutVal ← read zOut
      let id1 ← new fun _ : ι => 1
      let id1Val ← read id1
      let prev ← new fun i : ι => 0 * id1Val i
      let coeffVal ← read coeff
      let pade ← new fun p : σ × ι => coeffVal (p.1, 0) * id1Val p.2
      let zInVal ← read zIn
      let mult ← new fun p : σ × Fin N × ι =>
        (zOutVal p.2.2 - zInVal (Fin.cast h p.2.1.castSucc)) * coeffVal (p.1, p.2.1.succ)
      let multVal ← read mult
      let mult' ← new fun p : Fin N × σ × ι => multVal (p.2.1, p.1, p.2.2)
      padeGenLoop mult' 0 pade (prev.bcast σ) (id1.bcast σ)
    else raise .assertionError
  | .running mult k pade prev b2 => padeGenLoop mult k pade prev b2
  | .finished => pure (none, .finished)

/-- The generator, the memory and what the calls of `next` have given. -/
structure PadeSession (σ ι : Type) (N M : ℕ) where
  gen : PadeGen σ ι N M
  mem : Mem ℂ
  out : List (Except Err (Option (Arr (σ × ι))))

/-- One call of `next`; a generator that raised is finished (python). -/
noncomputable def PadeSession.next [Encodable σ] [Encodable ι] (s : PadeSession σ ι N M) : PadeSession σ ι N M :=
  match padeGenNext s.gen s.mem with
  | (.ok (y, g), m) => ⟨g, m, s.out ++ [.ok y]⟩
  | (.error e, m) => ⟨.finished, m, s.out ++ [.error e]⟩

/-- The caller executes code, which may depend on everything obtained up to now. -/
def PadeSession.caller (s : PadeSession σ ι N M)
    (act : List (Except Err (Option (Arr (σ × ι)))) → Mem ℂ → Mem ℂ) : PadeSession σ ι N M :=
  { s with mem := act s.out s.mem }

/-- A history: `it = calc_iterator(z_out, z_in, coeff)`, then `k` times code `act` of the caller and `next(it)`. -/
noncomputable def padeSession [Encodable σ] [Encodable ι]
    (act : List (Except Err (Option (Arr (σ × ι)))) → Mem ℂ → Mem ℂ) (zOut : Arr ι) (zIn : Arr (Fin M))
    (coeff : Arr (σ × Fin (N + 1))) (m : Mem ℂ) : ℕ → PadeSession σ ι N M
  | 0 => ⟨.created zOut zIn coeff, m, []⟩
  | k + 1 => ((padeSession act zOut zIn coeff m k).caller act).next

end Gftool.Model
