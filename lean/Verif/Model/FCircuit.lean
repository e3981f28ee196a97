import Verif.Model.FMeasure
import Verif.Model.Gates
import Verif.Model.FuncApply

/-!
# The local backend in rounded arithmetic (`qip/backend.py:68-71, 112-121, 126-134`)

`CythonBackend` once more, with rounded amplitudes.  Only the operations with which `run` drives it are here, with offsets 0.
-/

namespace QIP

variable {A : Arith}

/-- The fields of `CythonBackend`, qip/backend.py:68-71. -/
structure FState (A : Arith) where
  n : Nat
  state : List (FC A)
  arena : List (FC A)

/-- `CythonBackend.kronselect_dot`, qip/backend.py:112-116. -/
noncomputable def FState.kron (b : FState A) (mats : List (Key × Mat (FC A))) (sched : List Nat) (call : Nat) :
    Except PyErr (FState A) := do
  let out ← kronselectDotF call mats b.state b.n b.arena 0 0 sched
  pure { b with state := out, arena := b.state }

/-- `CythonBackend.func_apply`, qip/backend.py:118-121. -/
def FState.func (b : FState A) (reg1 reg2 : List Nat) (f : Nat → Except PyErr Int) (order : List (Nat × Nat × Nat))
    (garb : Nat → Nat) : Except PyErr (FState A) := do
  let out ← backendFuncApply reg1 reg2 f b.n b.state b.arena order garb
  pure { b with state := out, arena := b.state }

/-- `CythonBackend.measure`, qip/backend.py:126-134, not forced, with the draw `x` and the accumulator of `prob_magnitude`
starting at 0 (kronprod.pyx:322 leaves it uninitialised, C27). -/
noncomputable def FState.measure (F : FOps) (b : FState A) (indices : List Nat) (x : ℝ) : Except PyErr (Nat × ℝ × FState A) := do
  let (m, p, out) ← measureF F indices b.n (b.state.map FC.val) (b.arena.map FC.val) 0 0 none none x 0
  pure (m, p, { b with state := out.map FC.mk, arena := b.state })

/-- A call of a method of the backend; `call` says which order of the sums is taken (`Arith.dot`). -/
inductive FCall (A : Arith)
  | kron (mats : List (Key × Mat (FC A))) (sched : List Nat) (call : Nat)
  | func (reg1 reg2 : List Nat) (f : Nat → Except PyErr Int) (order : List (Nat × Nat × Nat)) (garb : Nat → Nat)
  | measure (indices : List Nat)

/-- Calls one after the other, as the runner drives the backend (`NodeFeeder.feed`, qip/pipeline.py:235-240, node after node, C72); every measurement takes the next draw.
Result: the outcomes of the measurements and the backend at the end. -/
noncomputable def floatRun (F : FOps) : List (FCall A) → List ℝ → FState A → Except PyErr (List Nat × FState A)
  | [], _, b => .ok ([], b)
  | .kron mats sched call :: rest, xs, b => do floatRun F rest xs (← b.kron mats sched call)
  | .func reg1 reg2 f order garb :: rest, xs, b => do floatRun F rest xs (← b.func reg1 reg2 f order garb)
  | .measure indices :: rest, xs, b => do
    let (m, _, b') ← b.measure F indices (xs.headD 0)
    let (ms, b'') ← floatRun F rest xs.tail b'
    pure (m :: ms, b'')

end QIP
