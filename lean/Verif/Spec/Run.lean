import Verif.Model.Run
import Verif.Spec.Graph
import Verif.Spec.Measure

/-!
# Specification: what running a circuit means
-/

namespace QIP.Spec

open Finset

/-- The adjoint of a gate: its matrix, transposed and conjugated. -/
noncomputable def adjApply (n : Nat) (g : Gate) (gs : List (List Nat)) (v : Nat → ℂ) (r : Nat) : ℂ :=
  ∑ c ∈ range (2 ^ n), (starRingEnd ℂ) (gateApply n g gs (fun k => if k = r then 1 else 0) c) * v c

/-- The values of a user's function that does not raise. -/
def fval (f : Nat → Except PyErr Int) (x : Nat) : Int := match f x with | .ok y => y | .error _ => 0

/-- What a node that is not a measurement does to the state. -/
noncomputable def nodeApply (n : Nat) (h : Heap) (args : List Nat) (x : Nat) (v : Nat → ℂ) : Nat → ℂ :=
  match h.kind x with
  | .gate g false => gateApply n g (groups h args x) v
  | .gate g true => adjApply n g (groups h args x) v
  | .fop f => fun r => ∑ c ∈ (range (2 ^ n)).filter (fun c =>
      OraclePre n ((groups h args x).getD 0 []) ((groups h args x).getD 1 []) (fval f) r c), v c
  | _ => v

/-- What a node may do to the state, and the classical result it may report. -/
def StepSpec (n : Nat) (h : Heap) (args : List Nat) (x : Nat) (v v' : Nat → ℂ) (c : Classic) : Prop :=
  let idx := (groups h args x).flatten
  match h.kind x with
  | .measure => ∃ m p, c = .bits m p ∧ m < 2 ^ idx.length ∧ p = outcomeProb n idx v m ∧ 0 < p ∧
      ∀ r < 2 ^ n, v' r = if subIndex n (inOrder n idx) r = m then v r / ((√p : ℝ) : ℂ) else 0
  | .smeasure k => (∀ r < 2 ^ n, v' r = v r) ∧
      if k = 0 then ∃ ps, c = .probs ps ∧ ps.length = 2 ^ idx.length ∧
        ∀ b < 2 ^ idx.length, ps[b]? = some (∑ i ∈ (range (2 ^ n)).filter (fun i =>
          ∀ j (hj : j < idx.length), qbit n i idx[j] = b.testBit j), Complex.normSq (v i))
      else ∃ ms ps, c = .top ms ps ∧ ms.length = ps.length ∧
        (ms.zip ps).Perm ((List.range (2 ^ idx.length)).map fun m => (m, outcomeProb n idx v m)) ∧
        ps.Pairwise (· ≥ ·)
  | _ => (∀ r < 2 ^ n, v' r = nodeApply n h args x v r) ∧ c = .zero

/-- A sequence of nodes takes state `v` to `v'` and reports the given results. -/
inductive Steps (n : Nat) (h : Heap) (args : List Nat) :
    List Nat → (Nat → ℂ) → (Nat → ℂ) → List (Nat × Classic) → Prop
  | nil {v v' : Nat → ℂ} : (∀ r < 2 ^ n, v' r = v r) → Steps n h args [] v v' []
  | cons {x : Nat} {xs : List Nat} {v v' v'' : Nat → ℂ} {c : Classic} {cs : List (Nat × Classic)} :
      StepSpec n h args x v v' c → Steps n h args xs v' v'' cs → Steps n h args (x :: xs) v v'' ((x, c) :: cs)

/-- The state in which an unfed input qubit starts. -/
noncomputable def startVec (h : Heap) (q : Nat) : List ℂ :=
  match h.default q with
  | none => (List.replicate (2 ^ h.n q) 0).set 0 1
  | some (.int k) => (List.replicate (2 ^ h.n q) 0).set k.toNat 1
  | some (.list l) => l
  | some (.array l) => l

/-- Initial amplitude: the product over the fed tuples and over the input qubits that are not fed. -/
noncomputable def startAmp (h : Heap) (args : List Nat) (feed : List (List Nat × List ℂ)) (r : Nat) : ℂ :=
  let n := width h args
  (feed.map fun kv => kv.2.getD (subIndex n (kv.1.map (wires h args)).flatten r) 0).prod *
    (((leaves h args).filter fun q => q ∉ (feed.map (·.1)).flatten).map fun q =>
      (startVec h q).getD (subIndex n (wires h args q) r) 0).prod

/-- A fed vector as the program sees it. -/
def asFeed (kv : List Nat × List ℂ) : List Nat × InitState := (kv.1, .vec kv.2)

/-- The feed is usable: every input qubit is fed at most once, only needed input qubits are fed, with vectors of the
right size. -/
structure FeedOK (h : Heap) (args : List Nat) (feed : List (List Nat × List ℂ)) : Prop where
  nodup : (feed.map (·.1)).flatten.Nodup
  mem : ∀ q ∈ (feed.map (·.1)).flatten, q ∈ leaves h args
  size : ∀ kv ∈ feed, kv.2.length = 2 ^ (kv.1.map h.n).sum

/-- The default of an input qubit has the right size. -/
def DefaultOK (h : Heap) (q : Nat) : Prop :=
  match h.default q with
  | none => True
  | some (.int k) => 0 ≤ k ∧ k < 2 ^ h.n q
  | some (.list l) => l.length = 2 ^ h.n q
  | some (.array l) => l.length = 2 ^ h.n q

/-- What the operations need: distinct qubits; a gate needs inputs and no `dagger` of a swap (see C14); `F` needs a
function that returns C ints, at most 30 qubits, and no bystander qubits or as many as output qubits (see C17). -/
structure NodeOK (h : Heap) (args : List Nat) (x : Nat) : Prop where
  distinct : (groups h args x).flatten.Nodup
  gate : ∀ g d, h.kind x = .gate g d → h.inputs x ≠ [] ∧ (d = true → hasSwap g = false)
  fop : ∀ f, h.kind x = .fop f → width h args ≤ 30 ∧
    (∀ i < 2 ^ ((groups h args x).getD 0 []).length, ∃ y, f i = .ok y ∧ -2 ^ 31 ≤ y ∧ y < 2 ^ 31) ∧
    (width h args = (groups h args x).flatten.length ∨
      width h args = (groups h args x).flatten.length + ((groups h args x).getD 1 []).length)

/-- The node is no measurement that can fail. -/
def NoMeasure (h : Heap) (args : List Nat) (x : Nat) : Prop :=
  h.kind x ≠ .measure ∧ ∀ k, h.kind x = .smeasure k → k = 0 ∨ (2 : Int) ^ (groups h args x).flatten.length ≤ k

/-- No qubit is used twice: a node occurs once among the inputs of at most one node, except that a node may be split
into pieces holding different positions. -/
structure UsedOnce (h : Heap) (args : List Nat) : Prop where
  inputs : ∀ x, Reach h args x → (h.inputs x).Nodup
  pieces : ∀ x, Reach h args x → ∀ is, h.kind x = .split is → is.Nodup
  once : ∀ x y p, Reach h args x → Reach h args y → x ≠ y → p ∈ h.inputs x → p ∈ h.inputs y →
    ∃ is js, h.kind x = .split is ∧ h.kind y = .split js ∧ ∀ i ∈ is, i ∉ js

/-- A circuit made by calls of the library, with outputs the user holds; joins have the size of their inputs and splits
pick existing positions. -/
structure Circuit (h : Heap) (env args : List Nat) : Prop where
  built : h.Built env
  held : ∀ x ∈ args, x ∈ env
  size : ∀ x, Reach h args x → SizeOK h x
  split : ∀ x, Reach h args x → SplitOK h x

/-- The given nodes applied one after the other (first in the list first). -/
noncomputable def applyAll (n : Nat) (h : Heap) (args : List Nat) (L : List Nat) (v : Nat → ℂ) : Nat → ℂ :=
  L.foldl (fun v x => nodeApply n h args x v) v

/-- The order respects dependencies: no node comes before a node it depends on. -/
def Respects (h : Heap) (L : List Nat) : Prop := L.Pairwise fun a b => ¬ Reach h [a] b

/-- An execution environment that behaves: sets are listed completely, thread schedules run every iteration once, the
second buffer has the size of the state. -/
structure EnvOK (h : Heap) (args : List Nat) (e : Env) : Prop where
  shuffle : ∀ l, (e.shuffle l).Perm l
  sched : ∀ x, (e.orc x).sched.Perm (List.range (2 ^ width h args))
  faOrder : ∀ x, (e.orc x).faOrder.Perm
    (faCounters (width h args) ((groups h args x).getD 0 []) ((groups h args x).getD 1 []))
  arena : e.arena.length = 2 ^ width h args

/-- The matrices cached in the node objects after some successful runs, each of outputs satisfying `P`. -/
inductive History (h : Heap) (P : List Nat → Prop) : MsTable → Prop
  | fresh : History h P fun _ => none
  | run {ms ms' : MsTable} {args : List Nat} {feed : List (List Nat × InitState)} {strict : Bool}
      {state : Option StateKw} {e : Env} {out : List ℂ} {cl : List (Nat × Classic)} :
      History h P ms → P args → (∀ l, (e.shuffle l).Perm l) →
      QIP.run h ms args feed strict state e.pick e.shuffle e.orc e.arena = .ok (out, cl, ms') → History h P ms'

/-- The amplitude of basis state `k` of an unfed input qubit. -/
noncomputable def startEntry (h : Heap) (q k : Nat) : ℂ :=
  match h.default q with
  | none => if k = 0 then 1 else 0
  | some (.int d) => if (k : Int) = d then 1 else 0
  | some (.list l) => l.getD k 0
  | some (.array l) => l.getD k 0

/-- The shape of a reported result. -/
def ClassicShape (h : Heap) (x : Nat) (c : Classic) : Prop :=
  match h.kind x with
  | .measure => ∃ m p, c = .bits m p
  | .smeasure _ => (∃ ps, c = .probs ps) ∨ ∃ ms ps, c = .top ms ps
  | _ => c = .zero

end QIP.Spec
