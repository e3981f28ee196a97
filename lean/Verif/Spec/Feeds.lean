import Verif.Model.Run
import Verif.Spec.Run

/-!
# Specification: feeds that fit
-/

namespace QIP.Spec

open QIP

/-- The fed value is a vector with an entry for every value of `k` qubits. -/
def FeedFits (k : Nat) : InitState → Prop
  | .vec amps => 2 ^ k ≤ amps.length
  | .int _ => False

/-- The entries for the values of `k` qubits. -/
noncomputable def cut (k : Nat) : InitState → InitState
  | .vec amps => .vec (amps.take (2 ^ k))
  | .int i => .int i

/-- The feed with vectors cut to the sizes of the qubits they are fed to. -/
noncomputable def cutFeed (h : Heap) (feed : List (List Nat × InitState)) : List (List Nat × InitState) :=
  feed.map fun kv => (kv.1, cut (kv.1.map h.n).sum kv.2)

/-- The default vector of a qubit is too short. -/
def ShortDefault (h : Heap) (q : Nat) : Prop :=
  ∃ l, (h.default q = some (.list l) ∨ h.default q = some (.array l)) ∧ l.length < 2 ^ h.n q

/-- The bits of the listed qubits in basis state `r`, where a qubit that is listed again later counts as 1. -/
def lastBits (n : Nat) : List Nat → Nat → List Bool
  | [], _ => []
  | q :: S, r => (if q ∈ S then true else qbit n r q) :: lastBits n S r

/-- The product of entries of the vectors, each for some of the qubits: where a qubit is listed again later (for the same
vector or a later one), the vector is read as if the qubit were 1. -/
noncomputable def repeatAmp (n : Nat) : List (List Nat × List ℂ) → Nat → ℂ
  | [], _ => 1
  | (g, v) :: gvs, r =>
    v.getD (bitsVal ((lastBits n (g ++ (gvs.map (·.1)).flatten) r).take g.length)) 0 * repeatAmp n gvs r

/-- The amplitudes `run` starts from: the fed vectors, and the start vectors of the inputs that are not fed. -/
noncomputable def startRepeat (h : Heap) (args : List Nat) (feed : List (List Nat × List ℂ)) (r : Nat) : ℂ :=
  let n := width h args
  repeatAmp n (feed.map fun kv => ((kv.1.map (wires h args)).flatten, kv.2)) r *
    (((leaves h args).filter fun q => q ∉ (feed.map (·.1)).flatten).map fun q =>
      (startVec h q).getD (subIndex n (wires h args q) r) 0).prod

end QIP.Spec
