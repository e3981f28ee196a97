import Verif.Model.FDist
import Verif.Spec.Rounding

/-!
# Specification: gates on a distributed state in rounded arithmetic
-/

namespace QIP.Spec

open QIP

/-- Gates one after the other on a grid of `K * K` workers with ranges of `size` amplitudes: matrices whose entries are right up to `t`
roundings, any schedule of the threads, any content of the output buffers, any order of the sums and of the connections. -/
inductive DistGates (A : Arith) (t n K size : Nat) : List (Gate × List (List Nat)) → List (FC A) → List (FC A) → Prop
  | nil (v) : DistGates A t n K size [] v v
  | cons {g gs mats matsF sched arena run order rest v v1 v2} (hm : g.feedMats false gs = .ok mats)
      (hF : List.Forall₂ (fun (a : Key × Mat (FC A)) (b : Key × Mat ℂ) => a.1 = b.1 ∧ MatNear t a.2 b.2) matsF mats)
      (hs : ∀ i j, (sched i j).Perm (List.range size)) (ha : ∀ i j, (arena i j).length = size)
      (ho : ∀ j < K, (j :: order j).Perm (List.range K))
      (hk : distKronF run matsF n K size v arena sched order = .ok v1) (hrest : DistGates A t n K size rest v1 v2) :
      DistGates A t n K size ((g, gs) :: rest) v v2

/-- Relative error of one gate on `w` qubits with `K` ranges. -/
noncomputable def gateErrD (u : ℝ) (t w K : Nat) : ℝ := ((1 + u) ^ ((t + 1) * (w + 1) + 1 + 2 ^ w + (K - 1)) - 1) * √(2 ^ w)

/-- Additions with underflow and overflow (cf. `Arith.Ranged`). -/
class AddRanged (A : Arith) : Prop where
  add_err : ∀ x y, ‖x‖ + ‖y‖ ≤ A.big → ‖A.add x y - (x + y)‖ ≤ A.u * ‖x + y‖ + A.eta

/-- The absolute error of one gate on `w` of `n` qubits with `K` ranges that is due to underflow. -/
noncomputable def gateTinyD (eta : ℝ) (n w K : Nat) : ℝ := √(2 ^ n) * (2 * K * (2 ^ w * (4 * w + 7))) * eta

/-- Gates on `w` qubits with `K` ranges are within the range of the arithmetic. -/
def InRangeD (A : Arith) (t w K : Nat) : Prop :=
  (1 + A.u) ^ ((t + 1) * (w + 1) + 1 + 2 ^ w + (K - 1)) ≤ 2 ∧ ((w + 1 : Nat) : ℝ) * A.eta ≤ 1 ∧ 32 * K * 2 ^ w ≤ A.big

end QIP.Spec
