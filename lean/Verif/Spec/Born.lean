import Verif.Spec.Run

/-!
# Specification: joint probabilities of the measurements of a circuit
-/

namespace QIP.Spec

/-- The part of the state in which the given qubits read `m`. -/
noncomputable def project (n : Nat) (idx : List Nat) (m : Nat) (v : Nat → ℂ) (r : Nat) : ℂ :=
  if subIndex n (inOrder n idx) r = m then v r else 0

/-- One node, if every measurement `x` gives the outcome `o x`; states are not normalised. -/
noncomputable def branchStep (n : Nat) (h : Heap) (args : List Nat) (o : Nat → Nat) (v : Nat → ℂ) (x : Nat) : Nat → ℂ :=
  match h.kind x with
  | .measure => project n (groups h args x).flatten (o x) v
  | _ => nodeApply n h args x v

/-- The given nodes one after the other, if every measurement `x` gives the outcome `o x`. -/
noncomputable def branch (n : Nat) (h : Heap) (args : List Nat) (o : Nat → Nat) (L : List Nat) (v : Nat → ℂ) : Nat → ℂ :=
  L.foldl (branchStep n h args o) v

/-- The measurements the outputs depend on. -/
noncomputable def measures (h : Heap) (args : List Nat) : Finset Nat := by
  classical exact ((needed h args).filter fun x => h.kind x matches .measure).toFinset

/-- Born's rule for the whole circuit: the probability that every measurement `x` gives the outcome `o x`. -/
noncomputable def jointProb (h : Heap) (args : List Nat) (feed : List (List Nat × List ℂ)) (o : Nat → Nat) : ℝ :=
  totalProb (width h args) (branch (width h args) h args o (needed h args) (startAmp h args feed)) /
    totalProb (width h args) (startAmp h args feed)

/-- The environment `e` in which the measurement `x` draws the random number `u x`. -/
def withDraws (e : Env) (M : Finset Nat) (u : M → ℝ) : Env :=
  { e with orc := fun x => if hx : x ∈ M then { e.orc x with u := u ⟨x, hx⟩ } else e.orc x }

/-- The draws in `[0, 1)` with which the run succeeds and every measurement `x` reports the outcome `o x`. -/
def drawsOf (h : Heap) (args : List Nat) (feed : List (List Nat × List ℂ)) (e : Env) (o : Nat → Nat) :
    Set (measures h args → ℝ) :=
  {u | (∀ x, 0 ≤ u x ∧ u x < 1) ∧ ∃ out cl ms,
    QIP.run h (fun _ => none) args (feed.map asFeed) false none e.pick e.shuffle (withDraws e (measures h args) u).orc e.arena
      = .ok (out, cl, ms) ∧ ∀ x ∈ measures h args, ∃ p, (x, Classic.bits (o x) p) ∈ cl}

end QIP.Spec
