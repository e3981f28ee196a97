import Verif.Model.Job

/-!
# Specification: jobs of the distributed backend
-/

namespace QIP.Spec

open QIP

/-- All workers of a job have been set up, and none has done anything yet; no messages are on the way; the manager is about
to run `pm`. -/
structure JobStart (n : Nat) (states : List PbState) (placed : List Placed) (pm : MProg) (c : Cfg Pid NMsg NLoc) : Prop where
  manager : c.loc none = .mgr pm
  workers : ∀ p ∈ placed, ∃ arena b, arena.length = p.out.2 - p.out.1 ∧ workerInit n states p arena = .ok b ∧
    c.loc (some p.wid) = .wkr ⟨b, .idle, 0⟩
  others : ∀ w, w ∉ placed.map Placed.wid → ∃ s, c.loc (some w) = .wkr s ∧ s.pc = .closed
  buffers : ∀ pq, c.buf pq = []

/-- The parameters of the workers fit the job: all have ranges of the same size, the same chunk size and number of messages
in flight, and all connections made by the workers have arrived, in any order. -/
structure JobParams (placed : List Placed) (prm : Wid → WParam) (C M : Nat) : Prop where
  size : ∀ p ∈ placed, ∀ w, (prm w).size = p.inp.2 - p.inp.1
  chunk : 0 < C ∧ ∀ w, (prm w).chunk = C
  inflight : 0 < M ∧ ∀ w, (prm w).inflight = M
  regs : ∀ p ∈ placed, p.inp = p.out → (prm p.wid).regs.Perm ((connecting placed p).map Placed.wid)

/-- The manager starts an operation. -/
def startOp (c : Cfg Pid NMsg NLoc) (pm : MProg) : Cfg Pid NMsg NLoc :=
  { c with loc := fun x => if x = none then .mgr pm else c.loc x }

/-- The client asks for operations one after the other (each with the draw of the manager); whatever the schedule of the
processes, each ends and the manager reports the result. -/
inductive JobRuns (prm : Wid → WParam) (ws : List Wid) :
    List (JobOp × ℝ) → Cfg Pid NMsg NLoc → List (Option (Nat × ℝ)) → Cfg Pid NMsg NLoc → Prop
  | nil (c) : JobRuns prm ws [] c [] c
  | cons {op r pm res ops results c c1 c2} (hop : opProg ws r op = .ok pm)
      (hrun : AlwaysEnds (netAct prm) (startOp c pm) c1) (hres : c1.loc none = .mgr (.done (.ok res)))
      (hrest : JobRuns prm ws ops c1 results c2) : JobRuns prm ws ((op, r) :: ops) c (res :: results) c2

/-- The local backend performs the same operations, whatever its thread schedules; measurements are asked for the given
outcome and return it with the given probability. -/
inductive LocalJob : List (JobOp × Option (Nat × ℝ)) → BState → BState → Prop
  | nil (b) : LocalJob [] b b
  | kron {mats ops b b1 b2}
      (hk : ∀ sched, sched.Perm (List.range (2 ^ b.n)) → b.kronselectDot mats 0 0 sched = (.ok (), b1))
      (hrest : LocalJob ops b1 b2) : LocalJob ((.kron mats, none) :: ops) b b2
  | measure {indices req m p ops b b1 b2} (hm : ∀ u g, b.measure indices (some (m : Int)) none 0 0 u g = (.ok (m, p), b1))
      (hrest : LocalJob ops b1 b2) : LocalJob ((.measure indices req, some (m, p)) :: ops) b b2

end QIP.Spec
