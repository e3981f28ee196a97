import Verif.Spec.Born
import Verif.Spec.DistRun
import Mathlib.Probability.ProductMeasure
import Mathlib.MeasureTheory.Measure.Lebesgue.Basic

/-!
# Specification: the random numbers of a distributed job
-/

namespace QIP.Spec

open QIP MeasureTheory

/-- Names of the random numbers of a job: the number that the manager draws in its `j`-th operation, and the number that a
worker draws in the `c`-th operation it gets. -/
abbrev JobDraw := Nat ⊕ (Wid × Nat)

/-- The law of all random numbers of a job: independent and uniform on `[0, 1)`. -/
noncomputable def jobLaw : Measure (JobDraw → ℝ) := Measure.infinitePi fun _ => volume.restrict (Set.Ico 0 1)

/-- The workers draw the given numbers. -/
def drawnBy (prm : Wid → WParam) (ω : JobDraw → ℝ) : Wid → WParam := fun w =>
  { prm w with draw := fun c => ω (.inr (w, c)) }

/-- The manager draws the given numbers. -/
def managed (ω : JobDraw → ℝ) (ops : List JobOp) (j : Nat) : List (JobOp × ℝ) :=
  (ops.zipIdx j).map fun oj => (oj.1, ω (.inl oj.2))

/-- The random numbers with which `run` on the distributed backend succeeds (its requests are answered by the manager of the
job `cf`, whatever the schedule) and every measurement `x` reports the outcome `o x`. -/
def distReports (h : Heap) (ms : MsTable) (args : List Nat) (feed : List (List Nat × List ℂ)) (strict : Bool) (e : Env)
    (handle : String) (ws : List Wid) (prm : Wid → WParam) (cf : Cfg Pid NMsg NLoc) (o : Nat → Nat) : Set (JobDraw → ℝ) :=
  {ω | ∃ (r : DistResult) (ops : List JobOp) (results : List (Option (Nat × ℝ))) (cf' : Cfg Pid NMsg NLoc),
    distRun h ms args (feed.map asFeed) strict none e.pick e.shuffle (some handle) (results.map asReply) = .ok r ∧
    r.sent = ops.map .op ∧ JobRuns (drawnBy prm ω) ws (managed ω ops 0) cf results cf' ∧
    ∀ x ∈ measures h args, ∃ p, (x, Classic.bits (o x) p) ∈ r.classic}

end QIP.Spec
