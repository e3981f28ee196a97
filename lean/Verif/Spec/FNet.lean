import Verif.Lemmas.FNetKron
import Verif.Spec.FDistCircuit

/-!
# Specification: circuits on worker processes in rounded arithmetic
-/

namespace QIP.Spec

open QIP

variable {A : Arith}

/-- The request asks for the step, with matrices whose entries are right up to `t` roundings. -/
inductive AsksFor (A : Arith) (t : Nat) : FNet.Req A → QStep → Prop
  | gate {g back gs mats matsF} (hm : g.feedMats back gs = .ok mats)
      (hF : List.Forall₂ (fun (a : Key × Mat (FC A)) (b : Key × Mat ℂ) => a.1 = b.1 ∧ MatNear t a.2 b.2) matsF mats) :
      AsksFor A t (.kron matsF) (.gate g back gs)
  | measure {indices} : AsksFor A t (.measure indices) (.measure indices)

/-- How many operations worker `w` has received. -/
def received (c : Cfg Pid (FNet.NMsg A) (FNet.NLoc A)) (w : Wid) : Nat :=
  match c.loc (some w) with
  | .wkr s => s.cnt
  | _ => 0

/-- How many operations a request takes at a worker: kron product and synchronisation; for a measurement total probability, outcome,
collapse and synchronisation at diagonal workers, only the last at the others. -/
def opsFor (w : Wid) : FNet.Req A → Nat
  | .kron _ => 2
  | .measure _ => if w.1 = w.2 then 4 else 1

/-- The same requests for `distRunF`: schedules, orders of sums and of connections are those of the processes that have received `cnt`
operations before. -/
noncomputable def callsOf (prm : Wid → FNet.WParam) (N : Nat) : (Wid → Nat) → List (FNet.Req A) → List (DCall A)
  | _, [] => []
  | cnt, .kron mats :: reqs =>
    .kron mats (fun i j => (prm (i, j)).run (cnt (i, j))) (fun _ _ => List.replicate N 0) (fun i j => (prm (i, j)).sched (cnt (i, j)))
      (FNet.orderOf prm) :: callsOf prm N (fun w => cnt w + opsFor w (.kron mats : FNet.Req A)) reqs
  | cnt, .measure indices :: reqs =>
    .measure indices (fun _ => List.replicate N 0) :: callsOf prm N (fun w => cnt w + opsFor w (.measure indices : FNet.Req A)) reqs

/-- The random numbers of the measurements: those of the manager, and those that the diagonal workers draw in their second operation. -/
def drawsIn (prm : Wid → FNet.WParam) : (Wid → Nat) → List (FNet.Req A) → List ℝ → List (ℝ × (Nat → ℝ))
  | _, [], _ => []
  | cnt, .kron mats :: reqs, rs => drawsIn prm (fun w => cnt w + opsFor w (.kron mats : FNet.Req A)) reqs rs
  | cnt, .measure indices :: reqs, rs => (rs.headD 0, fun i => (prm (i, i)).draw (cnt (i, i) + 1)) ::
    drawsIn prm (fun w => cnt w + opsFor w (.measure indices : FNet.Req A)) reqs rs.tail

/-- The processes when the manager starts with the program `p`. -/
def startJob (c : Cfg Pid (FNet.NMsg A) (FNet.NLoc A)) (p : FNet.MProg A) : Cfg Pid (FNet.NMsg A) (FNet.NLoc A) :=
  ⟨fun x => match x with
    | none => .mgr p
    | some w => c.loc (some w), c.buf⟩

/-- The random number that diagonal worker `i` draws in its operation `c`, if the first request comes after `s` operations and the
measurements are to have the random numbers `xs`. -/
def drawAt : List (FNet.Req A) → Nat → List (ℝ × (Nat → ℝ)) → Nat → Nat → ℝ
  | [], _, _, _, _ => 0
  | .kron _ :: reqs, s, xs, i, c => drawAt reqs (s + 2) xs i c
  | .measure _ :: reqs, s, xs, i, c => if c = s + 1 then (xs.headD (0, fun _ => 0)).2 i else drawAt reqs (s + 4) xs.tail i c

/-- Workers that draw the random numbers `xs`. -/
def drawnWith (prm : Wid → FNet.WParam) (reqs : List (FNet.Req A)) (xs : List (ℝ × (Nat → ℝ))) : Wid → FNet.WParam :=
  fun w => { prm w with draw := drawAt reqs 0 xs w.1 }

/-- With the random numbers `x` the job ends in `c'`, whatever the schedule of the processes. -/
def JobEndsIn (F : FOps) (prm : Wid → FNet.WParam) (ws : List Wid) (reqs : List (FNet.Req A)) (c : Cfg Pid (FNet.NMsg A) (FNet.NLoc A))
    {k : Nat} (x : Fin k → JobDraw → ℝ) (c' : Cfg Pid (FNet.NMsg A) (FNet.NLoc A)) : Prop :=
  AlwaysEnds (FNet.netAct (drawnWith prm reqs (measureDraws x))) (startJob c (FNet.jobOps F ws reqs ((measureDraws x).map Prod.fst) [])) c'

/-- The random numbers with which the job ends and the client gets the outcomes `os`. -/
def jobDrawsFor (F : FOps) (prm : Wid → FNet.WParam) (ws : List Wid) (reqs : List (FNet.Req A)) (c : Cfg Pid (FNet.NMsg A) (FNet.NLoc A))
    (os : List Nat) : Set (Fin os.length → JobDraw → ℝ) :=
  {x | ∃ c', JobEndsIn F prm ws reqs c x c' ∧ c'.loc none = .mgr (.done os none)}

end QIP.Spec
