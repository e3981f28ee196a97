import Verif.Lemmas.Shared
import Verif.Props.Job
import Verif.Props.Manager

/-!
# Whole jobs (C88) and several jobs at the same time (C107)
-/

namespace QIP.Props

open QIP QIP.Spec

variable {prm : Wid → WParam}

/-- The state of a whole job whose manager has reported `rs`, is where `c` says, and has `todo` before it. -/
def liftCfg (rs : List (Option (Nat × ℝ))) (todo : List MProg) (c : Cfg Pid NMsg NLoc) : Cfg Pid NMsg JLoc :=
  ⟨fun x => match x with
    | none => match c.loc none with
      | .mgr p => settle rs p todo
      | .wkr _ => .fin []
    | some w => match c.loc (some w) with
      | .wkr s => .wkr s
      | .mgr _ => .fin [], c.buf⟩

theorem settle_send (rs : List (Option (Nat × ℝ))) (w : Wid) (o : WOp) (k : MProg) (todo : List MProg) :
    settle rs (.send w o k) todo = .mgr rs (.send w o k) todo := by
  cases todo <;> rfl

theorem settle_recv (rs : List (Option (Nat × ℝ))) (w : Wid) (k : NMsg → MProg) (todo : List MProg) :
    settle rs (.recv w k) todo = .mgr rs (.recv w k) todo := by
  cases todo <;> rfl

/-- What the processes do during an operation, they do in the whole job. -/
theorem lift_step {rs : List (Option (Nat × ℝ))} {todo : List MProg} {x : Pid} {c d : Cfg Pid NMsg NLoc}
    (h : stepP (netAct prm) x c = some d) : stepP (jobAct prm) x (liftCfg rs todo c) = some (liftCfg rs todo d) := by
  unfold stepP at h ⊢
  rcases x with _ | w
  · rcases hl : c.loc none with p | s
    · rcases p with r | r | ⟨w, o, k⟩ | ⟨w, k⟩
      · simp [hl, netAct] at h
      · simp [hl, netAct] at h
      · simp only [hl, netAct, Option.some.injEq] at h
        subst h
        simp only [liftCfg, hl, settle_send, jobAct, Option.some.injEq]
        refine cfg_ext ?_ rfl
        funext y
        rcases y with _ | y
        · simp
        · simp
      · simp only [hl, netAct] at h
        simp only [liftCfg, hl, settle_recv, jobAct]
        rcases hb : c.buf (some w, none) with _ | ⟨m, rest⟩ <;> rw [hb] at h <;> simp only at h ⊢
        · cases h
        injection h with h
        subst h
        rw [Option.some.injEq]
        refine cfg_ext ?_ rfl
        funext y
        rcases y with _ | y
        · simp
        · simp
    · simp [hl, netAct] at h
  · rcases hl : c.loc (some w) with p | s
    · simp [hl, netAct] at h
    · simp only [hl, netAct] at h
      simp only [liftCfg, hl, jobAct]
      rcases ha : workerAct (prm w) w s with _ | ⟨q, m, s'⟩ | ⟨q, k⟩ <;> rw [ha] at h <;> simp only at h ⊢
      · cases h
      · injection h with h
        subst h
        rw [Option.some.injEq]
        refine cfg_ext ?_ rfl
        funext y
        rcases y with _ | y
        · simp
        · by_cases hy : y = w
          · subst hy; simp
          · simp [Function.update_of_ne (show some y ≠ some w by simpa using hy)]
      · rcases hb : c.buf (q, some w) with _ | ⟨m, rest⟩ <;> rw [hb] at h <;> simp only at h ⊢
        · cases h
        injection h with h
        subst h
        rw [Option.some.injEq]
        refine cfg_ext ?_ rfl
        funext y
        rcases y with _ | y
        · simp
        · by_cases hy : y = w
          · subst hy; simp
          · simp [Function.update_of_ne (show some y ≠ some w by simpa using hy)]

theorem lift_runs {rs : List (Option (Nat × ℝ))} {todo : List MProg} {c d : Cfg Pid NMsg NLoc} (h : Runs (netAct prm) c d) :
    Runs (jobAct prm) (liftCfg rs todo c) (liftCfg rs todo d) := by
  obtain ⟨t, ht⟩ := h
  induction t generalizing c with
  | nil =>
    simp only [exec, Option.some.injEq] at ht
    subst ht
    exact Runs.refl _
  | cons p t ih =>
    rw [exec] at ht
    rcases hs : stepP (netAct prm) p c with _ | c1 <;> rw [hs] at ht <;> simp only at ht
    · cases ht
    exact (Runs.single (lift_step hs)).trans (ih ht)

/-- A whole job at its end. -/
def endCfg (results : List (Option (Nat × ℝ))) (c : Cfg Pid NMsg NLoc) : Cfg Pid NMsg JLoc :=
  ⟨fun x => match x with
    | none => .fin results
    | some w => match c.loc (some w) with
      | .wkr s => .wkr s
      | .mgr _ => .fin [], c.buf⟩

theorem end_stuck {results : List (Option (Nat × ℝ))} {c : Cfg Pid NMsg NLoc} (h : ∀ w, stepP (netAct prm) (some w) c = none) :
    Stuck (jobAct prm) (endCfg results c) := by
  intro x
  rcases x with _ | w
  · simp [stepP, endCfg, jobAct]
  · have := h w
    unfold stepP at this ⊢
    rcases hl : c.loc (some w) with p | s
    · simp [endCfg, hl, jobAct]
    · simp only [hl, netAct] at this
      simp only [endCfg, hl, jobAct]
      rcases ha : workerAct (prm w) w s with _ | ⟨q, m, s'⟩ | ⟨q, k⟩ <;> rw [ha] at this <;> simp only at this ⊢
      · cases this
      · rcases hb : c.buf (q, some w) with _ | ⟨m, rest⟩ <;> rw [hb] at this <;> simp only at this ⊢
        cases this

theorem job_runs {ws : List Wid} {ops : List (JobOp × ℝ)} {c c' : Cfg Pid NMsg NLoc} {results : List (Option (Nat × ℝ))}
    (h : JobRuns prm ws ops c results c') (hs : ∀ w, stepP (netAct prm) (some w) c = none) :
    (∀ w, stepP (netAct prm) (some w) c' = none) ∧
    ∃ progs, ops.mapM (fun o => opProg ws o.2 o.1) = .ok progs ∧
      ∀ rs p todo, progs = p :: todo → Runs (jobAct prm) (liftCfg rs todo (startOp c p)) (endCfg (rs ++ results) c') := by
  induction h with
  | nil c => exact ⟨hs, [], rfl, by simp⟩
  | @cons op r pm res ops results c c1 c2 hop hrun hres hrest ih =>
    obtain ⟨i1, progs, i2, i3⟩ := ih fun w => hrun.1 (some w)
    refine ⟨i1, pm :: progs, ?_, ?_⟩
    · rw [List.mapM_cons, i2]
      simp [hop, bind, Except.bind, pure, Except.pure]
    · intro rs p todo he
      obtain ⟨rfl, rfl⟩ := List.cons.inj he
      have hr : Runs (netAct prm) (startOp c pm) c1 := by
        obtain ⟨-, n, hn⟩ := hrun
        obtain ⟨t, ht, -⟩ := hn [] _ rfl
        exact ⟨t, ht⟩
      refine (lift_runs hr).trans ?_
      cases hprogs : progs with
      | nil =>
        have hempty : ops = [] := by
          cases ops with
          | nil => rfl
          | cons o ops =>
            rw [hprogs, List.mapM_cons] at i2
            simp only [bind, Except.bind, pure, Except.pure] at i2
            split at i2
            · cases i2
            · split at i2 <;> cases i2
        subst hempty
        cases hrest
        have : liftCfg rs [] c1 = endCfg (rs ++ [res]) c1 := by
          refine cfg_ext ?_ rfl
          funext y
          rcases y with _ | y
          · simp [liftCfg, endCfg, hres, settle]
          · simp [liftCfg, endCfg]
        rw [this]
        exact Runs.refl _
      | cons q todo =>
        have : liftCfg rs (q :: todo) c1 = liftCfg (rs ++ [res]) todo (startOp c1 q) := by
          refine cfg_ext ?_ rfl
          funext y
          rcases y with _ | y
          · simp [liftCfg, startOp, hres, settle]
          · simp [liftCfg, startOp]
        rw [this]
        have := i3 (rs ++ [res]) q todo hprogs
        rwa [List.append_assoc] at this

/-- The operations of a job, done one after the other without waiting for the workers to settle in between, end with the
same results and the same states. -/
theorem job_ends {ws : List Wid} {ops : List (JobOp × ℝ)} {c c' : Cfg Pid NMsg NLoc} {results : List (Option (Nat × ℝ))}
    (h : JobRuns prm ws ops c results c') (hs : ∀ w, stepP (netAct prm) (some w) c = none) :
    ∃ progs, ops.mapM (fun o => opProg ws o.2 o.1) = .ok progs ∧
      AlwaysEnds (jobAct prm) (jobCfg c progs) (endCfg results c') := by
  obtain ⟨h1, progs, h2, h3⟩ := job_runs h hs
  refine ⟨progs, h2, ?_⟩
  cases hp : progs with
  | nil =>
    subst hp
    have hempty : ops = [] := by
      cases ops with
      | nil => rfl
      | cons o ops =>
        rw [List.mapM_cons] at h2
        simp only [bind, Except.bind, pure, Except.pure] at h2
        split at h2
        · cases h2
        · split at h2 <;> cases h2
    subst hempty
    cases h
    exact Runs.alwaysEnds (Runs.refl _) (end_stuck h1)
  | cons p todo =>
    have := h3 [] p todo hp
    have e : jobCfg c (p :: todo) = liftCfg [] todo (startOp c p) := by
      refine cfg_ext ?_ rfl
      funext y
      rcases y with _ | y
      · simp [jobCfg, liftCfg, startOp]
      · cases hl : c.loc (some y) <;> simp [jobCfg, liftCfg, startOp, hl]
    rw [e]
    exact Runs.alwaysEnds this (end_stuck h1)

variable {n : Nat} {groups : List (List Nat)} {vecs : List (List ℂ)} {workers rest : List Wkr} {placed : List Placed}
  {states : List PbState} {C M : Nat} {pm : MProg} {c : Cfg Pid NMsg NLoc}

theorem start_quiet (h : JobStart n states placed pm c) (w : Wid) : stepP (netAct prm) (some w) c = none := by
  by_cases hw : w ∈ placed.map Placed.wid
  · obtain ⟨p, hp, rfl⟩ := List.mem_map.1 hw
    obtain ⟨arena, b, -, -, hl⟩ := h.workers p hp
    simp [stepP, hl, netAct, workerAct, h.buffers]
  · obtain ⟨s, hl, hs⟩ := h.others w hw
    simp [stepP, hl, netAct, workerAct, hs]

/-- The state of a whole job at its end: all results reported, every worker idle with its range of the state. -/
structure JobDone (placed : List Placed) (results : List (Option (Nat × ℝ))) (b : BState) (F : Cfg Pid NMsg JLoc) : Prop where
  manager : F.loc none = .fin results
  workers : ∀ p ∈ placed, ∃ s, F.loc (some p.wid) = .wkr s ∧ s.pc = .idle ∧ s.b.state = b.getRange p.inp.1 p.inp.2

/-- C88 (partial as `C88_job_partial`): the same for a whole job whose manager goes on with the next operation as soon as it
has the answers to the last one, while workers may still be busy.  Every schedule of all the processes ends, always with the
same results and states: those of the local backend. -/
theorem C88_whole_partial (hn : n ≤ 30) (hfed : FedOK n groups vecs)
    (hnorm : Spec.totalProb n (initAmp n groups vecs) = 1)
    (hset : setupStates n groups (vecs.map .vec) = .ok states) (hpl : placeWorkers n workers = .ok (placed, rest))
    (hprm : JobParams placed prm C M) (hstart : JobStart n states placed pm c)
    (hsched : ∀ p ∈ placed, ∀ w c, ((prm w).sched c).Perm (List.range (p.out.2 - p.out.1)))
    (hgarb : ∀ w c, (prm w).garbage c = 0) (hu : ∀ i c, 0 < (prm (i, i)).draw c ∧ (prm (i, i)).draw c < 1)
    {ops : List (JobOp × ℝ)} (hops : ∀ o ∈ ops, OpOK n o.1 ∧ 0 < o.2 ∧ o.2 < 1) {arena : List ℂ}
    (ha : arena.length = 2 ^ n) :
    ∃ progs results F b b', ops.mapM (fun o => opProg (placed.map Placed.wid) o.2 o.1) = .ok progs ∧
      AlwaysEnds (jobAct prm) (jobCfg c progs) F ∧ results.length = ops.length ∧
      makeState n groups (vecs.map .vec) 0 (2 ^ n) arena = .ok b ∧ LocalJob ((ops.map Prod.fst).zip results) b b' ∧
      JobDone placed results b' F := by
  obtain ⟨results, c', b, b', h1, h2, h3, h4⟩ := C88_job_partial hn hfed hnorm hset hpl hprm hstart hsched hgarb hu hops ha
  obtain ⟨progs, h5, h6⟩ := job_ends h1 (start_quiet hstart)
  have hlen : results.length = ops.length := by
    clear * - h1
    induction h1 with
    | nil => rfl
    | cons _ _ _ _ ih => simp [ih]
  refine ⟨progs, results, _, b, b', h5, h6, hlen, h2, h3, rfl, fun p hp => ?_⟩
  obtain ⟨s, i1, i2, i3⟩ := h4 p hp
  exact ⟨s, by simp [endCfg, i1], i2, i3⟩

/-! ## Several jobs -/

/-- C67: whatever happens, no worker is free or held twice. -/
theorem C67_never_double {P : MEvent → Prop} {es : List MEvent} {s : MState} (h : Valid P es s) (w : Wkr) :
    occurrences s w ≤ if w ∈ s.connected then 1 else 0 := by
  induction h with
  | nil => simp [occurrences, MState.init]
  | @snoc es s e hv hb hc hf ih =>
    have h0 := (occurrences_step (valid_facts hv) (fun n h o e => (hf n h o e).1) w).1
    have := connected_step s e w
    by_cases h1 : e = .connect w
    · have h2 := hc w h1
      rw [if_neg h2] at ih
      rw [if_pos h1] at h0
      rw [if_pos (this.2 (Or.inr h1))]
      omega
    · simp only [this, h1, or_false, if_false, Nat.add_zero] at h0 ⊢
      omega

theorem once {P : MEvent → Prop} {es : List MEvent} {s : MState} (h : Valid P es s) {a b : Nat} (ha : a ∈ s.live) (hb : b ∈ s.live)
    {p q : Placed} (hp : p ∈ s.pools a) (hq : q ∈ s.pools b) (he : p.worker = q.worker) : a = b ∧ p = q := by
  have hle := C67_never_double h p.worker
  have hsum : (s.live.map fun h => ((s.pools h).map Placed.worker).count p.worker).sum ≤ 1 := by
    unfold occurrences at hle
    split at hle <;> omega
  have h1 : 1 ≤ ((s.pools a).map Placed.worker).count p.worker :=
    List.count_pos_iff.2 (List.mem_map.2 ⟨p, hp, rfl⟩)
  have h2 : 1 ≤ ((s.pools b).map Placed.worker).count p.worker :=
    List.count_pos_iff.2 (List.mem_map.2 ⟨q, hq, he.symm⟩)
  have h3 := sum_erase ha fun h => ((s.pools h).map Placed.worker).count p.worker
  have hab : a = b := by
    by_contra hne
    have hb' : b ∈ s.live.erase a := (List.mem_erase_of_ne (Ne.symm hne)).2 hb
    have h4 := sum_erase hb' fun h => ((s.pools h).map Placed.worker).count p.worker
    omega
  subst hab
  refine ⟨rfl, ?_⟩
  by_contra hne
  have h5 : ((s.pools a).map Placed.worker).count p.worker ≤ 1 := by omega
  rw [List.count, List.countP_map] at h5
  have hperm := List.perm_cons_erase hp
  rw [hperm.countP_eq] at h5
  have h6 : 0 < ((s.pools a).erase p).countP ((fun x => x == p.worker) ∘ Placed.worker) :=
    List.countP_pos_iff.2 ⟨q, (List.mem_erase_of_ne (Ne.symm hne)).2 hq, by simp [he]⟩
  rw [List.countP_cons, if_pos (by simp)] at h5
  omega

/-- The processes of the jobs alive at the same time are different. -/
theorem place_inj {P : MEvent → Prop} {es : List MEvent} {s : MState} (h : Valid P es s) (a : {h // h ∈ s.live}) (p : Pid)
    (b : {h // h ∈ s.live}) (q : Pid) (he : placeOf a.1 (s.pools a.1) p = placeOf b.1 (s.pools b.1) q) : a = b ∧ p = q := by
  rcases p with _ | v <;> rcases q with _ | w
  · simp only [placeOf, Place.mgr.injEq] at he
    exact ⟨Subtype.ext he, rfl⟩
  · simp only [placeOf] at he
    split at he <;> cases he
  · simp only [placeOf] at he
    split at he <;> cases he
  · simp only [placeOf] at he
    rcases h1 : (s.pools a.1).find? (fun p => decide (p.wid = v)) with _ | x <;>
      rcases h2 : (s.pools b.1).find? (fun p => decide (p.wid = w)) with _ | y <;> rw [h1, h2] at he <;> simp only at he
    · injection he with e1 e2
      exact ⟨Subtype.ext e1, by rw [e2]⟩
    · cases he
    · cases he
    · injection he with he
      obtain ⟨e1, e2⟩ := once h a.2 b.2 (List.mem_of_find?_eq_some h1) (List.mem_of_find?_eq_some h2) he
      have e3 := List.find?_some h1
      have e4 := List.find?_some h2
      simp only [decide_eq_true_eq] at e3 e4
      subst e2
      exact ⟨Subtype.ext e1, by rw [← e3, ← e4]⟩

/-- What a client sets up and asks for, and the circumstances. -/
structure Job where
  n : Nat
  groups : List (List Nat)
  vecs : List (List ℂ)
  states : List PbState
  placed : List Placed
  prm : Wid → WParam
  c : Cfg Pid NMsg NLoc
  ops : List (JobOp × ℝ)
  progs : List MProg

/-- The hypotheses of `C88_whole_partial`. -/
structure Job.OK (j : Job) : Prop where
  small : j.n ≤ 30
  fed : FedOK j.n j.groups j.vecs
  norm : Spec.totalProb j.n (initAmp j.n j.groups j.vecs) = 1
  setup : setupStates j.n j.groups (j.vecs.map .vec) = .ok j.states
  place : ∃ workers rest, placeWorkers j.n workers = .ok (j.placed, rest)
  params : ∃ C M, JobParams j.placed j.prm C M
  start : ∃ pm, JobStart j.n j.states j.placed pm j.c
  sched : ∀ p ∈ j.placed, ∀ w c, ((j.prm w).sched c).Perm (List.range (p.out.2 - p.out.1))
  garbage : ∀ w c, (j.prm w).garbage c = 0
  draw : ∀ i c, 0 < (j.prm (i, i)).draw c ∧ (j.prm (i, i)).draw c < 1
  ops : ∀ o ∈ j.ops, OpOK j.n o.1 ∧ 0 < o.2 ∧ o.2 < 1
  progs : j.ops.mapM (fun o => opProg (j.placed.map Placed.wid) o.2 o.1) = .ok j.progs

/-- The job has ended as on the local backend. -/
def Job.Right (j : Job) (F : Cfg Pid NMsg JLoc) : Prop :=
  ∀ arena : List ℂ, arena.length = 2 ^ j.n → ∃ results b b', results.length = j.ops.length ∧
    makeState j.n j.groups (j.vecs.map .vec) 0 (2 ^ j.n) arena = .ok b ∧
    LocalJob ((j.ops.map Prod.fst).zip results) b b' ∧ JobDone j.placed results b' F

theorem Job.ends {j : Job} (h : j.OK) : ∃ F, AlwaysEnds (jobAct j.prm) (jobCfg j.c j.progs) F ∧ j.Right F := by
  obtain ⟨workers, rest, hpl⟩ := h.place
  obtain ⟨C, M, hprm⟩ := h.params
  obtain ⟨pm, hstart⟩ := h.start
  have key : ∀ arena : List ℂ, arena.length = 2 ^ j.n → _ := fun arena ha =>
    C88_whole_partial h.small h.fed h.norm h.setup hpl hprm hstart h.sched h.garbage h.draw h.ops (arena := arena) ha
  obtain ⟨progs, results, F, b, b', h1, h2, -⟩ := key (List.replicate _ 0) (List.length_replicate ..)
  rw [h.progs] at h1
  injection h1 with h1
  subst h1
  refine ⟨F, h2, fun arena ha => ?_⟩
  obtain ⟨progs, results, F', b, b', i1, i2, i3, i4, i5, i6⟩ := key arena ha
  rw [h.progs] at i1
  injection i1 with i1
  subst i1
  obtain ⟨hs, m, hm⟩ := i2
  obtain ⟨t, ht, -⟩ := hm [] _ rfl
  have := h2.unique ⟨t, ht⟩ hs
  subst this
  exact ⟨results, b, b', i3, i4, i5, i6⟩

/-- C107 (partial: each job as in `C88_whole_partial`, and not yet reduced): any jobs that are alive at the same time, in any
history of the manager.  Whatever the schedule of all the processes of all the jobs, the whole system ends, always in the same
state, in which every job has the results and the states of its own local backend. -/
theorem C107_jobs_partial {P : MEvent → Prop} {es : List MEvent} {s : MState} (h : Valid P es s) {job : {h // h ∈ s.live} → Job}
    (hok : ∀ a, (job a).OK) (hpool : ∀ a, (job a).placed = s.pools a.1) {G : Cfg Place NMsg (Option ({h // h ∈ s.live} × Pid × JLoc))}
    (hG : Together (fun a => placeOf a.1 (s.pools a.1)) G fun a => jobCfg (job a).c (job a).progs) :
    ∃ F f, AlwaysEnds (sharedAct (fun a => placeOf a.1 (s.pools a.1)) fun a => jobAct (job a).prm) G F ∧
      Together (fun a => placeOf a.1 (s.pools a.1)) F f ∧ ∀ a, (job a).Right (f a) := by
  choose f h1 h2 using fun a => Job.ends (hok a)
  have : Fintype {h // h ∈ s.live} := List.Subtype.fintype s.live
  obtain ⟨F, h3, h4⟩ := together_ends (fun a p b q he => place_inj h a p b q he) hG h1
  exact ⟨F, f, h3, h4, h2⟩

/-- C107: at any time, whatever the processes of all jobs have done, every job is in a state that it could have reached
alone, by the steps of its own processes in the same order. -/
theorem C107_isolated {P : MEvent → Prop} {es : List MEvent} {s : MState} (h : Valid P es s) {job : {h // h ∈ s.live} → Job}
    {G H : Cfg Place NMsg (Option ({h // h ∈ s.live} × Pid × JLoc))} {c : {h // h ∈ s.live} → Cfg Pid NMsg JLoc}
    (hG : Together (fun a => placeOf a.1 (s.pools a.1)) G c) {t : List Place}
    (ht : exec (sharedAct (fun a => placeOf a.1 (s.pools a.1)) fun a => jobAct (job a).prm) t G = some H) :
    ∃ (d : {h // h ∈ s.live} → Cfg Pid NMsg JLoc) (ts : {h // h ∈ s.live} → List Pid),
      Together (fun a => placeOf a.1 (s.pools a.1)) H d ∧ ∀ a, exec (jobAct (job a).prm) (ts a) (c a) = some (d a) ∧
      ((ts a).map (placeOf a.1 (s.pools a.1))).Sublist t := by
  have : Fintype {h // h ∈ s.live} := List.Subtype.fintype s.live
  obtain ⟨d, ts, h1, h2, h3, -⟩ := together_project (act := fun a => jobAct (job a).prm) (fun a p b q he => place_inj h a p b q he) t hG ht
  exact ⟨d, ts, h1, fun a => ⟨h2 a, h3 a⟩⟩

/-! ## Such jobs exist -/

/-- The state in which given jobs are at given states. -/
theorem together_exists {J P Q M S : Type} {place : J → P → Q} (hinj : ∀ j p j' p', place j p = place j' p' → j = j' ∧ p = p')
    (c : J → Cfg P M S) : ∃ C, Together place C c := by
  classical
  have h1 : ∀ {x j p} (h : ∃ jp : J × P, place jp.1 jp.2 = x), place j p = x → h.choose = (j, p) := by
    rintro x j p h rfl
    obtain ⟨e1, e2⟩ := hinj _ _ _ _ h.choose_spec
    exact Prod.ext e1 e2
  have h2 : ∀ {x j p q} (h : ∃ jpq : J × P × P, (place jpq.1 jpq.2.1, place jpq.1 jpq.2.2) = x), (place j p, place j q) = x →
      h.choose = (j, p, q) := by
    rintro x j p q h rfl
    obtain ⟨e1, e2⟩ := Prod.mk.inj h.choose_spec
    obtain ⟨e3, e4⟩ := hinj _ _ _ _ e1
    obtain ⟨-, e5⟩ := hinj _ _ _ _ e2
    exact Prod.ext e3 (Prod.ext e4 e5)
  refine ⟨⟨fun x => if h : ∃ jp : J × P, place jp.1 jp.2 = x then
      some (h.choose.1, h.choose.2, (c h.choose.1).loc h.choose.2) else none,
    fun x => if h : ∃ jpq : J × P × P, (place jpq.1 jpq.2.1, place jpq.1 jpq.2.2) = x then
      (c h.choose.1).buf (h.choose.2.1, h.choose.2.2) else []⟩, fun j p => ?_, fun j p q => ?_, fun x hx => ?_⟩
  · have h : ∃ jp : J × P, place jp.1 jp.2 = place j p := ⟨(j, p), rfl⟩
    simp only [dif_pos h, h1 h rfl]
  · have h : ∃ jpq : J × P × P, (place jpq.1 jpq.2.1, place jpq.1 jpq.2.2) = (place j p, place j q) := ⟨(j, p, q), rfl⟩
    simp only [dif_pos h, h2 h rfl]
  · have h : ¬ ∃ jp : J × P, place jp.1 jp.2 = x := fun ⟨jp, h⟩ => hx _ _ h
    simp only [dif_neg h]

/-- A job on any workers placed for two qubits: `3/5 |00> + 4/5 |11>`, any measurements. -/
theorem bell_job (hpl : placeWorkers 2 workers = .ok (placed, rest)) {ops : List (JobOp × ℝ)}
    (hops : ∀ o ∈ ops, OpOK 2 o.1 ∧ 0 < o.2 ∧ o.2 < 1) : ∃ j : Job, j.OK ∧ j.placed = placed ∧ j.ops = ops := by
  have hw : ∃ S, List.Subperm S workers ∧ Enough 2 S := by
    rw [← C59_draw_iff]
    unfold placeWorkers at hpl
    rcases hd : drawWorkers 2 workers with e | x
    · simp [hd, bind, Except.bind] at hpl
    · exact ⟨x, rfl⟩
  obtain ⟨states, placed', rest', v, s1, s2, -, s4, -⟩ := C84_setup_partial (by norm_num) bell_fed hw
  rw [hpl] at s2
  injection s2 with s2
  obtain ⟨rfl, rfl⟩ := Prod.mk.inj s2
  obtain ⟨prm, c, h1, h2, h3, h4, h5⟩ := job_exists hpl s4 (.done (.ok none))
  obtain ⟨progs, -, -, -, -, i1, -⟩ := C88_whole_partial (by norm_num) bell_fed bell_init s1 hpl h1 h2 h3 h4 h5 hops
    (arena := List.replicate 4 0) (by simp)
  exact ⟨⟨2, _, _, states, placed, prm, c, ops, progs⟩, ⟨by norm_num, bell_fed, bell_init, s1, ⟨_, _, hpl⟩, ⟨_, _, h1⟩, ⟨_, h2⟩,
    h3, h4, h5, hops, i1⟩, rfl, rfl⟩

/-- Eight workers connect, and two clients ask for two qubits each. -/
def twoClients : List MEvent :=
  [.connect ⟨0, 1⟩, .connect ⟨1, 1⟩, .connect ⟨2, 1⟩, .connect ⟨3, 1⟩, .connect ⟨4, 1⟩, .connect ⟨5, 1⟩, .connect ⟨6, 1⟩,
    .connect ⟨7, 1⟩, .setup 2 7 .ok, .setup 2 8 .ok]

theorem draw_eight : drawWorkers 2 [⟨0, 1⟩, ⟨1, 1⟩, ⟨2, 1⟩, ⟨3, 1⟩, ⟨4, 1⟩, ⟨5, 1⟩, ⟨6, 1⟩, ⟨7, 1⟩]
    = .ok ([⟨7, 1⟩, ⟨6, 1⟩, ⟨5, 1⟩, ⟨4, 1⟩], [⟨0, 1⟩, ⟨1, 1⟩, ⟨2, 1⟩, ⟨3, 1⟩], 1) := by
  unfold drawWorkers
  rw [List.mergeSort_of_pairwise (by simp)]
  simp only [List.getLast?, List.getLast, List.dropLast]
  rw [drawLoop, if_pos (by decide), dif_neg (by decide), drawLoop, if_neg (by decide)]
  rfl

theorem draw_four : drawWorkers 2 [⟨0, 1⟩, ⟨1, 1⟩, ⟨2, 1⟩, ⟨3, 1⟩] = .ok ([⟨3, 1⟩, ⟨2, 1⟩, ⟨1, 1⟩, ⟨0, 1⟩], [], 1) := by
  unfold drawWorkers
  rw [List.mergeSort_of_pairwise (by simp)]
  simp only [List.getLast?, List.getLast, List.dropLast]
  rw [drawLoop, if_pos (by decide), dif_neg (by decide), drawLoop, if_neg (by decide)]
  rfl

/-- Four workers in a grid. -/
def grid4 (i : Nat) : List Placed :=
  [⟨(0, 2), (0, 2), ⟨i, 1⟩⟩, ⟨(0, 2), (2, 4), ⟨i + 1, 1⟩⟩, ⟨(2, 4), (0, 2), ⟨i + 2, 1⟩⟩, ⟨(2, 4), (2, 4), ⟨i + 3, 1⟩⟩]

theorem grid_four (i : Nat) : allocateWorkers 2 1 [⟨i + 3, 1⟩, ⟨i + 2, 1⟩, ⟨i + 1, 1⟩, ⟨i, 1⟩] = .ok (grid4 i) := rfl

theorem before_two : mgrRun MState.init (twoClients.take 8) = ⟨[⟨0, 1⟩, ⟨1, 1⟩, ⟨2, 1⟩, ⟨3, 1⟩, ⟨4, 1⟩, ⟨5, 1⟩, ⟨6, 1⟩, ⟨7, 1⟩],
    [⟨0, 1⟩, ⟨1, 1⟩, ⟨2, 1⟩, ⟨3, 1⟩, ⟨4, 1⟩, ⟨5, 1⟩, ⟨6, 1⟩, ⟨7, 1⟩], fun _ => [], []⟩ := rfl

theorem between_two : mgrRun MState.init (twoClients.take 9) = ⟨[⟨0, 1⟩, ⟨1, 1⟩, ⟨2, 1⟩, ⟨3, 1⟩, ⟨4, 1⟩, ⟨5, 1⟩, ⟨6, 1⟩, ⟨7, 1⟩],
    [⟨0, 1⟩, ⟨1, 1⟩, ⟨2, 1⟩, ⟨3, 1⟩], Function.update (fun _ => []) 7 (grid4 4), [7]⟩ := by
  have : mgrRun MState.init (twoClients.take 9) = mgrStep (mgrRun MState.init (twoClients.take 8)) (.setup 2 7 .ok) := rfl
  rw [this, before_two]
  simp only [mgrStep, draw_eight]
  rw [grid_four 4]
  rfl

theorem after_two : mgrRun MState.init twoClients = ⟨[⟨0, 1⟩, ⟨1, 1⟩, ⟨2, 1⟩, ⟨3, 1⟩, ⟨4, 1⟩, ⟨5, 1⟩, ⟨6, 1⟩, ⟨7, 1⟩],
    [], Function.update (Function.update (fun _ => []) 7 (grid4 4)) 8 (grid4 0), [7, 8]⟩ := by
  have : mgrRun MState.init twoClients = mgrStep (mgrRun MState.init (twoClients.take 9)) (.setup 2 8 .ok) := rfl
  rw [this, between_two]
  simp only [mgrStep, draw_four]
  rw [grid_four 0]
  rfl

theorem two_valid : Valid Benign twoClients (mgrRun MState.init twoClients) := by
  have h1 : Valid Benign (twoClients.take 1) (mgrRun MState.init (twoClients.take 1)) :=
    Valid.snoc (es := []) (e := .connect ⟨0, 1⟩) Valid.nil trivial (by simp [MState.init]) (by simp)
  have h2 := h1.snoc (e := .connect ⟨1, 1⟩) trivial (by simp [twoClients, mgrRun, mgrStep, MState.init]) (by simp)
  have h3 := h2.snoc (e := .connect ⟨2, 1⟩) trivial (by simp [twoClients, mgrRun, mgrStep, MState.init]) (by simp)
  have h4 := h3.snoc (e := .connect ⟨3, 1⟩) trivial (by simp [twoClients, mgrRun, mgrStep, MState.init]) (by simp)
  have h5 := h4.snoc (e := .connect ⟨4, 1⟩) trivial (by simp [twoClients, mgrRun, mgrStep, MState.init]) (by simp)
  have h6 := h5.snoc (e := .connect ⟨5, 1⟩) trivial (by simp [twoClients, mgrRun, mgrStep, MState.init]) (by simp)
  have h7 := h6.snoc (e := .connect ⟨6, 1⟩) trivial (by simp [twoClients, mgrRun, mgrStep, MState.init]) (by simp)
  have h8 := h7.snoc (e := .connect ⟨7, 1⟩) trivial (by simp [twoClients, mgrRun, mgrStep, MState.init]) (by simp)
  have h9 := h8.snoc (e := .setup 2 7 .ok) rfl (by simp) (by simp [twoClients, mgrRun, mgrStep, MState.init])
  exact h9.snoc (e := .setup 2 8 .ok) rfl (by simp) (by
    have : mgrStep (mgrRun MState.init (twoClients.take 8)) (.setup 2 7 .ok) = mgrRun MState.init (twoClients.take 9) := rfl
    rintro n h o ⟨⟩
    refine ⟨?_, by simp [twoClients]⟩
    exact (show 8 ∉ (mgrRun MState.init (twoClients.take 9)).live by rw [between_two]; simp))

/-- Two jobs at the same time, each on four of the eight workers: one client measures the first qubit, the other exchanges the
qubits and measures the second. -/
example : ∃ (s : MState) (m : List (Key × Mat ℂ)) (job : {h // h ∈ s.live} → Job) (G F : Cfg Place NMsg (Option ({h // h ∈ s.live} × Pid × JLoc)))
    (f : {h // h ∈ s.live} → Cfg Pid NMsg JLoc), Valid Benign twoClients s ∧ s.live = [7, 8] ∧
      (Gate.swap 1).feedMats false [[0], [1]] = .ok m ∧ (∀ a, (job a).OK) ∧ (∀ a, (job a).placed = s.pools a.1) ∧
      (∀ a, (job a).ops = if a.1 = 7 then [(.measure [0] none, 1 / 3)] else [(.kron m, 1 / 2), (.measure [1] none, 1 / 4)]) ∧
      Together (fun a => placeOf a.1 (s.pools a.1)) G (fun a => jobCfg (job a).c (job a).progs) ∧
      AlwaysEnds (sharedAct (fun a => placeOf a.1 (s.pools a.1)) fun a => jobAct (job a).prm) G F ∧
      Together (fun a => placeOf a.1 (s.pools a.1)) F f ∧ ∀ a, (job a).Right (f a) := by
  have hv := two_valid
  rw [after_two] at hv
  generalize hs : (⟨[⟨0, 1⟩, ⟨1, 1⟩, ⟨2, 1⟩, ⟨3, 1⟩, ⟨4, 1⟩, ⟨5, 1⟩, ⟨6, 1⟩, ⟨7, 1⟩],
    [], Function.update (Function.update (fun _ => []) 7 (grid4 4)) 8 (grid4 0), [7, 8]⟩ : MState) = s at hv
  have hlive : s.live = [7, 8] := by rw [← hs]
  have p1 : placeWorkers 2 [⟨0, 1⟩, ⟨1, 1⟩, ⟨2, 1⟩, ⟨3, 1⟩, ⟨4, 1⟩, ⟨5, 1⟩, ⟨6, 1⟩, ⟨7, 1⟩] = .ok (grid4 4, [⟨0, 1⟩, ⟨1, 1⟩, ⟨2, 1⟩, ⟨3, 1⟩]) := by
    unfold placeWorkers
    simp only [draw_eight, bind, Except.bind]
    rw [grid_four 4]
    simp [grid4]
  have p2 : placeWorkers 2 [⟨0, 1⟩, ⟨1, 1⟩, ⟨2, 1⟩, ⟨3, 1⟩] = .ok (grid4 0, []) := by
    unfold placeWorkers
    simp only [draw_four, bind, Except.bind]
    rw [grid_four 0]
    simp [grid4]
  have hgr : GroupsOK 2 [[0], [1]] := ⟨by decide, by simp⟩
  obtain ⟨m, g2, o2⟩ := opOK_gate (n := 2) (by norm_num) (g := .swap 1) (d := false) rfl (by simp [Fits]) hgr (by simp)
  obtain ⟨j7, a1, a2, a3⟩ := bell_job p1 (ops := [(.measure [0] none, 1 / 3)]) (by
    simp only [List.mem_cons, List.not_mem_nil, or_false, forall_eq]
    exact ⟨⟨by simp, by simp⟩, by norm_num⟩)
  obtain ⟨j8, b1, b2, b3⟩ := bell_job p2 (ops := [(.kron m, 1 / 2), (.measure [1] none, 1 / 4)]) (by
    simp only [List.mem_cons, List.not_mem_nil, or_false, forall_eq_or_imp, forall_eq]
    exact ⟨⟨o2, by norm_num⟩, ⟨by simp, by simp⟩, by norm_num⟩)
  let job : {h // h ∈ s.live} → Job := fun a => if a.1 = 7 then j7 else j8
  have hok : ∀ a, (job a).OK := fun a => by by_cases h : a.1 = 7 <;> simp only [job, h, if_true, if_false] <;> assumption
  have hpool : ∀ a, (job a).placed = s.pools a.1 := by
    rintro ⟨a, ha⟩
    have ha' := ha
    rw [hlive] at ha'
    simp only [List.mem_cons, List.not_mem_nil, or_false] at ha'
    rcases ha' with rfl | rfl
    · simp [job, a2, ← hs]
    · simp [job, b2, ← hs]
  obtain ⟨G, hG⟩ := together_exists (fun a p b q he => place_inj hv a p b q he) fun a => jobCfg (job a).c (job a).progs
  obtain ⟨F, f, h1, h2, h3⟩ := C107_jobs_partial hv hok hpool hG
  refine ⟨s, m, job, G, F, f, hv, hlive, g2, hok, hpool, fun a => ?_, hG, h1, h2, h3⟩
  by_cases h : a.1 = 7 <;> simp only [job, h, if_true, if_false] <;> assumption

end QIP.Props
