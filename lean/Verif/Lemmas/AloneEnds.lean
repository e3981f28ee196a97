import Verif.Lemmas.ClusterRun
import Verif.Props.DistReuse
import Verif.Props.Jobs

/-!
# A job of the cluster, alone, ends as on the local backend
-/

namespace QIP

open Props Spec

variable {prm : Wid → WParam} {j : ClusterJob} {h : Nat}

/-- The operations of a client and then a last program of the manager. -/
theorem job_runs_then {ws : List Wid} {ops : List (JobOp × ℝ)} {c c1 c2 : Cfg Pid NMsg NLoc} {results : List (Option (Nat × ℝ))}
    {last : MProg} {r : Option (Nat × ℝ)} (hr : JobRuns prm ws ops c results c1)
    (hl : Runs (netAct prm) (startOp c1 last) c2) (h2 : c2.loc none = .mgr (.done (.ok r))) :
    ∃ progs, ops.mapM (fun o => opProg ws o.2 o.1) = .ok progs ∧
      ∀ rs p todo, progs ++ [last] = p :: todo →
        Runs (jobAct prm) (liftCfg rs todo (startOp c p)) (endCfg (rs ++ results ++ [r]) c2) := by
  induction hr with
  | nil c =>
    refine ⟨[], rfl, ?_⟩
    intro rs p todo he
    obtain ⟨rfl, rfl⟩ := List.cons.inj he
    refine (lift_runs hl).trans ?_
    have : liftCfg rs [] c2 = endCfg (rs ++ [] ++ [r]) c2 := by
      refine cfg_ext ?_ rfl
      funext y
      rcases y with _ | y
      · simp [liftCfg, endCfg, h2, settle]
      · simp [liftCfg, endCfg]
    rw [this]
    exact Runs.refl _
  | @cons op d pm res ops results c c0 c1 hop hrun hres hrest ih =>
    obtain ⟨progs, i2, i3⟩ := ih hl
    refine ⟨pm :: progs, ?_, ?_⟩
    · rw [List.mapM_cons, i2]
      simp [hop, bind, Except.bind, pure, Except.pure]
    · intro rs p todo he
      obtain ⟨rfl, rfl⟩ := List.cons.inj he
      have hr : Runs (netAct prm) (startOp c pm) c0 := by
        obtain ⟨-, n, hn⟩ := hrun
        obtain ⟨t, ht, -⟩ := hn [] _ rfl
        exact ⟨t, ht⟩
      refine (lift_runs hr).trans ?_
      rcases hp : progs ++ [last] with _ | ⟨q, todo⟩
      · simp at hp
      · have e : liftCfg rs (progs ++ [last]) c0 = liftCfg (rs ++ [res]) todo (startOp c0 q) := by
          rw [hp]
          refine cfg_ext ?_ rfl
          funext y
          rcases y with _ | y
          · simp [liftCfg, startOp, hres, settle]
          · simp [liftCfg, startOp]
        have e' : liftCfg rs (List.append progs [last]) c0 = liftCfg (rs ++ [res]) todo (startOp c0 q) := e
        rw [e']
        have := i3 (rs ++ [res]) q todo hp
        simpa [List.append_assoc] using this

theorem jobRuns_length {ws : List Wid} {ops : List (JobOp × ℝ)} {c c1 : Cfg Pid NMsg NLoc} {results : List (Option (Nat × ℝ))}
    (h : JobRuns prm ws ops c results c1) : results.length = ops.length := by
  induction h with
  | nil => rfl
  | cons _ _ _ _ ih => simp [ih]

/-- A job has only one outcome. -/
theorem jobRuns_unique {ws : List Wid} {ops : List (JobOp × ℝ)} {c c1 c1' : Cfg Pid NMsg NLoc}
    {results results' : List (Option (Nat × ℝ))} (h1 : JobRuns prm ws ops c results c1) (h2 : JobRuns prm ws ops c results' c1') :
    results = results' ∧ c1 = c1' := by
  induction h1 generalizing results' c1' with
  | nil c =>
    cases h2
    exact ⟨rfl, rfl⟩
  | cons hop hrun hres hrest ih =>
    cases h2 with
    | cons hop' hrun' hres' hrest' =>
      rw [hop] at hop'
      injection hop' with hop'
      subst hop'
      have := hrun.unique (by
        obtain ⟨-, n, hn⟩ := hrun'
        obtain ⟨t, ht, -⟩ := hn [] _ rfl
        exact ⟨t, ht⟩) hrun'.1
      subst this
      rw [hres] at hres'
      injection hres' with hres'
      injection hres' with hres'
      injection hres' with hres'
      subst hres'
      obtain ⟨rfl, rfl⟩ := ih hrest'
      exact ⟨rfl, rfl⟩

/-- A state of a whole job as a state of a job of the cluster whose workers have been set up. -/
def embed (c : Cfg Pid NMsg JLoc) : Cfg Pid CMsg ALoc :=
  ⟨fun x => match x with
    | none => .thr (.run (c.loc none))
    | some w => match c.loc (some w) with
      | .wkr s => leave s
      | _ => .left, fun pq => (c.buf pq).map .msg⟩

theorem leave_inside {w : Wid} {s : WSt} (ha : workerAct (j.prm w) w s ≠ .halt) : leave s = .inside s := by
  unfold leave
  cases hp : s.pc <;> simp_all [workerAct]

theorem embed_step {x : Pid} {c d : Cfg Pid NMsg JLoc} (hs : stepP (jobAct j.prm) x c = some d) :
    stepP (aloneAct j h) x (embed c) = some (embed d) := by
  unfold stepP at hs ⊢
  have hbuf : ∀ (pq : Pid × Pid) (ms : List NMsg), (fun e => (Function.update c.buf pq ms e).map CMsg.msg)
      = Function.update (fun e => (c.buf e).map CMsg.msg) pq (ms.map .msg) := by
    intro pq ms
    funext e
    by_cases he : e = pq
    · subst he; simp
    · simp [Function.update_of_ne he]
  rcases x with _ | w
  · rcases hl : c.loc none with ⟨rs, p, todo⟩ | rs | s
    · rcases p with r | r | ⟨w, o, k⟩ | ⟨w, k⟩
      · simp [hl, jobAct] at hs
      · simp [hl, jobAct] at hs
      · simp only [hl, jobAct, Option.some.injEq] at hs
        subst hs
        simp only [embed, hl, aloneAct, Option.some.injEq]
        refine cfg_ext ?_ ?_
        · funext y
          rcases y with _ | y <;> simp
        · simp only [hbuf]
          simp
      · simp only [hl, jobAct] at hs
        simp only [embed, hl, aloneAct]
        rcases hb : c.buf (some w, none) with _ | ⟨m, rest⟩ <;> rw [hb] at hs <;> simp only at hs
        · cases hs
        injection hs with hs
        subst hs
        simp only [List.map_cons, CMsg.read, Option.some.injEq]
        refine cfg_ext ?_ ?_
        · funext y
          rcases y with _ | y <;> simp
        · simp only [hbuf]
    · simp [hl, jobAct] at hs
    · simp [hl, jobAct] at hs
  · rcases hl : c.loc (some w) with ⟨rs, p, todo⟩ | rs | s
    · simp [hl, jobAct] at hs
    · simp [hl, jobAct] at hs
    · simp only [hl, jobAct] at hs
      have hlocs : ∀ s', (fun y : Pid => match y with
          | none => ALoc.thr (.run (Function.update c.loc (some w) (JLoc.wkr s') none))
          | some v => match Function.update c.loc (some w) (JLoc.wkr s') (some v) with
            | .wkr s => leave s
            | _ => .left) = Function.update (fun y : Pid => match y with
          | none => ALoc.thr (.run (c.loc none))
          | some v => match c.loc (some v) with
            | .wkr s => leave s
            | _ => .left) (some w) (leave s') := by
        intro s'
        funext y
        rcases y with _ | v
        · simp
        · by_cases hv : v = w
          · subst hv; simp
          · simp [Function.update_of_ne (show some v ≠ some w by simpa using hv)]
      rcases ha : workerAct (j.prm w) w s with _ | ⟨q, m, s'⟩ | ⟨q, k⟩ <;> rw [ha] at hs <;> simp only at hs
      · cases hs
      · injection hs with hs
        subst hs
        simp only [embed, hl, leave_inside (j := j) (w := w) (s := s) (by rw [ha]; simp), aloneAct, ha, Option.some.injEq]
        refine cfg_ext ?_ ?_
        · exact (hlocs s').symm
        · simp only [hbuf]
          simp
      · rcases hb : c.buf (q, some w) with _ | ⟨m, rest⟩ <;> rw [hb] at hs <;> simp only at hs
        · cases hs
        injection hs with hs
        subst hs
        simp only [embed, hl, leave_inside (j := j) (w := w) (s := s) (by rw [ha]; simp), aloneAct, ha, hb, List.map_cons,
          CMsg.read, Option.some.injEq]
        refine cfg_ext ?_ ?_
        · exact (hlocs _).symm
        · simp only [hbuf]

theorem embed_runs {c d : Cfg Pid NMsg JLoc} (hs : Runs (jobAct j.prm) c d) : Runs (aloneAct j h) (embed c) (embed d) := by
  obtain ⟨t, ht⟩ := hs
  induction t generalizing c with
  | nil =>
    simp only [exec, Option.some.injEq] at ht
    subst ht
    exact Runs.refl _
  | cons p t ih =>
    rw [exec] at ht
    rcases hs : stepP (jobAct j.prm) p c with _ | c1 <;> rw [hs] at ht <;> simp only at ht
    · cases ht
    exact (Runs.single (embed_step hs)).trans (ih ht)

/-- All results reported and all workers gone: nothing happens any more. -/
theorem embed_stuck {c : Cfg Pid NMsg JLoc} {rs : List (Option (Nat × ℝ))} (h1 : c.loc none = .fin rs)
    (h2 : ∀ w, (embed c).loc (some w) = .left) : Stuck (aloneAct j h) (embed c) := by
  intro x
  rcases x with _ | w
  · simp [stepP, embed, h1, aloneAct]
  · simp only [stepP, h2, aloneAct]

/-- During the setup: the setup messages on the way, and the workers that have been set up. -/
def setupCfg (j : ClusterJob) (h : Nat) (st : Wid → WSt) (a : Thread) (pend done : List Wid) : Cfg Pid CMsg ALoc :=
  ⟨fun x => match x with
    | none => .thr a
    | some w => if w ∈ done then .inside (st w) else if w ∈ j.wids then .before else .left,
    fun pq => match pq with
    | (none, some w) => if w ∈ pend then [.setup h w] else []
    | _ => []⟩

theorem setup_sends {st : Wid → WSt} (ws pend : List Wid) (hn : (pend ++ ws).Nodup) :
    Runs (aloneAct j h) (setupCfg j h st (j.next ws) pend []) (setupCfg j h st (j.next []) (pend ++ ws) []) := by
  induction ws generalizing pend with
  | nil =>
    rw [List.append_nil]
    exact Runs.refl _
  | cons w ws ih =>
    have hw : w ∉ pend := fun h => (List.nodup_append'.1 hn).2.2 h (by simp)
    have hs : stepP (aloneAct j h) none (setupCfg j h st (j.next (w :: ws)) pend [])
        = some (setupCfg j h st (j.next ws) (pend ++ [w]) []) := by
      simp only [stepP, setupCfg, ClusterJob.next, aloneAct, Option.some.injEq, hw, if_false, List.nil_append]
      refine cfg_ext ?_ ?_
      · funext y
        rcases y with _ | y <;> simp
      · funext pq
        rcases pq with ⟨_ | a, _ | b⟩
        · simp
        · by_cases hb : b = w
          · subst hb; simp
          · simp [Function.update_of_ne (show ((none, some b) : Pid × Pid) ≠ (none, some w) by simpa using hb), hb]
        · simp
        · simp
    refine (Runs.single hs).trans ?_
    have := ih (pend ++ [w]) (by simpa using hn)
    simpa using this

theorem setup_recvs {st : Wid → WSt} {a : Thread} (hst : ∀ w ∈ j.wids, j.setUp w = some (st w)) (pend done : List Wid)
    (hn : (pend ++ done).Nodup) (hsub : ∀ w ∈ pend, w ∈ j.wids) :
    Runs (aloneAct j h) (setupCfg j h st a pend done) (setupCfg j h st a [] (pend.reverse ++ done)) := by
  induction pend generalizing done with
  | nil => exact Runs.refl _
  | cons w pend ih =>
    rw [List.cons_append, List.nodup_cons, List.mem_append, not_or] at hn
    have hw : w ∈ j.wids := hsub w (by simp)
    have hs : stepP (aloneAct j h) (some w) (setupCfg j h st a (w :: pend) done) = some (setupCfg j h st a pend (w :: done)) := by
      simp only [stepP, setupCfg, hn.1.2, hw, if_true, if_false, aloneAct, List.mem_cons, true_or, enter, hst w hw, and_self,
        Option.some.injEq]
      refine cfg_ext ?_ ?_
      · funext y
        rcases y with _ | y
        · simp
        · by_cases hy : y = w
          · subst hy; simp
          · simp [Function.update_of_ne (show some y ≠ some w by simpa using hy), hy]
      · funext pq
        rcases pq with ⟨_ | a, _ | b⟩
        · simp
        · by_cases hb : b = w
          · subst hb; simp [hn.1.1]
          · simp [Function.update_of_ne (show ((none, some b) : Pid × Pid) ≠ (none, some w) by simpa using hb), hb]
        · simp
        · simp
    refine (Runs.single hs).trans ?_
    have := ih (w :: done) (by
      rw [List.nodup_append'] at hn ⊢
      refine ⟨hn.2.1, List.nodup_cons.2 ⟨hn.1.2, hn.2.2.1⟩, ?_⟩
      rw [List.disjoint_cons_right]
      exact ⟨hn.1.1, hn.2.2.2⟩) fun v hv => hsub v (by simp [hv])
    simpa using this

/-- The setup of a job: from the start to the state in which all workers have been set up. -/
theorem setup_runs (hn : j.wids.Nodup) {st : Wid → WSt} (hst : ∀ w ∈ j.wids, j.setUp w = some (st w))
    (hidle : ∀ w ∈ j.wids, (st w).pc = .idle) {c : Cfg Pid NMsg NLoc} (hw : ∀ w, c.loc (some w) = .wkr (st w))
    (ho : ∀ w, w ∉ j.wids → (st w).pc = .closed) (hb : ∀ pq, c.buf pq = []) :
    Runs (aloneAct j h) (aloneStart j) (embed (jobCfg c (j.progs ++ [closePool j.wids]))) := by
  have h1 := setup_sends (j := j) (h := h) (st := st) j.wids [] (by simpa using hn)
  have h2 := setup_recvs (j := j) (h := h) (st := st) (a := j.next []) hst ([] ++ j.wids) [] (by simpa using hn) (by simp)
  have e1 : aloneStart j = setupCfg j h st (j.next j.wids) [] [] := by
    refine cfg_ext ?_ ?_
    · funext y
      rcases y with _ | y <;> simp [aloneStart, setupCfg]
    · funext pq
      rcases pq with ⟨_ | a, _ | b⟩ <;> simp [aloneStart, setupCfg]
  have e2 : embed (jobCfg c (j.progs ++ [closePool j.wids])) = setupCfg j h st (j.next []) [] (([] ++ j.wids).reverse ++ []) := by
    refine cfg_ext ?_ ?_
    · funext y
      rcases y with _ | y
      · rfl
      · by_cases hy : y ∈ j.wids
        · simp [embed, jobCfg, hw, setupCfg, hy, leave, hidle y hy]
        · simp [embed, jobCfg, hw, setupCfg, hy, leave, ho y hy]
    · funext pq
      rcases pq with ⟨_ | a, _ | b⟩ <;> simp [embed, jobCfg, setupCfg, hb]
  rw [e1, e2]
  exact h1.trans h2

/-! ## What has been reported -/

/-- The results that the thread has reported. -/
def Thread.reported : Thread → List (Option (Nat × ℝ))
  | .run (.mgr rs _ _) => rs
  | .run (.fin rs) => rs
  | .ended rs => rs
  | _ => []

theorem settle_reported (rs : List (Option (Nat × ℝ))) (p : MProg) (todo : List MProg) :
    rs <+: (Thread.run (settle rs p todo)).reported := by
  induction todo generalizing rs p with
  | nil => cases p with
    | done r => cases r <;> simp [settle, Thread.reported]
    | doneTop r => simp [settle, Thread.reported]
    | send w o k => simp [settle, Thread.reported]
    | recv w k => simp [settle, Thread.reported]
  | cons q todo ih => cases p with
    | done r => cases r with
      | ok r => exact (List.prefix_append rs [r]).trans (by simpa [settle] using ih (rs ++ [r]) q)
      | error e => simp [settle, Thread.reported]
    | doneTop r => simp [settle, Thread.reported]
    | send w o k => simp [settle, Thread.reported]
    | recv w k => simp [settle, Thread.reported]

theorem reported_step {d d' : Cfg Pid CMsg ALoc} {x : Pid} {a : Thread} (hs : stepP (aloneAct j h) x d = some d')
    (ha : d.loc none = .thr a) : ∃ b, d'.loc none = .thr b ∧ a.reported <+: b.reported := by
  rcases x with _ | w
  · unfold stepP at hs
    rw [ha] at hs
    rcases a with todo | l | rs
    · rcases todo with _ | ⟨w, ws⟩
      · simp [aloneAct] at hs
      · simp only [aloneAct, Option.some.injEq] at hs
        subst hs
        exact ⟨j.next ws, by simp, by simp [Thread.reported]⟩
    · rcases l with ⟨rs, p, todo⟩ | rs | s
      · rcases p with r | r | ⟨w, o, k⟩ | ⟨w, k⟩
        · simp [aloneAct] at hs
        · simp [aloneAct] at hs
        · simp only [aloneAct, Option.some.injEq] at hs
          subst hs
          exact ⟨.run (settle rs k todo), by simp, settle_reported rs k todo⟩
        · simp only [aloneAct] at hs
          split at hs
          · cases hs
          · rename_i m rest hm
            injection hs with hs
            subst hs
            refine ⟨_, by simp; rfl, ?_⟩
            rcases m with ⟨h', w'⟩ | m
            · simp [CMsg.read, Thread.reported]
            · exact settle_reported rs (k m) todo
      · simp [aloneAct] at hs
      · simp [aloneAct] at hs
    · simp [aloneAct] at hs
  · refine ⟨a, ?_, List.prefix_refl _⟩
    rw [← ha]
    unfold stepP at hs
    split at hs
    · cases hs
    · injection hs with hs
      subst hs
      simp
    · split at hs
      · cases hs
      · injection hs with hs
        subst hs
        simp

theorem reported_exec {t : List Pid} {d d' : Cfg Pid CMsg ALoc} {a : Thread} (hs : exec (aloneAct j h) t d = some d')
    (ha : d.loc none = .thr a) : ∃ b, d'.loc none = .thr b ∧ a.reported <+: b.reported := by
  induction t generalizing d a with
  | nil =>
    simp only [exec, Option.some.injEq] at hs
    subst hs
    exact ⟨a, ha, List.prefix_refl _⟩
  | cons p t ih =>
    rw [exec] at hs
    rcases h1 : stepP (aloneAct j h) p d with _ | d1 <;> rw [h1] at hs <;> simp only at hs
    · cases hs
    obtain ⟨b, i1, i2⟩ := reported_step h1 ha
    obtain ⟨b', i3, i4⟩ := ih hs i1
    exact ⟨b', i3, i2.trans i4⟩

end QIP
