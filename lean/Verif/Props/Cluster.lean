import Verif.Lemmas.AloneEnds

/-!
# C110: a manager and its workers over any history
-/

namespace QIP.Props

open QIP QIP.Spec

/-- What a client feeds and asks for (each operation with the draw of the manager). -/
structure Client where
  groups : List (List Nat)
  vecs : List (List ℂ)
  ops : List (JobOp × ℝ)

/-- The job is what becomes of the requests of the client, and these are as in C88: states are fed, matrices are unitary and on
tuples of qubits, accumulators are 0, draws are not 0, connections have arrived. -/
structure Asked (j : ClusterJob) (a : Client) : Prop where
  small : j.n ≤ 30
  fed : FedOK j.n a.groups a.vecs
  norm : Spec.totalProb j.n (initAmp j.n a.groups a.vecs) = 1
  setup : setupStates j.n a.groups (a.vecs.map .vec) = .ok j.states
  params : ∃ C M, JobParams j.placed j.prm C M
  arena : ∀ p ∈ j.placed, (j.arena p.wid).length = p.out.2 - p.out.1
  sched : ∀ p ∈ j.placed, ∀ w c, ((j.prm w).sched c).Perm (List.range (p.out.2 - p.out.1))
  garbage : ∀ w c, (j.prm w).garbage c = 0
  draw : ∀ i c, 0 < (j.prm (i, i)).draw c ∧ (j.prm (i, i)).draw c < 1
  ops : ∀ o ∈ a.ops, OpOK j.n o.1 ∧ 0 < o.2 ∧ o.2 < 1
  progs : a.ops.mapM (fun o => opProg j.wids o.2 o.1) = .ok j.progs

/-- The results are those of a local backend with the same states, asked for the same operations and the reported outcomes. -/
def Client.Right (a : Client) (n : Nat) (results : List (Option (Nat × ℝ))) : Prop :=
  results.length = a.ops.length ∧ ∀ arena : List ℂ, arena.length = 2 ^ n →
    ∃ b b', makeState n a.groups (a.vecs.map .vec) 0 (2 ^ n) arena = .ok b ∧ LocalJob ((a.ops.map Prod.fst).zip results) b b'

/-- A job alone, from its operations and the closing of its pool. -/
theorem good_of {j : ClusterJob} {free rest : List Wkr} (hpl : placeWorkers j.n free = .ok (j.placed, rest)) (i : Nat)
    (harena : ∀ p ∈ j.placed, (j.arena p.wid).length = p.out.2 - p.out.1)
    (hinit : ∀ p ∈ j.placed, ∀ arena, ∃ b, workerInit j.n j.states p arena = .ok b) {P : List (JobOp × ℝ) → List (Option (Nat × ℝ)) → Prop}
    (hruns : ∀ c, JobStart j.n j.states j.placed (.done (.ok none)) c → ∃ ops results c1 c2, P ops results ∧
      JobRuns j.prm j.wids ops c results c1 ∧ AlwaysEnds (netAct j.prm) (startOp c1 (closePool j.wids)) c2 ∧
      c2.loc none = .mgr (.done (.ok none)) ∧ (∀ w ∈ j.wids, ∃ s, c2.loc (some w) = .wkr s ∧ s.pc = .closed) ∧
      ∀ w, c2.buf (some w, none) = [] ∧ c2.buf (none, some w) = [])
    (hprogs : ∀ ops results, P ops results → ops.mapM (fun o => opProg j.wids o.2 o.1) = .ok j.progs) :
    ∃ F ops results, Good j i F ∧ F.loc none = .thr (.run (.fin (results ++ [none]))) ∧ P ops results := by
  have hwids : j.wids.Nodup := place_wids hpl
  have hset : ∀ p ∈ j.placed, ∃ b, workerInit j.n j.states p (j.arena p.wid) = .ok b ∧ j.setUp p.wid = some ⟨b, .idle, 0⟩ := by
    intro p hp
    obtain ⟨b, hb⟩ := hinit p hp (j.arena p.wid)
    refine ⟨b, hb, ?_⟩
    unfold ClusterJob.setUp
    rcases hf : j.placed.find? (fun q => decide (q.wid = p.wid)) with _ | q
    · have := List.find?_eq_none.1 hf p hp
      simp at this
    · have e : q.wid = p.wid := by simpa using List.find?_some hf
      have := List.inj_on_of_nodup_map hwids (List.mem_of_find?_eq_some hf) hp e
      subst this
      simp only [hf, hb]
  have hnone : ∀ w, w ∉ j.wids → j.setUp w = none := by
    intro w hw
    unfold ClusterJob.setUp
    rw [List.find?_eq_none.2]
    intro p hp he
    simp only [decide_eq_true_eq] at he
    exact hw (List.mem_map.2 ⟨p, hp, he⟩)
  let st : Wid → WSt := fun w => (j.setUp w).getD ⟨⟨0, [], []⟩, .closed, 0⟩
  let c : Cfg Pid NMsg NLoc := ⟨fun x => match x with
    | none => .mgr (.done (.ok none))
    | some w => .wkr (st w), fun _ => []⟩
  have hstart : JobStart j.n j.states j.placed (.done (.ok none)) c := by
    refine ⟨rfl, fun p hp => ?_, fun w hw => ⟨_, rfl, ?_⟩, fun _ => rfl⟩
    · obtain ⟨b, h1, h2⟩ := hset p hp
      exact ⟨_, b, harena p hp, h1, by simp [c, st, h2]⟩
    · simp [st, hnone w hw]
  obtain ⟨ops, results, c1, c2, hP, r1, r2, r3, r4, r5⟩ := hruns c hstart
  obtain ⟨progs, p1, p2⟩ := job_runs_then r1 (last := closePool j.wids) (r := none) (by
    obtain ⟨-, n, hn⟩ := r2
    obtain ⟨t, ht, -⟩ := hn [] _ rfl
    exact ⟨t, ht⟩) r3
  rw [hprogs _ _ hP] at p1
  injection p1 with p1
  subst p1
  have hsetup := setup_runs (j := j) (h := i) hwids (st := st) (c := c) (by
      intro w hw
      obtain ⟨p, hp, rfl⟩ := List.mem_map.1 hw
      obtain ⟨b, -, h2⟩ := hset p hp
      simp [st, h2]) (by
      intro w hw
      obtain ⟨p, hp, rfl⟩ := List.mem_map.1 hw
      obtain ⟨b, -, h2⟩ := hset p hp
      simp [st, h2]) (fun _ => rfl) (fun w hw => by simp [st, hnone w hw]) fun _ => rfl
  have hall : Runs (aloneAct j i) (aloneStart j) (embed (endCfg (results ++ [none]) c2)) := by
    refine hsetup.trans (embed_runs ?_)
    rcases hp : j.progs ++ [closePool j.wids] with _ | ⟨p, todo⟩
    · simp at hp
    · have e : jobCfg c (p :: todo) = liftCfg [] todo (startOp c p) := by
        refine cfg_ext ?_ rfl
        funext y
        rcases y with _ | y
        · simp [jobCfg, liftCfg, startOp]
        · cases hl : c.loc (some y) <;> simp [jobCfg, liftCfg, startOp, hl]
      rw [e]
      simpa using p2 [] p todo hp
  have hgone : ∀ w, (embed (endCfg (results ++ [none]) c2)).loc (some w) = .left := by
    intro w
    by_cases hw : w ∈ j.wids
    · obtain ⟨s, e1, e2⟩ := r4 w hw
      simp [embed, endCfg, e1, leave, e2]
    · exact (absent hall hw).1
  refine ⟨_, ops, results, ⟨hall.alwaysEnds (embed_stuck (rs := results ++ [none]) rfl hgone), ⟨_, rfl⟩, hgone, fun w => ?_, fun w => ?_⟩,
    rfl, hP⟩
  · simp [embed, endCfg, (r5 w).2]
  · simp [embed, endCfg, (r5 w).1]

theorem enough_of_place {n : Nat} {free rest : List Wkr} {placed : List Placed} (hpl : placeWorkers n free = .ok (placed, rest)) :
    ∃ S, List.Subperm S free ∧ Enough n S := by
  rw [← C59_draw_iff]
  unfold placeWorkers at hpl
  rcases hd : drawWorkers n free with e | x
  · simp [hd, bind, Except.bind] at hpl
  · exact ⟨x, rfl⟩

theorem Asked.good {j : ClusterJob} {a : Client} (h : Asked j a) {free rest : List Wkr}
    (hpl : placeWorkers j.n free = .ok (j.placed, rest)) (i : Nat) :
    ∃ F results, Good j i F ∧ F.loc none = .thr (.run (.fin (results ++ [none]))) ∧ a.Right j.n results := by
  obtain ⟨C, M, hprm⟩ := h.params
  obtain ⟨states, placed, rest', v, s1, s2, -, s4, -⟩ := C84_setup_partial h.small h.fed (enough_of_place hpl)
  rw [h.setup] at s1
  injection s1 with s1
  rw [hpl] at s2
  injection s2 with s2
  obtain ⟨rfl, rfl⟩ := Prod.mk.inj s2
  subst s1
  obtain ⟨F, ops, results, h1, h2, -, h3⟩ := good_of hpl i h.arena s4 (P := fun ops results => ops = a.ops ∧ a.Right j.n results) (by
    intro c hstart
    obtain ⟨results, c1, c2, r1, r2, r3, r4, r5⟩ := C102_clean_partial h.small h.fed h.norm h.setup hpl hprm hstart h.sched h.garbage
      h.draw h.ops
    refine ⟨a.ops, results, c1, c2, ⟨rfl, jobRuns_length r1, fun arena ha => ?_⟩, r1, r2, r3, fun w hw => ?_, r5⟩
    · obtain ⟨results', c', b, b', i1, i2, i3, -⟩ := C88_job_partial h.small h.fed h.norm h.setup hpl hprm hstart h.sched h.garbage
        h.draw h.ops ha
      obtain ⟨rfl, -⟩ := jobRuns_unique r1 i1
      exact ⟨b, b', i2, i3⟩
    · obtain ⟨p, hp, rfl⟩ := List.mem_map.1 hw
      exact r4 p hp) (by rintro ops results ⟨rfl, -⟩; exact h.progs)
  exact ⟨F, results, h1, h2, h3⟩

/-- A job that was asked for got its workers from those free at that time. -/
theorem asked_placed {jobs : Nat → ClusterJob} {es : List CEvent} {C C' : Cluster} (he : C.run jobs es = some C') {h : Nat}
    (hh : .ask h ∈ es) : ∃ free rest, placeWorkers (jobs h).n free = .ok ((jobs h).placed, rest) := by
  induction es generalizing C with
  | nil => simp at hh
  | cons e es ih =>
    rw [Cluster.run] at he
    rcases hs : C.step jobs e with _ | C1 <;> rw [hs] at he
    · cases he
    rcases List.mem_cons.1 hh with rfl | hh
    · simp only [Cluster.step] at hs
      split at hs
      · rename_i placed rest h1 h2
        split at hs
        · rename_i h3
          exact ⟨_, rest, h3 ▸ h2⟩
        · cases hs
      · cases hs
    · exact ih he hh

/-- What happens in every history of a cluster in which the jobs that were asked for have these results. -/
structure Serves (jobs : Nat → ClusterJob) (results : Nat → List (Option (Nat × ℝ))) (es : List CEvent) (C : Cluster) : Prop where
  /-- every thread has reported a part of its results, and then the end of the job (`none`) -/
  reports : ∀ h, .ask h ∈ es → ∃ t, C.thread h = some t ∧ t.reported <+: results h ++ [none]
  /-- there are threads for the jobs that were asked for only -/
  only : ∀ h, .ask h ∉ es → C.thread h = none
  alive : ∀ x, C.life x ≠ .dead
  /-- only finitely many steps can be made before something new is asked for -/
  bounded : ∃ N, ∀ es' C', (∀ e ∈ es', e.isStep) → C.run jobs es' = some C' → es'.length ≤ N
  /-- when no process can make a step: all jobs have ended with all their results, all workers wait for a job, no message is left
  between the manager and a worker, and all workers are free -/
  rest : (∀ e : CEvent, e.isStep → C.step jobs e = none) →
    (∀ h, .ask h ∈ es → C.thread h = some (.ended (results h ++ [none]))) ∧
    (∀ x, C.life x = .waiting ∧ C.down x = [] ∧ C.up x = []) ∧ C.free.Perm C.known

theorem serves_of_good {jobs : Nat → ClusterJob} {es : List CEvent} {C : Cluster} {F : Nat → Cfg Pid CMsg ALoc}
    {results : Nat → List (Option (Nat × ℝ))} (he : Cluster.init.run jobs es = some C)
    (key' : ∀ h, .ask h ∈ es → Good (jobs h) h (F h) ∧ (F h).loc none = .thr (.run (.fin (results h ++ [none])))) :
    Serves jobs results es C := by
  obtain ⟨d, ts, q, L, I, hL, -⟩ := inv_run (F := F) (d := fun _ => aloneStart (jobs 0)) (ts := fun _ => []) es
    (fun h hh => (key' h (by simpa using hh)).1) inv_init he
  have hL' : ∀ h, h ∈ L ↔ .ask h ∈ es := fun h => by simpa using hL h
  have hg : ∀ h ∈ L, Good (jobs h) h (F h) := fun h hh => (key' h ((hL' h).1 hh)).1
  refine ⟨fun h hh => ?_, fun h hh => ?_, fun x => ?_, ?_, fun hst => ?_⟩
  · have hhL := (hL' h).2 hh
    obtain ⟨t, ht⟩ := (hg h hhL).toEnd (I.alone hhL)
    rcases I.thread h hhL with ⟨a, h1, -, h3⟩ | ⟨rs, h1, h3⟩
    · obtain ⟨b, i1, i2⟩ := reported_exec ht h3
      rw [(key' h hh).2] at i1
      injection i1 with i1
      subst i1
      exact ⟨a, h1, i2⟩
    · obtain ⟨b, i1, i2⟩ := reported_exec ht h3
      rw [(key' h hh).2] at i1
      injection i1 with i1
      subst i1
      exact ⟨_, h1, i2⟩
  · by_contra hne
    exact hh ((hL' h).1 ((I.started h).2 hne))
  · rw [I.life]
    unfold headLife
    split
    · simp
    · split <;> simp
  · obtain ⟨N, hN⟩ := used_le hg
    refine ⟨N, fun es' C' hstep hrun => ?_⟩
    obtain ⟨d', ts', q', L', I', -, hu⟩ := inv_run (F := F) es' (fun h hh => by
      rcases hh with hh | hh
      · exact hg h hh
      · have := hstep _ hh
        simp [CEvent.isStep] at this) I hrun
    obtain ⟨rfl, hu⟩ := hu hstep
    have := hN _ _ _ _ I'
    omega
  · have hd := inv_done hg I hst
    refine ⟨fun h hh => ?_, inv_rest hg I hd, ?_⟩
    · have hhL := (hL' h).2 hh
      obtain ⟨⟨rs, h1⟩, h2⟩ := hd h hhL
      rcases I.thread h hhL with ⟨a, i1, i2, -⟩ | ⟨rs', i1, i3⟩
      · rw [h1] at i1
        injection i1 with i1
        exact absurd i1.symm (i2 rs)
      · rw [h2, (key' h hh).2] at i3
        injection i3 with i3
        injection i3 with i3
        injection i3 with i3
        rw [i1, i3]
    · rw [List.perm_ext_iff_of_nodup I.freeOnce I.knownOnce]
      refine fun x => ⟨I.freeKnown x, fun hx => ?_⟩
      rcases I.kept x hx with h1 | ⟨h, h1, h2, -⟩
      · exact h1
      · exact absurd (hd h h1).1 h2

/-- C110 (partial: every job as in C88; no failing sockets, see C101, C102): workers connect and clients ask for jobs at any time,
and all processes run with any schedule; a worker given back by one job is used by the next, even while it has not yet read that
the old job is closed.  There are results for every job, those of its own local backend and the same in every history, such that in every
history: there are threads for the jobs that were asked for only; no worker dies; every thread has reported a part of its results (and
then the end of the job, `none`); only finitely many steps can be made before something new is asked for; and when no process can make
a step, all jobs have ended with all their results, all workers wait for a job, no message is left between the manager and a worker,
and all workers are free. -/
theorem C110_cluster_partial (jobs : Nat → ClusterJob) (asked : Nat → Client) :
    ∃ results : Nat → List (Option (Nat × ℝ)), ∀ es C, (∀ h, .ask h ∈ es → Asked (jobs h) (asked h)) →
      Cluster.init.run jobs es = some C →
      (∀ h, .ask h ∈ es → (asked h).Right (jobs h).n (results h)) ∧ Serves jobs results es C := by
  have key : ∀ h, ∃ F results, Asked (jobs h) (asked h) →
      (∃ free rest, placeWorkers (jobs h).n free = .ok ((jobs h).placed, rest)) →
      Good (jobs h) h F ∧ F.loc none = .thr (.run (.fin (results ++ [none]))) ∧ (asked h).Right (jobs h).n results := by
    intro h
    by_cases hh : Asked (jobs h) (asked h) ∧ ∃ free rest, placeWorkers (jobs h).n free = .ok ((jobs h).placed, rest)
    · obtain ⟨h1, free, rest, h2⟩ := hh
      obtain ⟨F, results, h3⟩ := h1.good h2 h
      exact ⟨F, results, fun _ _ => h3⟩
    · exact ⟨aloneStart (jobs h), [], fun h1 h2 => absurd ⟨h1, h2⟩ hh⟩
  choose F results key using key
  refine ⟨results, fun es C hask he => ?_⟩
  have key' : ∀ h, .ask h ∈ es → _ := fun h hh => key h (hask h hh) (asked_placed he hh)
  exact ⟨fun h hh => (key' h hh).2.2, serves_of_good he fun h hh => ⟨(key' h hh).1, (key' h hh).2.1⟩⟩

/-- A bounded number of steps leads to a state without steps. -/
theorem cluster_ends {jobs : Nat → ClusterJob} {C : Cluster} {N : Nat}
    (hN : ∀ es' C', (∀ e ∈ es', e.isStep) → C.run jobs es' = some C' → es'.length ≤ N) :
    ∃ es' C', (∀ e ∈ es', e.isStep) ∧ C.run jobs es' = some C' ∧ ∀ e : CEvent, e.isStep → C'.step jobs e = none := by
  induction N generalizing C with
  | zero =>
    refine ⟨[], C, by simp, rfl, fun e he => ?_⟩
    rcases hs : C.step jobs e with _ | C1
    · rfl
    · have := hN [e] C1 (by simpa using he) (by simp [Cluster.run, hs])
      simp at this
  | succ N ih =>
    by_cases hst : ∀ e : CEvent, e.isStep → C.step jobs e = none
    · exact ⟨[], C, by simp, rfl, hst⟩
    · simp only [not_forall] at hst
      obtain ⟨e, he, hne⟩ := hst
      obtain ⟨C1, hs⟩ := Option.ne_none_iff_exists'.1 hne
      obtain ⟨es', C', i1, i2, i3⟩ := ih (C := C1) fun es' C' h1 h2 => by
        have := hN (e :: es') C' (by simpa using ⟨he, h1⟩) (by simp [Cluster.run, hs, h2])
        simpa using this
      exact ⟨e :: es', C', by simpa using ⟨he, i1⟩, by simp [Cluster.run, hs, i2], i3⟩

theorem run_append (jobs : Nat → ClusterJob) (C : Cluster) (es es' : List CEvent) :
    C.run jobs (es ++ es') = (C.run jobs es).bind fun C' => C'.run jobs es' := by
  induction es generalizing C with
  | nil => rfl
  | cons e es ih =>
    simp only [List.cons_append, Cluster.run]
    rcases C.step jobs e with _ | C1
    · rfl
    · exact ih C1

/-! ## Cases -/

/-- `3/5 |00> + 4/5 |11>` and any operations, on any workers. -/
theorem bell_asked {free rest : List Wkr} {placed : List Placed} (hpl : placeWorkers 2 free = .ok (placed, rest)) {ops : List (JobOp × ℝ)}
    (hops : ∀ o ∈ ops, OpOK 2 o.1 ∧ 0 < o.2 ∧ o.2 < 1) :
    ∃ j : ClusterJob, Asked j ⟨[[0, 1]], [bellV], ops⟩ ∧ j.n = 2 ∧ j.placed = placed := by
  have hw : ∃ S, List.Subperm S free ∧ Enough 2 S := by
    rw [← C59_draw_iff]
    unfold placeWorkers at hpl
    rcases hd : drawWorkers 2 free with e | x
    · simp [hd, bind, Except.bind] at hpl
    · exact ⟨x, rfl⟩
  obtain ⟨states, placed', rest', v, s1, s2, -, s4, -⟩ := C84_setup_partial (by norm_num) bell_fed hw
  rw [hpl] at s2
  injection s2 with s2
  obtain ⟨rfl, rfl⟩ := Prod.mk.inj s2
  obtain ⟨prm, c, h1, h2, h3, h4, h5⟩ := job_exists hpl s4 (.done (.ok none))
  obtain ⟨progs, -, -, -, -, i1, -⟩ := C88_whole_partial (by norm_num) bell_fed bell_init s1 hpl h1 h2 h3 h4 h5 hops
    (arena := List.replicate 4 0) (by simp)
  refine ⟨⟨2, states, placed, fun w => List.replicate ((prm w).sched 0).length 0, prm, progs⟩, ⟨by norm_num, bell_fed, bell_init, s1,
    ⟨_, _, h1⟩, fun p hp => ?_, h3, h4, h5, hops, i1⟩, rfl, rfl⟩
  simpa using (h3 p hp p.wid 0).length_eq

/-- A worker connects; a client measures a qubit of `3/5 |00> + 4/5 |11>` on it; after the end of this job another client asks for the
same and gets the same worker.  Both jobs end with the results of a local backend, and the worker is free again. -/
example : ∃ (jobs : Nat → ClusterJob) (es : List CEvent) (C : Cluster) (results : Nat → List (Option (Nat × ℝ))), .ask 0 ∈ es ∧ .ask 1 ∈ es ∧ Cluster.init.run jobs es = some C ∧
    (∀ h, h = 0 ∨ h = 1 → (⟨[[0, 1]], [bellV], [(.measure [1] none, 1 / 2)]⟩ : Client).Right 2 (results h) ∧
      C.thread h = some (.ended (results h ++ [none]))) ∧ C.free = [⟨0, 2⟩] := by
  obtain ⟨placed, rest, hpl⟩ : ∃ placed rest, placeWorkers 2 [⟨0, 2⟩] = .ok (placed, rest) := by
    obtain ⟨-, placed, rest, -, -, h, -⟩ := C84_setup_partial (workers := [⟨0, 2⟩]) (by norm_num) bell_fed
      ⟨[⟨0, 2⟩], List.Subperm.refl _, by simp, by simp⟩
    exact ⟨placed, rest, h⟩
  obtain ⟨j, hj, hn, rfl⟩ := bell_asked hpl (ops := [(.measure [1] none, 1 / 2)]) (by
      simp only [List.mem_singleton, forall_eq]
      exact ⟨⟨by constructor <;> simp, by simp⟩, by norm_num, by norm_num⟩)
  replace hpl : placeWorkers j.n [⟨0, 2⟩] = .ok (j.placed, rest) := hn.symm ▸ hpl
  obtain ⟨results, key⟩ := C110_cluster_partial (fun _ => j) fun _ => ⟨[[0, 1]], [bellV], [(.measure [1] none, 1 / 2)]⟩
  have ends : ∀ es C, Cluster.init.run (fun _ => j) es = some C → ∃ es' C', (∀ e ∈ es', e.isStep) ∧
      Cluster.init.run (fun _ => j) (es ++ es') = some C' ∧ ∀ e : CEvent, e.isStep → C'.step (fun _ => j) e = none := by
    intro es C h
    obtain ⟨N, hN⟩ := (key es C (fun _ _ => hj) h).2.bounded
    obtain ⟨es', C', i1, i2, i3⟩ := cluster_ends hN
    exact ⟨es', C', i1, by rw [run_append, h]; exact i2, i3⟩
  have known : ∀ es C C', (∀ e ∈ es, e.isStep) → Cluster.run (fun _ => j) C es = some C' → C'.known = C.known := by
    intro es
    induction es with
    | nil =>
      intro C C' _ h
      simp only [Cluster.run, Option.some.injEq] at h
      rw [h]
    | cons e es ih =>
      intro C C' he h
      rw [Cluster.run] at h
      rcases hs : C.step (fun _ => j) e with _ | C1 <;> rw [hs] at h
      · cases h
      rw [ih C1 C' (fun e h => he e (by simp [h])) h]
      have := he e (by simp)
      rcases e with x | h | h | x
      · simp [CEvent.isStep] at this
      · simp [CEvent.isStep] at this
      · simp only [Cluster.step, threadStep] at hs
        repeat' split at hs
        all_goals cases hs
        all_goals rfl
      · simp only [Cluster.step, workerStep] at hs
        repeat' split at hs
        all_goals cases hs
        all_goals rfl
  obtain ⟨C1, r1, k1⟩ : ∃ C1, Cluster.init.run (fun _ => j) [.connect ⟨0, 2⟩, .ask 0] = some C1 ∧ C1.known = [⟨0, 2⟩] := by
    simp [Cluster.run, Cluster.step, Cluster.init, hpl]
  obtain ⟨es1, C2, i1, i2, i3⟩ := ends _ _ r1
  have k2 : C2.known = [⟨0, 2⟩] := by
    rw [run_append, r1] at i2
    rw [known _ _ _ i1 i2, k1]
  obtain ⟨-, -, t2, -, -, f2⟩ := key _ _ (fun _ _ => hj) i2
  have e2 : C2.free = [⟨0, 2⟩] := List.perm_singleton.1 (k2 ▸ (f2 i3).2.2)
  have t3 : C2.thread 1 = none := t2 1 (by
    simp only [List.mem_append, List.mem_cons, reduceCtorEq, CEvent.ask.injEq, one_ne_zero, List.not_mem_nil, or_self, false_or]
    intro h
    have := i1 _ h
    simp [CEvent.isStep] at this)
  obtain ⟨C3, r3, k3⟩ : ∃ C3, Cluster.init.run (fun _ => j) (([.connect ⟨0, 2⟩, .ask 0] ++ es1) ++ [.ask 1]) = some C3 ∧ C3.known = [⟨0, 2⟩] := by
    rw [run_append, i2]
    simp [Cluster.run, Cluster.step, t3, e2, hpl, k2]
  obtain ⟨es2, C4, j1, j2, j3⟩ := ends _ _ r3
  have k4 : C4.known = [⟨0, 2⟩] := by
    rw [run_append, r3] at j2
    rw [known _ _ _ j1 j2, k3]
  obtain ⟨a4, -, -, -, -, f4⟩ := key _ _ (fun _ _ => hj) j2
  refine ⟨_, _, C4, results, by simp, by simp, j2, fun h hh => ⟨?_, ?_⟩, List.perm_singleton.1 (k4 ▸ (f4 j3).2.2)⟩
  · have := a4 h (by rcases hh with rfl | rfl <;> simp)
    rwa [hn] at this
  · exact (f4 j3).1 h (by rcases hh with rfl | rfl <;> simp)

end QIP.Props
