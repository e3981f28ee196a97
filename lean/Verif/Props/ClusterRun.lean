import Verif.Props.Cluster
import Verif.Props.DistRun

/-!
# C111: circuits run by many clients on one cluster
-/

namespace QIP.Props

open QIP QIP.Spec Heap

/-- A client that calls `run(*args, feed=..., backend_constructor=DistributedBackend...)`: its graph, its caches, its environment, the handle
it gets, and the draws of the manager. -/
structure Runner where
  h : Heap
  env : List Nat
  args : List Nat
  feed : List (List Nat × List ℂ)
  strict : Bool
  ms : MsTable
  e : Env
  handle : String
  rs : List ℝ

/-- The run of the client, with these replies of the manager. -/
noncomputable def Runner.run (a : Runner) (replies : List Reply) : Except PyErr DistResult :=
  distRun a.h a.ms a.args (a.feed.map asFeed) a.strict none a.e.pick a.e.shuffle (some a.handle) replies

/-- The job is what the run sends, whatever the replies; the circuit is as in C92, the workers are as in C88. -/
structure Launched (j : ClusterJob) (a : Runner) : Prop where
  n : j.n = width a.h a.args
  circuit : Circuit a.h a.env a.args
  nodes : ∀ x, Reach a.h a.args x → NodeOK a.h a.args x ∧ DistNode a.h x
  fed : FeedOK a.h a.args a.feed
  defaults : ∀ q ∈ leaves a.h a.args, q ∉ (a.feed.map (·.1)).flatten → DefaultOK a.h q
  some : SomeFed a.h a.args a.feed
  small : width a.h a.args ≤ 30
  norm : Spec.totalProb (width a.h a.args) (startAmp a.h a.args a.feed) = 1
  strict : a.strict = true → ∀ q ∈ leaves a.h a.args, q ∈ (a.feed.map (·.1)).flatten
  cache : CacheOK a.h a.args a.ms
  envOK : EnvOK a.h a.args a.e
  params : ∃ C M, JobParams j.placed j.prm C M
  arena : ∀ p ∈ j.placed, (j.arena p.wid).length = p.out.2 - p.out.1
  sched : ∀ p ∈ j.placed, ∀ w c, ((j.prm w).sched c).Perm (List.range (p.out.2 - p.out.1))
  garbage : ∀ w c, (j.prm w).garbage c = 0
  draw : ∀ i c, 0 < (j.prm (i, i)).draw c ∧ (j.prm (i, i)).draw c < 1
  enough : (needed a.h a.args).length ≤ a.rs.length
  draws : ∀ r ∈ a.rs, 0 < r ∧ r < 1
  sends : ∀ replies r, a.run replies = .ok r → r.setup = j.states ∧
    ∃ ops : List JobOp, r.sent = ops.map .op ∧ (ops.zip a.rs).mapM (fun o => opProg j.wids o.2 o.1) = .ok j.progs

/-- With these replies the run returns its handle and a dictionary, which the local `run` returns as well, with some draws. -/
def Runner.Right (a : Runner) (results : List (Option (Nat × ℝ))) : Prop :=
  ∃ r, a.run (results.map asReply) = .ok r ∧ r.handle = a.handle ∧
    ∃ (us : Nat → ℝ) (out : List ℂ), (∀ x, 0 < us x ∧ us x < 1) ∧
      QIP.run a.h a.ms a.args (a.feed.map asFeed) a.strict none a.e.pick a.e.shuffle (drawing a.e.orc us) a.e.arena
        = .ok (out, r.classic, r.ms)

/-! ## The requests of a run do not depend on the replies -/

theorem ask_sent {s s' : DFeeder} {q : DReq} {r : Reply} (h : ask s q = .ok (r, s')) : s'.ms = s.ms ∧ s'.sent = s.sent ++ [q] := by
  unfold ask at h
  split at h
  · cases h
  · cases h
  · injection h with h
    obtain ⟨-, rfl⟩ := Prod.mk.inj h
    exact ⟨rfl, rfl⟩

/-- What a fed node sends, and what it leaves in the cache. -/
theorem distFeed_sent {h : Heap} {s s' : DFeeder} {gs : List (List Nat)} {own : List Nat} {x : Nat} (h1 : distFeed h s gs own x = .ok s') :
    match h.kind x with
    | .gate g dagger => ∃ m, opMats (s.ms x) g dagger gs = .ok m ∧ s'.sent = s.sent ++ [.op (.kron m)] ∧
        s'.ms = fun y => if y = x then some m else s.ms y
    | .measure => s'.sent = s.sent ++ [.op (.measure gs.flatten none)] ∧ s'.ms = s.ms
    | .smeasure k => s'.sent = s.sent ++ [.probs gs.flatten k] ∧ s'.ms = s.ms
    | _ => s'.sent = s.sent ∧ s'.ms = s.ms := by
  unfold distFeed at h1
  rcases hk : h.kind x with _ | _ | ⟨g, d⟩ | _ | _ | k <;> simp only [hk, bind, Except.bind] at h1 ⊢
  · injection h1 with h1
    subst h1
    exact ⟨rfl, rfl⟩
  · injection h1 with h1
    subst h1
    exact ⟨rfl, rfl⟩
  · split at h1
    · cases h1
    next m hm =>
    split at h1
    · cases h1
    split at h1
    · cases h1
    next r hr =>
    obtain ⟨e1, e2⟩ := ask_sent hr
    injection h1 with h1
    subst h1
    exact ⟨m, hm, e2, by rw [← e1]⟩
  · cases h1
  · split at h1
    · cases h1
    split at h1
    · cases h1
    next r hr =>
    obtain ⟨e1, e2⟩ := ask_sent hr
    split at h1
    · injection h1 with h1
      subst h1
      exact ⟨e2, e1⟩
    · cases h1
  · split at h1
    · cases h1
    split at h1
    · cases h1
    next r hr =>
    obtain ⟨e1, e2⟩ := ask_sent hr
    split at h1
    · injection h1 with h1
      subst h1
      exact ⟨e2, e1⟩
    · cases h1

theorem distFeed_same {h : Heap} {s t s' t' : DFeeder} {gs : List (List Nat)} {own : List Nat} {x : Nat} (hms : s.ms = t.ms)
    (hsent : s.sent = t.sent) (h1 : distFeed h s gs own x = .ok s') (h2 : distFeed h t gs own x = .ok t') :
    s'.ms = t'.ms ∧ s'.sent = t'.sent := by
  have i1 := distFeed_sent h1
  have i2 := distFeed_sent h2
  rcases hk : h.kind x with _ | _ | ⟨g, d⟩ | _ | _ | k <;> simp only [hk] at i1 i2
  case gate =>
    obtain ⟨m, a1, a2, a3⟩ := i1
    obtain ⟨m', b1, b2, b3⟩ := i2
    rw [hms, b1] at a1
    injection a1 with a1
    subst a1
    rw [a2, a3, b2, b3, hms, hsent]
    exact ⟨rfl, rfl⟩
  all_goals rw [i1.1, i1.2, i2.1, i2.2, hms, hsent]; exact ⟨rfl, rfl⟩

theorem distFeed_all_same {h : Heap} {gs : Nat → List (List Nat)} {own : Nat → List Nat} (xs : List Nat) {s t s' t' : DFeeder}
    (hms : s.ms = t.ms) (hsent : s.sent = t.sent) (h1 : xs.foldlM (fun a x => distFeed h a (gs x) (own x) x) s = .ok s')
    (h2 : xs.foldlM (fun a x => distFeed h a (gs x) (own x) x) t = .ok t') : s'.ms = t'.ms ∧ s'.sent = t'.sent := by
  induction xs generalizing s t with
  | nil =>
    injection h1 with h1
    injection h2 with h2
    exact ⟨h1 ▸ h2 ▸ hms, h1 ▸ h2 ▸ hsent⟩
  | cons x xs ih =>
    rw [List.foldlM_cons] at h1 h2
    rcases e1 : distFeed h s (gs x) (own x) x with _ | s1 <;> rw [e1] at h1
    · cases h1
    rcases e2 : distFeed h t (gs x) (own x) x with _ | t1 <;> rw [e2] at h2
    · cases h2
    obtain ⟨a, b⟩ := distFeed_same hms hsent e1 e2
    exact ih a b h1 h2

/-- Two runs of the same circuit with different replies send the same. -/
theorem distRun_same {h : Heap} {env args : List Nat} (c : Circuit h env args) {feed : List (List Nat × List ℂ)} (hf : FeedOK h args feed)
    (hdef : ∀ q ∈ leaves h args, q ∉ (feed.map (·.1)).flatten → DefaultOK h q) {strict : Bool}
    (hstr : strict = true → ∀ q ∈ leaves h args, q ∈ (feed.map (·.1)).flatten) {pick : List Nat → Nat}
    {shuffle : List Nat → List Nat} (hsh : ∀ l, (shuffle l).Perm l) {ms : MsTable} {handle : Option String} {replies replies' : List Reply}
    {r r' : DistResult} (h1 : distRun h ms args (feed.map asFeed) strict none pick shuffle handle replies = .ok r)
    (h2 : distRun h ms args (feed.map asFeed) strict none pick shuffle handle replies' = .ok r') :
    r.n = r'.n ∧ r.setup = r'.setup ∧ r.sent = r'.sent := by
  obtain ⟨V, c⟩ := c.ctx
  obtain ⟨deps, -, -, hrun⟩ := distRun_spec c hf hdef pick shuffle hsh
  rw [hrun _ _ _ _ hstr] at h1 h2
  simp only [bind, Except.bind] at h1 h2
  split at h1
  · cases h1
  next setup hs =>
  rw [hs] at h2
  rcases handle with _ | hd
  · cases h1
  simp only at h1 h2
  split at h1
  · cases h1
  next acc ha =>
  split at h2
  · cases h2
  next acc' ha' =>
  obtain ⟨-, e⟩ := distFeed_all_same (needed h args) (by rfl) (by rfl) ha ha'
  injection h1 with h1
  injection h2 with h2
  subst h1 h2
  exact ⟨rfl, rfl, e⟩

/-! ## The theorem -/

theorem Launched.good {j : ClusterJob} {a : Runner} (h : Launched j a) {free rest : List Wkr}
    (hpl : placeWorkers j.n free = .ok (j.placed, rest)) (i : Nat) :
    ∃ F results, Good j i F ∧ F.loc none = .thr (.run (.fin (results ++ [none]))) ∧ a.Right results := by
  obtain ⟨C, M, hprm⟩ := h.params
  obtain ⟨hn, hlen⟩ : j.n = width a.h a.args ∧ (needed a.h a.args).length ≤ a.rs.length := ⟨h.n, h.enough⟩
  obtain ⟨setup, placed, rest', s1, s2, s3⟩ := dist_run h.circuit h.nodes h.fed h.defaults h.some h.small h.norm h.strict h.cache
    h.envOK (workers := free) (hn ▸ enough_of_place hpl) a.handle
  have e : placed = j.placed := by
    rw [← hn, hpl] at s1
    injection s1 with s1
    exact (Prod.mk.inj s1).1.symm
  subst e
  obtain rfl : setup = j.states := by
    obtain ⟨prm, c, h1, h2, h3, h4, h5⟩ := job_exists s1 s2 (.done (.ok none))
    obtain ⟨ops, results, cl, ms', cf', out, us, r1, -⟩ := s3 prm 1 2 _ c h1 h2 h3 h4 h5 a.rs hlen h.draws
    exact (h.sends _ _ r1).1
  rw [← hn] at s2 s3
  obtain ⟨F, ops, results, h1, h2, -, h3⟩ := good_of hpl i h.arena s2 (P := fun ops results =>
      ops.mapM (fun o => opProg j.wids o.2 o.1) = .ok j.progs ∧ a.Right results) (by
    intro c hstart
    obtain ⟨ops, results, cl, ms', cf', out, us, r1, -, r2, r3, r4, -, K, N, v, C', M', st, pm', hg, hD⟩ :=
      s3 j.prm C M _ c hprm hstart h.sched h.garbage h.draw a.rs hlen h.draws
    obtain ⟨c2, j1, j2, j3, j4⟩ := close_clean hg hD
    obtain ⟨-, ops', e1, e2⟩ := h.sends _ _ r1
    obtain rfl : ops = ops' := List.map_injective_iff.2 (fun x y h => by simpa using h) e1
    exact ⟨_, results, cf', c2, ⟨e2, _, r1, rfl, us, out, r3, r4⟩, r2, j1, j2, j3, j4⟩) fun ops results h => h.1
  exact ⟨F, results, h1, h2, h3⟩

/-- A client of either kind. -/
inductive Party where
  | client (a : Client)
  | runner (a : Runner)

/-- The job is what becomes of the requests of this client. -/
def Party.Asks (j : ClusterJob) : Party → Prop
  | .client a => Asked j a
  | .runner a => Launched j a

/-- The client gets what it would get without the cluster. -/
def Party.Right (n : Nat) (results : List (Option (Nat × ℝ))) : Party → Prop
  | .client a => a.Right n results
  | .runner a => a.Right results

/-- C111 (partial: circuits as in C92, jobs as in C88; no failing sockets): any number of clients, some of which call `run` with the
distributed backend and some of which use the backend directly, ask for jobs at any time on one cluster.  There are results for every job, the
same in every history: with them every `run` returns its handle and the dictionary that the local `run` returns with some draws;
and in every history the jobs are served as in C110 with these results. -/
theorem C111_runs_partial (jobs : Nat → ClusterJob) (parties : Nat → Party) :
    ∃ results : Nat → List (Option (Nat × ℝ)), ∀ es C, (∀ h, .ask h ∈ es → (parties h).Asks (jobs h)) →
      Cluster.init.run jobs es = some C →
      (∀ h, .ask h ∈ es → (parties h).Right (jobs h).n (results h)) ∧ Serves jobs results es C := by
  have key : ∀ h, ∃ F results, (parties h).Asks (jobs h) →
      (∃ free rest, placeWorkers (jobs h).n free = .ok ((jobs h).placed, rest)) →
      Good (jobs h) h F ∧ F.loc none = .thr (.run (.fin (results ++ [none]))) ∧ (parties h).Right (jobs h).n results := by
    intro h
    by_cases hh : (parties h).Asks (jobs h) ∧ ∃ free rest, placeWorkers (jobs h).n free = .ok ((jobs h).placed, rest)
    · obtain ⟨h1, free, rest, h2⟩ := hh
      rcases hp : parties h with a | a <;> rw [hp] at h1
      · obtain ⟨F, results, h3⟩ := Asked.good h1 h2 h
        exact ⟨F, results, fun _ _ => h3⟩
      · obtain ⟨F, results, h3⟩ := Launched.good h1 h2 h
        exact ⟨F, results, fun _ _ => h3⟩
    · exact ⟨aloneStart (jobs h), [], fun h1 h2 => absurd ⟨h1, h2⟩ hh⟩
  choose F results key using key
  refine ⟨results, fun es C hask he => ?_⟩
  have key' : ∀ h, .ask h ∈ es → _ := fun h hh => key h (hask h hh) (asked_placed he hh)
  exact ⟨fun h hh => (key' h hh).2.2, serves_of_good he fun h hh => ⟨(key' h hh).1, (key' h hh).2.1⟩⟩

/-! ## Cases -/

/-- The client of the example in `Props/DistRun`. -/
noncomputable def xorRunner : Runner := ⟨xors, [0, 1, 3, 4], [4], [([0], [3 / 5, 4 / 5])], false, fun _ => none,
  ⟨fun _ => 0, id, fun x => ⟨List.range (2 ^ width xors [4]),
    (faCounters (width xors [4]) ((groups xors [4] x).getD 0 []) ((groups xors [4] x).getD 1 [])), fun _ => 0, 0, 0⟩,
    List.replicate (2 ^ width xors [4]) 0⟩, "job", List.replicate 4 (1 / 2)⟩

theorem jobRuns_progs {prm : Wid → WParam} {ws : List Wid} {ops : List (JobOp × ℝ)} {c c' : Cfg Pid NMsg NLoc}
    {results : List (Option (Nat × ℝ))} (h : JobRuns prm ws ops c results c') :
    ∃ progs, ops.mapM (fun o => opProg ws o.2 o.1) = .ok progs := by
  induction h with
  | nil => exact ⟨[], rfl⟩
  | cons hop _ _ _ ih =>
    obtain ⟨progs, e⟩ := ih
    exact ⟨_, by rw [List.mapM_cons, hop, e]; rfl⟩

/-- It can run its circuit on any workers. -/
theorem xors_launched {free rest : List Wkr} {placed : List Placed} (hpl : placeWorkers 2 free = .ok (placed, rest)) :
    ∃ j, Launched j xorRunner ∧ j.n = 2 ∧ j.placed = placed := by
  obtain ⟨i0, i1, i3, i4, k0, k1, k3, k4, n0, n1, n3, n4, d0, d1⟩ := xors_facts
  obtain ⟨w1, w2, w3, -⟩ := xors_wires
  have he : EnvOK xorRunner.h xorRunner.args xorRunner.e := ⟨fun _ => .refl _, fun _ => .refl _, fun _ => .refl _, by simp [xorRunner]⟩
  have hf : FeedOK xorRunner.h xorRunner.args xorRunner.feed := ⟨by simp [xorRunner], by simp [xorRunner, w2], by simp [xorRunner, n0]⟩
  have hd : ∀ q ∈ leaves xorRunner.h xorRunner.args, q ∉ (xorRunner.feed.map (·.1)).flatten → DefaultOK xorRunner.h q := by
    intro q hq _
    simp only [xorRunner] at hq ⊢
    rw [w2] at hq
    unfold DefaultOK
    simp only [List.mem_cons, List.not_mem_nil, or_false] at hq
    rcases hq with rfl | rfl <;> simp [d0, d1, n1]
  have hs : SomeFed xorRunner.h xorRunner.args xorRunner.feed := .inl (by simp [xorRunner])
  have hw : width xorRunner.h xorRunner.args = 2 := w3
  have hstr : xorRunner.strict = true → ∀ q ∈ leaves xorRunner.h xorRunner.args, q ∈ (xorRunner.feed.map (·.1)).flatten := by
    simp [xorRunner]
  have hc : CacheOK xorRunner.h xorRunner.args xorRunner.ms := fun _ _ _ _ _ m hm => by cases hm
  have hl : (needed xorRunner.h xorRunner.args).length ≤ xorRunner.rs.length := by simp [xorRunner, w1]
  have hr : ∀ r ∈ xorRunner.rs, 0 < r ∧ r < 1 := by
    intro r hr
    obtain ⟨-, rfl⟩ := List.mem_replicate.1 hr
    norm_num
  obtain ⟨setup, placed', rest', s1, s2, s3⟩ := dist_run xors_circuit xors_ok hf hd hs (hw ▸ by norm_num) xors_total hstr hc he (workers := free)
    (hw ▸ enough_of_place hpl) xorRunner.handle
  replace s1 : placeWorkers 2 free = .ok (placed', rest') := hw ▸ s1
  rw [hpl] at s1
  injection s1 with s1
  obtain ⟨rfl, rfl⟩ := Prod.mk.inj s1
  obtain ⟨prm, c, h1, h2, h3, h4, h5⟩ := job_exists (n := width xorRunner.h xorRunner.args) (hw.symm ▸ hpl) s2 (.done (.ok none))
  obtain ⟨ops, results, cl, ms', cf', out, us, r1, -, r2, -⟩ := s3 prm 1 2 _ c h1 h2 h3 h4 h5 xorRunner.rs hl hr
  obtain ⟨progs, p1⟩ : ∃ progs, (ops.zip xorRunner.rs).mapM (fun o => opProg (placed.map Placed.wid) o.2 o.1) = .ok progs :=
    jobRuns_progs r2
  refine ⟨⟨2, setup, placed, fun w => List.replicate ((prm w).sched 0).length 0, prm, progs⟩, ⟨hw.symm, xors_circuit, xors_ok, hf, hd, hs,
    hw ▸ by norm_num, xors_total, hstr, hc, he, ⟨_, _, h1⟩, fun p hp => ?_, h3, h4, h5, hl, hr, fun replies r hrun => ?_⟩, rfl, rfl⟩
  · simpa using (h3 p hp p.wid 0).length_eq
  · obtain ⟨-, e1, e2⟩ := distRun_same xors_circuit hf hd hstr he.shuffle hrun r1
    exact ⟨e1, ops, e2, p1⟩

theorem place_one (k : Nat) : placeWorkers 2 [⟨k, 2⟩] = .ok ([⟨(0, 4), (0, 4), ⟨k, 2⟩⟩], []) := by
  have h : drawWorkers 2 [⟨k, 2⟩] = .ok ([⟨k, 2⟩], [], 2) := by
    unfold drawWorkers
    rw [List.mergeSort_singleton]
    simp [drawLoop, requiredWorkers, bind, Except.bind]
  unfold placeWorkers
  rw [h]
  rfl

/-- Two workers; one client runs a circuit while the other measures a qubit of a state it has fed.  Both get what they should. -/
example : ∃ (jobs : Nat → ClusterJob) (es : List CEvent) (C : Cluster) (results : Nat → List (Option (Nat × ℝ))),
    [.connect ⟨0, 2⟩, .ask 0, .connect ⟨1, 2⟩, .ask 1] <+: es ∧ Cluster.init.run jobs es = some C ∧
    xorRunner.Right (results 0) ∧ (⟨[[0, 1]], [bellV], [(.measure [1] none, 1 / 2)]⟩ : Client).Right 2 (results 1) ∧
    C.thread 0 = some (.ended (results 0 ++ [none])) ∧ C.thread 1 = some (.ended (results 1 ++ [none])) := by
  obtain ⟨j0, h0, n0, p0⟩ := xors_launched (place_one 0)
  obtain ⟨j1, h1, n1, p1⟩ := bell_asked (place_one 1) (ops := [(.measure [1] none, 1 / 2)]) (by
      simp only [List.mem_singleton, forall_eq]
      exact ⟨⟨by constructor <;> simp, by simp⟩, by norm_num, by norm_num⟩)
  let jobs : Nat → ClusterJob := fun h => if h = 0 then j0 else j1
  let parties : Nat → Party := fun h => if h = 0 then .runner xorRunner else .client ⟨[[0, 1]], [bellV], [(.measure [1] none, 1 / 2)]⟩
  have hall : ∀ h, (parties h).Asks (jobs h) := by
    intro h
    by_cases hh : h = 0
    · simp only [parties, jobs, if_pos hh]
      exact h0
    · simp only [parties, jobs, if_neg hh]
      exact h1
  obtain ⟨results, key⟩ := C111_runs_partial jobs parties
  obtain ⟨C, hC⟩ : ∃ C, Cluster.init.run jobs [.connect ⟨0, 2⟩, .ask 0, .connect ⟨1, 2⟩, .ask 1] = some C := by
    simp [Cluster.run, Cluster.step, Cluster.init, jobs, n0, n1, p0, p1, place_one]
  obtain ⟨N, hN⟩ := (key _ C (fun h _ => hall h) hC).2.bounded
  obtain ⟨es', C', i1, i2, i3⟩ := cluster_ends hN
  have hC' : Cluster.init.run jobs ([.connect ⟨0, 2⟩, .ask 0, .connect ⟨1, 2⟩, .ask 1] ++ es') = some C' := by
    rw [run_append, hC]
    exact i2
  obtain ⟨k1, k2⟩ := key _ C' (fun h _ => hall h) hC'
  have r1 := k1 1 (by simp)
  simp only [parties, jobs, one_ne_zero, if_false, Party.Right, n1] at r1
  exact ⟨jobs, _, C', results, List.prefix_append _ _, hC', k1 0 (by simp), r1, (k2.rest i3).1 0 (by simp), (k2.rest i3).1 1 (by simp)⟩

end QIP.Props
