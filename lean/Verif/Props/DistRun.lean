import Verif.Lemmas.DistRun
import Verif.Lemmas.Demo
import Verif.Props.Run
import Verif.Props.Born

/-!
# C92: running circuits on the distributed backend
-/

namespace QIP.Props

open QIP QIP.Spec Heap

/-- As `C92_run_partial`, with the state of all processes at the end. -/
theorem dist_run {h : Heap} {env args : List Nat} (c : Circuit h env args)
    (hok : ∀ x, Reach h args x → NodeOK h args x ∧ DistNode h x) {feed : List (List Nat × List ℂ)} (hf : FeedOK h args feed)
    (hdef : ∀ q ∈ leaves h args, q ∉ (feed.map (·.1)).flatten → DefaultOK h q) (hsome : SomeFed h args feed)
    (hn : width h args ≤ 30) (hnorm : Spec.totalProb (width h args) (startAmp h args feed) = 1) {strict : Bool}
    (hstr : strict = true → ∀ q ∈ leaves h args, q ∈ (feed.map (·.1)).flatten) {ms : MsTable} (hms : CacheOK h args ms)
    {e : Env} (he : EnvOK h args e) {workers : List Wkr} (hw : ∃ S, List.Subperm S workers ∧ Enough (width h args) S)
    (handle : String) :
    ∃ setup placed rest, placeWorkers (width h args) workers = .ok (placed, rest) ∧
      (∀ p ∈ placed, ∀ arena, ∃ b, workerInit (width h args) setup p arena = .ok b) ∧
      ∀ prm C M pm cf, JobParams placed prm C M → JobStart (width h args) setup placed pm cf →
        (∀ p ∈ placed, ∀ w c, ((prm w).sched c).Perm (List.range (p.out.2 - p.out.1))) →
        (∀ w c, (prm w).garbage c = 0) → (∀ i c, 0 < (prm (i, i)).draw c ∧ (prm (i, i)).draw c < 1) →
        ∀ rs : List ℝ, (needed h args).length ≤ rs.length → (∀ r ∈ rs, 0 < r ∧ r < 1) →
        ∃ (ops : List JobOp) (results : List (Option (Nat × ℝ))) (cl : List (Nat × Classic)) (ms' : MsTable)
            (cf' : Cfg Pid NMsg NLoc) (out : List ℂ) (us : Nat → ℝ),
          distRun h ms args (feed.map asFeed) strict none e.pick e.shuffle (some handle) (results.map asReply)
            = .ok ⟨handle, cl, ms', width h args, setup, ops.map .op⟩ ∧
          ops.length ≤ rs.length ∧ JobRuns prm (placed.map Placed.wid) (ops.zip rs) cf results cf' ∧
          (∀ x, 0 < us x ∧ us x < 1) ∧
          run h ms args (feed.map asFeed) strict none e.pick e.shuffle (drawing e.orc us) e.arena = .ok (out, cl, ms') ∧
          (∀ p ∈ placed, ∃ s, cf'.loc (some p.wid) = .wkr s ∧ s.pc = .idle ∧
            s.b.state = (out.take p.inp.2).drop p.inp.1) ∧
          ∃ K N v C' M' st pm', GridOK prm K N C' M' (placed.map Placed.wid) ∧
            Distributed K N (width h args) v C' M' st pm' cf' := by
  obtain ⟨V, c⟩ := c.ctx
  obtain ⟨deps, d1, d2, hrun⟩ := distRun_spec c hf hdef e.pick e.shuffle he.shuffle
  have hfed := allFeed_ok c hf d1 d2 hdef hsome
  obtain ⟨setup, placed, rest, v, s1, s2, -, s4, s5, -, K, N, s7⟩ := C84_setup_partial hn hfed hw
  refine ⟨setup, placed, rest, s2, s4, ?_⟩
  intro prm C M pm cf hprm hstart hsched hgarb hu rs hlen hrs
  obtain ⟨hg, hD⟩ := s7 prm C M pm cf hprm hstart
  have hv : v = (List.range (2 ^ width h args)).map (startAmp h args feed) := by
    have h1 := s5 e.arena
    rw [makeState_allFeed c hf d1 d2 hdef e.arena] at h1
    injection h1 with h1
    exact (BState.mk.inj h1).2.1.symm
  have hT : norm2 v = 1 := by
    rw [← norm2_total hD.size, ← hnorm]
    apply totalProb_congr
    intro r hr
    simp [hv, hr]
  have hL : ∀ x ∈ needed h args, Reach h args x ∧ NodeOK h args x ∧ DistNode h x := by
    intro x hx
    have := (mem_needed c.wf c.vargs).1 hx
    exact ⟨this, hok x this⟩
  have hnd : (needed h args).Nodup := (needed_asc h args).imp fun h => Nat.ne_of_lt h
  obtain ⟨ops, results, cl, ms', b', cf', pm', st', us, i1, i2, i3, i4, i5, i6⟩ := dist_steps c hn hg
    (sched_grid s2 hprm hg hsched) hgarb hu he.sched (needed h args) hnd hL hlen hrs hms hT hD he.arena
  refine ⟨ops, results, cl, ms', cf', b'.state, us, ?_, i1.trans hlen, i3, i2, ?_, ?_, _, _, _, _, _, _, _, hg, i6⟩
  · rw [hrun _ _ _ _ hstr, s1]
    have := i4 [] [] []
    rw [List.append_nil] at this
    simp only [bind, Except.bind, this, List.nil_append]
  · rw [run_spec c hf hdef ms strict e.pick e.shuffle he.shuffle _ e.arena hstr]
    have := i5 []
    rw [hv] at this
    unfold startState
    rw [this]
    rfl
  · intro p hp
    exact i6.ranges s2 hprm hg hp

/-- C92 (partial: something is fed (C84); swaps, controlled gates and measurements (C69, C66); connections arrived (C64);
accumulators 0 and draws not 0 (C23, C24)): `run` with the distributed backend on a manager with enough free workers.  The
job can be set up, and with whatever draws of the manager (`rs`), under every schedule of the processes, every request is
answered and the run returns the handle of the job with a dictionary.  There are draws with which the local `run` returns the
same dictionary; and then every worker of the job has its range of the state returned by the local `run`. -/
theorem C92_run_partial {h : Heap} {env args : List Nat} (c : Circuit h env args)
    (hok : ∀ x, Reach h args x → NodeOK h args x ∧ DistNode h x) {feed : List (List Nat × List ℂ)} (hf : FeedOK h args feed)
    (hdef : ∀ q ∈ leaves h args, q ∉ (feed.map (·.1)).flatten → DefaultOK h q) (hsome : SomeFed h args feed)
    (hn : width h args ≤ 30) (hnorm : Spec.totalProb (width h args) (startAmp h args feed) = 1) {strict : Bool}
    (hstr : strict = true → ∀ q ∈ leaves h args, q ∈ (feed.map (·.1)).flatten) {ms : MsTable} (hms : CacheOK h args ms)
    {e : Env} (he : EnvOK h args e) {workers : List Wkr} (hw : ∃ S, List.Subperm S workers ∧ Enough (width h args) S)
    (handle : String) :
    ∃ setup placed rest, placeWorkers (width h args) workers = .ok (placed, rest) ∧
      (∀ p ∈ placed, ∀ arena, ∃ b, workerInit (width h args) setup p arena = .ok b) ∧
      ∀ prm C M pm cf, JobParams placed prm C M → JobStart (width h args) setup placed pm cf →
        (∀ p ∈ placed, ∀ w c, ((prm w).sched c).Perm (List.range (p.out.2 - p.out.1))) →
        (∀ w c, (prm w).garbage c = 0) → (∀ i c, 0 < (prm (i, i)).draw c ∧ (prm (i, i)).draw c < 1) →
        ∀ rs : List ℝ, (needed h args).length ≤ rs.length → (∀ r ∈ rs, 0 < r ∧ r < 1) →
        ∃ (ops : List JobOp) (results : List (Option (Nat × ℝ))) (cl : List (Nat × Classic)) (ms' : MsTable)
            (cf' : Cfg Pid NMsg NLoc) (out : List ℂ) (us : Nat → ℝ),
          distRun h ms args (feed.map asFeed) strict none e.pick e.shuffle (some handle) (results.map asReply)
            = .ok ⟨handle, cl, ms', width h args, setup, ops.map .op⟩ ∧
          ops.length ≤ rs.length ∧ JobRuns prm (placed.map Placed.wid) (ops.zip rs) cf results cf' ∧
          (∀ x, 0 < us x ∧ us x < 1) ∧
          run h ms args (feed.map asFeed) strict none e.pick e.shuffle (drawing e.orc us) e.arena = .ok (out, cl, ms') ∧
          ∀ p ∈ placed, ∃ s, cf'.loc (some p.wid) = .wkr s ∧ s.pc = .idle ∧
            s.b.state = (out.take p.inp.2).drop p.inp.1 := by
  obtain ⟨setup, placed, rest, s1, s2, s3⟩ := dist_run c hok hf hdef hsome hn hnorm hstr hms he hw handle
  refine ⟨setup, placed, rest, s1, s2, ?_⟩
  intro prm C M pm cf hprm hstart hsched hgarb hu rs hlen hrs
  obtain ⟨ops, results, cl, ms', cf', out, us, i1, i2, i3, i4, i5, i6, -⟩ := s3 prm C M pm cf hprm hstart hsched hgarb hu rs hlen hrs
  exact ⟨ops, results, cl, ms', cf', out, us, i1, i2, i3, i4, i5, i6⟩

/-! ## What the distributed backend cannot run -/

/-- A successful run has fed every needed node. -/
theorem distRun_fold {h : Heap} {env args : List Nat} (c : Circuit h env args) {ms : MsTable}
    {feed : List (List Nat × InitState)} {strict : Bool} {state : Option StateKw} {pick : List Nat → Nat}
    {shuffle : List Nat → List Nat} (hsh : ∀ l, (shuffle l).Perm l) {handle : Option String} {replies : List Reply}
    {r : DistResult} (hr : distRun h ms args feed strict state pick shuffle handle replies = .ok r) :
    ∃ (order : List Nat) (acc : DFeeder), (∀ x, x ∈ order ↔ Reach h args x) ∧
      order.foldlM (fun a x => distFeed h a (groups h args x) (wires h args x) x) ⟨ms, [], [], replies⟩ = .ok acc ∧
      r.classic = acc.classic := by
  obtain ⟨deps, nodes, order, e1, e2, e3, -⟩ := C32_run_graph c pick shuffle hsh
  refine ⟨order, ?_⟩
  unfold distRun at hr
  simp only [e1, bind, Except.bind] at hr
  split at hr
  · cases hr
  split at hr
  · cases hr
  split at hr
  · cases hr
  split at hr
  · cases hr
  split at hr
  · cases hr
  rw [e2] at hr
  split at hr
  · cases hr
  · next acc hacc =>
    injection hr with hr
    exact ⟨acc, e3, hacc, by rw [← hr]⟩

theorem foldlM_inv {σ : Type} {step : σ → Nat → Except PyErr σ} {P : σ → Prop} (hstep : ∀ a y a', P a → step a y = .ok a' → P a')
    (L : List Nat) {a a' : σ} (ha : P a) (hr : L.foldlM step a = .ok a') : P a' := by
  induction L generalizing a with
  | nil =>
    simp only [List.foldlM_nil, pure, Except.pure] at hr
    injection hr with hr
    rwa [← hr]
  | cons y L ih =>
    rw [List.foldlM_cons] at hr
    rcases hy : step a y with e | b
    · simp [hy, bind, Except.bind] at hr
    · simp only [hy, bind, Except.bind] at hr
      exact ih (hstep a y b ha hy) hr

/-- A node that is handed over is handed over in some state that satisfies the invariant, and succeeds. -/
theorem foldlM_at {σ : Type} {step : σ → Nat → Except PyErr σ} {P : σ → Prop} (hstep : ∀ a y a', P a → step a y = .ok a' → P a')
    {L : List Nat} {x : Nat} (hx : x ∈ L) {a a' : σ} (ha : P a) (hr : L.foldlM step a = .ok a') :
    ∃ b b' L', P b ∧ step b x = .ok b' ∧ List.foldlM step b' L' = .ok a' := by
  induction L generalizing a with
  | nil => simp at hx
  | cons y L ih =>
    rw [List.foldlM_cons] at hr
    rcases hy : step a y with e | b
    · simp [hy, bind, Except.bind] at hr
    · simp only [hy, bind, Except.bind] at hr
      rcases List.mem_cons.1 hx with rfl | hx
      · exact ⟨a, b, L, ha, hy, hr⟩
      · exact ih hx (hstep a y b ha hy) hr

/-- C92 (negation of the full property, 1): a circuit with a function never runs on the distributed backend, whatever is fed
and whatever the manager replies. -/
theorem C92_function_false {h : Heap} {env args : List Nat} (c : Circuit h env args) {x : Nat} (hx : Reach h args x)
    {f : Nat → Except PyErr Int} (hk : h.kind x = .fop f) (ms : MsTable) (feed : List (List Nat × InitState)) (strict : Bool)
    (state : Option StateKw) (pick : List Nat → Nat) {shuffle : List Nat → List Nat} (hsh : ∀ l, (shuffle l).Perm l)
    (handle : Option String) (replies : List Reply) (r : DistResult) :
    distRun h ms args feed strict state pick shuffle handle replies ≠ .ok r := by
  intro hr
  obtain ⟨order, acc, h1, h2, -⟩ := distRun_fold c hsh hr
  obtain ⟨b, b', L', -, h3, -⟩ := foldlM_at (P := fun _ => True) (fun _ _ _ _ _ => trivial) ((h1 x).2 hx) trivial h2
  unfold distFeed at h3
  rw [hk] at h3
  cases h3

/-- What one step does to the matrices and the dictionary. -/
theorem distFeed_step {h : Heap} {st st' : DFeeder} {gs : List (List Nat)} {own : List Nat} {y : Nat}
    (hr : distFeed h st gs own y = .ok st') :
    (∃ v, st'.classic = st.classic ++ [(y, v)] ∧ ∀ k, h.kind y = .smeasure k → ∃ ms ps, v = .top ms ps) ∧
      ∀ x, x ≠ y → st'.ms x = st.ms x := by
  have hask : ∀ {st st' : DFeeder} {q : DReq} {r : Reply}, ask st q = .ok (r, st') → st'.classic = st.classic ∧ st'.ms = st.ms := by
    intro st st' q r h
    unfold ask at h
    split at h
    · cases h
    · cases h
    · injection h with h
      obtain ⟨-, rfl⟩ := Prod.mk.inj h
      exact ⟨rfl, rfl⟩
  unfold distFeed at hr
  rcases hk : h.kind y with _ | is | ⟨g, d⟩ | f | _ | k
  · simp only [hk] at hr
    injection hr with hr
    subst hr
    exact ⟨⟨_, rfl, by simp⟩, fun _ _ => rfl⟩
  · simp only [hk] at hr
    injection hr with hr
    subst hr
    exact ⟨⟨_, rfl, by simp⟩, fun _ _ => rfl⟩
  · simp only [hk, bind, Except.bind] at hr
    split at hr
    · cases hr
    split at hr
    · cases hr
    split at hr
    · cases hr
    · next p hp =>
      injection hr with hr
      subst hr
      obtain ⟨e1, e2⟩ := hask hp
      exact ⟨⟨_, by rw [e1], by simp⟩, fun x hx => by simp [hx, e2]⟩
  · simp [hk] at hr
  · simp only [hk, bind, Except.bind] at hr
    split at hr
    · cases hr
    split at hr
    · cases hr
    · next p hp =>
      obtain ⟨e1, e2⟩ := hask hp
      split at hr
      · injection hr with hr
        subst hr
        exact ⟨⟨_, by rw [e1], by simp⟩, fun x hx => by simp [e2]⟩
      · cases hr
  · simp only [hk, bind, Except.bind] at hr
    split at hr
    · cases hr
    split at hr
    · cases hr
    · next p hp =>
      obtain ⟨e1, e2⟩ := hask hp
      split at hr
      · injection hr with hr
        subst hr
        exact ⟨⟨_, by rw [e1], by simp⟩, fun x hx => by simp [e2]⟩
      · cases hr

/-- C92 (negation of the full property, 2): a circuit with a built-in one-qubit gate, forwards or backwards, never runs on the
distributed backend. -/
theorem C92_gate_false {h : Heap} {env args : List Nat} (c : Circuit h env args) {x : Nat} (hx : Reach h args x)
    {g : Gate} {d : Bool} (hk : h.kind x = .gate g d) (hin : h.inputs x ≠ []) (hg : ∀ k, g ≠ .swap k) (hg' : ∀ op, g ≠ .c op)
    {ms : MsTable} (hms : CacheOK h args ms) (feed : List (List Nat × InitState)) (strict : Bool)
    (state : Option StateKw) (pick : List Nat → Nat) {shuffle : List Nat → List Nat} (hsh : ∀ l, (shuffle l).Perm l)
    (handle : Option String) (replies : List Reply) (r : DistResult) :
    distRun h ms args feed strict state pick shuffle handle replies ≠ .ok r := by
  intro hr
  obtain ⟨order, acc, h1, h2, -⟩ := distRun_fold c hsh hr
  obtain ⟨V, c⟩ := c.ctx
  have hne : (groups h args x).flatten ≠ [] := by
    have hkd := c.kind x (c.vis hx)
    unfold KindOK at hkd
    rw [hk] at hkd
    have hl : (groups h args x).flatten.length = h.n x := by
      rw [List.length_flatten, c.len_groups hx, (hkd.2 hin).1]
    intro e
    rw [e] at hl
    have := hkd.1.1
    simp at hl
    omega
  have hfail : ∀ (m : List (Key × Mat ℂ)), g.feedMats d (groups h args x) = .ok m → matsToPb m = .error .typeError :=
    fun m hm => C69_one_qubit_false hg hg' hne hm
  have hstepx : ∀ (a : DFeeder) (a' : DFeeder), (∀ m, a.ms x = some m → g.feedMats d (groups h args x) = .ok m) →
      distFeed h a (groups h args x) (wires h args x) x ≠ .ok a' := by
    intro a a' ha hs
    unfold distFeed at hs
    simp only [hk, bind, Except.bind] at hs
    rcases hm : opMats (a.ms x) g d (groups h args x) with e | m
    · simp [hm] at hs
    · have : g.feedMats d (groups h args x) = .ok m := by
        unfold opMats at hm
        rcases ham : a.ms x with _ | m'
        · rw [ham] at hm; exact hm
        · rw [ham] at hm
          have := ha m' ham
          injection hm with hm
          rwa [← hm]
      simp [hm, hfail m this] at hs
  obtain ⟨b, b', L', h3, h4, -⟩ := foldlM_at (P := fun a : DFeeder => ∀ m, a.ms x = some m → g.feedMats d (groups h args x) = .ok m)
    (by
      intro a y a' ha hs
      rcases eq_or_ne x y with rfl | hxy
      · exact absurd hs (hstepx a a' ha)
      · rw [(distFeed_step hs).2 x hxy]
        exact ha) ((h1 x).2 hx) (fun m hm => hms x g d hx hk m hm) h2
  exact hstepx b b' h3 h4

/-- What one step of the local backend does to the dictionary. -/
theorem nodeFeed_step {h : Heap} {orc : Nat → Oracle} {st st' : Feeder} {gs : List (List Nat)} {own : List Nat} {y : Nat}
    (hr : nodeFeed h orc st gs own y = .ok st') :
    ∃ v, st'.classic = st.classic ++ [(y, v)] ∧ (h.kind y = .smeasure 0 → ∃ ps, v = .probs ps) := by
  unfold nodeFeed at hr
  rcases hk : h.kind y with _ | is | ⟨g, d⟩ | f | _ | k
  · simp only [hk] at hr
    injection hr with hr
    subst hr
    exact ⟨_, rfl, by simp⟩
  · simp only [hk] at hr
    injection hr with hr
    subst hr
    exact ⟨_, rfl, by simp⟩
  · simp only [hk, bind, Except.bind] at hr
    split at hr
    · cases hr
    split at hr
    · cases hr
    · injection hr with hr
      subst hr
      exact ⟨_, rfl, by simp⟩
  · simp only [hk, bind, Except.bind] at hr
    split at hr
    · cases hr
    · injection hr with hr
      subst hr
      exact ⟨_, rfl, by simp⟩
  · simp only [hk, bind, Except.bind] at hr
    split at hr
    · cases hr
    · injection hr with hr
      subst hr
      exact ⟨_, rfl, by simp⟩
  · simp only [hk, bind, Except.bind] at hr
    split at hr
    · cases hr
    · next r hp =>
      injection hr with hr
      subst hr
      refine ⟨_, rfl, ?_⟩
      intro e
      injection e with e
      subst e
      unfold BState.measureProbabilities at hp
      rcases r with ps | ⟨is, ps⟩
      · exact ⟨ps, rfl⟩
      · rcases hq : QIP.measureProbabilities gs.flatten st.state.n st.state.state with e | l <;> simp [hq, Functor.map, Except.map] at hp

/-- C92 (negation of the full property, 3): the entry of a `StochasticMeasure` in the dictionary is a pair of lists, even if
all probabilities are asked for; the local backend returns the list of the probabilities. -/
theorem C92_distribution_false {h : Heap} {env args : List Nat} (c : Circuit h env args) {x : Nat} (hx : Reach h args x)
    (hk : h.kind x = .smeasure 0) {ms : MsTable} {feed : List (List Nat × InitState)} {strict : Bool}
    {state : Option StateKw} {pick : List Nat → Nat} {shuffle : List Nat → List Nat} (hsh : ∀ l, (shuffle l).Perm l)
    {handle : Option String} {replies : List Reply} {r : DistResult}
    (hr : distRun h ms args feed strict state pick shuffle handle replies = .ok r) :
    ((∃ is ps, (x, .top is ps) ∈ r.classic) ∧ ∀ v, (x, v) ∈ r.classic → ∃ is ps, v = .top is ps) ∧
    ∀ ms' orc arena out cl ms'', run h ms' args feed strict state pick shuffle orc arena = .ok (out, cl, ms'') →
      ∀ v, (x, v) ∈ cl → ∃ ps, v = .probs ps := by
  obtain ⟨order, acc, h1, h2, h0⟩ := distRun_fold c hsh hr
  rw [h0]
  refine ⟨⟨?_, ?_⟩, ?_⟩
  · obtain ⟨b, b', L', -, h4, h5⟩ := foldlM_at (P := fun _ => True) (fun _ _ _ _ _ => trivial) ((h1 x).2 hx) trivial h2
    obtain ⟨⟨v, e1, e2⟩, -⟩ := distFeed_step h4
    obtain ⟨is, ps, rfl⟩ := e2 0 hk
    refine ⟨is, ps, ?_⟩
    refine foldlM_inv (P := fun a : DFeeder => (x, Classic.top is ps) ∈ a.classic) ?_ L' (by rw [e1]; simp) h5
    intro a y a' ha hs
    obtain ⟨⟨w, e, -⟩, -⟩ := distFeed_step hs
    rw [e]
    exact List.mem_append_left _ ha
  · refine foldlM_inv (P := fun a : DFeeder => ∀ v, (x, v) ∈ a.classic → ∃ is ps, v = Classic.top is ps) ?_ order (by simp) h2
    intro a y a' ha hs v hv
    obtain ⟨⟨w, e, e'⟩, -⟩ := distFeed_step hs
    rw [e] at hv
    rcases List.mem_append.1 hv with hv | hv
    · exact ha v hv
    · simp only [List.mem_singleton, Prod.mk.injEq] at hv
      obtain ⟨rfl, rfl⟩ := hv
      exact e' 0 hk
  · intro ms' orc arena out cl ms'' hrun
    obtain ⟨deps, nodes, order', e1, e2, e3, -⟩ := C32_run_graph c pick shuffle hsh
    unfold run at hrun
    simp only [e1, bind, Except.bind] at hrun
    split at hrun
    · cases hrun
    split at hrun
    · cases hrun
    split at hrun
    · cases hrun
    split at hrun
    · cases hrun
    rw [e2] at hrun
    split at hrun
    · cases hrun
    · next acc' hacc =>
      injection hrun with hrun
      have : acc'.classic = cl := by
        have := (Prod.mk.inj (Prod.mk.inj hrun).2).1
        exact this
      rw [← this]
      refine foldlM_inv (P := fun a : Feeder => ∀ v, (x, v) ∈ a.classic → ∃ ps, v = Classic.probs ps) ?_ order'
        (by simp) hacc
      intro a y a' ha hs v hv
      obtain ⟨w, e, e'⟩ := nodeFeed_step hs
      rw [e] at hv
      rcases List.mem_append.1 hv with hv | hv
      · exact ha v hv
      · simp only [List.mem_singleton, Prod.mk.injEq] at hv
        obtain ⟨rfl, rfl⟩ := hv
        exact e' hk

/-! ## Example: `a = Qubit(); b = Qubit(default=1); c = C(Not)(a, b); m = Measure(c)`, fed `{a: [3/5, 4/5]}` -/

def xorCmds : List Cmd := [.qubit [] none none, .qubit [] none (some (.int 1)), .op (.c (.gate .not)) false [0, 1], .measure [3]]

def xors : Heap := (runCmds xorCmds (Heap.empty, [])).1

theorem xors_facts : xors.inputs 0 = [] ∧ xors.inputs 1 = [] ∧ xors.inputs 3 = [0, 1] ∧ xors.inputs 4 = [3] ∧
    xors.kind 0 = .qubit ∧ xors.kind 1 = .qubit ∧ xors.kind 3 = .gate (.c .not) false ∧ xors.kind 4 = .measure ∧
    xors.n 0 = 1 ∧ xors.n 1 = 1 ∧ xors.n 3 = 2 ∧ xors.n 4 = 2 ∧ xors.default 0 = none ∧ xors.default 1 = some (.int 1) :=
  ⟨rfl, rfl, rfl, rfl, rfl, rfl, rfl, rfl, rfl, rfl, rfl, rfl, rfl, rfl⟩

theorem xors_built : Built xors [0, 1, 3, 4] := by
  have e : (runCmds xorCmds (Heap.empty, [])).2 = [0, 1, 3, 4] := rfl
  rw [← e]
  refine built_runCmds _ _ Built.start ?_
  simp only [xorCmds, cmdsOK, Cmd.args, and_true]
  refine ⟨by simp, by simp, ?_, ?_⟩
  · change ∀ x ∈ [0, 1], x ∈ [0, 1]; decide
  · change ∀ x ∈ [3], x ∈ [0, 1, 3]; decide

theorem xors_reach (x : Nat) : Reach xors [4] x ↔ x ∈ [0, 1, 3, 4] := by
  obtain ⟨i0, i1, i3, i4, -⟩ := xors_facts
  constructor
  · exact reach_sub (by simp) (by
      intro y hy
      simp only [List.mem_cons, List.not_mem_nil, or_false] at hy
      rcases hy with rfl | rfl | rfl | rfl <;> simp [*])
  · have h4 : Reach xors [4] 4 := .arg (by simp)
    have h3 : Reach xors [4] 3 := .input h4 (by simp [i4])
    have h1 : Reach xors [4] 1 := .input h3 (by simp [i3])
    have h0 : Reach xors [4] 0 := .input h3 (by simp [i3])
    intro hx
    simp only [List.mem_cons, List.not_mem_nil, or_false] at hx
    rcases hx with rfl | rfl | rfl | rfl <;> assumption

theorem xors_circuit : Circuit xors [0, 1, 3, 4] [4] := by
  obtain ⟨i0, i1, i3, i4, k0, k1, k3, k4, n0, n1, n3, n4, -⟩ := xors_facts
  refine ⟨xors_built, by simp, ?_, ?_⟩
  · intro x hx
    have := (xors_reach x).1 hx
    simp only [List.mem_cons, List.not_mem_nil, or_false] at this
    rcases this with rfl | rfl | rfl | rfl <;> simp [SizeOK, *]
  · intro x hx is hk
    have := (xors_reach x).1 hx
    simp only [List.mem_cons, List.not_mem_nil, or_false] at this
    rcases this with rfl | rfl | rfl | rfl <;> simp [*] at hk

theorem xors_wires : needed xors [4] = [0, 1, 3, 4] ∧ leaves xors [4] = [0, 1] ∧ width xors [4] = 2 ∧
    groups xors [4] 0 = [] ∧ groups xors [4] 1 = [] ∧ groups xors [4] 3 = [[0], [1]] ∧ groups xors [4] 4 = [[0, 1]] ∧
    wires xors [4] 0 = [0] ∧ wires xors [4] 1 = [1] := by
  obtain ⟨V, c⟩ := xors_circuit.ctx
  obtain ⟨i0, i1, i3, i4, k0, k1, k3, k4, n0, n1, n3, n4, -⟩ := xors_facts
  have h1 := needed_known c (by simp) xors_reach
  have h2 : leaves xors [4] = [0, 1] := by simp [leaves, h1, isLeaf, i0, i1, i3, i4]
  have w0 : wires xors [4] 0 = [0] := by rw [wires_leaf i0]; simp [offset, h2, n0]
  have w1 : wires xors [4] 1 = [1] := by rw [wires_leaf i1]; simp [offset, h2, n0, n1]
  have hil : ∀ x ∈ [0, 1, 3, 4], ∀ y ∈ xors.inputs x, y < x := fun x hx => c.ilt ((xors_reach x).2 hx)
  have w3 : wires xors [4] 3 = [0, 1] := by
    rw [wires_node (by simp [i3]) (hil 3 (by simp)), k3]; simp [groups, i3, w0, w1]
  exact ⟨h1, h2, by simp [width, h2, n0, n1], by simp [groups, i0], by simp [groups, i1], by simp [groups, i3, w0, w1],
    by simp [groups, i4, w3], w0, w1⟩

theorem xors_ok : ∀ x, Reach xors [4] x → NodeOK xors [4] x ∧ DistNode xors x := by
  obtain ⟨i0, i1, i3, i4, k0, k1, k3, k4, -⟩ := xors_facts
  obtain ⟨-, -, -, g0, g1, g3, g4, -⟩ := xors_wires
  intro x hx
  have := (xors_reach x).1 hx
  simp only [List.mem_cons, List.not_mem_nil, or_false] at this
  refine ⟨⟨?_, ?_, ?_⟩, ?_⟩
  · rcases this with rfl | rfl | rfl | rfl <;> simp [*]
  · intro g d hk
    rcases this with rfl | rfl | rfl | rfl <;> simp [*] at hk ⊢
    exact fun h => absurd h (by simp [← hk.2])
  · intro f hk
    rcases this with rfl | rfl | rfl | rfl <;> simp [*] at hk
  · unfold DistNode
    rcases this with rfl | rfl | rfl | rfl <;> simp [*]

theorem xors_total : totalProb (width xors [4]) (startAmp xors [4] [([0], [3 / 5, 4 / 5])]) = 1 := by
  obtain ⟨i0, i1, i3, i4, k0, k1, k3, k4, n0, n1, n3, n4, d0, d1⟩ := xors_facts
  obtain ⟨-, w2, w3, -, -, -, -, w0, w1⟩ := xors_wires
  rw [w3]
  unfold totalProb
  simp [Finset.sum_range_succ, startAmp, w2, w3, w0, w1, startVec, d1, n1, subIndex, qbit, bitsVal]
  rw [show Nat.testBit 1 1 = false by decide, show Nat.testBit 3 1 = true by decide]
  norm_num [Complex.normSq_apply]

/-- The run of the example on five workers. -/
example : ∃ (setup : List PbState) (results : List (Option (Nat × ℝ))) (cl : List (Nat × Classic)) (ms : MsTable)
    (sent : List DReq) (out : List ℂ) (us : Nat → ℝ) (e : Env),
    distRun xors (fun _ => none) [4] [([0], .vec [3 / 5, 4 / 5])] false none e.pick e.shuffle (some "job")
      (results.map asReply) = .ok ⟨"job", cl, ms, width xors [4], setup, sent⟩ ∧
    run xors (fun _ => none) [4] [([0], .vec [3 / 5, 4 / 5])] false none e.pick e.shuffle (drawing e.orc us) e.arena
      = .ok (out, cl, ms) := by
  obtain ⟨i0, i1, i3, i4, k0, k1, k3, k4, n0, n1, n3, n4, d0, d1⟩ := xors_facts
  obtain ⟨w1, w2, w3, -⟩ := xors_wires
  have he : EnvOK xors [4] ⟨fun _ => 0, id, fun x => ⟨List.range (2 ^ width xors [4]),
    (faCounters (width xors [4]) ((groups xors [4] x).getD 0 []) ((groups xors [4] x).getD 1 [])), fun _ => 0, 0, 0⟩,
    List.replicate (2 ^ width xors [4]) 0⟩ := ⟨fun _ => .refl _, fun _ => .refl _, fun _ => .refl _, by simp⟩
  obtain ⟨setup, placed, rest, s1, s2, s3⟩ := C92_run_partial xors_circuit xors_ok (feed := [([0], [3 / 5, 4 / 5])])
    ⟨by simp, by simp [w2], by simp [n0]⟩ (by
      intro q hq _
      rw [w2] at hq
      unfold DefaultOK
      simp only [List.mem_cons, List.not_mem_nil, or_false] at hq
      rcases hq with rfl | rfl <;> simp [d0, d1, n1]) (.inl (by simp)) (by rw [w3]; norm_num) xors_total (strict := false)
    (by simp) (ms := fun _ => none) (fun _ _ _ _ _ m hm => by cases hm) he (workers := fiveWorkers) (by rw [w3]; exact five_enough) "job"
  obtain ⟨prm, c, h1, h2, h3, h4, h5⟩ := job_exists s1 s2 (.done (.ok none))
  obtain ⟨ops, results, cl, ms', cf', out, us, r1, -, -, -, r2, -⟩ := s3 prm 1 2 _ c h1 h2 h3 h4 h5 (List.replicate 4 (1 / 2))
    (by rw [w1]; simp) (by norm_num)
  exact ⟨setup, results, cl, ms', _, out, us, _, r1, r2⟩

/-- The coins of `Props/Born` cannot be run. -/
example (feed : List (List Nat × InitState)) (replies : List Reply) (r : DistResult) :
    distRun coins (fun _ => none) [4] feed false none (fun _ => 0) id (some "job") replies ≠ .ok r :=
  C92_gate_false coins_circuit (x := 1) ((coins_reach 1).2 (by simp)) coins_facts.2.2.2.2.2.2.1 (by simp [coins_facts.2.1])
    (by simp) (by simp) (fun _ _ _ _ _ m hm => by cases hm) feed false none _ (fun _ => .refl _) _ replies r

/-! ## Example: `F(f)(a, b)` and `StochasticMeasure(c)` -/

def sideCmds : List Cmd := [.qubit [] none none, .qubit [] none none, .op (.fop fun i => .ok i) false [0, 1],
  .qubit [] none none, .smeasure [3] 0]

def sides : Heap := (runCmds sideCmds (Heap.empty, [])).1

theorem sides_built : Built sides [0, 1, 2, 3, 4] := by
  have e : (runCmds sideCmds (Heap.empty, [])).2 = [0, 1, 2, 3, 4] := rfl
  rw [← e]
  refine built_runCmds _ _ Built.start ?_
  simp only [sideCmds, cmdsOK, Cmd.args, and_true]
  refine ⟨by simp, by simp, ?_, by simp, ?_⟩
  · change ∀ x ∈ [0, 1], x ∈ [0, 1]; decide
  · change ∀ x ∈ [3], x ∈ [0, 1, 2, 3]; decide

theorem sides_facts : sides.inputs 0 = [] ∧ sides.inputs 1 = [] ∧ sides.inputs 2 = [0, 1] ∧ sides.inputs 3 = [] ∧
    sides.inputs 4 = [3] ∧ sides.kind 0 = .qubit ∧ sides.kind 1 = .qubit ∧ sides.kind 2 = .fop (fun i => .ok i) ∧
    sides.kind 3 = .qubit ∧ sides.kind 4 = .smeasure 0 ∧ sides.n 0 = 1 ∧ sides.n 1 = 1 ∧ sides.n 2 = 2 ∧ sides.n 3 = 1 ∧
    sides.n 4 = 1 :=
  ⟨rfl, rfl, rfl, rfl, rfl, rfl, rfl, rfl, rfl, rfl, rfl, rfl, rfl, rfl, rfl⟩

theorem sides_circuit {t : Nat} (ht : t = 2 ∨ t = 4) : Circuit sides [0, 1, 2, 3, 4] [t] := by
  obtain ⟨i0, i1, i2, i3, i4, k0, k1, k2, k3, k4, n0, n1, n2, n3, n4⟩ := sides_facts
  have hr : ∀ x, Reach sides [t] x → x ∈ [0, 1, 2, 3, 4] := fun x => reach_sub (by rcases ht with rfl | rfl <;> simp) (by
      intro y hy
      simp only [List.mem_cons, List.not_mem_nil, or_false] at hy
      rcases hy with rfl | rfl | rfl | rfl | rfl <;> simp [*])
  refine ⟨sides_built, by rcases ht with rfl | rfl <;> simp, ?_, ?_⟩
  · intro x hx
    have := hr x hx
    simp only [List.mem_cons, List.not_mem_nil, or_false] at this
    rcases this with rfl | rfl | rfl | rfl | rfl <;> simp [SizeOK, *]
  · intro x hx is hk
    have := hr x hx
    simp only [List.mem_cons, List.not_mem_nil, or_false] at this
    rcases this with rfl | rfl | rfl | rfl | rfl <;> simp [*] at hk

/-- The function is rejected. -/
example (feed : List (List Nat × InitState)) (replies : List Reply) (r : DistResult) :
    distRun sides (fun _ => none) [2] feed false none (fun _ => 0) id (some "job") replies ≠ .ok r :=
  C92_function_false (sides_circuit (.inl rfl)) (.arg (by simp)) sides_facts.2.2.2.2.2.2.2.1 _ feed false none _
    (fun _ => .refl _) _ replies r

/-- The distribution is returned as a pair. -/
theorem sides_run : ∃ r, distRun sides (fun _ => none) [4] [([3], .vec [3 / 5, 4 / 5])] false none (fun _ => 0) id (some "job")
      [.top [1, 0] [16 / 25, 9 / 25]] = .ok r ∧ r.sent = [.probs [0] 0] ∧ ∃ is ps, (4, .top is ps) ∈ r.classic := by
  have c0 := sides_circuit (.inr rfl)
  obtain ⟨i0, i1, i2, i3, i4, k0, k1, k2, k3, k4, n0, n1, n2, n3, n4⟩ := sides_facts
  obtain ⟨V, c⟩ := c0.ctx
  have hr : ∀ x, Reach sides [4] x ↔ x ∈ [3, 4] := by
    intro x
    constructor
    · exact reach_sub (by simp) (by
        intro y hy
        simp only [List.mem_cons, List.not_mem_nil, or_false] at hy
        rcases hy with rfl | rfl <;> simp [*])
    · have h4 : Reach sides [4] 4 := .arg (by simp)
      have h3 : Reach sides [4] 3 := .input h4 (by simp [i4])
      intro hx
      simp only [List.mem_cons, List.not_mem_nil, or_false] at hx
      rcases hx with rfl | rfl <;> assumption
  have h1 := needed_known c (by simp) hr
  have h2 : leaves sides [4] = [3] := by simp [leaves, h1, isLeaf, i3, i4]
  have w3 : wires sides [4] 3 = [0] := by rw [wires_leaf i3]; simp [offset, h2, n3]
  have g4 : groups sides [4] 4 = [[0]] := by simp [groups, i4, w3]
  have hw : width sides [4] = 1 := by simp [width, h2, n3]
  have hf : FeedOK sides [4] [([3], [3 / 5, 4 / 5])] := ⟨by simp, by simp [h2], by simp [n3]⟩
  have hdef : ∀ q ∈ leaves sides [4], q ∉ (([([3], [3 / 5, 4 / 5])] : List (List Nat × List ℂ)).map (·.1)).flatten →
      DefaultOK sides q := by
    intro q hq hq'
    rw [h2] at hq
    exact absurd hq (by simpa using hq')
  obtain ⟨deps, d1, d2, hd⟩ := distRun_spec c hf hdef (fun _ => 0) id (fun _ => .refl _)
  have hfed := allFeed_ok c hf d1 d2 hdef (.inl (by simp))
  obtain ⟨states, s1, -⟩ := setup_vecs (n := width sides [4]) (by rw [hw]; norm_num)
    (fun q hq => by have := hfed.lt q hq; rw [hw] at this; omega) hfed.length
  have hrun : ∃ r, distRun sides (fun _ => none) [4] [([3], .vec [3 / 5, 4 / 5])] false none (fun _ => 0) id (some "job")
      [.top [1, 0] [16 / 25, 9 / 25]] = .ok r ∧ r.sent = [.probs [0] 0] := by
    have hd := hd (fun _ => none) false (some "job") [.top [1, 0] [16 / 25, 9 / 25]] (by simp)
    have hi : indicesToPb (.tup [0]) = .ok [0] := C58_indices (by simp)
    simp only [s1, h1, bind, Except.bind, List.foldlM_cons, distFeed, k3, k4, g4, List.flatten_cons, List.flatten_nil,
      List.append_nil, hi, ask] at hd
    exact ⟨_, hd, rfl⟩
  obtain ⟨r, hr, hs⟩ := hrun
  exact ⟨r, hr, hs, (C92_distribution_false c0 (.arg (by simp)) k4 (fun _ => .refl _) hr).1.1⟩

end QIP.Props
