import Verif.Props.RunMore
import Verif.Props.Rerun
import Verif.Lemmas.IntState

/-!
# Continuing from a state or from inside a circuit: C81, C83
-/

namespace QIP.Props

open QIP Spec Heap

/-! ## Looking up the keys of the feed -/

theorem mapM_blocks {h : Heap} {V : Nat → Prop} {args : List Nat} (c : Ctx h V args) (l : List (List Nat × InitState))
    (hl : ∀ f ∈ l, ∀ q ∈ f.1, q ∈ leaves h args) :
    ∃ gs, (l.mapM fun f => do
      let gs ← f.1.mapM (lookup (blocks h (leaves h args) 0))
      (pure gs.flatten : Except PyErr (List Nat))) = .ok gs := by
  induction l with
  | nil => exact ⟨[], rfl⟩
  | cons f l ih =>
    obtain ⟨gs, hgs⟩ := ih fun f hf => hl f (by simp [hf])
    have h1 : f.1.mapM (lookup (blocks h (leaves h args) 0)) = .ok (f.1.map (wires h args)) := by
      apply mapM_lookup
      intro x hx
      have hx' := hl f (by simp) x hx
      rw [blocks_asc h _ (leaves_asc h args) 0 hx', wires_leaf ((mem_leaves c.wf c.vargs).1 hx').2]
      simp [offset]
    refine ⟨(f.1.map (wires h args)).flatten :: gs, ?_⟩
    rw [List.mapM_cons, h1, hgs]
    rfl

theorem defaultFeed_key {h : Heap} {fed : List Nat} {x : Nat} {f : List Nat × InitState} (hf : f ∈ defaultFeed h fed x) :
    f.1 = [x] := by
  unfold defaultFeed at hf
  split at hf
  · simp at hf
  · split at hf
    · simp at hf
    · split at hf
      · simp at hf; rw [hf]
      · simp at hf
    · simp at hf; rw [hf]
    · simp at hf; rw [hf]

/-- All keys after adding the defaults. -/
theorem all_keys {h : Heap} {args deps : List Nat} (hdp : deps.Perm (leaves h args))
    {feed : List (List Nat × InitState)} (hk : ∀ q ∈ (feed.map (·.1)).flatten, q ∈ leaves h args) :
    ∀ f ∈ feed ++ deps.flatMap (defaultFeed h (feed.map (·.1)).flatten), ∀ q ∈ f.1, q ∈ leaves h args := by
  intro f hf q hq
  rcases List.mem_append.1 hf with hf | hf
  · exact hk q (List.mem_flatten.2 ⟨_, List.mem_map.2 ⟨f, hf, rfl⟩, hq⟩)
  · obtain ⟨x, hx, hfx⟩ := List.mem_flatMap.1 hf
    rw [defaultFeed_key hfx] at hq
    have : q = x := by simpa using hq
    subst this
    exact hdp.mem_iff.1 hx

/-! ## C81 -/

/-- **C81 is false of the code**: `run(…, state=s)` raises ValueError for every numpy array `s` of at least two elements —
in particular for the array that `run` has returned — whatever the circuit and the feed. -/
theorem C81_array_false {h : Heap} {env args : List Nat} (c : Circuit h env args) (ms : MsTable)
    {feed : List (List Nat × InitState)} (hk : ∀ q ∈ (feed.map (·.1)).flatten, q ∈ leaves h args) (strict : Bool)
    {s : List ℂ} (hs : 2 ≤ s.length) {e : Env} (he : ∀ l, (e.shuffle l).Perm l) :
    run h ms args feed strict (some (.array s)) e.pick e.shuffle e.orc e.arena = .error .valueError := by
  obtain ⟨V, c⟩ := c.ctx
  obtain ⟨deps, hdp, hr⟩ := run_pre c e.pick e.shuffle he
  rw [hr]
  have : runPre h args feed strict (some (.array s)) deps e.arena = .error .valueError := by
    unfold runPre
    split
    · rfl
    · obtain ⟨gs, hgs⟩ := mapM_blocks c _ (all_keys hdp hk)
      rw [hgs]
      obtain ⟨a, b, t, rfl⟩ : ∃ a b t, s = a :: b :: t := by
        rcases s with _ | ⟨a, _ | ⟨b, t⟩⟩
        · simp at hs
        · simp at hs
        · exact ⟨a, b, t, rfl⟩
      rfl
  rw [this]
  rfl

/-- The state a run returns cannot be passed back: the second of two runs fails. -/
theorem C81_array_again_false {h : Heap} {env args : List Nat} (c : Circuit h env args)
    (hok : ∀ x, Reach h args x → NodeOK h args x) (hm : ∀ x, Reach h args x → NoMeasure h args x)
    (hdef : ∀ q ∈ leaves h args, DefaultOK h q) (hw : 1 ≤ width h args) {e : Env} (he : EnvOK h args e) {e' : Env}
    (he' : ∀ l, (e'.shuffle l).Perm l) :
    ∃ out cl ms', run h (fun _ => none) args [] false none e.pick e.shuffle e.orc e.arena = .ok (out, cl, ms') ∧
      run h ms' args [] false (some (.array out)) e'.pick e'.shuffle e'.orc e'.arena = .error .valueError := by
  obtain ⟨out, cl, ms', h1, h2, -⟩ := C35_run_computes_partial (feed := []) c hok hm ⟨by simp, by simp, by simp⟩
    (fun q hq _ => hdef q hq) he
  refine ⟨out, cl, ms', h1, C81_array_false c ms' (by simp) false ?_ he'⟩
  rw [h2]
  calc 2 = 2 ^ 1 := rfl
    _ ≤ 2 ^ width h args := Nat.pow_le_pow_right (by norm_num) hw

/-- C81: `state=0`, `state=[]` and the arrays `[]` and `[0]` are ignored: the run starts from what is fed (unlike `state=` any
other basis state, which raises, `C81_int_false`).  An array with one other element is used like the list. -/
theorem C81_zero (h : Heap) (ms : MsTable) (args : List Nat) (feed : List (List Nat × InitState)) (strict : Bool) (e : Env) :
    (∀ s ∈ [StateKw.int 0, .list [], .array [], .array [0]],
      run h ms args feed strict (some s) e.pick e.shuffle e.orc e.arena
        = run h ms args feed strict none e.pick e.shuffle e.orc e.arena) ∧
      ∀ x : ℂ, x ≠ 0 → run h ms args feed strict (some (.array [x])) e.pick e.shuffle e.orc e.arena
        = run h ms args feed strict (some (.list [x])) e.pick e.shuffle e.orc e.arena := by
  have h1 : ∀ s ∈ [StateKw.int 0, .list [], .array [], .array [0]], stateArg (some s) = stateArg none := by
    simp [stateArg]
  refine ⟨fun s hs => ?_, fun x hx => ?_⟩
  · unfold run
    simp only [h1 s hs]
  · have h2 : stateArg (some (.array [x])) = stateArg (some (.list [x])) := by simp [stateArg, hx]
    unfold run
    simp only [h2]

/-- **C81 is false of the code**: an int other than 0 raises TypeError, for every circuit. -/
theorem C81_int_false {h : Heap} {env args : List Nat} (c : Circuit h env args) (ms : MsTable)
    {feed : List (List Nat × InitState)} (hk : ∀ q ∈ (feed.map (·.1)).flatten, q ∈ leaves h args) {i : Int} (hi : i ≠ 0)
    {e : Env} (he : ∀ l, (e.shuffle l).Perm l) :
    run h ms args feed false (some (.int i)) e.pick e.shuffle e.orc e.arena = .error .typeError := by
  obtain ⟨V, c⟩ := c.ctx
  obtain ⟨deps, hdp, hr⟩ := run_pre c e.pick e.shuffle he
  rw [hr]
  have : runPre h args feed false (some (.int i)) deps e.arena = .error .typeError := by
    unfold runPre
    rw [if_neg (by simp)]
    obtain ⟨gs, hgs⟩ := mapM_blocks c _ (all_keys hdp hk)
    rw [hgs]
    have hs : stateArg (some (.int i)) = .ok (some (.int i)) := by simp [stateArg, hi]
    simp only [hs, bind, Except.bind]
    rw [makeState_int (r := 0) (by simp [List.nodup_range]) (by simp) rfl (by
      intro j hj v hv
      have : j = 0 := by simpa using hj
      subst this
      simp at hv) ⟨i, by simp⟩ (Nat.zero_le _) (by positivity) (by positivity) (by intro q _ _; rw [qbit_zero])]
  rw [this]
  rfl

theorem initAmp_all {n : Nat} (l : List ℂ) {r : Nat} (hr : r < 2 ^ n) : initAmp n [List.range n] [l] r = l.getD r 0 := by
  unfold initAmp
  rw [if_pos]
  · simp [subIndex_range hr]
  · intro q hq hn
    simp at hn
    omega

theorem runPre_list {h : Heap} {V : Nat → Prop} {args : List Nat} (c : Ctx h V args) {deps : List Nat}
    (hdp : deps.Perm (leaves h args)) {feed : List (List Nat × InitState)}
    (hk : ∀ q ∈ (feed.map (·.1)).flatten, q ∈ leaves h args) {s : List ℂ} (hs : s.length = 2 ^ width h args)
    (arena : List ℂ) :
    runPre h args feed false (some (.list s)) deps arena = .ok ⟨width h args, s, arena⟩ := by
  unfold runPre
  rw [if_neg (by simp)]
  obtain ⟨gs, hgs⟩ := mapM_blocks c _ (all_keys hdp hk)
  rw [hgs]
  have hne : s ≠ [] := by
    intro h0
    rw [h0] at hs
    have : 0 < 2 ^ width h args := by positivity
    simp only [List.length_nil] at hs
    omega
  have hsa : stateArg (some (.list s)) = .ok (some (.vec s)) := by simp [stateArg, hne]
  simp only [hsa, bind, Except.bind]
  rw [makeState_eq (feeds := [.vec s]) (vecs := [s]) (by simp) (by simpa using List.nodup_range) (by simp)
    ⟨rfl, rfl, by simp [hs]⟩ (Nat.zero_le _) le_rfl]
  congr 2
  apply List.ext_getElem
  · simp [hs]
  · intro i h1 h2
    simp only [List.length_map, List.length_range, Nat.sub_zero] at h1
    simp only [List.getElem_map, List.getElem_range, Nat.add_zero]
    rw [initAmp_all s h1, List.getD_eq_getElem _ _ h2]

/-- **C81** for a Python list `s` with one amplitude per basis state: the run succeeds and applies the operations to `s`,
whatever has been fed and whatever matrices are cached; the dictionary reports the results of the nodes.  Partial as `C35_run_computes_partial`. -/
theorem C81_list_partial {h : Heap} {env args : List Nat} (c : Circuit h env args)
    (hok : ∀ x, Reach h args x → NodeOK h args x) (hm : ∀ x, Reach h args x → NoMeasure h args x) {ms : MsTable}
    (hms : CacheOK h args ms)
    {feed : List (List Nat × InitState)} (hk : ∀ q ∈ (feed.map (·.1)).flatten, q ∈ leaves h args) {s : List ℂ}
    (hs : s.length = 2 ^ width h args) {e : Env} (he : EnvOK h args e) :
    ∃ out cl ms', run h ms args feed false (some (.list s)) e.pick e.shuffle e.orc e.arena = .ok (out, cl, ms') ∧
      out.length = 2 ^ width h args ∧ CacheOK h args ms' ∧
      (∀ r < 2 ^ width h args,
        out[r]? = some (applyAll (width h args) h args (needed h args) (fun c => s.getD c 0) r)) ∧
      Steps (width h args) h args (needed h args) (fun c => s.getD c 0) (fun r => out.getD r 0) cl := by
  obtain ⟨V, c⟩ := c.ctx
  obtain ⟨deps, hdp, hr⟩ := run_pre c e.pick e.shuffle he.shuffle
  rw [hr, runPre_list c hdp hk hs]
  simp only [bind, Except.bind]
  have hL : ∀ x ∈ needed h args, Reach h args x ∧ NodeOK h args x := by
    intro x hx
    have := (mem_needed c.wf c.vargs).1 hx
    exact ⟨this, hok x this⟩
  have hst : FeederOK h args ⟨⟨width h args, s, e.arena⟩, ms, []⟩ := ⟨rfl, ⟨hs, he.arena⟩, hms⟩
  obtain ⟨h1, h2⟩ := feedAll_spec c (oracleOK he) (needed h args) hL hst
  obtain ⟨st, hfold⟩ := h1 fun x hx => hm x (hL x hx).1
  obtain ⟨k1, cs, k2, k3, -⟩ := h2 st hfold
  rw [hfold]
  have hlen : st.state.state.length = 2 ^ width h args := by rw [← k1.n]; exact k1.full.1
  simp only [List.nil_append] at k2
  refine ⟨_, _, _, rfl, hlen, k1.cache, ?_, by rw [k2]; exact k3⟩
  intro r hr
  have := steps_applyAll c hL (fun x hx => (hm x (hL x hx).1).1) k3 r hr
  rw [List.getElem?_eq_getElem (by omega)]
  congr 1
  unfold BState.amp at this
  rw [← this, List.getD_eq_getElem]

/-- The loop `for …: state, c = run(…, state=list(state))`: each run gets the state of the previous one; `e i` is the
environment of the `i`-th run. -/
noncomputable def runAgain (h : Heap) (args : List Nat) (e : Nat → Env) : Nat → List ℂ × MsTable → Except PyErr (List ℂ × MsTable)
  | 0, s => .ok s
  | k + 1, s => do
    let (s, ms) ← runAgain h args e k s
    let (out, _, ms) ← run h ms args [] false (some (.list s)) (e k).pick (e k).shuffle (e k).orc (e k).arena
    .ok (out, ms)

/-- **C81** for a loop: running `k` times, each time from the state the previous run has returned (as a list), is the
circuit applied `k` times to the first state.  Partial as `C35_run_computes_partial`. -/
theorem C81_loop_partial {h : Heap} {env args : List Nat} (c : Circuit h env args)
    (hok : ∀ x, Reach h args x → NodeOK h args x) (hm : ∀ x, Reach h args x → NoMeasure h args x) {ms : MsTable}
    (hms : CacheOK h args ms) {s : List ℂ} (hs : s.length = 2 ^ width h args) {e : Nat → Env}
    (he : ∀ i, EnvOK h args (e i)) (k : Nat) :
    ∃ out ms', runAgain h args e k (s, ms) = .ok (out, ms') ∧ out.length = 2 ^ width h args ∧ CacheOK h args ms' ∧
      ∀ r < 2 ^ width h args, out[r]? =
        some ((applyAll (width h args) h args (needed h args))^[k] (fun c => s.getD c 0) r) := by
  induction k with
  | zero =>
    refine ⟨s, ms, rfl, hs, hms, ?_⟩
    intro r hr
    rw [List.getElem?_eq_getElem (by omega)]
    simp [hs, hr]
  | succ k ih =>
    obtain ⟨o, m, h1, h2, h3, h4⟩ := ih
    obtain ⟨out, cl, ms', r1, r2, r3, r4, -⟩ := C81_list_partial c hok hm h3 (feed := []) (by simp) h2 (he k)
    refine ⟨out, ms', ?_, r2, r3, ?_⟩
    · unfold runAgain
      rw [h1]
      simp only [bind, Except.bind]
      rw [r1]
    · intro r hr
      obtain ⟨V, c⟩ := c.ctx
      rw [r4 r hr, Function.iterate_succ_apply']
      congr 1
      refine applyAll_congr c _ ?_ ?_ hr
      · intro x hx
        have := (mem_needed c.wf c.vargs).1 hx
        exact ⟨this, hok x this⟩
      · intro q hq
        rw [List.getD_eq_getElem?_getD, h4 q hq]
        rfl

theorem demo_defaults : ∀ q ∈ leaves demo [5], DefaultOK demo q := by
  intro q hq
  by_cases h0 : q ∈ [0]
  · have : q = 0 := by simpa using h0
    subst this
    have : demo.default 0 = none := rfl
    simp [DefaultOK, this]
  · exact demo_default q hq h0

/-- Passing the result of a run back. -/
example : ∃ out cl ms', run demo (fun _ => none) [5] [] false none demoEnv.pick demoEnv.shuffle demoEnv.orc demoEnv.arena
      = .ok (out, cl, ms') ∧
    run demo ms' [5] [] false (some (.array out)) demoEnv.pick demoEnv.shuffle demoEnv.orc demoEnv.arena
      = .error .valueError :=
  C81_array_again_false demo_circuit demo_ok demo_nomeasure demo_defaults (by rw [demo_width]; norm_num) demoEnv_ok
    demoEnv_ok.shuffle

/-- Three runs in a row, with lists. -/
example (s : List ℂ) (hs : s.length = 8) : ∃ out ms', runAgain demo [5] (fun _ => demoEnv) 3 (s, fun _ => none) = .ok (out, ms') ∧
    out.length = 2 ^ width demo [5] := by
  obtain ⟨out, ms', h1, h2, -⟩ := C81_loop_partial demo_circuit demo_ok demo_nomeasure (cache_fresh _ _)
    (by rw [demo_width]; exact hs) (fun _ => demoEnv_ok) 3
  exact ⟨out, ms', h1, h2⟩

/-! ## C83 -/

theorem blocks_none (h : Heap) (L : List Nat) (n : Nat) {q : Nat} (hq : q ∉ L) : blocks h L n q = none := by
  induction L generalizing n with
  | nil => rfl
  | cons x L ih =>
    simp only [List.mem_cons, not_or] at hq
    unfold blocks
    rw [if_neg hq.1, ih _ hq.2]

theorem mapM_lookup_none {m : IndexMap} {l : List Nat} {q : Nat} (hq : q ∈ l) (hm : m q = none) :
    l.mapM (lookup m) = .error .keyError := by
  induction l with
  | nil => simp at hq
  | cons x l ih =>
    rw [List.mapM_cons]
    rcases hx : m x with _ | v
    · simp [lookup, hx, bind, Except.bind]
    · have hql : q ∈ l := by
        rcases List.mem_cons.1 hq with rfl | h
        · rw [hm] at hx; cases hx
        · exact h
      simp [lookup, hx, bind, Except.bind, ih hql]

/-- **C83 is false of the code**: whenever a node that is no needed input qubit is fed — an operation inside the circuit
whose value is given, say — `run` raises KeyError. -/
theorem C83_inner_false {h : Heap} {env args : List Nat} (c : Circuit h env args) (ms : MsTable)
    {feed : List (List Nat × InitState)} {q : Nat} (hq : q ∈ (feed.map (·.1)).flatten) (hl : q ∉ leaves h args)
    (state : Option StateKw) {e : Env} (he : ∀ l, (e.shuffle l).Perm l) :
    run h ms args feed false state e.pick e.shuffle e.orc e.arena = .error .keyError := by
  obtain ⟨V, c⟩ := c.ctx
  obtain ⟨deps, hdp, hr⟩ := run_pre c e.pick e.shuffle he
  rw [hr]
  have : runPre h args feed false state deps e.arena = .error .keyError := by
    unfold runPre
    rw [if_neg (by simp)]
    have key : ∀ l : List (List Nat × InitState), (∃ f ∈ l, q ∈ f.1) → (l.mapM fun f => do
        let gs ← f.1.mapM (lookup (blocks h (leaves h args) 0))
        (pure gs.flatten : Except PyErr (List Nat))) = .error .keyError := by
      intro l
      induction l with
      | nil => rintro ⟨f, hf, -⟩; simp at hf
      | cons f l ih =>
        rintro ⟨g, hg, hqg⟩
        rw [List.mapM_cons]
        have herr : ∀ L : List Nat, ∀ err, L.mapM (lookup (blocks h (leaves h args) 0)) = .error err → err = .keyError := by
          intro L
          induction L with
          | nil => intro err h; cases h
          | cons x L ih =>
            intro err h0
            rw [List.mapM_cons] at h0
            rcases hx : blocks h (leaves h args) 0 x with _ | v
            · simp [lookup, hx, bind, Except.bind] at h0; exact h0.symm
            · rcases hL : L.mapM (lookup (blocks h (leaves h args) 0)) with er | v'
              · simp [lookup, hx, bind, Except.bind, hL] at h0
                rw [← h0]; exact ih er hL
              · simp [lookup, hx, bind, Except.bind, hL, pure, Except.pure] at h0
        rcases hf : f.1.mapM (lookup (blocks h (leaves h args) 0)) with er | v
        · rw [herr _ _ hf]; rfl
        · have hgl : ∃ f ∈ l, q ∈ f.1 := by
            rcases List.mem_cons.1 hg with rfl | h1
            · rw [mapM_lookup_none hqg (blocks_none h _ 0 hl)] at hf; cases hf
            · exact ⟨g, h1, hqg⟩
          simp only [bind, Except.bind, pure, Except.pure] at ih ⊢
          rw [ih hgl]
    rw [key]
    · rfl
    · obtain ⟨l, hl', hql⟩ := List.mem_flatten.1 hq
      obtain ⟨f, hf, rfl⟩ := List.mem_map.1 hl'
      exact ⟨f, by simp [hf], hql⟩
  rw [this]
  rfl

/-- Feeding the output of the Hadamard gate of the example circuit. -/
example : run demo (fun _ => none) [5] [([2], .vec [1, 0, 0, 0])] false none demoEnv.pick demoEnv.shuffle demoEnv.orc
    demoEnv.arena = .error .keyError := by
  refine C83_inner_false demo_circuit _ (q := 2) (by simp) ?_ none demoEnv_ok.shuffle
  rw [demo_leaves]
  simp

end QIP.Props
