import Verif.Props.Run

/-!
# Running circuits: C41-C43, C46, C47
-/

namespace QIP.Props

open QIP Spec Heap

/-! ## C47 -/

theorem nodeFeed_classic {h : Heap} {orc : Nat → Oracle} {st st' : Feeder} {gs : List (List Nat)} {own : List Nat} {x : Nat}
    (hf : nodeFeed h orc st gs own x = .ok st') :
    (∃ c, st'.classic = st.classic ++ [(x, c)] ∧ ClassicShape h x c) ∧
      ∀ k, h.kind x = .smeasure k → st'.state = st.state := by
  unfold nodeFeed at hf
  unfold ClassicShape
  rcases hk : h.kind x with _ | is | ⟨g, d⟩ | f | _ | k <;> rw [hk] at hf <;> simp only at hf ⊢
  · cases hf; exact ⟨⟨_, rfl, rfl⟩, fun k h => by cases h⟩
  · cases hf; exact ⟨⟨_, rfl, rfl⟩, fun k h => by cases h⟩
  · rcases hm : opMats (st.ms x) g d gs with e | m
    · rw [hm] at hf; cases hf
    · rw [hm] at hf
      simp only [bind, Except.bind] at hf
      rcases hr : st.state.kronselectDot m 0 0 (orc x).sched with ⟨r, b⟩
      rw [hr] at hf
      rcases r with e | u
      · cases hf
      · cases hf; exact ⟨⟨_, rfl, rfl⟩, fun k h => by cases h⟩
  · rcases hm : backendFuncApply (gs.getD 0 []) (gs.getD 1 []) f st.state.n st.state.state st.state.arena
      (orc x).faOrder (orc x).faGarb with e | out
    · rw [hm] at hf; cases hf
    · rw [hm] at hf; cases hf; exact ⟨⟨_, rfl, rfl⟩, fun k h => by cases h⟩
  · rcases hr : st.state.measure gs.flatten none none 0 0 (orc x).u (orc x).garbage with ⟨r, b⟩
    rw [hr] at hf
    rcases r with e | ⟨m, p⟩
    · cases hf
    · cases hf; exact ⟨⟨_, rfl, _, _, rfl⟩, fun k h => by cases h⟩
  · rcases hr : st.state.measureProbabilities gs.flatten k with e | r
    · rw [hr] at hf; cases hf
    · rw [hr] at hf; cases hf
      rcases r with ps | ⟨ms, ps⟩
      · exact ⟨⟨_, rfl, Or.inl ⟨_, rfl⟩⟩, fun _ _ => rfl⟩
      · exact ⟨⟨_, rfl, Or.inr ⟨_, _, rfl⟩⟩, fun _ _ => rfl⟩

theorem feedAll_classic {h : Heap} {args : List Nat} {orc : Nat → Oracle} (L : List Nat) {st st' : Feeder}
    (hf : L.foldlM (fun a x => nodeFeed h orc a (groups h args x) (wires h args x) x) st = .ok st') :
    ∃ cs, st'.classic = st.classic ++ cs ∧ cs.map (·.1) = L ∧ ∀ p ∈ cs, ClassicShape h p.1 p.2 := by
  induction L generalizing st with
  | nil => cases hf; exact ⟨[], by simp, rfl, by simp⟩
  | cons x L ih =>
    rw [List.foldlM_cons] at hf
    rcases h1 : nodeFeed h orc st (groups h args x) (wires h args x) x with e | s
    · rw [h1] at hf; cases hf
    · rw [h1] at hf
      simp only [bind, Except.bind] at hf
      obtain ⟨⟨c, e1, e2⟩, -⟩ := nodeFeed_classic h1
      obtain ⟨cs, i1, i2, i3⟩ := ih hf
      refine ⟨(x, c) :: cs, by rw [i1, e1]; simp, by simp [i2], ?_⟩
      intro p hp
      rcases List.mem_cons.1 hp with rfl | hp
      · exact e2
      · exact i3 p hp

/-- **C47**: whatever is fed, the returned dictionary has exactly one entry per node the outputs depend on: bits and
probability for `Measure`, a distribution for `StochasticMeasure`, 0 for all others.  (That the values are right is part
of `C35_run_sound`.) -/
theorem C47_classical {h : Heap} {env args : List Nat} (c : Circuit h env args) {ms ms' : MsTable}
    {feed : List (List Nat × InitState)} {strict : Bool} {state : Option StateKw} {e : Env}
    (he : ∀ l, (e.shuffle l).Perm l) {out : List ℂ} {cl : List (Nat × Classic)}
    (hrun : run h ms args feed strict state e.pick e.shuffle e.orc e.arena = .ok (out, cl, ms')) :
    (cl.map (·.1)).Nodup ∧ (∀ x, x ∈ cl.map (·.1) ↔ Reach h args x) ∧ ∀ p ∈ cl, ClassicShape h p.1 p.2 := by
  obtain ⟨V, c⟩ := c.ctx
  obtain ⟨deps, -, hr⟩ := run_pre c e.pick e.shuffle he
  rw [hr] at hrun
  rcases hp : runPre h args feed strict state deps e.arena with err | b
  · rw [hp] at hrun; cases hrun
  · rw [hp] at hrun
    simp only [bind, Except.bind] at hrun
    rcases hfold : (needed h args).foldlM (fun a x => nodeFeed h e.orc a (groups h args x) (wires h args x) x)
      ⟨b, ms, []⟩ with err | st
    · rw [hfold] at hrun; cases hrun
    · rw [hfold] at hrun
      simp only [Except.ok.injEq, Prod.mk.injEq] at hrun
      obtain ⟨-, rfl, -⟩ := hrun
      obtain ⟨cs, e1, e2, e3⟩ := feedAll_classic _ hfold
      simp only [List.nil_append] at e1
      rw [e1]
      refine ⟨?_, ?_, e3⟩
      · rw [e2]; exact (needed_asc h args).imp fun h => Nat.ne_of_lt h
      · intro x; rw [e2]; exact mem_needed c.wf c.vargs

/-- **C47**: feeding a `StochasticMeasure` leaves the state as it was. -/
theorem C47_stochastic {h : Heap} {orc : Nat → Oracle} {st st' : Feeder} {gs : List (List Nat)} {own : List Nat}
    {x : Nat} {k : Int} (hk : h.kind x = .smeasure k) (hf : nodeFeed h orc st gs own x = .ok st') :
    st'.state = st.state := (nodeFeed_classic hf).2 k hk

example : ∃ out cl ms', run demo (fun _ => none) [5] [([0], .vec [0, 0, 1, 0])] false none demoEnv.pick demoEnv.shuffle
      demoEnv.orc demoEnv.arena = .ok (out, cl, ms') ∧ ∃ ps, (5, Classic.probs ps) ∈ cl ∨ ∃ ms, (5, Classic.top ms ps) ∈ cl := by
  have hd : ∀ q ∈ leaves demo [5], q ∉ (([([0], [0, 0, 1, 0])] : List (List Nat × List ℂ)).map (·.1)).flatten →
      DefaultOK demo q := demo_default
  obtain ⟨out, cl, ms', h1, h2, -⟩ := C35_run_computes_partial demo_circuit demo_ok demo_nomeasure demo_feed hd demoEnv_ok
  obtain ⟨-, k2, k3⟩ := C47_classical demo_circuit demoEnv_ok.shuffle h1
  obtain ⟨p, hp, he⟩ := List.mem_map.1 ((k2 5).2 (.arg (by simp)))
  rcases p with ⟨y, cv⟩
  simp only at he
  subst he
  have := k3 _ hp
  simp only [ClassicShape, demo_kind.2.2.2.2] at this
  refine ⟨out, cl, ms', h1, ?_⟩
  rcases this with ⟨ps, rfl⟩ | ⟨ms, ps, rfl⟩
  · exact ⟨ps, Or.inl hp⟩
  · exact ⟨ps, Or.inr ⟨ms, hp⟩⟩

/-! ## C42 -/

/-- **C42**: with `strict=True` a run raises ValueError if a needed input qubit is missing from `feed`; otherwise strict
mode changes nothing. -/
theorem C42_strict {h : Heap} {env args : List Nat} (c : Circuit h env args) (ms : MsTable)
    (feed : List (List Nat × InitState)) (state : Option StateKw) (e : Env) (he : ∀ l, (e.shuffle l).Perm l) :
    ((∃ q, Reach h args q ∧ h.inputs q = [] ∧ ∀ kv ∈ feed, q ∉ kv.1) →
      run h ms args feed true state e.pick e.shuffle e.orc e.arena = .error .valueError) ∧
    ((∀ q, Reach h args q → h.inputs q = [] → ∃ kv ∈ feed, q ∈ kv.1) →
      run h ms args feed true state e.pick e.shuffle e.orc e.arena
        = run h ms args feed false state e.pick e.shuffle e.orc e.arena) := by
  obtain ⟨V, c⟩ := c.ctx
  obtain ⟨deps, -, hr⟩ := run_pre c e.pick e.shuffle he
  constructor
  · rintro ⟨q, h1, h2, h3⟩
    rw [hr]
    unfold runPre
    rw [if_pos]
    · rfl
    · refine ⟨rfl, q, (mem_leaves c.wf c.vargs).2 ⟨h1, h2⟩, ?_⟩
      simp only [List.mem_flatten, List.mem_map, not_exists, not_and]
      rintro _ ⟨kv, hkv, rfl⟩
      exact h3 kv hkv
  · intro hall
    rw [hr, hr]
    congr 1
    unfold runPre
    rw [if_neg, if_neg (c := false = true ∧ _)]
    · simp
    · rintro ⟨-, q, hq, hq'⟩
      rw [mem_leaves c.wf c.vargs] at hq
      obtain ⟨kv, hkv, hqk⟩ := hall q hq.1 hq.2
      apply hq'
      simp only [List.mem_flatten, List.mem_map]
      exact ⟨_, ⟨kv, hkv, rfl⟩, hqk⟩

/-- **C42**: a strict run of a circuit without collapsing measurements succeeds if everything is fed. -/
theorem C42_strict_ok {h : Heap} {env args : List Nat} (c : Circuit h env args)
    (hok : ∀ x, Reach h args x → NodeOK h args x) (hm : ∀ x, Reach h args x → NoMeasure h args x)
    {feed : List (List Nat × List ℂ)} (hf : FeedOK h args feed)
    (hall : ∀ q ∈ leaves h args, q ∈ (feed.map (·.1)).flatten) {e : Env} (he : EnvOK h args e) :
    ∃ r, run h (fun _ => none) args (feed.map asFeed) true none e.pick e.shuffle e.orc e.arena = .ok r := by
  obtain ⟨out, cl, ms', h1, -⟩ := C35_run_computes_partial c hok hm hf (fun q hq hq' => absurd (hall q hq) hq') he
  rw [(C42_strict c _ _ none e he.shuffle).2]
  · exact ⟨_, h1⟩
  · intro q h2 h3
    obtain ⟨V, c⟩ := c.ctx
    have := hall q ((mem_leaves c.wf c.vargs).2 ⟨h2, h3⟩)
    obtain ⟨l, hl, hq⟩ := List.mem_flatten.1 this
    obtain ⟨kv, hkv, rfl⟩ := List.mem_map.1 hl
    exact ⟨asFeed kv, List.mem_map.2 ⟨kv, hkv, rfl⟩, hq⟩

example : run demo (fun _ => none) [5] [([0], .vec [0, 0, 1, 0])] true none demoEnv.pick demoEnv.shuffle
      demoEnv.orc demoEnv.arena = .error .valueError := by
  refine (C42_strict demo_circuit _ _ none demoEnv demoEnv_ok.shuffle).1 ⟨1, ?_, demo_inputs.2.1, by simp⟩
  have h4 : Reach demo [5] 4 := .input (.arg (by simp)) (by simp [demo_inputs.2.2.2.2] : 4 ∈ demo.inputs 5)
  exact .input h4 (by simp [demo_inputs.2.2.2.1])

/-! ## C43 -/

theorem startVec_entry {h : Heap} {q : Nat} (hd : DefaultOK h q) {k : Nat} (hk : k < 2 ^ h.n q) :
    (startVec h q).getD k 0 = startEntry h q k := by
  unfold startVec startEntry
  unfold DefaultOK at hd
  have one : ∀ j : Nat, j < 2 ^ h.n q → ((List.replicate (2 ^ h.n q) (0 : ℂ)).set j 1).getD k 0 = if k = j then 1 else 0 := by
    intro j hj
    rw [List.getD_eq_getElem?_getD, List.getElem?_set]
    by_cases hkj : j = k
    · subst hkj; simp [hj]
    · rw [if_neg hkj, if_neg (Ne.symm hkj)]; simp [hk]
  rcases hdef : h.default q with _ | (l | l | d) <;> rw [hdef] at hd <;> simp only at hd ⊢
  · exact one 0 (by positivity)
  · have hz : d.toNat < 2 ^ h.n q := by zify; rw [Int.toNat_of_nonneg hd.1]; exact_mod_cast hd.2
    rw [one _ hz]
    refine if_congr ?_ rfl rfl
    constructor
    · rintro rfl; exact Int.toNat_of_nonneg hd.1
    · intro h; omega

/-- **C43**: the initial state in which the operations start: a fed tuple of qubits starts in the fed vector, whatever its
default; an unfed input qubit in its default (the given vector, basis state `d`, or 0 without default).  (The same
circuits and restrictions as in `C35_run_computes_partial`.) -/
theorem C43_defaults {h : Heap} {env args : List Nat} (c : Circuit h env args)
    (hok : ∀ x, Reach h args x → NodeOK h args x) (hm : ∀ x, Reach h args x → NoMeasure h args x)
    {feed : List (List Nat × List ℂ)} (hf : FeedOK h args feed)
    (hdef : ∀ q ∈ leaves h args, q ∉ (feed.map (·.1)).flatten → DefaultOK h q) {e : Env} (he : EnvOK h args e) :
    ∃ out cl ms', run h (fun _ => none) args (feed.map asFeed) false none e.pick e.shuffle e.orc e.arena
        = .ok (out, cl, ms') ∧ out.length = 2 ^ width h args ∧
      ∀ r < 2 ^ width h args, out[r]? = some (applyAll (width h args) h args (needed h args) (fun r =>
        (feed.map fun kv => kv.2.getD (subIndex (width h args) (kv.1.map (wires h args)).flatten r) 0).prod *
        (((leaves h args).filter fun q => q ∉ (feed.map (·.1)).flatten).map fun q =>
          startEntry h q (subIndex (width h args) (wires h args q) r)).prod) r) := by
  obtain ⟨out, cl, ms', h1, h2, h3⟩ := C35_run_computes_partial c hok hm hf hdef he
  refine ⟨out, cl, ms', h1, h2, ?_⟩
  intro r hr
  rw [h3 r hr]
  congr 3
  funext r
  unfold startAmp
  simp only
  congr 2
  apply List.map_congr_left
  intro q hq
  obtain ⟨hq1, hq2⟩ := List.mem_filter.1 hq
  obtain ⟨V, c⟩ := c.ctx
  apply startVec_entry (hdef q hq1 (by simpa using hq2))
  rw [← c.len ((mem_leaves c.wf c.vargs).1 hq1).1]
  exact subIndex_lt _ _ _

/-- **C43** for input qubits alone: the returned state is the product of fed vectors and defaults. -/
theorem C43_inputs_only {h : Heap} {env args : List Nat} (c : Circuit h env args)
    (hq : ∀ x ∈ args, h.inputs x = [] ∧ h.kind x = .qubit)
    {feed : List (List Nat × List ℂ)} (hf : FeedOK h args feed)
    (hdef : ∀ q ∈ leaves h args, q ∉ (feed.map (·.1)).flatten → DefaultOK h q) {e : Env} (he : EnvOK h args e) :
    ∃ out cl ms', run h (fun _ => none) args (feed.map asFeed) false none e.pick e.shuffle e.orc e.arena
        = .ok (out, cl, ms') ∧ out.length = 2 ^ width h args ∧
      ∀ r < 2 ^ width h args, out[r]? = some (
        (feed.map fun kv => kv.2.getD (subIndex (width h args) (kv.1.map (wires h args)).flatten r) 0).prod *
        (((leaves h args).filter fun q => q ∉ (feed.map (·.1)).flatten).map fun q =>
          startEntry h q (subIndex (width h args) (wires h args q) r)).prod) := by
  have hre : ∀ x, Reach h args x → h.inputs x = [] ∧ h.kind x = .qubit := by
    intro x hx
    induction hx with
    | arg hx => exact hq _ hx
    | input _ h1 ih => rw [ih.1] at h1; simp at h1
  have hg : ∀ x, Reach h args x → groups h args x = [] := fun x hx => by simp [groups, (hre x hx).1]
  obtain ⟨out, cl, ms', h1, h2, h3⟩ := C43_defaults c
    (fun x hx => ⟨by simp [hg x hx], fun g d hk => by simp [(hre x hx).2] at hk, fun f hk => by simp [(hre x hx).2] at hk⟩)
    (fun x hx => ⟨by simp [(hre x hx).2], fun k hk => by simp [(hre x hx).2] at hk⟩) hf hdef he
  refine ⟨out, cl, ms', h1, h2, ?_⟩
  intro r hr
  rw [h3 r hr]
  congr 1
  obtain ⟨V, c⟩ := c.ctx
  have : ∀ (L : List Nat) (v : Nat → ℂ), (∀ x ∈ L, Reach h args x) → applyAll (width h args) h args L v = v := by
    intro L
    induction L with
    | nil => intro v _; rfl
    | cons x L ih =>
      intro v hL
      have : applyAll (width h args) h args (x :: L) v = applyAll (width h args) h args L (nodeApply (width h args) h args x v) := rfl
      rw [this, ih _ fun y hy => hL y (by simp [hy])]
      unfold nodeApply
      rw [(hre x (hL x (by simp))).2]
  rw [this _ _ fun x hx => (mem_needed c.wf c.vargs).1 hx]

/-- An integer default outside `0 … 2**n - 1` is silently replaced by 0. -/
theorem C43_out_of_range {h : Heap} {env : List Nat} {q : Nat} (c : Circuit h env [q]) (hl : h.inputs q = [])
    (hk : h.kind q = .qubit) {d : Int} (hd : h.default q = some (.int d)) (hout : d < 0 ∨ 2 ^ h.n q ≤ d)
    {e : Env} (he : ∀ l, (e.shuffle l).Perm l) :
    ∃ cl ms', run h (fun _ => none) [q] [] false none e.pick e.shuffle e.orc e.arena
      = .ok ((List.replicate (2 ^ h.n q) 0).set 0 1, cl, ms') := by
  obtain ⟨V, c⟩ := c.ctx
  obtain ⟨deps, hdp, hr⟩ := run_pre c e.pick e.shuffle he
  have hre : ∀ x, Reach h [q] x ↔ x = q := by
    intro x
    constructor
    · intro hx
      induction hx with
      | arg hx => simpa using hx
      | input _ h1 ih => subst ih; rw [hl] at h1; simp at h1
    · rintro rfl; exact .arg (by simp)
  have hne : needed h [q] = [q] := by
    refine asc_ext (needed_asc h [q]) (by simp) ?_
    intro x
    rw [mem_needed c.wf c.vargs, hre]
    simp
  have hle : leaves h [q] = [q] := by
    unfold leaves
    rw [hne]
    simp [isLeaf, hl]
  have hw : width h [q] = h.n q := by simp [width, hle]
  rw [hle] at hdp
  have hdeps : deps = [q] := List.perm_singleton.1 hdp
  have hdf : defaultFeed h [] q = [] := by
    unfold defaultFeed
    rw [hd]
    simp only [List.not_mem_nil, if_false]
    rw [if_neg]
    rintro ⟨h1, h2⟩
    omega
  have hpre : runPre h [q] [] false none deps e.arena = .ok ⟨h.n q, (List.replicate (2 ^ h.n q) 0).set 0 1, e.arena⟩ := by
    unfold runPre
    rw [if_neg (by simp), hdeps, hw]
    have hf : ([] ++ [q].flatMap (defaultFeed h (([] : List (List Nat × InitState)).map (·.1)).flatten)) = [] := by
      simp [hdf]
    rw [hf]
    simp [stateArg, makeState, genEditIndices, bind, Except.bind, pure, Except.pure]
  rw [hr, hpre, hne]
  simp [nodeFeed, hk, bind, Except.bind, pure, Except.pure]

/-! ## C46 -/

theorem runPre_int {h : Heap} {V : Nat → Prop} {args : List Nat} (c : Ctx h V args) {deps : List Nat}
    (hdp : deps.Perm (leaves h args)) {i : Int} (hi : i ≠ 0) (arena : List ℂ) :
    runPre h args [] false (some (.int i)) deps arena = .error .typeError := by
  unfold runPre
  rw [if_neg (by simp)]
  have hm : ∀ l : List (List Nat × InitState), (∀ f ∈ l, ∀ q ∈ f.1, q ∈ leaves h args) →
      ∃ gs, (l.mapM fun f => do
        let gs ← f.1.mapM (lookup (blocks h (leaves h args) 0))
        (pure gs.flatten : Except PyErr (List Nat))) = .ok gs := by
    intro l hl
    induction l with
    | nil => exact ⟨[], rfl⟩
    | cons f l ih =>
      obtain ⟨gs, hgs⟩ := ih fun f hf => hl f (by simp [hf])
      have h1 : f.1.mapM (lookup (blocks h (leaves h args) 0)) = .ok (f.1.map (wires h args)) := by
        apply mapM_lookup
        intro x hx
        have hx' := hl f (by simp) x hx
        rw [blocks_asc h _ (leaves_asc h args) 0 hx', wires_leaf ((mem_leaves c.wf c.vargs).1 hx').2]
        simp [offset]
      refine ⟨(f.1.map (wires h args)).flatten :: gs, ?_⟩
      rw [List.mapM_cons, h1, hgs]
      rfl
  obtain ⟨gs, hgs⟩ := hm ([] ++ deps.flatMap (defaultFeed h (([] : List (List Nat × InitState)).map (·.1)).flatten)) (by
    intro f hf q hq
    simp only [List.nil_append, List.mem_flatMap] at hf
    obtain ⟨x, hx, hfx⟩ := hf
    have : f.1 = [x] := by
      unfold defaultFeed at hfx
      split at hfx
      · simp at hfx
      · split at hfx
        · simp at hfx
        · split at hfx
          · simp at hfx; rw [hfx]
          · simp at hfx
        · simp at hfx; rw [hfx]
        · simp at hfx; rw [hfx]
    rw [this] at hq
    simp at hq
    subst hq
    exact hdp.mem_iff.1 hx)
  rw [hgs]
  have hs : stateArg (some (.int i)) = .ok (some (.int i)) := by simp [stateArg, hi]
  simp only [hs, bind, Except.bind]
  unfold makeState
  rw [if_neg (by simp), genEditIndices_eq (by simp) (by simp [List.nodup_range]) (by simp)]
  simp only [bind, Except.bind, List.cons_ne_nil, if_false]
  obtain ⟨k, hk⟩ : ∃ k, 2 ^ (List.range (width h args)).length = k + 1 := ⟨_, (Nat.succ_pred_eq_of_pos (by positivity)).symm⟩
  simp only [List.flatten_cons, List.flatten_nil, List.append_nil, hk, List.range_succ_eq_map, List.map_cons,
    List.foldlM_cons]
  unfold editStep
  rw [if_neg]
  · simp [feedProduct, feedGet, bind, Except.bind]
  · push Not
    exact ⟨Nat.zero_le _, spread_lt _ _ _ _⟩

/-- **C46 is false of the code**: `make_circuit_mat` raises for every circuit with at least one qubit. -/
theorem C46_always_fails {h : Heap} {env args : List Nat} (c : Circuit h env args)
    (hok : ∀ x, Reach h args x → NodeOK h args x) (hdef : ∀ q ∈ leaves h args, DefaultOK h q)
    (hw : 1 ≤ width h args) (e : Nat → Env) (he : ∀ i, EnvOK h args (e i)) :
    (∃ err, makeCircuitMat h (fun _ => none) args e = .error err) ∧
      ((∀ x, Reach h args x → NoMeasure h args x) → makeCircuitMat h (fun _ => none) args e = .error .typeError) := by
  have hf : FeedOK h args [] := ⟨by simp, by simp, by simp⟩
  have hd' : ∀ q ∈ leaves h args, q ∉ (([] : List (List Nat × List ℂ)).map (·.1)).flatten → DefaultOK h q :=
    fun q hq _ => hdef q hq
  have step : ∀ out cl ms', run h (fun _ => none) args [] false none (e 0).pick (e 0).shuffle (e 0).orc (e 0).arena
      = .ok (out, cl, ms') → makeCircuitMat h (fun _ => none) args e = .error .typeError := by
    intro out cl ms' hrun
    obtain ⟨hlen, -⟩ := C35_run_sound (feed := []) c hok hf hd' (he 0) hrun
    obtain ⟨V, c⟩ := c.ctx
    unfold makeCircuitMat
    rw [hrun]
    simp only [bind, Except.bind]
    rw [hlen, Nat.log_pow (by norm_num)]
    obtain ⟨k, hk⟩ : ∃ k, 2 ^ width h args - 1 = k + 1 := by
      have : 2 ^ 1 ≤ 2 ^ width h args := Nat.pow_le_pow_right (by norm_num) hw
      exact ⟨2 ^ width h args - 2, by omega⟩
    rw [hk, List.range'_succ, List.foldlM_cons]
    obtain ⟨deps, hdp, hr⟩ := run_pre c (e 1).pick (e 1).shuffle (he 1).shuffle
    replace hr := hr ms' [] false (some (.int 1)) (e 1).orc (e 1).arena
    rw [runPre_int c hdp (by norm_num)] at hr
    have : run h ms' args [] false (some (.int ((1 : Nat) : Int))) (e 1).pick (e 1).shuffle (e 1).orc (e 1).arena
      = .error .typeError := hr
    simp only [this, bind, Except.bind]
  constructor
  · rcases hrun : run h (fun _ => none) args [] false none (e 0).pick (e 0).shuffle (e 0).orc (e 0).arena with err | ⟨o, cl, ms'⟩
    · refine ⟨err, ?_⟩
      unfold makeCircuitMat
      rw [hrun]
      rfl
    · exact ⟨_, step _ _ _ hrun⟩
  · intro hm
    obtain ⟨out, cl, ms', h1, -⟩ := C35_run_computes_partial (feed := []) c hok hm hf hd' (he 0)
    exact step _ _ _ h1

/-- The example circuit has no matrix either. -/
example : makeCircuitMat demo (fun _ => none) [5] (fun _ => demoEnv) = .error .typeError := by
  refine (C46_always_fails demo_circuit demo_ok ?_ (by rw [demo_width]; norm_num) _ fun _ => demoEnv_ok).2 demo_nomeasure
  intro q hq
  by_cases h0 : q ∈ [0]
  · have : q = 0 := by simpa using h0
    subst this
    have : demo.default 0 = none := rfl
    simp [DefaultOK, this]
  · exact demo_default q hq h0

end QIP.Props
