import Verif.Lemmas.RunPre
import Verif.Lemmas.Demo

/-!
# Running circuits: C32-C37, C41-C43, C46, C47
-/

namespace QIP.Props

open QIP Spec Heap

/-! ## C32, C33, C34 -/

/-- **C33**: whatever element the sets return first, `get_deps` terminates and returns the input nodes and all nodes the
outputs depend on. -/
theorem C33_get_deps {h : Heap} {env args : List Nat} (c : Circuit h env args) (pick : List Nat → Nat) :
    ∃ deps nodes, getDeps h pick args = .ok (deps, nodes) ∧ deps.Nodup ∧ nodes.Nodup ∧
      (∀ x, x ∈ nodes ↔ Reach h args x) ∧ ∀ x, x ∈ deps ↔ Reach h args x ∧ h.inputs x = [] := by
  obtain ⟨V, c⟩ := c.ctx
  exact getDeps_spec h pick args (fun x hx => c.wf.vlt x (c.vargs x hx)) fun x hx => c.ilt hx

example : ∃ deps nodes, getDeps demo (fun _ => 7) [5] = .ok (deps, nodes) ∧ deps.Nodup ∧ nodes.Nodup ∧
      (∀ x, x ∈ nodes ↔ Reach demo [5] x) ∧ ∀ x, x ∈ deps ↔ Reach demo [5] x ∧ demo.inputs x = [] :=
  C33_get_deps demo_circuit _

/-- **C32**: `run_graph`, started as `run` starts it, hands the nodes the outputs depend on to the accumulator, whatever
the accumulator does, in ascending order of construction; every such node exactly once and after its inputs. -/
theorem C32_run_graph {h : Heap} {env args : List Nat} (c : Circuit h env args) (pick : List Nat → Nat)
    (shuffle : List Nat → List Nat) (hsh : ∀ l, (shuffle l).Perm l) :
    ∃ (deps nodes order : List Nat), getDeps h pick args = .ok (deps, nodes) ∧
      (∀ (σ : Type) (feed : σ → List (List Nat) → List Nat → Nat → Except PyErr σ) (acc : σ),
        runGraph h (sortQid h (shuffle deps)) nodes feed acc
          = order.foldlM (fun a x => feed a (groups h args x) (wires h args x) x) acc) ∧
      (∀ x, x ∈ order ↔ Reach h args x) ∧ order.Pairwise (· < ·) ∧
      order.Pairwise fun x y => y ∉ h.inputs x := by
  obtain ⟨V, c⟩ := c.ctx
  obtain ⟨deps, nodes, e1, d1, d2, d3, d4⟩ := getDeps_spec h pick args (fun x hx => c.wf.vlt x (c.vargs x hx))
    fun x hx => c.ilt hx
  have hsl := sortQid_deps c.wf c.vargs ((hsh deps).nodup_iff.2 d1) (fun x => ((hsh deps).mem_iff).trans (d4 x))
  refine ⟨deps, nodes, needed h args, e1, ?_, fun x => mem_needed c.wf c.vargs, needed_asc h args, ?_⟩
  · intro σ feed acc
    rw [hsl]
    exact runGraph_spec c.wf c.kind c.vargs c.size c.split d3 d2 rfl feed acc
  · refine List.Pairwise.imp_of_mem ?_ (needed_asc h args)
    intro x y hx _ hxy hy
    have := c.ilt ((mem_needed c.wf c.vargs).1 hx) y hy
    omega

example : ∃ (deps nodes order : List Nat), getDeps demo (fun _ => 3) [5] = .ok (deps, nodes) ∧
      (∀ (σ : Type) (feed : σ → List (List Nat) → List Nat → Nat → Except PyErr σ) (acc : σ),
        runGraph demo (sortQid demo (deps.reverse)) nodes feed acc
          = order.foldlM (fun a x => feed a (groups demo [5] x) (wires demo [5] x) x) acc) ∧
      (∀ x, x ∈ order ↔ Reach demo [5] x) ∧ order.Pairwise (· < ·) ∧
      order.Pairwise fun x y => y ∉ demo.inputs x :=
  C32_run_graph demo_circuit _ List.reverse fun l => l.reverse_perm

/-- **C34**: the indices handed out by `run_graph` (see C32) are as many as the size of the node and below the number of
qubits; input qubits get the consecutive blocks, in creation order; every other node keeps the indices of its inputs, a
split those at its positions. -/
theorem C34_indices {h : Heap} {env args : List Nat} (c : Circuit h env args) {x : Nat} (hx : Reach h args x) :
    (wires h args x).length = h.n x ∧ (∀ k ∈ wires h args x, k < width h args) ∧
      (h.inputs x = [] → wires h args x = List.range' (((leaves h args).filter (· < x)).map h.n).sum (h.n x)) ∧
      (h.inputs x ≠ [] → (∀ is, h.kind x ≠ .split is) →
        wires h args x = ((h.inputs x).map (wires h args)).flatten) ∧
      ∀ is, h.kind x = .split is → h.inputs x ≠ [] → (wires h args x).length = is.length ∧
        ∀ j (hj : j < is.length), (wires h args x)[j]? = ((h.inputs x).map (wires h args)).flatten[is[j].toNat]? := by
  obtain ⟨V, c⟩ := c.ctx
  refine ⟨c.len hx, fun k hk => c.lt_width hx hk, ?_, ?_, ?_⟩
  · intro hl
    rw [wires_leaf hl, List.range'_eq_map_range]
    rfl
  · intro hl hs
    rw [wires_node hl (c.ilt hx)]
    rcases hk : h.kind x with _ | is | _ | _ | _ | _
    case split => exact absurd hk (hs is)
    all_goals rfl
  · intro is hk hl
    have e := wires_node (args := args) hl (c.ilt hx)
    simp only [hk] at e
    refine ⟨by rw [e]; simp, ?_⟩
    intro j hj
    have hs := c.split x hx is hk is[j] (List.getElem_mem hj)
    have hlen : is[j].toNat < (groups h args x).flatten.length := by
      rw [c.len_flatten hx]
      omega
    rw [e, List.getElem?_map, List.getElem?_eq_getElem hj, Option.map_some, List.getD_eq_getElem _ _ hlen]
    exact (List.getElem?_eq_getElem hlen).symm

/-- **C34**, second part: if no qubit is used twice, the indices of a node are distinct, and two nodes of which none
depends on the other do not share an index. -/
theorem C34_no_sharing {h : Heap} {env args : List Nat} (c : Circuit h env args) (hu : UsedOnce h args) {x : Nat}
    (hx : Reach h args x) :
    (wires h args x).Nodup ∧ ((h.inputs x).map (wires h args)).flatten.Nodup ∧
      ∀ y, Reach h args y → ¬ Reach h [x] y → ¬ Reach h [y] x → ∀ k ∈ wires h args x, k ∉ wires h args y := by
  obtain ⟨V, c⟩ := c.ctx
  exact ⟨(c.chain hu x hx).2.2, (c.chain hu x hx).2.1, fun y hy h1 h2 => c.disjoint hu hx hy h1 h2⟩

example : (wires demo [5] 4).length = 3 ∧ (wires demo [5] 4).Nodup := by
  have h4 : Reach demo [5] 4 := .input (.arg (by simp)) (by simp [demo_inputs.2.2.2.2] : 4 ∈ demo.inputs 5)
  exact ⟨(C34_indices demo_circuit h4).1, (C34_no_sharing demo_circuit demo_once h4).1⟩

/-! ## C35, C36, C37 -/

theorem oracleOK {h : Heap} {args : List Nat} {e : Env} (he : EnvOK h args e) : OracleOK h args e.orc :=
  fun x => ⟨he.sched x, he.faOrder x⟩

theorem feederOK_start {h : Heap} {args : List Nat} {e : Env} (he : EnvOK h args e) (feed : List (List Nat × List ℂ))
    {ms : MsTable} (hms : CacheOK h args ms) : FeederOK h args ⟨startState h args feed e.arena, ms, []⟩ := by
  refine ⟨rfl, ⟨?_, ?_⟩, hms⟩
  · simp [startState]
  · simp [startState, he.arena]

theorem cache_fresh (h : Heap) (args : List Nat) : CacheOK h args fun _ => none :=
  fun _ _ _ _ _ _ h => by cases h

/-- **C35**: if a run of a freshly built circuit succeeds, the returned state is reached from the initial product state
by the nodes in construction order, each acting as specified on the qubits it was given (measurements project on one of
their outcomes), and the dictionary reports their results. -/
theorem C35_run_sound {h : Heap} {env args : List Nat} (c : Circuit h env args)
    (hok : ∀ x, Reach h args x → NodeOK h args x) {feed : List (List Nat × List ℂ)} (hf : FeedOK h args feed)
    (hdef : ∀ q ∈ leaves h args, q ∉ (feed.map (·.1)).flatten → DefaultOK h q) {e : Env} (he : EnvOK h args e)
    {out : List ℂ} {cl : List (Nat × Classic)} {ms' : MsTable}
    (hrun : run h (fun _ => none) args (feed.map asFeed) false none e.pick e.shuffle e.orc e.arena = .ok (out, cl, ms')) :
    out.length = 2 ^ width h args ∧ ∃ v : Nat → ℂ, (∀ r < 2 ^ width h args, v r = startAmp h args feed r) ∧
      Steps (width h args) h args (needed h args) v (fun r => out.getD r 0) cl := by
  obtain ⟨V, c⟩ := c.ctx
  rw [run_spec c hf hdef _ false e.pick e.shuffle he.shuffle e.orc e.arena (by simp)] at hrun
  have hL : ∀ x ∈ needed h args, Reach h args x ∧ NodeOK h args x := by
    intro x hx
    have := (mem_needed c.wf c.vargs).1 hx
    exact ⟨this, hok x this⟩
  obtain ⟨-, h2⟩ := feedAll_spec c (oracleOK he) (needed h args) hL (feederOK_start he feed (cache_fresh h args))
  rcases hfold : (needed h args).foldlM (fun a x => nodeFeed h e.orc a (groups h args x) (wires h args x) x)
    ⟨startState h args feed e.arena, fun _ => none, []⟩ with err | st
  · rw [hfold] at hrun; cases hrun
  · rw [hfold] at hrun
    simp only [bind, Except.bind, Except.ok.injEq, Prod.mk.injEq] at hrun
    obtain ⟨rfl, rfl, rfl⟩ := hrun
    obtain ⟨k1, cs, k2, k3, -⟩ := h2 st hfold
    have hn := k1.n
    have hful := k1.full
    refine ⟨by rw [← hn]; exact hful.1, ?_⟩
    simp only [List.nil_append] at k2
    rw [k2]
    exact ⟨_, fun r hr => by simp [BState.amp, startState, hr], k3⟩

/-- **C35** for circuits that do not collapse the state: the run succeeds, and the returned state is the initial product
state transformed by the operations in construction order.  Partial: `NodeOK` excludes `F` with a number of bystander
qubits for which the code is wrong (C17) and daggers of swaps (C14). -/
theorem C35_run_computes_partial {h : Heap} {env args : List Nat} (c : Circuit h env args)
    (hok : ∀ x, Reach h args x → NodeOK h args x) (hm : ∀ x, Reach h args x → NoMeasure h args x)
    {feed : List (List Nat × List ℂ)} (hf : FeedOK h args feed)
    (hdef : ∀ q ∈ leaves h args, q ∉ (feed.map (·.1)).flatten → DefaultOK h q) {e : Env} (he : EnvOK h args e) :
    ∃ out cl ms', run h (fun _ => none) args (feed.map asFeed) false none e.pick e.shuffle e.orc e.arena
        = .ok (out, cl, ms') ∧ out.length = 2 ^ width h args ∧
      ∀ r < 2 ^ width h args, out[r]? = some (applyAll (width h args) h args (needed h args) (startAmp h args feed) r) := by
  have c' := c
  obtain ⟨V, c⟩ := c.ctx
  have hL : ∀ x ∈ needed h args, Reach h args x ∧ NodeOK h args x := by
    intro x hx
    have := (mem_needed c.wf c.vargs).1 hx
    exact ⟨this, hok x this⟩
  obtain ⟨h1, -⟩ := feedAll_spec c (oracleOK he) (needed h args) hL (feederOK_start he feed (cache_fresh h args))
  obtain ⟨st, hst⟩ := h1 fun x hx => hm x (hL x hx).1
  have hrun : run h (fun _ => none) args (feed.map asFeed) false none e.pick e.shuffle e.orc e.arena
      = .ok (st.state.state, st.classic, st.ms) := by
    rw [run_spec c hf hdef _ false e.pick e.shuffle he.shuffle e.orc e.arena (by simp), hst]
    rfl
  obtain ⟨s1, v, hv, s2⟩ := C35_run_sound c' hok hf hdef he hrun
  refine ⟨_, _, _, hrun, s1, ?_⟩
  intro r hr
  rw [← applyAll_congr c _ hL hv hr, ← steps_applyAll c hL (fun x hx => (hm x (hL x hx).1).1) s2 r hr, List.getD_eq_getElem _ _ (by omega)]
  exact List.getElem?_eq_getElem (by omega)

/-- **C37**: such a run preserves the squared norm (partial as `C35_run_computes_partial`). -/
theorem C37_norm_partial {h : Heap} {env args : List Nat} (c : Circuit h env args)
    (hok : ∀ x, Reach h args x → NodeOK h args x) (hm : ∀ x, Reach h args x → NoMeasure h args x)
    {feed : List (List Nat × List ℂ)} (hf : FeedOK h args feed)
    (hdef : ∀ q ∈ leaves h args, q ∉ (feed.map (·.1)).flatten → DefaultOK h q) {e : Env} (he : EnvOK h args e)
    {out : List ℂ} {cl : List (Nat × Classic)} {ms' : MsTable}
    (hrun : run h (fun _ => none) args (feed.map asFeed) false none e.pick e.shuffle e.orc e.arena = .ok (out, cl, ms')) :
    norm2 out = norm2 ((List.range (2 ^ width h args)).map (startAmp h args feed)) := by
  obtain ⟨V, c⟩ := c.ctx
  rw [run_spec c hf hdef _ false e.pick e.shuffle he.shuffle e.orc e.arena (by simp)] at hrun
  have hL : ∀ x ∈ needed h args, Reach h args x ∧ NodeOK h args x := by
    intro x hx
    have := (mem_needed c.wf c.vargs).1 hx
    exact ⟨this, hok x this⟩
  obtain ⟨-, h2⟩ := feedAll_spec c (oracleOK he) (needed h args) hL (feederOK_start he feed (cache_fresh h args))
  rcases hfold : (needed h args).foldlM (fun a x => nodeFeed h e.orc a (groups h args x) (wires h args x) x)
    ⟨startState h args feed e.arena, fun _ => none, []⟩ with err | st
  · rw [hfold] at hrun; cases hrun
  · rw [hfold] at hrun
    simp only [bind, Except.bind, Except.ok.injEq, Prod.mk.injEq] at hrun
    obtain ⟨rfl, rfl, rfl⟩ := hrun
    obtain ⟨k1, cs, -, -, k3⟩ := h2 st hfold
    exact k3 fun x hx => hm x (hL x hx).1

/-- **C36**: if no qubit is used twice, every order of the needed nodes that respects dependencies gives the state that
the run computes (partial as `C35_run_computes_partial`). -/
theorem C36_any_order_partial {h : Heap} {env args : List Nat} (c : Circuit h env args)
    (hok : ∀ x, Reach h args x → NodeOK h args x) (hm : ∀ x, Reach h args x → NoMeasure h args x)
    (hu : UsedOnce h args) {feed : List (List Nat × List ℂ)} (hf : FeedOK h args feed)
    (hdef : ∀ q ∈ leaves h args, q ∉ (feed.map (·.1)).flatten → DefaultOK h q) {e : Env} (he : EnvOK h args e)
    {order : List Nat} (hn : order.Nodup) (hmem : ∀ x, x ∈ order ↔ Reach h args x) (hr : Respects h order) :
    ∃ out cl ms', run h (fun _ => none) args (feed.map asFeed) false none e.pick e.shuffle e.orc e.arena
        = .ok (out, cl, ms') ∧ out.length = 2 ^ width h args ∧
      ∀ r < 2 ^ width h args, out[r]? = some (applyAll (width h args) h args order (startAmp h args feed) r) := by
  obtain ⟨out, cl, ms', h1, h2, h3⟩ := C35_run_computes_partial c hok hm hf hdef he
  obtain ⟨V, c⟩ := c.ctx
  refine ⟨out, cl, ms', h1, h2, ?_⟩
  intro r hr'
  rw [h3 r hr', applyAll_order c hu (needed h args) (needed_asc h args) _ order _ hr _ hr']
  · intro x hx
    have := (mem_needed c.wf c.vargs).1 hx
    exact ⟨this, hok x this⟩
  · refine (List.perm_ext_iff_of_nodup hn ((needed_asc h args).imp fun h => Nat.ne_of_lt h)).2 ?_
    intro x
    rw [hmem, mem_needed c.wf c.vargs]

/-- The same graph, rebuilt with independent operations constructed in another order, is covered by C35 applied to the
other graph; here an environment for the example. -/
noncomputable def demoEnv : Env :=
  ⟨fun _ => 0, List.reverse, fun x => ⟨List.range (2 ^ width demo [5]),
    faCounters (width demo [5]) ((groups demo [5] x).getD 0 []) ((groups demo [5] x).getD 1 []), fun _ => 0, 0, 0⟩,
    List.replicate (2 ^ width demo [5]) 0⟩

theorem demoEnv_ok : EnvOK demo [5] demoEnv :=
  ⟨fun l => l.reverse_perm, fun _ => .refl _, fun _ => .refl _, by simp [demoEnv]⟩

example : ∃ out cl ms', run demo (fun _ => none) [5] [([0], .vec [0, 0, 1, 0])] false none demoEnv.pick demoEnv.shuffle
      demoEnv.orc demoEnv.arena = .ok (out, cl, ms') ∧ out.length = 2 ^ width demo [5] ∧
    norm2 out = norm2 ((List.range (2 ^ width demo [5])).map (startAmp demo [5] [([0], [0, 0, 1, 0])])) := by
  have hd : ∀ q ∈ leaves demo [5], q ∉ (([([0], [0, 0, 1, 0])] : List (List Nat × List ℂ)).map (·.1)).flatten →
      DefaultOK demo q := demo_default
  obtain ⟨out, cl, ms', h1, h2, -⟩ := C35_run_computes_partial demo_circuit demo_ok demo_nomeasure demo_feed hd demoEnv_ok
  exact ⟨out, cl, ms', h1, h2, C37_norm_partial demo_circuit demo_ok demo_nomeasure demo_feed hd demoEnv_ok h1⟩

end QIP.Props
