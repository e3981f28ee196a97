import Verif.Lemmas.Retry
import Verif.Props.Rerun

/-!
# C118: running a circuit again after a run that raised
-/

namespace QIP.Props

open QIP Spec Heap

/-! ## Reports -/

/-- The run whose remains are followed is `run`: the same state and values or the same exception, and after a success the
same matrices. -/
theorem C118_report {h : Heap} {env args : List Nat} (c : Circuit h env args) (ms : MsTable)
    (feed : List (List Nat × InitState)) (strict : Bool) (state : Option StateKw) (e : Env)
    (he : ∀ l, (e.shuffle l).Perm l) :
    (runKeep h ms args feed strict state e.pick e.shuffle e.orc e.arena).1
        = (run h ms args feed strict state e.pick e.shuffle e.orc e.arena).map (fun r => (r.1, r.2.1)) ∧
      ∀ out cl ms', run h ms args feed strict state e.pick e.shuffle e.orc e.arena = .ok (out, cl, ms') →
        (runKeep h ms args feed strict state e.pick e.shuffle e.orc e.arena).2 = ms' := by
  obtain ⟨V, c⟩ := c.ctx
  obtain ⟨deps, -, hr⟩ := runKeep_pre c e.pick e.shuffle he
  obtain ⟨h1, h2⟩ := hr ms feed strict state e.orc e.arena
  rw [h1, h2]
  rcases runPre h args feed strict state deps e.arena with err | b
  · exact ⟨rfl, fun _ _ _ h => by cases h⟩
  · simp only [bind, Except.bind]
    obtain ⟨k1, k2⟩ := keep_result h args e.orc (needed h args) ⟨b, ms, []⟩
    rw [k1]
    rcases hf : (needed h args).foldlM (fun a x => nodeFeed h e.orc a (groups h args x) (wires h args x) x) ⟨b, ms, []⟩
      with err | st
    · exact ⟨rfl, fun _ _ _ h => by cases h⟩
    · refine ⟨rfl, ?_⟩
      intro out cl ms' h
      simp only [Except.ok.injEq, Prod.mk.injEq] at h
      rw [k2 st hf]
      exact h.2.2

/-- A run that raised changes cached matrices only by adding those of gates it reached. -/
theorem keep_cache {h : Heap} {V : Nat → Prop} {args : List Nat} (c : Ctx h V args) (ms : MsTable)
    (feed : List (List Nat × InitState)) (strict : Bool) (state : Option StateKw) (e : Env)
    (he : ∀ l, (e.shuffle l).Perm l) (y : Nat) :
    (runKeep h ms args feed strict state e.pick e.shuffle e.orc e.arena).2 y = ms y ∨
      Reach h args y ∧ ms y = none ∧ ∃ g d, h.kind y = .gate g d ∧
        (runKeep h ms args feed strict state e.pick e.shuffle e.orc e.arena).2 y = msLeft none g d (groups h args y) := by
  obtain ⟨deps, -, hr⟩ := runKeep_pre c e.pick e.shuffle he
  rw [(hr ms feed strict state e.orc e.arena).2]
  rcases runPre h args feed strict state deps e.arena with err | b
  · exact .inl rfl
  · simp only
    rcases keep_left h args e.orc (needed h args) ⟨b, ms, []⟩ y with k | ⟨k1, k2⟩
    · exact .inl k
    · exact .inr ⟨(mem_needed c.wf c.vargs).1 k1, k2⟩

theorem tries_cache {h : Heap} {env args : List Nat} {ms : MsTable}
    (hsw : ∀ x, Reach h args x → inverseSwap h x = false)
    (hh : Tries h (fun args' => Circuit h env args' ∧
      ∀ x g d, h.kind x = .gate g d → Reach h args x → Reach h args' x → groups h args' x = groups h args x) ms) :
    CacheOK h args ms := by
  induction hh with
  | fresh => exact cache_fresh h args
  | run feed strict state e _ hP he ih =>
    obtain ⟨c', hg⟩ := hP
    obtain ⟨V', c'⟩ := c'.ctx
    intro x g d hx hk m hm
    rcases keep_cache c' _ feed strict state e he x with h1 | ⟨h1, -, g', d', k1, k2⟩
    · rw [h1] at hm
      exact ih x g d hx hk m hm
    · rw [hk] at k1
      cases k1
      rw [hm, hg x g d hk hx h1] at k2
      unfold msLeft at k2
      simp only at k2
      rcases hmk : g.makemats (groups h args x) with e | mats
      · rw [hmk] at k2; cases k2
      · have hns : d = true → hasSwap g = false := by
          rintro rfl
          simpa [inverseSwap, hk] using hsw x hx
        obtain ⟨m', hm'⟩ := feedMats_ok hns hmk
        rw [hmk, hm'] at k2
        cases k2
        exact hm'

/-- **C118**, partial: after any runs, also ones that raised, of the same outputs or of other outputs in which the gates
common to both sit at the same indices, a run gives what it gives on a freshly built graph: the same state and values, or
the same exception.  Missing: circuits with the inverse of a swap, for which it is false (`C118_retry`), and outputs with
other indices, for which it is false without exceptions (`C41_not_rerunnable`). -/
theorem C118_again_partial {h : Heap} {env args : List Nat} (c : Circuit h env args)
    (hsw : ∀ x, Reach h args x → inverseSwap h x = false) {ms : MsTable}
    (hh : Tries h (fun args' => Circuit h env args' ∧
      ∀ x g d, h.kind x = .gate g d → Reach h args x → Reach h args' x → groups h args' x = groups h args x) ms)
    (feed : List (List Nat × InitState)) (strict : Bool) (state : Option StateKw) (e : Env)
    (he : ∀ l, (e.shuffle l).Perm l) :
    (run h ms args feed strict state e.pick e.shuffle e.orc e.arena).map (fun r => (r.1, r.2.1))
      = (run h (fun _ => none) args feed strict state e.pick e.shuffle e.orc e.arena).map (fun r => (r.1, r.2.1)) := by
  have hc := tries_cache hsw hh
  obtain ⟨V, c⟩ := c.ctx
  obtain ⟨deps, -, hr⟩ := run_pre c e.pick e.shuffle he
  rw [hr, hr]
  rcases runPre h args feed strict state deps e.arena with err | b
  · rfl
  · simp only [bind, Except.bind]
    have key := feedAll_cache (orc := e.orc) (needed h args) (fun x hx => (mem_needed c.wf c.vargs).1 hx) b ms (fun _ => none) []
      hc (cache_fresh h args)
    rcases h1 : (needed h args).foldlM (fun a x => nodeFeed h e.orc a (groups h args x) (wires h args x) x) ⟨b, ms, []⟩
      with e1 | s1 <;>
    rcases h2 : (needed h args).foldlM (fun a x => nodeFeed h e.orc a (groups h args x) (wires h args x) x)
      ⟨b, fun _ => none, []⟩ with e2 | s2 <;> rw [h1, h2] at key
    · cases key; rfl
    · cases key
    · cases key
    · simp only [Except.map, Except.ok.injEq, Prod.mk.injEq] at key ⊢
      exact ⟨by rw [key.1], key.2⟩

theorem demo_noInverse : ∀ x, Reach demo [5] x → inverseSwap demo x = false := by
  obtain ⟨k0, k1, k2, k4, k5⟩ := demo_kind
  intro x hx
  rcases demo_reach hx with rfl | rfl | rfl | rfl | rfl <;> simp [inverseSwap, *]

/-- Feeding a state of the wrong size first (which raises) makes no difference to the example. -/
example (feed : List (List Nat × InitState)) :
    (run demo (runKeep demo (fun _ => none) [5] [([0], .vec [1])] false none demoEnv.pick demoEnv.shuffle demoEnv.orc
        demoEnv.arena).2 [5] feed false none demoEnv.pick demoEnv.shuffle demoEnv.orc demoEnv.arena).map
        (fun r => (r.1, r.2.1))
      = (run demo (fun _ => none) [5] feed false none demoEnv.pick demoEnv.shuffle demoEnv.orc demoEnv.arena).map
        (fun r => (r.1, r.2.1)) :=
  C118_again_partial demo_circuit demo_noInverse
    (.run _ _ _ demoEnv .fresh ⟨demo_circuit, fun _ _ _ _ _ _ => rfl⟩ demoEnv_ok.shuffle) _ _ _ _ demoEnv_ok.shuffle

/-! ## Inverses of swaps -/

/-- **C118 is false of the code**: in a circuit with `k` inverses of swaps, the first `k` runs raise an `AttributeError`,
and all later ones succeed, with the right result.  (`ms i` are the matrices left by the first `i` runs; every run may be
fed differently.) -/
theorem C118_retry {h : Heap} {env args : List Nat} (c : Circuit h env args)
    (hok : ∀ x, Reach h args x → TryOK h args x) (hm : ∀ x, Reach h args x → NoMeasure h args x)
    (feed : Nat → List (List Nat × List ℂ)) (hf : ∀ i, FeedOK h args (feed i))
    (hdef : ∀ i, ∀ q ∈ leaves h args, q ∉ ((feed i).map (·.1)).flatten → DefaultOK h q) (e : Nat → Env)
    (he : ∀ i, EnvOK h args (e i)) (ms : Nat → MsTable) (h0 : ms 0 = fun _ => none)
    (hs : ∀ i, ms (i + 1) = (runKeep h (ms i) args ((feed i).map asFeed) false none (e i).pick (e i).shuffle (e i).orc
      (e i).arena).2) (i : Nat) :
    (i < ((needed h args).filter (inverseSwap h)).length →
      run h (ms i) args ((feed i).map asFeed) false none (e i).pick (e i).shuffle (e i).orc (e i).arena
        = .error .attributeError) ∧
    (((needed h args).filter (inverseSwap h)).length ≤ i →
      ∃ out cl ms', run h (ms i) args ((feed i).map asFeed) false none (e i).pick (e i).shuffle (e i).orc (e i).arena
          = .ok (out, cl, ms') ∧ out.length = 2 ^ width h args ∧
        ∃ v : Nat → ℂ, (∀ r < 2 ^ width h args, v r = startAmp h args (feed i) r) ∧
          Steps (width h args) h args (needed h args) v (fun r => out.getD r 0) cl) := by
  obtain ⟨V, c⟩ := c.ctx
  have hL : ∀ x ∈ needed h args, Reach h args x ∧ TryOK h args x ∧ NoMeasure h args x := by
    intro x hx
    have := (mem_needed c.wf c.vargs).1 hx
    exact ⟨this, hok x this, hm x this⟩
  have hnd : (needed h args).Nodup := (needed_asc h args).imp fun h => Nat.ne_of_lt h
  have all := fun i (hc : CacheTry h args (ms i)) => try_all c (oracleOK (he i)) (needed h args) hnd hL
    (st := ⟨startState h args (feed i) (e i).arena, ms i, []⟩) rfl
    ⟨by simp [startState], by simp [startState, (he i).arena]⟩ hc
  have hrk : ∀ i, runKeep h (ms i) args ((feed i).map asFeed) false none (e i).pick (e i).shuffle (e i).orc (e i).arena
      = (((needed h args).foldl (keepStep h args (e i).orc) (.ok ⟨startState h args (feed i) (e i).arena, ms i, []⟩, ms i)).1.map
            (fun st => (st.state.state, st.classic)), ((needed h args).foldl (keepStep h args (e i).orc)
              (.ok ⟨startState h args (feed i) (e i).arena, ms i, []⟩, ms i)).2) := by
    intro i
    obtain ⟨deps, hperm, hr⟩ := runKeep_pre c (e i).pick (e i).shuffle (he i).shuffle
    rw [(hr _ _ _ _ _ _).2, runPre_start c (hf i) (hdef i) hperm]
  have inv : ∀ i, CacheTry h args (ms i) ∧
      (needed h args).filter (pending h (ms i)) = ((needed h args).filter (inverseSwap h)).drop i := by
    intro i
    induction i with
    | zero =>
      rw [h0]
      refine ⟨cacheTry_fresh h args, ?_⟩
      rw [List.drop_zero]
      apply List.filter_congr
      intro x _
      simp [pending]
    | succ i ih =>
      obtain ⟨a1, a2, -⟩ := all i ih.1
      rw [hs, hrk]
      refine ⟨a1, ?_⟩
      simp only at a2 ⊢
      rw [a2, ih.2, List.tail_drop]
  obtain ⟨hc, hp⟩ := inv i
  obtain ⟨-, -, a3, a4⟩ := all i hc
  rw [run_spec c (hf i) (hdef i) _ false (e i).pick (e i).shuffle (he i).shuffle (e i).orc (e i).arena (by simp)]
  obtain ⟨k1, -⟩ := keep_result h args (e i).orc (needed h args) ⟨startState h args (feed i) (e i).arena, ms i, []⟩
  simp only at a3 a4 k1
  rw [← k1]
  constructor
  · intro hi
    rw [a3 (by rw [hp]; intro h; have := congrArg List.length h; simp at this; omega)]
    rfl
  · intro hi
    obtain ⟨st, b1, b2, cs, b3, b4⟩ := a4 (by rw [hp]; exact List.drop_eq_nil_of_le hi)
    rw [b1]
    refine ⟨_, _, _, rfl, b2, _, fun r hr => ?_, by
      simp only [List.nil_append] at b3
      rw [b3]
      exact b4⟩
    simp [BState.amp, startState, hr]

/-! ## The witness: `a = Qubit(); b = Qubit(); x = Swap(a, b, inv=True)` -/

def backCmds : List Cmd := [.qubit [] none none, .qubit [] none none, .op (.gate (.swap 1)) true [0, 1]]

def back : Heap := (runCmds backCmds (empty, [])).1

theorem back_built : Built back [0, 1, 2] := by
  have e : (runCmds backCmds (empty, [])).2 = [0, 1, 2] := rfl
  rw [← e]
  refine built_runCmds _ _ Built.start ?_
  simp only [backCmds, cmdsOK, Cmd.args, and_true]
  refine ⟨by simp, by simp, ?_⟩
  change ∀ x ∈ [0, 1], x ∈ [0, 1]; decide

theorem back_facts : back.inputs 0 = [] ∧ back.inputs 1 = [] ∧ back.inputs 2 = [0, 1] ∧ back.kind 0 = .qubit ∧
    back.kind 1 = .qubit ∧ back.kind 2 = .gate (.swap 1) true ∧ back.n 0 = 1 ∧ back.n 1 = 1 ∧ back.n 2 = 2 ∧
    back.default 0 = none ∧ back.default 1 = none := ⟨rfl, rfl, rfl, rfl, rfl, rfl, rfl, rfl, rfl, rfl, rfl⟩

theorem back_reach (x : Nat) : Reach back [2] x ↔ x ∈ [0, 1, 2] := by
  obtain ⟨i0, i1, i2, -⟩ := back_facts
  constructor
  · exact reach_sub (by simp) (by
      intro y hy
      simp only [List.mem_cons, List.not_mem_nil, or_false] at hy
      rcases hy with rfl | rfl | rfl <;> simp [*])
  · have h2 : Reach back [2] 2 := .arg (by simp)
    have h1 : Reach back [2] 1 := .input h2 (by simp [i2])
    have h0 : Reach back [2] 0 := .input h2 (by simp [i2])
    intro hx
    simp only [List.mem_cons, List.not_mem_nil, or_false] at hx
    rcases hx with rfl | rfl | rfl <;> assumption

theorem back_circuit : Circuit back [0, 1, 2] [2] := by
  obtain ⟨i0, i1, i2, k0, k1, k2, n0, n1, n2, -, -⟩ := back_facts
  refine ⟨back_built, by simp, ?_, ?_⟩
  · intro x hx
    have := (back_reach x).1 hx
    simp only [List.mem_cons, List.not_mem_nil, or_false] at this
    rcases this with rfl | rfl | rfl <;> simp [SizeOK, *]
  · intro x hx is hk
    have := (back_reach x).1 hx
    simp only [List.mem_cons, List.not_mem_nil, or_false] at this
    rcases this with rfl | rfl | rfl <;> simp [*] at hk

theorem back_wires : needed back [2] = [0, 1, 2] ∧ leaves back [2] = [0, 1] ∧ width back [2] = 2 ∧
    groups back [2] 2 = [[0], [1]] := by
  obtain ⟨V, c⟩ := back_circuit.ctx
  obtain ⟨i0, i1, i2, k0, k1, k2, n0, n1, n2, -, -⟩ := back_facts
  have h1 := needed_known c (by simp) back_reach
  have h2 : leaves back [2] = [0, 1] := by simp [leaves, h1, isLeaf, i0, i1, i2]
  have h3 : wires back [2] 0 = [0] := by rw [wires_leaf i0]; simp [offset, h2, n0]
  have h4 : wires back [2] 1 = [1] := by rw [wires_leaf i1]; simp [offset, h2, n0, n1]
  exact ⟨h1, h2, by simp [width, h2, n0, n1], by simp [groups, i2, h3, h4]⟩

theorem back_try : ∀ x, Reach back [2] x → TryOK back [2] x := by
  obtain ⟨i0, i1, i2, k0, k1, k2, -⟩ := back_facts
  obtain ⟨w1, w2, w3, w4⟩ := back_wires
  intro x hx
  have := (back_reach x).1 hx
  simp only [List.mem_cons, List.not_mem_nil, or_false] at this
  refine ⟨?_, ?_, ?_⟩
  · rcases this with rfl | rfl | rfl
    · simp [groups, i0]
    · simp [groups, i1]
    · simp [w4]
  · intro g d hk
    rcases this with rfl | rfl | rfl <;> simp [*] at hk ⊢
  · intro f hk
    rcases this with rfl | rfl | rfl <;> simp [*] at hk

/-- Environment of the witness. -/
noncomputable def backEnv : Env :=
  ⟨fun _ => 0, id, fun x => ⟨List.range (2 ^ width back [2]), faCounters (width back [2]) ((groups back [2] x).getD 0 [])
    ((groups back [2] x).getD 1 []), fun _ => 0, 0, 0⟩, List.replicate (2 ^ width back [2]) 0⟩

theorem back_env : EnvOK back [2] backEnv :=
  ⟨fun _ => .refl _, fun _ => .refl _, fun _ => .refl _, by simp [backEnv]⟩

/-- The witness: the first run of the inverse of a swap raises, the second one succeeds. -/
theorem back_twice : run back (fun _ => none) [2] [] false none backEnv.pick backEnv.shuffle backEnv.orc
      backEnv.arena = .error .attributeError ∧
    ∃ out cl ms', run back (runKeep back (fun _ => none) [2] [] false none backEnv.pick backEnv.shuffle backEnv.orc
      backEnv.arena).2 [2] [] false none backEnv.pick backEnv.shuffle backEnv.orc backEnv.arena
        = .ok (out, cl, ms') := by
  obtain ⟨i0, i1, i2, k0, k1, k2, n0, n1, n2, d0, d1⟩ := back_facts
  obtain ⟨w1, w2, w3, w4⟩ := back_wires
  let ms : Nat → MsTable := fun i => Nat.rec (fun _ => none) (fun _ t => (runKeep back t [2] [] false none backEnv.pick
    backEnv.shuffle backEnv.orc backEnv.arena).2) i
  have key := C118_retry back_circuit back_try
    (fun x hx => by
      have := (back_reach x).1 hx
      simp only [List.mem_cons, List.not_mem_nil, or_false] at this
      unfold NoMeasure
      rcases this with rfl | rfl | rfl <;> simp [*])
    (fun _ => []) (fun _ => ⟨by simp, by simp, by simp⟩)
    (fun _ q hq _ => by
      rw [w2] at hq
      simp only [List.mem_cons, List.not_mem_nil, or_false] at hq
      rcases hq with rfl | rfl <;> simp [DefaultOK, *])
    (fun _ => backEnv) (fun _ => back_env) ms rfl (fun _ => rfl)
  have hl : ((needed back [2]).filter (inverseSwap back)).length = 1 := by
    rw [w1]
    simp [inverseSwap, k0, k1, k2, hasSwap]
  refine ⟨(key 0).1 (by omega), ?_⟩
  obtain ⟨out, cl, ms', h1, -⟩ := (key 1).2 (by omega)
  exact ⟨out, cl, ms', h1⟩

/-- **C118 is false of the code**: `run(x)` raises on a freshly built graph, but not if it was tried before. -/
theorem C118_not_repeatable : ¬ ∀ (h : Heap) (env args : List Nat), Circuit h env args → ∀ (e : Env),
    (∀ l, (e.shuffle l).Perm l) →
    (run h (runKeep h (fun _ => none) args [] false none e.pick e.shuffle e.orc e.arena).2 args [] false none e.pick e.shuffle
        e.orc e.arena).map (fun r => r.1)
      = (run h (fun _ => none) args [] false none e.pick e.shuffle e.orc e.arena).map (fun r => r.1) := by
  intro hall
  obtain ⟨h1, out, cl, ms', h2⟩ := back_twice
  have := hall back _ [2] back_circuit backEnv back_env.shuffle
  rw [h1, h2] at this
  cases this

end QIP.Props
