import Verif.Props.RunMore

/-!
# C41: running a circuit again
-/

namespace QIP.Props

open QIP Spec Heap

/-- A run changes cached matrices only by adding those of gates it executed. -/
theorem run_cache {h : Heap} {V : Nat → Prop} {args : List Nat} (c : Ctx h V args) {ms ms' : MsTable}
    {feed : List (List Nat × InitState)} {strict : Bool} {state : Option StateKw} {e : Env}
    (he : ∀ l, (e.shuffle l).Perm l) {out : List ℂ} {cl : List (Nat × Classic)}
    (hrun : run h ms args feed strict state e.pick e.shuffle e.orc e.arena = .ok (out, cl, ms')) (y : Nat) :
    ms' y = ms y ∨ Reach h args y ∧ ∃ g d m, h.kind y = .gate g d ∧ ms y = none ∧
      g.feedMats d (groups h args y) = .ok m ∧ ms' y = some m := by
  obtain ⟨deps, -, hr⟩ := run_pre c e.pick e.shuffle he
  rw [hr] at hrun
  rcases hp : runPre h args feed strict state deps e.arena with err | b
  · rw [hp] at hrun; cases hrun
  · rw [hp] at hrun
    simp only [bind, Except.bind] at hrun
    rcases hfold : (needed h args).foldlM (fun a x => nodeFeed h e.orc a (groups h args x) (wires h args x) x)
      ⟨b, ms, []⟩ with err | st
    · rw [hfold] at hrun; cases hrun
    · rw [hfold] at hrun
      simp only [Except.ok.injEq, Prod.mk.injEq] at hrun
      obtain ⟨-, -, rfl⟩ := hrun
      rcases feedAll_ms _ hfold y with h1 | ⟨h1, h2⟩
      · exact Or.inl h1
      · exact Or.inr ⟨(mem_needed c.wf c.vargs).1 h1, h2⟩

theorem history_cache {h : Heap} {env args : List Nat} (c : Circuit h env args) {ms : MsTable}
    (hh : History h (fun args' => Circuit h env args' ∧
      ∀ x g d, h.kind x = .gate g d → Reach h args x → Reach h args' x → groups h args' x = groups h args x) ms) :
    CacheOK h args ms := by
  induction hh with
  | fresh => exact cache_fresh h args
  | run _ hP he hrun ih =>
    obtain ⟨c', hg⟩ := hP
    obtain ⟨V', c'⟩ := c'.ctx
    intro x g d hx hk m hm
    rcases run_cache c' he hrun x with h1 | ⟨h1, g', d', m', k1, -, k2, k3⟩
    · rw [h1] at hm
      exact ih x g d hx hk m hm
    · rw [hk] at k1
      cases k1
      rw [hm] at k3
      cases k3
      rw [← hg x g d hk hx h1]
      exact k2

/-- **C41**, partial: after any successful runs of the same outputs, or of other outputs in which the gates common to both
sit at the same indices, a run gives what it gives on a freshly built graph.  (The same outcome, exceptions included,
given the same random draws and schedules.) -/
theorem C41_rerun_partial {h : Heap} {env args : List Nat} (c : Circuit h env args) {ms : MsTable}
    (hh : History h (fun args' => Circuit h env args' ∧
      ∀ x g d, h.kind x = .gate g d → Reach h args x → Reach h args' x → groups h args' x = groups h args x) ms)
    (feed : List (List Nat × InitState)) (strict : Bool) (state : Option StateKw) (e : Env)
    (he : ∀ l, (e.shuffle l).Perm l) :
    (run h ms args feed strict state e.pick e.shuffle e.orc e.arena).map (fun r => (r.1, r.2.1))
      = (run h (fun _ => none) args feed strict state e.pick e.shuffle e.orc e.arena).map (fun r => (r.1, r.2.1)) := by
  have hc := history_cache c hh
  obtain ⟨V, c⟩ := c.ctx
  obtain ⟨deps, -, hr⟩ := run_pre c e.pick e.shuffle he
  rw [hr, hr]
  rcases runPre h args feed strict state deps e.arena with err | b
  · rfl
  · simp only [bind, Except.bind]
    have key := feedAll_cache (orc := e.orc) (needed h args) (fun x hx => (mem_needed c.wf c.vargs).1 hx) b ms (fun _ => none) []
      hc (cache_fresh h args)
    rcases h1 : (needed h args).foldlM (fun a x => nodeFeed h e.orc a (groups h args x) (wires h args x) x) ⟨b, ms, []⟩
      with e1 | s1 <;>
    rcases h2 : (needed h args).foldlM (fun a x => nodeFeed h e.orc a (groups h args x) (wires h args x) x)
      ⟨b, fun _ => none, []⟩ with e2 | s2 <;> rw [h1, h2] at key
    · cases key; rfl
    · cases key
    · cases key
    · simp only [Except.map, Except.ok.injEq, Prod.mk.injEq] at key ⊢
      exact ⟨by rw [key.1], key.2⟩

/-- Running the example twice. -/
example {out : List ℂ} {cl : List (Nat × Classic)} {ms : MsTable}
    (h1 : run demo (fun _ => none) [5] [] false none demoEnv.pick demoEnv.shuffle demoEnv.orc demoEnv.arena
      = .ok (out, cl, ms)) :
    (run demo ms [5] [] false none demoEnv.pick demoEnv.shuffle demoEnv.orc demoEnv.arena).map (fun r => (r.1, r.2.1))
      = .ok (out, cl) := by
  rw [C41_rerun_partial demo_circuit (.run .fresh ⟨demo_circuit, fun _ _ _ _ _ _ => rfl⟩ demoEnv_ok.shuffle h1), h1]
  · rfl
  · exact demoEnv_ok.shuffle

/-! ## The witness: `a = Qubit(); b = Qubit(); x = Not(b)`; `run(x)`, then `run(a, x)`. -/

def pairCmds : List Cmd := [.qubit [] none none, .qubit [] none none, .op (.gate .not) false [1]]

def pair : Heap := (runCmds pairCmds (empty, [])).1

theorem pair_built : Built pair [0, 1, 2] := by
  have e : (runCmds pairCmds (empty, [])).2 = [0, 1, 2] := rfl
  rw [← e]
  refine built_runCmds _ _ Built.start ?_
  simp only [pairCmds, cmdsOK, Cmd.args, and_true]
  refine ⟨by simp, by simp, ?_⟩
  change ∀ x ∈ [1], x ∈ [0, 1]; decide

theorem pair_facts : pair.inputs 0 = [] ∧ pair.inputs 1 = [] ∧ pair.inputs 2 = [1] ∧ pair.kind 0 = .qubit ∧
    pair.kind 1 = .qubit ∧ pair.kind 2 = .gate .not false ∧ pair.n 0 = 1 ∧ pair.n 1 = 1 ∧ pair.n 2 = 1 ∧
    pair.default 0 = none ∧ pair.default 1 = none := ⟨rfl, rfl, rfl, rfl, rfl, rfl, rfl, rfl, rfl, rfl, rfl⟩

theorem pair_circuit (args : List Nat) (ha : ∀ x ∈ args, x ∈ [0, 1, 2]) : Circuit pair [0, 1, 2] args := by
  obtain ⟨i0, i1, i2, k0, k1, k2, n0, n1, n2, -, -⟩ := pair_facts
  have hr : ∀ x, Reach pair args x → x ∈ [0, 1, 2] := fun x hx => reach_sub ha (by
    intro y hy
    simp only [List.mem_cons, List.not_mem_nil, or_false] at hy
    rcases hy with rfl | rfl | rfl <;> simp [*]) hx
  refine ⟨pair_built, ha, ?_, ?_⟩
  · intro x hx
    have := hr x hx
    simp only [List.mem_cons, List.not_mem_nil, or_false] at this
    rcases this with rfl | rfl | rfl <;> simp [SizeOK, *]
  · intro x hx is hk
    have := hr x hx
    simp only [List.mem_cons, List.not_mem_nil, or_false] at this
    rcases this with rfl | rfl | rfl <;> simp [*] at hk

theorem pair_reach2 (x : Nat) : Reach pair [2] x ↔ x ∈ [1, 2] := by
  obtain ⟨i0, i1, i2, -⟩ := pair_facts
  constructor
  · exact reach_sub (by simp) (by
      intro y hy
      simp only [List.mem_cons, List.not_mem_nil, or_false] at hy
      rcases hy with rfl | rfl <;> simp [*])
  · have h2 : Reach pair [2] 2 := .arg (by simp)
    have h1 : Reach pair [2] 1 := .input h2 (by simp [i2])
    intro hx
    simp only [List.mem_cons, List.not_mem_nil, or_false] at hx
    rcases hx with rfl | rfl <;> assumption

theorem pair_reach02 (x : Nat) : Reach pair [0, 2] x ↔ x ∈ [0, 1, 2] := by
  obtain ⟨i0, i1, i2, -⟩ := pair_facts
  constructor
  · exact reach_sub (by simp) (by
      intro y hy
      simp only [List.mem_cons, List.not_mem_nil, or_false] at hy
      rcases hy with rfl | rfl | rfl <;> simp [*])
  · have h2 : Reach pair [0, 2] 2 := .arg (by simp)
    have h1 : Reach pair [0, 2] 1 := .input h2 (by simp [i2])
    have h0 : Reach pair [0, 2] 0 := .arg (by simp)
    intro hx
    simp only [List.mem_cons, List.not_mem_nil, or_false] at hx
    rcases hx with rfl | rfl | rfl <;> assumption

theorem pair_wires2 : needed pair [2] = [1, 2] ∧ leaves pair [2] = [1] ∧ width pair [2] = 1 ∧
    wires pair [2] 1 = [0] ∧ groups pair [2] 2 = [[0]] := by
  obtain ⟨V, c⟩ := (pair_circuit [2] (by simp)).ctx
  obtain ⟨i0, i1, i2, k0, k1, k2, n0, n1, n2, -, -⟩ := pair_facts
  have h1 := needed_known c (by simp) pair_reach2
  have h2 : leaves pair [2] = [1] := by simp [leaves, h1, isLeaf, i1, i2]
  have h3 : wires pair [2] 1 = [0] := by rw [wires_leaf i1]; simp [offset, h2, n1]
  exact ⟨h1, h2, by simp [width, h2, n1], h3, by simp [groups, i2, h3]⟩

theorem pair_wires02 : needed pair [0, 2] = [0, 1, 2] ∧ leaves pair [0, 2] = [0, 1] ∧ width pair [0, 2] = 2 ∧
    wires pair [0, 2] 0 = [0] ∧ wires pair [0, 2] 1 = [1] ∧ groups pair [0, 2] 2 = [[1]] := by
  obtain ⟨V, c⟩ := (pair_circuit [0, 2] (by simp)).ctx
  obtain ⟨i0, i1, i2, k0, k1, k2, n0, n1, n2, -, -⟩ := pair_facts
  have h1 := needed_known c (by simp) pair_reach02
  have h2 : leaves pair [0, 2] = [0, 1] := by simp [leaves, h1, isLeaf, i0, i1, i2]
  have h3 : wires pair [0, 2] 0 = [0] := by rw [wires_leaf i0]; simp [offset, h2, n0]
  have h4 : wires pair [0, 2] 1 = [1] := by rw [wires_leaf i1]; simp [offset, h2, n0, n1]
  exact ⟨h1, h2, by simp [width, h2, n0, n1], h3, h4, by simp [groups, i2, h4]⟩

/-- Environment of the witness. -/
def pairEnv (n : Nat) : Env :=
  ⟨fun _ => 0, id, fun _ => ⟨List.range (2 ^ n), [], fun _ => 0, 0, 0⟩, List.replicate (2 ^ n) 0⟩

theorem startAmp_pair02 (r : Nat) (hr : r < 4) : startAmp pair [0, 2] [] r = if r = 0 then 1 else 0 := by
  obtain ⟨i0, i1, i2, k0, k1, k2, n0, n1, n2, d0, d1⟩ := pair_facts
  obtain ⟨w1, w2, w3, w4, w5, w6⟩ := pair_wires02
  have : r = 0 ∨ r = 1 ∨ r = 2 ∨ r = 3 := by omega
  rcases this with rfl | rfl | rfl | rfl <;>
    simp [startAmp, w2, w3, w4, w5, startVec, d0, d1, n0, n1, subIndex, qbit, bitsVal,
      show Nat.testBit 2 1 = true by decide]

/-- Matrices made for the groups `gs`, used in a run with `n` qubits. -/
theorem plain_feed {n : Nat} {g : Gate} {gs : List (List Nat)} (hfits : Fits g gs) (hgs : GroupsOK n gs)
    {m : List (Key × Mat ℂ)} (hm : g.feedMats false gs = .ok m) (b : BState) (sched : List Nat) (hb : b.n = n)
    (hfull : b.Full) (hs : sched.Perm (List.range (2 ^ b.n))) :
    ∃ out, b.kronselectDot m 0 0 sched = (.ok (), ⟨b.n, out, b.state⟩) ∧
      ∀ r < 2 ^ b.n, out.getD r 0 = gateApply n g gs b.amp r := by
  obtain ⟨mats, gm⟩ := gm_exists (n := n) g _ hfits hgs
  subst hb
  have h1 : g.apply false gs b.n b.state b.arena (.cython sched) = .ok (act b.n (opsOf mats) b.state) :=
    gate_apply_eq hgs gm hfull.state hfull.arena hs
  unfold Gate.apply at h1
  rw [hm] at h1
  simp only [bind, Except.bind] at h1
  refine ⟨act b.n (opsOf mats) b.state, ?_, ?_⟩
  · unfold BState.kronselectDot
    rw [h1]
  · intro r hr
    rw [getD_act _ b.state hr]
    exact gm.sem _ r hr

theorem pair_not (q : Nat) (hq : q < 2) (v : Nat → ℂ) (h0 : v 0 = 1) (h1 : v 1 = 0) (h2 : v 2 = 0) (h3 : v 3 = 0) :
    gateApply 2 .not [[q]] v 1 = if q = 1 then 1 else 0 := by
  have : q = 0 ∨ q = 1 := by omega
  rcases this with rfl | rfl
  · simp only [gateApply, List.flatten_cons, List.flatten_nil, List.append_nil, List.foldr_cons, List.foldr_nil, apply1,
      Finset.sum_filter, Finset.sum_range_succ, Finset.sum_range_zero, Nat.reducePow, h0, h1, h2, h3]
    simp [show ¬ AgreeOff 2 [0] 1 0 by decide]
  · simp only [gateApply, List.flatten_cons, List.flatten_nil, List.append_nil, List.foldr_cons, List.foldr_nil, apply1,
      Finset.sum_filter, Finset.sum_range_succ, Finset.sum_range_zero, Nat.reducePow, h0, h1, h2, h3]
    simp [show AgreeOff 2 [1] 1 0 by decide, qbit, gateU]

/-- **C41 is false of the code**: the matrices of a gate are cached with the qubit indices of the first run.  Running
`x`, then `a, x` applies the gate to the qubit of `a`. -/
theorem C41_not_rerunnable : ¬ ∀ (h : Heap) (env args args' : List Nat), Circuit h env args → Circuit h env args' →
    ∀ (e e' : Env) (ms : MsTable) (o : List ℂ) (cl : List (Nat × Classic)),
    (∀ l, (e.shuffle l).Perm l) → (∀ l, (e'.shuffle l).Perm l) →
    run h (fun _ => none) args [] false none e.pick e.shuffle e.orc e.arena = .ok (o, cl, ms) →
    (run h ms args' [] false none e'.pick e'.shuffle e'.orc e'.arena).map (fun r => r.1)
      = (run h (fun _ => none) args' [] false none e'.pick e'.shuffle e'.orc e'.arena).map (fun r => r.1) := by
  intro hall
  have c2 := pair_circuit [2] (by simp)
  have c02 := pair_circuit [0, 2] (by simp)
  obtain ⟨i0, i1, i2, k0, k1, k2, n0, n1, n2, d0, d1⟩ := pair_facts
  obtain ⟨w1, w2, w3, w4, w5⟩ := pair_wires2
  obtain ⟨u1, u2, u3, u4, u5, u6⟩ := pair_wires02
  have hf : ∀ args, FeedOK pair args [] := fun args => ⟨by simp, by simp, by simp⟩
  obtain ⟨V, x2⟩ := c2.ctx
  obtain ⟨V', x02⟩ := c02.ctx
  -- feeding the gate with matrices for qubit `q`
  have step : ∀ (n q : Nat) (m : List (Key × Mat ℂ)), q < n → Gate.feedMats .not false [[q]] = .ok m →
      ∀ (b : BState) (ms : MsTable) (cl : List (Nat × Classic)) (gs : List (List Nat)) (own : List Nat), b.n = n → b.Full →
        opMats (ms 2) .not false gs = .ok m →
        ∃ out, nodeFeed pair (pairEnv n).orc ⟨b, ms, cl⟩ gs own 2
          = .ok ⟨⟨n, out, b.state⟩, fun y => if y = 2 then some m else ms y, cl ++ [(2, .zero)]⟩ ∧
          ∀ r < 2 ^ n, out.getD r 0 = gateApply n .not [[q]] b.amp r := by
    intro n q m hq hm b ms cl gs own hb hfull hop
    obtain ⟨out, h1, h2⟩ := plain_feed (g := .not) (gs := [[q]]) (n := n) (by simp [Fits]) ⟨by simp, by simpa using hq⟩
      hm b (List.range (2 ^ n)) hb hfull (by rw [hb])
    refine ⟨out, ?_, by rw [← hb] at h2 ⊢; exact h2⟩
    unfold nodeFeed
    simp only [k2, hop, bind, Except.bind, pairEnv, h1]
    rw [hb]
  have hmat : ∀ q, ∃ m, Gate.feedMats .not false [[q]] = .ok m := by
    intro q
    obtain ⟨mats, gm⟩ := gm_exists (n := q + 1) .not [[q]] (by simp [Fits]) ⟨by simp, by simp⟩
    exact ⟨mats, by unfold Gate.feedMats; simp [gm.ok, bind, Except.bind, pure, Except.pure]⟩
  obtain ⟨m0, hm0⟩ := hmat 0
  obtain ⟨m1, hm1⟩ := hmat 1
  have full : ∀ args n, width pair args = n → (startState pair args [] (pairEnv n).arena).Full := by
    intro args n hn
    constructor <;> simp [startState, pairEnv, hn]
  -- first run
  have run1 : ∃ o cl ms, run pair (fun _ => none) [2] [] false none (pairEnv 1).pick (pairEnv 1).shuffle (pairEnv 1).orc
      (pairEnv 1).arena = .ok (o, cl, ms) ∧ ms 2 = some m0 := by
    have hr := run_spec x2 (hf [2]) (fun q _ _ => by
      rename_i hq _
      rw [w2] at hq
      simp at hq
      subst hq
      simp [DefaultOK, d1]) (fun _ => none) false (pairEnv 1).pick (pairEnv 1).shuffle (fun l => .refl _) (pairEnv 1).orc
      (pairEnv 1).arena (by simp)
    obtain ⟨out, h1, -⟩ := step 1 0 m0 (by norm_num) hm0 (startState pair [2] [] (pairEnv 1).arena) (fun _ => none)
      [(1, .zero)] [[0]] (wires pair [2] 2) w3 (full _ _ w3) hm0
    rw [w1] at hr
    simp only [List.foldlM_cons, List.foldlM_nil, bind, Except.bind] at hr
    rw [show nodeFeed pair (pairEnv 1).orc ⟨startState pair [2] [] (pairEnv 1).arena, fun _ => none, []⟩
      (groups pair [2] 1) (wires pair [2] 1) 1 = .ok ⟨startState pair [2] [] (pairEnv 1).arena, fun _ => none, [(1, .zero)]⟩ by
        unfold nodeFeed; simp [k1]] at hr
    simp only [w5, h1, pure, Except.pure] at hr
    exact ⟨_, _, _, hr, by simp⟩
  -- runs of both outputs, with a cache saying qubit `q`
  have run2 : ∀ (ms : MsTable) (q : Nat) (m : List (Key × Mat ℂ)), q < 2 → Gate.feedMats .not false [[q]] = .ok m →
      opMats (ms 2) .not false [[1]] = .ok m →
      ∃ o cl ms', run pair ms [0, 2] [] false none (pairEnv 2).pick (pairEnv 2).shuffle (pairEnv 2).orc
        (pairEnv 2).arena = .ok (o, cl, ms') ∧ o.getD 1 0 = if q = 1 then 1 else 0 := by
    intro ms q m hq hm hop
    have hr := run_spec x02 (hf [0, 2]) (fun p _ _ => by
      rename_i hp _
      rw [u2] at hp
      simp at hp
      rcases hp with rfl | rfl <;> simp [DefaultOK, d0, d1]) ms false (pairEnv 2).pick (pairEnv 2).shuffle
      (fun l => .refl _) (pairEnv 2).orc (pairEnv 2).arena (by simp)
    obtain ⟨out, h1, h2⟩ := step 2 q m hq hm (startState pair [0, 2] [] (pairEnv 2).arena) ms
      [(0, .zero), (1, .zero)] [[1]] (wires pair [0, 2] 2) u3 (full _ _ u3) hop
    rw [u1] at hr
    simp only [List.foldlM_cons, List.foldlM_nil, bind, Except.bind] at hr
    rw [show nodeFeed pair (pairEnv 2).orc ⟨startState pair [0, 2] [] (pairEnv 2).arena, ms, []⟩
      (groups pair [0, 2] 0) (wires pair [0, 2] 0) 0 = .ok ⟨startState pair [0, 2] [] (pairEnv 2).arena, ms, [(0, .zero)]⟩ by
        unfold nodeFeed; simp [k0]] at hr
    simp only at hr
    rw [show nodeFeed pair (pairEnv 2).orc ⟨startState pair [0, 2] [] (pairEnv 2).arena, ms, [(0, .zero)]⟩
      (groups pair [0, 2] 1) (wires pair [0, 2] 1) 1
        = .ok ⟨startState pair [0, 2] [] (pairEnv 2).arena, ms, [(0, .zero), (1, .zero)]⟩ by
        unfold nodeFeed; simp [k1]] at hr
    simp only [u6, h1, pure, Except.pure] at hr
    refine ⟨_, _, _, hr, ?_⟩
    rw [h2 1 (by norm_num)]
    have amp : ∀ r < 4, (startState pair [0, 2] [] (pairEnv 2).arena).amp r = if r = 0 then 1 else 0 := by
      intro r hr
      rw [← startAmp_pair02 r hr]
      simp [BState.amp, startState, u3, hr]
    apply pair_not q hq
    · simpa using amp 0 (by norm_num)
    · simpa using amp 1 (by norm_num)
    · simpa using amp 2 (by norm_num)
    · simpa using amp 3 (by norm_num)
  obtain ⟨o, cl, ms, r1, hms⟩ := run1
  obtain ⟨oa, cla, msa, ra, ha⟩ := run2 ms 0 m0 (by norm_num) hm0 (by rw [hms]; rfl)
  obtain ⟨ob, clb, msb, rb, hb⟩ := run2 (fun _ => none) 1 m1 (by norm_num) hm1 hm1
  have := hall pair [0, 1, 2] [2] [0, 2] c2 c02 (pairEnv 1) (pairEnv 2) ms o cl (fun l => .refl _) (fun l => .refl _) r1
  rw [ra, rb] at this
  simp only [Except.map, Except.ok.injEq] at this
  rw [this, hb] at ha
  simp at ha

end QIP.Props
