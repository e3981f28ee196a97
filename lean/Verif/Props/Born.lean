import Verif.Lemmas.Born
import Verif.Lemmas.Dft
import Verif.Props.Rerun

/-!
# The measurements of a run: C85
-/

namespace QIP.Props

open QIP Spec Heap Finset MeasureTheory

section
variable {h : Heap} {env args : List Nat} {feed : List (List Nat × List ℂ)} {e : Env}

theorem withDraws_ok (he : EnvOK h args e) (M : Finset Nat) (u : M → ℝ) : EnvOK h args (withDraws e M u) := by
  refine ⟨he.shuffle, fun x => ?_, fun x => ?_, he.arena⟩
  · unfold withDraws; dsimp only; split <;> exact he.sched x
  · unfold withDraws; dsimp only; split <;> exact he.faOrder x

theorem withDraws_u (M : Finset Nat) (u : M → ℝ) (x : M) : ((withDraws e M u).orc x).u = u x := by
  unfold withDraws
  simp [x.2]

theorem withDraws_garbage (hg : ∀ x, (e.orc x).garbage = 0) (M : Finset Nat) (u : M → ℝ) (x : Nat) :
    ((withDraws e M u).orc x).garbage = 0 := by
  unfold withDraws; dsimp only; split <;> exact hg x

theorem needed_usable (c : Circuit h env args) (hok : ∀ x, Reach h args x → NodeOK h args x)
    (hm : ∀ x, Reach h args x → h.kind x = .measure ∨ NoMeasure h args x) : Usable h args (needed h args) := by
  obtain ⟨V, c⟩ := c.ctx
  intro x hx
  have := (mem_needed c.wf c.vargs).1 hx
  exact ⟨this, hok x this, hm x this⟩

theorem start_scale (arena : List ℂ) : ∀ r < 2 ^ width h args, (startState h args feed arena).amp r
    = ((1 : ℝ) : ℂ) * startAmp h args feed r := by
  intro r hr
  simp [BState.amp, startState, hr]

/-- The draws giving the outcomes `o` are a box, up to its faces. -/
theorem draws_box (c : Circuit h env args) (hok : ∀ x, Reach h args x → NodeOK h args x)
    (hm : ∀ x, Reach h args x → h.kind x = .measure ∨ NoMeasure h args x) (hf : FeedOK h args feed)
    (hdef : ∀ q ∈ leaves h args, q ∉ (feed.map (·.1)).flatten → DefaultOK h q) (he : EnvOK h args e)
    (hg : ∀ x, (e.orc x).garbage = 0) (hT : 0 < totalProb (width h args) (startAmp h args feed)) (o : Nat → Nat)
    (ho : ∀ x ∈ measures h args, o x < 2 ^ (groups h args x).flatten.length) :
    ∃ lo hi : measures h args → ℝ, (Set.univ.pi fun x => Set.Ioo (lo x) (hi x)) ⊆ drawsOf h args feed e o ∧
      drawsOf h args feed e o ⊆ Set.Icc lo hi ∧
      ∏ x, ENNReal.ofReal (hi x - lo x) = ENNReal.ofReal (jointProb h args feed o) := by
  classical
  have hU := needed_usable c hok hm
  obtain ⟨V, c⟩ := c.ctx
  have hnd : (needed h args).Nodup := (needed_asc h args).imp fun h => Nat.ne_of_lt h
  set w := startAmp h args feed with hw
  set lo : measures h args → ℝ := fun x => (bounds (width h args) h args o (needed h args) w x).1 with hlo
  set hi : measures h args → ℝ := fun x => (bounds (width h args) h args o (needed h args) w x).2 with hhi
  have hrun : ∀ u : measures h args → ℝ, QIP.run h (fun _ => none) args (feed.map asFeed) false none e.pick e.shuffle
      (withDraws e (measures h args) u).orc e.arena = (do
      let acc ← (needed h args).foldlM (fun a x => nodeFeed h (withDraws e (measures h args) u).orc a (groups h args x)
        (wires h args x) x) ⟨startState h args feed e.arena, fun _ => none, []⟩
      .ok (acc.state.state, acc.classic, acc.ms)) :=
    fun u => run_spec c hf hdef _ false e.pick e.shuffle he.shuffle _ e.arena (by simp)
  have sub1 : drawsOf h args feed e o ⊆ Set.Icc lo hi := by
    rintro u ⟨hu, out, cl, ms, hr, hcl⟩
    rw [hrun u] at hr
    rcases hfold : (needed h args).foldlM (fun a x => nodeFeed h (withDraws e (measures h args) u).orc a (groups h args x)
        (wires h args x) x) ⟨startState h args feed e.arena, fun _ => none, []⟩ with err | st
    · rw [hfold] at hr; cases hr
    · rw [hfold] at hr
      simp only [bind, Except.bind, Except.ok.injEq, Prod.mk.injEq] at hr
      obtain ⟨-, rfl, -⟩ := hr
      obtain ⟨k1, -⟩ := fold_draws c o (oracleOK (withDraws_ok he _ u)) (withDraws_garbage hg _ u) (needed h args) hnd hU
        (by
          intro x hx hkx
          have := withDraws_u (e := e) (measures h args) u ⟨x, mem_measures.2 ⟨hx, hkx⟩⟩
          simp only at this
          rw [this]
          exact hu _)
        (feederOK_start (withDraws_ok he _ u) feed (cache_fresh h args)) one_pos (start_scale e.arena) hT (by simp) hfold
        (fun x hx hkx => hcl x (mem_measures.2 ⟨hx, hkx⟩))
      refine ⟨fun x => ?_, fun x => ?_⟩
      · have := (k1 x (mem_measures.1 x.2).1 (mem_measures.1 x.2).2).1
        rwa [withDraws_u] at this
      · have := (k1 x (mem_measures.1 x.2).1 (mem_measures.1 x.2).2).2
        rwa [withDraws_u] at this
  have sub2 : (Set.univ.pi fun x => Set.Ioo (lo x) (hi x)) ⊆ drawsOf h args feed e o := by
    intro u hu
    obtain ⟨k0, st, k1, k2⟩ := draws_fold c o (oracleOK (withDraws_ok he _ u)) (withDraws_garbage hg _ u) (needed h args) hnd hU
      (fun x hx hkx => ho x (mem_measures.2 ⟨hx, hkx⟩))
      (feederOK_start (withDraws_ok he _ u) feed (cache_fresh h args)) one_pos (start_scale e.arena) hT (by
        intro x hx hkx
        have := withDraws_u (e := e) (measures h args) u ⟨x, mem_measures.2 ⟨hx, hkx⟩⟩
        simp only at this
        rw [this]
        exact hu ⟨x, mem_measures.2 ⟨hx, hkx⟩⟩ trivial)
    refine ⟨fun x => ?_, st.state.state, st.classic, st.ms, ?_, ?_⟩
    · have := k0 x (mem_measures.1 x.2).1 (mem_measures.1 x.2).2
      rwa [withDraws_u] at this
    · rw [hrun u]
      change (do let acc ← _; _ : Except PyErr _) = _
      have k1' : (needed h args).foldlM (fun a x => nodeFeed h (withDraws e (measures h args) u).orc a (groups h args x)
        (wires h args x) x) ⟨startState h args feed e.arena, fun _ => none, []⟩ = .ok st := k1
      rw [k1']
      rfl
    · intro x hx
      exact k2 x (mem_measures.1 hx).1 (mem_measures.1 hx).2
  have hprod : ∏ x, (hi x - lo x) = jointProb h args feed o := by
    have := bounds_prod c o (needed h args) hnd hU hT
    unfold jointProb
    rw [← hw, ← this, Finset.univ_eq_attach,
      Finset.prod_attach (measures h args) fun x => (bounds (width h args) h args o (needed h args) w x).2
        - (bounds (width h args) h args o (needed h args) w x).1]
    have hms : measures h args = ((needed h args).filter fun x => h.kind x = .measure).toFinset := by
      ext x
      rw [mem_measures, List.mem_toFinset, List.mem_filter, decide_eq_true_eq]
    rw [hms, List.prod_toFinset _ (hnd.filter _)]
  have hvol : ∏ x, ENNReal.ofReal (hi x - lo x) = ENNReal.ofReal (jointProb h args feed o) := by
    rw [← hprod, ENNReal.ofReal_prod_of_nonneg]
    intro x _
    exact sub_nonneg.2 (bounds_le o (needed h args) _ w x)
  exact ⟨lo, hi, sub2, sub1, hvol⟩

/-- **C85**: the measurements of a run, all together, follow Born's rule: in any circuit, with any number of measurements
anywhere between other operations, the draws (independent and uniform in `[0, 1)`) with which the run succeeds and every
measurement `x` reports `o x` have as their volume the squared norm of the state projected on these outcomes one after the
other, divided by that of the initial state.  Partial: as `C35_run_computes_partial`, and the uninitialised accumulators
happen to be 0 (C27). -/
theorem C85_joint_partial (c : Circuit h env args) (hok : ∀ x, Reach h args x → NodeOK h args x)
    (hm : ∀ x, Reach h args x → h.kind x = .measure ∨ NoMeasure h args x) (hf : FeedOK h args feed)
    (hdef : ∀ q ∈ leaves h args, q ∉ (feed.map (·.1)).flatten → DefaultOK h q) (he : EnvOK h args e)
    (hg : ∀ x, (e.orc x).garbage = 0) (hT : 0 < totalProb (width h args) (startAmp h args feed)) (o : Nat → Nat)
    (ho : ∀ x ∈ measures h args, o x < 2 ^ (groups h args x).flatten.length) :
    volume (drawsOf h args feed e o) = ENNReal.ofReal (jointProb h args feed o) := by
  obtain ⟨lo, hi, sub2, sub1, hvol⟩ := draws_box c hok hm hf hdef he hg hT o ho
  apply le_antisymm
  · rw [← hvol, ← Real.volume_Icc_pi]
    exact measure_mono sub1
  · rw [← hvol, ← Real.volume_pi_Ioo]
    exact measure_mono sub2

theorem draws_null (c : Circuit h env args) (hok : ∀ x, Reach h args x → NodeOK h args x)
    (hm : ∀ x, Reach h args x → h.kind x = .measure ∨ NoMeasure h args x) (hf : FeedOK h args feed)
    (hdef : ∀ q ∈ leaves h args, q ∉ (feed.map (·.1)).flatten → DefaultOK h q) (he : EnvOK h args e)
    (hg : ∀ x, (e.orc x).garbage = 0) (hT : 0 < totalProb (width h args) (startAmp h args feed)) (o : Nat → Nat)
    (ho : ∀ x ∈ measures h args, o x < 2 ^ (groups h args x).flatten.length) :
    NullMeasurableSet (drawsOf h args feed e o) := by
  obtain ⟨lo, hi, sub2, sub1, hvol⟩ := draws_box c hok hm hf hdef he hg hT o ho
  have hI : MeasurableSet (Set.univ.pi fun x => Set.Ioo (lo x) (hi x)) :=
    MeasurableSet.univ_pi fun x => measurableSet_Ioo
  have hv : volume (drawsOf h args feed e o) ≤ volume (Set.univ.pi fun x => Set.Ioo (lo x) (hi x)) := by
    rw [Real.volume_pi_Ioo, ← Real.volume_Icc_pi]
    exact measure_mono sub1
  have hfin : volume (drawsOf h args feed e o) ≠ ⊤ := by
    rw [C85_joint_partial c hok hm hf hdef he hg hT o ho]
    exact ENNReal.ofReal_ne_top
  exact hI.nullMeasurableSet.congr (ae_eq_of_subset_of_measure_ge sub2 hv hI.nullMeasurableSet hfin)

/-- **C85**: with draws strictly between 0 and 1 the run succeeds, whatever is measured. -/
theorem C85_succeeds_partial (c : Circuit h env args) (hok : ∀ x, Reach h args x → NodeOK h args x)
    (hm : ∀ x, Reach h args x → h.kind x = .measure ∨ NoMeasure h args x) (hf : FeedOK h args feed)
    (hdef : ∀ q ∈ leaves h args, q ∉ (feed.map (·.1)).flatten → DefaultOK h q) (he : EnvOK h args e)
    (hg : ∀ x, (e.orc x).garbage = 0) (hT : 0 < totalProb (width h args) (startAmp h args feed))
    (hu : ∀ x, 0 < (e.orc x).u ∧ (e.orc x).u < 1) :
    ∃ out cl ms, QIP.run h (fun _ => none) args (feed.map asFeed) false none e.pick e.shuffle e.orc e.arena
      = .ok (out, cl, ms) := by
  have hU := needed_usable c hok hm
  obtain ⟨V, c⟩ := c.ctx
  obtain ⟨st, hst⟩ := fold_succeeds c (oracleOK he) hg (needed h args) hU (fun x _ _ => hu x)
    (feederOK_start he feed (cache_fresh h args)) (by
      rw [totalProb_scale (start_scale e.arena)]; simpa using hT)
  refine ⟨st.state.state, st.classic, st.ms, ?_⟩
  rw [run_spec c hf hdef _ false e.pick e.shuffle he.shuffle e.orc e.arena (by simp), hst]
  rfl

/-- **C85**, the state: a run that starts from a state of norm 1 and in which every measurement `x` reports `o x` returns
the state projected on these outcomes one after the other, normalised. -/
theorem C85_state_partial (c : Circuit h env args) (hok : ∀ x, Reach h args x → NodeOK h args x)
    (hm : ∀ x, Reach h args x → h.kind x = .measure ∨ NoMeasure h args x) (hf : FeedOK h args feed)
    (hdef : ∀ q ∈ leaves h args, q ∉ (feed.map (·.1)).flatten → DefaultOK h q) (he : EnvOK h args e)
    (hg : ∀ x, (e.orc x).garbage = 0) (hT : totalProb (width h args) (startAmp h args feed) = 1)
    (hu : ∀ x, 0 ≤ (e.orc x).u ∧ (e.orc x).u < 1) {o : Nat → Nat} {out : List ℂ} {cl : List (Nat × Classic)} {ms : MsTable}
    (hrun : QIP.run h (fun _ => none) args (feed.map asFeed) false none e.pick e.shuffle e.orc e.arena = .ok (out, cl, ms))
    (hout : ∀ x ∈ measures h args, ∃ p, (x, Classic.bits (o x) p) ∈ cl) :
    0 < jointProb h args feed o ∧ ∀ r < 2 ^ width h args, out.getD r 0
      = branch (width h args) h args o (needed h args) (startAmp h args feed) r / (√(jointProb h args feed o) : ℝ) := by
  have hU := needed_usable c hok hm
  obtain ⟨V, c⟩ := c.ctx
  have hnd : (needed h args).Nodup := (needed_asc h args).imp fun h => Nat.ne_of_lt h
  rw [run_spec c hf hdef _ false e.pick e.shuffle he.shuffle e.orc e.arena (by simp)] at hrun
  have hst := feederOK_start he feed (cache_fresh h args)
  rcases hfold : (needed h args).foldlM (fun a x => nodeFeed h e.orc a (groups h args x) (wires h args x) x)
    ⟨startState h args feed e.arena, fun _ => none, []⟩ with err | st
  · rw [hfold] at hrun; cases hrun
  · rw [hfold] at hrun
    simp only [bind, Except.bind, Except.ok.injEq, Prod.mk.injEq] at hrun
    obtain ⟨rfl, rfl, rfl⟩ := hrun
    obtain ⟨-, k2, a, ha, k3⟩ := fold_draws c o (oracleOK he) hg (needed h args) hnd hU (fun x _ _ => hu x)
      hst one_pos (start_scale e.arena) (by rw [hT]; exact one_pos) (by simp) hfold
      (fun x hx hkx => hout x (mem_measures.2 ⟨hx, hkx⟩))
    have k4 := fold_total c (oracleOK he) (needed h args) hU hst (by
      rw [totalProb_scale (start_scale e.arena), hT]; simp) hfold
    rw [totalProb_scale k3] at k4
    have hj : jointProb h args feed o
        = totalProb (width h args) (branch (width h args) h args o (needed h args) (startAmp h args feed)) := by
      unfold jointProb
      rw [hT, div_one]
    rw [hj]
    refine ⟨k2, ?_⟩
    intro r hr
    have e1 : st.state.state.getD r 0 = st.state.amp r := rfl
    rw [e1, k3 r hr]
    set T := totalProb (width h args) (branch (width h args) h args o (needed h args) (startAmp h args feed))
    have hs : √T ≠ 0 := (Real.sqrt_pos.2 k2).ne'
    have hae : a = 1 / √T := by
      have h1 : (a * √T) ^ 2 = 1 := by rw [mul_pow, Real.sq_sqrt k2.le]; exact k4
      have h2 : a * √T = 1 := by
        have : 0 < a * √T := by positivity
        nlinarith [sq_nonneg (a * √T - 1), sq_nonneg (a * √T + 1)]
      rw [eq_div_iff hs, h2]
    rw [hae]
    push_cast
    ring

end

/-! ## Example: `q = Qubit(); m1 = Measure(H(q)); m2 = Measure(H(m1))` -/

def coinCmds : List Cmd := [.qubit [] none none, .op (.gate .h) false [0], .measure [1], .op (.gate .h) false [2], .measure [3]]

def coins : Heap := (runCmds coinCmds (Heap.empty, [])).1

theorem coins_facts : coins.inputs 0 = [] ∧ coins.inputs 1 = [0] ∧ coins.inputs 2 = [1] ∧ coins.inputs 3 = [2] ∧
    coins.inputs 4 = [3] ∧ coins.kind 0 = .qubit ∧ coins.kind 1 = .gate .h false ∧ coins.kind 2 = .measure ∧
    coins.kind 3 = .gate .h false ∧ coins.kind 4 = .measure ∧ coins.n 0 = 1 ∧ coins.n 1 = 1 ∧ coins.n 2 = 1 ∧
    coins.n 3 = 1 ∧ coins.n 4 = 1 ∧ coins.default 0 = none :=
  ⟨rfl, rfl, rfl, rfl, rfl, rfl, rfl, rfl, rfl, rfl, rfl, rfl, rfl, rfl, rfl, rfl⟩

theorem coins_built : Built coins [0, 1, 2, 3, 4] := by
  have e : (runCmds coinCmds (Heap.empty, [])).2 = [0, 1, 2, 3, 4] := rfl
  rw [← e]
  refine built_runCmds _ _ Built.start ?_
  simp only [coinCmds, cmdsOK, Cmd.args, and_true]
  refine ⟨by simp, ?_, ?_, ?_, ?_⟩
  · change ∀ x ∈ [0], x ∈ [0]; decide
  · change ∀ x ∈ [1], x ∈ [0, 1]; decide
  · change ∀ x ∈ [2], x ∈ [0, 1, 2]; decide
  · change ∀ x ∈ [3], x ∈ [0, 1, 2, 3]; decide

theorem coins_reach (x : Nat) : Reach coins [4] x ↔ x ∈ [0, 1, 2, 3, 4] := by
  obtain ⟨i0, i1, i2, i3, i4, -⟩ := coins_facts
  constructor
  · exact reach_sub (by simp) (by
      intro y hy
      simp only [List.mem_cons, List.not_mem_nil, or_false] at hy
      rcases hy with rfl | rfl | rfl | rfl | rfl <;> simp [*])
  · have h4 : Reach coins [4] 4 := .arg (by simp)
    have h3 : Reach coins [4] 3 := .input h4 (by simp [i4])
    have h2 : Reach coins [4] 2 := .input h3 (by simp [i3])
    have h1 : Reach coins [4] 1 := .input h2 (by simp [i2])
    have h0 : Reach coins [4] 0 := .input h1 (by simp [i1])
    intro hx
    simp only [List.mem_cons, List.not_mem_nil, or_false] at hx
    rcases hx with rfl | rfl | rfl | rfl | rfl <;> assumption

theorem coins_circuit : Circuit coins [0, 1, 2, 3, 4] [4] := by
  obtain ⟨i0, i1, i2, i3, i4, k0, k1, k2, k3, k4, n0, n1, n2, n3, n4, -⟩ := coins_facts
  refine ⟨coins_built, by simp, ?_, ?_⟩
  · intro x hx
    have := (coins_reach x).1 hx
    simp only [List.mem_cons, List.not_mem_nil, or_false] at this
    rcases this with rfl | rfl | rfl | rfl | rfl <;> simp [SizeOK, *]
  · intro x hx is hk
    have := (coins_reach x).1 hx
    simp only [List.mem_cons, List.not_mem_nil, or_false] at this
    rcases this with rfl | rfl | rfl | rfl | rfl <;> simp [*] at hk

theorem coins_wires : needed coins [4] = [0, 1, 2, 3, 4] ∧ leaves coins [4] = [0] ∧ width coins [4] = 1 ∧
    groups coins [4] 0 = [] ∧ groups coins [4] 1 = [[0]] ∧ groups coins [4] 2 = [[0]] ∧ groups coins [4] 3 = [[0]] ∧
    groups coins [4] 4 = [[0]] ∧ wires coins [4] 0 = [0] := by
  obtain ⟨V, c⟩ := coins_circuit.ctx
  obtain ⟨i0, i1, i2, i3, i4, k0, k1, k2, k3, k4, n0, n1, n2, n3, n4, -⟩ := coins_facts
  have h1 := needed_known c (by simp) coins_reach
  have h2 : leaves coins [4] = [0] := by simp [leaves, h1, isLeaf, i0, i1, i2, i3, i4]
  have w0 : wires coins [4] 0 = [0] := by rw [wires_leaf i0]; simp [offset, h2, n0]
  have hil : ∀ x ∈ [0, 1, 2, 3, 4], ∀ y ∈ coins.inputs x, y < x := fun x hx => c.ilt ((coins_reach x).2 hx)
  have w1 : wires coins [4] 1 = [0] := by rw [wires_node (by simp [i1]) (hil 1 (by simp)), k1]; simp [groups, i1, w0]
  have w2 : wires coins [4] 2 = [0] := by rw [wires_node (by simp [i2]) (hil 2 (by simp)), k2]; simp [groups, i2, w1]
  have w3 : wires coins [4] 3 = [0] := by rw [wires_node (by simp [i3]) (hil 3 (by simp)), k3]; simp [groups, i3, w2]
  exact ⟨h1, h2, by simp [width, h2, n0], by simp [groups, i0], by simp [groups, i1, w0], by simp [groups, i2, w1],
    by simp [groups, i3, w2], by simp [groups, i4, w3], w0⟩

theorem coins_ok : ∀ x, Reach coins [4] x → NodeOK coins [4] x := by
  obtain ⟨i0, i1, i2, i3, i4, k0, k1, k2, k3, k4, -⟩ := coins_facts
  obtain ⟨-, -, -, g0, g1, g2, g3, g4, -⟩ := coins_wires
  intro x hx
  have := (coins_reach x).1 hx
  simp only [List.mem_cons, List.not_mem_nil, or_false] at this
  refine ⟨?_, ?_, ?_⟩
  · rcases this with rfl | rfl | rfl | rfl | rfl <;> simp [*]
  · intro g d hk
    rcases this with rfl | rfl | rfl | rfl | rfl <;> simp [*] at hk ⊢
    · exact fun h => absurd h (by simp [← hk.2])
    · exact fun h => absurd h (by simp [← hk.2])
  · intro f hk
    rcases this with rfl | rfl | rfl | rfl | rfl <;> simp [*] at hk

theorem coins_measure : ∀ x, Reach coins [4] x → coins.kind x = .measure ∨ NoMeasure coins [4] x := by
  obtain ⟨i0, i1, i2, i3, i4, k0, k1, k2, k3, k4, -⟩ := coins_facts
  intro x hx
  have := (coins_reach x).1 hx
  simp only [List.mem_cons, List.not_mem_nil, or_false] at this
  unfold NoMeasure
  rcases this with rfl | rfl | rfl | rfl | rfl <;> simp [*]

theorem coins_start (r : Nat) (hr : r < 2) : startAmp coins [4] [] r = if r = 0 then 1 else 0 := by
  obtain ⟨i0, i1, i2, i3, i4, k0, k1, k2, k3, k4, n0, n1, n2, n3, n4, d0⟩ := coins_facts
  obtain ⟨w1, w2, w3, -, -, -, -, -, w0⟩ := coins_wires
  have : r = 0 ∨ r = 1 := by omega
  rcases this with rfl | rfl <;>
    simp [startAmp, w2, w3, w0, startVec, d0, n0, subIndex, qbit, bitsVal]

theorem coins_total : totalProb (width coins [4]) (startAmp coins [4] []) = 1 := by
  rw [coins_wires.2.2.1]
  unfold totalProb
  rw [show (2 : Nat) ^ 1 = 2 by norm_num, Finset.sum_range_succ, Finset.sum_range_one, coins_start 0 (by norm_num),
    coins_start 1 (by norm_num)]
  simp

theorem coins_h (v : Nat → ℂ) (r : Nat) (hr : r < 2) : gateApply 1 .h [[0]] v r
    = ((1 / √2 : ℝ) : ℂ) * (v 0 + (if r = 0 then 1 else -1) * v 1) := by
  have := h_apply (n := 1) (w := 0) (by norm_num) v r
  have e0 : ∀ b, b < 2 → spread 1 [0] r b = b := by
    intro b hb
    have h1 : r = 0 ∨ r = 1 := by omega
    have h2 : b = 0 ∨ b = 1 := by omega
    rcases h1 with rfl | rfl <;> rcases h2 with rfl | rfl <;> decide
  rw [e0 0 (by norm_num), e0 1 (by norm_num)] at this
  have ea : Act.apply 1 ⟨[], .h, [[0]]⟩ v r = gateApply 1 .h [[0]] v r := by simp [Act.apply]
  rw [ea] at this
  rw [this]
  have h1 : r = 0 ∨ r = 1 := by omega
  rcases h1 with rfl | rfl
  · simp [qbit, ph_zero]
  · simp [qbit]
    rw [show (2 : ℂ)⁻¹ = 1 / 2 by norm_num, ph_half]
    ring

/-- All four pairs of results have probability 1/4. -/
theorem coins_joint (o : Nat → Nat) (h2 : o 2 < 2) (h4 : o 4 < 2) : jointProb coins [4] [] o = 1 / 4 := by
  obtain ⟨i0, i1, i2, i3, i4, k0, k1, k2, k3, k4, n0, n1, n2, n3, n4, d0⟩ := coins_facts
  obtain ⟨w1, w2, w3, g0, g1, g2, g3, g4, w0⟩ := coins_wires
  unfold jointProb
  rw [coins_total, div_one, w1, w3]
  have hp : ∀ (m : Nat) (v : Nat → ℂ) (r : Nat), r < 2 → project 1 [0] m v r = if r = m then v r else 0 := by
    intro m v r hr
    unfold project
    have h1 : r = 0 ∨ r = 1 := by omega
    rcases h1 with rfl | rfl
    · rw [show subIndex 1 (inOrder 1 [0]) 0 = 0 by decide]
    · rw [show subIndex 1 (inOrder 1 [0]) 1 = 1 by decide]
  have hs : ((1 / √2 : ℝ) : ℂ) * ((1 / √2 : ℝ) : ℂ) = 1 / 2 := by
    rw [← Complex.ofReal_mul, div_mul_div_comm, Real.mul_self_sqrt (by norm_num)]
    norm_num
  set a : ℂ := ((1 / √2 : ℝ) : ℂ) with ha
  unfold totalProb branch
  simp only [List.foldl_cons, List.foldl_nil, branchStep, k0, k1, k2, k3, k4, nodeApply, g1, g2, g3, g4, List.flatten_cons,
    List.flatten_nil, List.append_nil]
  rw [show (2 : Nat) ^ 1 = 2 by norm_num, Finset.sum_range_succ, Finset.sum_range_one, hp _ _ 0 (by norm_num),
    hp _ _ 1 (by norm_num), coins_h _ 0 (by norm_num), coins_h _ 1 (by norm_num), hp _ _ 0 (by norm_num),
    hp _ _ 1 (by norm_num), coins_h _ 0 (by norm_num), coins_h _ 1 (by norm_num), coins_start 0 (by norm_num),
    coins_start 1 (by norm_num), ← ha]
  have e2 : o 2 = 0 ∨ o 2 = 1 := by omega
  have e4 : o 4 = 0 ∨ o 4 = 1 := by omega
  rcases e2 with e2 | e2 <;> rcases e4 with e4 | e4 <;> simp [e2, e4] <;>
    rw [← Complex.normSq_mul, hs] <;> norm_num [Complex.normSq_apply]

/-- The two random numbers of a run of the example, in the unit square: each of the four pairs of results is reported on
a set of area 1/4. -/
example (o : Nat → Nat) (h2 : o 2 < 2) (h4 : o 4 < 2) :
    ∃ e, EnvOK coins [4] e ∧ volume (drawsOf coins [4] [] e o) = ENNReal.ofReal (1 / 4) := by
  have he : EnvOK coins [4] ⟨fun _ => 0, id, fun x => ⟨List.range (2 ^ width coins [4]),
    (faCounters (width coins [4]) ((groups coins [4] x).getD 0 []) ((groups coins [4] x).getD 1 [])), fun _ => 0, 0, 0⟩,
    List.replicate (2 ^ width coins [4]) 0⟩ := ⟨fun _ => .refl _, fun _ => .refl _, fun _ => .refl _, by simp⟩
  refine ⟨_, he, ?_⟩
  rw [← coins_joint o h2 h4]
  obtain ⟨w1, w2, w3, g0, g1, g2, g3, g4, w0⟩ := coins_wires
  refine C85_joint_partial coins_circuit coins_ok coins_measure ⟨by simp, by simp, by simp⟩ ?_ he (fun _ => rfl)
    (by rw [coins_total]; exact one_pos) o ?_
  · intro q hq _
    rw [w2, List.mem_singleton] at hq
    subst hq
    unfold DefaultOK
    rw [coins_facts.2.2.2.2.2.2.2.2.2.2.2.2.2.2.2]
    trivial
  · intro x hx
    obtain ⟨hx, hk⟩ := mem_measures.1 hx
    rw [w1] at hx
    obtain ⟨-, -, -, -, -, k0, k1, k2, k3, k4, -⟩ := coins_facts
    simp only [List.mem_cons, List.not_mem_nil, or_false] at hx
    rcases hx with rfl | rfl | rfl | rfl | rfl <;> simp [*] at hk ⊢

end QIP.Props
