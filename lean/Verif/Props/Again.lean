import Verif.Props.Causal

/-!
# Measuring again: C123
-/

namespace QIP.Props

open QIP Spec Heap Finset

section
variable {h : Heap} {env args : List Nat} {feed : List (List Nat × List ℂ)} {e : Env}

/-- What a run reports is possible. -/
theorem reported_pos (c : Circuit h env args) (hok : ∀ x, Reach h args x → NodeOK h args x)
    (hm : ∀ x, Reach h args x → h.kind x = .measure ∨ NoMeasure h args x) (hf : FeedOK h args feed)
    (hdef : ∀ q ∈ leaves h args, q ∉ (feed.map (·.1)).flatten → DefaultOK h q) (he : EnvOK h args e)
    (hg : ∀ x, (e.orc x).garbage = 0) (hT : 0 < totalProb (width h args) (startAmp h args feed))
    (hu : ∀ x, 0 ≤ (e.orc x).u ∧ (e.orc x).u < 1) {o : Nat → Nat} {out : List ℂ} {cl : List (Nat × Classic)} {ms : MsTable}
    (hrun : QIP.run h (fun _ => none) args (feed.map asFeed) false none e.pick e.shuffle e.orc e.arena = .ok (out, cl, ms))
    (hout : ∀ x ∈ measures h args, ∃ p, (x, Classic.bits (o x) p) ∈ cl) :
    0 < totalProb (width h args) (branch (width h args) h args o (needed h args) (startAmp h args feed)) := by
  have hU := needed_usable c hok hm
  obtain ⟨V, c⟩ := c.ctx
  have hnd : (needed h args).Nodup := (needed_asc h args).imp fun h => Nat.ne_of_lt h
  rw [run_spec c hf hdef _ false e.pick e.shuffle he.shuffle e.orc e.arena (by simp)] at hrun
  have hst := feederOK_start he feed (cache_fresh h args)
  rcases hfold : (needed h args).foldlM (fun a x => nodeFeed h e.orc a (groups h args x) (wires h args x) x)
    ⟨startState h args feed e.arena, fun _ => none, []⟩ with err | st
  · rw [hfold] at hrun; cases hrun
  · rw [hfold] at hrun
    simp only [bind, Except.bind, Except.ok.injEq, Prod.mk.injEq] at hrun
    obtain ⟨rfl, rfl, rfl⟩ := hrun
    exact (fold_draws c o (oracleOK he) hg (needed h args) hnd hU (fun x _ _ => hu x)
      hst one_pos (start_scale e.arena) hT (by simp) hfold (fun x hx hkx => hout x (mem_measures.2 ⟨hx, hkx⟩))).2.1

theorem project_twice {n : Nat} (idx : List Nat) {m m' : Nat} (hne : m ≠ m') (v : Nat → ℂ) (r : Nat) :
    project n idx m' (project n idx m v) r = 0 := by
  unfold project
  split
  · next h1 => rw [if_neg fun h2 => hne (h2.symm.trans h1)]
  · rfl

/-- **C123**: measuring again what a measurement returned reports the same outcome, with every random number and whatever
happens to the other qubits in between, if the run succeeds at all.  Partial: as `C85_joint_partial`. -/
theorem C123_again_partial (c : Circuit h env args) (hu : UsedOnce h args) (hok : ∀ x, Reach h args x → NodeOK h args x)
    (hm : ∀ x, Reach h args x → h.kind x = .measure ∨ NoMeasure h args x) (hf : FeedOK h args feed)
    (hdef : ∀ q ∈ leaves h args, q ∉ (feed.map (·.1)).flatten → DefaultOK h q) (he : EnvOK h args e)
    (hg : ∀ x, (e.orc x).garbage = 0) (hT : 0 < totalProb (width h args) (startAmp h args feed))
    (hdraw : ∀ x, 0 ≤ (e.orc x).u ∧ (e.orc x).u < 1) {out : List ℂ} {cl : List (Nat × Classic)} {ms : MsTable}
    (hrun : QIP.run h (fun _ => none) args (feed.map asFeed) false none e.pick e.shuffle e.orc e.arena = .ok (out, cl, ms))
    {x y : Nat} (hy : Reach h args y) (hkx : h.kind x = .measure) (hky : h.kind y = .measure) (hin : h.inputs y = [x]) :
    ∃ m p p', m < 2 ^ h.n x ∧ (x, Classic.bits m p) ∈ cl ∧ (y, Classic.bits m p') ∈ cl := by
  classical
  obtain ⟨V, c'⟩ := c.ctx
  have hx : Reach h args x := .input hy (by simp [hin])
  have hxn := (mem_needed c'.wf c'.vargs).2 hx
  have hyn := (mem_needed c'.wf c'.vargs).2 hy
  have hnd : (needed h args).Nodup := (needed_asc h args).imp fun h => Nat.ne_of_lt h
  obtain ⟨-, v, -, hs⟩ := C35_run_sound c hok hf hdef he hrun
  obtain ⟨m, p, hm1, hmp⟩ := steps_measure hs hxn hkx
  obtain ⟨m', p', -, hmp'⟩ := steps_measure hs hyn hky
  have hkeys : (cl.map Prod.fst).Nodup := by rw [steps_keys hs]; exact hnd
  have hgx : (groups h args x).flatten = wires h args x := by
    by_cases h0 : h.inputs x = []
    · have hV := c'.vis hx
      have hk := c'.kind x hV
      unfold KindOK at hk
      rw [hkx] at hk
      have hlen := c'.len hx
      rw [hk.1, h0] at hlen
      rw [List.eq_nil_of_length_eq_zero (l := wires h args x) (by simpa using hlen)]
      simp [groups, h0]
    · rw [wires_node h0 (c'.ilt hx), hkx]
  have hgy : (groups h args y).flatten = wires h args x := by simp [groups, hin]
  rw [hgx, c'.len hx] at hm1
  -- the outcomes reported
  set o : Nat → Nat := fun z => if hz : ∃ k q, (z, Classic.bits k q) ∈ cl then hz.choose else 0 with ho
  have hoz : ∀ z k q, (z, Classic.bits k q) ∈ cl → o z = k := by
    intro z k q hz
    have hz' : ∃ k q, (z, Classic.bits k q) ∈ cl := ⟨k, q, hz⟩
    obtain ⟨q', hq'⟩ := hz'.choose_spec
    have := classic_unique hkeys hq' hz
    simp only [Classic.bits.injEq] at this
    simp only [ho, dif_pos hz', this.1]
  have hpos := reported_pos c hok hm hf hdef he hg hT hdraw (o := o) hrun (by
    intro z hz
    obtain ⟨k, q, -, hkq⟩ := steps_measure hs (mem_measures.1 hz).1 (mem_measures.1 hz).2
    exact ⟨q, by rw [hoz z k q hkq]; exact hkq⟩)
  by_cases hmm : m = m'
  · subst hmm
    exact ⟨m, p, p', hm1, hmp, hmp'⟩
  -- different outcomes are impossible: move the second measurement to the first
  exfalso
  have hxy : x < y := c'.ilt hy x (by simp [hin])
  obtain ⟨A, R, hAR⟩ := List.append_of_mem hxn
  have hasc := needed_asc h args
  rw [hAR, List.pairwise_append, List.pairwise_cons] at hasc
  obtain ⟨-, ⟨hR, hR'⟩, hA⟩ := hasc
  have hyR : y ∈ R := by
    rw [hAR] at hyn
    rcases List.mem_append.1 hyn with h1 | h1
    · exact absurd (hA y h1 x (by simp)) (by omega)
    · rcases List.mem_cons.1 h1 with h2 | h2
      · omega
      · exact h2
  obtain ⟨B, C, rfl⟩ := List.append_of_mem hyR
  have hmemn : ∀ z ∈ needed h args, Reach h args z ∧ NodeOK h args z := fun z hz =>
    ⟨(mem_needed c'.wf c'.vargs).1 hz, hok z ((mem_needed c'.wf c'.vargs).1 hz)⟩
  have hB : ∀ z ∈ B, x < z ∧ z < y := by
    intro z hz
    refine ⟨hR z (by simp [hz]), ?_⟩
    rw [List.pairwise_append] at hR'
    exact hR'.2.2 z hz y (by simp)
  have hBn : ∀ z ∈ B, z ∈ needed h args := fun z hz => by rw [hAR]; simp [hz]
  have hCn : ∀ z ∈ C, z ∈ needed h args := fun z hz => by rw [hAR]; simp [hz]
  have hyz : ∀ z, Reach h [y] z → z = y ∨ z ≤ x := by
    intro z hz
    induction hz with
    | arg h1 => exact Or.inl (List.mem_singleton.1 h1)
    | @input a b h1 h2 ih =>
      rcases ih with rfl | h3
      · rw [hin, List.mem_singleton] at h2
        exact Or.inr h2.le
      · exact Or.inr ((c'.ilt (Ctx.reach_trans h1 hy) _ h2).le.trans h3)
  set w := branch (width h args) h args o (A ++ [x]) (startAmp h args feed) with hw
  have hzero : ∀ r < 2 ^ width h args, branchStep (width h args) h args o w y r = ((0 : ℝ) : ℂ) * (fun _ => (0 : ℂ)) r := by
    intro r _
    rw [hw, branch_append, branchStep_measure hky]
    change project _ _ _ (branchStep (width h args) h args o _ x) r = _
    rw [branchStep_measure hkx, hgx, hgy, project_twice]
    · simp
    · rw [hoz x m p hmp, hoz y m' p' hmp']
      exact hmm
  have hall : ∀ r < 2 ^ width h args, branch (width h args) h args o (needed h args) (startAmp h args feed) r = 0 := by
    intro r hr
    have e1 : needed h args = (A ++ [x]) ++ ((B ++ [y]) ++ C) := by rw [hAR]; simp
    have e2 : ∀ r < 2 ^ width h args, branch (width h args) h args o (B ++ [y]) w r
        = branch (width h args) h args o (y :: B) w r := by
      intro r hr
      refine branch_move c' hu o y (hmemn y hyn) B (fun z hz => hmemn z (hBn z hz)) (fun z hz => ⟨?_, ?_⟩) w hr
      · intro h1
        have := hB z hz
        rcases hyz z h1 with h2 | h2 <;> omega
      · intro h1
        have h2 := reach_single_le c' (hmemn z (hBn z hz)).1 h1
        have := hB z hz
        omega
    rw [e1, branch_append _ o (A ++ [x]), ← hw, branch_append _ o (B ++ [y]) C,
      branch_congr c' o C (fun z hz => hmemn z (hCn z hz)) e2 hr, ← branch_append]
    change branch (width h args) h args o (B ++ C) (branchStep (width h args) h args o w y) r = 0
    rw [branch_scale c' o (B ++ C) (fun z hz => hmemn z (by
      rcases List.mem_append.1 hz with h1 | h1
      · exact hBn z h1
      · exact hCn z h1)) hzero hr]
    simp
  rw [totalProb_congr' (w := fun _ => 0) hall] at hpos
  simp [totalProb] at hpos

end

/-! ## Example: `q = Qubit(); m1 = Measure(H(q)); m2 = Measure(m1)` -/

def againCmds : List Cmd := [.qubit [] none none, .op (.gate .h) false [0], .measure [1], .measure [2]]

def again : Heap := (runCmds againCmds (Heap.empty, [])).1

theorem again_facts : again.inputs 0 = [] ∧ again.inputs 1 = [0] ∧ again.inputs 2 = [1] ∧ again.inputs 3 = [2] ∧
    again.kind 0 = .qubit ∧ again.kind 1 = .gate .h false ∧ again.kind 2 = .measure ∧ again.kind 3 = .measure ∧
    again.n 0 = 1 ∧ again.n 1 = 1 ∧ again.n 2 = 1 ∧ again.n 3 = 1 ∧ again.default 0 = none :=
  ⟨rfl, rfl, rfl, rfl, rfl, rfl, rfl, rfl, rfl, rfl, rfl, rfl, rfl⟩

theorem again_built : Built again [0, 1, 2, 3] := by
  have e : (runCmds againCmds (Heap.empty, [])).2 = [0, 1, 2, 3] := rfl
  rw [← e]
  refine built_runCmds _ _ Built.start ?_
  simp only [againCmds, cmdsOK, Cmd.args, and_true]
  refine ⟨by simp, ?_, ?_, ?_⟩
  · change ∀ x ∈ [0], x ∈ [0]; decide
  · change ∀ x ∈ [1], x ∈ [0, 1]; decide
  · change ∀ x ∈ [2], x ∈ [0, 1, 2]; decide

theorem again_reach (x : Nat) : Reach again [3] x ↔ x ∈ [0, 1, 2, 3] := by
  obtain ⟨i0, i1, i2, i3, -⟩ := again_facts
  constructor
  · exact reach_sub (by simp) (by
      intro y hy
      simp only [List.mem_cons, List.not_mem_nil, or_false] at hy
      rcases hy with rfl | rfl | rfl | rfl <;> simp [*])
  · have h3 : Reach again [3] 3 := .arg (by simp)
    have h2 : Reach again [3] 2 := .input h3 (by simp [i3])
    have h1 : Reach again [3] 1 := .input h2 (by simp [i2])
    have h0 : Reach again [3] 0 := .input h1 (by simp [i1])
    intro hx
    simp only [List.mem_cons, List.not_mem_nil, or_false] at hx
    rcases hx with rfl | rfl | rfl | rfl <;> assumption

theorem again_cases {x : Nat} (hx : Reach again [3] x) : x = 0 ∨ x = 1 ∨ x = 2 ∨ x = 3 := by
  simpa using (again_reach x).1 hx

theorem again_circuit : Circuit again [0, 1, 2, 3] [3] := by
  obtain ⟨i0, i1, i2, i3, k0, k1, k2, k3, n0, n1, n2, n3, -⟩ := again_facts
  refine ⟨again_built, by simp, ?_, ?_⟩
  · intro x hx
    rcases again_cases hx with rfl | rfl | rfl | rfl <;> simp [SizeOK, *]
  · intro x hx is hk
    rcases again_cases hx with rfl | rfl | rfl | rfl <;> simp [*] at hk

theorem again_once : UsedOnce again [3] := by
  obtain ⟨i0, i1, i2, i3, k0, k1, k2, k3, -⟩ := again_facts
  refine ⟨?_, ?_, ?_⟩
  · intro x hx
    rcases again_cases hx with rfl | rfl | rfl | rfl <;> simp [*]
  · intro x hx is hk
    rcases again_cases hx with rfl | rfl | rfl | rfl <;> simp [*] at hk
  · intro x y p hx hy hne hpx hpy
    rcases again_cases hx with rfl | rfl | rfl | rfl <;> rcases again_cases hy with rfl | rfl | rfl | rfl <;>
      simp [*] at hpx hpy hne <;> omega

theorem again_wires : leaves again [3] = [0] ∧ width again [3] = 1 ∧ wires again [3] 0 = [0] ∧ groups again [3] 0 = [] ∧
    groups again [3] 1 = [[0]] ∧ groups again [3] 2 = [[0]] ∧ groups again [3] 3 = [[0]] := by
  obtain ⟨V, c⟩ := again_circuit.ctx
  obtain ⟨i0, i1, i2, i3, k0, k1, k2, k3, n0, n1, n2, n3, -⟩ := again_facts
  have h1 := needed_known c (by simp) again_reach
  have h2 : leaves again [3] = [0] := by simp [leaves, h1, isLeaf, i0, i1, i2, i3]
  have hil : ∀ x ∈ [0, 1, 2, 3], ∀ y ∈ again.inputs x, y < x := fun x hx => c.ilt ((again_reach x).2 hx)
  have w0 : wires again [3] 0 = [0] := by rw [wires_leaf i0]; simp [offset, h2, n0]
  have w1 : wires again [3] 1 = [0] := by rw [wires_node (by simp [i1]) (hil 1 (by simp)), k1]; simp [groups, i1, w0]
  have w2 : wires again [3] 2 = [0] := by rw [wires_node (by simp [i2]) (hil 2 (by simp)), k2]; simp [groups, i2, w1]
  exact ⟨h2, by simp [width, h2, n0], w0, by simp [groups, i0], by simp [groups, i1, w0], by simp [groups, i2, w1],
    by simp [groups, i3, w2]⟩

theorem again_ok : ∀ x, Reach again [3] x → NodeOK again [3] x := by
  obtain ⟨i0, i1, i2, i3, k0, k1, k2, k3, -⟩ := again_facts
  obtain ⟨-, -, -, g0, g1, g2, g3⟩ := again_wires
  intro x hx
  have := again_cases hx
  refine ⟨?_, ?_, ?_⟩
  · rcases this with rfl | rfl | rfl | rfl <;> simp [*]
  · intro g d hk
    rcases this with rfl | rfl | rfl | rfl <;> simp [*] at hk ⊢
    exact fun h => absurd h (by simp [← hk.2])
  · intro f hk
    rcases this with rfl | rfl | rfl | rfl <;> simp [*] at hk

theorem again_measure : ∀ x, Reach again [3] x → again.kind x = .measure ∨ NoMeasure again [3] x := by
  obtain ⟨i0, i1, i2, i3, k0, k1, k2, k3, -⟩ := again_facts
  intro x hx
  unfold NoMeasure
  rcases again_cases hx with rfl | rfl | rfl | rfl <;> simp [*]

theorem again_total : 0 < totalProb (width again [3]) (startAmp again [3] []) := by
  obtain ⟨i0, i1, i2, i3, k0, k1, k2, k3, n0, n1, n2, n3, d0⟩ := again_facts
  obtain ⟨w, w1, w0, -⟩ := again_wires
  have h0 : startAmp again [3] [] 0 = 1 := by
    simp [startAmp, w, w1, w0, startVec, d0, n0, subIndex, qbit, bitsVal]
  unfold totalProb
  refine Finset.sum_pos' (fun _ _ => Complex.normSq_nonneg _) ⟨0, by simp, ?_⟩
  rw [h0]
  simp

/-- The two measurements of a run of the example, with draws 1/2, agree. -/
example : ∃ e, EnvOK again [3] e ∧ ∃ out cl ms,
    QIP.run again (fun _ => none) [3] [] false none e.pick e.shuffle e.orc e.arena = .ok (out, cl, ms) ∧
      ∃ m p p', m < 2 ∧ (2, Classic.bits m p) ∈ cl ∧ (3, Classic.bits m p') ∈ cl := by
  obtain ⟨i0, i1, i2, i3, k0, k1, k2, k3, n0, n1, n2, n3, d0⟩ := again_facts
  have he : EnvOK again [3] ⟨fun _ => 0, id, fun x => ⟨List.range (2 ^ width again [3]),
    (faCounters (width again [3]) ((groups again [3] x).getD 0 []) ((groups again [3] x).getD 1 [])), fun _ => 0, 1 / 2, 0⟩,
    List.replicate (2 ^ width again [3]) 0⟩ := ⟨fun _ => .refl _, fun _ => .refl _, fun _ => .refl _, by simp⟩
  have hdef : ∀ q ∈ leaves again [3], q ∉ ((([] : List (List Nat × List ℂ)).map (·.1)).flatten) → DefaultOK again q := by
    intro q hq _
    rw [again_wires.1, List.mem_singleton] at hq
    subst hq
    unfold DefaultOK
    rw [d0]
    trivial
  have hf : FeedOK again [3] [] := ⟨by simp, by simp, by simp⟩
  obtain ⟨out, cl, ms, hr⟩ := C85_succeeds_partial again_circuit again_ok again_measure hf hdef he (fun _ => rfl) again_total
    (fun _ => by constructor <;> norm_num)
  refine ⟨_, he, out, cl, ms, hr, ?_⟩
  have := C123_again_partial again_circuit again_once again_ok again_measure hf hdef he (fun _ => rfl) again_total
    (fun _ => by constructor <;> norm_num) hr (x := 2) (y := 3) (.arg (by simp)) k2 k3 i3
  rwa [n2] at this

end QIP.Props
