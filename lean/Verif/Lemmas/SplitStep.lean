import Verif.Lemmas.OpStep

/-! # Splitting and joining current qubits -/

namespace QIP

open Spec Heap

theorem Live.parts_nodup {h : Heap} {env live : List Nat} (l : Live h env live) {ins rest : List Nat}
    (hperm : live.Perm (ins ++ rest)) : (ins.map (wires h live)).flatten.Nodup := by
  have h1 : ((ins ++ rest).map (wires h live)).flatten.Nodup :=
    (List.Perm.nodup_iff ((hperm.map _).flatten)).1 (l.part.nodup_iff.2 List.nodup_range)
  rw [List.map_append, List.flatten_append] at h1
  exact (List.nodup_append.1 h1).1

/-- A new node that leaves the state alone and holds the qubits of its inputs. -/
theorem node_step {h : Heap} {env live ins rest : List Nat} (l : Live h env live) (hperm : live.Perm (ins ++ rest))
    (hne : ins ≠ []) {cmd : Cmd} (hargs : ∀ x ∈ cmd.args, x ∈ ins) {K : Kind} (hK : K = .qubit ∨ K = .smeasure 0) {h2 : Heap}
    (r : h.exec cmd = (.ok [h.nodes.length], h2)) (k : h2.kind h.nodes.length = K)
    (i : h2.inputs h.nodes.length = ins) (nx : h2.n h.nodes.length = (ins.map h.n).sum)
    (len : h2.nodes.length = h.nodes.length + 1)
    (hkeep : ∀ y < h.nodes.length, y ∉ ins → h2.sinks y = h.sinks y) :
    Stepped h live ins rest h2 [h.nodes.length] [(ins.map (wires h live)).flatten] (fun _ v => v) := by
  obtain ⟨V0, c0⟩ := l.circuit.ctx
  have hb := l.circuit.built
  obtain ⟨V, hw, hk, hV⟩ := built_wf hb
  have hnd : (ins ++ rest).Nodup := hperm.nodup_iff.1 l.nodup
  have hins_live : ∀ x ∈ ins, x ∈ live := fun x hx => hperm.mem_iff.2 (List.mem_append_left _ hx)
  have hrest_live : ∀ x ∈ rest, x ∈ live := fun x hx => hperm.mem_iff.2 (List.mem_append_right _ hx)
  have henv : ∀ x ∈ ins, x ∈ env := fun x hx => l.circuit.held x (hins_live x hx)
  have hin : ∀ i ∈ ins, V i := fun i hi => hV i (henv i hi)
  have hcargs : ∀ x ∈ cmd.args, x ∈ env := fun x hx => henv x (hargs x hx)
  obtain ⟨e, -⟩ := built_exec hb (cmd := cmd) hcargs
  have hb2 := Built.call cmd hb hcargs
  rw [r] at e hb2
  simp only at e hb2
  set x := h.nodes.length with hx
  set live' := [x] ++ rest with hlive'
  have hnm2 : ins.map h2.n = ins.map h.n := sum_append_node hw e hin
  have hreach_x : Reach h2 live' x := .arg (by simp [hlive'])
  have hreach : ∀ z, Reach h2 live' z ↔ Reach h live z ∨ z ∈ [x] := by
    intro z
    constructor
    · intro hz
      induction hz with
      | @arg z hz =>
        rcases List.mem_append.1 hz with hz | hz
        · exact Or.inr hz
        · exact Or.inl (.arg (hrest_live z hz))
      | @input z y _ hz ih =>
        rcases ih with ih | ih
        · rw [e.inputs y (c0.lt ih)] at hz
          exact Or.inl (.input ih hz)
        · rw [List.mem_singleton] at ih
          subst ih
          rw [i] at hz
          exact Or.inl (.arg (hins_live z hz))
    · rintro (hz | hz)
      · induction hz with
        | @arg z hz =>
          rcases List.mem_append.1 (hperm.mem_iff.1 hz) with hz | hz
          · exact .input hreach_x (by rw [i]; exact hz)
          · exact .arg (List.mem_append_right _ hz)
        | @input z y h0 hz ih =>
          rw [← e.inputs y (c0.lt h0)] at hz
          exact .input ih hz
      · rw [List.mem_singleton] at hz
        rw [hz]; exact hreach_x
  have hg : Grows h live h2 live' [x] := by
    refine ⟨e, hreach, by simp, by simp [hx], ?_⟩
    intro y hy
    rw [List.mem_singleton] at hy
    rw [hy, i]; exact hne
  have hwires : ∀ V', Ctx h2 V' live' → groups h2 live' x = ins.map (wires h live) ∧
      wires h2 live' x = (ins.map (wires h live)).flatten := by
    intro V' c'
    have g1 : groups h2 live' x = ins.map (wires h live) := by
      unfold groups
      rw [i]
      exact List.map_congr_left fun y hy => hg.wires c0 c' (.arg (hins_live y hy))
    refine ⟨g1, ?_⟩
    rw [wires_node (by rw [i]; exact hne) (c'.ilt hreach_x), k, ← g1]
    rcases hK with rfl | rfl <;> rfl
  have hlive2 : Live h2 (env ++ [x]) live' := by
    refine l.grow hg hb2 ?_ ?_ ?_ ?_ ?_ ?_
    · intro y hy
      rcases List.mem_append.1 hy with hy | hy
      · exact List.mem_append_right _ hy
      · exact List.mem_append_left _ (l.circuit.held y (hrest_live y hy))
    · intro y hy
      rw [List.mem_singleton] at hy
      subst hy
      intro _ _; rw [i, hnm2, nx]
    · intro y hy
      rw [List.mem_singleton] at hy
      subst hy
      intro is hs; rw [k] at hs; rcases hK with rfl | rfl <;> cases hs
    · intro V' c' y hy
      obtain ⟨g1, g2⟩ := hwires V' c'
      rw [List.mem_singleton] at hy
      subst hy
      refine ⟨by rw [g1]; exact l.parts_nodup hperm, ?_, ?_⟩
      · intro g d hgd; rw [k] at hgd; rcases hK with rfl | rfl <;> cases hgd
      · intro f hff; rw [k] at hff; rcases hK with rfl | rfl <;> cases hff
    · intro y hy
      rw [List.mem_singleton] at hy
      subst hy
      unfold NoMeasure; rw [k]; rcases hK with rfl | rfl <;> simp
    · intro V' c'
      obtain ⟨g1, g2⟩ := hwires V' c'
      have e' : (live'.map (wires h2 live')).flatten = ((ins ++ rest).map (wires h live)).flatten := by
        rw [hlive', List.map_append, List.map_append, ← hlive', List.flatten_append, List.flatten_append]
        congr 1
        · simp [g2]
        · congr 1
          exact List.map_congr_left fun i hi => hg.wires c0 c' (.arg (hrest_live i hi))
      rw [e']
      exact ((hperm.symm.map _).flatten).trans l.part
  obtain ⟨V', c'⟩ := hlive2.circuit.ctx
  obtain ⟨g1, g2⟩ := hwires V' c'
  refine ⟨⟨_, hlive2⟩, ⟨[x], hg, ?_⟩, congrArg (fun w => [w]) g2, ?_, ?_⟩
  · intro n v
    change nodeApply n h2 live' x v = v
    rw [nodeApply_kind, k]
    rcases hK with rfl | rfl <;> rfl
  · intro y hy
    rw [List.mem_singleton] at hy
    subst hy
    obtain ⟨V2, w2, -, -⟩ := built_wf hb2
    apply List.eq_nil_iff_forall_not_mem.2
    intro s hs
    have h1 := w2.slt _ (by omega) s hs
    have h2' := w2.sin _ (by omega) s hs
    have := w2.ilt s h1 _ h2'
    omega
  · exact hkeep

theorem join_step {h : Heap} {env live ins rest : List Nat} (l : Live h env live) (hperm : live.Perm (ins ++ rest))
    (hne : ins ≠ []) (hfree : ∀ x ∈ ins, h.sinks x = []) :
    ∃ x h', h.exec (.qubit ins none none) = (.ok [x], h') ∧
      Stepped h live ins rest h' [x] [(ins.map (wires h live)).flatten] (fun _ v => v) := by
  have hb := l.circuit.built
  obtain ⟨V, hw, hk, hV⟩ := built_wf hb
  have hnd : (ins ++ rest).Nodup := hperm.nodup_iff.1 l.nodup
  have hins_live : ∀ x ∈ ins, x ∈ live := fun x hx => hperm.mem_iff.2 (List.mem_append_left _ hx)
  have henv : ∀ x ∈ ins, x ∈ env := fun x hx => l.circuit.held x (hins_live x hx)
  have hpos : ∀ x ∈ ins, 0 < h.n x := fun x hx => l.pos (.arg (hins_live x hx))
  have hsum : 0 < (ins.map h.n).sum := by
    match ins, hne with
    | a :: t, _ => have := hpos a (by simp); simp only [List.map_cons, List.sum_cons]; omega
  obtain ⟨h2, r, k, i, nx, len⟩ := join_free hb henv (List.nodup_append.1 hnd).1 hfree hsum
  refine ⟨_, h2, r, node_step l hperm hne (cmd := .qubit ins none none) (fun x hx => hx) (Or.inl rfl) r k i nx len ?_⟩
  intro y hy hyn
  have h1s := initQubit_sinks (h := h) (kind := .qubit) (inputs := ins) (n := none) (qid := none)
    (default := none) (fun i hi => hw.vlt i (hV i (henv i hi))) hy hyn
  have h2s := congrArg Prod.snd r
  unfold exec at h2s
  simp only at h2s
  rw [h2s] at h1s
  exact h1s

/-- `StochasticMeasure(*ins)`. -/
theorem smeasure_step {h : Heap} {env live ins rest : List Nat} (l : Live h env live) (hperm : live.Perm (ins ++ rest))
    (hne : ins ≠ []) :
    ∃ x h', h.exec (.smeasure ins 0) = (.ok [x], h') ∧ (h'.kind x = .smeasure 0 ∧ h'.inputs x = ins ∧
      x = h.nodes.length ∧ h'.nodes.length = x + 1) ∧
      Stepped h live ins rest h' [x] [(ins.map (wires h live)).flatten] (fun _ v => v) := by
  have hb := l.circuit.built
  obtain ⟨V, hw, hk, hV⟩ := built_wf hb
  have hins_live : ∀ x ∈ ins, x ∈ live := fun x hx => hperm.mem_iff.2 (List.mem_append_left _ hx)
  have henv : ∀ x ∈ ins, x ∈ env := fun x hx => l.circuit.held x (hins_live x hx)
  have hpos : ∀ x ∈ ins, 0 < h.n x := fun x hx => l.pos (.arg (hins_live x hx))
  have hin : ∀ i ∈ ins, V i := fun i hi => hV i (henv i hi)
  obtain ⟨h1, r1, e1, w1, c1⟩ := initQubit_ok hw (kind := .smeasure 0) (inputs := ins) (n := none) (qid := none) hin
    qidOK_none (by simp) (initN_pos (by simpa using hne) hpos)
  have hlt : ∀ i ∈ ins, i < h.nodes.length := fun i hi => hw.vlt i (hin i hi)
  have hlt1 : ∀ i ∈ ins, i < h1.nodes.length := fun i hi => (hlt i hi).trans_le e1.len
  obtain ⟨s1, -, -, s4⟩ := registerSinks_spec h1 h.nodes.length ins hlt1
  have hok := registerSinks_other (h := h1) (x := h.nodes.length) ins (by rw [c1.kindx]; simp)
  rcases hr : h1.registerSinks h.nodes.length ins with ⟨r, h2⟩
  rw [hr] at hok s1 s4
  simp only at hok s1 s4
  subst hok
  have hx : h.exec (.smeasure ins 0) = (.ok [h.nodes.length], h2) := by
    unfold exec mkStochastic
    simp only
    rw [r1]
    simp only
    rw [hr]
    rfl
  have hk2 : h2.kind h.nodes.length = .smeasure 0 := by rw [s1.kind, c1.kindx]
  have hi2 : h2.inputs h.nodes.length = ins := by rw [s1.inputs, c1.inputsx]
  have hl2 : h2.nodes.length = h.nodes.length + 1 := by rw [← c1.len]; exact s1.len
  refine ⟨_, h2, hx, ⟨hk2, hi2, rfl, hl2⟩, node_step l hperm hne (cmd := .smeasure ins 0) (fun x hx => hx) (Or.inr rfl) hx hk2 hi2 ?_ hl2 ?_⟩
  · rw [s1.n, c1.nx]
    have : 0 < ins.length := List.length_pos_iff.2 hne
    unfold initN
    simp only [gt_iff_lt, this, if_true]
    exact Int.toNat_natCast _
  · intro y hy hyn
    rw [s4 y hyn]
    have h1s := initQubit_sinks (h := h) (kind := .smeasure 0) (inputs := ins) (n := none) (qid := none)
      (default := none) hlt hy hyn
    rw [r1] at h1s
    exact h1s

theorem split_step {h : Heap} {env live rest : List Nat} {q : Nat} (l : Live h env live)
    (hperm : live.Perm ([q] ++ rest)) {bs : List Int} (hr : ∀ b ∈ bs, 0 ≤ b ∧ b ≤ h.n q) (hnd : bs.Nodup) :
    ∃ outs h' cs, h.exec (.split q (some bs)) = (.ok outs, h') ∧ Cuts (h.n q) bs cs ∧
      Stepped h live [q] rest h' outs ((List.range (cs.length - 1)).map fun i =>
        slice (wires h live q) (cs.getD i 0) (cs.getD (i + 1) 0)) (fun _ v => v) := by
  obtain ⟨V0, c0⟩ := l.circuit.ctx
  have hb := l.circuit.built
  obtain ⟨V, hw, hk, hV⟩ := built_wf hb
  have hq_live : q ∈ live := hperm.mem_iff.2 (by simp)
  have hrest_live : ∀ x ∈ rest, x ∈ live := fun x hx => hperm.mem_iff.2 (List.mem_append_right _ hx)
  have hq : q ∈ env := l.circuit.held q hq_live
  have hpos : 0 < h.n q := l.pos (.arg hq_live)
  have hqlt := c0.lt (Reach.arg hq_live)
  obtain ⟨h', cs, r, hcuts, hc⟩ := split_core hb hq hr hnd
  have hz : 0 ∈ cs := (hcuts.mem 0).2 (Or.inl rfl)
  have hn : h.n q ∈ cs := (hcuts.mem _).2 (Or.inr (Or.inl rfl))
  have hcl2 : 1 < cs.length := by
    match cs, hz, hn with
    | [a], hz, hn => simp at hz hn; omega
    | _ :: _ :: _, _, _ => simp
  have hle : ∀ c ∈ cs, c ≤ h.n q := by
    intro c hc
    rcases (hcuts.mem c).1 hc with rfl | rfl | h
    · omega
    · omega
    · have := hr _ h; omega
  have hb2 := Built.call (.split q (some bs)) hb (by simpa [Cmd.args] using hq)
  rw [r] at hb2
  simp only at hb2
  set outs := List.range' h.nodes.length (cs.length - 1) with houts
  refine ⟨outs, h', cs, r, hcuts, ?_⟩
  have e := hc.ext
  have hpc : ∀ y ∈ outs, ∃ i, i + 1 < cs.length ∧ y = h.nodes.length + i ∧
      Piece h' q y (cs.getD i 0) (cs.getD (i + 1) 0) := by
    intro y hy
    rw [houts, List.mem_range'_1] at hy
    refine ⟨y - h.nodes.length, by omega, by omega, ?_⟩
    have := hc.piece (y - h.nodes.length) (by omega)
    rwa [show h.nodes.length + (y - h.nodes.length) = y by omega] at this
  set live' := outs ++ rest with hlive'
  have hone : h.nodes.length ∈ outs := by rw [houts, List.mem_range'_1]; omega
  have hreach_q : Reach h' live' q := by
    refine .input (.arg (List.mem_append_left _ hone)) ?_
    obtain ⟨i, -, -, p⟩ := hpc _ hone
    rw [p.inputs]; simp
  have hreach : ∀ z, Reach h' live' z ↔ Reach h live z ∨ z ∈ outs := by
    intro z
    constructor
    · intro hz
      induction hz with
      | @arg z hz =>
        rcases List.mem_append.1 hz with hz | hz
        · exact Or.inr hz
        · exact Or.inl (.arg (hrest_live z hz))
      | @input z y _ hz ih =>
        rcases ih with ih | ih
        · rw [e.inputs y (c0.lt ih)] at hz
          exact Or.inl (.input ih hz)
        · obtain ⟨i, -, -, p⟩ := hpc y ih
          rw [p.inputs, List.mem_singleton] at hz
          rw [hz]
          exact Or.inl (.arg hq_live)
    · rintro (hz | hz)
      · induction hz with
        | @arg z hz =>
          rcases List.mem_append.1 (hperm.mem_iff.1 hz) with hz | hz
          · rw [List.mem_singleton] at hz; rw [hz]; exact hreach_q
          · exact .arg (List.mem_append_right _ hz)
        | @input z y h0 hz ih =>
          rw [← e.inputs y (c0.lt h0)] at hz
          exact .input ih hz
      · exact .arg (List.mem_append_left _ hz)
  have hg : Grows h live h' live' outs := by
    refine ⟨e, hreach, List.pairwise_lt_range', fun y hy => (List.mem_range'_1.1 hy).1, ?_⟩
    intro y hy
    obtain ⟨i, -, -, p⟩ := hpc y hy
    rw [p.inputs]; simp
  have hnq : h'.n q = h.n q := e.n q hqlt
  have hwires : ∀ V', Ctx h' V' live' → outs.map (wires h' live') = ((List.range (cs.length - 1)).map fun i =>
        slice (wires h live q) (cs.getD i 0) (cs.getD (i + 1) 0)) ∧
      (outs.map (wires h' live')).flatten = wires h live q := by
    intro V' c'
    obtain ⟨k1, k2⟩ := pieces_wires c' hcuts.asc (by rw [hnq]; exact hle) hz (by rw [hnq]; exact hn) (by omega)
      (fun i hi => hc.piece i hi) (fun i hi => .arg (List.mem_append_left _ (List.mem_range'_1.2 ⟨by omega, by omega⟩)))
    have hwq := hg.wires c0 c' (.arg hq_live)
    rw [hwq] at k2
    refine ⟨?_, k2⟩
    rw [houts, List.range'_eq_map_range, List.map_map]
    apply List.map_congr_left
    intro i hi
    rw [List.mem_range] at hi
    rw [← hwq]
    exact k1 i (by omega)
  have hqnd := l.parts_nodup hperm
  simp only [List.map_cons, List.map_nil, List.flatten_cons, List.flatten_nil, List.append_nil] at hqnd
  have hlive2 : Live h' (env ++ outs) live' := by
    refine l.grow hg hb2 ?_ ?_ ?_ ?_ ?_ ?_
    · intro y hy
      rcases List.mem_append.1 hy with hy | hy
      · exact List.mem_append_right _ hy
      · exact List.mem_append_left _ (l.circuit.held y (hrest_live y hy))
    · intro y hy
      obtain ⟨i, -, -, p⟩ := hpc y hy
      intro _ hs
      exact absurd p.kind (hs _)
    · intro y hy
      obtain ⟨i, hi, -, p⟩ := hpc y hy
      intro is hs j hj
      rw [p.kind] at hs
      injection hs with hs
      subst hs
      rw [p.inputs]
      simp only [List.map_cons, List.map_nil, List.sum_cons, List.sum_nil, Nat.add_zero]
      unfold interval at hj
      obtain ⟨t, ht, rfl⟩ := List.mem_map.1 hj
      rw [List.mem_range] at ht
      have := hle (cs.getD (i + 1) 0) (by rw [List.getD_eq_getElem _ _ hi]; exact List.getElem_mem _)
      omega
    · intro V' c' y hy
      obtain ⟨i, hi, -, p⟩ := hpc y hy
      refine ⟨?_, ?_, ?_⟩
      · unfold groups
        rw [p.inputs]
        simp only [List.map_cons, List.map_nil, List.flatten_cons, List.flatten_nil, List.append_nil]
        rw [hg.wires c0 c' (.arg hq_live)]
        exact hqnd
      · intro g d hgd; rw [p.kind] at hgd; cases hgd
      · intro f hff; rw [p.kind] at hff; cases hff
    · intro y hy
      obtain ⟨i, hi, -, p⟩ := hpc y hy
      unfold NoMeasure; rw [p.kind]; simp
    · intro V' c'
      have e' : (live'.map (wires h' live')).flatten = (([q] ++ rest).map (wires h live)).flatten := by
        rw [hlive', List.map_append, List.map_append, ← hlive', List.flatten_append, List.flatten_append,
          (hwires V' c').2]
        congr 1
        · simp
        · congr 1
          exact List.map_congr_left fun i hi => hg.wires c0 c' (.arg (hrest_live i hi))
      rw [e']
      exact ((hperm.symm.map _).flatten).trans l.part
  obtain ⟨V', c'⟩ := hlive2.circuit.ctx
  refine ⟨⟨_, hlive2⟩, ⟨outs, hg, ?_⟩, (hwires V' c').1, ?_, ?_⟩
  · intro n v
    refine applyAll_id ?_ v
    intro y hy
    obtain ⟨i, hi, -, p⟩ := hpc y hy
    exact ⟨_, p.kind⟩
  · intro y hy
    obtain ⟨i, hi, rfl, p⟩ := hpc y hy
    exact hc.free i hi
  · intro y hy hyn
    have := split_sinks hqlt (some bs) hy (by simpa using hyn)
    rw [show (h.split q (some bs)) = _ from r] at this
    exact this

end QIP
