import Verif.Lemmas.WrapOp

/-! # One wrapped operation on the current qubits -/

namespace QIP

open Spec Heap

theorem Live.pos {h : Heap} {env live : List Nat} (l : Live h env live) {x : Nat} (hx : Reach h live x) :
    0 < h.n x := by
  obtain ⟨V, c⟩ := l.circuit.ctx
  have hk := c.kind x (c.vis hx)
  have hm := l.nomeasure x hx
  unfold KindOK at hk
  rcases hkk : h.kind x with _ | _ | _ | _ | _ | _ <;> rw [hkk] at hk
  · exact hk
  · exact hk.2.1
  · exact hk.1.1
  · exact hk.1
  · exact absurd hkk hm.1
  · exact hk.1

theorem nodup_of_parts {live : List Nat} {f : Nat → List Nat} (h : (live.map f).flatten.Nodup)
    (hne : ∀ x ∈ live, f x ≠ []) : live.Nodup := by
  induction live with
  | nil => exact List.nodup_nil
  | cons a l ih =>
    rw [List.map_cons, List.flatten_cons, List.nodup_append] at h
    obtain ⟨-, h2, h3⟩ := h
    refine List.nodup_cons.2 ⟨?_, ih h2 fun x hx => hne x (by simp [hx])⟩
    intro ha
    obtain ⟨k, hk⟩ := List.exists_mem_of_ne_nil _ (hne a (by simp))
    exact h3 k hk k (List.mem_flatten.2 ⟨_, List.mem_map.2 ⟨a, ha, rfl⟩, hk⟩) rfl

theorem Live.nodup {h : Heap} {env live : List Nat} (l : Live h env live) : live.Nodup := by
  obtain ⟨V, c⟩ := l.circuit.ctx
  refine nodup_of_parts (l.part.nodup_iff.2 List.nodup_range) ?_
  intro x hx e
  have := c.len (Reach.arg hx)
  have := l.pos (Reach.arg hx)
  rw [e] at *
  simp at *
  omega

/-- The default split of a node with several inputs. -/
theorem split_default {h : Heap} {V : Nat → Prop} (hw : WF h V) {q : Nat} (hq : V q)
    (hlen : 2 ≤ (h.inputs q).length) (hp : ∀ p ∈ h.inputs q, 0 < h.n p) (hsum : h.n q = ((h.inputs q).map h.n).sum) :
    ∃ h', h.split q none = (.ok (List.range' h.nodes.length (h.inputs q).length), h') ∧
      Cut h q (partSums h (h.inputs q)) h' := by
  have hclen : (h.cumulative (h.inputs q) 0).length = (h.inputs q).length := by
    have := congrArg List.length (cumulative_eq h (h.inputs q) 0)
    simpa using this
  have hne : h.inputs q ≠ [] := by intro e; rw [e] at hlen; simp at hlen
  obtain ⟨h', r, c⟩ := cut_of hw hq (cs := partSums h (h.inputs q)) (by simp [partSums])
    (partSums_asc hp) (addEnds_partSums hp hsum hne)
  have hlp : (partSums h (h.inputs q)).length - 1 = (h.inputs q).length := by simp [partSums]
  rw [hlp] at r
  refine ⟨h', ?_, c⟩
  unfold split
  simp only
  rw [if_neg (by omega)]
  exact r

theorem split_single {h : Heap} {q p : Nat} (hi : h.inputs q = [p]) : h.split q none = (.ok [q], h) := by
  unfold split
  simp only [hi, cumulative, List.length_cons, List.length_nil]
  rfl

theorem partSums_getD {h : Heap} {qs : List Nat} {i : Nat} (hi : i ≤ qs.length) :
    (partSums h qs).getD i 0 = ((qs.take i).map h.n).sum := by
  rw [List.getD_eq_getElem _ _ (by simp [partSums]; omega)]
  simp [partSums]

theorem applyAll_id {n : Nat} {h : Heap} {args L : List Nat} (hL : ∀ x ∈ L, ∃ is, h.kind x = .split is)
    (v : Nat → ℂ) : applyAll n h args L v = v := by
  unfold applyAll
  induction L generalizing v with
  | nil => rfl
  | cons x L ih =>
    obtain ⟨is, hk⟩ := hL x (by simp)
    have : nodeApply n h args x v = v := by unfold nodeApply; rw [hk]
    rw [List.foldl_cons, this]
    exact ih (fun y hy => hL y (by simp [hy])) v

/-- Creating an object changes the sinks of its inputs only. -/
theorem initQubit_sinks {h : Heap} {kind : Kind} {inputs : List Nat} {n : Option Int} {qid : Option Nat}
    {default : Option Default} (hlt : ∀ i ∈ inputs, i < h.nodes.length) {y : Nat} (hy : y < h.nodes.length)
    (hn : y ∉ inputs) : (h.initQubit kind inputs n qid default).2.sinks y = h.sinks y := by
  rw [initQubit_eq]
  split
  · rfl
  · split
    · rfl
    · have := (registerSinks_spec (h.push (h.newNode kind inputs n qid default) (h.newNext qid)) h.nodes.length inputs
        (fun i hi => by have := hlt i hi; simp [push]; omega)).2.2.2 y hn
      have e : (h.push (h.newNode kind inputs n qid default) (h.newNext qid)).sinks y = h.sinks y := by
        unfold Heap.sinks
        rw [node_push_lt _ _ _ hy]
      rw [e] at this
      split <;> rename_i h'' hr <;> rw [hr] at this <;> exact this

theorem construct_sinks {h : Heap} {V : Nat → Prop} (hw : WF h V) (op : OpSpec) (d : Bool) {inputs : List Nat}
    (hin : ∀ i ∈ inputs, V i) {y : Nat} (hy : y < h.nodes.length) (hn : y ∉ inputs) :
    (h.construct op d inputs).2.sinks y = h.sinks y := by
  have hlt : ∀ i ∈ inputs, i < h.nodes.length := fun i hi => hw.vlt i (hin i hi)
  induction op generalizing d inputs with
  | gate g =>
    cases g
    case swap k =>
      unfold construct mkSimple
      simp only
      have := initQubit_sinks (kind := .gate (.swap (h.n (inputs.getD 0 0))) d) (n := none) (qid := none)
        (default := none) hlt hy hn
      split
      · rename_i h' hr; rw [hr] at this; exact this
      · rename_i h' hr
        rw [hr] at this
        split
        · exact this
        · split <;> exact this
    case c => rfl
    all_goals exact initQubit_sinks hlt hy hn
  | fop f =>
    unfold construct
    split
    · rfl
    · exact initQubit_sinks hlt hy hn
  | c op ih =>
    unfold construct
    split
    · rfl
    · have hin' : ∀ i ∈ inputs.tail, V i := fun i hi => hin i (List.mem_of_mem_tail hi)
      have h1 := ih false hin' (fun h => hn (List.mem_of_mem_tail h)) (fun i hi => hlt i (List.mem_of_mem_tail hi))
      obtain ⟨e1, -⟩ := construct_spec hw op false hin'
      split
      · rename_i h' hr; rw [hr] at h1; exact h1
      · rename_i h' hr
        rw [hr] at h1 e1
        simp only at h1 e1
        split
        · rw [initQubit_sinks (fun i hi => (hlt i hi).trans_le e1.len) (hy.trans_le e1.len) hn, h1]
        · exact h1

theorem splitLoop_sinks {h : Heap} {q : Nat} (hq : q < h.nodes.length) (bs : List Int) (qid : Option Nat) {y : Nat}
    (hy : y < h.nodes.length) (hn : y ≠ q) : (h.splitLoop q bs qid).2.sinks y = h.sinks y := by
  induction bs generalizing h qid with
  | nil => rfl
  | cons a bs ih =>
    cases bs with
    | nil => rfl
    | cons b rest =>
      unfold splitLoop
      simp only
      set is := (List.range (b - a).toNat).map fun (i : Nat) => a + i
      have h1 := initQubit_sinks (h := h) (kind := .split is) (inputs := [q]) (n := some is.length) (qid := qid)
        (default := none) (by simpa using hq) hy (by simpa using hn)
      have hlen : h.nodes.length ≤ (h.initQubit (.split is) [q] (some is.length) qid none).2.nodes.length := by
        rw [initQubit_eq]
        split
        · exact le_rfl
        · split
          · exact le_rfl
          · have := (registerSinks_spec (h.push (h.newNode (.split is) [q] (some is.length) qid none) (h.newNext qid))
              h.nodes.length [q] (fun i hi => by simp at hi; simp [push]; omega)).1.len
            have hp : (h.push (h.newNode (.split is) [q] (some is.length) qid none) (h.newNext qid)).nodes.length
              = h.nodes.length + 1 := by simp [push]
            split <;> rename_i h'' hr <;> rw [hr] at this <;> simp only at this ⊢ <;> omega
      split
      · rename_i h' hr; rw [hr] at h1; exact h1
      · rename_i x h' hr
        rw [hr] at h1 hlen
        simp only at h1 hlen
        have h2 := ih (h := h') (by omega) (some (h'.qid x)) (by omega)
        split
        · rename_i h'' hr2; rw [hr2] at h2; exact h2.trans h1
        · rename_i h'' hr2; rw [hr2] at h2; exact h2.trans h1

theorem split_sinks {h : Heap} {q : Nat} (hq : q < h.nodes.length) (is : Option (List Int)) {y : Nat}
    (hy : y < h.nodes.length) (hn : y ≠ q) : (h.split q is).2.sinks y = h.sinks y := by
  unfold split
  split
  · simp only
    split
    · rfl
    · exact splitLoop_sinks hq _ _ hy hn
  · exact splitLoop_sinks hq _ _ hy hn

/-- The result of one step that takes `ins`, the other current qubits being `rest`: the current qubits are now `outs`
(holding the qubits `W`) and `rest`, and `T` has been done to the state. -/
structure Stepped (h : Heap) (live ins rest : List Nat) (h' : Heap) (outs : List Nat) (W : List (List Nat))
    (T : Nat → (Nat → ℂ) → Nat → ℂ) : Prop where
  live' : ∃ env', Live h' env' (outs ++ rest)
  grows : ∃ new, Grows h live h' (outs ++ rest) new ∧ ∀ n v, applyAll n h' (outs ++ rest) new v = T n v
  wires : outs.map (Spec.wires h' (outs ++ rest)) = W
  free : ∀ x ∈ outs, h'.sinks x = []
  keep : ∀ y < h.nodes.length, y ∉ ins → h'.sinks y = h.sinks y

theorem Live.sizes {h : Heap} {env live : List Nat} (l : Live h env live) {xs : List Nat} (hx : ∀ x ∈ xs, x ∈ live) :
    xs.map h.n = (xs.map (wires h live)).map List.length := by
  obtain ⟨V, c⟩ := l.circuit.ctx
  rw [List.map_map]
  exact List.map_congr_left fun x h' => (c.len (.arg (hx x h'))).symm

/-- What a node of the given kind does to the state. -/
noncomputable def kindApply (n : Nat) (K : Kind) (gs : List (List Nat)) (v : Nat → ℂ) : Nat → ℂ :=
  match K with
  | .gate g false => gateApply n g gs v
  | .gate g true => adjApply n g gs v
  | .fop f => fun r => ∑ c ∈ (Finset.range (2 ^ n)).filter (fun c =>
      OraclePre n (gs.getD 0 []) (gs.getD 1 []) (fval f) r c), v c
  | _ => v

theorem nodeApply_kind (n : Nat) (h : Heap) (args : List Nat) (x : Nat) (v : Nat → ℂ) :
    nodeApply n h args x v = kindApply n (h.kind x) (groups h args x) v := rfl

/-- What an operation on groups `gs` of an `n`-qubit circuit needs. -/
def KindFits (n : Nat) (gs : List (List Nat)) : Kind → Prop
  | .gate _ d => d = false
  | .fop f => n ≤ 30 ∧ (∀ i < 2 ^ (gs.getD 0 []).length, ∃ y, f i = .ok y ∧ -2 ^ 31 ≤ y ∧ y < 2 ^ 31) ∧
      (n = gs.flatten.length ∨ n = gs.flatten.length + (gs.getD 1 []).length)
  | _ => False

theorem op_step_core {h : Heap} {env live ins rest : List Nat} (l : Live h env live) (hperm : live.Perm (ins ++ rest))
    {op : OpSpec} (hne : ins ≠ []) {K : Kind}
    (hcons : ∀ V, WF h V → (∀ i ∈ ins, V i) → ins.Nodup → (∀ x ∈ ins, 0 < h.n x) →
      ∃ y h', h.construct op false ins = (.ok y, h') ∧ h'.kind y = K ∧ (ins.map h.n).sum = h'.n y)
    (hK : KindFits (width h live) (ins.map (wires h live)) K) :
    ∃ x h1 outs h2, h.construct op false ins = (.ok x, h1) ∧ h1.split x none = (.ok outs, h2) ∧
      Stepped h live ins rest h2 outs (ins.map (wires h live)) (fun n => kindApply n K (ins.map (wires h live))) := by
  obtain ⟨V0, c0⟩ := l.circuit.ctx
  have hb := l.circuit.built
  obtain ⟨V, hw, hk, hV⟩ := built_wf hb
  have hlive_nd := l.nodup
  have hnd : (ins ++ rest).Nodup := hperm.nodup_iff.1 hlive_nd
  have hins_live : ∀ x ∈ ins, x ∈ live := fun x hx => hperm.mem_iff.2 (List.mem_append_left _ hx)
  have hrest_live : ∀ x ∈ rest, x ∈ live := fun x hx => hperm.mem_iff.2 (List.mem_append_right _ hx)
  have henv : ∀ x ∈ ins, x ∈ env := fun x hx => l.circuit.held x (hins_live x hx)
  have hin : ∀ i ∈ ins, V i := fun i hi => hV i (henv i hi)
  have hpos : ∀ x ∈ ins, 0 < h.n x := fun x hx => l.pos (.arg (hins_live x hx))
  obtain ⟨x, h1, r1, k1, n1⟩ := hcons V hw hin (List.nodup_append.1 hnd).1 hpos
  obtain ⟨e1, w1, s1⟩ := construct_spec hw op false hin
  rw [r1] at e1 w1 s1
  simp only at e1 w1 s1
  have cx := s1 x rfl
  have hb1 := Built.call (.op op false ins) hb henv
  have hex1 : h.exec (.op op false ins) = (.ok [x], h1) := by
    change ((h.construct op false ins).1.map ([·]), (h.construct op false ins).2) = _
    rw [r1]
    rfl
  rw [hex1] at hb1
  simp only at hb1
  have hxlt : x < h1.nodes.length := by have := cx.last; omega
  have hin1 : h1.inputs x = ins := cx.inputs
  have hnmap : ins.map h1.n = ins.map h.n := sum_append_node hw e1 hin
  have hilt : ∀ i ∈ ins, i < h.nodes.length := fun i hi => hw.vlt i (hin i hi)
  -- the split
  have hsplit : ∃ outs h2, h1.split x none = (.ok outs, h2) ∧ Ext h1 h2 ∧ outs.length = ins.length ∧ outs ≠ [] ∧
      outs.Pairwise (· < ·) ∧ (∀ y ∈ outs, h2.sinks y = []) ∧
      ((outs = [x] ∧ h2 = h1) ∨ ((∀ i (hi : i < outs.length), Piece h2 x outs[i] ((ins.take i).map h.n).sum
        ((ins.take (i + 1)).map h.n).sum) ∧ ∀ y ∈ outs, h1.nodes.length ≤ y)) := by
    have free1 : h1.sinks x = [] := by
      apply List.eq_nil_iff_forall_not_mem.2
      intro s hs
      have hs1 := cx.wf.slt _ hxlt s hs
      have hs2 := cx.wf.sin _ hxlt s hs
      have := cx.wf.ilt s hs1 x hs2
      have := cx.last
      omega
    by_cases hlen : ins.length = 1
    · obtain ⟨p, hp⟩ := List.length_eq_one_iff.1 hlen
      exact ⟨[x], h1, split_single (hin1.trans hp), Ext.refl h1, by simp [hlen], by simp, by simp, by simpa using free1,
        Or.inl ⟨rfl, rfl⟩⟩
    · have h2le : 2 ≤ ins.length := by have := List.length_pos_of_ne_nil hne; omega
      obtain ⟨h2, r2, c2⟩ := split_default cx.wf (q := x) (Or.inr rfl) (by rw [hin1]; exact h2le)
        (by
          intro p hp
          rw [hin1] at hp
          rw [e1.n p (hilt p hp)]
          exact hpos p hp)
        (by rw [hin1, hnmap]; exact n1.symm)
      rw [hin1] at r2 c2
      have hpl : (partSums h1 ins).length = ins.length + 1 := by simp [partSums]
      refine ⟨_, h2, r2, c2.ext, by simp, ?_, ?_, ?_, Or.inr ⟨?_, ?_⟩⟩
      · intro e; have := congrArg List.length e; simp at this; exact hne this
      · exact List.pairwise_lt_range'
      · intro y hy
        rw [List.mem_range'_1] at hy
        obtain ⟨i, rfl⟩ := Nat.exists_eq_add_of_le hy.1
        exact c2.free i (by omega)
      · intro i hi
        simp only [List.length_range'] at hi
        have hpc := c2.piece i (by omega)
        rw [partSums_getD (by omega), partSums_getD (by omega)] at hpc
        have q1 : (ins.take i).map h1.n = (ins.take i).map h.n := by rw [List.map_take, List.map_take, hnmap]
        have q2 : (ins.take (i + 1)).map h1.n = (ins.take (i + 1)).map h.n := by rw [List.map_take, List.map_take, hnmap]
        rw [q1, q2] at hpc
        simpa using hpc
      · intro y hy
        exact (List.mem_range'_1.1 hy).1
  obtain ⟨outs, h2, r2, e2, hol, hone, hoasc, hofree, hcase⟩ := hsplit
  have hb2 := Built.call (.split x none) hb1 (by simp [Cmd.args])
  have hex2 : h1.exec (.split x none) = (.ok outs, h2) := r2
  rw [hex2] at hb2
  simp only at hb2
  refine ⟨x, h1, outs, h2, r1, r2, ?_⟩
  set live' := outs ++ rest with hlive'
  have e12 := e1.trans e2
  have hkx : h2.kind x = K := by rw [e2.kind x hxlt, k1]
  have hix : h2.inputs x = ins := by rw [e2.inputs x hxlt, hin1]
  have hnx : h2.n x = (ins.map h.n).sum := by rw [e2.n x hxlt, n1]
  have hnm2 : ins.map h2.n = ins.map h.n := sum_append_node hw e12 hin
  -- new nodes
  obtain ⟨new, hnewx, hnewmem, hnewasc, hnewge⟩ : ∃ new, (∃ P, new = x :: P ∧
      ∀ y ∈ P, ∃ i, ∃ hi : i < outs.length, y = outs[i] ∧ Piece h2 x outs[i] ((ins.take i).map h.n).sum
        ((ins.take (i + 1)).map h.n).sum) ∧ (∀ y, y ∈ new ↔ y = x ∨ y ∈ outs) ∧ new.Pairwise (· < ·) ∧
      ∀ y ∈ new, h.nodes.length ≤ y := by
    rcases hcase with ⟨rfl, rfl⟩ | ⟨hp, hge⟩
    · exact ⟨[x], ⟨[], rfl, by simp⟩, by simp, by simp, by simpa using cx.new⟩
    · refine ⟨x :: outs, ⟨outs, rfl, ?_⟩, by simp, ?_, ?_⟩
      · intro y hy
        obtain ⟨i, hi, rfl⟩ := List.getElem_of_mem hy
        exact ⟨i, hi, rfl, hp i hi⟩
      · refine List.pairwise_cons.2 ⟨?_, hoasc⟩
        intro y hy
        have := hge y hy
        omega
      · intro y hy
        rcases List.mem_cons.1 hy with rfl | hy
        · exact cx.new
        · have := hge y hy
          have := e1.len
          omega
  obtain ⟨P, rfl, hP⟩ := hnewx
  have hpinp : ∀ y ∈ outs, y = x ∨ h2.inputs y = [x] := by
    intro y hy
    rcases List.mem_cons.1 ((hnewmem y).2 (Or.inr hy)) with rfl | hy'
    · exact Or.inl rfl
    · obtain ⟨i, hi, rfl, pc⟩ := hP y hy'
      exact Or.inr pc.inputs
  have hreach_x : Reach h2 live' x := by
    obtain ⟨y, hy⟩ := List.exists_mem_of_ne_nil _ hone
    have hy' : Reach h2 live' y := .arg (List.mem_append_left _ hy)
    rcases hpinp y hy with rfl | hi
    · exact hy'
    · exact .input hy' (by rw [hi]; simp)
  have hreach : ∀ z, Reach h2 live' z ↔ Reach h live z ∨ z ∈ x :: P := by
    intro z
    constructor
    · intro hz
      induction hz with
      | @arg z hz =>
        rcases List.mem_append.1 hz with hz | hz
        · exact Or.inr ((hnewmem z).2 (Or.inr hz))
        · exact Or.inl (.arg (hrest_live z hz))
      | @input z y _ hz ih =>
        rcases ih with ih | ih
        · rw [e12.inputs y (c0.lt ih)] at hz
          exact Or.inl (.input ih hz)
        · rcases List.mem_cons.1 ih with rfl | ih
          · rw [hix] at hz
            exact Or.inl (.arg (hins_live z hz))
          · obtain ⟨i, hi, rfl, pc⟩ := hP y ih
            rw [pc.inputs, List.mem_singleton] at hz
            exact Or.inr (by simp [hz])
    · rintro (hz | hz)
      · induction hz with
        | @arg z hz =>
          rcases List.mem_append.1 (hperm.mem_iff.1 hz) with hz | hz
          · exact .input hreach_x (by rw [hix]; exact hz)
          · exact .arg (List.mem_append_right _ hz)
        | @input z y h0 hz ih =>
          rw [← e12.inputs y (c0.lt h0)] at hz
          exact .input ih hz
      · rcases (hnewmem z).1 hz with rfl | hz
        · exact hreach_x
        · exact .arg (List.mem_append_left _ hz)
  have hg : Grows h live h2 live' (x :: P) := by
    refine ⟨e12, hreach, hnewasc, hnewge, ?_⟩
    intro y hy
    rcases List.mem_cons.1 hy with rfl | hy
    · rw [hix]; exact hne
    · obtain ⟨i, hi, rfl, pc⟩ := hP y hy
      rw [pc.inputs]; simp
  -- wires in the new circuit
  have hwires : ∀ V', Ctx h2 V' live' → groups h2 live' x = ins.map (wires h live) ∧
      wires h2 live' x = (ins.map (wires h live)).flatten ∧
      outs.map (wires h2 live') = ins.map (wires h live) := by
    intro V' c'
    have g1 : groups h2 live' x = ins.map (wires h live) := by
      unfold groups
      rw [hix]
      exact List.map_congr_left fun i hi => hg.wires c0 c' (.arg (hins_live i hi))
    have g2 : wires h2 live' x = (ins.map (wires h live)).flatten := by
      rw [wires_node (by rw [hix]; exact hne) (c'.ilt hreach_x), hkx, ← g1]
      cases K <;> first | rfl | exact hK.elim
    refine ⟨g1, g2, ?_⟩
    rcases hcase with ⟨rfl, rfl⟩ | ⟨hp, hge⟩
    · have : ins.length = 1 := by simpa using hol.symm
      obtain ⟨p, rfl⟩ := List.length_eq_one_iff.1 this
      simpa using g2
    · apply List.ext_getElem
      · simp [hol]
      · intro i hi1 hi2
        simp only [List.length_map] at hi1 hi2
        rw [List.getElem_map]
        have pc := hp i hi1
        have hr : Reach h2 live' outs[i] := .arg (List.mem_append_left _ (List.getElem_mem hi1))
        have hle : ((ins.take i).map h.n).sum ≤ ((ins.take (i + 1)).map h.n).sum := by
          rw [List.take_succ_eq_append_getElem hi2, List.map_append, List.sum_append]; omega
        have hle2 : ((ins.take (i + 1)).map h.n).sum ≤ h2.n x := by
          rw [hnx]
          exact List.Sublist.sum_le_sum ((List.take_sublist _ _).map _) (fun _ _ => Nat.zero_le _)
        rw [piece_wires c' hr pc.inputs pc.kind hle hle2, g2]
        have hlens : (ins.map (wires h live)).map List.length = ins.map h.n := by
          rw [List.map_map]
          exact List.map_congr_left fun i hi => c0.len (.arg (hins_live i hi))
        have := slice_flatten (ins.map (wires h live)) i (by simpa using hi2)
        rw [← this]
        congr 1
        · simp only [List.map_take, hlens]
        · simp only [List.map_take, hlens]
  have hlive2 : Live h2 (env ++ [x] ++ outs) live' := by
    refine l.grow hg hb2 ?_ ?_ ?_ ?_ ?_ ?_
    · intro y hy
      rcases List.mem_append.1 hy with hy | hy
      · exact List.mem_append_right _ hy
      · exact List.mem_append_left _ (List.mem_append_left _ (l.circuit.held y (hrest_live y hy)))
    · intro y hy
      rcases List.mem_cons.1 hy with rfl | hy
      · intro _ _; rw [hix, hnm2, hnx]
      · obtain ⟨i, hi, rfl, pc⟩ := hP y hy
        intro _ hs
        exact absurd pc.kind (hs _)
    · intro y hy
      rcases List.mem_cons.1 hy with rfl | hy
      · intro is hs; rw [hkx] at hs; rw [hs] at hK; exact hK.elim
      · obtain ⟨i, hi, rfl, pc⟩ := hP y hy
        intro is hs j hj
        rw [pc.kind] at hs
        injection hs with hs
        subst hs
        rw [pc.inputs]
        simp only [List.map_cons, List.map_nil, List.sum_cons, List.sum_nil, Nat.add_zero]
        unfold interval at hj
        obtain ⟨t, ht, rfl⟩ := List.mem_map.1 hj
        rw [List.mem_range] at ht
        have hle2 : ((ins.take (i + 1)).map h.n).sum ≤ h2.n x := by
          rw [hnx]
          exact List.Sublist.sum_le_sum ((List.take_sublist _ _).map _) (fun _ _ => Nat.zero_le _)
        omega
    · intro V' c' y hy
      obtain ⟨g1, g2, g3⟩ := hwires V' c'
      have hdist : (ins.map (wires h live)).flatten.Nodup := by
        have h1 : ((ins ++ rest).map (wires h live)).flatten.Nodup := by
          refine (List.Perm.nodup_iff ?_).1 (l.part.nodup_iff.2 List.nodup_range)
          exact (hperm.map _).flatten
        rw [List.map_append, List.flatten_append] at h1
        exact (List.nodup_append.1 h1).1
      rcases List.mem_cons.1 hy with rfl | hy
      · refine ⟨by rw [g1]; exact hdist, ?_, ?_⟩
        · intro g d hgd
          rw [hkx] at hgd
          rw [hgd] at hK
          have hd : d = false := hK
          subst hd
          exact ⟨by rw [hix]; exact hne, by simp⟩
        · intro f hff
          rw [hkx] at hff
          rw [hff] at hK
          rw [g1, hg.width c0 c']
          exact hK
      · obtain ⟨i, hi, rfl, pc⟩ := hP y hy
        refine ⟨?_, ?_, ?_⟩
        · unfold groups
          rw [pc.inputs]
          simpa [g2] using hdist
        · intro g d hgd; rw [pc.kind] at hgd; cases hgd
        · intro f hff; rw [pc.kind] at hff; cases hff
    · intro y hy
      rcases List.mem_cons.1 hy with rfl | hy
      · unfold NoMeasure; rw [hkx]; cases K <;> first | (exact hK.elim) | simp
      · obtain ⟨i, hi, rfl, pc⟩ := hP y hy
        unfold NoMeasure; rw [pc.kind]; simp
    · intro V' c'
      obtain ⟨g1, g2, g3⟩ := hwires V' c'
      have e : live'.map (wires h2 live') = (ins ++ rest).map (wires h live) := by
        rw [hlive', List.map_append, List.map_append, ← hlive', g3]
        congr 1
        exact List.map_congr_left fun i hi => hg.wires c0 c' (.arg (hrest_live i hi))
      rw [e]
      refine List.Perm.trans ?_ l.part
      exact ((hperm.symm.map _).flatten)
  obtain ⟨V', c'⟩ := hlive2.circuit.ctx
  obtain ⟨g1, g2, g3⟩ := hwires V' c'
  refine ⟨⟨_, hlive2⟩, ⟨x :: P, hg, ?_⟩, g3, hofree, ?_⟩
  · intro n v
    have e : applyAll n h2 live' (x :: P) v = applyAll n h2 live' P (nodeApply n h2 live' x v) := rfl
    rw [e, applyAll_id]
    · rw [nodeApply_kind, hkx, g1]
    · intro y hy
      obtain ⟨i, hi, rfl, pc⟩ := hP y hy
      exact ⟨_, pc.kind⟩
  · intro y hy hyn
    have h1s := construct_sinks hw op false hin hy hyn
    rw [r1] at h1s
    have h2s := split_sinks hxlt none (hy.trans_le e1.len) (y := y) (by have := cx.new; omega)
    rw [r2] at h2s
    exact h2s.trans h1s

theorem op_step {h : Heap} {env live ins rest : List Nat} (l : Live h env live) (hperm : live.Perm (ins ++ rest))
    {op : OpSpec} (hf : OpFits op (ins.map h.n)) :
    ∃ x h1 outs h2, h.construct op false ins = (.ok x, h1) ∧ h1.split x none = (.ok outs, h2) ∧
      Stepped h live ins rest h2 outs (ins.map (wires h live))
        (fun n => gateApply n (opGate op (ins.map h.n)) (ins.map (wires h live))) :=
  op_step_core l hperm (by have := opFits_ne hf; rintro rfl; simp at this)
    (K := .gate (opGate op (ins.map h.n)) false) (fun _ hw hin hnd hpos => construct_ok hw op false hin hnd hpos hf) rfl

/-- `F(f, a, b)`. -/
theorem fop_step {h : Heap} {env live rest : List Nat} {a b : Nat} (l : Live h env live)
    (hperm : live.Perm ([a, b] ++ rest)) {f : Nat → Except PyErr Int}
    (hK : KindFits (width h live) [wires h live a, wires h live b] (.fop f)) :
    ∃ x h1 outs h2, h.construct (.fop f) false [a, b] = (.ok x, h1) ∧ h1.split x none = (.ok outs, h2) ∧
      Stepped h live [a, b] rest h2 outs [wires h live a, wires h live b]
        (fun n => kindApply n (.fop f) [wires h live a, wires h live b]) := by
  refine op_step_core l hperm (by simp) (K := .fop f) ?_ hK
  intro V hw hin hnd hpos
  obtain ⟨h', r, e, w, c⟩ := initQubit_ok hw (kind := .fop f) (inputs := [a, b]) (n := none) (qid := none) hin
    qidOK_none (by simp) (initN_pos (by simp) hpos)
  refine ⟨_, h', ?_, c.kindx, ?_⟩
  · unfold construct
    simpa using r
  · rw [c.nx]
    simp [initN]
    omega

end QIP
