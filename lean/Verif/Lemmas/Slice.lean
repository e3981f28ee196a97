import Verif.Lemmas.Pieces

/-! # Qubits of split pieces -/

namespace QIP

open Spec Heap

variable {h : Heap} {V : Nat → Prop} {args : List Nat}

theorem wires_single (c : Ctx h V args) {x q : Nat} {is : List Int} (hx : Reach h args x) (hi : h.inputs x = [q])
    (hk : h.kind x = .split is) : wires h args x = is.map fun i => (wires h args q).getD i.toNat 0 := by
  rw [wires_node (by rw [hi]; simp) (c.ilt hx), hk]
  simp only [groups, hi, List.map_cons, List.map_nil, List.flatten_cons, List.flatten_nil, List.append_nil]

theorem piece_wires (c : Ctx h V args) {x q : Nat} {a b : Nat} (hx : Reach h args x) (hi : h.inputs x = [q])
    (hk : h.kind x = .split (interval a b)) (hab : a ≤ b) (hb : b ≤ h.n q) :
    wires h args x = slice (wires h args q) a b := by
  rw [wires_single c hx hi hk]
  have hl : (wires h args q).length = h.n q := c.len (.input hx (by rw [hi]; simp))
  unfold interval slice
  rw [List.map_map]
  apply List.ext_getElem
  · simp [hl]; omega
  · intro i h1 h2
    simp only [List.length_map, List.length_range] at h1
    simp only [List.getElem_map, List.getElem_range, Function.comp_apply, List.getElem_take, List.getElem_drop]
    have e : ((a : Int) + (i : Nat)).toNat = a + i := by omega
    rw [e, List.getD_eq_getElem _ _ (by omega)]

theorem slices_flatten (l : List Nat) (cs : List Nat) (hc : cs.Pairwise (· < ·)) (h0 : ∀ h : 0 < cs.length, cs[0] = 0)
    (k : Nat) (hk : k < cs.length) :
    ((List.range k).map fun i => slice l (cs.getD i 0) (cs.getD (i + 1) 0)).flatten = l.take cs[k] := by
  induction k with
  | zero => simp [h0 hk]
  | succ k ih =>
    rw [List.range_succ, List.map_append, List.flatten_append, ih (by omega)]
    simp only [List.map_cons, List.map_nil, List.flatten_cons, List.flatten_nil, List.append_nil]
    rw [List.getD_eq_getElem _ _ (by omega : k < cs.length), List.getD_eq_getElem _ _ hk]
    have hlt : cs[k] < cs[k + 1] := List.pairwise_iff_getElem.1 hc k (k + 1) (by omega) hk (by omega)
    unfold slice
    obtain ⟨d, hd⟩ := Nat.exists_eq_add_of_lt hlt
    rw [hd, show cs[k] + d + 1 - cs[k] = d + 1 by omega, show cs[k] + d + 1 = cs[k] + (d + 1) by omega]
    generalize d + 1 = m
    rw [List.take_add]

/-- The pieces made by `split` with strictly increasing cuts. -/
structure Piece (h' : Heap) (q x a b : Nat) : Prop where
  lt : x < h'.nodes.length
  inputs : h'.inputs x = [q]
  kind : h'.kind x = .split (interval a b)
  size : h'.n x = b - a

theorem loop_pieces {h : Heap} {V : Nat → Prop} (hw : WF h V) {q : Nat} (hq : V q) (cs : List Nat) (hne : cs ≠ [])
    (hc : cs.Pairwise (· < ·)) :
    ∃ h', h.splitLoop q (cs.map fun (c : Nat) => (c : Int)) none
        = (.ok (List.range' h.nodes.length (cs.length - 1)), h') ∧ Ext h h' ∧
      h'.nodes.length = h.nodes.length + (cs.length - 1) ∧ (∃ V', WF h' V') ∧
      (∀ i, i + 1 < cs.length → h'.sinks (h.nodes.length + i) = []) ∧
      ∀ i, i + 1 < cs.length → Piece h' q (h.nodes.length + i) (cs.getD i 0) (cs.getD (i + 1) 0) := by
  have hch : (cs.map fun (c : Nat) => (c : Int)).IsChain (· < ·) := by
    apply List.Pairwise.isChain
    rw [List.pairwise_map]
    exact hc.imp (fun h => by omega)
  obtain ⟨h', r, l, e, w, p⟩ := splitLoop_ok hw hq (cs.map fun (c : Nat) => (c : Int)) (by simpa using hne) hch none
    (fun _ => qidOK_none)
  simp only [List.length_map] at r l p
  refine ⟨h', r, e, l, w, ?_, ?_⟩
  · intro i hi
    obtain ⟨V', w⟩ := w
    apply List.eq_nil_iff_forall_not_mem.2
    intro s hs
    have hs1 := w.slt _ (by omega) s hs
    have hs2 := w.sin _ (by omega) s hs
    have hql := hw.vlt q hq
    by_cases hold : s < h.nodes.length
    · rw [e.inputs s hold] at hs2
      have := hw.ilt s hold _ hs2
      omega
    · have := (p (s - h.nodes.length) (by omega)).1
      rw [show h.nodes.length + (s - h.nodes.length) = s by omega] at this
      rw [this, List.mem_singleton] at hs2
      omega
  intro i hi
  obtain ⟨p1, p2, p3, -⟩ := p i hi
  simp only [List.getElem_map] at p2 p3
  rw [List.getD_eq_getElem _ _ (by omega : i < cs.length), List.getD_eq_getElem _ _ hi]
  exact ⟨by omega, p1, p2, by omega⟩

theorem Piece.later {h' h'' : Heap} {q x a b : Nat} (p : Piece h' q x a b) (e : Ext h' h'') : Piece h'' q x a b :=
  ⟨p.lt.trans_le e.len, (e.inputs x p.lt).trans p.inputs, (e.kind x p.lt).trans p.kind, (e.n x p.lt).trans p.size⟩

theorem registerSinks_free {h : Heap} {x : Nat} (items : List Nat) (hnd : items.Nodup)
    (hs : ∀ i ∈ items, i < h.nodes.length ∧ h.sinks i = []) : (h.registerSinks x items).1 = .ok () := by
  induction items generalizing h with
  | nil => rfl
  | cons item rest ih =>
    obtain ⟨h1, h2⟩ := List.nodup_cons.1 hnd
    have hi := hs item (by simp)
    have hset : h.setSink item x = .ok (h.addSink item x) := by
      unfold setSink
      split
      · rw [hi.2]
      · rfl
    unfold registerSinks
    rw [hset]
    refine ih h2 ?_
    intro i hi'
    obtain ⟨a, b⟩ := hs i (by simp [hi'])
    refine ⟨by rw [(same_addSink h item x).len]; exact a, ?_⟩
    rw [sinks_addSink _ _ _ _ hi.1, if_neg (by rintro rfl; exact h1 hi'), b]

theorem registerSinks_used {h : Heap} {x q s : Nat} {l : List Nat} (items : List Nat) (hx : h.kind x = .qubit)
    (hlt : ∀ i ∈ items, i < h.nodes.length) (hq : q ∈ items) (hs : h.sinks q = s :: l) (hne : h.qid s ≠ h.qid x) :
    (h.registerSinks x items).1 = .error .exception := by
  induction items generalizing h l with
  | nil => simp at hq
  | cons item rest ih =>
    unfold registerSinks
    rcases hset : h.setSink item x with e | h'
    · unfold setSink at hset
      rw [hx] at hset
      simp only at hset
      split at hset
      · cases hset
      · split at hset
        · cases hset
        · cases hset
          rfl
    · simp only
      by_cases hqi : q = item
      · subst hqi
        unfold setSink at hset
        rw [hx, hs] at hset
        simp only at hset
        rw [if_neg hne] at hset
        cases hset
      · have e := setSink_ok hset
        subst e
        have same := same_addSink h item x
        have hq' : q ∈ rest := by
          rcases List.mem_cons.1 hq with h0 | h0
          · exact absurd h0 hqi
          · exact h0
        refine ih (l := l) (by rw [same.kind]; exact hx) (fun i hi => by rw [same.len]; exact hlt i (by simp [hi])) hq' ?_
          (by rw [same.qid, same.qid]; exact hne)
        rw [sinks_addSink _ _ _ _ (hlt item (by simp)), if_neg hqi, hs]

/-- Pieces along all cuts hold the qubits of `q` once, in order. -/
theorem pieces_wires (c : Ctx h V args) {q L : Nat} {cs : List Nat} (hc : cs.Pairwise (· < ·))
    (h0 : ∀ c, c ∈ cs → c ≤ h.n q) (hz : 0 ∈ cs) (hn : h.n q ∈ cs) (hpos : 0 < h.n q)
    (hp : ∀ i, i + 1 < cs.length → Piece h q (L + i) (cs.getD i 0) (cs.getD (i + 1) 0))
    (hr : ∀ i, i + 1 < cs.length → Reach h args (L + i)) :
    (∀ i, i + 1 < cs.length → wires h args (L + i) = slice (wires h args q) (cs.getD i 0) (cs.getD (i + 1) 0)) ∧
      ((List.range' L (cs.length - 1)).map (wires h args)).flatten = wires h args q := by
  have hlen : 2 ≤ cs.length := by
    match cs, hz, hn with
    | [], hz, _ => simp at hz
    | [a], hz, hn => simp at hz hn; omega
    | _ :: _ :: _, _, _ => simp
  have hmono : ∀ i j (hi : i < cs.length) (hj : j < cs.length), i < j → cs[i] < cs[j] := fun i j hi hj hij =>
    List.pairwise_iff_getElem.1 hc i j hi hj hij
  have first : cs[0] = 0 := by
    obtain ⟨j, hj, e⟩ := List.getElem_of_mem hz
    rcases Nat.eq_zero_or_pos j with rfl | hj'
    · exact e
    · have := hmono 0 j (by omega) hj hj'; omega
  have last : cs[cs.length - 1] = h.n q := by
    obtain ⟨j, hj, e⟩ := List.getElem_of_mem hn
    rcases Nat.eq_or_lt_of_le (Nat.le_sub_one_of_lt hj) with e' | hj'
    · simp only [← e']; exact e
    · have h1 := hmono j (cs.length - 1) hj (by omega) hj'
      have h2 := h0 _ (List.getElem_mem (by omega : cs.length - 1 < cs.length))
      omega
  have each : ∀ i, i + 1 < cs.length →
      wires h args (L + i) = slice (wires h args q) (cs.getD i 0) (cs.getD (i + 1) 0) := by
    intro i hi
    have p := hp i hi
    refine piece_wires c (hr i hi) p.inputs p.kind ?_ ?_
    · rw [List.getD_eq_getElem _ _ (by omega : i < cs.length), List.getD_eq_getElem _ _ hi]
      exact (hmono i (i + 1) (by omega) hi (by omega)).le
    · rw [List.getD_eq_getElem _ _ hi]
      exact h0 _ (List.getElem_mem hi)
  refine ⟨each, ?_⟩
  have hq : Reach h args q := .input (hr 0 (by omega)) (by rw [(hp 0 (by omega)).inputs]; simp)
  have hl : (wires h args q).length = h.n q := c.len hq
  rw [List.range'_eq_map_range, List.map_map]
  rw [show ((List.range (cs.length - 1)).map (wires h args ∘ fun x => L + x))
      = (List.range (cs.length - 1)).map fun i => slice (wires h args q) (cs.getD i 0) (cs.getD (i + 1) 0) from
    List.map_congr_left fun i hi => each i (by rw [List.mem_range] at hi; omega)]
  rw [slices_flatten _ _ hc (fun _ => first) (cs.length - 1) (by omega), last, ← hl, List.take_length]

/-- Facts about a split at given cuts. -/
structure Cut (h : Heap) (q : Nat) (cs : List Nat) (h' : Heap) : Prop where
  ext : Ext h h'
  len : h'.nodes.length = h.nodes.length + (cs.length - 1)
  free : ∀ i, i + 1 < cs.length → h'.sinks (h.nodes.length + i) = []
  piece : ∀ i, i + 1 < cs.length → Piece h' q (h.nodes.length + i) (cs.getD i 0) (cs.getD (i + 1) 0)

theorem cut_of {h : Heap} {V : Nat → Prop} (hw : WF h V) {q : Nat} (hq : V q) {cs : List Nat} (hne : cs ≠ [])
    (hc : cs.Pairwise (· < ·)) {bs : List Int} (hbs : cs.map (fun (c : Nat) => (c : Int)) = bs) :
    ∃ h', h.splitLoop q bs none = (.ok (List.range' h.nodes.length (cs.length - 1)), h') ∧ Cut h q cs h' := by
  subst hbs
  obtain ⟨h', r, e, l, -, f, p⟩ := loop_pieces hw hq cs hne hc
  exact ⟨h', r, e, l, f, p⟩

theorem mergeSort_sorted (bs : List Int) : (bs.mergeSort fun a b => decide (a ≤ b)).Pairwise (· ≤ ·) := by
  have := List.pairwise_mergeSort (le := fun (a b : Int) => decide (a ≤ b)) (by simp; intros; omega)
    (by simp; intros; omega) bs
  exact this.imp (fun h => by simpa using h)

theorem split_core {h : Heap} {env : List Nat} {q : Nat} {bs : List Int} (hb : Built h env) (hq : q ∈ env)
    (hr : ∀ b ∈ bs, 0 ≤ b ∧ b ≤ h.n q) (hnd : bs.Nodup) :
    ∃ h' cs, h.exec (.split q (some bs)) = (.ok (List.range' h.nodes.length (cs.length - 1)), h') ∧
      Cuts (h.n q) bs cs ∧ Cut h q cs h' := by
  obtain ⟨V, h1, h2, h3⟩ := built_wf hb
  set S := bs.mergeSort fun a b => decide (a ≤ b) with hS
  have hperm : S.Perm bs := List.mergeSort_perm _ _
  obtain ⟨s1, s2, s3⟩ := addEnds_sorted (mergeSort_sorted bs) (n := h.n q) (fun b hb => hr b (hperm.mem_iff.1 hb))
  have hnn : ∀ b ∈ addEnds (h.n q) S, 0 ≤ b ∧ b ≤ h.n q := by
    intro b hb'
    rcases (mem_addEnds _ _ _).1 hb' with rfl | rfl | h
    · omega
    · omega
    · exact hr b (hperm.mem_iff.1 h)
  have hlt : (addEnds (h.n q) S).Pairwise (· < ·) := by
    refine (s1.and (s2 (hperm.nodup_iff.2 hnd))).imp ?_
    rintro a b ⟨x, y⟩
    omega
  set cs := (addEnds (h.n q) S).map Int.toNat with hcs
  have hback : cs.map (fun (c : Nat) => (c : Int)) = addEnds (h.n q) S := by
    rw [hcs, List.map_map]
    conv_rhs => rw [← List.map_id (addEnds (h.n q) S)]
    apply List.map_congr_left
    intro b hb'
    have := (hnn b hb').1
    simp [this]
  have hcuts : Cuts (h.n q) bs cs := by
    constructor
    · rw [hcs, List.pairwise_map]
      refine hlt.imp_of_mem ?_
      intro a b ha hb' hab
      have := hnn a ha
      omega
    · intro c
      rw [hcs, List.mem_map]
      constructor
      · rintro ⟨b, hb', rfl⟩
        have := (hnn b hb').1
        rcases (mem_addEnds _ _ _).1 hb' with rfl | rfl | h
        · simp
        · simp
        · exact Or.inr (Or.inr (by rw [Int.toNat_of_nonneg this]; exact hperm.mem_iff.1 h))
      · intro h
        refine ⟨(c : Int), (mem_addEnds _ _ _).2 ?_, by simp⟩
        rcases h with rfl | rfl | h
        · simp
        · simp
        · exact Or.inr (Or.inr (hperm.mem_iff.2 h))
  have hne : cs ≠ [] := List.ne_nil_of_mem ((hcuts.mem 0).2 (Or.inl rfl))
  obtain ⟨h', r, c⟩ := cut_of h1 (h3 q hq) hne hcuts.asc hback
  exact ⟨h', cs, r, hcuts, c⟩

/-- What the pieces denote later. -/
theorem cut_wires {h h' h'' : Heap} {env env'' args : List Nat} {q : Nat} {cs : List Nat} (hb : Built h env)
    (hq : q ∈ env) (hpos : 0 < h.n q) (hc : Cut h q cs h') (hcs : cs.Pairwise (· < ·)) (hz : 0 ∈ cs) (hn : h.n q ∈ cs)
    (hle : ∀ c ∈ cs, c ≤ h.n q) (he : Ext h' h'') (hcirc : Circuit h'' env'' args)
    (hreach : ∀ x ∈ List.range' h.nodes.length (cs.length - 1), Reach h'' args x) :
    (∀ i, i + 1 < cs.length → wires h'' args (h.nodes.length + i)
        = slice (wires h'' args q) (cs.getD i 0) (cs.getD (i + 1) 0)) ∧
      ((List.range' h.nodes.length (cs.length - 1)).map (wires h'' args)).flatten = wires h'' args q := by
  obtain ⟨V, h1, h2, h3⟩ := built_wf hb
  obtain ⟨V', ctx⟩ := hcirc.ctx
  have hnq : h''.n q = h.n q := (hc.ext.trans he).n q (h1.vlt q (h3 q hq))
  exact pieces_wires ctx hcs (by rw [hnq]; exact hle) hz (by rw [hnq]; exact hn) (by omega)
    (fun i hi => (hc.piece i hi).later he) (fun i hi => hreach _ (List.mem_range'_1.2 ⟨by omega, by omega⟩))

/-- Joining objects nobody has used. -/
theorem join_free {h : Heap} {env xs : List Nat} (hb : Built h env) (hxs : ∀ x ∈ xs, x ∈ env) (hnd : xs.Nodup)
    (hs : ∀ x ∈ xs, h.sinks x = []) (hpos : 0 < (xs.map h.n).sum) :
    ∃ h', h.exec (.qubit xs none none) = (.ok [h.nodes.length], h') ∧ h'.kind h.nodes.length = .qubit ∧
      h'.inputs h.nodes.length = xs ∧ h'.n h.nodes.length = (xs.map h.n).sum ∧
      h'.nodes.length = h.nodes.length + 1 := by
  obtain ⟨V, h1, h2, h3⟩ := built_wf hb
  have hlt : ∀ x ∈ xs, x < h.nodes.length := fun x hx => h1.vlt x (h3 x (hxs x hx))
  have hne : 0 < xs.length := by
    rcases xs with _ | ⟨a, l⟩
    · simp at hpos
    · simp
  have hN : h.initN xs none = ((xs.map h.n).sum : Nat) := by simp [initN, hne]
  have hok : (h.initQubit .qubit xs none none none).1 = .ok h.nodes.length := by
    rw [initQubit_eq]
    rw [if_neg (by simp [badDefault]), if_neg (by rw [hN]; omega)]
    have := registerSinks_free (h := h.push (h.newNode .qubit xs none none none) (h.newNext none))
      (x := h.nodes.length) xs hnd (by
        intro i hi
        refine ⟨by simp [push]; have := hlt i hi; omega, ?_⟩
        unfold Heap.sinks
        rw [node_push_lt _ _ _ (hlt i hi)]
        exact hs i hi)
    rcases hr : (h.push (h.newNode .qubit xs none none none) (h.newNext none)).registerSinks h.nodes.length xs with
      ⟨r, h'⟩
    rw [hr] at this
    simp only at this
    subst this
    rfl
  obtain ⟨e1, -, c1⟩ := initQubit_spec h1 (kind := .qubit) (inputs := xs) (n := none) (qid := none)
    (default := none) (fun x hx => h3 x (hxs x hx)) qidOK_none
  obtain ⟨-, cr⟩ := c1 _ hok
  refine ⟨(h.initQubit .qubit xs none none none).2, ?_, cr.kindx, cr.inputsx, ?_, cr.len⟩
  · unfold exec
    simp only
    rw [hok]
    rfl
  · rw [cr.nx, hN, Int.toNat_natCast]

theorem cumulative_eq (h : Heap) (qs : List Nat) (idx : Nat) :
    h.cumulative qs idx = (List.range qs.length).map fun i => ((idx + ((qs.take (i + 1)).map h.n).sum : Nat) : Int) := by
  induction qs generalizing idx with
  | nil => rfl
  | cons q qs ih =>
    unfold cumulative
    have e : ((idx : Int) + (h.n q : Int)) = ((idx + h.n q : Nat) : Int) := by simp
    rw [e, ih, List.length_cons, List.range_succ_eq_map, List.map_cons, List.map_map]
    simp only [List.cons.injEq]
    refine ⟨by simp; omega, ?_⟩
    apply List.map_congr_left
    intro i _
    simp
    omega

/-- Boundaries of consecutive parts of the given sizes. -/
def partSums (h : Heap) (qs : List Nat) : List Nat :=
  (List.range (qs.length + 1)).map fun i => ((qs.take i).map h.n).sum

theorem partSums_asc {h : Heap} {qs : List Nat} (hpos : ∀ x ∈ qs, 0 < h.n x) : (partSums h qs).Pairwise (· < ·) := by
  rw [List.pairwise_iff_getElem]
  intro i j hi hj hij
  simp [partSums] at hi hj ⊢
  obtain ⟨d, rfl⟩ := Nat.exists_eq_add_of_lt hij
  have e : qs.take (i + d + 1) = qs.take i ++ (qs.drop i).take (d + 1) := by
    rw [show i + d + 1 = i + (d + 1) by omega]
    generalize d + 1 = m
    rw [List.take_add]
  rw [← List.map_take, ← List.map_take, e, List.map_append, List.sum_append]
  have : qs.drop i = qs[i] :: qs.drop (i + 1) := List.drop_eq_getElem_cons (by omega)
  rw [this, List.take_succ_cons, List.map_cons, List.sum_cons]
  have := hpos qs[i] (List.getElem_mem _)
  omega

theorem addEnds_partSums {h : Heap} {qs : List Nat} {n : Nat} (hpos : ∀ x ∈ qs, 0 < h.n x)
    (hn : n = (qs.map h.n).sum) (hne : qs ≠ []) :
    (partSums h qs).map (fun (c : Nat) => (c : Int)) = addEnds n (h.cumulative qs 0) := by
  have hc := cumulative_eq h qs 0
  simp only [Nat.cast_zero, Nat.zero_add] at hc
  have hl : 0 < qs.length := List.length_pos_of_ne_nil hne
  have h0 : (0 : Int) ∉ h.cumulative qs 0 := by
    rw [hc]
    simp only [List.mem_map, List.mem_range, not_exists, not_and]
    intro i hi
    match qs, hi with
    | q :: qs, hi =>
      rw [List.take_succ_cons, List.map_cons, List.sum_cons]
      have := hpos q (by simp)
      omega
  have hn' : (n : Int) ∈ h.cumulative qs 0 := by
    rw [hc, List.mem_map]
    refine ⟨qs.length - 1, by rw [List.mem_range]; omega, ?_⟩
    rw [show qs.length - 1 + 1 = qs.length by omega, List.take_length, hn]
  unfold addEnds
  simp only
  rw [if_neg h0, if_pos (List.mem_cons_of_mem _ hn'), hc]
  unfold partSums
  rw [List.map_map, List.range_succ_eq_map, List.map_cons, List.map_map]
  rfl

theorem slice_flatten (L : List (List Nat)) (i : Nat) (hi : i < L.length) :
    slice L.flatten (((L.take i).map List.length).sum) (((L.take (i + 1)).map List.length).sum) = L[i] := by
  have := List.drop_take_succ_flatten_eq_getElem L i hi
  unfold slice
  rw [← List.drop_take, List.map_take, List.map_take]
  exact this

end QIP
