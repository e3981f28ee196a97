import Verif.Lemmas.Slice

/-!
# C38-C40, C44, C45: splitting, consuming, ids and rejected constructions
-/

namespace QIP.Props

open QIP Spec Heap

/-- **C38**, `q.split(boundaries)` with boundaries inside the register: repeated boundaries (also 0 or `n` given twice)
would make an empty part and raise; otherwise one qubit per pair of neighbouring cuts is returned, of that size, which
in every later circuit denotes the qubits of `q` between the cuts; together they are the qubits of `q` in order. -/
theorem C38_split_partial {h : Heap} {env : List Nat} {q : Nat} {bs : List Int} (hb : Built h env) (hq : q ∈ env)
    (hpos : 0 < h.n q) (hr : ∀ b ∈ bs, 0 ≤ b ∧ b ≤ h.n q) :
    (¬ bs.Nodup → (h.exec (.split q (some bs))).1 = .error .exception) ∧
    (bs.Nodup → ∃ xs h' cs, h.exec (.split q (some bs)) = (.ok xs, h') ∧ Cuts (h.n q) bs cs ∧
      xs.length + 1 = cs.length ∧ xs.Nodup ∧
      (∀ i (hi : i < xs.length), h'.n xs[i] = cs.getD (i + 1) 0 - cs.getD i 0) ∧
      ∀ h'' env'' args, Later h' (env ++ xs) h'' env'' → Circuit h'' env'' args → (∀ x ∈ xs, Reach h'' args x) →
        (∀ i (hi : i < xs.length), wires h'' args xs[i]
          = slice (wires h'' args q) (cs.getD i 0) (cs.getD (i + 1) 0)) ∧
        (xs.map (wires h'' args)).flatten = wires h'' args q) := by
  obtain ⟨V, h1, h2, h3⟩ := built_wf hb
  change (¬ bs.Nodup → (h.splitLoop q (addEnds (h.n q) (bs.mergeSort fun a b => decide (a ≤ b))) none).1 = _) ∧ _
  constructor
  · intro hnd
    have hperm := List.mergeSort_perm bs fun a b => decide (a ≤ b)
    obtain ⟨s1, s2, s3⟩ := addEnds_sorted (mergeSort_sorted bs) (n := h.n q) (fun b hb => hr b (hperm.mem_iff.1 hb))
    refine splitLoop_err h1 (h3 q hq) _ ?_ none (fun _ => qidOK_none)
    intro hc
    apply hnd
    have hp := List.isChain_iff_pairwise.1 hc
    have : (addEnds (h.n q) (bs.mergeSort fun a b => decide (a ≤ b))).Nodup := hp.imp (fun h => by omega)
    exact hperm.nodup_iff.1 (this.sublist s3)
  · intro hnd
    obtain ⟨h', cs, r, hcuts, hc⟩ := split_core hb hq hr hnd
    have hcl : 0 < cs.length := List.length_pos_of_mem ((hcuts.mem 0).2 (Or.inl rfl))
    refine ⟨_, h', cs, r, hcuts, by simp; omega, List.nodup_range', ?_, ?_⟩
    · intro i hi
      simp at hi
      rw [List.getElem_range', Nat.one_mul]
      exact (hc.piece i (by omega)).size
    · intro h'' env'' args hl hcirc hreach
      have hb' := Built.call (.split q (some bs)) hb (by simpa [Cmd.args] using hq)
      rw [r] at hb'
      obtain ⟨-, e2, -⟩ := later_spec hb' hl
      have hle : ∀ c ∈ cs, c ≤ h.n q := by
        intro c hc
        rcases (hcuts.mem c).1 hc with rfl | rfl | h
        · omega
        · omega
        · have := hr _ h; omega
      obtain ⟨k1, k2⟩ := cut_wires hb hq hpos hc hcuts.asc ((hcuts.mem 0).2 (Or.inl rfl))
        ((hcuts.mem _).2 (Or.inr (Or.inl rfl))) hle e2 hcirc hreach
      refine ⟨?_, k2⟩
      intro i hi
      simp at hi
      rw [List.getElem_range', Nat.one_mul]
      exact k1 i (by omega)

/-- A heap with one three-qubit register. -/
noncomputable def three : Heap := (empty.exec (.qubit [] (some 3) none)).2

theorem three_built : Built three [0] := Built.call (.qubit [] (some 3) none) Built.start (by simp [Cmd.args])

/-- C38 is about real cases: splitting three qubits after the first. -/
example : ∃ xs h' cs, three.exec (.split 0 (some [1])) = (.ok xs, h') ∧ Cuts (three.n 0) [1] cs := by
  obtain ⟨xs, h', cs, a, b, -⟩ := (C38_split_partial three_built (q := 0) (by simp) (by change 0 < 3; decide) (bs := [1])
    (by intro b hb; simp at hb; subst hb; change (0 : Int) ≤ 1 ∧ (1 : Int) ≤ 3; decide)).2 (by simp)
  exact ⟨xs, h', cs, a, b⟩

/-- **C38**, joining the parts again: `Qubit(*q.split(boundaries))` is accepted and denotes the qubits of `q`. -/
theorem C38_rejoin_partial {h : Heap} {env : List Nat} {q : Nat} {bs : List Int} (hb : Built h env) (hq : q ∈ env)
    (hpos : 0 < h.n q) (hr : ∀ b ∈ bs, 0 ≤ b ∧ b ≤ h.n q) (hnd : bs.Nodup) :
    ∃ xs h' y h2, h.exec (.split q (some bs)) = (.ok xs, h') ∧ h'.exec (.qubit xs none none) = (.ok [y], h2) ∧
      ∀ h'' env'' args, Later h2 (env ++ xs ++ [y]) h'' env'' → Circuit h'' env'' args → Reach h'' args y →
        wires h'' args y = wires h'' args q ∧ h''.n y = h''.n q := by
  obtain ⟨h', cs, r, hcuts, hc⟩ := split_core hb hq hr hnd
  have hz : 0 ∈ cs := (hcuts.mem 0).2 (Or.inl rfl)
  have hn : h.n q ∈ cs := (hcuts.mem _).2 (Or.inr (Or.inl rfl))
  have hcl : 0 < cs.length := List.length_pos_of_mem hz
  have hcl2 : 1 < cs.length := by
    match cs, hz, hn with
    | [a], hz, hn => simp at hz hn; omega
    | _ :: _ :: _, _, _ => simp
  have hle : ∀ c ∈ cs, c ≤ h.n q := by
    intro c hc
    rcases (hcuts.mem c).1 hc with rfl | rfl | h
    · omega
    · omega
    · have := hr _ h; omega
  have hb' := Built.call (.split q (some bs)) hb (by simpa [Cmd.args] using hq)
  rw [r] at hb'
  simp only at hb'
  obtain ⟨h2, r2, k2, i2, n2, l2⟩ := join_free (xs := List.range' h.nodes.length (cs.length - 1)) hb'
    (fun x hx => List.mem_append_right _ hx) List.nodup_range'
    (by
      intro x hx
      rw [List.mem_range'_1] at hx
      obtain ⟨i, rfl⟩ := Nat.exists_eq_add_of_le hx.1
      exact hc.free i (by omega))
    (by
      have p := (hc.piece 0 (by omega)).size
      rw [List.getD_eq_getElem _ _ (by omega : 0 < cs.length), List.getD_eq_getElem _ _ (by omega : 0 + 1 < cs.length)] at p
      simp only [Nat.zero_add] at p
      have := List.pairwise_iff_getElem.1 hcuts.asc 0 1 (by omega) (by omega) (by omega)
      have hm : h'.n (h.nodes.length + 0) ∈ (List.range' h.nodes.length (cs.length - 1)).map h'.n :=
        List.mem_map.2 ⟨_, List.mem_range'_1.2 ⟨by omega, by omega⟩, rfl⟩
      have := List.single_le_sum (fun _ _ => Nat.zero_le _) _ hm
      omega)
  refine ⟨_, h', _, h2, r, r2, ?_⟩
  intro h'' env'' args hl hcirc hy
  have hb2 := Built.call (.qubit (List.range' h.nodes.length (cs.length - 1)) none none) hb'
    (fun x hx => List.mem_append_right _ hx)
  rw [r2] at hb2
  obtain ⟨-, e3, -⟩ := later_spec hb2 hl
  obtain ⟨e2, -⟩ := built_exec hb' (cmd := .qubit (List.range' h.nodes.length (cs.length - 1)) none none)
    (fun x hx => List.mem_append_right _ hx)
  rw [r2] at e2
  simp only at e2
  have hylt : h'.nodes.length < h2.nodes.length := by omega
  have hi : h''.inputs h'.nodes.length = List.range' h.nodes.length (cs.length - 1) := by rw [e3.inputs _ hylt, i2]
  have hk : h''.kind h'.nodes.length = .qubit := by rw [e3.kind _ hylt, k2]
  obtain ⟨V', ctx⟩ := hcirc.ctx
  obtain ⟨-, w⟩ := cut_wires hb hq hpos hc hcuts.asc hz hn hle (e2.trans e3) hcirc
    (fun x hx => .input hy (by rw [hi]; exact hx))
  have hne : h''.inputs h'.nodes.length ≠ [] := by
    rw [hi]; intro e; have := congrArg List.length e; simp at this; omega
  have hw : wires h'' args h'.nodes.length = wires h'' args q := by
    rw [wires_node hne (ctx.ilt hy), hk]
    simp only
    unfold groups
    rw [hi, w]
  refine ⟨hw, ?_⟩
  have hx0 : Reach h'' args (h.nodes.length + 0) := .input hy (by rw [hi]; exact List.mem_range'_1.2 ⟨by omega, by omega⟩)
  have hq0 : Reach h'' args q := .input hx0 (by
    rw [((hc.piece 0 (by omega)).later (e2.trans e3)).inputs]; simp)
  rw [← ctx.len hy, ← ctx.len hq0, hw]

/-- **C38**, `q.split()`: a qubit without inputs gives one part, a node with one input is returned itself, otherwise
there is one part per input, denoting the same qubits as that input. -/
theorem C38_split_default {h : Heap} {env : List Nat} {q : Nat} (hb : Built h env) (hq : q ∈ env) (hpos : 0 < h.n q) :
    (∀ p, h.inputs q = [p] → h.exec (.split q none) = (.ok [q], h)) ∧
    (h.inputs q = [] → ∃ x h', h.exec (.split q none) = (.ok [x], h') ∧
      ∀ h'' env'' args, Later h' (env ++ [x]) h'' env'' → Circuit h'' env'' args → Reach h'' args x →
        wires h'' args x = wires h'' args q) ∧
    (2 ≤ (h.inputs q).length → (∀ p ∈ h.inputs q, 0 < h.n p) → SizeOK h q →
      ∃ xs h', h.exec (.split q none) = (.ok xs, h') ∧ xs.map h'.n = (h.inputs q).map h.n ∧
      ∀ h'' env'' args, Later h' (env ++ xs) h'' env'' → Circuit h'' env'' args → (∀ x ∈ xs, Reach h'' args x) →
        xs.map (wires h'' args) = (h.inputs q).map (wires h'' args)) := by
  obtain ⟨V, h1, h2, h3⟩ := built_wf hb
  have hclen : (h.cumulative (h.inputs q) 0).length = (h.inputs q).length := by
    have := congrArg List.length (cumulative_eq h (h.inputs q) 0)
    simpa using this
  have hexec : h.exec (.split q none) = if (h.cumulative (h.inputs q) 0).length = 1 then (.ok [q], h)
      else h.splitLoop q (addEnds (h.n q) (h.cumulative (h.inputs q) 0)) none := rfl
  rw [hexec, hclen]
  refine ⟨?_, ?_, ?_⟩
  · intro p hp
    rw [if_pos (by rw [hp]; rfl)]
  · intro he
    rw [if_neg (by rw [he]; simp)]
    obtain ⟨h', r, c⟩ := cut_of h1 (h3 q hq) (cs := [0, h.n q]) (by simp) (by simpa using hpos)
      (bs := addEnds (h.n q) (h.cumulative (h.inputs q) 0)) (by
        rw [he]
        simp [cumulative, addEnds]
        omega)
    refine ⟨h.nodes.length, h', r, ?_⟩
    intro h'' env'' args hl hcirc hx
    have hb' := Built.call (.split q none) hb (by simpa [Cmd.args] using hq)
    rw [hexec, hclen, if_neg (by rw [he]; simp), r] at hb'
    obtain ⟨-, e2, -⟩ := later_spec hb' hl
    obtain ⟨-, w⟩ := cut_wires hb hq hpos c (by simpa using hpos) (by simp) (by simp) (by simp) e2 hcirc (by
      intro x hx'
      simp at hx'
      subst hx'
      exact hx)
    simpa using w
  · intro hlen hp hsize
    rw [if_neg (by omega)]
    have hne : h.inputs q ≠ [] := by intro e; rw [e] at hlen; simp at hlen
    have hnosplit : ∀ is, h.kind q ≠ .split is := by
      intro is e
      have := h2 q (h3 q hq)
      unfold KindOK at this
      rw [e] at this
      obtain ⟨-, -, p, hp⟩ := this
      rw [hp] at hlen
      simp at hlen
    have hsum := hsize hne hnosplit
    obtain ⟨h', r, c⟩ := cut_of h1 (h3 q hq) (cs := partSums h (h.inputs q)) (by simp [partSums])
      (partSums_asc hp) (addEnds_partSums hp hsum hne)
    have hlp : (partSums h (h.inputs q)).length = (h.inputs q).length + 1 := by simp [partSums]
    have hget : ∀ i, i ≤ (h.inputs q).length → (partSums h (h.inputs q)).getD i 0
        = (((h.inputs q).take i).map h.n).sum := by
      intro i hi
      rw [List.getD_eq_getElem _ _ (by omega)]
      simp [partSums]
    refine ⟨_, h', r, ?_, ?_⟩
    · apply List.ext_getElem
      · simp [hlp]
      · intro i hi1 hi2
        simp at hi2
        rw [List.getElem_map, List.getElem_map, List.getElem_range', Nat.one_mul, (c.piece i (by omega)).size,
          hget i (by omega), hget (i + 1) (by omega)]
        rw [List.take_succ_eq_append_getElem hi2, List.map_append, List.sum_append]
        simp
    · intro h'' env'' args hl hcirc hx
      have hb' := Built.call (.split q none) hb (by simpa [Cmd.args] using hq)
      rw [hexec, hclen, if_neg (by omega), r] at hb'
      obtain ⟨-, e2, -⟩ := later_spec hb' hl
      have hqlt := h1.vlt q (h3 q hq)
      obtain ⟨w, -⟩ := cut_wires hb hq hpos c (partSums_asc hp)
        (List.mem_map.2 ⟨0, by simp, by simp⟩)
        (List.mem_map.2 ⟨(h.inputs q).length, by simp, by rw [List.take_length, hsum]⟩)
        (by
          intro k hk
          obtain ⟨i, -, rfl⟩ := List.mem_map.1 hk
          rw [hsum]
          exact List.Sublist.sum_le_sum ((List.take_sublist _ _).map _) (fun _ _ => Nat.zero_le _))
        e2 hcirc hx
      obtain ⟨V', ctx⟩ := hcirc.ctx
      have ein : h''.inputs q = h.inputs q := (c.ext.trans e2).inputs q hqlt
      have hq0 : Reach h'' args q := .input (hx (h.nodes.length + 0) (List.mem_range'_1.2 ⟨by omega, by omega⟩)) (by
        rw [((c.piece 0 (by omega)).later e2).inputs]; simp)
      have hwq : wires h'' args q = (groups h'' args q).flatten := by
        rw [wires_node (by rw [ein]; exact hne) (ctx.ilt hq0), (c.ext.trans e2).kind q hqlt]
        split
        · rename_i is hk; exact absurd hk (hnosplit is)
        · rfl
      have hgl : (groups h'' args q).map List.length = (h.inputs q).map h.n := by
        rw [ctx.len_groups hq0, ein]
        exact List.map_congr_left fun i hi => (c.ext.trans e2).n i ((h1.ilt q hqlt i hi).trans hqlt)
      have hglen : (groups h'' args q).length = (h.inputs q).length := by simp [groups, ein]
      apply List.ext_getElem
      · simp [hlp]
      · intro i hi1 hi2
        simp at hi2
        rw [List.getElem_map, List.getElem_map, List.getElem_range', Nat.one_mul, w i (by omega), hget i (by omega),
          hget (i + 1) (by omega), hwq]
        have := slice_flatten (groups h'' args q) i (by omega)
        rw [List.map_take, List.map_take, hgl] at this
        rw [List.map_take, List.map_take, this]
        simp [groups, ein]

/-- **C39**, for a non-empty list of different positions that does not list all of them: the first result denotes the
selected qubits in the order given, the second the others in their order; together every qubit once. -/
theorem C39_extract_partial {h : Heap} {env : List Nat} {q : Nat} {is : List Int} (hb : Built h env) (hq : q ∈ env)
    (hnd : is.Nodup) (hr : ∀ i ∈ is, 0 ≤ i ∧ i < h.n q) (hne : is ≠ []) (hall : is.length < h.n q) :
    ∃ (x y : Nat) (h' : Heap) (rest : List Nat), h.exec (.extract q (.many is)) = (.ok [x, y], h') ∧ x ≠ y ∧ rest.Pairwise (· < ·) ∧
      (∀ j : Nat, j ∈ rest ↔ j < h.n q ∧ (j : Int) ∉ is) ∧ h'.n x = is.length ∧ h'.n y = rest.length ∧
      ∀ h'' env'' args, Later h' (env ++ [x, y]) h'' env'' → Circuit h'' env'' args → Reach h'' args x →
        Reach h'' args y →
        wires h'' args x = is.map (fun i => (wires h'' args q).getD i.toNat 0) ∧
        wires h'' args y = rest.map (fun j => (wires h'' args q).getD j 0) ∧
        (wires h'' args x ++ wires h'' args y).Perm (wires h'' args q) := by
  obtain ⟨V, h1, h2, h3⟩ := built_wf hb
  set rest := (List.range (h.n q)).filter fun (j : Nat) => decide ((j : Int) ∉ is) with hrest
  have hsel : (is.filter fun (i : Int) => 0 ≤ i ∧ i < (h.n q : Int)) = is :=
    List.filter_eq_self.2 (fun i hi => by simpa using hr i hi)
  have hrest' : (((List.range (h.n q)).map fun (i : Nat) => (i : Int)).filter fun i => i ∉ is)
      = rest.map fun (j : Nat) => (j : Int) := by
    rw [List.filter_map]; rfl
  have hmem : ∀ j : Nat, j ∈ rest ↔ j < h.n q ∧ (j : Int) ∉ is := by
    intro j; simp [hrest]
  have hasc : rest.Pairwise (· < ·) := List.pairwise_lt_range.filter _
  have hperm : (is ++ rest.map fun (j : Nat) => (j : Int)).Perm ((List.range (h.n q)).map fun (i : Nat) => (i : Int)) := by
    have hnd2 : (rest.map fun (j : Nat) => (j : Int)).Nodup :=
      List.Nodup.map (fun a b e => by simpa using e) (hasc.imp (fun h => by omega))
    refine (List.perm_ext_iff_of_nodup (List.nodup_append.2 ⟨hnd, hnd2, ?_⟩)
      (List.Nodup.map (fun a b e => by simpa using e) List.nodup_range)).2 ?_
    · intro a ha b hb' e
      subst e
      obtain ⟨j, hj, rfl⟩ := List.mem_map.1 hb'
      exact ((hmem j).1 hj).2 ha
    · intro a
      simp only [List.mem_append, List.mem_map, List.mem_range]
      constructor
      · rintro (ha | ⟨j, hj, rfl⟩)
        · have := hr a ha
          exact ⟨a.toNat, by omega, by omega⟩
        · exact ⟨j, ((hmem j).1 hj).1, rfl⟩
      · rintro ⟨j, hj, rfl⟩
        by_cases hj' : (j : Int) ∈ is
        · exact Or.inl hj'
        · exact Or.inr ⟨j, (hmem j).2 ⟨hj, hj'⟩, rfl⟩
  have hlen : is.length + rest.length = h.n q := by
    have := hperm.length_eq
    simpa using this
  have hpos := List.length_pos_of_ne_nil hne
  obtain ⟨ha, r1, e1, w1, c1⟩ := initQubit_ok h1 (kind := .split is) (inputs := [q]) (n := some is.length) (qid := none)
    (by simpa using h3 q hq) qidOK_none (by simp) (by simp only [initN]; omega)
  obtain ⟨hb2, r2, e2, w2, c2⟩ := initQubit_ok w1 (kind := .split (rest.map fun (j : Nat) => (j : Int))) (inputs := [q])
    (n := some (rest.map fun (j : Nat) => (j : Int)).length)
    (qid := some (ha.qid h.nodes.length)) (by simpa using Or.inl (h3 q hq))
    (qidOK_of_last w1 (Or.inr rfl) (by rw [c1.len]) c1.inputsx c1.kindx) (by simp)
    (by simp only [initN, List.length_map]; omega)
  have hx : h.nodes.length < ha.nodes.length := by rw [c1.len]; omega
  have hx2 : ha.nodes.length < hb2.nodes.length := by rw [c2.len]; omega
  have hexec : h.exec (.extract q (.many is)) = (.ok [h.nodes.length, ha.nodes.length], hb2) := by
    unfold exec extractIndex
    simp only
    rw [hsel, hrest', r1]
    simp only
    rw [r2]
    rfl
  refine ⟨_, _, hb2, rest, hexec, by omega, hasc, hmem, ?_, ?_, ?_⟩
  · rw [e2.n _ hx, c1.nx]; simp [initN]
  · rw [c2.nx]; simp [initN]
  · intro h'' env'' args hl hcirc hrx hry
    have hb' := Built.call (.extract q (.many is)) hb (by simpa [Cmd.args] using hq)
    rw [hexec] at hb'
    simp only at hb'
    obtain ⟨-, e3, -⟩ := later_spec hb' hl
    obtain ⟨V', ctx⟩ := hcirc.ctx
    have hix : h''.inputs h.nodes.length = [q] := by rw [e3.inputs _ (by omega), e2.inputs _ hx, c1.inputsx]
    have hkx : h''.kind h.nodes.length = .split is := by rw [e3.kind _ (by omega), e2.kind _ hx, c1.kindx]
    have hiy : h''.inputs ha.nodes.length = [q] := by rw [e3.inputs _ hx2, c2.inputsx]
    have hky : h''.kind ha.nodes.length = .split (rest.map fun (j : Nat) => (j : Int)) := by
      rw [e3.kind _ hx2, c2.kindx]
    have wx := wires_single ctx hrx hix hkx
    have wy := wires_single ctx hry hiy hky
    refine ⟨wx, by rw [wy, List.map_map]; rfl, ?_⟩
    rw [wx, wy, ← List.map_append]
    refine (hperm.map _).trans (List.Perm.of_eq ?_)
    have hql : (wires h'' args q).length = h.n q := by
      have hrq : Reach h'' args q := .input hrx (by rw [hix]; simp)
      rw [ctx.len hrq]
      exact ((e1.trans e2).trans e3).n q (h1.vlt q (h3 q hq))
    apply List.ext_getElem
    · simp [hql]
    · intro i hi1 hi2
      simp [hi2]

/-- C39 is about real cases. -/
example : ∃ x y h', three.exec (.extract 0 (.many [2, 0])) = (.ok [x, y], h') := by
  obtain ⟨x, y, h', -, e, -⟩ := C39_extract_partial three_built (q := 0) (is := [2, 0]) (by simp) (by decide)
    (by intro i hi; change 0 ≤ i ∧ i < (3 : Int); simp at hi; omega) (by simp) (by change 2 < 3; decide)
  exact ⟨x, y, h', e⟩

/-- **C39** fails for a single position: the test for an int can never succeed, so a `TypeError` is raised. -/
theorem C39_int_fails (h : Heap) (q : Nat) (i : Int) : h.exec (.extract q (.one i)) = (.error .typeError, h) := rfl

/-- **C39** fails if nothing or everything is selected: the empty part cannot be constructed. -/
theorem C39_empty_part {h : Heap} {env : List Nat} {q : Nat} {is : List Int} (hb : Built h env) (hq : q ∈ env)
    (hc : is = [] ∨ ∀ j : Nat, j < h.n q → (j : Int) ∈ is) :
    (h.exec (.extract q (.many is))).1 = .error .exception := by
  obtain ⟨V, h1, h2, h3⟩ := built_wf hb
  unfold exec extractIndex
  simp only
  set sel := is.filter fun (i : Int) => 0 ≤ i ∧ i < (h.n q : Int) with hsel
  by_cases hs : sel.length = 0
  · rw [initQubit_empty (by simp [initN, hs])]
    rfl
  · have hrest : (((List.range (h.n q)).map fun (i : Nat) => (i : Int)).filter fun i => i ∉ is) = [] := by
      rcases hc with rfl | hc
      · simp [hsel] at hs
      · rw [List.filter_eq_nil_iff]
        intro i hi
        obtain ⟨j, hj, rfl⟩ := List.mem_map.1 hi
        rw [List.mem_range] at hj
        simpa using hc j hj
    obtain ⟨ha, r1, e1, w1, c1⟩ := initQubit_ok h1 (kind := .split sel) (inputs := [q]) (n := some sel.length)
      (qid := none) (by simpa using h3 q hq) qidOK_none (by simp) (by simp only [initN]; omega)
    rw [r1, hrest]
    simp only
    rw [initQubit_empty (by simp [initN])]
    rfl

/-- **C39** fails for repeated positions: the "selected" qubit is accepted and holds the same qubit twice. -/
theorem C39_duplicates : ∃ h', three.exec (.extract 0 (.many [0, 0])) = (.ok [1, 2], h') ∧
    h'.kind 1 = .split [0, 0] ∧ h'.n 1 = 2 ∧ h'.inputs 1 = [0] :=
  ⟨(three.exec (.extract 0 (.many [0, 0]))).2, rfl, rfl, rfl, rfl⟩

/-- **C40**, what is enforced: joining into a `Qubit` raises if one of the inputs was already used by anything. -/
theorem C40_join_partial {h : Heap} {env inputs : List Nat} {q : Nat} (hb : Built h env) (hin : ∀ x ∈ inputs, x ∈ env)
    (hq : q ∈ inputs) (hs : h.sinks q ≠ []) (n : Option Int) (default : Option Default) :
    ∃ e h', h.exec (.qubit inputs n default) = (.error e, h') := by
  obtain ⟨V, h1, h2, h3⟩ := built_wf hb
  have hlt : ∀ x ∈ inputs, x < h.nodes.length := fun x hx => h1.vlt x (h3 x (hin x hx))
  rcases hsq : h.sinks q with _ | ⟨s, l⟩
  · exact absurd hsq hs
  have hslt := h1.slt q (hlt q hq) s (by rw [hsq]; simp)
  unfold exec
  simp only
  rw [initQubit_eq]
  split
  · exact ⟨_, _, rfl⟩
  · split
    · exact ⟨_, _, rfl⟩
    · have := registerSinks_used (h := h.push (h.newNode .qubit inputs n none default) (h.newNext none))
        (x := h.nodes.length) (q := q) (s := s) (l := l) inputs (by unfold Heap.kind; rw [node_push_eq]; rfl)
        (by intro i hi; have := hlt i hi; simp [push]; omega) hq
        (by unfold Heap.sinks; rw [node_push_lt _ _ _ (hlt q hq)]; exact hsq)
        (by
          unfold Heap.qid
          rw [node_push_lt _ _ _ hslt, node_push_eq]
          have := h1.qlt s hslt
          simp only [newNode, Option.getD_none]
          unfold Heap.qid at this
          omega)
      rcases hr : (h.push (h.newNode .qubit inputs n none default) (h.newNext none)).registerSinks h.nodes.length inputs
        with ⟨r, h'⟩
      rw [hr] at this
      simp only at this
      subst this
      exact ⟨_, _, rfl⟩

/-- Joining a used qubit: `H` was applied to it before. -/
example : ∃ e h', demo.exec (.qubit [1, 0] none none) = (.error e, h') :=
  C40_join_partial demo_built (q := 0) (by decide) (by simp) (by change [2] ≠ []; simp) none none

/-- **C40** is not enforced for operations: any qubit, used before or not, can be used by another operation. -/
theorem C40_not_enforced {h : Heap} {env : List Nat} {q : Nat} (hb : Built h env) (hq : q ∈ env) (hpos : 0 < h.n q) :
    ∃ x h', h.exec (.op (.gate .h) false [q]) = (.ok [x], h') ∧ h'.inputs x = [q] := by
  obtain ⟨V, h1, h2, h3⟩ := built_wf hb
  obtain ⟨h', r, -, -, c⟩ := initQubit_ok h1 (kind := .gate .h false) (inputs := [q]) (n := none) (qid := none)
    (by simpa using h3 q hq) qidOK_none (by simp) (by simp [initN, hpos])
  refine ⟨h.nodes.length, h', ?_, c.inputsx⟩
  unfold exec construct mkSimple
  simp only
  rw [r]
  rfl

/-- The witness against C40: the qubit `0` of the example circuit, consumed by `H`, is consumed again. -/
example : demo.sinks 0 ≠ [] ∧ ∃ x h', demo.exec (.op (.gate .h) false [0]) = (.ok [x], h') ∧ h'.inputs x = [0] :=
  ⟨by change [2] ≠ []; simp, C40_not_enforced demo_built (by simp) (by change 0 < 2; decide)⟩

/-- **C44**: ids grow along edges. -/
theorem C44_larger {h : Heap} {env : List Nat} (hb : Built h env) {x i : Nat} (hx : x ∈ env) (hi : i ∈ h.inputs x) :
    h.qid i < h.qid x := by
  obtain ⟨V, h1, h2, h3⟩ := built_wf hb
  exact h1.qedge x (h1.vlt x (h3 x hx)) i hi

/-- **C44**: what a call returns has an id larger than everything that existed before (unless the call returned
something the user already had, as `split()` of a node with one input does). -/
theorem C44_fresh {h : Heap} {env : List Nat} (hb : Built h env) {cmd : Cmd} (hargs : ∀ x ∈ cmd.args, x ∈ env)
    {xs : List Nat} {h' : Heap} (hok : h.exec cmd = (.ok xs, h')) {x y : Nat} (hx : x ∈ xs) (hnew : x ∉ env)
    (hy : y ∈ env) : h'.qid y < h'.qid x := by
  obtain ⟨V, h1, h2, h3⟩ := built_wf hb
  obtain ⟨e, hr⟩ := built_exec hb hargs
  rw [hok] at e hr
  rcases hr xs rfl x hx with h0 | ⟨-, -, -, h0⟩
  · exact absurd h0 hnew
  · have hlt := h1.vlt y (h3 y hy)
    rw [e.qid y hlt]
    exact (h1.qlt y hlt).trans_le h0

/-- **C44**: different objects with the same id are pieces of the same qubit. -/
theorem C44_shared {h : Heap} {env : List Nat} (hb : Built h env) {x y : Nat} (hx : x ∈ env) (hy : y ∈ env)
    (hne : x ≠ y) (hid : h.qid x = h.qid y) :
    ∃ p is js, h.inputs x = [p] ∧ h.inputs y = [p] ∧ h.kind x = .split is ∧ h.kind y = .split js := by
  obtain ⟨V, h1, h2, h3⟩ := built_wf hb
  rcases Nat.lt_or_gt_of_ne hne with hlt | hlt
  · exact h1.tie x y (h3 x hx) (h3 y hy) hlt hid
  · obtain ⟨p, is, js, a, b, c, d⟩ := h1.tie y x (h3 y hy) (h3 x hx) hlt hid.symm
    exact ⟨p, js, is, b, a, d, c⟩

/-- C44 about the example circuit: `C(Not)` (object 4) comes after its inputs 1 and 2. -/
example : demo.qid 1 < demo.qid 4 ∧ demo.qid 2 < demo.qid 4 :=
  ⟨C44_larger demo_built (by simp) (by simp [demo_inputs]), C44_larger demo_built (by simp) (by simp [demo_inputs])⟩

/-- **C45**, `Qubit(n=k)` with `k <= 0`. -/
theorem C45_size (h : Heap) (inputs : List Nat) (k : Int) (hk : k ≤ 0) (default : Option Default) :
    ∃ e, h.exec (.qubit inputs (some k) default) = (.error e, h) := by
  unfold exec
  simp only
  rw [initQubit_eq]
  split
  · exact ⟨_, rfl⟩
  · rw [if_pos (by simpa [initN] using hk)]
    exact ⟨_, rfl⟩

/-- **C45**, a list as default must have one entry per basis state, whatever way the size is given. -/
theorem C45_default (h : Heap) (inputs : List Nat) (n : Option Int) (size : Nat) (l : List ℂ)
    (hsize : n = some (size : Int) ∨ (n = none ∧ inputs = [] ∧ size = 1) ∨
      (n = none ∧ inputs ≠ [] ∧ size = (inputs.map h.n).sum)) (hl : l.length ≠ 2 ^ size) :
    h.exec (.qubit inputs n (some (.list l))) = (.error .valueError, h) := by
  have hN : h.initN inputs n = size := by
    rcases hsize with rfl | ⟨rfl, rfl, rfl⟩ | ⟨rfl, h0, rfl⟩
    · rfl
    · rfl
    · have := List.length_pos_of_ne_nil h0
      simp only [initN, gt_iff_lt, this, ↓reduceIte]
  unfold exec
  simp only
  rw [initQubit_eq, hN, if_pos (by simp [badDefault, hl])]
  rfl

/-- **C45**, `Swap` of other than two registers or of registers of different sizes. -/
theorem C45_swap {h : Heap} {env inputs : List Nat} (hb : Built h env) (hin : ∀ x ∈ inputs, x ∈ env) (k : Nat)
    (dagger : Bool) (hbad : inputs.length ≠ 2 ∨ ∃ a b, inputs = [a, b] ∧ h.n a ≠ h.n b) :
    (h.exec (.op (.gate (.swap k)) dagger inputs)).1 = .error .exception := by
  obtain ⟨V, h1, h2, h3⟩ := built_wf hb
  unfold exec construct mkSimple
  simp only
  by_cases hN : h.initN inputs none ≤ 0
  · rw [initQubit_empty hN]
    rfl
  · obtain ⟨h', r, e, -, c⟩ := initQubit_ok h1 (kind := .gate (.swap (h.n (inputs.getD 0 0))) dagger) (inputs := inputs)
      (n := none) (qid := none) (fun x hx => h3 x (hin x hx)) qidOK_none (by simp) (by omega)
    rw [r]
    simp only
    rcases hbad with hl | ⟨a, b, rfl, hab⟩
    · rw [if_pos hl]
      rfl
    · rw [if_neg (by simp), if_pos]
      · rfl
      · have ha := h1.vlt a (h3 a (hin a (by simp)))
        have hb' := h1.vlt b (h3 b (hin b (by simp)))
        simp only [List.getD_cons_zero, List.getD_cons_succ]
        rw [e.n a ha, e.n b hb']
        exact hab

/-- **C45**, `C(op)` without target, with a control that is not a single qubit, or with a repeated qubit. -/
theorem C45_control (h : Heap) (op : OpSpec) (dagger : Bool) (inputs : List Nat)
    (hbad : inputs.length < 2 ∨ (∃ a l, inputs = a :: l ∧ h.n a ≠ 1) ∨ ¬ inputs.Nodup) :
    h.exec (.op (.c op) dagger inputs) = (.error .valueError, h) := by
  unfold exec construct
  simp only
  rw [if_pos]
  · rfl
  · intro hc
    obtain ⟨a, b, c⟩ := of_decide_eq_true hc
    rcases hbad with h0 | ⟨x, l, rfl, h0⟩ | h0
    · omega
    · exact h0 (by simpa using b)
    · exact h0 c

/-- **C45**: an operation whose constructor raised is never executed.  Whatever calls follow, it does not become one of
the nodes any outputs depend on. -/
theorem C45_never_executed {h : Heap} {env : List Nat} (hb : Built h env) {cmd : Cmd} (hargs : ∀ x ∈ cmd.args, x ∈ env)
    {e : PyErr} {h' : Heap} (herr : h.exec cmd = (.error e, h')) {h'' : Heap} {env'' args : List Nat}
    (hl : Later h' env h'' env'') (ha : ∀ x ∈ args, x ∈ env'') {x : Nat} (hnew : h.nodes.length ≤ x)
    (hx : x < h'.nodes.length) : x ∉ needed h'' args := by
  obtain ⟨V, h1, h2, h3⟩ := built_wf hb
  have hb' := Built.call cmd hb hargs
  rw [herr, List.append_nil] at hb'
  obtain ⟨b2, -, -, h4⟩ := later_spec hb' hl
  intro hmem
  have hreach : Reach h'' args x := by
    unfold needed at hmem
    simpa using (List.mem_filter.1 hmem).2
  rcases h4 x (reach_held b2 ha hreach) with h0 | h0
  · have := h1.vlt x (h3 x h0)
    omega
  · exact absurd hx (by simpa using h0)

/-- **C45**: later calls, rejected or not, do not change what running earlier outputs gives. -/
theorem C45_later_calls {h : Heap} {env args : List Nat} (c : Circuit h env args) {h' : Heap} {env' : List Nat}
    (hl : Later h env h' env') {feed : List (List Nat × List ℂ)} (hf : FeedOK h args feed)
    (hdef : ∀ q ∈ leaves h args, q ∉ (feed.map (·.1)).flatten → DefaultOK h q) (ms : MsTable) (e : Env)
    (hsh : ∀ l, (e.shuffle l).Perm l) :
    run h' ms args (feed.map asFeed) false none e.pick e.shuffle e.orc e.arena
      = run h ms args (feed.map asFeed) false none e.pick e.shuffle e.orc e.arena := by
  obtain ⟨V, ctx⟩ := c.ctx
  obtain ⟨b', ext, sub, -⟩ := later_spec c.built hl
  obtain ⟨V0, a1, a2, a3⟩ := built_wf c.built
  obtain ⟨V1, b1, b2, b3⟩ := built_wf b'
  have ctx0 : Ctx h (fun x => x ∈ env) args :=
    ⟨wf_mono a1 a3 (env_closed c.built), fun x hx => a2 x (a3 x hx), c.held, c.size, c.split⟩
  exact run_ext ctx0 ext b1 b2 (fun x hx => b3 x (sub x hx)) hf hdef ms e.pick e.shuffle hsh e.orc e.arena

/-- A rejected `Swap` of the example's registers leaves an object behind, and running the example is unaffected. -/
example (orc : Nat → Oracle) (arena : List ℂ) :
    (demo.exec (.op (.gate (.swap 0)) false [0, 1])).1 = .error .exception ∧
    (demo.exec (.op (.gate (.swap 0)) false [0, 1])).2.nodes.length = 7 ∧
    run (demo.exec (.op (.gate (.swap 0)) false [0, 1])).2 (fun _ => none) [5]
        ([([0], [0, 0, 1, 0])].map asFeed) false none (fun _ => 0) id orc arena
      = run demo (fun _ => none) [5] ([([0], [0, 0, 1, 0])].map asFeed) false none (fun _ => 0) id orc arena := by
  have herr := C45_swap demo_built (inputs := [0, 1]) (by decide) 0 false
    (Or.inr ⟨0, 1, rfl, by change 2 ≠ 1; decide⟩)
  refine ⟨herr, rfl, ?_⟩
  have hl := Later.call (h := demo) (env := [0, 1, 2, 4, 5]) (.op (.gate (.swap 0)) false [0, 1]) .refl (by decide)
  exact C45_later_calls demo_circuit hl demo_feed (by simpa using demo_default) (fun _ => none)
    ⟨fun _ => 0, id, orc, arena⟩ (fun l => List.Perm.refl l)

end QIP.Props
