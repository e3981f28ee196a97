import Verif.Model.Run
import Verif.Props.Graph

/-!
# C38, C39: boundaries and positions outside the register
-/

namespace QIP.Props

open QIP Spec Heap

theorem sorted_lt {l : List Int} (hl : l.Pairwise (· ≤ ·)) : l.Pairwise (· < ·) ↔ l.Nodup := by
  constructor
  · exact fun h => h.imp fun h => by omega
  · intro h
    exact (hl.and h).imp fun h => by omega

/-- When the boundaries with the ends added ascend. -/
theorem addEnds_chain {n : Nat} (hn : 0 < n) {l : List Int} (hl : l.Pairwise (· ≤ ·)) :
    (addEnds n l).IsChain (· < ·) ↔
      l.Nodup ∧ ((∃ b ∈ l, b < 0) → (0 : Int) ∈ l) ∧ ((∃ b ∈ l, (n : Int) < b) → (n : Int) ∈ l) := by
  rw [List.isChain_iff_pairwise]
  have hs := sorted_lt hl
  unfold addEnds
  simp only
  by_cases h0 : (0 : Int) ∈ l
  · rw [if_pos h0]
    by_cases h1 : (n : Int) ∈ l
    · rw [if_pos h1, hs]
      exact ⟨fun h => ⟨h, fun _ => h0, fun _ => h1⟩, fun h => h.1⟩
    · rw [if_neg h1, List.pairwise_append, hs]
      constructor
      · rintro ⟨a, -, b⟩
        refine ⟨a, fun _ => h0, ?_⟩
        rintro ⟨x, hx, hx'⟩
        have := b x hx n (by simp)
        omega
      · rintro ⟨a, -, b⟩
        refine ⟨a, List.pairwise_singleton _ _, fun x hx y hy => ?_⟩
        rw [List.mem_singleton] at hy
        subst hy
        rcases lt_trichotomy x (n : Int) with h | h | h
        · exact h
        · exact absurd (h ▸ hx) h1
        · exact absurd (b ⟨x, hx, h⟩) h1
  · rw [if_neg h0]
    have hc : (0 :: l).Pairwise (· < ·) ↔ l.Nodup ∧ ∀ b ∈ l, 0 < b := by
      rw [List.pairwise_cons, hs]
      exact and_comm
    have hm : (n : Int) ∈ 0 :: l ↔ (n : Int) ∈ l := by
      rw [List.mem_cons]
      exact ⟨fun h => h.resolve_left (by omega), Or.inr⟩
    have hneg : ((∃ b ∈ l, b < 0) → (0 : Int) ∈ l) ↔ ∀ b ∈ l, 0 < b := by
      constructor
      · intro h b hb
        rcases lt_trichotomy b 0 with k | k | k
        · exact absurd (h ⟨b, hb, k⟩) h0
        · exact absurd (k ▸ hb) h0
        · exact k
      · rintro h ⟨b, hb, k⟩
        exact absurd (h b hb) (by omega)
    rw [hneg]
    by_cases h1 : (n : Int) ∈ l
    · rw [if_pos (hm.2 h1), hc]
      exact ⟨fun h => ⟨h.1, h.2, fun _ => h1⟩, fun h => ⟨h.1, h.2.1⟩⟩
    · rw [if_neg (fun h => h1 (hm.1 h)), List.pairwise_append, hc]
      constructor
      · rintro ⟨a, -, b⟩
        refine ⟨a.1, a.2, ?_⟩
        rintro ⟨x, hx, hx'⟩
        have := b x (by simp [hx]) n (by simp)
        omega
      · rintro ⟨a, a', b⟩
        refine ⟨⟨a, a'⟩, List.pairwise_singleton _ _, fun x hx y hy => ?_⟩
        rw [List.mem_singleton] at hy
        subst hy
        rcases List.mem_cons.1 hx with rfl | hx
        · omega
        · rcases lt_trichotomy x (n : Int) with h | h | h
          · exact h
          · exact absurd (h ▸ hx) h1
          · exact absurd (b ⟨x, hx, h⟩) h1

/-- **C38**, for every list of boundaries, also outside the register: exactly when `split` returns; otherwise it raises. -/
theorem C38_accepted_iff {h : Heap} {env : List Nat} {q : Nat} {bs : List Int} (hb : Built h env) (hq : q ∈ env) (hpos : 0 < h.n q) :
    ((∃ xs, (h.exec (.split q (some bs))).1 = .ok xs) ↔
      bs.Nodup ∧ ((∃ b ∈ bs, b < 0) → (0 : Int) ∈ bs) ∧ ((∃ b ∈ bs, (h.n q : Int) < b) → (h.n q : Int) ∈ bs)) ∧
    ((¬ ∃ xs, (h.exec (.split q (some bs))).1 = .ok xs) → (h.exec (.split q (some bs))).1 = .error .exception) := by
  obtain ⟨V, h1, h2, h3⟩ := built_wf hb
  have hperm := List.mergeSort_perm bs fun a b => decide (a ≤ b)
  have hc := addEnds_chain hpos (mergeSort_sorted bs)
  rw [hperm.nodup_iff] at hc
  simp only [hperm.mem_iff] at hc
  rw [← hc]
  change ((∃ xs, (h.splitLoop q (addEnds (h.n q) (bs.mergeSort fun a b => decide (a ≤ b))) none).1 = .ok xs) ↔ _) ∧
    ((¬ ∃ xs, (h.splitLoop q (addEnds (h.n q) (bs.mergeSort fun a b => decide (a ≤ b))) none).1 = .ok xs) →
      (h.splitLoop q (addEnds (h.n q) (bs.mergeSort fun a b => decide (a ≤ b))) none).1 = _)
  have hne : addEnds (h.n q) (bs.mergeSort fun a b => decide (a ≤ b)) ≠ [] :=
    List.ne_nil_of_mem ((mem_addEnds _ _ 0).2 (.inl rfl))
  by_cases hch : (addEnds (h.n q) (bs.mergeSort fun a b => decide (a ≤ b))).IsChain (· < ·)
  · obtain ⟨h', r, -⟩ := splitLoop_ok h1 (h3 q hq) _ hne hch none (fun _ => qidOK_none)
    rw [r]
    exact ⟨⟨fun _ => hch, fun _ => ⟨_, rfl⟩⟩, fun k => absurd ⟨_, rfl⟩ k⟩
  · rw [splitLoop_err h1 (h3 q hq) _ hch none (fun _ => qidOK_none)]
    exact ⟨⟨fun ⟨_, k⟩ => by simp at k, fun k => absurd k hch⟩, fun _ => rfl⟩

/-- **C38** fails for a negative boundary given together with 0: `q.split([-k, 0])` is accepted, and the parts are the last `k` qubits
of `q` and all of its qubits, so that these are held twice. -/
theorem C38_negative_false {h : Heap} {env : List Nat} {q k : Nat} (hb : Built h env) (hq : q ∈ env) (hk : 0 < k) (hkn : k ≤ h.n q) :
    ∃ x y h', h.exec (.split q (some [-(k : Int), 0])) = (.ok [x, y], h') ∧ h'.n x = k ∧ h'.n y = h.n q ∧ h'.inputs x = [q] ∧
      h'.inputs y = [q] ∧ ∀ l : List Nat, l.length = h.n q →
        selectIndex (h'.kind x) l = .ok (l.drop (h.n q - k)) ∧ selectIndex (h'.kind y) l = .ok l := by
  obtain ⟨V, h1, h2, h3⟩ := built_wf hb
  have hs : ([-(k : Int), 0].mergeSort fun a b => decide (a ≤ b)) = [-(k : Int), 0] :=
    List.mergeSort_of_pairwise (by simp)
  have he : addEnds (h.n q) [-(k : Int), 0] = [-(k : Int), 0, (h.n q : Int)] := by
    unfold addEnds
    have e1 : (0 : Int) ∈ [-(k : Int), 0] := by simp
    have e2 : (h.n q : Int) ∉ [-(k : Int), 0] := by
      intro e
      simp only [List.mem_cons, List.not_mem_nil, or_false] at e
      omega
    simp only [if_pos e1, if_neg e2]
    rfl
  obtain ⟨h', r, -, -, -, p⟩ := splitLoop_ok h1 (h3 q hq) [-(k : Int), 0, (h.n q : Int)] (by simp) (by simp; omega) none
    (fun _ => qidOK_none)
  obtain ⟨a1, a2, a3, -⟩ := p 0 (by simp)
  obtain ⟨b1, b2, b3, -⟩ := p 1 (by simp)
  refine ⟨h.nodes.length, h.nodes.length + 1, h', ?_, ?_, ?_, a1, b1, fun l hl => ⟨?_, ?_⟩⟩
  · change h.splitLoop q (addEnds (h.n q) ([-(k : Int), 0].mergeSort fun a b => decide (a ≤ b))) none = _
    rw [hs, he, r]
    rfl
  · simpa using a3
  · simpa using b3
  · rw [Nat.add_zero] at a2
    rw [a2]
    change (interval (-(k : Int)) 0).mapM (pyGet l) = _
    have : ∀ j ≤ k, ((List.range j).map fun (i : Nat) => -(k : Int) + i).mapM (pyGet l) = .ok ((l.drop (h.n q - k)).take j) := by
      intro j
      induction j with
      | zero => intro _; rfl
      | succ j ih =>
        intro hj
        have hlt : h.n q - k + j < l.length := by omega
        have hg : pyGet l (-(k : Int) + (j : Nat)) = .ok l[h.n q - k + j] := by
          unfold pyGet
          have c : -(k : Int) + (j : Nat) < 0 := by omega
          simp only [if_pos c]
          rw [if_neg (by omega)]
          rw [show (-(k : Int) + (j : Nat) + (l.length : Nat)).toNat = h.n q - k + j by omega, List.getElem?_eq_getElem hlt]
        rw [List.range_succ, List.map_append, List.mapM_append, ih (by omega)]
        simp only [List.map_cons, List.map_nil, List.mapM_cons, List.mapM_nil, hg]
        rw [List.take_add_one]
        simp [bind, Except.bind, pure, Except.pure, List.getElem?_drop, List.getElem?_eq_getElem hlt]
    have := this k le_rfl
    unfold interval
    rw [show (0 - -(k : Int)).toNat = k by omega, this, List.take_of_length_le (by simp; omega)]
  · rw [b2]
    change (interval 0 (h.n q : Int)).mapM (pyGet l) = _
    have : ∀ j ≤ h.n q, ((List.range j).map fun (i : Nat) => (0 : Int) + i).mapM (pyGet l) = .ok (l.take j) := by
      intro j
      induction j with
      | zero => intro _; rfl
      | succ j ih =>
        intro hj
        have hlt : j < l.length := by omega
        have hg : pyGet l ((0 : Int) + (j : Nat)) = .ok l[j] := by
          unfold pyGet
          have c : ¬ (0 : Int) + (j : Nat) < 0 := by omega
          simp only [if_neg c]
          rw [show ((0 : Int) + (j : Nat)).toNat = j by omega, List.getElem?_eq_getElem hlt]
        rw [List.range_succ, List.map_append, List.mapM_append, ih (by omega)]
        simp only [List.map_cons, List.map_nil, List.mapM_cons, List.mapM_nil, hg]
        rw [List.take_add_one]
        simp [bind, Except.bind, pure, Except.pure, List.getElem?_eq_getElem hlt]
    have := this (h.n q) le_rfl
    unfold interval
    rw [show ((h.n q : Int) - 0).toNat = h.n q by omega, this, List.take_of_length_le (by omega)]

/-- **C38** fails for a boundary behind the end given together with the end: `q.split([n, m])` is accepted, and whenever a circuit with
the last part is run, IndexError is raised. -/
theorem C38_beyond_false {h : Heap} {env : List Nat} {q m : Nat} (hb : Built h env) (hq : q ∈ env) (hpos : 0 < h.n q) (hm : h.n q < m) :
    ∃ x y h', h.exec (.split q (some [(h.n q : Int), (m : Int)])) = (.ok [x, y], h') ∧ h'.n y = m - h.n q ∧ h'.inputs y = [q] ∧
      ∀ l : List Nat, l.length = h.n q → selectIndex (h'.kind y) l = .error .indexError := by
  obtain ⟨V, h1, h2, h3⟩ := built_wf hb
  have hs : ([(h.n q : Int), (m : Int)].mergeSort fun a b => decide (a ≤ b)) = [(h.n q : Int), (m : Int)] :=
    List.mergeSort_of_pairwise (by simp; omega)
  have he : addEnds (h.n q) [(h.n q : Int), (m : Int)] = [0, (h.n q : Int), (m : Int)] := by
    unfold addEnds
    have e1 : (0 : Int) ∉ [(h.n q : Int), (m : Int)] := by
      intro e
      simp only [List.mem_cons, List.not_mem_nil, or_false] at e
      omega
    have e2 : (h.n q : Int) ∈ [0, (h.n q : Int), (m : Int)] := by simp
    simp only [if_neg e1, if_pos e2]
  obtain ⟨h', r, -, -, -, p⟩ := splitLoop_ok h1 (h3 q hq) [0, (h.n q : Int), (m : Int)] (by simp) (by simp; omega) none
    (fun _ => qidOK_none)
  obtain ⟨b1, b2, b3, -⟩ := p 1 (by simp)
  refine ⟨h.nodes.length, h.nodes.length + 1, h', ?_, ?_, b1, fun l hl => ?_⟩
  · change h.splitLoop q (addEnds (h.n q) ([(h.n q : Int), (m : Int)].mergeSort fun a b => decide (a ≤ b))) none = _
    rw [hs, he, r]
    rfl
  · rw [b3]
    simp
  · rw [b2]
    change (interval (h.n q : Int) (m : Int)).mapM (pyGet l) = _
    unfold interval
    obtain ⟨d, hd⟩ : ∃ d, ((m : Int) - (h.n q : Int)).toNat = d + 1 := ⟨m - h.n q - 1, by omega⟩
    rw [hd, List.range_succ_eq_map, List.map_cons, List.mapM_cons]
    have hg : pyGet l ((h.n q : Int) + ((0 : Nat) : Int)) = .error .indexError := by
      unfold pyGet
      have c : ¬ (h.n q : Int) + ((0 : Nat) : Int) < 0 := by omega
      simp only [if_neg c]
      rw [List.getElem?_eq_none (by omega)]
    rw [hg]
    rfl

/-- **C39**, positions outside the register are ignored. -/
theorem C39_outside (h : Heap) (q : Nat) (is : List Int) :
    h.exec (.extract q (.many is)) = h.exec (.extract q (.many (is.filter fun i => 0 ≤ i ∧ i < (h.n q : Int)))) := by
  have h1 : (is.filter fun (i : Int) => decide (0 ≤ i ∧ i < (h.n q : Int))).filter (fun i => decide (0 ≤ i ∧ i < (h.n q : Int)))
      = is.filter fun i => decide (0 ≤ i ∧ i < (h.n q : Int)) := by
    rw [List.filter_filter]
    simp
  have h2 : ((List.range (h.n q)).map fun (i : Nat) => (i : Int)).filter (fun i => decide (i ∉ is))
      = ((List.range (h.n q)).map fun (i : Nat) => (i : Int)).filter
        fun i => decide (i ∉ is.filter fun i => decide (0 ≤ i ∧ i < (h.n q : Int))) := by
    apply List.filter_congr
    intro i hi
    obtain ⟨j, hj, rfl⟩ := List.mem_map.1 hi
    have hj := List.mem_range.1 hj
    have : ((j : Int) ∈ is.filter fun i => decide (0 ≤ i ∧ i < (h.n q : Int))) ↔ (j : Int) ∈ is := by
      rw [List.mem_filter]
      simp only [decide_eq_true_eq]
      exact ⟨fun h => h.1, fun h => ⟨h, by omega, by omega⟩⟩
    simp only [this]
  unfold Heap.exec extractIndex
  simp only [h1, h2]

-- position -1 is not the last one: it selects nothing, and everything else raises
example : (three.exec (.extract 0 (.many [-1]))).1 = .error .exception := by
  rw [C39_outside]
  exact C39_empty_part three_built (by simp) (.inl (by simp))

-- three qubits split at -1 and 0: the last qubit, and all three
example : ∃ x y h', three.exec (.split 0 (some [-1, 0])) = (.ok [x, y], h') ∧ selectIndex (h'.kind x) [5, 6, 7] = .ok [7] ∧
    selectIndex (h'.kind y) [5, 6, 7] = .ok [5, 6, 7] := by
  obtain ⟨x, y, h', a, -, -, -, -, b⟩ := C38_negative_false three_built (q := 0) (k := 1) (by simp) (by omega)
    (by change 1 ≤ 3; decide)
  exact ⟨x, y, h', a, b [5, 6, 7] rfl⟩

-- three qubits split at 3 and 5
example : ∃ x y h', three.exec (.split 0 (some [3, 5])) = (.ok [x, y], h') ∧ selectIndex (h'.kind y) [5, 6, 7] = .error .indexError := by
  obtain ⟨x, y, h', a, -, -, b⟩ := C38_beyond_false three_built (q := 0) (m := 5) (by simp) (by change 0 < 3; decide)
    (by change 3 < 5; decide)
  exact ⟨x, y, h', a, b [5, 6, 7] rfl⟩

-- and at -1 alone: rejected
example : (three.exec (.split 0 (some [-1]))).1 = .error .exception := by
  have h := C38_accepted_iff three_built (q := 0) (bs := [-1]) (by simp) (by change 0 < 3; decide)
  exact h.2 fun k => by simpa using h.1.1 k

end QIP.Props
