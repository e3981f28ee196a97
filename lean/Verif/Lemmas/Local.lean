import Verif.Lemmas.RunInit

/-! # Operations on disjoint qubits commute -/

namespace QIP

open Spec Heap Finset

/-- `T` acts on the qubits `S` only: its matrix entries vanish unless the other qubits agree, and do not depend on the
other qubits. -/
def Local (n : Nat) (S : List Nat) (T : (Nat → ℂ) → Nat → ℂ) : Prop :=
  ∃ E : Nat → Nat → ℂ, (∀ v, ∀ r < 2 ^ n, T v r = ∑ c ∈ range (2 ^ n), E r c * v c) ∧
    (∀ r c, ¬ AgreeOff n S r c → E r c = 0) ∧
    ∀ r c r' c', AgreeOff n S r c → AgreeOff n S r' c' → (∀ q ∈ S, qbit n r q = qbit n r' q) →
      (∀ q ∈ S, qbit n c q = qbit n c' q) → E r c = E r' c'

theorem local_mul {n : Nat} {S S' : List Nat} {E E' : Nat → Nat → ℂ} (hlt : ∀ q ∈ S, q < n) (hlt' : ∀ q ∈ S', q < n)
    (hd : ∀ q ∈ S, q ∉ S')
    (h1 : ∀ r c, ¬ AgreeOff n S r c → E r c = 0) (h1' : ∀ r c, ¬ AgreeOff n S' r c → E' r c = 0)
    (h2 : ∀ r c r' c', AgreeOff n S r c → AgreeOff n S r' c' → (∀ q ∈ S, qbit n r q = qbit n r' q) →
      (∀ q ∈ S, qbit n c q = qbit n c' q) → E r c = E r' c')
    (h2' : ∀ r c r' c', AgreeOff n S' r c → AgreeOff n S' r' c' → (∀ q ∈ S', qbit n r q = qbit n r' q) →
      (∀ q ∈ S', qbit n c q = qbit n c' q) → E' r c = E' r' c') {r c : Nat} (hr : r < 2 ^ n) (hc : c < 2 ^ n) :
    ∑ m ∈ range (2 ^ n), E r m * E' m c = ∑ m ∈ range (2 ^ n), E' r m * E m c := by
  classical
  have single : ∀ (S S' : List Nat) (E E' : Nat → Nat → ℂ), (∀ q ∈ S, q ∉ S') →
      (∀ r c, ¬ AgreeOff n S r c → E r c = 0) → (∀ r c, ¬ AgreeOff n S' r c → E' r c = 0) →
      ∑ m ∈ range (2 ^ n), E r m * E' m c =
        E r (ofQbits n fun q => if q ∈ S then qbit n c q else qbit n r q) *
        E' (ofQbits n fun q => if q ∈ S then qbit n c q else qbit n r q) c := by
    intro S S' E E' hd h1 h1'
    apply Finset.sum_eq_single
    · intro m hm hne
      by_contra h0
      have hm' := mem_range.1 hm
      have ha : AgreeOff n S r m := by
        by_contra hc'; exact h0 (by rw [h1 r m hc', zero_mul])
      have hb : AgreeOff n S' m c := by
        by_contra hc'; exact h0 (by rw [h1' m c hc', mul_zero])
      apply hne
      apply qbit_ext hm' (ofQbits_lt _ _)
      intro q hq
      rw [qbit_ofQbits _ hq]
      by_cases hqS : q ∈ S
      · rw [if_pos hqS]; exact hb q hq (hd q hqS)
      · rw [if_neg hqS]; exact (ha q hq hqS).symm
    · intro hm
      exact absurd (mem_range.2 (ofQbits_lt _ _)) hm
  rw [single S S' E E' hd h1 h1', single S' S E' E (fun q hq hq' => hd q hq' hq) h1' h1]
  set m := ofQbits n fun q => if q ∈ S then qbit n c q else qbit n r q with hm
  set m' := ofQbits n fun q => if q ∈ S' then qbit n c q else qbit n r q with hm'
  have bm : ∀ q < n, qbit n m q = if q ∈ S then qbit n c q else qbit n r q := fun q hq => qbit_ofQbits _ hq
  have bm' : ∀ q < n, qbit n m' q = if q ∈ S' then qbit n c q else qbit n r q := fun q hq => qbit_ofQbits _ hq
  by_cases hag : AgreeOff n (S ++ S') r c
  · have a1 : AgreeOff n S r m := by
      intro q hq hqS; rw [bm q hq, if_neg hqS]
    have a2 : AgreeOff n S' r m' := by
      intro q hq hqS; rw [bm' q hq, if_neg hqS]
    have a3 : AgreeOff n S m' c := by
      intro q hq hqS
      rw [bm' q hq]
      by_cases hq' : q ∈ S'
      · rw [if_pos hq']
      · rw [if_neg hq']; exact hag q hq (by simp [hqS, hq'])
    have a4 : AgreeOff n S' m c := by
      intro q hq hqS
      rw [bm q hq]
      by_cases hq' : q ∈ S
      · rw [if_pos hq']
      · rw [if_neg hq']; exact hag q hq (by simp [hqS, hq'])
    have e1 : E r m = E m' c := h2 r m m' c a1 a3
      (fun q hq => by rw [bm' q (hlt q hq), if_neg (hd q hq)]) (fun q hq => by rw [bm q (hlt q hq), if_pos hq])
    have e2 : E' m c = E' r m' := h2' m c r m' a4 a2
      (fun q hq => by rw [bm q (hlt' q hq), if_neg (fun h => hd q h hq)])
      (fun q hq => by rw [bm' q (hlt' q hq), if_pos hq])
    rw [e1, e2, mul_comm]
  · have z1 : E r m * E' m c = 0 := by
      by_cases ha : AgreeOff n S' m c
      · exfalso
        apply hag
        intro q hq hqn
        simp only [List.mem_append, not_or] at hqn
        have := ha q hq hqn.2
        rw [bm q hq, if_neg hqn.1] at this
        exact this
      · rw [h1' m c ha, mul_zero]
    have z2 : E' r m' * E m' c = 0 := by
      by_cases ha : AgreeOff n S m' c
      · exfalso
        apply hag
        intro q hq hqn
        simp only [List.mem_append, not_or] at hqn
        have := ha q hq hqn.1
        rw [bm' q hq, if_neg hqn.2] at this
        exact this
      · rw [h1 m' c ha, mul_zero]
    rw [z1, z2]

theorem Local.comm {n : Nat} {S S' : List Nat} {T T' : (Nat → ℂ) → Nat → ℂ} (hlt : ∀ q ∈ S, q < n)
    (hlt' : ∀ q ∈ S', q < n) (hd : ∀ q ∈ S, q ∉ S') (h : Local n S T) (h' : Local n S' T') (v : Nat → ℂ) {r : Nat}
    (hr : r < 2 ^ n) : T (T' v) r = T' (T v) r := by
  obtain ⟨E, e1, e2, e3⟩ := h
  obtain ⟨E', e1', e2', e3'⟩ := h'
  have key : ∀ (T T' : (Nat → ℂ) → Nat → ℂ) (E E' : Nat → Nat → ℂ),
      (∀ v, ∀ r < 2 ^ n, T v r = ∑ c ∈ range (2 ^ n), E r c * v c) →
      (∀ v, ∀ r < 2 ^ n, T' v r = ∑ c ∈ range (2 ^ n), E' r c * v c) →
      T (T' v) r = ∑ c ∈ range (2 ^ n), (∑ m ∈ range (2 ^ n), E r m * E' m c) * v c := by
    intro T T' E E' e1 e1'
    rw [e1 _ r hr]
    have : ∀ m ∈ range (2 ^ n), E r m * T' v m = ∑ c ∈ range (2 ^ n), E r m * E' m c * v c := by
      intro m hm
      rw [e1' v m (mem_range.1 hm), Finset.mul_sum]
      apply Finset.sum_congr rfl
      intro c _
      ring
    rw [Finset.sum_congr rfl this, Finset.sum_comm]
    apply Finset.sum_congr rfl
    intro c _
    rw [Finset.sum_mul]
  rw [key T T' E E' e1 e1', key T' T E' E e1' e1]
  apply Finset.sum_congr rfl
  intro c hc
  rw [local_mul hlt hlt' hd e2 e2' e3 e3' hr (mem_range.1 hc)]

theorem Local.congr {n : Nat} {S : List Nat} {T : (Nat → ℂ) → Nat → ℂ} (h : Local n S T) {v w : Nat → ℂ}
    (hvw : ∀ r < 2 ^ n, v r = w r) {r : Nat} (hr : r < 2 ^ n) : T v r = T w r := by
  obtain ⟨E, e1, -, -⟩ := h
  rw [e1 v r hr, e1 w r hr]
  apply Finset.sum_congr rfl
  intro c hc
  rw [hvw c (mem_range.1 hc)]

theorem qbit_of_subIndex {n : Nat} {g : List Nat} {r c : Nat} (h : subIndex n g r = subIndex n g c) :
    ∀ q ∈ g, qbit n r q = qbit n c q := by
  intro q hq
  obtain ⟨j, hj, rfl⟩ := List.getElem_of_mem hq
  rw [← testBit_subIndex n g r j hj, ← testBit_subIndex n g c j hj, h]

theorem local_kron (n : Nat) (ops : List (List Nat × (Nat → Nat → ℂ))) (S : List Nat)
    (hS : ∀ q ∈ ops.flatMap (·.1), q ∈ S) : Local n S (kronApply n ops) := by
  refine ⟨kronEntry n ops, fun v r _ => rfl, ?_, ?_⟩
  · intro r c hrc
    unfold kronEntry
    rw [if_neg]
    intro h
    exact hrc fun q hq hqS => h q hq fun h' => hqS (hS q h')
  · intro r c r' c' h1 h2 h3 h4
    unfold kronEntry
    have hag : ∀ r c r' c', AgreeOff n S r c → AgreeOff n S r' c' → (∀ q ∈ S, qbit n r q = qbit n r' q) →
        (∀ q ∈ S, qbit n c q = qbit n c' q) → AgreeOff n (ops.flatMap (·.1)) r c →
        AgreeOff n (ops.flatMap (·.1)) r' c' := by
      intro r c r' c' h1 h2 h3 h4 h q hq hqn
      by_cases hqS : q ∈ S
      · rw [← h3 q hqS, ← h4 q hqS]; exact h q hq hqn
      · exact h2 q hq hqS
    have hiff : AgreeOff n (ops.flatMap (·.1)) r c ↔ AgreeOff n (ops.flatMap (·.1)) r' c' :=
      ⟨hag r c r' c' h1 h2 h3 h4, hag r' c' r c h2 h1 (fun q hq => (h3 q hq).symm) (fun q hq => (h4 q hq).symm)⟩
    rw [if_congr hiff rfl rfl]
    split
    · congr 1
      apply List.map_congr_left
      intro gm hgm
      have hsub : ∀ q ∈ gm.1, q ∈ S := fun q hq => hS q (List.mem_flatMap.2 ⟨gm, hgm, hq⟩)
      rw [subIndex_congr fun q hq => h3 q (hsub q hq), subIndex_congr fun q hq => h4 q (hsub q hq)]
    · rfl

theorem Local.of_eq {n : Nat} {S : List Nat} {T T' : (Nat → ℂ) → Nat → ℂ} (h : Local n S T)
    (he : ∀ v, ∀ r < 2 ^ n, T' v r = T v r) : Local n S T' := by
  obtain ⟨E, e1, e2, e3⟩ := h
  exact ⟨E, fun v r hr => by rw [he v r hr, e1 v r hr], e2, e3⟩

theorem local_oracle (n : Nat) (reg1 reg2 : List Nat) (f : Nat → Int) :
    Local n (reg1 ++ reg2) fun v r => ∑ c ∈ (range (2 ^ n)).filter (fun c => OraclePre n reg1 reg2 f r c), v c := by
  refine ⟨fun r c => if OraclePre n reg1 reg2 f r c then 1 else 0, ?_, ?_, ?_⟩
  · intro v r _
    simp only
    rw [Finset.sum_filter]
    apply Finset.sum_congr rfl
    intro c _
    split <;> simp
  · intro r c h
    simp only
    rw [if_neg]
    intro h'
    exact h fun q hq hqn => h'.1 q hq fun h'' => hqn (by simp [h''])
  · intro r c r' c' h1 h2 h3 h4
    have key : ∀ r c r' c', AgreeOff n (reg1 ++ reg2) r c → AgreeOff n (reg1 ++ reg2) r' c' →
        (∀ q ∈ reg1 ++ reg2, qbit n r q = qbit n r' q) → (∀ q ∈ reg1 ++ reg2, qbit n c q = qbit n c' q) →
        OraclePre n reg1 reg2 f r c → OraclePre n reg1 reg2 f r' c' := by
      intro r c r' c' h1 h2 h3 h4 h
      constructor
      · intro q hq hqn
        by_cases hq1 : q ∈ reg1
        · rw [← h3 q (by simp [hq1]), ← h4 q (by simp [hq1])]; exact h.1 q hq hqn
        · exact h2 q hq (by simp [hq1, hqn])
      · have := h.2
        rw [subIndex_congr (g := reg2) (c := r') fun q hq => h3 q (by simp [hq]),
          subIndex_congr (g := reg2) (c := c') fun q hq => h4 q (by simp [hq]),
          subIndex_congr (g := reg1) (c := r') fun q hq => h3 q (by simp [hq])] at this
        exact this
    exact if_congr ⟨key r c r' c' h1 h2 h3 h4, key r' c' r c h2 h1 (fun q hq => (h3 q hq).symm)
      (fun q hq => (h4 q hq).symm)⟩ rfl rfl

theorem local_id (n : Nat) (S : List Nat) : Local n S fun v => v := by
  have := local_kron n [] S (by simp)
  refine this.of_eq ?_
  intro v r hr
  unfold kronApply
  rw [Finset.sum_eq_single r]
  · simp [kronEntry, AgreeOff]
  · intro c hc hne
    unfold kronEntry
    rw [if_neg, zero_mul]
    intro h
    exact hne (qbit_ext (mem_range.1 hc) hr fun q hq => (h q hq (by simp)).symm)
  · intro h; exact absurd (mem_range.2 hr) h

/-- Every node acts on its own qubits only. -/
theorem local_node {h : Heap} {V : Nat → Prop} {args : List Nat} (c : Ctx h V args) {x : Nat} (hx : Reach h args x)
    (hok : NodeOK h args x) :
    Local (width h args) (groups h args x).flatten (nodeApply (width h args) h args x) := by
  have gate : ∀ g d, h.kind x = .gate g d → ∃ mats, GM (width h args) g (groups h args x) mats := by
    intro g d hk
    have hkd := c.kind x (c.vis hx)
    unfold KindOK at hkd
    rw [hk] at hkd
    exact gm_exists g _ (fits_of_fitsN g _ (by rw [c.len_groups hx]; exact (hkd.2 (hok.gate g d hk).1).2))
      ⟨hok.distinct, fun q hq => c.groups_lt hx hq⟩
  rcases hk : h.kind x with _ | is | ⟨g, d⟩ | f | _ | k
  · refine (local_id _ _).of_eq fun v r _ => by unfold nodeApply; rw [hk]
  · refine (local_id _ _).of_eq fun v r _ => by unfold nodeApply; rw [hk]
  · obtain ⟨mats, gm⟩ := gate g d hk
    cases d with
    | false =>
      refine (local_kron _ (opsOf mats) _ (touched_opsOf gm.sub)).of_eq fun v r hr => ?_
      rw [gm.sem v r hr]
      unfold nodeApply
      rw [hk]
    | true =>
      refine (local_kron _ (adjOps (opsOf mats)) _ ?_).of_eq fun v r hr => ?_
      · have := touched_adjOps (opsOf mats)
        unfold touched at this
        rw [this]
        exact touched_opsOf gm.sub
      · rw [adjApply_eq gm v hr]
        unfold nodeApply
        rw [hk]
  · have hkd := c.kind x (c.vis hx)
    unfold KindOK at hkd
    rw [hk] at hkd
    have hlen := hkd.2.1
    have hg : (groups h args x).flatten = (groups h args x).getD 0 [] ++ (groups h args x).getD 1 [] := by
      have : (groups h args x).length = 2 := by unfold groups; simpa using hlen
      rcases hgs : groups h args x with _ | ⟨a, _ | ⟨b, _ | ⟨e, t⟩⟩⟩ <;> rw [hgs] at this <;> simp at this
      simp
    rw [hg]
    refine (local_oracle _ _ _ (fval f)).of_eq fun v r _ => ?_
    unfold nodeApply
    rw [hk]
  · refine (local_id _ _).of_eq fun v r _ => by unfold nodeApply; rw [hk]
  · refine (local_id _ _).of_eq fun v r _ => by unfold nodeApply; rw [hk]

/-- Two nodes neither of which depends on the other commute. -/
theorem node_comm {h : Heap} {V : Nat → Prop} {args : List Nat} (c : Ctx h V args) (hu : UsedOnce h args) {x y : Nat}
    (hx : Reach h args x) (hy : Reach h args y) (okx : NodeOK h args x) (oky : NodeOK h args y)
    (hxy : ¬ Reach h [x] y) (hyx : ¬ Reach h [y] x) (v : Nat → ℂ) {r : Nat} (hr : r < 2 ^ width h args) :
    nodeApply (width h args) h args x (nodeApply (width h args) h args y v) r
      = nodeApply (width h args) h args y (nodeApply (width h args) h args x v) r := by
  have hcase : ∀ z, Reach h args z → NodeOK h args z → (∀ v, nodeApply (width h args) h args z v = v) ∨
      ∀ k ∈ (groups h args z).flatten, k ∈ wires h args z := by
    intro z hz okz
    rcases hk : h.kind z with _ | is | ⟨g, d⟩ | f | _ | k
    · exact Or.inl fun v => by unfold nodeApply; rw [hk]
    · exact Or.inl fun v => by unfold nodeApply; rw [hk]
    · right
      intro k hkm
      rw [wires_node (okz.gate g d hk).1 (c.ilt hz), hk]
      exact hkm
    · right
      intro k hkm
      have hkd := c.kind z (c.vis hz)
      unfold KindOK at hkd
      rw [hk] at hkd
      have hne : h.inputs z ≠ [] := by
        intro e
        have := hkd.2.1
        rw [e] at this
        simp at this
      rw [wires_node hne (c.ilt hz), hk]
      exact hkm
    · exact Or.inl fun v => by unfold nodeApply; rw [hk]
    · exact Or.inl fun v => by unfold nodeApply; rw [hk]
  rcases hcase x hx okx with h1 | h1
  · rw [h1, h1]
  · rcases hcase y hy oky with h2 | h2
    · rw [h2, h2]
    · apply Local.comm (fun q hq => c.groups_lt hx hq) (fun q hq => c.groups_lt hy hq) _ (local_node c hx okx)
        (local_node c hy oky) v hr
      intro q hq hq'
      exact c.disjoint hu hx hy hxy hyx q (h1 q hq) (h2 q hq')

theorem applyAll_congr {h : Heap} {V : Nat → Prop} {args : List Nat} (c : Ctx h V args) (L : List Nat)
    (hL : ∀ x ∈ L, Reach h args x ∧ NodeOK h args x) {v w : Nat → ℂ} (hvw : ∀ r < 2 ^ width h args, v r = w r) {r : Nat}
    (hr : r < 2 ^ width h args) : applyAll (width h args) h args L v r = applyAll (width h args) h args L w r := by
  induction L generalizing v w with
  | nil => exact hvw r hr
  | cons x L ih =>
    have hx := hL x (by simp)
    exact ih (fun y hy => hL y (by simp [hy])) fun r hr => (local_node c hx.1 hx.2).congr hvw hr

/-- Moving a node to the front past nodes it is independent of. -/
theorem applyAll_move {h : Heap} {V : Nat → Prop} {args : List Nat} (c : Ctx h V args) (hu : UsedOnce h args) (x : Nat)
    (hx : Reach h args x ∧ NodeOK h args x) (A : List Nat) (hA : ∀ y ∈ A, Reach h args y ∧ NodeOK h args y)
    (hind : ∀ y ∈ A, ¬ Reach h [x] y ∧ ¬ Reach h [y] x) (v : Nat → ℂ) {r : Nat} (hr : r < 2 ^ width h args) :
    applyAll (width h args) h args (A ++ [x]) v r = applyAll (width h args) h args (x :: A) v r := by
  induction A generalizing v with
  | nil => rfl
  | cons y A ih =>
    have hy := hA y (by simp)
    have e := ih (fun z hz => hA z (by simp [hz])) (fun z hz => hind z (by simp [hz]))
      (nodeApply (width h args) h args y v)
    calc applyAll (width h args) h args (y :: A ++ [x]) v r
        = applyAll (width h args) h args (A ++ [x]) (nodeApply (width h args) h args y v) r := rfl
      _ = applyAll (width h args) h args (x :: A) (nodeApply (width h args) h args y v) r := e
      _ = applyAll (width h args) h args A (nodeApply (width h args) h args x
            (nodeApply (width h args) h args y v)) r := rfl
      _ = applyAll (width h args) h args A (nodeApply (width h args) h args y
            (nodeApply (width h args) h args x v)) r := by
        apply applyAll_congr c A (fun z hz => hA z (by simp [hz])) _ hr
        intro r hr
        exact node_comm c hu hx.1 hy.1 hx.2 hy.2 (hind y (by simp)).1 (hind y (by simp)).2 v hr
      _ = applyAll (width h args) h args (x :: y :: A) v r := rfl

theorem reach_single_le {h : Heap} {V : Nat → Prop} {args : List Nat} (c : Ctx h V args) {x y : Nat}
    (hx : Reach h args x) (hxy : Reach h [x] y) : y ≤ x := by
  induction hxy with
  | arg hm => simp at hm; omega
  | input h1 h2 ih => exact (c.ilt (Ctx.reach_trans h1 hx) _ h2).le.trans ih

theorem applyAll_order {h : Heap} {V : Nat → Prop} {args : List Nat} (c : Ctx h V args) (hu : UsedOnce h args)
    (N : List Nat) (hN : N.Pairwise (· < ·)) (hok : ∀ x ∈ N, Reach h args x ∧ NodeOK h args x) (L : List Nat)
    (hL : L.Perm N) (hr' : Respects h L) (v : Nat → ℂ) {r : Nat} (hr : r < 2 ^ width h args) :
    applyAll (width h args) h args L v r = applyAll (width h args) h args N v r := by
  induction N generalizing L v with
  | nil => rw [hL.eq_nil]
  | cons x N ih =>
    obtain ⟨hx1, hx2⟩ := List.pairwise_cons.1 hN
    have hxL : x ∈ L := hL.mem_iff.2 (by simp)
    obtain ⟨A, B, rfl⟩ := List.append_of_mem hxL
    have hperm : (A ++ B).Perm N := by
      have : (x :: (A ++ B)).Perm (x :: N) := (List.perm_middle.symm).trans hL
      exact this.cons_inv
    have hmem : ∀ y ∈ A ++ B, y ∈ N := fun y hy => hperm.mem_iff.1 hy
    have hx := hok x (by simp)
    unfold Respects at hr'
    obtain ⟨p1, p2, p3⟩ := List.pairwise_append.1 hr'
    obtain ⟨p4, p5⟩ := List.pairwise_cons.1 p2
    have hAN : ∀ y ∈ A, y ∈ N := fun y hy => hmem y (by simp [hy])
    have happ : ∀ L M w, applyAll (width h args) h args (L ++ M) w
        = applyAll (width h args) h args M (applyAll (width h args) h args L w) := by
      intro L M w; unfold applyAll; rw [List.foldl_append]
    have e1 : applyAll (width h args) h args (A ++ x :: B) v r
        = applyAll (width h args) h args (x :: A ++ B) v r := by
      have : A ++ x :: B = (A ++ [x]) ++ B := by simp
      rw [this, happ (A ++ [x]) B, happ (x :: A) B]
      apply applyAll_congr c B (fun z hz => hok z (by simp [hmem z (by simp [hz])])) _ hr
      intro r hr
      apply applyAll_move c hu x hx A (fun z hz => hok z (by simp [hAN z hz])) _ v hr
      intro y hy
      refine ⟨fun hre => ?_, p3 y hy x (by simp)⟩
      have := reach_single_le c hx.1 hre
      have := hx1 y (hAN y hy)
      omega
    rw [e1]
    change applyAll (width h args) h args (A ++ B) (nodeApply (width h args) h args x v) r
      = applyAll (width h args) h args N (nodeApply (width h args) h args x v) r
    apply ih hx2 (fun y hy => hok y (by simp [hy])) (A ++ B) hperm
    unfold Respects
    rw [List.pairwise_append]
    exact ⟨p1, p5, fun a ha b hb => p3 a ha b (by simp [hb])⟩

/-- Measurement-free steps are the composition. -/
theorem steps_applyAll {h : Heap} {V : Nat → Prop} {args : List Nat} (c : Ctx h V args) {L : List Nat}
    (hL : ∀ x ∈ L, Reach h args x ∧ NodeOK h args x) (hm : ∀ x ∈ L, h.kind x ≠ .measure) {v v' : Nat → ℂ}
    {cs : List (Nat × Classic)} (hs : Steps (width h args) h args L v v' cs) :
    ∀ r < 2 ^ width h args, v' r = applyAll (width h args) h args L v r := by
  induction hs with
  | nil h0 => exact h0
  | @cons x xs v v' v'' cl cs h1 h2 ih =>
    intro r hr
    rw [ih (fun y hy => hL y (by simp [hy])) (fun y hy => hm y (by simp [hy])) r hr]
    change applyAll (width h args) h args xs v' r = applyAll (width h args) h args xs (nodeApply (width h args) h args x v) r
    apply applyAll_congr c xs (fun y hy => hL y (by simp [hy])) _ hr
    intro r hr
    unfold StepSpec at h1
    rcases hk : h.kind x with _ | is | ⟨g, d⟩ | f | _ | k <;> rw [hk] at h1 <;> simp only at h1
    · exact h1.1 r hr
    · exact h1.1 r hr
    · exact h1.1 r hr
    · exact h1.1 r hr
    · exact absurd hk (hm x (by simp))
    · rw [h1.1 r hr]; unfold nodeApply; rw [hk]

end QIP
