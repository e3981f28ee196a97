import Verif.Lemmas.Slice

/-! # Growing a circuit by nodes that use its current qubits -/

namespace QIP

open Spec Heap

/-- `live` are all current qubits of a circuit that can be run: every qubit is held by exactly one of them. -/
structure Live (h : Heap) (env live : List Nat) : Prop where
  circuit : Circuit h env live
  ok : ∀ x, Reach h live x → NodeOK h live x
  nomeasure : ∀ x, Reach h live x → NoMeasure h live x
  part : ((live.map (wires h live)).flatten).Perm (List.range (width h live))

/-- The circuit `(h, live)` has been extended to `(h', live')` by the nodes `new`. -/
structure Grows (h : Heap) (live : List Nat) (h' : Heap) (live' new : List Nat) : Prop where
  ext : Ext h h'
  reach : ∀ x, Reach h' live' x ↔ Reach h live x ∨ x ∈ new
  asc : new.Pairwise (· < ·)
  ge : ∀ x ∈ new, h.nodes.length ≤ x
  inner : ∀ x ∈ new, h'.inputs x ≠ []

variable {h h' : Heap} {V V' : Nat → Prop} {live live' new : List Nat}

theorem Grows.needed (g : Grows h live h' live' new) (c : Ctx h V live) (c' : Ctx h' V' live') :
    needed h' live' = needed h live ++ new := by
  refine asc_ext (needed_asc h' live') ?_ ?_
  · rw [List.pairwise_append]
    refine ⟨needed_asc h live, g.asc, ?_⟩
    intro a ha b hb
    have h1 := c.lt ((mem_needed c.wf c.vargs).1 ha)
    have h2 := g.ge b hb
    omega
  · intro x
    rw [mem_needed c'.wf c'.vargs, g.reach, List.mem_append, mem_needed c.wf c.vargs]

theorem Grows.leaves (g : Grows h live h' live' new) (c : Ctx h V live) (c' : Ctx h' V' live') :
    leaves h' live' = leaves h live := by
  unfold Spec.leaves
  rw [g.needed c c', List.filter_append]
  have e2 : new.filter (isLeaf h') = [] := by
    rw [List.filter_eq_nil_iff]
    intro x hx
    unfold isLeaf
    have := g.inner x hx
    simpa using this
  rw [e2, List.append_nil]
  apply List.filter_congr
  intro x hx
  unfold isLeaf
  rw [g.ext.inputs x (c.lt ((mem_needed c.wf c.vargs).1 hx))]

theorem Grows.width (g : Grows h live h' live' new) (c : Ctx h V live) (c' : Ctx h' V' live') :
    width h' live' = width h live := by
  unfold Spec.width
  rw [g.leaves c c', map_n_leaves c g.ext fun x hx => hx]

theorem Grows.offset (g : Grows h live h' live' new) (c : Ctx h V live) (c' : Ctx h' V' live') (x : Nat) :
    offset h' live' x = offset h live x := by
  unfold Spec.offset
  rw [g.leaves c c', map_n_leaves c g.ext fun x hx => (List.mem_filter.1 hx).1]

theorem Grows.wires (g : Grows h live h' live' new) (c : Ctx h V live) (c' : Ctx h' V' live') {x : Nat}
    (hx : Reach h live x) : wires h' live' x = wires h live x := by
  induction x using Nat.strongRecOn with
  | ind x ih =>
    have hlt := c.lt hx
    have he := g.ext
    rw [wires.eq_def h' live' x, wires.eq_def h live x, he.inputs x hlt, he.n x hlt, he.kind x hlt, g.offset c c']
    have : (h.inputs x).map (fun i => if i < x then Spec.wires h' live' i else [])
        = (h.inputs x).map (fun i => if i < x then Spec.wires h live i else []) := by
      apply List.map_congr_left
      intro i hi
      have hix := c.ilt hx i hi
      rw [if_pos hix, if_pos hix, ih i hix (.input hx hi)]
    rw [this]

theorem Grows.groups (g : Grows h live h' live' new) (c : Ctx h V live) (c' : Ctx h' V' live') {x : Nat}
    (hx : Reach h live x) : groups h' live' x = groups h live x := by
  unfold Spec.groups
  rw [g.ext.inputs x (c.lt hx)]
  exact List.map_congr_left fun i hi => g.wires c c' (.input hx hi)

theorem Grows.nodeApply (g : Grows h live h' live' new) (c : Ctx h V live) (c' : Ctx h' V' live') {x : Nat}
    (hx : Reach h live x) (n : Nat) : nodeApply n h' live' x = nodeApply n h live x := by
  funext v
  unfold Spec.nodeApply
  rw [g.ext.kind x (c.lt hx), g.groups c c' hx]

theorem Grows.applyAll_old (g : Grows h live h' live' new) (c : Ctx h V live) (c' : Ctx h' V' live') (n : Nat)
    (L : List Nat) (hL : ∀ x ∈ L, Reach h live x) (v : Nat → ℂ) : applyAll n h' live' L v = applyAll n h live L v := by
  unfold applyAll
  induction L generalizing v with
  | nil => rfl
  | cons x L ih =>
    rw [List.foldl_cons, List.foldl_cons, g.nodeApply c c' (hL x (by simp))]
    exact ih (fun y hy => hL y (by simp [hy])) _

/-- The state after the extended circuit is the old state transformed by the new nodes. -/
theorem Grows.applyAll (g : Grows h live h' live' new) (c : Ctx h V live) (c' : Ctx h' V' live') (n : Nat)
    (v : Nat → ℂ) :
    applyAll n h' live' (Spec.needed h' live') v
      = applyAll n h' live' new (applyAll n h live (Spec.needed h live) v) := by
  rw [g.needed c c']
  rw [← g.applyAll_old c c' n (Spec.needed h live) (fun x hx => (mem_needed c.wf c.vargs).1 hx) v]
  unfold Spec.applyAll
  rw [List.foldl_append]

theorem Grows.startAmp (g : Grows h live h' live' new) (c : Ctx h V live) (c' : Ctx h' V' live')
    {feed : List (List Nat × List ℂ)} (hf : FeedOK h live feed) : startAmp h' live' feed = startAmp h live feed := by
  funext r
  unfold Spec.startAmp
  rw [g.width c c', g.leaves c c']
  simp only
  congr 2
  · apply List.map_congr_left
    intro kv hkv
    have : kv.1.map (Spec.wires h' live') = kv.1.map (Spec.wires h live) := by
      apply List.map_congr_left
      intro q hq
      refine g.wires c c' ((mem_leaves c.wf c.vargs).1 (hf.mem q ?_)).1
      exact List.mem_flatten.2 ⟨_, List.mem_map.2 ⟨kv, hkv, rfl⟩, hq⟩
    rw [this]
  · apply List.map_congr_left
    intro q hq
    have hq' := ((mem_leaves c.wf c.vargs).1 (List.mem_filter.1 hq).1).1
    rw [g.wires c c' hq']
    unfold startVec
    rw [g.ext.default q (c.lt hq'), g.ext.n q (c.lt hq')]

theorem Grows.feedOK (g : Grows h live h' live' new) (c : Ctx h V live) (c' : Ctx h' V' live')
    {feed : List (List Nat × List ℂ)} (hf : FeedOK h live feed) : FeedOK h' live' feed := by
  refine ⟨hf.nodup, fun q hq => by rw [g.leaves c c']; exact hf.mem q hq, ?_⟩
  intro kv hkv
  rw [hf.size kv hkv]
  congr 2
  symm
  apply map_n_leaves c g.ext
  intro x hx
  exact hf.mem x (List.mem_flatten.2 ⟨_, List.mem_map.2 ⟨kv, hkv, rfl⟩, hx⟩)

theorem Grows.defaultOK (g : Grows h live h' live' new) (c : Ctx h V live) (c' : Ctx h' V' live')
    {feed : List (List Nat × List ℂ)} (hd : ∀ q ∈ Spec.leaves h live, q ∉ (feed.map (·.1)).flatten → DefaultOK h q) :
    ∀ q ∈ Spec.leaves h' live', q ∉ (feed.map (·.1)).flatten → DefaultOK h' q := by
  intro q hq hn
  rw [g.leaves c c'] at hq
  have hlt := c.lt ((mem_leaves c.wf c.vargs).1 hq).1
  have := hd q hq hn
  unfold DefaultOK at *
  rw [g.ext.default q hlt, g.ext.n q hlt]
  exact this

theorem Grows.trans {h'' : Heap} {live'' new' : List Nat} (g : Grows h live h' live' new)
    (c' : Ctx h' V' live') (g' : Grows h' live' h'' live'' new') :
    Grows h live h'' live'' (new ++ new') where
  ext := g.ext.trans g'.ext
  reach x := by rw [g'.reach, g.reach, List.mem_append, or_assoc]
  asc := by
    rw [List.pairwise_append]
    refine ⟨g.asc, g'.asc, ?_⟩
    intro a ha b hb
    have h1 := c'.lt ((g.reach a).2 (Or.inr ha))
    have h2 := g'.ge b hb
    omega
  ge x hx := by
    rcases List.mem_append.1 hx with hx | hx
    · exact g.ge x hx
    · exact g.ext.len.trans (g'.ge x hx)
  inner x hx := by
    rcases List.mem_append.1 hx with hx | hx
    · rw [g'.ext.inputs x (c'.lt ((g.reach x).2 (Or.inr hx)))]; exact g.inner x hx
    · exact g'.inner x hx

theorem Grows.refl (h : Heap) (live : List Nat) : Grows h live h live [] :=
  ⟨Ext.refl h, by simp, by simp, by simp, by simp⟩

/-- Nodes that are only reached by listing the same references. -/
theorem reach_mem {args args' : List Nat} (hm : ∀ x, x ∈ args ↔ x ∈ args') (x : Nat) :
    Reach h args x ↔ Reach h args' x := by
  have : ∀ {a b : List Nat}, (∀ x, x ∈ a ↔ x ∈ b) → ∀ x, Reach h a x → Reach h b x := by
    intro a b hab x hx
    induction hx with
    | arg h' => exact .arg ((hab _).1 h')
    | input _ h' ih => exact .input ih h'
  exact ⟨this hm x, this (fun x => (hm x).symm) x⟩

/-- Reordering the references. -/
theorem Grows.perm {args' : List Nat} (hm : ∀ x, x ∈ live ↔ x ∈ args') : Grows h live h args' [] :=
  ⟨Ext.refl h, fun x => by rw [← reach_mem hm]; simp, by simp, by simp, by simp⟩

/-- If the state of the heap is extended by nodes each of which is fine, the result is fine. -/
theorem Live.grow {env env' : List Nat} (l : Live h env live) (g : Grows h live h' live' new) (hb : h'.Built env')
    (hheld : ∀ x ∈ live', x ∈ env') (hsize : ∀ x ∈ new, SizeOK h' x) (hsplit : ∀ x ∈ new, SplitOK h' x)
    (hok : ∀ V', Ctx h' V' live' → ∀ x ∈ new, NodeOK h' live' x)
    (hnm : ∀ x ∈ new, NoMeasure h' live' x)
    (hpart : ∀ V', Ctx h' V' live' → ((live'.map (Spec.wires h' live')).flatten).Perm (List.range (Spec.width h live))) :
    Live h' env' live' := by
  obtain ⟨V, c⟩ := l.circuit.ctx
  have hcirc : Circuit h' env' live' := by
    refine ⟨hb, hheld, ?_, ?_⟩
    · intro x hx
      rcases (g.reach x).1 hx with hx | hx
      · have hlt := c.lt hx
        unfold SizeOK
        rw [g.ext.inputs x hlt, g.ext.kind x hlt, g.ext.n x hlt]
        have : (h.inputs x).map h'.n = (h.inputs x).map h.n :=
          List.map_congr_left fun i hi => g.ext.n i ((c.ilt hx i hi).trans hlt)
        rw [this]
        exact c.size x hx
      · exact hsize x hx
    · intro x hx
      rcases (g.reach x).1 hx with hx | hx
      · have hlt := c.lt hx
        unfold SplitOK
        rw [g.ext.inputs x hlt, g.ext.kind x hlt]
        have : (h.inputs x).map h'.n = (h.inputs x).map h.n :=
          List.map_congr_left fun i hi => g.ext.n i ((c.ilt hx i hi).trans hlt)
        rw [this]
        exact c.split x hx
      · exact hsplit x hx
  obtain ⟨V', c'⟩ := hcirc.ctx
  refine ⟨hcirc, ?_, ?_, by rw [g.width c c']; exact hpart V' c'⟩
  · intro x hx
    rcases (g.reach x).1 hx with hx | hx
    · have hlt := c.lt hx
      obtain ⟨o1, o2, o3⟩ := l.ok x hx
      refine ⟨?_, ?_, ?_⟩
      · rw [g.groups c c' hx]; exact o1
      · rw [g.ext.kind x hlt, g.ext.inputs x hlt]; exact o2
      · rw [g.ext.kind x hlt, g.width c c', g.groups c c' hx]; exact o3
    · exact hok V' c' x hx
  · intro x hx
    rcases (g.reach x).1 hx with hx | hx
    · have hlt := c.lt hx
      unfold NoMeasure
      rw [g.ext.kind x hlt, g.groups c c' hx]
      exact l.nomeasure x hx
    · exact hnm x hx

end QIP
