import Verif.Lemmas.Demo

/-! # Later constructions do not change the meaning of earlier nodes -/

namespace QIP

open Spec Heap

variable {h h' : Heap} {V : Nat → Prop} {args : List Nat}

theorem Ctx.lt (c : Ctx h V args) {x : Nat} (hx : Reach h args x) : x < h.nodes.length := c.wf.vlt x (c.vis hx)

theorem reach_ext (c : Ctx h V args) (he : Ext h h') (x : Nat) : Reach h' args x ↔ Reach h args x := by
  constructor
  · intro hx
    induction hx with
    | arg h => exact .arg h
    | input _ h1 ih =>
      rw [he.inputs _ (c.lt ih)] at h1
      exact .input ih h1
  · intro hx
    induction hx with
    | arg h => exact .arg h
    | input h0 h1 ih =>
      rw [← he.inputs _ (c.lt h0)] at h1
      exact .input ih h1

theorem Ctx.ext (c : Ctx h V args) (he : Ext h h') {V' : Nat → Prop} (hw : WF h' V') (hk : ∀ x, V' x → KindOK h' x)
    (hv : ∀ x, V x → V' x) : Ctx h' V' args := by
  refine ⟨hw, hk, fun x hx => hv x (c.vargs x hx), ?_, ?_⟩
  · intro x hx
    rw [reach_ext c he] at hx
    have hlt := c.lt hx
    unfold SizeOK
    rw [he.inputs x hlt, he.kind x hlt, he.n x hlt]
    have : (h.inputs x).map h'.n = (h.inputs x).map h.n :=
      List.map_congr_left fun i hi => he.n i ((c.ilt hx i hi).trans hlt)
    rw [this]
    exact c.size x hx
  · intro x hx is
    rw [reach_ext c he] at hx
    have hlt := c.lt hx
    rw [he.inputs x hlt, he.kind x hlt]
    have : (h.inputs x).map h'.n = (h.inputs x).map h.n :=
      List.map_congr_left fun i hi => he.n i ((c.ilt hx i hi).trans hlt)
    rw [this]
    exact c.split x hx is

theorem needed_ext (c : Ctx h V args) (he : Ext h h') : needed h' args = needed h args := by
  refine asc_ext (needed_asc h' args) (needed_asc h args) ?_
  intro x
  rw [mem_needed c.wf c.vargs]
  unfold needed
  simp only [List.mem_filter, List.mem_range, decide_eq_true_eq]
  rw [reach_ext c he]
  constructor
  · exact fun h => h.2
  · intro hx
    have h1 := c.lt hx
    have h2 := he.len
    exact ⟨by omega, hx⟩

theorem leaves_ext (c : Ctx h V args) (he : Ext h h') : leaves h' args = leaves h args := by
  unfold leaves
  rw [needed_ext c he]
  apply List.filter_congr
  intro x hx
  unfold isLeaf
  rw [he.inputs x (c.lt ((mem_needed c.wf c.vargs).1 hx))]

theorem map_n_leaves (c : Ctx h V args) (he : Ext h h') {l : List Nat} (hl : ∀ x ∈ l, x ∈ leaves h args) :
    l.map h'.n = l.map h.n :=
  List.map_congr_left fun x hx => he.n x (c.lt ((mem_leaves c.wf c.vargs).1 (hl x hx)).1)

theorem width_ext (c : Ctx h V args) (he : Ext h h') : width h' args = width h args := by
  unfold width
  rw [leaves_ext c he, map_n_leaves c he fun x hx => hx]

theorem offset_ext (c : Ctx h V args) (he : Ext h h') (x : Nat) : offset h' args x = offset h args x := by
  unfold offset
  rw [leaves_ext c he, map_n_leaves c he fun x hx => (List.mem_filter.1 hx).1]

theorem wires_ext (c : Ctx h V args) (he : Ext h h') {x : Nat} (hx : Reach h args x) :
    wires h' args x = wires h args x := by
  induction x using Nat.strongRecOn with
  | ind x ih =>
    have hlt := c.lt hx
    rw [wires.eq_def h' args x, wires.eq_def h args x, he.inputs x hlt, he.n x hlt, he.kind x hlt, offset_ext c he]
    have : (h.inputs x).map (fun i => if i < x then wires h' args i else [])
        = (h.inputs x).map (fun i => if i < x then wires h args i else []) := by
      apply List.map_congr_left
      intro i hi
      have hix := c.ilt hx i hi
      rw [if_pos hix, if_pos hix, ih i hix (.input hx hi)]
    rw [this]

theorem groups_ext (c : Ctx h V args) (he : Ext h h') {x : Nat} (hx : Reach h args x) :
    groups h' args x = groups h args x := by
  unfold groups
  rw [he.inputs x (c.lt hx)]
  exact List.map_congr_left fun i hi => wires_ext c he (.input hx hi)

theorem startState_ext (c : Ctx h V args) (he : Ext h h') {feed : List (List Nat × List ℂ)} (hf : FeedOK h args feed)
    (arena : List ℂ) : startState h' args feed arena = startState h args feed arena := by
  unfold startState
  rw [width_ext c he]
  congr 1
  apply List.map_congr_left
  intro r _
  unfold startAmp
  rw [width_ext c he, leaves_ext c he]
  simp only
  congr 2
  · apply List.map_congr_left
    intro kv hkv
    have : kv.1.map (wires h' args) = kv.1.map (wires h args) := by
      apply List.map_congr_left
      intro q hq
      refine wires_ext c he ((mem_leaves c.wf c.vargs).1 (hf.mem q ?_)).1
      exact List.mem_flatten.2 ⟨_, List.mem_map.2 ⟨kv, hkv, rfl⟩, hq⟩
    rw [this]
  · apply List.map_congr_left
    intro q hq
    have hq' := ((mem_leaves c.wf c.vargs).1 (List.mem_filter.1 hq).1).1
    rw [wires_ext c he hq']
    unfold startVec
    rw [he.default q (c.lt hq'), he.n q (c.lt hq')]

theorem nodeFeed_ext (c : Ctx h V args) (he : Ext h h') {x : Nat} (hx : Reach h args x) (orc : Nat → Oracle)
    (st : Feeder) (gs : List (List Nat)) (own : List Nat) :
    nodeFeed h' orc st gs own x = nodeFeed h orc st gs own x := by
  unfold nodeFeed
  rw [he.kind x (c.lt hx)]

theorem feedAll_ext (c : Ctx h V args) (he : Ext h h') (orc : Nat → Oracle) (L : List Nat) (hL : ∀ x ∈ L, Reach h args x)
    (st : Feeder) :
    L.foldlM (fun a x => nodeFeed h' orc a (groups h' args x) (wires h' args x) x) st
      = L.foldlM (fun a x => nodeFeed h orc a (groups h args x) (wires h args x) x) st := by
  induction L generalizing st with
  | nil => rfl
  | cons x L ih =>
    have hx := hL x (by simp)
    rw [List.foldlM_cons, List.foldlM_cons, nodeFeed_ext c he hx, groups_ext c he hx, wires_ext c he hx]
    congr 1
    funext s
    exact ih (fun y hy => hL y (by simp [hy])) s

theorem run_ext (c : Ctx h V args) (he : Ext h h') {V' : Nat → Prop} (hw : WF h' V') (hk : ∀ x, V' x → KindOK h' x)
    (hv : ∀ x, V x → V' x) {feed : List (List Nat × List ℂ)} (hf : FeedOK h args feed)
    (hdef : ∀ q ∈ leaves h args, q ∉ (feed.map (·.1)).flatten → DefaultOK h q) (ms : MsTable)
    (pick : List Nat → Nat) (shuffle : List Nat → List Nat) (hsh : ∀ l, (shuffle l).Perm l) (orc : Nat → Oracle)
    (arena : List ℂ) :
    run h' ms args (feed.map asFeed) false none pick shuffle orc arena
      = run h ms args (feed.map asFeed) false none pick shuffle orc arena := by
  have c' := c.ext he hw hk hv
  rw [run_spec c hf hdef ms false pick shuffle hsh orc arena (by simp)]
  rw [run_spec c' (feed := feed) _ _ ms false pick shuffle hsh orc arena (by simp), needed_ext c he, startState_ext c he hf,
    feedAll_ext c he orc _ fun x hx => (mem_needed c.wf c.vargs).1 hx]
  · refine ⟨hf.nodup, ?_, ?_⟩
    · rw [leaves_ext c he]; exact hf.mem
    · intro kv hkv
      have : kv.1.map h'.n = kv.1.map h.n := map_n_leaves c he fun q hq =>
        hf.mem q (List.mem_flatten.2 ⟨_, List.mem_map.2 ⟨kv, hkv, rfl⟩, hq⟩)
      rw [this]
      exact hf.size kv hkv
  · intro q hq hq'
    rw [leaves_ext c he] at hq
    have := hdef q hq hq'
    have hlt := c.lt ((mem_leaves c.wf c.vargs).1 hq).1
    unfold DefaultOK at this ⊢
    rw [he.default q hlt, he.n q hlt]
    exact this

end QIP
