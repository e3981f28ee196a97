import Verif.Model.Graph
import Verif.Spec.Graph

/-! # What the constructors do to the heap -/

namespace QIP.Heap

open QIP

/-- Same objects up to their sinks. -/
structure Same (h h' : Heap) : Prop where
  len : h'.nodes.length = h.nodes.length
  next : h'.nextQid = h.nextQid
  kind : ∀ x, h'.kind x = h.kind x
  n : ∀ x, h'.n x = h.n x
  qid : ∀ x, h'.qid x = h.qid x
  inputs : ∀ x, h'.inputs x = h.inputs x
  default : ∀ x, h'.default x = h.default x

theorem Same.refl (h : Heap) : Same h h := ⟨rfl, rfl, fun _ => rfl, fun _ => rfl, fun _ => rfl, fun _ => rfl, fun _ => rfl⟩

theorem Same.trans {h h' h'' : Heap} (a : Same h h') (b : Same h' h'') : Same h h'' :=
  ⟨b.len.trans a.len, b.next.trans a.next, fun x => (b.kind x).trans (a.kind x), fun x => (b.n x).trans (a.n x),
    fun x => (b.qid x).trans (a.qid x), fun x => (b.inputs x).trans (a.inputs x),
    fun x => (b.default x).trans (a.default x)⟩

theorem node_addSink (h : Heap) (item sink y : Nat) :
    (h.addSink item sink).node y = if y = item ∧ item < h.nodes.length then
      { h.node y with sinks := h.sinks y ++ [sink] } else h.node y := by
  unfold addSink node sinks node
  simp only [List.getD_eq_getElem?_getD, List.getElem?_modify]
  by_cases hy : y = item
  · subst hy
    by_cases hl : y < h.nodes.length
    · simp [hl]
    · simp [hl]
  · have : ¬ item = y := fun e => hy e.symm
    simp [this, hy]

theorem same_addSink (h : Heap) (item sink : Nat) : Same h (h.addSink item sink) := by
  have key : ∀ y, ((h.addSink item sink).node y).kind = (h.node y).kind ∧
      ((h.addSink item sink).node y).n = (h.node y).n ∧ ((h.addSink item sink).node y).qid = (h.node y).qid ∧
      ((h.addSink item sink).node y).inputs = (h.node y).inputs ∧
      ((h.addSink item sink).node y).default = (h.node y).default := by
    intro y
    rw [node_addSink]
    split <;> simp
  exact ⟨by simp [addSink], rfl, fun x => (key x).1, fun x => (key x).2.1, fun x => (key x).2.2.1,
    fun x => (key x).2.2.2.1, fun x => (key x).2.2.2.2⟩

theorem sinks_addSink (h : Heap) (item sink y : Nat) (hi : item < h.nodes.length) :
    (h.addSink item sink).sinks y = if y = item then h.sinks y ++ [sink] else h.sinks y := by
  unfold sinks
  rw [node_addSink]
  by_cases hy : y = item
  · simp [hy, hi, sinks]
  · simp [hy]

theorem setSink_ok {h h' : Heap} {item sink : Nat} (he : h.setSink item sink = .ok h') : h' = h.addSink item sink := by
  unfold setSink at he
  split at he
  · split at he
    · exact (Except.ok.inj he).symm
    · split at he
      · exact (Except.ok.inj he).symm
      · cases he
  · exact (Except.ok.inj he).symm

theorem setSink_other {h : Heap} {item sink : Nat} (hk : h.kind sink ≠ .qubit) :
    h.setSink item sink = .ok (h.addSink item sink) := by
  unfold setSink
  split
  · rename_i h'; exact absurd h' hk
  · rfl

theorem registerSinks_spec (h : Heap) (x : Nat) (items : List Nat) (hlt : ∀ i ∈ items, i < h.nodes.length) :
    Same h (h.registerSinks x items).2 ∧
      (∀ y, ∃ k, (h.registerSinks x items).2.sinks y = h.sinks y ++ List.replicate k x) ∧
      ((h.registerSinks x items).1 = .ok () → ∀ i ∈ items, x ∈ (h.registerSinks x items).2.sinks i) ∧
      (∀ y, y ∉ items → (h.registerSinks x items).2.sinks y = h.sinks y) := by
  induction items generalizing h with
  | nil => exact ⟨Same.refl h, fun y => ⟨0, by simp [registerSinks]⟩, by simp, fun _ _ => rfl⟩
  | cons item rest ih =>
    have hitem : item < h.nodes.length := hlt item (by simp)
    unfold registerSinks
    rcases hs : h.setSink item x with e | h'
    · exact ⟨Same.refl h, fun y => ⟨0, by simp⟩, by simp, fun _ _ => rfl⟩
    · simp only
      have e := setSink_ok hs
      subst e
      have hsame := same_addSink h item x
      obtain ⟨i1, i2, i3, i4⟩ := ih (h.addSink item x) (fun i hi => by rw [hsame.len]; exact hlt i (by simp [hi]))
      refine ⟨hsame.trans i1, ?_, ?_, ?_⟩
      · intro y
        obtain ⟨k, hk⟩ := i2 y
        rw [sinks_addSink _ _ _ _ hitem] at hk
        by_cases hy : y = item
        · refine ⟨k + 1, ?_⟩
          rw [hk, if_pos hy, List.replicate_succ]
          simp
        · exact ⟨k, by rw [hk, if_neg hy]⟩
      · intro hok i hi
        rcases List.mem_cons.1 hi with rfl | hi
        · obtain ⟨k, hk⟩ := i2 i
          rw [hk, sinks_addSink _ _ _ _ hitem]
          simp
        · exact i3 hok i hi
      · intro y hy
        rw [List.mem_cons, not_or] at hy
        rw [i4 y hy.2, sinks_addSink _ _ _ _ hitem, if_neg hy.1]

theorem registerSinks_other {h : Heap} {x : Nat} (items : List Nat) (hk : h.kind x ≠ .qubit) :
    (h.registerSinks x items).1 = .ok () := by
  induction items generalizing h with
  | nil => rfl
  | cons item rest ih =>
    unfold registerSinks
    rw [setSink_other hk]
    exact ih (by rw [(same_addSink h item x).kind]; exact hk)

/-- A heap extended by new objects, old objects unchanged up to new sinks among the new objects. -/
structure Ext (h h' : Heap) : Prop where
  len : h.nodes.length ≤ h'.nodes.length
  next : h.nextQid ≤ h'.nextQid
  kind : ∀ x < h.nodes.length, h'.kind x = h.kind x
  n : ∀ x < h.nodes.length, h'.n x = h.n x
  qid : ∀ x < h.nodes.length, h'.qid x = h.qid x
  inputs : ∀ x < h.nodes.length, h'.inputs x = h.inputs x
  default : ∀ x < h.nodes.length, h'.default x = h.default x
  sinks : ∀ x < h.nodes.length, ∃ l, h'.sinks x = h.sinks x ++ l ∧ ∀ s ∈ l, h.nodes.length ≤ s

theorem Ext.refl (h : Heap) : Ext h h :=
  ⟨le_rfl, le_rfl, fun _ _ => rfl, fun _ _ => rfl, fun _ _ => rfl, fun _ _ => rfl, fun _ _ => rfl,
    fun _ _ => ⟨[], by simp, by simp⟩⟩

theorem Ext.trans {h h' h'' : Heap} (a : Ext h h') (b : Ext h' h'') : Ext h h'' where
  len := a.len.trans b.len
  next := a.next.trans b.next
  kind x hx := (b.kind x (hx.trans_le a.len)).trans (a.kind x hx)
  n x hx := (b.n x (hx.trans_le a.len)).trans (a.n x hx)
  qid x hx := (b.qid x (hx.trans_le a.len)).trans (a.qid x hx)
  inputs x hx := (b.inputs x (hx.trans_le a.len)).trans (a.inputs x hx)
  default x hx := (b.default x (hx.trans_le a.len)).trans (a.default x hx)
  sinks x hx := by
    obtain ⟨l, e, hl⟩ := a.sinks x hx
    obtain ⟨l', e', hl'⟩ := b.sinks x (hx.trans_le a.len)
    refine ⟨l ++ l', by rw [e', e, List.append_assoc], ?_⟩
    intro s hs
    rcases List.mem_append.1 hs with hs | hs
    · exact hl s hs
    · exact a.len.trans (hl' s hs)

/-- The invariant of heaps built through the API.  `V` are the objects the user can get hold of (through attributes
too): not the inner operations of `C` and not objects whose constructor raised. -/
structure WF (h : Heap) (V : Nat → Prop) : Prop where
  vlt : ∀ x, V x → x < h.nodes.length
  vin : ∀ x, V x → ∀ i ∈ h.inputs x, V i
  ilt : ∀ x < h.nodes.length, ∀ i ∈ h.inputs x, i < x
  qlt : ∀ x < h.nodes.length, h.qid x < h.nextQid
  qmono : ∀ x y, x ≤ y → y < h.nodes.length → h.qid x ≤ h.qid y
  qedge : ∀ x < h.nodes.length, ∀ i ∈ h.inputs x, h.qid i < h.qid x
  tie : ∀ x y, V x → V y → x < y → h.qid x = h.qid y →
    ∃ p is js, h.inputs x = [p] ∧ h.inputs y = [p] ∧ h.kind x = .split is ∧ h.kind y = .split js
  link : ∀ x, V x → ∀ i ∈ h.inputs x, x ∈ h.sinks i
  sasc : ∀ x < h.nodes.length, (h.sinks x).Pairwise (· ≤ ·)
  slt : ∀ x < h.nodes.length, ∀ s ∈ h.sinks x, s < h.nodes.length
  sin : ∀ x < h.nodes.length, ∀ s ∈ h.sinks x, x ∈ h.inputs s

theorem wf_empty : WF empty (fun _ => False) := by
  constructor <;> simp [empty]

/-- Pushing a node. -/
def push (h : Heap) (nd : Node) (next : Nat) : Heap := ⟨h.nodes ++ [nd], next⟩

theorem node_push_lt (h : Heap) (nd : Node) (next : Nat) {x : Nat} (hx : x < h.nodes.length) :
    (h.push nd next).node x = h.node x := by
  simp [push, node, List.getElem?_append_left hx]

theorem node_push_eq (h : Heap) (nd : Node) (next : Nat) : (h.push nd next).node h.nodes.length = nd := by
  simp [push, node]

theorem node_ge (h : Heap) {x : Nat} (hx : h.nodes.length ≤ x) : h.node x = ⟨.qubit, 0, 0, [], none, []⟩ := by
  simp [node, hx]

/-- Requirements on a forced qid. -/
def QidOK (h : Heap) (V : Nat → Prop) (kind : Kind) (inputs : List Nat) (qid : Option Nat) : Prop :=
  ∀ q, qid = some q → (∀ y < h.nodes.length, h.qid y ≤ q) ∧ q < h.nextQid ∧ (∀ i ∈ inputs, h.qid i < q) ∧
    ∀ y, V y → h.qid y = q →
      ∃ p is js, h.inputs y = [p] ∧ inputs = [p] ∧ h.kind y = .split is ∧ kind = .split js

/-- The number of qubits computed by `Qubit.__init__`. -/
def initN (h : Heap) (inputs : List Nat) (n : Option Int) : Int :=
  match n with
  | some n => n
  | none => if inputs.length > 0 then ((inputs.map h.n).sum : Nat) else 1

/-- The default is rejected. -/
def badDefault (n : Int) (default : Option Default) : Bool :=
  match default with | some (.list l) => decide (n < 0 ∨ l.length ≠ 2 ^ n.toNat) | _ => false

/-- The new object made by `Qubit.__init__` and the new counter. -/
def newNode (h : Heap) (kind : Kind) (inputs : List Nat) (n : Option Int) (qid : Option Nat)
    (default : Option Default) : Node :=
  ⟨kind, (h.initN inputs n).toNat, qid.getD h.nextQid, inputs, default, []⟩

def newNext (h : Heap) (qid : Option Nat) : Nat := match qid with | some _ => h.nextQid | none => h.nextQid + 1

theorem initQubit_eq (h : Heap) (kind : Kind) (inputs : List Nat) (n : Option Int) (qid : Option Nat)
    (default : Option Default) :
    h.initQubit kind inputs n qid default =
      if badDefault (h.initN inputs n) default then (.error .valueError, h)
      else if h.initN inputs n ≤ 0 then (.error .exception, h)
      else match (h.push (h.newNode kind inputs n qid default) (h.newNext qid)).registerSinks h.nodes.length inputs with
        | (.error e, h'') => (.error e, h'')
        | (.ok (), h'') => (.ok h.nodes.length, h'') := by
  unfold initQubit
  cases qid <;> cases n <;> rfl

/-- The properties of a successfully created object. -/
structure Created (h h' : Heap) (x : Nat) (kind : Kind) (inputs : List Nat) (n : Option Int) (qid : Option Nat)
    (default : Option Default) : Prop where
  id : x = h.nodes.length
  len : h'.nodes.length = h.nodes.length + 1
  next : h'.nextQid = h.newNext qid
  kindx : h'.kind x = kind
  inputsx : h'.inputs x = inputs
  nx : h'.n x = (h.initN inputs n).toNat
  npos : 0 < h.initN inputs n
  qidx : h'.qid x = qid.getD h.nextQid
  defaultx : h'.default x = default
  gooddef : badDefault (h.initN inputs n) default = false
  sinkx : x ∉ inputs → h'.sinks x = []

theorem push_wf {h : Heap} {V : Nat → Prop} (hw : WF h V) {kind : Kind} {inputs : List Nat} {n : Option Int}
    {qid : Option Nat} {default : Option Default} (hin : ∀ i ∈ inputs, V i) (hq : QidOK h V kind inputs qid)
    {h' : Heap} {ok : Prop} (hsame : Same (h.push (h.newNode kind inputs n qid default) (h.newNext qid)) h')
    (hs : ∀ y, ∃ k, h'.sinks y
      = (h.push (h.newNode kind inputs n qid default) (h.newNext qid)).sinks y ++ List.replicate k h.nodes.length)
    (hs' : ∀ y, y ∉ inputs → h'.sinks y
      = (h.push (h.newNode kind inputs n qid default) (h.newNext qid)).sinks y)
    (hok : ok → ∀ i ∈ inputs, h.nodes.length ∈ h'.sinks i) :
    Ext h h' ∧ WF h' V ∧ (ok → WF h' fun y => V y ∨ y = h.nodes.length) := by
  set P := h.push (h.newNode kind inputs n qid default) (h.newNext qid) with hP
  have hlen : h'.nodes.length = h.nodes.length + 1 := by rw [hsame.len]; simp [hP, push]
  have hilt : ∀ i ∈ inputs, i < h.nodes.length := fun i hi => hw.vlt i (hin i hi)
  have old : ∀ x < h.nodes.length, h'.kind x = h.kind x ∧ h'.n x = h.n x ∧ h'.qid x = h.qid x ∧
      h'.inputs x = h.inputs x ∧ h'.default x = h.default x ∧ ∃ k, h'.sinks x
        = h.sinks x ++ List.replicate k h.nodes.length := by
    intro x hx
    have e := node_push_lt h (h.newNode kind inputs n qid default) (h.newNext qid) hx
    rw [← hP] at e
    refine ⟨?_, ?_, ?_, ?_, ?_, ?_⟩
    · rw [hsame.kind]; unfold Heap.kind; rw [e]
    · rw [hsame.n]; unfold Heap.n; rw [e]
    · rw [hsame.qid]; unfold Heap.qid; rw [e]
    · rw [hsame.inputs]; unfold Heap.inputs; rw [e]
    · rw [hsame.default]; unfold Heap.default; rw [e]
    · obtain ⟨k, hk⟩ := hs x
      refine ⟨k, ?_⟩
      rw [hk]; unfold Heap.sinks; rw [e]
  have enew : P.node h.nodes.length = h.newNode kind inputs n qid default := node_push_eq _ _ _
  have newk : h'.kind h.nodes.length = kind := by rw [hsame.kind]; unfold Heap.kind; rw [enew]; rfl
  have newi : h'.inputs h.nodes.length = inputs := by rw [hsame.inputs]; unfold Heap.inputs; rw [enew]; rfl
  have newq : h'.qid h.nodes.length = qid.getD h.nextQid := by rw [hsame.qid]; unfold Heap.qid; rw [enew]; rfl
  have news : h'.sinks h.nodes.length = [] := by
    rw [hs' _ (fun hm => by have := hilt _ hm; omega)]; unfold Heap.sinks; rw [enew]; rfl
  have hnext : h'.nextQid = h.newNext qid := hsame.next
  have hnextle : h.nextQid ≤ h.newNext qid := by cases qid <;> simp [newNext]
  have hqnew : (∀ y < h.nodes.length, h.qid y ≤ qid.getD h.nextQid) ∧ qid.getD h.nextQid < h.newNext qid ∧
      ∀ i ∈ inputs, h.qid i < qid.getD h.nextQid := by
    cases qid with
    | none =>
      refine ⟨fun y hy => (hw.qlt y hy).le, by simp [newNext], fun i hi => hw.qlt i (hilt i hi)⟩
    | some q =>
      obtain ⟨a, b, c, _⟩ := hq q rfl
      exact ⟨a, b, c⟩
  have hcase : ∀ x < h'.nodes.length, x < h.nodes.length ∨ x = h.nodes.length := by
    intro x hx; omega
  have hext : Ext h h' := by
    refine ⟨by omega, by omega, fun x hx => (old x hx).1, fun x hx => (old x hx).2.1, fun x hx => (old x hx).2.2.1,
      fun x hx => (old x hx).2.2.2.1, fun x hx => (old x hx).2.2.2.2.1, ?_⟩
    intro x hx
    obtain ⟨k, hk⟩ := (old x hx).2.2.2.2.2
    exact ⟨_, hk, fun s hs => by rw [List.eq_of_mem_replicate hs]⟩
  -- the parts that do not mention the visible set
  have Wilt : ∀ x < h'.nodes.length, ∀ i ∈ h'.inputs x, i < x := by
    intro x hx i hi
    rcases hcase x hx with hx | rfl
    · rw [(old x hx).2.2.2.1] at hi; exact hw.ilt x hx i hi
    · rw [newi] at hi; exact hilt i hi
  have Wqlt : ∀ x < h'.nodes.length, h'.qid x < h'.nextQid := by
    intro x hx
    rcases hcase x hx with hx | rfl
    · rw [(old x hx).2.2.1, hnext]; exact (hw.qlt x hx).trans_le hnextle
    · rw [newq, hnext]; exact hqnew.2.1
  have Wqmono : ∀ x y, x ≤ y → y < h'.nodes.length → h'.qid x ≤ h'.qid y := by
    intro x y hxy hy
    rcases hcase y hy with hy | rfl
    · rw [(old x (by omega)).2.2.1, (old y hy).2.2.1]; exact hw.qmono x y hxy hy
    · rcases hcase x (by omega) with hx | rfl
      · rw [(old x hx).2.2.1, newq]; exact hqnew.1 x hx
      · exact le_rfl
  have Wqedge : ∀ x < h'.nodes.length, ∀ i ∈ h'.inputs x, h'.qid i < h'.qid x := by
    intro x hx i hi
    rcases hcase x hx with hx | rfl
    · rw [(old x hx).2.2.2.1] at hi
      have := hw.ilt x hx i hi
      rw [(old x hx).2.2.1, (old i (by omega)).2.2.1]; exact hw.qedge x hx i hi
    · rw [newi] at hi
      rw [(old i (hilt i hi)).2.2.1, newq]
      exact hqnew.2.2 i hi
  have Wsasc : ∀ x < h'.nodes.length, (h'.sinks x).Pairwise (· ≤ ·) := by
    intro x hx
    rcases hcase x hx with hx | rfl
    · obtain ⟨k, hk⟩ := (old x hx).2.2.2.2.2
      rw [hk, List.pairwise_append]
      refine ⟨hw.sasc x hx, List.pairwise_replicate.2 (Or.inr le_rfl), ?_⟩
      intro a ha b hb
      rw [List.eq_of_mem_replicate hb]
      exact (hw.slt x hx a ha).le
    · rw [news]; exact List.Pairwise.nil
  have Wslt : ∀ x < h'.nodes.length, ∀ s ∈ h'.sinks x, s < h'.nodes.length := by
    intro x hx s hs
    rcases hcase x hx with hx | rfl
    · obtain ⟨k, hk⟩ := (old x hx).2.2.2.2.2
      rw [hk, List.mem_append] at hs
      rcases hs with hs | hs
      · have := hw.slt x hx s hs; omega
      · rw [List.eq_of_mem_replicate hs]; omega
    · rw [news] at hs; simp at hs
  have Wsin : ∀ x < h'.nodes.length, ∀ s ∈ h'.sinks x, x ∈ h'.inputs s := by
    intro x hx s hs
    by_cases hxi : x ∈ inputs
    · rcases hcase x hx with hx | rfl
      · obtain ⟨k, hk⟩ := (old x hx).2.2.2.2.2
        rw [hk, List.mem_append] at hs
        rcases hs with hs | hs
        · rw [(old s (hw.slt x hx s hs)).2.2.2.1]; exact hw.sin x hx s hs
        · rw [List.eq_of_mem_replicate hs, newi]; exact hxi
      · rw [news] at hs; simp at hs
    · rcases hcase x hx with hx | rfl
      · rw [hs' x hxi] at hs
        have e : P.sinks x = h.sinks x := by
          unfold Heap.sinks
          rw [hP, node_push_lt _ _ _ hx]
        rw [e] at hs
        rw [(old s (hw.slt x hx s hs)).2.2.2.1]; exact hw.sin x hx s hs
      · rw [news] at hs; simp at hs
  have Wtie : ∀ x y, V x → V y → x < y → h'.qid x = h'.qid y →
      ∃ p is js, h'.inputs x = [p] ∧ h'.inputs y = [p] ∧ h'.kind x = .split is ∧ h'.kind y = .split js := by
    intro x y hx hy hxy he
    have hx' := hw.vlt x hx
    have hy' := hw.vlt y hy
    rw [(old x hx').2.2.1, (old y hy').2.2.1] at he
    rw [(old x hx').2.2.2.1, (old y hy').2.2.2.1, (old x hx').1, (old y hy').1]
    exact hw.tie x y hx hy hxy he
  refine ⟨hext, ⟨?_, ?_, Wilt, Wqlt, Wqmono, Wqedge, Wtie, ?_, Wsasc, Wslt, Wsin⟩, ?_⟩
  · intro x hx; have := hw.vlt x hx; omega
  · intro x hx i hi
    rw [(old x (hw.vlt x hx)).2.2.2.1] at hi
    exact hw.vin x hx i hi
  · intro x hx i hi
    have hx' := hw.vlt x hx
    rw [(old x hx').2.2.2.1] at hi
    obtain ⟨k, hk⟩ := (old i ((hw.ilt x hx' i hi).trans hx')).2.2.2.2.2
    rw [hk]
    exact List.mem_append_left _ (hw.link x hx i hi)
  · intro o
    refine ⟨?_, ?_, Wilt, Wqlt, Wqmono, Wqedge, ?_, ?_, Wsasc, Wslt, Wsin⟩
    · rintro x (hx | rfl)
      · have := hw.vlt x hx; omega
      · omega
    · rintro x (hx | rfl) i hi
      · rw [(old x (hw.vlt x hx)).2.2.2.1] at hi
        exact Or.inl (hw.vin x hx i hi)
      · rw [newi] at hi
        exact Or.inl (hin i hi)
    · rintro x y (hx | rfl) (hy | rfl) hxy he
      · exact Wtie x y hx hy hxy he
      · have hx' := hw.vlt x hx
        rw [(old x hx').2.2.1, newq] at he
        rw [(old x hx').2.2.2.1, (old x hx').1, newi, newk]
        cases qid with
        | none =>
          have := hw.qlt x hx'
          simp at he
          omega
        | some q => exact (hq q rfl).2.2.2 x hx he
      · have := hw.vlt y hy; omega
      · omega
    · rintro x (hx | rfl) i hi
      · have hx' := hw.vlt x hx
        rw [(old x hx').2.2.2.1] at hi
        obtain ⟨k, hk⟩ := (old i ((hw.ilt x hx' i hi).trans hx')).2.2.2.2.2
        rw [hk]
        exact List.mem_append_left _ (hw.link x hx i hi)
      · rw [newi] at hi
        exact hok o i hi

/-- What `Qubit.__init__` does. -/
theorem initQubit_spec {h : Heap} {V : Nat → Prop} (hw : WF h V) {kind : Kind} {inputs : List Nat} {n : Option Int}
    {qid : Option Nat} {default : Option Default} (hin : ∀ i ∈ inputs, V i) (hq : QidOK h V kind inputs qid) :
    Ext h (h.initQubit kind inputs n qid default).2 ∧ WF (h.initQubit kind inputs n qid default).2 V ∧
      ∀ x, (h.initQubit kind inputs n qid default).1 = .ok x →
        WF (h.initQubit kind inputs n qid default).2 (fun y => V y ∨ y = x) ∧
        Created h (h.initQubit kind inputs n qid default).2 x kind inputs n qid default := by
  rw [initQubit_eq]
  by_cases hb : badDefault (h.initN inputs n) default = true
  · rw [if_pos hb]
    exact ⟨Ext.refl h, hw, by simp⟩
  rw [if_neg hb]
  by_cases hn : h.initN inputs n ≤ 0
  · rw [if_pos hn]
    exact ⟨Ext.refl h, hw, by simp⟩
  rw [if_neg hn]
  set P := h.push (h.newNode kind inputs n qid default) (h.newNext qid) with hP
  have hlt : ∀ i ∈ inputs, i < P.nodes.length := fun i hi => by
    have := hw.vlt i (hin i hi)
    simp [hP, push]; omega
  obtain ⟨r1, r2, r3, r4⟩ := registerSinks_spec P h.nodes.length inputs hlt
  have enew : P.node h.nodes.length = h.newNode kind inputs n qid default := node_push_eq _ _ _
  have key := push_wf (ok := (P.registerSinks h.nodes.length inputs).1 = .ok ()) hw hin hq r1 r2 r4 r3
  rcases hr : P.registerSinks h.nodes.length inputs with ⟨r, h''⟩
  rw [hr] at key r1 r2 r3 r4
  obtain ⟨k1, k2, k3⟩ := key
  cases r with
  | error e => exact ⟨k1, k2, by simp⟩
  | ok u =>
    refine ⟨k1, k2, ?_⟩
    intro x hx
    have e : h.nodes.length = x := Except.ok.inj hx
    refine ⟨by rw [← e]; exact k3 rfl, ?_⟩
    refine ⟨e.symm, by rw [r1.len]; simp [hP, push], r1.next, ?_, ?_, ?_, by omega, ?_, ?_, by simpa using hb, ?_⟩
    · rw [← e, r1.kind]; unfold Heap.kind; rw [enew]; rfl
    · rw [← e, r1.inputs]; unfold Heap.inputs; rw [enew]; rfl
    · rw [← e, r1.n]; unfold Heap.n; rw [enew]; rfl
    · rw [← e, r1.qid]; unfold Heap.qid; rw [enew]; rfl
    · rw [← e, r1.default]; unfold Heap.default; rw [enew]; rfl
    · intro hm
      rw [← e] at hm ⊢
      rw [r4 _ hm]; unfold Heap.sinks; rw [enew]; rfl

end QIP.Heap
