import Verif.Lemmas.Heap

/-! # Invariant of all heaps built through the API -/

namespace QIP.Heap

open QIP

/-- Sizes suit a gate. -/
def FitsN : Gate → List Nat → Prop
  | .swap k, ns => ns = [k, k]
  | .c op, ns => ∃ rest, ns = 1 :: rest ∧ FitsN op rest
  | _, ns => ns.sum ≠ 0

/-- Sizes and inputs of a node suit its class. -/
def KindOK (h : Heap) (x : Nat) : Prop :=
  match h.kind x with
  | .qubit => 0 < h.n x
  | .split is => h.n x = is.length ∧ 0 < h.n x ∧ ∃ p, h.inputs x = [p]
  | .gate g _ => (0 < h.n x ∧ ((∃ op, g = .c op) → h.inputs x ≠ [])) ∧
      (h.inputs x ≠ [] → h.n x = ((h.inputs x).map h.n).sum ∧ FitsN g ((h.inputs x).map h.n))
  | .fop _ => 0 < h.n x ∧ (h.inputs x).length = 2 ∧ h.n x = ((h.inputs x).map h.n).sum
  | .measure => h.n x = ((h.inputs x).map h.n).sum ∧ (h.inputs x ≠ [] → 0 < h.n x)
  | .smeasure _ => 0 < h.n x ∧ (h.inputs x ≠ [] → h.n x = ((h.inputs x).map h.n).sum)

theorem map_n_congr {h h' : Heap} {l : List Nat} (he : ∀ i ∈ l, h'.n i = h.n i) : l.map h'.n = l.map h.n :=
  List.map_congr_left he

theorem kindOK_congr {h h' : Heap} {x : Nat} (hk : h'.kind x = h.kind x) (hn : h'.n x = h.n x)
    (hi : h'.inputs x = h.inputs x) (hni : ∀ i ∈ h.inputs x, h'.n i = h.n i) (h0 : KindOK h x) : KindOK h' x := by
  unfold KindOK at *
  rw [hk, hn, hi, map_n_congr hni]
  exact h0

theorem kindOK_ext {h h' : Heap} {V : Nat → Prop} (hw : WF h V) (he : Ext h h') {x : Nat} (hx : V x)
    (h0 : KindOK h x) : KindOK h' x := by
  have hlt := hw.vlt x hx
  exact kindOK_congr (he.kind x hlt) (he.n x hlt) (he.inputs x hlt)
    (fun i hi => he.n i ((hw.ilt x hlt i hi).trans hlt)) h0

theorem sum_append_node {h h' : Heap} {V : Nat → Prop} (hw : WF h V) (he : Ext h h') {inputs : List Nat}
    (hin : ∀ i ∈ inputs, V i) : inputs.map h'.n = inputs.map h.n :=
  map_n_congr fun i hi => he.n i (hw.vlt i (hin i hi))

/-- A second split piece of the same node may share the qid of the last object. -/
theorem qidOK_of_last {h : Heap} {V : Nat → Prop} (hw : WF h V) {x p : Nat} (hx : V x) (hl : x + 1 = h.nodes.length)
    (hi : h.inputs x = [p]) {is js : List Int} (hk : h.kind x = .split is) :
    QidOK h V (.split js) [p] (some (h.qid x)) := by
  rintro q ⟨rfl⟩
  refine ⟨fun y hy => hw.qmono y x (by omega) (by omega), hw.qlt x (by omega), ?_, ?_⟩
  · intro i hi'
    exact hw.qedge x (by omega) i (by rw [hi]; exact hi')
  · intro y hy he
    rcases Nat.lt_trichotomy y x with hlt | rfl | hgt
    · obtain ⟨p', is', js', a, b, c, d⟩ := hw.tie y x hy hx hlt he
      rw [hi] at b
      exact ⟨p', is', js, a, by rw [b], c, rfl⟩
    · exact ⟨p, is, js, hi, rfl, hk, rfl⟩
    · have := hw.vlt y hy; omega

theorem qidOK_none {h : Heap} {V : Nat → Prop} {kind : Kind} {inputs : List Nat} : QidOK h V kind inputs none := by
  intro q hq; cases hq

/-- Result of a call that creates objects and returns some of them. -/
structure Grown (h h' : Heap) (V : Nat → Prop) (ret : List Nat) : Prop where
  ext : Ext h h'
  wf : WF h' fun y => V y ∨ y ∈ ret
  ok : ∀ x, V x ∨ x ∈ ret → KindOK h' x

theorem Grown.refl {h : Heap} {V : Nat → Prop} (hw : WF h V) (hk : ∀ x, V x → KindOK h x) : Grown h h V [] :=
  ⟨Ext.refl h, by simpa using hw, by simpa using hk⟩

theorem splitLoop_spec {h : Heap} {V : Nat → Prop} (hw : WF h V) (hk : ∀ x, V x → KindOK h x) {q : Nat} (hq : V q)
    (bs : List Int) (qid : Option Nat) (hqid : ∀ js, QidOK h V (.split js) [q] qid) :
    ∃ V', (∀ x, V x → V' x) ∧ Ext h (h.splitLoop q bs qid).2 ∧ WF (h.splitLoop q bs qid).2 V' ∧
      (∀ x, V' x → KindOK (h.splitLoop q bs qid).2 x) ∧
      ∀ xs, (h.splitLoop q bs qid).1 = .ok xs → ∀ x ∈ xs, V' x := by
  induction bs generalizing h V qid with
  | nil => exact ⟨V, fun _ h => h, Ext.refl h, hw, hk, by simp [splitLoop]⟩
  | cons a bs ih =>
    cases bs with
    | nil => exact ⟨V, fun _ h => h, Ext.refl h, hw, hk, by simp [splitLoop]⟩
    | cons b rest =>
      unfold splitLoop
      simp only
      set is : List Int := (List.range (b - a).toNat).map fun (i : Nat) => a + i with his
      obtain ⟨e1, w1, c1⟩ := initQubit_spec hw (kind := .split is) (inputs := [q]) (n := some is.length) (qid := qid)
        (default := none) (by simpa using hq) (hqid is)
      rcases hr : h.initQubit (.split is) [q] (some is.length) qid none with ⟨r, h'⟩
      rw [hr] at e1 w1 c1
      simp only at e1 w1 c1
      cases r with
      | error e => exact ⟨V, fun _ h => h, e1, w1, fun x hx => kindOK_ext hw e1 hx (hk x hx), by simp⟩
      | ok x =>
        obtain ⟨w2, cr⟩ := c1 x rfl
        have hk' : ∀ y, V y ∨ y = x → KindOK h' y := by
          rintro y (hy | rfl)
          · exact kindOK_ext hw e1 hy (hk y hy)
          · have := cr.npos
            unfold KindOK
            rw [cr.kindx, cr.nx, cr.inputsx]
            simp only [initN] at this ⊢
            exact ⟨by simp, by omega, q, rfl⟩
        have hqx : ∀ js, QidOK h' (fun y => V y ∨ y = x) (.split js) [q] (some (h'.qid x)) := fun js =>
          qidOK_of_last w2 (Or.inr rfl) (by rw [cr.len, cr.id]) cr.inputsx cr.kindx
        obtain ⟨V', v1, v2, v3, v4, v5⟩ := ih w2 hk' (Or.inl hq) (some (h'.qid x)) hqx
        simp only
        rcases hr2 : h'.splitLoop q (b :: rest) (some (h'.qid x)) with ⟨r2, h''⟩
        rw [hr2] at v2 v3 v4 v5
        simp only at v2 v3 v4 v5
        cases r2 with
        | error e => exact ⟨V', fun y hy => v1 y (Or.inl hy), e1.trans v2, v3, v4, by simp⟩
        | ok xs =>
          refine ⟨V', fun y hy => v1 y (Or.inl hy), e1.trans v2, v3, v4, ?_⟩
          intro ys hys y hy
          have : ys = x :: xs := (Except.ok.inj hys).symm
          subst this
          rcases List.mem_cons.1 hy with rfl | hy
          · exact v1 _ (Or.inr rfl)
          · exact v5 xs rfl y hy

theorem split_spec {h : Heap} {V : Nat → Prop} (hw : WF h V) (hk : ∀ x, V x → KindOK h x) {q : Nat} (hq : V q)
    (indices : Option (List Int)) :
    ∃ V', (∀ x, V x → V' x) ∧ Ext h (h.split q indices).2 ∧ WF (h.split q indices).2 V' ∧
      (∀ x, V' x → KindOK (h.split q indices).2 x) ∧ ∀ xs, (h.split q indices).1 = .ok xs → ∀ x ∈ xs, V' x := by
  unfold split
  cases indices with
  | none =>
    simp only
    split
    · refine ⟨V, fun _ h => h, Ext.refl h, hw, hk, ?_⟩
      intro xs hxs x hx
      have : xs = [q] := (Except.ok.inj hxs).symm
      subst this
      simp at hx
      subst hx
      exact hq
    · exact splitLoop_spec hw hk hq _ none fun _ => qidOK_none
  | some l => exact splitLoop_spec hw hk hq _ none fun _ => qidOK_none

theorem extract_spec {h : Heap} {V : Nat → Prop} (hw : WF h V) (hk : ∀ x, V x → KindOK h x) {q : Nat} (hq : V q)
    (arg : ExtractArg) :
    ∃ V', (∀ x, V x → V' x) ∧ Ext h (h.extractIndex q arg).2 ∧ WF (h.extractIndex q arg).2 V' ∧
      (∀ x, V' x → KindOK (h.extractIndex q arg).2 x) ∧
      ∀ p, (h.extractIndex q arg).1 = .ok p → V' p.1 ∧ V' p.2 := by
  unfold extractIndex
  cases arg with
  | one i => exact ⟨V, fun _ h => h, Ext.refl h, hw, hk, by simp⟩
  | many l =>
    simp only
    set sel := l.filter fun (i : Int) => 0 ≤ i ∧ i < (h.n q : Int) with hsel
    set rest := ((List.range (h.n q)).map fun (i : Nat) => (i : Int)).filter fun i => i ∉ l with hrest
    obtain ⟨e1, w1, c1⟩ := initQubit_spec hw (kind := .split sel) (inputs := [q]) (n := some sel.length) (qid := none)
      (default := none) (by simpa using hq) qidOK_none
    rcases hr : h.initQubit (.split sel) [q] (some sel.length) none none with ⟨r, h'⟩
    rw [hr] at e1 w1 c1
    simp only at e1 w1 c1
    cases r with
    | error e => exact ⟨V, fun _ h => h, e1, w1, fun x hx => kindOK_ext hw e1 hx (hk x hx), by simp⟩
    | ok x =>
      obtain ⟨w2, cr⟩ := c1 x rfl
      have hk' : ∀ y, V y ∨ y = x → KindOK h' y := by
        rintro y (hy | rfl)
        · exact kindOK_ext hw e1 hy (hk y hy)
        · have := cr.npos
          unfold KindOK
          rw [cr.kindx, cr.nx, cr.inputsx]
          simp only [initN] at this ⊢
          exact ⟨by simp, by omega, q, rfl⟩
      have hqx : QidOK h' (fun y => V y ∨ y = x) (.split rest) [q] (some (h'.qid x)) :=
        qidOK_of_last w2 (Or.inr rfl) (by rw [cr.len, cr.id]) cr.inputsx cr.kindx
      obtain ⟨e3, w3, c3⟩ := initQubit_spec w2 (kind := .split rest) (inputs := [q]) (n := some rest.length)
        (qid := some (h'.qid x)) (default := none) (by simpa using Or.inl hq) hqx
      simp only
      rcases hr2 : h'.initQubit (.split rest) [q] (some rest.length) (some (h'.qid x)) none with ⟨r2, h''⟩
      rw [hr2] at e3 w3 c3
      simp only at e3 w3 c3
      cases r2 with
      | error e =>
        exact ⟨_, fun y hy => Or.inl hy, e1.trans e3, w3, fun y hy => kindOK_ext w2 e3 hy (hk' y hy), by simp⟩
      | ok y =>
        obtain ⟨w4, cr2⟩ := c3 y rfl
        refine ⟨_, fun z hz => Or.inl (Or.inl hz), e1.trans e3, w4, ?_, ?_⟩
        · rintro z (hz | rfl)
          · exact kindOK_ext w2 e3 hz (hk' z hz)
          · have := cr2.npos
            unfold KindOK
            rw [cr2.kindx, cr2.nx, cr2.inputsx]
            simp only [initN] at this ⊢
            exact ⟨by simp, by omega, q, rfl⟩
        · intro p hp
          have : p = (x, y) := (Except.ok.inj hp).symm
          subst this
          exact ⟨Or.inl (Or.inr rfl), Or.inr rfl⟩

/-- Registering an existing visible node once more as sink of its inputs (as `Measure` does). -/
theorem register_again {h : Heap} {V : Nat → Prop} (hw : WF h V) {x : Nat} (hx : V x)
    (hl : x + 1 = h.nodes.length) {items : List Nat} (hi : ∀ i ∈ items, i ∈ h.inputs x) :
    WF (h.registerSinks x items).2 V ∧ Same h (h.registerSinks x items).2 ∧
      (∀ y, ∃ k, (h.registerSinks x items).2.sinks y = h.sinks y ++ List.replicate k x) := by
  obtain ⟨r1, r2, -, r4⟩ := registerSinks_spec h x items (fun i h' => by
    have := hw.ilt x (by omega) i (hi i h'); omega)
  refine ⟨?_, r1, r2⟩
  set h' := (h.registerSinks x items).2
  constructor
  · intro y hy; rw [r1.len]; exact hw.vlt y hy
  · intro y hy i hi; rw [r1.inputs] at hi; exact hw.vin y hy i hi
  · intro y hy i hi; rw [r1.inputs] at hi; rw [r1.len] at hy; exact hw.ilt y hy i hi
  · intro y hy; rw [r1.qid, r1.next]; rw [r1.len] at hy; exact hw.qlt y hy
  · intro y z hyz hz; rw [r1.qid, r1.qid]; rw [r1.len] at hz; exact hw.qmono y z hyz hz
  · intro y hy i hi; rw [r1.inputs] at hi; rw [r1.len] at hy; rw [r1.qid, r1.qid]; exact hw.qedge y hy i hi
  · intro y z hy hz hyz he
    rw [r1.qid, r1.qid] at he
    rw [r1.inputs, r1.inputs, r1.kind, r1.kind]
    exact hw.tie y z hy hz hyz he
  · intro y hy i hi
    rw [r1.inputs] at hi
    obtain ⟨k, hk⟩ := r2 i
    rw [hk]
    exact List.mem_append_left _ (hw.link y hy i hi)
  · intro y hy
    rw [r1.len] at hy
    obtain ⟨k, hk⟩ := r2 y
    rw [hk, List.pairwise_append]
    refine ⟨hw.sasc y hy, List.pairwise_replicate.2 (Or.inr le_rfl), ?_⟩
    intro a ha b hb
    rw [List.eq_of_mem_replicate hb]
    have := hw.slt y hy a ha
    omega
  · intro y hy s hs
    rw [r1.len] at hy ⊢
    obtain ⟨k, hk⟩ := r2 y
    rw [hk, List.mem_append] at hs
    rcases hs with hs | hs
    · exact hw.slt y hy s hs
    · rw [List.eq_of_mem_replicate hs]; omega
  · intro y hy s hs
    rw [r1.len] at hy
    rw [r1.inputs]
    by_cases hm : y ∈ items
    · obtain ⟨k, hk⟩ := r2 y
      rw [hk, List.mem_append] at hs
      rcases hs with hs | hs
      · exact hw.sin y hy s hs
      · rw [List.eq_of_mem_replicate hs]; exact hi y hm
    · rw [r4 y hm] at hs
      exact hw.sin y hy s hs

/-- Changing only the size of an object. -/
theorem wf_congr {h h' : Heap} {V : Nat → Prop} (hw : WF h V) (hl : h'.nodes.length = h.nodes.length)
    (hn : h'.nextQid = h.nextQid) (hk : ∀ x, h'.kind x = h.kind x) (hq : ∀ x, h'.qid x = h.qid x)
    (hi : ∀ x, h'.inputs x = h.inputs x) (hs : ∀ x, h'.sinks x = h.sinks x) : WF h' V := by
  constructor
  · simpa only [hl] using hw.vlt
  · simpa only [hi] using hw.vin
  · simpa only [hl, hi] using hw.ilt
  · simpa only [hl, hn, hq] using hw.qlt
  · simpa only [hl, hq] using hw.qmono
  · simpa only [hl, hq, hi] using hw.qedge
  · simpa only [hq, hi, hk] using hw.tie
  · simpa only [hi, hs] using hw.link
  · simpa only [hl, hs] using hw.sasc
  · simpa only [hl, hs] using hw.slt
  · simpa only [hl, hs, hi] using hw.sin

/-- Setting the size of one object. -/
def setN (h : Heap) (x n : Nat) : Heap := { h with nodes := h.nodes.modify x fun nd => { nd with n := n } }

theorem node_setN (h : Heap) (x n y : Nat) :
    (h.setN x n).node y = if y = x ∧ x < h.nodes.length then { h.node y with n := n } else h.node y := by
  unfold setN node
  simp only [List.getD_eq_getElem?_getD, List.getElem?_modify]
  by_cases hy : y = x
  · subst hy
    by_cases hl : y < h.nodes.length
    · simp [hl]
    · simp [hl]
  · have : ¬ x = y := fun e => hy e.symm
    simp [this, hy]

theorem setN_fields (h : Heap) (x n : Nat) :
    (∀ y, (h.setN x n).kind y = h.kind y) ∧ (∀ y, (h.setN x n).qid y = h.qid y) ∧
      (∀ y, (h.setN x n).inputs y = h.inputs y) ∧ (∀ y, (h.setN x n).sinks y = h.sinks y) ∧
      (∀ y, (h.setN x n).default y = h.default y) ∧ (∀ y, y ≠ x → (h.setN x n).n y = h.n y) ∧
      (x < h.nodes.length → (h.setN x n).n x = n) := by
  have key : ∀ y, (h.setN x n).node y = if y = x ∧ x < h.nodes.length then { h.node y with n := n } else h.node y :=
    node_setN h x n
  refine ⟨?_, ?_, ?_, ?_, ?_, ?_, ?_⟩
  · intro y; unfold kind; rw [key]; split <;> rfl
  · intro y; unfold qid; rw [key]; split <;> rfl
  · intro y; unfold inputs; rw [key]; split <;> rfl
  · intro y; unfold sinks; rw [key]; split <;> rfl
  · intro y; unfold default; rw [key]; split <;> rfl
  · intro y hy; unfold Heap.n; rw [key, if_neg (fun e => hy e.1)]
  · intro hx; unfold Heap.n; rw [key, if_pos ⟨rfl, hx⟩]

theorem ext_of_later {h h' h'' : Heap} (a : Ext h h') (hl : h''.nodes.length = h'.nodes.length)
    (hn : h''.nextQid = h'.nextQid) (old : ∀ x < h.nodes.length, h''.kind x = h'.kind x ∧ h''.n x = h'.n x ∧
      h''.qid x = h'.qid x ∧ h''.inputs x = h'.inputs x ∧ h''.default x = h'.default x ∧
      ∃ l, h''.sinks x = h'.sinks x ++ l ∧ ∀ s ∈ l, h.nodes.length ≤ s) : Ext h h'' where
  len := by rw [hl]; exact a.len
  next := by rw [hn]; exact a.next
  kind x hx := (old x hx).1.trans (a.kind x hx)
  n x hx := (old x hx).2.1.trans (a.n x hx)
  qid x hx := (old x hx).2.2.1.trans (a.qid x hx)
  inputs x hx := (old x hx).2.2.2.1.trans (a.inputs x hx)
  default x hx := (old x hx).2.2.2.2.1.trans (a.default x hx)
  sinks x hx := by
    obtain ⟨l, e, hl⟩ := a.sinks x hx
    obtain ⟨l', e', hl'⟩ := (old x hx).2.2.2.2.2
    refine ⟨l ++ l', by rw [e', e, List.append_assoc], ?_⟩
    intro s hs
    rcases List.mem_append.1 hs with hs | hs
    · exact hl s hs
    · exact hl' s hs

theorem mkMeasure_spec {h : Heap} {V : Nat → Prop} (hw : WF h V) (hk : ∀ x, V x → KindOK h x) {inputs : List Nat}
    (hin : ∀ i ∈ inputs, V i) :
    ∃ V', (∀ x, V x → V' x) ∧ Ext h (h.mkMeasure inputs).2 ∧ WF (h.mkMeasure inputs).2 V' ∧
      (∀ x, V' x → KindOK (h.mkMeasure inputs).2 x) ∧ ∀ x, (h.mkMeasure inputs).1 = .ok x → V' x ∧
        (h.mkMeasure inputs).2.kind x = .measure ∧ (h.mkMeasure inputs).2.inputs x = inputs ∧ x = h.nodes.length := by
  unfold mkMeasure
  obtain ⟨e1, w1, c1⟩ := initQubit_spec hw (kind := .measure) (inputs := inputs) (n := none) (qid := none)
    (default := none) hin qidOK_none
  rcases hr : h.initQubit .measure inputs none none none with ⟨r, h'⟩
  rw [hr] at e1 w1 c1
  simp only at e1 w1 c1
  cases r with
  | error e => exact ⟨V, fun _ h => h, e1, w1, fun x hx => kindOK_ext hw e1 hx (hk x hx), by simp⟩
  | ok x =>
    obtain ⟨w2, cr⟩ := c1 x rfl
    have hx : x < h'.nodes.length := by rw [cr.len, cr.id]; omega
    obtain ⟨f1, f2, f3, f4, f5, f6, f7⟩ := setN_fields h' x ((inputs.map h.n).sum)
    have w3 := wf_congr (h' := h'.setN x ((inputs.map h.n).sum)) w2 (by simp [setN]) rfl f1 f2 f3 f4
    have hl3 : x + 1 = (h'.setN x ((inputs.map h.n).sum)).nodes.length := by simp [setN, cr.len, cr.id]
    obtain ⟨w4, s4, k4⟩ := register_again w3 (Or.inr rfl) hl3 (items := inputs) (by
      intro i hi; rw [f3, cr.inputsx]; exact hi)
    have hok : ((h'.setN x ((inputs.map h.n).sum)).registerSinks x inputs).1 = .ok () :=
      registerSinks_other _ (by rw [f1, cr.kindx]; simp)
    change ∃ V', _ ∧ Ext h (match (h'.setN x ((inputs.map h.n).sum)).registerSinks x inputs with
      | (.error e, h'') => ((.error e, h'') : Except PyErr Nat × Heap)
      | (.ok (), h'') => (.ok x, h'')).2 ∧ WF (match (h'.setN x ((inputs.map h.n).sum)).registerSinks x inputs with
      | (.error e, h'') => ((.error e, h'') : Except PyErr Nat × Heap)
      | (.ok (), h'') => (.ok x, h'')).2 V' ∧
      (∀ x_1, V' x_1 → KindOK (match (h'.setN x ((inputs.map h.n).sum)).registerSinks x inputs with
      | (.error e, h'') => ((.error e, h'') : Except PyErr Nat × Heap)
      | (.ok (), h'') => (.ok x, h'')).2 x_1) ∧ ∀ x_1, (match (h'.setN x ((inputs.map h.n).sum)).registerSinks x inputs with
      | (.error e, h'') => ((.error e, h'') : Except PyErr Nat × Heap)
      | (.ok (), h'') => (.ok x, h'')).1 = .ok x_1 → V' x_1 ∧ (match (h'.setN x ((inputs.map h.n).sum)).registerSinks x inputs with
      | (.error e, h'') => ((.error e, h'') : Except PyErr Nat × Heap)
      | (.ok (), h'') => (.ok x, h'')).2.kind x_1 = _ ∧ (match (h'.setN x ((inputs.map h.n).sum)).registerSinks x inputs with
      | (.error e, h'') => ((.error e, h'') : Except PyErr Nat × Heap)
      | (.ok (), h'') => (.ok x, h'')).2.inputs x_1 = _ ∧ _
    rcases hr2 : (h'.setN x ((inputs.map h.n).sum)).registerSinks x inputs with ⟨r2, h''⟩
    rw [hr2] at w4 s4 k4 hok
    simp only at w4 s4 k4 hok
    subst hok
    have hold : ∀ y < h.nodes.length, y ≠ x := by intro y hy e; rw [e, cr.id] at hy; omega
    have he : Ext h h'' := by
      refine ext_of_later e1 (by rw [s4.len]; simp [setN]) s4.next ?_
      intro y hy
      refine ⟨by rw [s4.kind, f1], by rw [s4.n, f6 y (hold y hy)], by rw [s4.qid, f2], by rw [s4.inputs, f3],
        by rw [s4.default, f5], ?_⟩
      obtain ⟨k, hk⟩ := k4 y
      refine ⟨_, by rw [hk, f4], ?_⟩
      intro s hs
      rw [List.eq_of_mem_replicate hs, cr.id]
    refine ⟨_, fun y hy => Or.inl hy, he, w4, ?_, ?_⟩
    · rintro y (hy | rfl)
      · exact kindOK_ext hw he hy (hk y hy)
      · unfold KindOK
        simp only
        rw [s4.kind, f1, cr.kindx, s4.n, f7 hx, s4.inputs, f3, cr.inputsx]
        have : inputs.map h''.n = inputs.map h.n := sum_append_node hw he hin
        simp only
        rw [this]
        refine ⟨rfl, ?_⟩
        intro hne
        have := cr.npos
        unfold initN at this
        have hl : 0 < inputs.length := List.length_pos_of_ne_nil hne
        simp only [gt_iff_lt, hl, ↓reduceIte] at this
        omega
    · intro y hy
      have : x = y := Except.ok.inj hy
      subst this
      exact ⟨Or.inr rfl, by simp only; rw [s4.kind, f1, cr.kindx], by simp only; rw [s4.inputs, f3, cr.inputsx], cr.id⟩

theorem mkStochastic_spec {h : Heap} {V : Nat → Prop} (hw : WF h V) (hk : ∀ x, V x → KindOK h x) {inputs : List Nat}
    (hin : ∀ i ∈ inputs, V i) (topK : Int) :
    ∃ V', (∀ x, V x → V' x) ∧ Ext h (h.mkStochastic inputs topK).2 ∧ WF (h.mkStochastic inputs topK).2 V' ∧
      (∀ x, V' x → KindOK (h.mkStochastic inputs topK).2 x) ∧ ∀ x, (h.mkStochastic inputs topK).1 = .ok x → V' x := by
  unfold mkStochastic
  obtain ⟨e1, w1, c1⟩ := initQubit_spec hw (kind := .smeasure topK) (inputs := inputs) (n := none) (qid := none)
    (default := none) hin qidOK_none
  rcases hr : h.initQubit (.smeasure topK) inputs none none none with ⟨r, h'⟩
  rw [hr] at e1 w1 c1
  simp only at e1 w1 c1
  cases r with
  | error e => exact ⟨V, fun _ h => h, e1, w1, fun x hx => kindOK_ext hw e1 hx (hk x hx), by simp⟩
  | ok x =>
    obtain ⟨w2, cr⟩ := c1 x rfl
    obtain ⟨w4, s4, k4⟩ := register_again w2 (Or.inr rfl) (by rw [cr.len, cr.id]) (items := inputs) (by
      intro i hi; rw [cr.inputsx]; exact hi)
    have hok : (h'.registerSinks x inputs).1 = .ok () := registerSinks_other _ (by rw [cr.kindx]; simp)
    simp only
    rcases hr2 : h'.registerSinks x inputs with ⟨r2, h''⟩
    rw [hr2] at w4 s4 k4 hok
    simp only at w4 s4 k4 hok
    subst hok
    have he : Ext h h'' := by
      refine ext_of_later e1 s4.len s4.next ?_
      intro y hy
      refine ⟨s4.kind y, s4.n y, s4.qid y, s4.inputs y, s4.default y, ?_⟩
      obtain ⟨k, hk⟩ := k4 y
      refine ⟨_, hk, ?_⟩
      intro s hs
      rw [List.eq_of_mem_replicate hs, cr.id]
    refine ⟨_, fun y hy => Or.inl hy, he, w4, ?_, ?_⟩
    · rintro y (hy | rfl)
      · exact kindOK_ext hw he hy (hk y hy)
      · have hp := cr.npos
        unfold KindOK
        simp only
        rw [s4.kind, cr.kindx, s4.n, cr.nx, s4.inputs, cr.inputsx]
        have : inputs.map h''.n = inputs.map h.n := sum_append_node hw he hin
        simp only
        rw [this]
        refine ⟨by omega, ?_⟩
        intro hne
        have hl : 0 < inputs.length := List.length_pos_of_ne_nil hne
        simp only [initN, gt_iff_lt, hl, ↓reduceIte, Int.toNat_natCast]
    · intro y hy
      have : x = y := Except.ok.inj hy
      subst this
      exact Or.inr rfl

/-- Facts about a constructed operation. -/
structure Constructed (h h' : Heap) (V : Nat → Prop) (y : Nat) (inputs : List Nat) : Prop where
  wf : WF h' fun z => V z ∨ z = y
  last : y + 1 = h'.nodes.length
  new : h.nodes.length ≤ y
  fresh : h.nextQid ≤ h'.qid y
  inputs : h'.inputs y = inputs
  kind : (∃ g d, h'.kind y = .gate g d) ∨ ∃ f, h'.kind y = .fop f
  ok : KindOK h' y

theorem created_constructed {h h' : Heap} {V : Nat → Prop} (hw : WF h V) {y : Nat} {kind : Kind} {inputs : List Nat}
    (hin : ∀ i ∈ inputs, V i) (he : Ext h h') (w : WF h' fun z => V z ∨ z = y)
    (cr : Created h h' y kind inputs none none none)
    (hkind : (∃ g d, kind = .gate g d ∧ (∀ op, g ≠ .c op) ∧ (inputs ≠ [] → (inputs.map h.n).sum ≠ 0 → FitsN g (inputs.map h.n))) ∨
      ∃ f, kind = .fop f ∧ inputs.length = 2) :
    Constructed h h' V y inputs := by
  have hp := cr.npos
  have hmap : inputs.map h'.n = inputs.map h.n := sum_append_node hw he hin
  have hsum : inputs ≠ [] → (h.initN inputs none).toNat = (inputs.map h.n).sum := by
    intro hne
    have hl : 0 < inputs.length := List.length_pos_of_ne_nil hne
    simp only [initN, gt_iff_lt, hl, ↓reduceIte, Int.toNat_natCast]
  refine ⟨w, by rw [cr.len, cr.id], cr.id.ge, by rw [cr.qidx]; simp, cr.inputsx, ?_, ?_⟩
  · rcases hkind with ⟨g, d, h1, -⟩ | ⟨f, h1, -⟩
    · exact Or.inl ⟨g, d, by rw [cr.kindx, h1]⟩
    · exact Or.inr ⟨f, by rw [cr.kindx, h1]⟩
  · unfold KindOK
    rcases hkind with ⟨g, d, h1, h3, h2⟩ | ⟨f, h1, h2⟩
    · rw [cr.kindx, h1, cr.nx, cr.inputsx]
      simp only
      rw [hmap]
      refine ⟨⟨by omega, fun ⟨op, ho⟩ => absurd ho (h3 op)⟩, fun hne => ⟨hsum hne, h2 hne ?_⟩⟩
      rw [← hsum hne]; omega
    · rw [cr.kindx, h1, cr.nx, cr.inputsx]
      simp only
      rw [hmap]
      refine ⟨by omega, h2, hsum ?_⟩
      rintro rfl
      simp at h2

theorem construct_spec {h : Heap} {V : Nat → Prop} (hw : WF h V) (op : OpSpec) (dagger : Bool) {inputs : List Nat}
    (hin : ∀ i ∈ inputs, V i) :
    Ext h (h.construct op dagger inputs).2 ∧ WF (h.construct op dagger inputs).2 V ∧
      ∀ y, (h.construct op dagger inputs).1 = .ok y →
        Constructed h (h.construct op dagger inputs).2 V y inputs := by
  induction op generalizing dagger inputs with
  | gate g =>
    have simple : ∀ g', (∀ k, g' ≠ .swap k) → (∀ o, g' ≠ .c o) →
        Ext h (h.initQubit (.gate g' dagger) inputs none none none).2 ∧
        WF (h.initQubit (.gate g' dagger) inputs none none none).2 V ∧
        ∀ y, (h.initQubit (.gate g' dagger) inputs none none none).1 = .ok y →
          Constructed h (h.initQubit (.gate g' dagger) inputs none none none).2 V y inputs := by
      intro g' h1 h2
      obtain ⟨e1, w1, c1⟩ := initQubit_spec hw (kind := .gate g' dagger) (inputs := inputs) (n := none) (qid := none)
        (default := none) hin qidOK_none
      refine ⟨e1, w1, ?_⟩
      intro y hy
      obtain ⟨w2, cr⟩ := c1 y hy
      refine created_constructed hw hin e1 w2 cr (Or.inl ⟨g', dagger, rfl, h2, ?_⟩)
      intro _ hs
      cases g' <;> simp_all [FitsN]
    cases g with
    | swap k =>
      unfold construct mkSimple
      simp only
      obtain ⟨e1, w1, c1⟩ := initQubit_spec hw (kind := .gate (.swap (h.n (inputs.getD 0 0))) dagger)
        (inputs := inputs) (n := none) (qid := none) (default := none) hin qidOK_none
      rcases hr : h.initQubit (.gate (.swap (h.n (inputs.getD 0 0))) dagger) inputs none none none with ⟨r, h'⟩
      rw [hr] at e1 w1 c1
      simp only at e1 w1 c1
      cases r with
      | error e => exact ⟨e1, w1, by simp⟩
      | ok x =>
        simp only
        by_cases hl : inputs.length ≠ 2
        · rw [if_pos hl]; exact ⟨e1, w1, by simp⟩
        · rw [if_neg hl]
          by_cases hn : h'.n (inputs.getD 0 0) ≠ h'.n (inputs.getD 1 0)
          · rw [if_pos hn]; exact ⟨e1, w1, by simp⟩
          · rw [if_neg hn]
            refine ⟨e1, w1, ?_⟩
            intro y hy
            have : x = y := Except.ok.inj hy
            subst this
            obtain ⟨w2, cr⟩ := c1 x rfl
            refine created_constructed hw hin e1 w2 cr (Or.inl ⟨_, dagger, rfl, by simp, ?_⟩)
            intro _ _
            push Not at hl hn
            match inputs, hl, hin with
            | [a, b], _, hin =>
              simp at hn ⊢
              rw [e1.n a (hw.vlt a (hin a (by simp))), e1.n b (hw.vlt b (hin b (by simp)))] at hn
              simp [FitsN, hn]
    | c o => exact ⟨Ext.refl h, hw, by simp [construct, mkSimple]⟩
    | not => exact simple .not (by simp) (by simp)
    | x => exact simple .x (by simp) (by simp)
    | y => exact simple .y (by simp) (by simp)
    | z => exact simple .z (by simp) (by simp)
    | h => exact simple .h (by simp) (by simp)
    | r phi => exact simple (.r phi) (by simp) (by simp)
    | rm m b => exact simple (.rm m b) (by simp) (by simp)
  | fop f =>
    unfold construct
    by_cases hl : inputs.length ≠ 2
    · rw [if_pos hl]; exact ⟨Ext.refl h, hw, by simp⟩
    · rw [if_neg hl]
      obtain ⟨e1, w1, c1⟩ := initQubit_spec hw (kind := .fop f) (inputs := inputs) (n := none) (qid := none)
        (default := none) hin qidOK_none
      refine ⟨e1, w1, ?_⟩
      intro y hy
      obtain ⟨w2, cr⟩ := c1 y hy
      exact created_constructed hw hin e1 w2 cr (Or.inr ⟨f, rfl, by simpa using hl⟩)
  | c op ih =>
    unfold construct
    by_cases hc : ¬ h.controlOK inputs = true
    · rw [if_pos hc]; exact ⟨Ext.refl h, hw, by simp⟩
    rw [if_neg hc]
    push Not at hc
    obtain ⟨c0, c2, c3⟩ := of_decide_eq_true hc
    obtain ⟨e1, w1, c1⟩ := ih false (inputs := inputs.tail) (fun i hi => hin i (List.mem_of_mem_tail hi))
    rcases hr : h.construct op false inputs.tail with ⟨r, h'⟩
    rw [hr] at e1 w1 c1
    simp only at e1 w1 c1
    cases r with
    | error e => exact ⟨e1, w1, by simp⟩
    | ok y =>
      have cy := c1 y rfl
      simp only
      rcases cy.kind with ⟨g, d, hg⟩ | ⟨f, hf⟩
      · have hq : QidOK h' V (.gate (.c g) dagger) inputs (some (h'.qid y)) := by
          rintro q ⟨rfl⟩
          have hylt : y < h'.nodes.length := by have := cy.last; omega
          refine ⟨fun z hz => w1.qmono z y (by have := cy.last; omega) hylt, w1.qlt y hylt, ?_, ?_⟩
          · intro i hi
            have := hw.vlt i (hin i hi)
            rw [e1.qid i this]
            exact (hw.qlt i this).trans_le cy.fresh
          · intro z hz he
            exfalso
            have := hw.vlt z hz
            rw [e1.qid z this] at he
            have h1 := hw.qlt z this
            have h2 := cy.fresh
            omega
        obtain ⟨e2, w2, c2'⟩ := initQubit_spec w1 (kind := .gate (.c g) dagger) (inputs := inputs) (n := none)
          (qid := some (h'.qid y)) (default := none) hin hq
        rw [hg]
        simp only
        refine ⟨e1.trans e2, w2, ?_⟩
        intro z hz
        obtain ⟨w3, cr⟩ := c2' z hz
        have hp := cr.npos
        have hmap : inputs.map (h'.initQubit (.gate (.c g) dagger) inputs none (some (h'.qid y)) none).2.n
            = inputs.map h.n := sum_append_node hw (e1.trans e2) hin
        have hmap' : inputs.map h'.n = inputs.map h.n := sum_append_node hw e1 hin
        have hne : inputs ≠ [] := by rintro rfl; simp at c0
        have hl : 0 < inputs.length := List.length_pos_of_ne_nil hne
        refine ⟨w3, by rw [cr.len, cr.id], by rw [cr.id]; exact e1.len, by rw [cr.qidx]; exact cy.fresh, cr.inputsx,
          Or.inl ⟨_, _, cr.kindx⟩, ?_⟩
        unfold KindOK
        rw [cr.kindx, cr.nx, cr.inputsx]
        simp only
        rw [hmap]
        refine ⟨⟨by omega, fun _ => hne⟩, fun _ => ⟨?_, ?_⟩⟩
        · simp only [initN, gt_iff_lt, hl, ↓reduceIte, Int.toNat_natCast]
          rw [hmap']
        · match inputs, c0, c2, cy, hin with
          | a :: b :: rest, _, c2, cy, hin =>
            have hk := cy.ok
            unfold KindOK at hk
            rw [hg] at hk
            simp only at hk
            rw [cy.inputs] at hk
            have := (hk.2 (by simp)).2
            simp only [List.tail_cons] at this
            refine ⟨(b :: rest).map h.n, by simp at c2; simp [c2], ?_⟩
            have hm : (b :: rest).map h'.n = (b :: rest).map h.n :=
              sum_append_node hw e1 (fun i hi => hin i (List.mem_cons_of_mem _ hi))
            rwa [hm] at this
      · rw [hf]
        simp only
        exact ⟨e1, w1, by simp⟩

/-- Every call keeps the invariant. -/
theorem exec_spec {h : Heap} {V : Nat → Prop} (hw : WF h V) (hk : ∀ x, V x → KindOK h x) (cmd : Cmd)
    (hargs : ∀ x ∈ cmd.args, V x) :
    ∃ V', (∀ x, V x → V' x) ∧ Ext h (h.exec cmd).2 ∧ WF (h.exec cmd).2 V' ∧
      (∀ x, V' x → KindOK (h.exec cmd).2 x) ∧ ∀ xs, (h.exec cmd).1 = .ok xs → ∀ x ∈ xs, V' x := by
  cases cmd with
  | qubit inputs n default =>
    unfold exec
    simp only
    obtain ⟨e1, w1, c1⟩ := initQubit_spec hw (kind := .qubit) (inputs := inputs) (n := n) (qid := none)
      (default := default) hargs qidOK_none
    rcases hr : h.initQubit .qubit inputs n none default with ⟨r, h'⟩
    rw [hr] at e1 w1 c1
    simp only at e1 w1 c1
    cases r with
    | error e =>
      exact ⟨V, fun _ h => h, e1, w1, fun x hx => kindOK_ext hw e1 hx (hk x hx), by simp [Except.map]⟩
    | ok x =>
      obtain ⟨w2, cr⟩ := c1 x rfl
      refine ⟨_, fun y hy => Or.inl hy, e1, w2, ?_, ?_⟩
      · rintro y (hy | rfl)
        · exact kindOK_ext hw e1 hy (hk y hy)
        · have := cr.npos
          unfold KindOK
          rw [cr.kindx, cr.nx]
          simp only
          omega
      · intro xs hxs y hy
        have : xs = [x] := (Except.ok.inj hxs).symm
        subst this
        simp at hy
        exact Or.inr hy
  | split q indices => exact split_spec hw hk (hargs q (by simp [Cmd.args])) indices
  | extract q arg =>
    obtain ⟨V', v1, v2, v3, v4, v5⟩ := extract_spec hw hk (hargs q (by simp [Cmd.args])) arg
    refine ⟨V', v1, v2, v3, v4, ?_⟩
    intro xs hxs
    unfold exec at hxs
    simp only at hxs
    rcases hr : (h.extractIndex q arg).1 with e | p
    · rw [hr] at hxs; simp [Except.map] at hxs
    · rw [hr] at hxs
      have : xs = [p.1, p.2] := (Except.ok.inj hxs).symm
      subst this
      obtain ⟨a, b⟩ := v5 p hr
      intro x hx
      simp at hx
      rcases hx with rfl | rfl <;> assumption
  | op op dagger inputs =>
    obtain ⟨e1, w1, c1⟩ := construct_spec hw op dagger (inputs := inputs) hargs
    unfold exec
    simp only
    rcases hr : h.construct op dagger inputs with ⟨r, h'⟩
    rw [hr] at e1 w1 c1
    simp only at e1 w1 c1
    cases r with
    | error e =>
      exact ⟨V, fun _ h => h, e1, w1, fun x hx => kindOK_ext hw e1 hx (hk x hx), by simp [Except.map]⟩
    | ok x =>
      have cx := c1 x rfl
      refine ⟨_, fun y hy => Or.inl hy, e1, cx.wf, ?_, ?_⟩
      · rintro y (hy | rfl)
        · exact kindOK_ext hw e1 hy (hk y hy)
        · exact cx.ok
      · intro xs hxs y hy
        have : xs = [x] := (Except.ok.inj hxs).symm
        subst this
        simp at hy
        exact Or.inr hy
  | measure inputs =>
    obtain ⟨V', v1, v2, v3, v4, v5⟩ := mkMeasure_spec hw hk (inputs := inputs) hargs
    refine ⟨V', v1, v2, v3, v4, ?_⟩
    intro xs hxs
    unfold exec at hxs
    simp only at hxs
    rcases hr : (h.mkMeasure inputs).1 with e | p
    · rw [hr] at hxs; simp [Except.map] at hxs
    · rw [hr] at hxs
      have : xs = [p] := (Except.ok.inj hxs).symm
      subst this
      intro x hx
      simp at hx
      subst hx
      exact (v5 _ hr).1
  | smeasure inputs topK =>
    obtain ⟨V', v1, v2, v3, v4, v5⟩ := mkStochastic_spec hw hk (inputs := inputs) hargs topK
    refine ⟨V', v1, v2, v3, v4, ?_⟩
    intro xs hxs
    unfold exec at hxs
    simp only at hxs
    rcases hr : (h.mkStochastic inputs topK).1 with e | p
    · rw [hr] at hxs; simp [Except.map] at hxs
    · rw [hr] at hxs
      have : xs = [p] := (Except.ok.inj hxs).symm
      subst this
      intro x hx
      simp at hx
      subst hx
      exact v5 _ hr

/-- The invariant holds for everything built through the API. -/
theorem built_wf {h : Heap} {env : List Nat} (hb : Built h env) :
    ∃ V, WF h V ∧ (∀ x, V x → KindOK h x) ∧ ∀ x ∈ env, V x := by
  induction hb with
  | start => exact ⟨_, wf_empty, fun _ hx => hx.elim, by simp⟩
  | @call h env cmd hb hargs ih =>
    obtain ⟨V, hw, hk, he⟩ := ih
    obtain ⟨V', v1, -, v3, v4, v5⟩ := exec_spec hw hk cmd (fun x hx => he x (hargs x hx))
    refine ⟨V', v3, v4, ?_⟩
    intro x hx
    rcases List.mem_append.1 hx with hx | hx
    · exact v1 x (he x hx)
    · rcases hr : (h.exec cmd).1 with e | xs
      · rw [hr] at hx; simp at hx
      · rw [hr] at hx; exact v5 xs hr x hx

end QIP.Heap
