import Verif.Lemmas.Extend

/-! # What the constructors return -/

namespace QIP.Heap

open QIP Spec

theorem wf_mono {h : Heap} {V V' : Nat → Prop} (hw : WF h V) (h1 : ∀ x, V' x → V x)
    (h2 : ∀ x, V' x → ∀ i ∈ h.inputs x, V' i) : WF h V' where
  vlt x hx := hw.vlt x (h1 x hx)
  vin := h2
  ilt := hw.ilt
  qlt := hw.qlt
  qmono := hw.qmono
  qedge := hw.qedge
  tie x y hx hy := hw.tie x y (h1 x hx) (h1 y hy)
  link x hx := hw.link x (h1 x hx)
  sasc := hw.sasc
  slt := hw.slt
  sin := hw.sin

/-- Nodes other than plain qubits are created whenever their size is positive. -/
theorem initQubit_ok {h : Heap} {V : Nat → Prop} (hw : WF h V) {kind : Kind} {inputs : List Nat} {n : Option Int}
    {qid : Option Nat} (hin : ∀ i ∈ inputs, V i) (hq : QidOK h V kind inputs qid) (hk : kind ≠ .qubit)
    (hn : 0 < h.initN inputs n) :
    ∃ h', h.initQubit kind inputs n qid none = (.ok h.nodes.length, h') ∧ Ext h h' ∧
      WF h' (fun y => V y ∨ y = h.nodes.length) ∧ Created h h' h.nodes.length kind inputs n qid none := by
  obtain ⟨e1, -, c1⟩ := initQubit_spec hw (kind := kind) (inputs := inputs) (n := n) (qid := qid)
    (default := none) hin hq
  have hok : (h.initQubit kind inputs n qid none).1 = .ok h.nodes.length := by
    rw [initQubit_eq]
    rw [if_neg (by simp [badDefault]), if_neg (by omega)]
    have := registerSinks_other (h := h.push (h.newNode kind inputs n qid none) (h.newNext qid)) (x := h.nodes.length)
      inputs (by unfold Heap.kind; rw [node_push_eq]; exact hk)
    rcases hr : (h.push (h.newNode kind inputs n qid none) (h.newNext qid)).registerSinks h.nodes.length inputs with
      ⟨r, h'⟩
    rw [hr] at this
    simp only at this
    subst this
    rfl
  obtain ⟨w, c⟩ := c1 _ hok
  exact ⟨_, Prod.ext hok rfl, e1, w, c⟩

theorem initQubit_empty {h : Heap} {kind : Kind} {inputs : List Nat} {n : Option Int} {qid : Option Nat}
    (hn : h.initN inputs n ≤ 0) : h.initQubit kind inputs n qid none = (.error .exception, h) := by
  rw [initQubit_eq, if_neg (by simp [badDefault]), if_pos hn]

/-- The positions between two boundaries. -/
def interval (a b : Int) : List Int := (List.range (b - a).toNat).map fun (i : Nat) => a + i

theorem splitLoop_ok {h : Heap} {V : Nat → Prop} (hw : WF h V) {q : Nat} (hq : V q)
    (bs : List Int) (hne : bs ≠ []) (hbs : bs.IsChain (· < ·)) (qid : Option Nat)
    (hqid : ∀ js, QidOK h V (.split js) [q] qid) :
    ∃ h', h.splitLoop q bs qid = (.ok (List.range' h.nodes.length (bs.length - 1)), h') ∧
      h'.nodes.length = h.nodes.length + (bs.length - 1) ∧ Ext h h' ∧ (∃ V', WF h' V') ∧
      ∀ i (hi : i + 1 < bs.length), h'.inputs (h.nodes.length + i) = [q] ∧
        h'.kind (h.nodes.length + i) = .split (interval bs[i] bs[i + 1]) ∧
        h'.n (h.nodes.length + i) = (bs[i + 1] - bs[i]).toNat ∧
        h'.qid (h.nodes.length + i) = qid.getD h.nextQid := by
  induction bs generalizing h V qid with
  | nil => exact absurd rfl hne
  | cons a bs ih =>
    cases bs with
    | nil => exact ⟨h, rfl, rfl, Ext.refl h, ⟨V, hw⟩, fun i hi => by simp at hi⟩
    | cons b rest =>
      rw [List.isChain_cons_cons] at hbs
      unfold splitLoop
      simp only
      change ∃ h', (match h.initQubit (.split (interval a b)) [q] (some (interval a b).length) qid none with
          | (.error e, h') => (.error e, h')
          | (.ok x, h') => _ : Except PyErr (List Nat) × Heap) = _ ∧ _
      have hlen : ((interval a b).length : Int) = b - a := by simp [interval]; omega
      obtain ⟨h1, r1, e1, w1, c1⟩ := initQubit_ok hw (kind := .split (interval a b)) (inputs := [q])
        (n := some (interval a b).length) (qid := qid) (by simpa using hq) (hqid _) (by simp)
        (by simp only [initN]; omega)
      rw [r1]
      simp only
      have hqx : ∀ js, QidOK h1 (fun y => V y ∨ y = h.nodes.length) (.split js) [q] (some (h1.qid h.nodes.length)) :=
        fun js => qidOK_of_last w1 (Or.inr rfl) (by rw [c1.len]) c1.inputsx c1.kindx
      obtain ⟨h2, r2, l2, e2, w2, p2⟩ := ih w1 (Or.inl hq) (by simp) hbs.2 (some (h1.qid h.nodes.length)) hqx
      rw [r2]
      simp only
      refine ⟨h2, ?_, ?_, e1.trans e2, w2, ?_⟩
      · rw [c1.len]
        simp [List.range'_succ]
      · rw [l2, c1.len]; simp; omega
      · intro i hi
        cases i with
        | zero =>
          have hlt : h.nodes.length < h1.nodes.length := by rw [c1.len]; omega
          simp only [Nat.add_zero, List.getElem_cons_zero, Nat.zero_add, List.getElem_cons_succ]
          rw [e2.inputs _ hlt, e2.kind _ hlt, e2.n _ hlt, e2.qid _ hlt]
          refine ⟨c1.inputsx, c1.kindx, ?_, c1.qidx⟩
          rw [c1.nx]
          simp only [initN]
          omega
        | succ i =>
          have := p2 i (by simp at hi ⊢; omega)
          rw [c1.len] at this
          have e : h.nodes.length + (i + 1) = h.nodes.length + 1 + i := by omega
          rw [e]
          refine ⟨this.1, ?_, ?_, ?_⟩
          · simpa using this.2.1
          · simpa using this.2.2.1
          · rw [this.2.2.2, Option.getD_some, c1.qidx]

theorem splitLoop_err {h : Heap} {V : Nat → Prop} (hw : WF h V) {q : Nat} (hq : V q)
    (bs : List Int) (hbs : ¬ bs.IsChain (· < ·)) (qid : Option Nat)
    (hqid : ∀ js, QidOK h V (.split js) [q] qid) : (h.splitLoop q bs qid).1 = .error .exception := by
  induction bs generalizing h V qid with
  | nil => simp at hbs
  | cons a bs ih =>
    cases bs with
    | nil => simp at hbs
    | cons b rest =>
      rw [List.isChain_cons_cons] at hbs
      unfold splitLoop
      simp only
      change (match h.initQubit (.split (interval a b)) [q] (some (interval a b).length) qid none with
          | (.error e, h') => (.error e, h')
          | (.ok x, h') => _ : Except PyErr (List Nat) × Heap).1 = _
      by_cases hab : a < b
      · have hlen : ((interval a b).length : Int) = b - a := by simp [interval]; omega
        obtain ⟨h1, r1, e1, w1, c1⟩ := initQubit_ok hw (kind := .split (interval a b)) (inputs := [q])
          (n := some (interval a b).length) (qid := qid) (by simpa using hq) (hqid _) (by simp)
          (by simp only [initN]; omega)
        rw [r1]
        simp only
        have hqx : ∀ js, QidOK h1 (fun y => V y ∨ y = h.nodes.length) (.split js) [q] (some (h1.qid h.nodes.length)) :=
          fun js => qidOK_of_last w1 (Or.inr rfl) (by rw [c1.len]) c1.inputsx c1.kindx
        have := ih w1 (Or.inl hq) (fun hc => hbs ⟨hab, hc⟩) (some (h1.qid h.nodes.length)) hqx
        rcases hr : h1.splitLoop q (b :: rest) (some (h1.qid h.nodes.length)) with ⟨r, h'⟩
        rw [hr] at this
        simp only at this
        subst this
        rfl
      · rw [initQubit_empty]
        simp only [initN, interval, List.length_map, List.length_range]
        omega

theorem mem_addEnds (n : Nat) (l : List Int) (b : Int) : b ∈ addEnds n l ↔ b = 0 ∨ b = n ∨ b ∈ l := by
  unfold addEnds
  simp only
  by_cases h0 : (0 : Int) ∈ l
  · rw [if_pos h0]
    by_cases hn : (n : Int) ∈ l
    · rw [if_pos hn]
      constructor
      · exact fun h => Or.inr (Or.inr h)
      · rintro (rfl | rfl | h) <;> assumption
    · rw [if_neg hn, List.mem_append, List.mem_singleton]
      constructor
      · rintro (h | h)
        · exact Or.inr (Or.inr h)
        · exact Or.inr (Or.inl h)
      · rintro (rfl | rfl | h)
        · exact Or.inl h0
        · exact Or.inr rfl
        · exact Or.inl h
  · rw [if_neg h0]
    by_cases hn : (n : Int) ∈ 0 :: l
    · rw [if_pos hn, List.mem_cons]
      constructor
      · rintro (h | h)
        · exact Or.inl h
        · exact Or.inr (Or.inr h)
      · rintro (h | rfl | h)
        · exact Or.inl h
        · exact List.mem_cons.1 hn
        · exact Or.inr h
    · rw [if_neg hn]
      simp
      tauto

theorem addEnds_sorted {n : Nat} {l : List Int} (hl : l.Pairwise (· ≤ ·)) (hr : ∀ b ∈ l, 0 ≤ b ∧ b ≤ n) :
    (addEnds n l).Pairwise (· ≤ ·) ∧ (l.Nodup → (addEnds n l).Nodup) ∧ l.Sublist (addEnds n l) := by
  have h1 : ∀ m : List Int, m.Pairwise (· ≤ ·) → (∀ b ∈ m, b ≤ (n : Int)) →
      (if (n : Int) ∈ m then m else m ++ [(n : Int)]).Pairwise (· ≤ ·) ∧
      (m.Nodup → (if (n : Int) ∈ m then m else m ++ [(n : Int)]).Nodup) ∧
      m.Sublist (if (n : Int) ∈ m then m else m ++ [(n : Int)]) := by
    intro m hm hb
    split
    · exact ⟨hm, id, List.Sublist.refl _⟩
    · rename_i hn
      refine ⟨List.pairwise_append.2 ⟨hm, List.pairwise_singleton _ _, ?_⟩, ?_, List.sublist_append_left _ _⟩
      · intro a ha b hb'
        rw [List.mem_singleton] at hb'
        subst hb'
        exact hb a ha
      · intro hnd
        refine List.nodup_append.2 ⟨hnd, List.nodup_singleton _, ?_⟩
        intro a ha b hb' e
        rw [List.mem_singleton] at hb'
        subst hb'
        exact hn (e ▸ ha)
  unfold addEnds
  simp only
  by_cases h0 : (0 : Int) ∈ l
  · rw [if_pos h0]
    exact h1 l hl fun b hb => (hr b hb).2
  · rw [if_neg h0]
    obtain ⟨a, b, c⟩ := h1 (0 :: l) (List.pairwise_cons.2 ⟨fun b hb => (hr b hb).1, hl⟩) (by
      intro b hb
      rcases List.mem_cons.1 hb with rfl | hb
      · omega
      · exact (hr b hb).2)
    exact ⟨a, fun hnd => b (List.nodup_cons.2 ⟨h0, hnd⟩), (List.sublist_cons_self _ _).trans c⟩

/-- What every call returns: an argument itself or a new object, made from the arguments, with a fresh id. -/
theorem exec_ret {h : Heap} {V : Nat → Prop} (hw : WF h V) (hk : ∀ x, V x → KindOK h x) (cmd : Cmd)
    (hargs : ∀ x ∈ cmd.args, V x) {xs : List Nat} (hok : (h.exec cmd).1 = .ok xs) :
    ∀ x ∈ xs, x ∈ cmd.args ∨ (h.nodes.length ≤ x ∧ x < (h.exec cmd).2.nodes.length ∧
      (h.exec cmd).2.inputs x = cmd.args ∧ h.nextQid ≤ (h.exec cmd).2.qid x) := by
  have loop : ∀ (q : Nat) (bs : List Int), V q → bs ≠ [] → ∀ xs, (h.splitLoop q bs none).1 = .ok xs → ∀ x ∈ xs,
      h.nodes.length ≤ x ∧ x < (h.splitLoop q bs none).2.nodes.length ∧ (h.splitLoop q bs none).2.inputs x = [q] ∧
      h.nextQid ≤ (h.splitLoop q bs none).2.qid x := by
    intro q bs hq hne xs hxs x hx
    by_cases hc : bs.IsChain (· < ·)
    · obtain ⟨h', r, l, -, -, p⟩ := splitLoop_ok hw hq bs hne hc none (fun _ => qidOK_none)
      rw [r] at hxs ⊢
      have : xs = _ := (Except.ok.inj hxs).symm
      subst this
      rw [List.mem_range'] at hx
      obtain ⟨i, hi, rfl⟩ := hx
      obtain ⟨p1, -, -, p4⟩ := p i (by omega)
      rw [Nat.one_mul]
      refine ⟨by omega, by simp only; omega, p1, ?_⟩
      simp only [p4, Option.getD_none, le_refl]
    · rw [splitLoop_err hw hq bs hc none (fun _ => qidOK_none)] at hxs
      cases hxs
  have hends : ∀ n l, addEnds n l ≠ [] := by
    intro n l hl
    have := (mem_addEnds n l 0).2 (Or.inl rfl)
    rw [hl] at this
    simp at this
  cases cmd with
  | qubit inputs n default =>
    unfold exec at hok ⊢
    simp only at hok ⊢
    obtain ⟨-, -, c1⟩ := initQubit_spec hw (kind := .qubit) (inputs := inputs) (n := n) (qid := none)
      (default := default) hargs qidOK_none
    rcases hr : h.initQubit .qubit inputs n none default with ⟨r, h'⟩
    rw [hr] at hok c1
    simp only at hok c1
    cases r with
    | error e => simp [Except.map] at hok
    | ok x =>
      obtain ⟨-, cr⟩ := c1 x rfl
      have : xs = [x] := (Except.ok.inj hok).symm
      subst this
      intro y hy
      simp at hy
      subst hy
      refine Or.inr ⟨cr.id.ge, by simp only [cr.len, cr.id]; omega, cr.inputsx, ?_⟩
      simp only [cr.qidx, Option.getD_none, le_refl]
  | split q indices =>
    have hq := hargs q (by simp [Cmd.args])
    change (h.split q indices).1 = _ at hok
    change ∀ x ∈ xs, x ∈ [q] ∨ (_ ∧ x < (h.split q indices).2.nodes.length ∧ (h.split q indices).2.inputs x = [q] ∧
      _ ≤ (h.split q indices).2.qid x)
    unfold split at hok ⊢
    cases indices with
    | none =>
      simp only at hok ⊢
      split at hok
      · rename_i h1
        have : xs = [q] := (Except.ok.inj hok).symm
        subst this
        exact fun x hx => Or.inl hx
      · rename_i h1
        rw [if_neg h1]
        exact fun x hx => Or.inr (loop q _ hq (hends _ _) xs hok x hx)
    | some l => exact fun x hx => Or.inr (loop q _ hq (hends _ _) xs hok x hx)
  | extract q arg =>
    have hq := hargs q (by simp [Cmd.args])
    unfold exec at hok ⊢
    simp only at hok ⊢
    change ∀ x ∈ xs, x ∈ [q] ∨ (_ ∧ _ ∧ _ = [q] ∧ _)
    unfold extractIndex at hok ⊢
    cases arg with
    | one i => simp [Except.map] at hok
    | many l =>
      simp only at hok ⊢
      set sel := l.filter fun (i : Int) => 0 ≤ i ∧ i < (h.n q : Int)
      set rest := ((List.range (h.n q)).map fun (i : Nat) => (i : Int)).filter fun i => i ∉ l
      obtain ⟨e1, -, c1⟩ := initQubit_spec hw (kind := .split sel) (inputs := [q]) (n := some sel.length) (qid := none)
        (default := none) (by simpa using hq) qidOK_none
      rcases hr : h.initQubit (.split sel) [q] (some sel.length) none none with ⟨r, h'⟩
      rw [hr] at hok e1 c1
      simp only at hok e1 c1
      cases r with
      | error e => simp [Except.map] at hok
      | ok x =>
        obtain ⟨w2, cr⟩ := c1 x rfl
        simp only at hok ⊢
        obtain ⟨e3, -, c3⟩ := initQubit_spec w2 (kind := .split rest) (inputs := [q]) (n := some rest.length)
          (qid := some (h'.qid x)) (default := none) (by simpa using Or.inl hq)
          (qidOK_of_last w2 (Or.inr rfl) (by rw [cr.len, cr.id]) cr.inputsx cr.kindx)
        rcases hr2 : h'.initQubit (.split rest) [q] (some rest.length) (some (h'.qid x)) none with ⟨r2, h''⟩
        rw [hr2] at hok e3 c3
        simp only at hok e3 c3
        cases r2 with
        | error e => simp [Except.map] at hok
        | ok y =>
          obtain ⟨-, cr2⟩ := c3 y rfl
          have : xs = [x, y] := (Except.ok.inj hok).symm
          subst this
          have hlt : x < h'.nodes.length := by rw [cr.len, cr.id]; omega
          intro z hz
          right
          simp at hz
          simp only
          rcases hz with rfl | rfl
          · refine ⟨cr.id.ge, by rw [cr2.len]; omega, by rw [e3.inputs _ hlt, cr.inputsx], ?_⟩
            rw [e3.qid _ hlt, cr.qidx]; simp
          · refine ⟨by rw [cr2.id]; exact e1.len, by rw [cr2.len, cr2.id]; omega, cr2.inputsx, ?_⟩
            rw [cr2.qidx, Option.getD_some, cr.qidx]; simp
  | op op dagger inputs =>
    obtain ⟨-, -, c1⟩ := construct_spec hw op dagger (inputs := inputs) hargs
    unfold exec at hok ⊢
    simp only at hok ⊢
    rcases hr : h.construct op dagger inputs with ⟨r, h'⟩
    rw [hr] at hok c1
    simp only at hok c1
    cases r with
    | error e => simp [Except.map] at hok
    | ok x =>
      have cx := c1 x rfl
      have : xs = [x] := (Except.ok.inj hok).symm
      subst this
      intro y hy
      simp at hy
      subst hy
      have := cx.last
      exact Or.inr ⟨cx.new, by simp only; omega, cx.inputs, cx.fresh⟩
  | measure inputs =>
    unfold exec at hok ⊢
    simp only at hok ⊢
    obtain ⟨V', -, -, w, -, v5⟩ := mkMeasure_spec hw hk (inputs := inputs) hargs
    rcases hr : h.mkMeasure inputs with ⟨r, h'⟩
    have hr' := hr
    rw [hr] at hok v5 w
    simp only at hok v5 w
    cases r with
    | error e => simp [Except.map] at hok
    | ok x =>
      have : xs = [x] := (Except.ok.inj hok).symm
      subst this
      obtain ⟨a, b, c, d⟩ := v5 x rfl
      intro y hy
      simp at hy
      subst hy
      refine Or.inr ⟨d.ge, w.vlt y a, c, ?_⟩
      simp only
      unfold mkMeasure at hr'
      obtain ⟨-, -, c1⟩ := initQubit_spec hw (kind := .measure) (inputs := inputs) (n := none) (qid := none)
        (default := none) hargs qidOK_none
      rcases hr2 : h.initQubit .measure inputs none none none with ⟨r2, h2⟩
      rw [hr2] at hr' c1
      simp only at hr' c1
      cases r2 with
      | error e => cases hr'
      | ok z =>
        obtain ⟨-, cr⟩ := c1 z rfl
        obtain ⟨-, f2, -⟩ := setN_fields h2 z ((inputs.map h.n).sum)
        have hl2 : (h2.setN z ((inputs.map h.n).sum)).nodes.length = h2.nodes.length := by simp [setN]
        obtain ⟨r1, -⟩ := registerSinks_spec (h2.setN z ((inputs.map h.n).sum)) z inputs (fun i hi => by
          have := hw.vlt i (hargs i hi); rw [hl2, cr.len]; omega)
        simp only at hr'
        change (match (h2.setN z ((inputs.map h.n).sum)).registerSinks z inputs with
          | (.error e, h'') => ((.error e, h'') : Except PyErr Nat × Heap)
          | (.ok (), h'') => (.ok z, h'')) = _ at hr'
        rcases hr3 : (h2.setN z ((inputs.map h.n).sum)).registerSinks z inputs with ⟨r3, h3⟩
        rw [hr3] at hr' r1
        cases r3 with
        | error e => cases hr'
        | ok u =>
          simp only [Prod.mk.injEq, Except.ok.injEq] at hr'
          obtain ⟨rfl, rfl⟩ := hr'
          have := r1.qid z
          simp only at this
          rw [this, f2, cr.qidx]
          simp
  | smeasure inputs topK =>
    unfold exec at hok ⊢
    simp only at hok ⊢
    unfold mkStochastic at hok ⊢
    obtain ⟨-, -, c1⟩ := initQubit_spec hw (kind := .smeasure topK) (inputs := inputs) (n := none) (qid := none)
      (default := none) hargs qidOK_none
    rcases hr2 : h.initQubit (.smeasure topK) inputs none none none with ⟨r2, h2⟩
    rw [hr2] at hok c1
    simp only at hok c1
    cases r2 with
    | error e => simp [Except.map] at hok
    | ok z =>
      obtain ⟨-, cr⟩ := c1 z rfl
      obtain ⟨r1, -⟩ := registerSinks_spec h2 z inputs (fun i hi => by
        have := hw.vlt i (hargs i hi); rw [cr.len]; omega)
      simp only at hok ⊢
      rcases hr3 : h2.registerSinks z inputs with ⟨r3, h3⟩
      rw [hr3] at hok r1
      simp only at hok r1
      cases r3 with
      | error e => simp [Except.map] at hok
      | ok u =>
        have : xs = [z] := (Except.ok.inj hok).symm
        subst this
        intro y hy
        simp at hy
        subst hy
        simp only
        refine Or.inr ⟨cr.id.ge, by rw [r1.len, cr.len, cr.id]; omega, by rw [r1.inputs, cr.inputsx]; rfl, ?_⟩
        rw [r1.qid, cr.qidx]; simp

theorem built_exec {h : Heap} {env : List Nat} (hb : Built h env) {cmd : Cmd} (hargs : ∀ x ∈ cmd.args, x ∈ env) :
    Ext h (h.exec cmd).2 ∧ ∀ xs, (h.exec cmd).1 = .ok xs → ∀ x ∈ xs, x ∈ env ∨ (h.nodes.length ≤ x ∧
      x < (h.exec cmd).2.nodes.length ∧ (h.exec cmd).2.inputs x = cmd.args ∧ h.nextQid ≤ (h.exec cmd).2.qid x) := by
  obtain ⟨V, h1, h2, h3⟩ := built_wf hb
  obtain ⟨-, -, e, -⟩ := exec_spec h1 h2 cmd (fun x hx => h3 x (hargs x hx))
  refine ⟨e, fun xs hok x hx => ?_⟩
  rcases exec_ret h1 h2 cmd (fun x hx => h3 x (hargs x hx)) hok x hx with h | h
  · exact Or.inl (hargs x h)
  · exact Or.inr h

theorem later_spec {h h' : Heap} {env env' : List Nat} (hb : Built h env) (hl : Later h env h' env') :
    Built h' env' ∧ Ext h h' ∧ (∀ x ∈ env, x ∈ env') ∧ ∀ x ∈ env', x ∈ env ∨ h.nodes.length ≤ x := by
  induction hl with
  | refl => exact ⟨hb, Ext.refl h, fun _ h => h, fun _ h => Or.inl h⟩
  | call cmd _ hargs ih =>
    obtain ⟨i1, i2, i3, i4⟩ := ih
    obtain ⟨e, hr⟩ := built_exec i1 hargs
    refine ⟨Built.call cmd i1 hargs, i2.trans e, fun x hx => List.mem_append_left _ (i3 x hx), ?_⟩
    intro x hx
    rcases List.mem_append.1 hx with hx | hx
    · exact i4 x hx
    · split at hx
      · rename_i xs hxs
        rcases hr xs hxs x hx with h0 | h0
        · exact i4 x h0
        · have := i2.len; exact Or.inr (by omega)
      · simp at hx

/-- Users hold the inputs of what they hold. -/
theorem env_closed {h : Heap} {env : List Nat} (hb : Built h env) : ∀ x ∈ env, ∀ i ∈ h.inputs x, i ∈ env := by
  induction hb with
  | start => simp
  | @call h env cmd hb hargs ih =>
    obtain ⟨V, h1, h2, h3⟩ := built_wf hb
    obtain ⟨e, hr⟩ := built_exec hb hargs
    have old : ∀ x ∈ env, ∀ i ∈ (h.exec cmd).2.inputs x, i ∈ env := by
      intro x hx i hi
      rw [e.inputs x (h1.vlt x (h3 x hx))] at hi
      exact ih x hx i hi
    intro x hx i hi
    refine List.mem_append_left _ ?_
    rcases List.mem_append.1 hx with hx | hx
    · exact old x hx i hi
    · split at hx
      · rename_i xs hxs
        rcases hr xs hxs x hx with h0 | ⟨-, -, h0, -⟩
        · exact old x h0 i hi
        · rw [h0] at hi; exact hargs i hi
      · simp at hx

theorem reach_held {h : Heap} {env args : List Nat} (hb : Built h env) (ha : ∀ x ∈ args, x ∈ env) {x : Nat}
    (hx : Reach h args x) : x ∈ env := by
  induction hx with
  | arg h => exact ha _ h
  | input _ h1 ih => exact env_closed hb _ ih _ h1

end QIP.Heap
