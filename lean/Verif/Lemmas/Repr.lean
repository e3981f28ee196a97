import Verif.Model.Repr
import Verif.Lemmas.Built

/-! # The `repr` of nodes -/

namespace QIP

open Heap

/-! ## Names -/

theorem no_paren_nat (n : Nat) : '(' ∉ (toString n).toList := by
  intro h
  rw [show (toString n).toList = Nat.toDigits 10 n from Nat.toList_repr] at h
  have := Nat.isDigit_of_mem_toDigits (by decide) (by decide) h
  revert this
  decide

theorem no_paren_int (m : ℤ) : '(' ∉ (toString m).toList := by
  cases m with
  | ofNat n => exact no_paren_nat n
  | negSucc n =>
    intro h
    have e : toString (Int.negSucc n) = "-" ++ toString (n + 1) := rfl
    rw [e, String.toList_append, List.mem_append] at h
    rcases h with h | h
    · revert h; decide
    · exact no_paren_nat _ h

theorem Gate.name_ok (g : Gate) : '(' ∉ g.name.toList ∧ g.name.toList ≠ [] := by
  induction g with
  | rm m b =>
    simp only [Gate.name, String.toList_append, List.mem_append, not_or]
    exact ⟨⟨⟨by decide, no_paren_int m⟩, by decide⟩, by simp⟩
  | c op ih =>
    simp only [Gate.name, String.toList_append, List.mem_append, not_or]
    exact ⟨⟨by decide, ih.1⟩, by simp⟩
  | _ => exact ⟨by simp only [Gate.name]; decide, by simp only [Gate.name]; decide⟩

theorem Gate.text_name (g : Gate) (qid : Nat) (l : List String) :
    ∃ body, (g.text qid l).toList = g.name.toList ++ '(' :: body := by
  induction g with
  | c op ih =>
    obtain ⟨b, hb⟩ := ih
    exact ⟨b, by simp [Gate.text, Gate.name, hb]⟩
  | rm m b => exact ⟨(commas l).toList ++ [')'], by simp [Gate.text, Gate.name]⟩
  | r _ => exact ⟨(commas l).toList ++ [')'], by simp [Gate.text, Gate.name]⟩
  | _ => exact ⟨(toString qid).toList ++ [')'], by simp [Gate.text, Gate.name]⟩

theorem Kind.name_ok (k : Kind) : '(' ∉ k.name.toList ∧ k.name.toList ≠ [] := by
  cases k with
  | gate g d => exact g.name_ok
  | _ => exact ⟨by simp only [Kind.name]; decide, by simp only [Kind.name]; decide⟩

theorem Kind.text_name (k : Kind) (qid : Nat) (l : List String) :
    ∃ body, (k.text qid l).toList = k.name.toList ++ '(' :: body := by
  cases k with
  | gate g d => exact g.text_name qid l
  | qubit => exact ⟨(toString qid).toList ++ [')'], by simp [Kind.text, Kind.name]⟩
  | fop f => exact ⟨(l.getD 0 "").toList ++ ", ".toList ++ (l.getD 1 "").toList ++ [')'], by simp [Kind.text, Kind.name]⟩
  | _ => exact ⟨(commas l).toList ++ [')'], by simp [Kind.text, Kind.name]⟩

theorem trimName_of {s name : String} {body : List Char} (hs : s.toList = name.toList ++ '(' :: body)
    (h1 : '(' ∉ name.toList) (h2 : name.toList ≠ []) : trimName s = name := by
  have hp : s.toList.findIdx (· == '(') = name.toList.length := by
    rw [hs, List.findIdx_append]
    have : name.toList.findIdx (· == '(') = name.toList.length := by
      rw [List.findIdx_eq_length]
      intro c hc
      simp only [beq_eq_false_iff_ne, ne_eq]
      rintro rfl
      exact h1 hc
    rw [this]
    simp [List.findIdx_cons]
  unfold trimName
  simp only [hp]
  rw [if_pos ⟨by rw [hs]; simp, List.length_pos_of_ne_nil h2⟩, hs]
  simp

theorem trimName_text (k : Kind) (qid : Nat) (l : List String) : trimName (k.text qid l) = k.name := by
  obtain ⟨b, hb⟩ := k.text_name qid l
  exact trimName_of hb k.name_ok.1 k.name_ok.2

/-! ## The recursion -/

theorem Gate.shown_sub (g : Gate) {ins : List Nat} {i : Nat} (h : i ∈ g.shown ins) : i ∈ ins := by
  induction g generalizing ins with
  | c op ih => exact List.mem_of_mem_tail (ih h)
  | r _ => exact h
  | rm _ _ => exact h
  | _ => simp [Gate.shown] at h

theorem Kind.shown_sub (k : Kind) {ins : List Nat} {i : Nat} (h : i ∈ k.shown ins) : i ∈ ins := by
  cases k with
  | gate g d => exact g.shown_sub h
  | qubit => simp [Kind.shown] at h
  | fop f => exact List.mem_of_mem_take h
  | _ => exact h

theorem mapM_some {α β : Type} {f : α → Option β} {l : List α} (h : ∀ x ∈ l, ∃ y, f x = some y) :
    ∃ ys, l.mapM f = some ys := by
  induction l with
  | nil => exact ⟨[], rfl⟩
  | cons a l ih =>
    obtain ⟨y, hy⟩ := h a (by simp)
    obtain ⟨ys, hys⟩ := ih fun x hx => h x (by simp [hx])
    exact ⟨y :: ys, by simp [List.mapM_cons, hy, hys]⟩

theorem mapM_congr' {α β : Type} {f g : α → Option β} {l : List α} (h : ∀ x ∈ l, f x = g x) : l.mapM f = l.mapM g := by
  induction l with
  | nil => rfl
  | cons a l ih =>
    rw [List.mapM_cons, List.mapM_cons, h a (by simp), ih fun x hx => h x (by simp [hx])]

theorem reprIn_add (h : Heap) (f k x : Nat) : h.reprIn (f + k) k x = h.reprIn f 0 x := by
  induction k with
  | zero => rfl
  | succ k ih => rw [← Nat.add_assoc]; exact ih

theorem reprIn_few (h : Heap) {f k : Nat} (x : Nat) (hf : f ≤ k) : h.reprIn f k x = none := by
  induction f generalizing k with
  | zero => cases k <;> rfl
  | succ f ih =>
    cases k with
    | zero => omega
    | succ k => exact ih (by omega)

theorem repr_few (h : Heap) {f x : Nat} (hf : f ≤ (h.kind x).inner) : h.repr f x = none := reprIn_few h x hf

/-- One call for every `C`, one for the operation itself, then those for the inputs. -/
theorem repr_step (h : Heap) (f x : Nat) :
    h.repr (f + 1 + (h.kind x).inner) x
      = (((h.kind x).shown (h.inputs x)).mapM (h.repr f)).bind fun l => some ((h.kind x).text (h.qid x) l) := by
  unfold Heap.repr
  rw [reprIn_add]
  rfl

theorem repr_cases (h : Heap) (f x : Nat) :
    h.repr f x = none ∨ ∃ f', f = f' + 1 + (h.kind x).inner := by
  by_cases hf : f ≤ (h.kind x).inner
  · exact .inl (repr_few h hf)
  · exact .inr ⟨f - 1 - (h.kind x).inner, by omega⟩

/-- Every operation inside a `COp` is an object made after the inputs and before the `COp`. -/
def Deep (h : Heap) : Prop :=
  ∀ x < h.nodes.length, (h.kind x).inner ≤ x ∧ ∀ i ∈ h.inputs x, i + (h.kind x).inner < x

theorem Deep.same {h h' : Heap} (hd : Deep h) (s : Same h h') : Deep h' := by
  intro x hx
  rw [s.len] at hx
  rw [s.inputs, s.kind]
  exact hd x hx

theorem Deep.push {h : Heap} (hd : Deep h) {nd : Node} {next : Nat}
    (h0 : nd.kind.inner ≤ h.nodes.length) (hi : ∀ i ∈ nd.inputs, i + nd.kind.inner < h.nodes.length) :
    Deep (h.push nd next) := by
  intro x hx
  have hx' : x < h.nodes.length ∨ x = h.nodes.length := by
    rw [show (h.push nd next).nodes.length = h.nodes.length + 1 by simp [Heap.push]] at hx; omega
  rcases hx' with hx' | rfl
  · unfold Heap.inputs Heap.kind
    rw [node_push_lt h nd next hx']
    exact hd x hx'
  · unfold Heap.inputs Heap.kind
    rw [node_push_eq]
    exact ⟨h0, hi⟩

theorem initQubit_deep {h : Heap} (hd : Deep h) {kind : Kind} {inputs : List Nat}
    (h0 : kind.inner ≤ h.nodes.length) (hi : ∀ i ∈ inputs, i + kind.inner < h.nodes.length) (n : Option Int) (qid : Option Nat) (default : Option Default) :
    Deep (h.initQubit kind inputs n qid default).2 ∧ h.nodes.length ≤ (h.initQubit kind inputs n qid default).2.nodes.length ∧
      ∀ x, (h.initQubit kind inputs n qid default).1 = .ok x → x = h.nodes.length ∧
        x < (h.initQubit kind inputs n qid default).2.nodes.length ∧ (h.initQubit kind inputs n qid default).2.kind x = kind := by
  rw [initQubit_eq]
  split
  · exact ⟨hd, le_rfl, by simp⟩
  split
  · exact ⟨hd, le_rfl, by simp⟩
  have hlen : (h.push (h.newNode kind inputs n qid default) (h.newNext qid)).nodes.length = h.nodes.length + 1 := by
    simp [push]
  have hs := (registerSinks_spec (h.push (h.newNode kind inputs n qid default) (h.newNext qid)) h.nodes.length inputs
    (fun i hm => by have := hi i hm; omega)).1
  have hp : Deep (h.push (h.newNode kind inputs n qid default) (h.newNext qid)) := hd.push h0 (by simpa [newNode] using hi)
  have hk : (h.push (h.newNode kind inputs n qid default) (h.newNext qid)).kind h.nodes.length = kind := by
    unfold Heap.kind; rw [node_push_eq]; rfl
  rcases hr : (h.push (h.newNode kind inputs n qid default) (h.newNext qid)).registerSinks h.nodes.length inputs with ⟨r, h'⟩
  rw [hr] at hs
  have hl := hs.len
  simp only at hs hl
  cases r with
  | error e => exact ⟨hp.same hs, by simp only; omega, by simp⟩
  | ok u =>
    refine ⟨hp.same hs, by simp only; omega, ?_⟩
    intro x hx
    obtain rfl : h.nodes.length = x := Except.ok.inj hx
    exact ⟨rfl, by simp only; omega, by simp only; rw [hs.kind, hk]⟩

theorem splitLoop_deep {h : Heap} (hd : Deep h) {q : Nat} (hq : q < h.nodes.length) (l : List Int) (qid : Option Nat) :
    Deep (h.splitLoop q l qid).2 := by
  induction l generalizing h qid with
  | nil => unfold splitLoop; exact hd
  | cons a l ih =>
    cases l with
    | nil => unfold splitLoop; exact hd
    | cons b rest =>
      unfold splitLoop
      simp only
      obtain ⟨d1, l1, -⟩ := initQubit_deep hd
        (kind := .split ((List.range (b - a).toNat).map fun (i : Nat) => a + i)) (inputs := [q])
        (by simp [Kind.inner]) (by simpa [Kind.inner] using hq) (some ((List.range (b - a).toNat).map fun (i : Nat) => a + i).length) qid none
      rcases hr : h.initQubit (.split ((List.range (b - a).toNat).map fun (i : Nat) => a + i)) [q]
        (some ((List.range (b - a).toNat).map fun (i : Nat) => a + i).length) qid none with ⟨r, h'⟩
      rw [hr] at d1 l1
      simp only at d1 l1
      cases r with
      | error e => exact d1
      | ok x =>
        have := ih d1 (by omega) (some (h'.qid x))
        simp only
        rcases hr' : h'.splitLoop q (b :: rest) (some (h'.qid x)) with ⟨r', h''⟩
        rw [hr'] at this
        cases r' <;> exact this

theorem extract_deep {h : Heap} (hd : Deep h) {q : Nat} (hq : q < h.nodes.length) (arg : ExtractArg) :
    Deep (h.extractIndex q arg).2 := by
  cases arg with
  | one i => exact hd
  | many is =>
    unfold extractIndex
    simp only
    generalize hsel : (is.filter fun (i : Int) => decide (0 ≤ i ∧ i < (h.n q : Int))) = sel
    generalize hrest : (((List.range (h.n q)).map fun (i : Nat) => (i : Int)).filter fun i => decide (i ∉ is)) = rest
    obtain ⟨d1, l1, -⟩ := initQubit_deep hd (kind := .split sel) (inputs := [q]) (by simp [Kind.inner]) (by simpa [Kind.inner] using hq)
      (some sel.length) none none
    rcases hr : h.initQubit (.split sel) [q] (some sel.length) none none with ⟨r, h'⟩
    rw [hr] at d1 l1
    simp only at d1 l1
    cases r with
    | error e => exact d1
    | ok x =>
      simp only
      obtain ⟨d2, -, -⟩ := initQubit_deep d1 (kind := .split rest) (inputs := [q])
        (by simp [Kind.inner]) (by intro i hi; simp only [List.mem_singleton] at hi; subst hi; simp only [Kind.inner]; omega)
        (some rest.length) (some (h'.qid x)) none
      rcases hr' : h'.initQubit (.split rest) [q] (some rest.length) (some (h'.qid x)) none with ⟨r', h''⟩
      rw [hr'] at d2
      cases r' <;> exact d2

theorem construct_deep {h : Heap} (hd : Deep h) (op : OpSpec) (dagger : Bool) {inputs : List Nat}
    (hi : ∀ i ∈ inputs, i < h.nodes.length) :
    Deep (h.construct op dagger inputs).2 ∧
      ∀ y, (h.construct op dagger inputs).1 = .ok y → y < (h.construct op dagger inputs).2.nodes.length ∧
        h.nodes.length + ((h.construct op dagger inputs).2.kind y).inner ≤ y := by
  induction op generalizing dagger inputs with
  | gate g =>
    have simple : ∀ g' : Gate, g'.inner = 0 →
        Deep (h.initQubit (.gate g' dagger) inputs none none none).2 ∧
          ∀ y, (h.initQubit (.gate g' dagger) inputs none none none).1 = .ok y →
            y < (h.initQubit (.gate g' dagger) inputs none none none).2.nodes.length ∧
            h.nodes.length + ((h.initQubit (.gate g' dagger) inputs none none none).2.kind y).inner ≤ y := by
      intro g' h0
      obtain ⟨d1, -, c1⟩ := initQubit_deep hd (kind := .gate g' dagger) (inputs := inputs)
        (by simp [Kind.inner, h0]) (by simpa [Kind.inner, h0] using hi) none none none
      refine ⟨d1, fun y hy => ?_⟩
      obtain ⟨e, l, k⟩ := c1 y hy
      rw [k]
      simp only [Kind.inner, h0]
      exact ⟨l, e.ge⟩
    cases g with
    | c o => exact ⟨hd, by simp [construct, mkSimple]⟩
    | swap k =>
      have := simple (.swap (h.n (inputs.getD 0 0))) rfl
      unfold construct mkSimple
      simp only
      rcases hr : h.initQubit (.gate (.swap (h.n (inputs.getD 0 0))) dagger) inputs none none none with ⟨r, h'⟩
      rw [hr] at this
      cases r with
      | error e => exact ⟨this.1, by simp⟩
      | ok x =>
        simp only
        split
        · exact ⟨this.1, by simp⟩
        split
        · exact ⟨this.1, by simp⟩
        · exact this
    | not => exact simple .not rfl
    | x => exact simple .x rfl
    | y => exact simple .y rfl
    | z => exact simple .z rfl
    | h => exact simple .h rfl
    | r phi => exact simple (.r phi) rfl
    | rm m b => exact simple (.rm m b) rfl
  | fop f =>
    unfold construct
    split
    · exact ⟨hd, by simp⟩
    · obtain ⟨d1, -, c1⟩ := initQubit_deep hd (kind := .fop f) (inputs := inputs)
        (by simp [Kind.inner]) (by simpa [Kind.inner] using hi) none none none
      refine ⟨d1, fun y hy => ?_⟩
      obtain ⟨e, l, k⟩ := c1 y hy
      rw [k]
      exact ⟨l, e.ge⟩
  | c op ih =>
    unfold construct
    split
    · exact ⟨hd, by simp⟩
    obtain ⟨d1, c1⟩ := ih false (inputs := inputs.tail) fun i hm => hi i (List.mem_of_mem_tail hm)
    rcases hr : h.construct op false inputs.tail with ⟨r, h'⟩
    rw [hr] at d1 c1
    simp only at d1 c1
    cases r with
    | error e => exact ⟨d1, by simp⟩
    | ok y =>
      simp only
      obtain ⟨l1, k1⟩ := c1 y rfl
      split
      · rename_i g d hg
        rw [hg] at k1
        simp only [Kind.inner] at k1
        obtain ⟨d2, -, c2⟩ := initQubit_deep d1 (kind := .gate (.c g) dagger) (inputs := inputs)
          (by simp only [Kind.inner, Gate.inner]; omega)
          (by intro i hm; have := hi i hm; simp only [Kind.inner, Gate.inner]; omega) none (some (h'.qid y)) none
        refine ⟨d2, fun z hz => ?_⟩
        obtain ⟨e, l, k⟩ := c2 z hz
        rw [k]
        simp only [Kind.inner, Gate.inner]
        exact ⟨l, by omega⟩
      · exact ⟨d1, by simp⟩

theorem measure_deep {h : Heap} (hd : Deep h) {inputs : List Nat} (hi : ∀ i ∈ inputs, i < h.nodes.length) :
    Deep (h.mkMeasure inputs).2 := by
  unfold mkMeasure
  obtain ⟨d1, l1, -⟩ := initQubit_deep hd (kind := .measure) (inputs := inputs) (by simp [Kind.inner]) (by simpa [Kind.inner] using hi) none none none
  rcases hr : h.initQubit .measure inputs none none none with ⟨r, h'⟩
  rw [hr] at d1 l1
  simp only at d1 l1
  cases r with
  | error e => exact d1
  | ok x =>
    simp only
    have hlen : (h'.setN x (inputs.map h.n).sum).nodes.length = h'.nodes.length := by simp [setN]
    have d2 : Deep (h'.setN x (inputs.map h.n).sum) := by
      obtain ⟨f1, -, f3, -⟩ := setN_fields h' x (inputs.map h.n).sum
      intro z hz
      rw [f3, f1]
      exact d1 z (by omega)
    have hs := (registerSinks_spec (h'.setN x (inputs.map h.n).sum) x inputs (fun i hm => by have := hi i hm; omega)).1
    change Deep (match (h'.setN x (inputs.map h.n).sum).registerSinks x inputs with
      | (.error e, h'') => (.error e, h'') | (.ok (), h'') => (.ok x, h'') : Except PyErr Nat × Heap).2
    rcases hr' : (h'.setN x (inputs.map h.n).sum).registerSinks x inputs with ⟨r', h''⟩
    rw [hr'] at hs
    cases r' <;> exact d2.same hs

theorem stochastic_deep {h : Heap} (hd : Deep h) {inputs : List Nat} (hi : ∀ i ∈ inputs, i < h.nodes.length) (topK : Int) :
    Deep (h.mkStochastic inputs topK).2 := by
  unfold mkStochastic
  obtain ⟨d1, l1, -⟩ := initQubit_deep hd (kind := .smeasure topK) (inputs := inputs) (by simp [Kind.inner]) (by simpa [Kind.inner] using hi)
    none none none
  rcases hr : h.initQubit (.smeasure topK) inputs none none none with ⟨r, h'⟩
  rw [hr] at d1 l1
  simp only at d1 l1
  cases r with
  | error e => exact d1
  | ok x =>
    simp only
    have hs := (registerSinks_spec h' x inputs (fun i hm => by have := hi i hm; omega)).1
    rcases hr' : h'.registerSinks x inputs with ⟨r', h''⟩
    rw [hr'] at hs
    cases r' <;> exact d1.same hs

theorem built_deep {h : Heap} {env : List Nat} (hb : Built h env) : Deep h := by
  induction hb with
  | start => intro x hx; simp [empty] at hx
  | @call h env cmd hb hargs ih =>
    obtain ⟨V, hw, -, he⟩ := built_wf hb
    have ha : ∀ x ∈ cmd.args, x < h.nodes.length := fun x hx => hw.vlt x (he x (hargs x hx))
    cases cmd with
    | qubit inputs n default => exact (initQubit_deep ih (kind := .qubit) (by simp [Kind.inner])
        (by simpa [Kind.inner, Cmd.args] using ha) n none default).1
    | split q indices =>
      have hq : q < h.nodes.length := ha q (by simp [Cmd.args])
      cases indices with
      | none =>
        unfold exec
        simp only [Heap.split]
        split
        · exact ih
        · exact splitLoop_deep ih hq _ _
      | some is => exact splitLoop_deep ih hq _ _
    | extract q arg => exact extract_deep ih (ha q (by simp [Cmd.args])) arg
    | op op dagger inputs => exact (construct_deep ih op dagger ha).1
    | measure inputs => exact measure_deep ih ha
    | smeasure inputs topK => exact stochastic_deep ih ha topK

theorem repr_some {h : Heap} (hd : Deep h) {f x : Nat} (hx : x < h.nodes.length) (hf : x < f) :
    ∃ s, h.repr f x = some s := by
  induction x using Nat.strong_induction_on generalizing f with
  | _ x ih =>
    obtain ⟨h0, h1⟩ := hd x hx
    obtain ⟨f', rfl⟩ : ∃ f', f = f' + 1 + (h.kind x).inner := ⟨f - 1 - (h.kind x).inner, by omega⟩
    obtain ⟨l, hl⟩ := mapM_some (f := h.repr f') (l := (h.kind x).shown (h.inputs x)) (by
      intro i hi
      have := h1 i (Kind.shown_sub _ hi)
      exact ih i (by omega) (by omega) (by omega))
    exact ⟨(h.kind x).text (h.qid x) l, by simp [repr_step, hl]⟩

theorem repr_ext {h h' : Heap} {V : Nat → Prop} (hw : WF h V) (e : Ext h h') {f x : Nat} (hx : x < h.nodes.length) :
    h'.repr f x = h.repr f x := by
  induction x using Nat.strong_induction_on generalizing f with
  | _ x ih =>
    by_cases hf : f ≤ (h.kind x).inner
    · rw [repr_few h hf, repr_few h' (by rw [e.kind x hx]; exact hf)]
    · obtain ⟨f', rfl⟩ : ∃ f', f = f' + 1 + (h.kind x).inner := ⟨f - 1 - (h.kind x).inner, by omega⟩
      have := repr_step h' f' x
      rw [e.kind x hx, e.inputs x hx, e.qid x hx] at this
      rw [this, repr_step, mapM_congr' (g := h.repr f')]
      intro i hi
      have := hw.ilt x hx i (Kind.shown_sub _ hi)
      exact ih i this (by omega)

/-! ## Lengths -/

theorem commas_len (l : List String) :
    (commas l).length = (commas (l.map fun _ => "")).length + (l.map String.length).sum := by
  induction l with
  | nil => rfl
  | cons a l ih =>
    cases l with
    | nil => simp [commas]
    | cons b l =>
      simp only [commas, List.map_cons, String.length_append, List.sum_cons] at ih ⊢
      rw [show "".length = 0 from rfl]
      omega

theorem Gate.text_len (g : Gate) (qid : Nat) (l : List String) :
    (g.text qid l).length ≤ (g.text qid (l.map fun _ => "")).length + (l.map String.length).sum := by
  have := commas_len l
  induction g with
  | c op ih => simp only [Gate.text, String.length_append] at ih ⊢; omega
  | _ => simp only [Gate.text, String.length_append]; omega

theorem Kind.text_len (k : Kind) (qid : Nat) (l : List String) :
    (k.text qid l).length ≤ (k.text qid (l.map fun _ => "")).length + (l.map String.length).sum := by
  have := commas_len l
  cases k with
  | gate g d => exact g.text_len qid l
  | fop f =>
    match l with
    | [] => simp [Kind.text]
    | [a] =>
      simp only [Kind.text, String.length_append, List.map_cons, List.map_nil, List.getD_cons_zero, List.getD_cons_succ,
        List.getD_nil, List.sum_cons, List.sum_nil]
      omega
    | a :: b :: l =>
      simp only [Kind.text, String.length_append, List.map_cons, List.getD_cons_zero, List.getD_cons_succ, List.sum_cons]
      omega
  | _ => simp only [Kind.text, String.length_append]; omega

/-- The characters a node adds to the text: its `repr` if those of its inputs were empty. -/
def ownLen (h : Heap) (x : Nat) : Nat :=
  ((h.kind x).text (h.qid x) (((h.kind x).shown (h.inputs x)).map fun _ => "")).length

theorem mapM_length {α β : Type} {f : α → Option β} {l : List α} {ys : List β} (h : l.mapM f = some ys) :
    List.Forall₂ (fun x y => f x = some y) l ys := by
  induction l generalizing ys with
  | nil => simp at h; subst h; exact .nil
  | cons a l ih =>
    rw [List.mapM_cons] at h
    rcases ha : f a with _ | y
    · simp [ha] at h
    · rcases hl : l.mapM f with _ | zs
      · simp [ha, hl] at h
      · simp only [ha, hl, Option.bind_eq_bind, Option.bind_some, Option.pure_def, Option.some.injEq] at h
        subst h
        exact .cons ha (ih hl)

theorem repr_parts {h : Heap} {f x : Nat} {s : String} (hs : h.repr f x = some s) :
    ∃ f' l, f = f' + 1 + (h.kind x).inner ∧
      List.Forall₂ (fun i t => h.repr f' i = some t) ((h.kind x).shown (h.inputs x)) l ∧
      s = (h.kind x).text (h.qid x) l := by
  rcases repr_cases h f x with hn | ⟨f', rfl⟩
  · rw [hn] at hs; cases hs
  rw [repr_step] at hs
  rcases hl : ((h.kind x).shown (h.inputs x)).mapM (h.repr f') with _ | l
  · simp [hl] at hs
  · simp only [hl, Option.bind_some, Option.some.injEq] at hs
    exact ⟨f', l, rfl, mapM_length hl, hs.symm⟩

theorem mapM_of_forall₂ {α β : Type} {f : α → Option β} {l : List α} {ys : List β}
    (h : List.Forall₂ (fun x y => f x = some y) l ys) : l.mapM f = some ys := by
  induction h with
  | nil => rfl
  | cons h1 _ ih => simp [List.mapM_cons, h1, ih]

theorem repr_mono {h : Heap} {f g x : Nat} {s : String} (hs : h.repr f x = some s) (hfg : f ≤ g) : h.repr g x = some s := by
  induction f using Nat.strong_induction_on generalizing g x s with
  | _ f ih =>
    obtain ⟨f', l, rfl, hl, rfl⟩ := repr_parts hs
    obtain ⟨g', rfl⟩ : ∃ g', g = g' + 1 + (h.kind x).inner := ⟨g - 1 - (h.kind x).inner, by omega⟩
    rw [repr_step, mapM_of_forall₂ (ys := l) (hl.imp fun i t ht => ih f' (by omega) ht (by omega))]
    rfl

theorem repr_trim {h : Heap} {f x : Nat} {s : String} (hs : h.repr f x = some s) : trimName s = (h.kind x).name := by
  obtain ⟨f', l, -, -, rfl⟩ := repr_parts hs
  exact trimName_text _ _ _

theorem repr_len {h : Heap} {f x : Nat} {s : String} (hs : h.repr f x = some s) {B : Nat}
    (hB : ∀ i ∈ (h.kind x).shown (h.inputs x), ∀ f' t, h.repr f' i = some t → t.length ≤ B) :
    s.length ≤ ownLen h x + ((h.kind x).shown (h.inputs x)).length * B := by
  obtain ⟨f', l, -, hl, rfl⟩ := repr_parts hs
  refine ((h.kind x).text_len (h.qid x) l).trans ?_
  have e : (l.map fun _ => "") = ((h.kind x).shown (h.inputs x)).map fun _ => "" := by
    rw [List.map_const', List.map_const', hl.length_eq]
  rw [e]
  have hsum : (l.map String.length).sum ≤ ((h.kind x).shown (h.inputs x)).length * B := by
    rw [hl.length_eq]
    have : ∀ t ∈ l.map String.length, t ≤ B := by
      intro t ht
      obtain ⟨u, hu, rfl⟩ := List.mem_map.1 ht
      obtain ⟨k, hk, rfl⟩ := List.getElem_of_mem hu
      have hk' := hl.length_eq ▸ hk
      exact hB _ (List.getElem_mem hk') _ _ (List.Forall₂.get hl hk' hk)
    have := List.sum_le_card_nsmul _ _ this
    simpa using this
  unfold ownLen
  omega

theorem repr_narrow {h : Heap} {V : Nat → Prop} (hw : WF h V) {f x : Nat} (hx : x < h.nodes.length)
    (hn : ∀ y ≤ x, ((h.kind y).shown (h.inputs y)).length ≤ 1) {s : String} (hs : h.repr f x = some s) :
    s.length ≤ ((List.range (x + 1)).map (ownLen h)).sum := by
  induction x using Nat.strong_induction_on generalizing f s with
  | _ x ih =>
    have hlen := repr_len hs (B := ((List.range x).map (ownLen h)).sum) (by
      intro i hi f' t ht
      have hlt := hw.ilt x hx i (Kind.shown_sub _ hi)
      refine (ih i hlt (by omega) (fun y hy => hn y (by omega)) ht).trans ?_
      have hsub : (List.range (i + 1)).Sublist (List.range x) := List.range_sublist.2 (by omega)
      exact (hsub.map _).sum_le_sum (fun _ _ => Nat.zero_le _))
    rw [List.range_succ, List.map_append, List.sum_append]
    simp only [List.map_cons, List.map_nil, List.sum_cons, List.sum_nil, add_zero]
    have := Nat.mul_le_mul_right ((List.range x).map (ownLen h)).sum (hn x le_rfl)
    omega

end QIP
