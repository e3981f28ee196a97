import Verif.Props.Wrap
import Verif.Lemmas.OneQubit

/-!
# Context stack, controlling functions, keyword arguments: C50 (negation), C51, C52, C54
-/

namespace QIP.Props

open QIP Spec Heap

/-! ## C51 -/

/-- Shape of the stack. -/
def stackShape (s : WState) : List (List (Nat × Nat × List Nat)) := s.stack.map (List.map Entry.shape)

theorem popAll_length {is l xs rest : List Nat} (h : popAll is l = .ok (xs, rest)) : xs.length = is.length := by
  induction is generalizing l xs rest with
  | nil => simp only [popAll, Except.ok.injEq, Prod.mk.injEq] at h; simp [← h.1]
  | cons i is ih =>
    unfold popAll at h
    rcases hi : l[i]? with _ | x
    · rw [hi] at h; cases h
    · rw [hi] at h
      simp only at h
      rcases hp : popAll is (l.eraseIdx i) with e | ⟨a, b⟩
      · rw [hp] at h; cases h
      · rw [hp] at h
        simp only [Except.ok.injEq, Prod.mk.injEq] at h
        rw [← h.1, List.length_cons, List.length_cons, ih hp]

theorem setEntries_spec (es : List Entry) (l : List Nat) (h : (es.map (·.qubits.length)).sum ≤ l.length) :
    (setEntries es l).1.map Entry.shape = es.map Entry.shape ∧
      (setEntries es l).2.length + (es.map (·.qubits.length)).sum = l.length := by
  induction es generalizing l with
  | nil => simp [setEntries]
  | cons e es ih =>
    simp only [List.map_cons, List.sum_cons] at h
    have ht : (l.take e.qubits.length).length = e.qubits.length := by rw [List.length_take]; omega
    obtain ⟨h1, h2⟩ := ih (l.drop (l.take e.qubits.length).length) (by rw [ht, List.length_drop]; omega)
    simp only [setEntries, List.map_cons, h1]
    refine ⟨?_, ?_⟩
    · simp [Entry.shape]; omega
    · rw [ht, List.length_drop] at h2
      simp only [List.sum_cons]
      rw [ht]
      omega

theorem setStack_spec (st : List (List Entry)) (l : List Nat) (h : (st.flatten.map (·.qubits.length)).sum ≤ l.length) :
    (setStack st l).map (List.map Entry.shape) = st.map (List.map Entry.shape) := by
  induction st generalizing l with
  | nil => rfl
  | cons es st ih =>
    simp only [List.flatten_cons, List.map_append, List.sum_append] at h
    obtain ⟨h1, h2⟩ := setEntries_spec es l (by omega)
    simp only [setStack, List.map_cons, h1]
    rw [ih _ (by omega)]

theorem sum_shape {a b : List (List Entry)} (h : a.map (List.map Entry.shape) = b.map (List.map Entry.shape)) :
    (a.flatten.map fun e => (e.qubits.length : Int)).sum = (b.flatten.map fun e => (e.qubits.length : Int)).sum := by
  have h' := congrArg List.flatten h
  rw [← List.map_flatten, ← List.map_flatten] at h'
  have := congrArg (List.map fun (t : Nat × Nat × List Nat) => (t.2.1 : Int)) h'
  rw [List.map_map, List.map_map] at this
  exact congrArg List.sum this

theorem cast_sum (l : List Entry) : (l.map fun e => (e.qubits.length : Int)).sum
    = (((l.map fun e => e.qubits.length).sum : Nat) : Int) := by
  induction l with
  | nil => rfl
  | cons e l ih => simp only [List.map_cons, List.sum_cons, ih]; push_cast; rfl

theorem call_shape (w : Ctor) (kw : List Kwd) (xs : List Nat) (s : WState) (hc : Counted s) :
    stackShape (callWrapper w kw xs s).2 = stackShape s ∧ (callWrapper w kw xs s).2.total = s.total := by
  have key : stackShape (applyInContext w (w.positional xs) s).2 = stackShape s ∧
      (applyInContext w (w.positional xs) s).2.total = s.total := by
    unfold applyInContext
    simp only
    split
    · exact ⟨rfl, rfl⟩
    · split
      · exact ⟨rfl, rfl⟩
      · split
        · split
          · exact ⟨rfl, rfl⟩
          · rename_i applied rest hpop
            by_cases hl : (applied.length : Int) ≠ s.total
            · rw [if_pos hl]; exact ⟨rfl, rfl⟩
            · rw [if_neg hl]
              refine ⟨setStack_spec _ _ ?_, rfl⟩
              have := hc
              unfold Counted at this
              rw [cast_sum] at this
              push Not at hl
              omega
        · exact ⟨rfl, rfl⟩
  unfold callWrapper
  rcases hr : applyInContext w (w.positional xs) s with ⟨e | n, s'⟩
  · rw [W.bind_error hr]
    rw [hr] at key; exact key
  · rw [W.bind_ok hr]
    rw [hr] at key
    split
    · exact key
    · exact key

theorem counted_of_shape {s s' : WState} (h : stackShape s' = stackShape s) (ht : s'.total = s.total)
    (hc : Counted s) : Counted s' := by
  unfold Counted at *
  rw [ht, hc]
  exact (sum_shape h).symm

theorem bindW_eq {α β : Type} (m : W α) (k : α → W β) (s : WState) : (m >>= k) s = match m s with
    | (.ok a, s') => k a s'
    | (.error e, s') => (.error e, s') := rfl

theorem context_shape {α : Type} {body : W α}
    (hb : ∀ s, Counted s → stackShape (body s).2 = stackShape s ∧ (body s).2.total = s.total)
    (ctx : List Entry) (s : WState) (hc : Counted s) :
    stackShape (withContext ctx body s).2 = stackShape s ∧ (withContext ctx body s).2.total = s.total := by
  have hc' : Counted { s with
      stack := s.stack ++ [ctx], total := s.total + (ctx.map fun e => (e.qubits.length : Int)).sum } := by
    unfold Counted at *
    simp only [hc, List.flatten_append, List.map_append, List.sum_append, List.flatten_cons, List.flatten_nil,
      List.append_nil]
  obtain ⟨h1, h2⟩ := hb _ hc'
  unfold withContext
  simp only
  refine ⟨?_, ?_⟩
  · unfold stackShape at *
    simp only at h1 ⊢
    rw [List.map_dropLast, h1, List.map_append, List.map_cons, List.map_nil, List.dropLast_concat]
  · simp only at h2 ⊢
    rw [h2]
    omega

theorem prog_shape {α : Type} {m : W α} (hm : IsProg m) : ∀ s, Counted s →
    stackShape (m s).2 = stackShape s ∧ (m s).2.total = s.total := by
  induction hm with
  | pure a => intro s _; exact ⟨rfl, rfl⟩
  | raise e => intro s _; exact ⟨rfl, rfl⟩
  | @bind α β m k _ _ ih1 ih2 =>
    intro s hc
    rw [bindW_eq]
    rcases hr : m s with ⟨e | a, s'⟩
    · have := ih1 s hc; rw [hr] at this; exact this
    · have h1 := ih1 s hc
      rw [hr] at h1
      have h2 := ih2 a s' (counted_of_shape h1.1 h1.2 hc)
      exact ⟨h2.1.trans h1.1, h2.2.trans h1.2⟩
  | @tryCatch α m k _ _ ih1 ih2 =>
    intro s hc
    unfold W.tryCatch
    rcases hr : m s with ⟨e | a, s'⟩
    · have h1 := ih1 s hc
      rw [hr] at h1
      have h2 := ih2 e s' (counted_of_shape h1.1 h1.2 hc)
      exact ⟨h2.1.trans h1.1, h2.2.trans h1.2⟩
    · have := ih1 s hc; rw [hr] at this; exact this
  | look g => intro s _; exact ⟨rfl, rfl⟩
  | direct cmd => intro s _; exact ⟨rfl, rfl⟩
  | call w kw xs => exact fun s hc => call_shape w kw xs s hc
  | context ctx _ ih => exact fun s hc => context_shape ih ctx s hc
  | @func f body xs _ ih =>
    intro s hc
    unfold callFunc
    rcases hp : popInputs (s.wraps f) xs with e | ⟨popped, rest⟩
    · exact ⟨rfl, rfl⟩
    · refine context_shape ?_ _ s hc
      intro s hc
      rw [bindW_eq]
      rcases hr : body rest s with ⟨e | a, s'⟩
      · have := ih rest s hc; rw [hr] at this; exact this
      · have := ih rest s hc; rw [hr] at this; exact this
  | control f => intro s _; exact ⟨rfl, rfl⟩

/-- **C51**, stack discipline: whatever program runs (with nested contexts, controlled functions, exceptions raised and
caught anywhere), however it ends, the context stack afterwards has the same contexts (their qubits updated) and the
count of context qubits is the same. -/
theorem C51_balanced {α : Type} {m : W α} (hm : IsProg m) {s : WState} (hc : Counted s) :
    ((m s).2.stack.map (List.map Entry.shape) = s.stack.map (List.map Entry.shape)) ∧ (m s).2.total = s.total ∧
      Counted (m s).2 := by
  obtain ⟨h1, h2⟩ := prog_shape hm s hc
  exact ⟨h1, h2, counted_of_shape h1 h2 hc⟩

/-- In particular a program started without context ends without context, however it ends. -/
theorem C51_top_level {α : Type} {m : W α} (hm : IsProg m) {s : WState} (hs : s.stack = []) (ht : s.total = 0) :
    (m s).2.stack = [] ∧ (m s).2.total = 0 := by
  obtain ⟨h1, h2, -⟩ := C51_balanced hm (s := s) (by unfold Counted; simp [hs, ht])
  rw [hs] at h1
  exact ⟨by simpa using h1, h2.trans ht⟩

/-- A program that opens two contexts, calls an operation and fails inside. -/
example : ((withContext [⟨1, [0], [0]⟩] (withContext [⟨1, [1], [0]⟩] do
      let r ← callWrapper (.op .h) [] [2]
      let _ ← callWrapper (.op (.swap 0)) [] r
      W.raise (α := Nat) .valueError) : W Nat) threeQubits).2.stack = [] :=
  (C51_top_level (.context _ (.context _ (.bind (.call _ _ _) fun _ => .bind (.call _ _ _) fun _ => .raise _)))
    (s := threeQubits) rfl rfl).1

/-- **C51**, update of context qubits: inside contexts with one qubit each (those of controlled functions), a wrapped
operation takes every context qubit once, as a control, and the context afterwards holds the new objects for the same
qubits; the others keep theirs. -/
theorem C51_update_partial {s : WState} {cs env live ins rest : List Nat} {w : Ctor} {kw : List Kwd}
    (hflat : s.stack.flatten = cs.map fun q => ⟨1, [q], [0]⟩) (htot : s.total = cs.length)
    (hcur : Current s.heap env live) (hp : live.Perm (cs ++ ins ++ rest)) (hone : ∀ c ∈ cs, s.heap.n c = 1)
    (hw : w.Closed) (hf : OpFits w.spec (ins.map s.heap.n)) :
    ∃ cs' outs s' env', callWrapper w kw ins s = (.ok outs, s') ∧ s'.stack.flatten = cs'.map (fun q => ⟨1, [q], [0]⟩) ∧
      Current s'.heap env' (cs' ++ outs ++ rest) ∧
      cs'.map (wires s'.heap (cs' ++ outs ++ rest)) = cs.map (wires s.heap live) ∧
      outs.map (wires s'.heap (cs' ++ outs ++ rest)) = ins.map (wires s.heap live) ∧
      rest.map (wires s'.heap (cs' ++ outs ++ rest)) = rest.map (wires s.heap live) ∧
      ∀ feed, Startable s.heap live feed → ∃ v : Nat → ℂ,
        Outputs s.heap live feed ((List.range (2 ^ width s.heap live)).map v) ∧
        Outputs s'.heap (cs' ++ outs ++ rest) feed ((List.range (2 ^ width s.heap live)).map
          (Act.apply (width s.heap live) ⟨(cs.map (wires s.heap live)).flatten, opGate w.spec (ins.map s.heap.n),
            ins.map (wires s.heap live)⟩ v)) := by
  have l := hcur.live
  obtain ⟨cs', outs, h', st', r, a, b, hl, hl', st⟩ := wrap_step (kw := kw) (s := s) ⟨hflat, htot⟩ l hp hone (Or.inl hw) hf
  have e := Evolves.of_step l hp hcur.unused st
  obtain ⟨env', l'⟩ := e.new
  have hw' := st.wires
  rw [List.map_append, List.map_append] at hw'
  obtain ⟨w1, w2⟩ := List.append_inj hw' (by simp [hl])
  refine ⟨cs', outs, _, env', r, b, l'.current e.unused, w1, w2, ?_, ?_⟩
  · exact e.map_wires fun x hx => hp.mem_iff.2 (by simp [hx])
  · intro feed hfeed
    exact ⟨_, l.outputs hfeed, e.outputs hfeed⟩

/-- Two controls (qubits 0 and 1 of three) around `H` on qubit 2. -/
example : ∃ (cs' outs : List Nat) (s' : WState), callWrapper (.op .h) [] [2] { threeQubits with stack := [[⟨1, [0], [0]⟩], [⟨1, [1], [0]⟩]], total := 2 }
    = (.ok outs, s') ∧ s'.stack.flatten = cs'.map (fun q => ⟨1, [q], [0]⟩) ∧ cs'.length = 2 := by
  have h1 := (allRegs_registers [1, 1, 1] (by simp)).n
  obtain ⟨cs', outs, s', env', r, hs, -, hw, -⟩ := C51_update_partial
    (s := { threeQubits with stack := [[⟨1, [0], [0]⟩], [⟨1, [1], [0]⟩]], total := 2 }) (cs := [0, 1]) (ins := [2])
    (rest := []) (w := .op .h) (kw := []) rfl rfl threeQubits_current (.refl _)
    (by
      intro c hc
      have : c < [1, 1, 1].length := by simp at hc ⊢; omega
      rw [show threeQubits.heap = registers [1, 1, 1] from rfl, h1 c this]
      simp at hc
      rcases hc with rfl | rfl <;> rfl)
    trivial (by simp [Ctor.spec, OpFits, Gate.withKw])
  exact ⟨cs', outs, s', r, hs, by have := congrArg List.length hw; simpa using this⟩

/-- **C51**, second part, is false for a context with two qubits and the default indices (as in
`QubitWrapperContext(lambda op: C(C(op)), [a, b])`): an operation on `q` inside returns the qubit of `b`, and the context
then holds the qubit of `q` instead. -/
theorem C51_two_qubits_false {s : WState} {env live rest : List Nat} {a b q : Nat} {w : Ctor}
    (hs : s.stack = [[⟨2, [a, b], [0, 1]⟩]]) (ht : s.total = 2)
    (hcur : Current s.heap env live) (hp : live.Perm ([a, b, q] ++ rest)) (ha : s.heap.n a = 1) (hb : s.heap.n b = 1)
    (hw : w.Closed) (hf : OpFits w.spec [s.heap.n q]) :
    ∃ a' b' q' s', callWrapper w [] [q] s = (.ok [b'], s') ∧ s'.stack = [[⟨2, [a', q'], [0, 1]⟩]] ∧
      [a', b', q'].map (wires s'.heap ([a', b', q'] ++ rest)) = [a, b, q].map (wires s.heap live) ∧
      wires s'.heap ([a', b', q'] ++ rest) b' ≠ wires s.heap live q := by
  have l := hcur.live
  have hfit : OpFits (.c (.c w.spec)) ([a, b, q].map s.heap.n) := by
    simp only [List.map_cons, List.map_nil, ha, hb]
    exact ⟨_, rfl, by simp, _, rfl, by simp, hf⟩
  obtain ⟨x, h1, o, h2, r1, r2, st⟩ := op_step l hp hfit
  have hol : o.length = 3 := by
    have := congrArg List.length st.wires
    simpa using this
  obtain ⟨a', b', q', rfl⟩ := List.length_eq_three.1 hol
  have happ : applyInContext w (w.positional [q]) s
      = (.ok [b'], { s with heap := h2, stack := [[⟨2, [a', q'], [0, 1]⟩]] }) := by
    unfold applyInContext
    have hargs : constructArgs s.heap (.c (.c w)) [] ([a, b, q].map some)
        = s.heap.construct (.c (.c w.spec)) false [a, b, q] :=
      constructArgs_closed (w := .c (.c w)) hw s.heap [a, b, q]
    have h0 : putInOrder some s.stack.flatten (w.positional [q]) = [a, b, q].map some := by
      rw [hs, positional_closed hw]; rfl
    have h3 : contextCtor s.stack.flatten w = .c (.c w) := by rw [hs]; rfl
    have h4 : s.stack.flatten.flatMap (·.indices) = [0, 1] := by rw [hs]; rfl
    simp only [h0, h3, h4, wrapperKw_nil]
    have h5 : decide (0 < s.stack.length) = true := by rw [hs]; rfl
    simp only [h5, ↓reduceIte, hargs, r1, r2]
    have h6 : popAll [0, 1] [a', b', q'] = .ok ([a', q'], [b']) := rfl
    simp only [h6, ht]
    rw [hs]
    rfl
  refine ⟨a', b', q', { s with heap := h2, stack := [[⟨2, [a', q'], [0, 1]⟩]] }, ?_, rfl, st.wires, ?_⟩
  · unfold callWrapper
    rw [W.bind_ok happ]
    rfl
  · have hw2 := st.wires
    simp only [List.map_cons, List.map_nil, List.cons.injEq, and_true] at hw2
    simp only
    rw [hw2.2.1]
    intro he
    obtain ⟨_, ctx⟩ := hcur.circuit.ctx
    obtain ⟨k, hk⟩ : ∃ k, wires s.heap live b = [k] := by
      refine List.length_eq_one_iff.1 ?_
      rw [ctx.len (.arg (hp.mem_iff.2 (by simp))), hb]
    have hnd := (((hp.map (wires s.heap live)).flatten).nodup_iff.1 (hcur.part.nodup_iff.2 List.nodup_range))
    simp only [List.cons_append, List.nil_append, List.map_cons, List.flatten_cons] at hnd
    have := (List.nodup_append.1 (List.nodup_append.1 hnd).2.1).2.2 k (by rw [hk]; simp) k
      (List.mem_append_left _ (by rw [← he, hk]; simp))
    exact this rfl

/-- Such a context on three new qubits. -/
example : ∃ a' b' q' s', callWrapper (.op .h) [] [2] { threeQubits with stack := [[⟨2, [0, 1], [0, 1]⟩]], total := 2 }
    = (.ok [b'], s') ∧ s'.stack = [[⟨2, [a', q'], [0, 1]⟩]] := by
  have h1 := (allRegs_registers [1, 1, 1] (by simp)).n
  obtain ⟨a', b', q', s', r, h, -⟩ := C51_two_qubits_false
    (s := { threeQubits with stack := [[⟨2, [0, 1], [0, 1]⟩]], total := 2 }) (a := 0) (b := 1) (q := 2) (rest := [])
    (w := .op .h) rfl rfl threeQubits_current (.refl _) (h1 0 (by simp)) (h1 1 (by simp)) trivial
    (by simp [Ctor.spec, OpFits, Gate.withKw])
  exact ⟨a', b', q', s', r, h⟩

/-! ## C50: operations with parameters -/

theorem constructArgs_param_error (h : Heap) (w : Ctor) (kw : List Kwd) {args : List (Option Nat)} (hn : none ∈ args) :
    ∃ e h', constructArgs h (.c w) kw args = (.error e, h') := by
  unfold constructArgs
  match args, hn with
  | [x], _ => exact ⟨_, _, rfl⟩
  | none :: x :: l, _ => exact ⟨_, _, rfl⟩
  | some q :: x :: l, hn =>
    simp only
    split
    · exact ⟨_, _, rfl⟩
    · split
      · exact ⟨_, _, rfl⟩
      · split
        · exact ⟨_, _, rfl⟩
        · split
          · have : allRefs (some q :: x :: l) = none := by
              have key : ∀ (args : List (Option Nat)), none ∈ args → allRefs args = none := by
                intro args
                induction args with
                | nil => intro h; simp at h
                | cons a t ih =>
                  intro h
                  rcases a with _ | a
                  · rfl
                  · have := ih (by simpa using h)
                    unfold allRefs at *
                    simp [List.mapM_cons, this]
              exact key _ hn
            rw [this]
            exact ⟨_, _, rfl⟩
          · exact ⟨_, _, rfl⟩

/-- **C50** is false for circuit functions that use operations with parameters: inside one or more controls, `R`, `Rm` and
`F` raise an exception. -/
theorem C50_parameters_false {s : WState} {cs : List Nat} {w : Ctor} {kw : List Kwd} {ins : List Nat}
    (hflat : s.stack.flatten = cs.map fun q => ⟨1, [q], [0]⟩) (hne : cs ≠ [])
    (hw : (∃ g, w = .param g) ∨ ∃ f, w = .fop f) :
    ∃ e s', callWrapper w kw ins s = (.error e, s') := by
  have hst : 0 < s.stack.length := by
    rcases hs : s.stack with _ | ⟨a, t⟩
    · rw [hs] at hflat
      exact absurd (by simpa using hflat.symm) hne
    · simp
  have hpos : w.positional ins = none :: ins.map some := by
    rcases hw with ⟨g, rfl⟩ | ⟨f, rfl⟩ <;> rfl
  have happ : ∃ e s', applyInContext w (w.positional ins) s = (.error e, s') := by
    have hflat' : s.stack.flatten = cs.map ctl := hflat
    unfold applyInContext
    simp only [hst, decide_true, ↓reduceIte]
    rw [hflat', putInOrder_ctl, contextCtor_ctl]
    obtain ⟨k, hk⟩ : ∃ k, cs.length = k + 1 := ⟨cs.length - 1, by have := List.length_pos_iff.2 hne; omega⟩
    rw [hk, Function.iterate_succ_apply']
    obtain ⟨e, h', he⟩ := constructArgs_param_error s.heap (Ctor.c^[k] w) (wrapperKw [] [])
      (args := cs.map some ++ w.positional ins) (by rw [hpos]; simp)
    rw [he]
    exact ⟨_, _, rfl⟩
  obtain ⟨e, s', he⟩ := happ
  refine ⟨e, s', ?_⟩
  unfold callWrapper
  rw [W.bind_error he]

/-- So does `C(f)(c, q)` for `f = lambda q: R(phi, q)`. -/
example (phi : ℝ) : ∃ e s', callFunc 7 (fun xs => callWrapper (.param (.r phi)) [] xs) [0, 1]
    { threeQubits with wraps := fun _ => 1 } = (.error e, s') := by
  obtain ⟨e, s', he⟩ := C50_parameters_false (s := ⟨threeQubits.heap, [[⟨1, [0], [0]⟩]], 1, fun _ => 1⟩) (cs := [0])
    (w := .param (.r phi)) (kw := []) (ins := [1]) rfl (by simp) (Or.inl ⟨_, rfl⟩)
  refine ⟨e, { s' with stack := s'.stack.dropLast, total := s'.total - 1 }, ?_⟩
  unfold callFunc
  simp only [popInputs]
  unfold withContext
  simp only
  change ((callWrapper (.param (.r phi)) [] [1] >>= _) _ |>.1, _) = _
  rw [W.bind_error]
  · rfl
  · exact he

/-! ## C52 -/

/-- **C52** is false: building `C(f)`, even without using it, changes what `f` does.  `f = lambda q: H(q)` no longer works
on a qubit. -/
theorem C52_call_changed_false {s : WState} {env live rest : List Nat} {q f : Nat} (hs : s.stack = []) (ht : s.total = 0)
    (hw : s.wraps f = 0) (hcur : Current s.heap env live) (hp : live.Perm (q :: rest)) :
    (∃ x s', callFunc f (fun xs => callWrapper (.op .h) [] xs) [q] s = (.ok [x], s')) ∧
    ∃ e s', (controlFunc f >>= fun _ => callFunc f (fun xs => callWrapper (.op .h) [] xs) [q]) s = (.error e, s') := by
  constructor
  · have l := hcur.live
    have hc : InCtl { s with stack := s.stack ++ [[]], total := s.total + 0 } [] := ⟨by simp [hs], by simp [ht]⟩
    obtain ⟨cs', outs, h', st', r, a, b, hl, hl', -⟩ := wrap_step (kw := []) (rest := rest) (ins := [q]) (w := .op .h)
      hc l (by simpa using hp) (by simp) (Or.inl trivial) (by simp [Ctor.spec, OpFits, Gate.withKw])
    obtain ⟨x, rfl⟩ := List.length_eq_one_iff.1 hl'
    refine ⟨x, ?_⟩
    unfold callFunc
    rw [hw]
    simp only [popInputs]
    unfold withContext
    simp only [List.reverse_nil, List.map_nil, List.sum_nil]
    rw [W.bind_ok r]
    have hst : st' = [[]] := by
      simp only [hs, List.nil_append, List.map_cons, List.length_nil, List.map_nil] at a
      match st', a with
      | [[]], _ => rfl
    subst hst
    exact ⟨_, rfl⟩
  · refine ⟨.valueError, ?_⟩
    have h1 : controlFunc f s = (.ok f, { s with wraps := fun g => if g = f then s.wraps g + 1 else s.wraps g }) := rfl
    rw [W.bind_ok h1]
    unfold callFunc
    simp only [↓reduceIte, hw, Nat.zero_add, popInputs]
    unfold withContext
    simp only
    rw [W.bind_error (e := .valueError)]
    · exact ⟨_, rfl⟩
    · unfold callWrapper
      rw [W.bind_error]
      unfold applyInContext
      simp only [hs]
      rfl

/-- C52's counterexample on new qubits. -/
example : ∃ e s', (controlFunc 7 >>= fun _ => callFunc 7 (fun xs => callWrapper (.op .h) [] xs) [0]) threeQubits
    = (.error e, s') :=
  (C52_call_changed_false (s := threeQubits) (rest := [1, 2]) rfl rfl rfl threeQubits_current (.refl _)).2

/-- **C52**, building `C(f)` twice: the second time gives not the same operation, but `C(C(f))`: it takes two controls and
applies `f` where both are 1. -/
theorem C52_twice_false {s : WState} {f : Nat} {body : Circ} {env live qs rest : List Nat} {a b : Nat}
    (hcur : Current s.heap env live) (hs : s.stack = []) (ht : s.total = 0) (hw : s.wraps f = 0) (hf : f ∉ body.calls)
    (hp : live.Perm ([a, b] ++ qs ++ rest)) (ha : s.heap.n a = 1) (hb : s.heap.n b = 1)
    (hfit : body.Fits s.wraps (qs.map (wires s.heap live)))
    (hall : (body.outs s.wraps (qs.map (wires s.heap live))).flatten.length
      = (qs.map (wires s.heap live)).flatten.length) :
    ∃ outs s1 outs' s2, callFunc f body.eval qs s = (.ok outs, s1) ∧
      (controlFunc f >>= fun _ => controlFunc f >>= fun g => callFunc g body.eval ([a, b] ++ qs)) s
        = (.ok outs', s2) ∧
      ∀ feed, Startable s.heap live feed → ∃ v0 v1 v2,
        Outputs s.heap live feed v0 ∧ Outputs s1.heap ([a, b] ++ outs ++ rest) feed v1 ∧
        Outputs s2.heap (outs' ++ rest) feed v2 ∧
        ∀ r < 2 ^ width s.heap live, v2[r]? =
          if qbit (width s.heap live) r ((wires s.heap live a).getD 0 0) = true ∧
            qbit (width s.heap live) r ((wires s.heap live b).getD 0 0) = true then v1[r]? else v0[r]? := by
  obtain ⟨outs, s1, cs', outs', s2, r1, r2, -, -, -, h⟩ := C50_nested_partial (cs := [a, b]) hcur hs ht hw hf hp
    (by simp [ha, hb]) hfit hall
  refine ⟨outs, s1, cs' ++ outs', s2, r1, r2, ?_⟩
  intro feed hfeed
  obtain ⟨v0, v1, v2, o0, o1, o2, -, -, -, hv⟩ := h feed hfeed
  refine ⟨v0, v1, v2, o0, o1, o2, ?_⟩
  intro r hr
  rw [hv r hr]
  obtain ⟨_, ctx⟩ := hcur.circuit.ctx
  obtain ⟨k, hk⟩ : ∃ k, wires s.heap live a = [k] :=
    List.length_eq_one_iff.1 (by rw [ctx.len (.arg (hp.mem_iff.2 (by simp))), ha])
  obtain ⟨k', hk'⟩ : ∃ k, wires s.heap live b = [k] :=
    List.length_eq_one_iff.1 (by rw [ctx.len (.arg (hp.mem_iff.2 (by simp))), hb])
  simp [hk, hk']

/-- The program neither looks at nor changes the controls of `f`. -/
def IgnoresCtl {α : Type} (f : Nat) (m : W α) : Prop := ∀ s k,
  m { s with wraps := Function.update s.wraps f k } = ((m s).1, { (m s).2 with wraps := Function.update (m s).2.wraps f k })

theorem ignores_bind {α β : Type} {f : Nat} {m : W α} {k : α → W β} (hm : IgnoresCtl f m)
    (hk : ∀ a, IgnoresCtl f (k a)) : IgnoresCtl f (m >>= k) := by
  intro s j
  rw [bindW_eq, bindW_eq, hm s j]
  rcases m s with ⟨e | a, s'⟩
  · rfl
  · exact hk a s' j

theorem ignores_call (f : Nat) (w : Ctor) (kw : List Kwd) (xs : List Nat) : IgnoresCtl f (callWrapper w kw xs) := by
  have key : IgnoresCtl f (applyInContext w (w.positional xs)) := by
    intro s j
    unfold applyInContext
    simp only
    split
    · rename_i h1; simp only [h1]
    · rename_i h1
      simp only [h1]
      split
      · rfl
      · by_cases h3 : decide (0 < s.stack.length) = true
        · simp only [h3, ↓reduceIte]
          split
          · rfl
          · rename_i a b _
            by_cases h5 : (a.length : Int) ≠ s.total
            · simp only [if_pos h5]
            · simp only [if_neg h5]
        · rw [if_neg h3, if_neg h3]
  refine ignores_bind key fun n => ?_
  intro s j
  split <;> rfl

theorem ignores_func {f g : Nat} (hg : g ≠ f) {body : List Nat → W (List Nat)} (hb : ∀ xs, IgnoresCtl f (body xs))
    (xs : List Nat) : IgnoresCtl f (callFunc g body xs) := by
  intro s j
  unfold callFunc
  simp only [Function.update_of_ne hg]
  rcases popInputs (s.wraps g) xs with e | ⟨popped, rest⟩
  · rfl
  · simp only
    unfold withContext
    simp only
    have h : IgnoresCtl f (body rest >>= fun outputs => ownContext >>= fun context =>
        (pure (putInOrder id context outputs) : W (List Nat))) :=
      ignores_bind (hb rest) fun o => ignores_bind (fun _ _ => rfl) fun c _ _ => rfl
    have := h { s with stack := s.stack ++ [popped.reverse.map fun q => ⟨1, [q], [0]⟩],
                       total := s.total + ((popped.reverse.map fun q => (⟨1, [q], [0]⟩ : Entry)).map
                         fun x => (x.qubits.length : Int)).sum } j
    rw [this]

theorem ignores_eval {f : Nat} (c : Circ) (hf : f ∉ c.calls) (cur : List Nat) : IgnoresCtl f (c.eval cur) := by
  induction c generalizing cur with
  | ret outs => intro s j; rfl
  | op w pos k ih => exact ignores_bind (ignores_call f w [] _) fun r => ih hf _
  | split p bs k ih => exact ignores_bind (fun _ _ => rfl) fun r => ih hf _
  | join pos k ih => exact ignores_bind (fun _ _ => rfl) fun r => ih hf _
  | call g body pos k ihb ih =>
    simp only [Circ.calls, List.mem_cons, List.mem_append, not_or] at hf
    exact ignores_bind (ignores_func (Ne.symm hf.1) (fun xs => ihb hf.2.1 xs) _) fun r => ih hf.2.2 _

/-- **C52**, the part that holds: building `C(f)` does not change other circuit functions that do not call `f`. -/
theorem C52_others_partial {f g : Nat} (hg : g ≠ f) {body : Circ} (hf : f ∉ body.calls) (xs : List Nat) (s : WState) :
    ((controlFunc f >>= fun _ => callFunc g body.eval xs) s).1 = (callFunc g body.eval xs s).1 ∧
    ((controlFunc f >>= fun _ => callFunc g body.eval xs) s).2.heap = (callFunc g body.eval xs s).2.heap ∧
    ((controlFunc f >>= fun _ => callFunc g body.eval xs) s).2.stack = (callFunc g body.eval xs s).2.stack := by
  have h1 : controlFunc f s = (.ok f, { s with wraps := Function.update s.wraps f (s.wraps f + 1) }) := by
    unfold controlFunc
    simp only [Prod.mk.injEq, true_and, WState.mk.injEq]
    funext k
    by_cases hk : k = f
    · subst hk; simp
    · simp [hk]
  rw [W.bind_ok h1, ignores_func hg (fun ys => ignores_eval body hf ys) xs s (s.wraps f + 1)]
  exact ⟨rfl, rfl, rfl⟩

/-- `bell` calls no function. -/
example : ((controlFunc 7 >>= fun _ => callFunc 8 bell.eval [0, 1]) threeQubits).1
    = (callFunc 8 bell.eval [0, 1] threeQubits).1 :=
  (C52_others_partial (by decide) (by simp [bell, Circ.calls]) _ _).1

/-! ## C54 -/

/-- **C54**, what holds: the classes take their keywords; `RmOp(m, *qs, negate=…, dagger=…)`. -/
theorem C54_class_keywords {h : Heap} {env : List Nat} (hb : Built h env) {xs : List Nat} (hin : ∀ x ∈ xs, x ∈ env)
    (hne : xs ≠ []) (hnd : xs.Nodup) (hpos : ∀ x ∈ xs, 0 < h.n x) (m : Int) (b : Bool) (kw : List Kwd) :
    ∃ y h', constructArgs h (.param (.rm m b)) kw (none :: xs.map some) = (.ok y, h') ∧
      h'.kind y = .gate (.rm m (decide (.negate ∈ kw))) (decide (.dagger ∈ kw)) ∧ h'.inputs y = xs := by
  obtain ⟨V, hw, hk, hV⟩ := built_wf hb
  obtain ⟨y, h', r, k, -⟩ := construct_ok hw (.gate (.rm m (decide (.negate ∈ kw)))) (decide (.dagger ∈ kw))
    (fun i hi => hV i (hin i hi)) hnd hpos (by simp only [OpFits]; simpa using hne)
  refine ⟨y, h', ?_, k, ?_⟩
  · simp only [constructArgs, allRefs_map]
    exact r
  · have := (construct_spec hw (.gate (.rm m (decide (.negate ∈ kw)))) (decide (.dagger ∈ kw))
      (fun i hi => hV i (hin i hi))).2.2 y (by rw [r])
    have e := this.inputs
    rw [r] at e
    exact e

theorem rm_negate_ne {m : Int} (hm : 2 ≤ m) : gateU (.rm m false) true true ≠ gateU (.rm m true) true true := by
  simp only [gateU, ↓reduceIte, Bool.false_eq_true]
  intro h
  have him := congrArg Complex.im h
  have key : ∀ x : ℝ, (Complex.exp (Complex.I * (x : ℂ))).im = Real.sin x := by
    intro x
    rw [mul_comm]
    exact Complex.exp_ofReal_mul_I_im x
  rw [key, key] at him
  have hp : (4 : ℝ) ≤ (2 : ℝ) ^ m := by
    have : (2 : ℝ) ^ (2 : Int) ≤ (2 : ℝ) ^ m := zpow_le_zpow_right₀ (by norm_num) hm
    norm_num at this
    exact this
  have h0 : 0 < 2 * Real.pi / (2 : ℝ) ^ m := div_pos (by positivity) (by linarith)
  have h1 : 2 * Real.pi / (2 : ℝ) ^ m < Real.pi := by
    rw [div_lt_iff₀ (by linarith)]
    nlinarith [Real.pi_pos]
  have hs := Real.sin_pos_of_pos_of_lt_pi h0 h1
  simp only [one_mul, neg_mul, Real.sin_neg] at him
  linarith

/-- **C54** is false for the wrapped constructors: `Rm(m, q, negate=True)` builds `Rm(m, q)`.  For `m >= 2` running gives a
wrong amplitude wherever the qubit is 1 and the amplitude is not 0. -/
theorem C54_negate_false {s : WState} {env live rest : List Nat} {q : Nat} {b : Bool} {m : Int} (hm : 2 ≤ m)
    (hs : s.stack = []) (ht : s.total = 0) (hcur : Current s.heap env live) (hp : live.Perm (q :: rest))
    (hq : s.heap.n q = 1) :
    ∃ x s', callWrapper (.param (.rm m b)) [.negate] [q] s = (.ok [x], s') ∧
      ∀ feed, Startable s.heap live feed → ∃ v v' : Nat → ℂ,
        Outputs s.heap live feed ((List.range (2 ^ width s.heap live)).map v) ∧
        Outputs s'.heap (x :: rest) feed ((List.range (2 ^ width s.heap live)).map v') ∧
        ∀ r < 2 ^ width s.heap live,
          v' r = gateApply (width s.heap live) (.rm m false) [wires s.heap live q] v r ∧
          (qbit (width s.heap live) r ((wires s.heap live q).getD 0 0) = true → v r ≠ 0 →
            v' r ≠ gateApply (width s.heap live) (.rm m true) [wires s.heap live q] v r) := by
  have l := hcur.live
  have hc : InCtl s [] := ⟨by simp [hs], by simp [ht]⟩
  have hp' : live.Perm ([] ++ [q] ++ rest) := by simpa using hp
  obtain ⟨cs', outs, h', st', r, a, -, hl, hl', st⟩ := wrap_step (kw := [.negate]) (rest := rest) (ins := [q])
    (w := .param (.rm m b)) hc l hp' (by simp) (Or.inr ⟨rfl, _, rfl⟩) (by simp [Ctor.spec, OpFits, Gate.withKw])
  obtain rfl : cs' = [] := List.length_eq_zero_iff.1 hl
  obtain ⟨x, rfl⟩ := List.length_eq_one_iff.1 hl'
  have e := Evolves.of_step l hp' hcur.unused st
  refine ⟨x, _, r, ?_⟩
  intro feed hfeed
  refine ⟨_, _, l.outputs hfeed, e.outputs hfeed, ?_⟩
  obtain ⟨_, ctx⟩ := hcur.circuit.ctx
  have hql : q ∈ live := hp.mem_iff.2 (by simp)
  obtain ⟨k, hk⟩ : ∃ k, wires s.heap live q = [k] :=
    List.length_eq_one_iff.1 (by rw [ctx.len (.arg hql), hq])
  have hkn : k < width s.heap live := by
    have : k ∈ (live.map (wires s.heap live)).flatten :=
      List.mem_flatten.2 ⟨_, List.mem_map.2 ⟨q, hql, rfl⟩, by rw [hk]; simp⟩
    exact List.mem_range.1 (hcur.part.mem_iff.1 this)
  intro r hr
  have e1 : Act.apply (width s.heap live) ⟨(([] : List Nat).map (wires s.heap live)).flatten,
      opGate (Ctor.param (.rm m b)).spec ([q].map s.heap.n), [q].map (wires s.heap live)⟩
      (finalState s.heap live feed) r
      = gateApply (width s.heap live) (.rm m false) [wires s.heap live q] (finalState s.heap live feed) r := by
    simp [Act.apply, Ctor.spec, Gate.withKw, opGate]
  refine ⟨e1, ?_⟩
  intro hb hv
  rw [e1]
  have hd : ∀ neg, ∀ i j, i ≠ j → gateU (.rm m neg) i j = 0 := by
    intro neg i j hij
    simp [gateU, hij]
  rw [hk] at hb ⊢
  simp only [List.getD_cons_zero] at hb
  simp only [gateApply, List.flatten_cons, List.flatten_nil, List.append_nil, List.foldr_cons, List.foldr_nil]
  rw [apply1_diag hkn hr (hd false), apply1_diag hkn hr (hd true), hb]
  intro h
  exact rm_negate_ne hm (mul_right_cancel₀ hv h)

/-- `Rm(3, q, negate=True)` on a new qubit. -/
example : ∃ x s', callWrapper (.param (.rm 3 false)) [.negate] [0] threeQubits = (.ok [x], s') := by
  obtain ⟨x, s', h, -⟩ := C54_negate_false (m := 3) (b := false) (rest := [1, 2]) (by norm_num) (s := threeQubits) rfl rfl
    threeQubits_current (.refl _) ((allRegs_registers [1, 1, 1] (by simp)).n 0 (by simp))
  exact ⟨x, s', h⟩

end QIP.Props
