import Verif.Lemmas.Outputs

/-!
# Wrapped operations, contexts and circuit functions: C50-C54
-/

namespace QIP.Props

open QIP Spec Heap

/-! ## C50, C53 -/

theorem pure_bindW {α β : Type} {k : α → W β} (a : α) : (pure a >>= k : W β) = k a := rfl

theorem nestC_ok (f k : Nat) (s : WState) :
    nestC f k s = (.ok f, { s with wraps := fun g => if g = f then s.wraps g + k else s.wraps g }) := by
  induction k with
  | zero => simp [nestC, pure]
  | succ k ih =>
    unfold nestC
    rw [W.bind_ok ih]
    unfold controlFunc
    simp only [Prod.mk.injEq, true_and, WState.mk.injEq]
    funext g
    by_cases hg : g = f
    · simp [hg]; omega
    · simp [hg]

/-- **C50** for any number of controls: `C(…C(f)…)(cs…, qs…)` succeeds; its results hold the qubits of the controls in
reverse order (see C53) followed by the qubits of the results of `f(qs…)`; and running the circuit gives the state after
`f` where all controls are 1 and the state before where not.  Partial: `Circ.Fits` asks for operations without parameters
(see `C50_parameters_false`), and all qubits are returned. -/
theorem C50_nested_partial {s : WState} {f : Nat} {body : Circ} {env live cs qs rest : List Nat}
    (hcur : Current s.heap env live) (hs : s.stack = []) (ht : s.total = 0) (hw : s.wraps f = 0) (hf : f ∉ body.calls)
    (hp : live.Perm (cs ++ qs ++ rest)) (hone : ∀ c ∈ cs, s.heap.n c = 1)
    (hfit : body.Fits s.wraps (qs.map (wires s.heap live)))
    (hall : (body.outs s.wraps (qs.map (wires s.heap live))).flatten.length
      = (qs.map (wires s.heap live)).flatten.length) :
    ∃ outs s1 cs' outs' s2, callFunc f body.eval qs s = (.ok outs, s1) ∧
      (nestC f cs.length >>= fun g => callFunc g body.eval (cs ++ qs)) s = (.ok (cs' ++ outs'), s2) ∧
      cs'.map (wires s2.heap (cs' ++ outs' ++ rest)) = (cs.map (wires s.heap live)).reverse ∧
      outs'.map (wires s2.heap (cs' ++ outs' ++ rest)) = outs.map (wires s1.heap (cs ++ outs ++ rest)) ∧
      rest.map (wires s2.heap (cs' ++ outs' ++ rest)) = rest.map (wires s.heap live) ∧
      ∀ feed, Startable s.heap live feed → ∃ v0 v1 v2,
        Outputs s.heap live feed v0 ∧ Outputs s1.heap (cs ++ outs ++ rest) feed v1 ∧
        Outputs s2.heap (cs' ++ outs' ++ rest) feed v2 ∧
        v0.length = 2 ^ width s.heap live ∧ v1.length = 2 ^ width s.heap live ∧ v2.length = 2 ^ width s.heap live ∧
        ∀ r < 2 ^ width s.heap live, v2[r]? =
          if ∀ q ∈ (cs.map (wires s.heap live)).flatten, qbit (width s.heap live) r q = true then v1[r]? else v0[r]? := by
  have l := hcur.live
  have hwr : ∀ g ∈ body.calls, s.wraps g = if g = f then s.wraps g + cs.length else s.wraps g := by
    intro g hg
    have : g ≠ f := fun e => hf (e ▸ hg)
    simp [this]
  set wr' : Nat → Nat := fun g => if g = f then s.wraps g + cs.length else s.wraps g with hwr'
  set cur := qs.map (wires s.heap live) with hcurdef
  -- the plain call
  have hp0 : live.Perm ([] ++ qs ++ (cs ++ rest)) := by
    refine hp.trans ?_
    rw [List.perm_iff_count]; intro a; simp only [List.count_append, List.count_nil]; omega
  have hc0 : InCtl s [] := ⟨by simp [hs], by simp [ht]⟩
  have R1 : Ran s [] live (cs ++ rest) (callFunc f body.eval qs s) (body.outs s.wraps cur) (body.acts s.wraps cur) := by
    have := call_ok (f := f) (body := body.eval) (ins := qs) (rest := cs ++ rest) (live := live)
      (Wo := body.outs s.wraps cur) (acts := body.acts s.wraps cur) hc0 (by omega) (by
        intro s1 hc1 hh1 hw1
        rw [hw] at hc1 ⊢
        simp only [List.take_zero, List.reverse_nil, List.append_nil, List.drop_zero] at hc1 ⊢
        have := eval_ok body (cs := []) (cur := qs) (rest := cs ++ rest) hc1 (hh1 ▸ l) hp0 (hh1 ▸ hcur.unused)
          (by simp) (by rw [hh1, hw1]; exact hfit)
        rwa [hh1, hw1] at this)
    rw [hw] at this
    have em : Act.more ([] : List Nat) = id := by funext a; simp [Act.more]
    simpa [em] using this
  obtain ⟨cs1, outs1, drop1, h1, st1, r1, a1, b1, e1, w1, w1'⟩ := R1.ran
  have hcs1 : cs1 = [] := by
    have := congrArg List.length w1
    simpa using this
  subst hcs1
  have hd1 : drop1 = [] := drop_nil (cs := []) (cs' := []) l hp0 e1 rfl rfl (by rw [w1', hall])
  subst hd1
  simp only [List.nil_append, List.map_nil, List.flatten_nil] at e1 w1'
  have em : Act.more ([] : List Nat) = id := by funext a; simp [Act.more]
  rw [em, List.map_id] at e1
  have hpe1 : (outs1 ++ (cs ++ rest)).Perm (cs ++ outs1 ++ rest) := by
    rw [List.perm_iff_count]; intro a; simp only [List.count_append]; omega
  obtain ⟨env1, l1⟩ := e1.new
  have e1' := e1.mem_perm hpe1
  have w1p : outs1.map (wires h1 (cs ++ outs1 ++ rest)) = body.outs s.wraps cur := by
    rw [← w1']
    exact List.map_congr_left fun x hx => wires_perm l1 hpe1 e1.unused x (by simp [hx])
  -- the controlled call
  set s' : WState := { s with wraps := wr' } with hs'
  have hc0' : InCtl s' [] := ⟨by simp [hs', hs], by simp [hs', ht]⟩
  have hwf : s'.wraps f = cs.length := by simp [hs', hwr', hw]
  have R2 : Ran s' [] live rest (callFunc f body.eval (cs ++ qs) s')
      ((cs.map (wires s.heap live)).reverse ++ body.outs s.wraps cur)
      ((body.acts s.wraps cur).map (Act.more (cs.map (wires s.heap live)).flatten)) := by
    have := call_ok (f := f) (body := body.eval) (ins := cs ++ qs) (rest := rest) (live := live)
      (Wo := body.outs s.wraps cur) (acts := body.acts s.wraps cur) hc0' (by rw [hwf]; simp) (by
        intro s1 hc1 hh1 hw1
        rw [hwf] at hc1 ⊢
        simp only [List.take_left', List.nil_append, List.drop_left'] at hc1 ⊢
        have hpr : live.Perm (cs.reverse ++ qs ++ rest) :=
          hp.trans (((cs.reverse_perm.symm).append_right qs).append_right rest)
        have hh : s1.heap = s.heap := hh1
        have hw2 : s1.wraps = wr' := hw1
        have := eval_ok body (cs := cs.reverse) (cur := qs) (rest := rest) hc1 (hh ▸ l) hpr (hh ▸ hcur.unused)
          (by rw [hh]; simpa using hone) (by rw [hh, hw2]; exact circ_fits_wr body hwr _ hfit)
        rwa [hh, hw2, ← circ_outs_wr body hwr, ← circ_acts_wr body hwr] at this)
    rw [hwf] at this
    simpa [hs'] using this
  obtain ⟨cs2, outs2, drop2, h2, st2, r2, a2, b2, e2, w2, w2'⟩ := R2.ran
  have hcs2 : cs2 = [] := by
    have := congrArg List.length w2
    simpa using this
  subst hcs2
  have hp2 : live.Perm ([] ++ (cs ++ qs) ++ rest) := by simpa using hp
  have hd2 : drop2 = [] := by
    refine drop_nil (cs := []) (cs' := []) l hp2 e2 rfl rfl ?_
    rw [w2', List.map_append, List.flatten_append, List.flatten_append, List.length_append, List.length_append, hall]
    congr 1
    exact ((List.reverse_perm _).flatten).length_eq
  subst hd2
  simp only [List.nil_append, List.map_nil, List.flatten_nil] at e2 w2'
  rw [em, List.map_id] at e2
  obtain ⟨cs', outs', rfl, wa, wb⟩ := List.map_eq_append_iff.1 w2'
  have heap2 : s'.heap = s.heap := rfl
  rw [heap2] at e2
  refine ⟨outs1, _, cs', outs', ⟨h2, st2, s'.total, s'.wraps⟩, r1, ?_, wa, ?_, ?_, ?_⟩
  · rw [W.bind_ok (nestC_ok f cs.length s)]
    exact r2
  · simp only
    rw [wb, w1p]
  · exact e2.map_wires fun x hx => hp.mem_iff.2 (by simp [hx])
  · intro feed hfeed
    refine ⟨_, _, _, l.outputs hfeed, e1'.outputs hfeed, e2.outputs hfeed, by simp, by simp, by simp, ?_⟩
    intro r hr
    rw [List.getElem?_map, List.getElem?_map, List.getElem?_map, List.getElem?_range hr]
    simp only [Option.map_some]
    rw [← apply_ite some]
    congr 1
    have hnd := l.part.nodup_iff.2 List.nodup_range
    have hnd' := (((hp.map (wires s.heap live)).flatten).nodup_iff.1 hnd)
    simp only [List.map_append, List.flatten_append] at hnd'
    refine controlled_all _ _ ?_ _ ?_ _ _
    · intro q hq
      have : q ∈ (live.map (wires s.heap live)).flatten := by
        refine ((hp.map (wires s.heap live)).flatten).mem_iff.2 ?_
        simp only [List.map_append, List.flatten_append]
        exact List.mem_append_left _ (List.mem_append_left _ hq)
      exact List.mem_range.1 (l.part.mem_iff.1 this)
    · intro a ha q hq hqa
      have := circ_acts_sub _ _ _ a ha q hqa
      exact (List.nodup_append.1 (List.nodup_append.1 hnd').1).2.2 q hq q this rfl

/-- **C50**: `C(f)(c, qs…)` returns `(c, outputs of f…)`; running gives the state after `f` where the control is 1 and
the state before `f` where it is 0.  Partial as `C50_nested_partial`. -/
theorem C50_controlled_function_partial {s : WState} {f : Nat} {body : Circ} {env live qs rest : List Nat} {c : Nat}
    (hcur : Current s.heap env live) (hs : s.stack = []) (ht : s.total = 0) (hw : s.wraps f = 0) (hf : f ∉ body.calls)
    (hp : live.Perm (c :: qs ++ rest)) (hone : s.heap.n c = 1)
    (hfit : body.Fits s.wraps (qs.map (wires s.heap live)))
    (hall : (body.outs s.wraps (qs.map (wires s.heap live))).flatten.length
      = (qs.map (wires s.heap live)).flatten.length) :
    ∃ outs s1 c' outs' s2, callFunc f body.eval qs s = (.ok outs, s1) ∧
      (controlFunc f >>= fun g => callFunc g body.eval (c :: qs)) s = (.ok (c' :: outs'), s2) ∧
      wires s2.heap (c' :: outs' ++ rest) c' = wires s.heap live c ∧
      outs'.map (wires s2.heap (c' :: outs' ++ rest)) = outs.map (wires s1.heap (c :: outs ++ rest)) ∧
      rest.map (wires s2.heap (c' :: outs' ++ rest)) = rest.map (wires s.heap live) ∧
      ∀ feed, Startable s.heap live feed → ∃ v0 v1 v2,
        Outputs s.heap live feed v0 ∧ Outputs s1.heap (c :: outs ++ rest) feed v1 ∧
        Outputs s2.heap (c' :: outs' ++ rest) feed v2 ∧
        v0.length = 2 ^ width s.heap live ∧ v1.length = 2 ^ width s.heap live ∧ v2.length = 2 ^ width s.heap live ∧
        ∀ r < 2 ^ width s.heap live, v2[r]? =
          if qbit (width s.heap live) r ((wires s.heap live c).getD 0 0) = true then v1[r]? else v0[r]? := by
  obtain ⟨outs, s1, cs', outs', s2, r1, r2, wa, wb, wc, h⟩ :=
    C50_nested_partial (cs := [c]) hcur hs ht hw hf hp (by simpa using hone) hfit hall
  have hlen : cs'.length = 1 := by have := congrArg List.length wa; simpa using this
  obtain ⟨c', rfl⟩ := List.length_eq_one_iff.1 hlen
  obtain ⟨q, hq⟩ : ∃ q, wires s.heap live c = [q] := by
    obtain ⟨_, ctx⟩ := hcur.circuit.ctx
    refine List.length_eq_one_iff.1 ?_
    rw [ctx.len (.arg (hp.mem_iff.2 (by simp))), hone]
  refine ⟨outs, s1, c', outs', s2, r1, ?_, by simpa using wa, wb, wc, ?_⟩
  · have : nestC f [c].length = controlFunc f := by
      change (pure f >>= controlFunc : W Nat) = _
      exact pure_bindW f
    rw [this] at r2
    exact r2
  · intro feed hfeed
    obtain ⟨v0, v1, v2, o0, o1, o2, l0, l1, l2, hv⟩ := h feed hfeed
    refine ⟨v0, v1, v2, o0, o1, o2, l0, l1, l2, ?_⟩
    intro r hr
    rw [hv r hr]
    simp [hq]

/-- A circuit function on two qubits: `H` on the first, controlled `Not`, return both. -/
def bell : Circ := .op (.op .h) [0] (.op (.c (.op .not)) [1, 0] (.ret [0, 1]))

/-- Three new qubits. -/
def threeQubits : WState := ⟨registers [1, 1, 1], [], 0, fun _ => 0⟩

theorem threeQubits_current : Current threeQubits.heap [0, 1, 2] [0, 1, 2] :=
  (allRegs_registers [1, 1, 1] (by simp)).current (by simp)

theorem threeQubits_wires : ([0, 1, 2].map (wires threeQubits.heap [0, 1, 2])) = [[0], [1], [2]] := by
  have h := allRegs_registers [1, 1, 1] (by simp)
  have h0 := h.wires (x := 0) (by simp)
  have h1 := h.wires (x := 1) (by simp)
  have h2 := h.wires (x := 2) (by simp)
  simp only [List.map_cons, List.map_nil]
  change [wires (registers [1, 1, 1]) (List.range 3) 0, wires (registers [1, 1, 1]) (List.range 3) 1,
    wires (registers [1, 1, 1]) (List.range 3) 2] = _
  simp only [List.length_cons, List.length_nil, Nat.zero_add, Nat.reduceAdd] at h0 h1 h2
  rw [h0, h1, h2]
  rfl

theorem threeQubits_startable : Startable threeQubits.heap [0, 1, 2] [] := by
  have h := allRegs_registers [1, 1, 1] (by simp)
  refine ⟨⟨by simp, by simp, by simp⟩, ?_⟩
  intro q hq _
  have e : leaves threeQubits.heap [0, 1, 2] = [0, 1, 2] := h.leaves
  rw [e] at hq
  have : q < [1, 1, 1].length := by
    simp at hq ⊢; omega
  unfold DefaultOK
  rw [show threeQubits.heap = registers [1, 1, 1] from rfl, (registers_all [1, 1, 1] (by simp)).2 q this]
  trivial

/-- `bell` on two fresh qubits suits C50. -/
theorem bell_fits : bell.Fits (fun _ => 0) [[1], [2]] := by
  simp [bell, Circ.Fits, PosOK, pick, leave, Ctor.Closed, Ctor.spec, OpFits, Gate.withKw, List.range_succ]

theorem bell_outs : bell.outs (fun _ => 0) [[1], [2]] = [[1], [2]] := by
  simp [bell, Circ.outs, pick, leave, List.range_succ]

/-- C50 applies: controlled `bell` on three new qubits. -/
example : ∃ outs s1 c' outs' s2, callFunc 7 bell.eval [1, 2] threeQubits = (.ok outs, s1) ∧
    (controlFunc 7 >>= fun g => callFunc g bell.eval [0, 1, 2]) threeQubits = (.ok (c' :: outs'), s2) ∧
    ∃ v0 v1 v2, Outputs threeQubits.heap [0, 1, 2] [] v0 ∧ Outputs s1.heap (0 :: outs ++ []) [] v1 ∧
      Outputs s2.heap (c' :: outs' ++ []) [] v2 := by
  have hw : [1, 2].map (wires threeQubits.heap [0, 1, 2]) = [[1], [2]] := by
    have := threeQubits_wires
    simp at this
    simp [this]
  obtain ⟨outs, s1, c', outs', s2, r1, r2, -, -, -, h⟩ := C50_controlled_function_partial (s := threeQubits) (f := 7)
    (body := bell) (c := 0) (qs := [1, 2]) (rest := []) threeQubits_current rfl rfl rfl (by simp [bell, Circ.calls])
    (.refl _) ((allRegs_registers [1, 1, 1] (by simp)).n 0 (by simp)) (by rw [hw]; exact bell_fits)
    (by rw [hw]; exact congrArg (fun l => l.flatten.length) bell_outs)
  obtain ⟨v0, v1, v2, o0, o1, o2, -⟩ := h [] threeQubits_startable
  exact ⟨outs, s1, c', outs', s2, r1, r2, v0, v1, v2, o0, o1, o2⟩

/-- **C53** is false at every depth ≥ 2: the controls are not returned in the order given (but in reverse order, see
`C50_nested_partial`). -/
theorem C53_order_false {s : WState} {f : Nat} {body : Circ} {env live cs qs rest : List Nat}
    (hcur : Current s.heap env live) (hs : s.stack = []) (ht : s.total = 0) (hw : s.wraps f = 0) (hf : f ∉ body.calls)
    (hp : live.Perm (cs ++ qs ++ rest)) (hone : ∀ c ∈ cs, s.heap.n c = 1) (hdeep : 2 ≤ cs.length)
    (hfit : body.Fits s.wraps (qs.map (wires s.heap live)))
    (hall : (body.outs s.wraps (qs.map (wires s.heap live))).flatten.length
      = (qs.map (wires s.heap live)).flatten.length) :
    ∃ outs s', (nestC f cs.length >>= fun g => callFunc g body.eval (cs ++ qs)) s = (.ok outs, s') ∧
      cs.length ≤ outs.length ∧
      (outs.take cs.length).map (wires s'.heap (outs ++ rest)) = (cs.map (wires s.heap live)).reverse ∧
      (outs.take cs.length).map (wires s'.heap (outs ++ rest)) ≠ cs.map (wires s.heap live) := by
  obtain ⟨outs, s1, cs', outs', s2, r1, r2, wa, -⟩ :=
    C50_nested_partial hcur hs ht hw hf hp hone hfit hall
  have hlen : cs'.length = cs.length := by have := congrArg List.length wa; simpa using this
  have ht' : (cs' ++ outs').take cs.length = cs' := List.take_left' hlen
  refine ⟨cs' ++ outs', s2, r2, by simp [hlen], by rw [ht', wa], ?_⟩
  rw [ht', wa]
  intro he
  obtain ⟨_, ctx⟩ := hcur.circuit.ctx
  have hmem : ∀ c ∈ cs, c ∈ live := fun c hc => hp.mem_iff.2 (by simp [hc])
  rcases cs with _ | ⟨a, _ | ⟨b, t⟩⟩
  · simp at hdeep
  · simp at hdeep
  · -- the first and the last control hold the same qubit
    obtain ⟨q, hq⟩ : ∃ q, wires s.heap live a = [q] := by
      refine List.length_eq_one_iff.1 ?_
      rw [ctx.len (.arg (hmem a (by simp))), hone a (by simp)]
    have hlast : ∃ z ∈ b :: t, wires s.heap live z = wires s.heap live a := by
      refine ⟨(b :: t).getLast (by simp), List.getLast_mem _, ?_⟩
      have h0 : (((a :: b :: t).map (wires s.heap live)).reverse).head? = ((a :: b :: t).map (wires s.heap live)).head? := by
        rw [he]
      rw [List.head?_reverse, List.getLast?_map, List.getLast?_cons_cons] at h0
      rw [List.getLast?_eq_some_getLast (by simp)] at h0
      simpa using h0
    obtain ⟨z, hz, hza⟩ := hlast
    have hnd := hcur.part.nodup_iff.2 List.nodup_range
    have hnd' := (((hp.map (wires s.heap live)).flatten).nodup_iff.1 hnd)
    simp only [List.cons_append, List.map_cons, List.flatten_cons] at hnd'
    have h2 := (List.nodup_append.1 hnd').2.2 q (by rw [hq]; simp) q
    refine h2 ?_ rfl
    rcases List.mem_cons.1 hz with rfl | hz
    · rw [hza, hq]; simp
    · refine List.mem_append_right _ (List.mem_flatten.2 ⟨wires s.heap live z, ?_, by rw [hza, hq]; simp⟩)
      exact List.mem_map.2 ⟨z, by simp [hz], rfl⟩

end QIP.Props
