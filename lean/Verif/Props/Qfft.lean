import Verif.Lemmas.Dft
import Verif.Props.Wrap

/-!
# The quantum Fourier transform: C48, C49
-/

namespace QIP.Props

open QIP Spec Heap Finset

theorem rowL_qubits (w : Nat) (us : List Nat) (m : Nat) : ∀ a ∈ rowL w us m, ∀ q ∈ a.qubits, q ∈ w :: us := by
  induction us generalizing m with
  | nil => simp [rowL]
  | cons u us ih =>
    intro a ha q hq
    rw [rowL.eq_2] at ha
    rcases List.mem_cons.1 ha with rfl | ha
    · simp [Spec.Act.qubits] at hq ⊢; tauto
    · have := ih _ a ha q hq
      simp at this ⊢; tauto

theorem qftL_qubits (ws : List Nat) : ∀ a ∈ qftL ws, ∀ q ∈ a.qubits, q ∈ ws := by
  induction ws with
  | nil => simp [qftL]
  | cons w ws ih =>
    intro a ha q hq
    unfold qftL at ha
    rcases List.mem_cons.1 ha with rfl | ha
    · simp [Spec.Act.qubits] at hq ⊢; tauto
    · rcases List.mem_append.1 ha with ha | ha
      · exact rowL_qubits _ _ _ a ha q hq
      · exact List.mem_cons_of_mem _ (ih a ha q hq)

theorem qfftActs_qubits (rev : Bool) (ws : List Nat) : ∀ a ∈ qfftActs rev ws, ∀ q ∈ a.qubits, q ∈ ws := by
  intro a ha q hq
  unfold qfftActs at ha
  rw [recActs_eq _ _ _ (by omega), List.drop_zero] at ha
  rcases List.mem_append.1 ha with ha | ha
  · exact qftL_qubits ws a ha q hq
  · cases rev with
    | false => simp at ha
    | true =>
      simp only [if_true, swapActs, List.mem_map, List.mem_range] at ha
      obtain ⟨i, hi, rfl⟩ := ha
      simp only [Spec.Act.qubits, List.nil_append, List.flatten_cons, List.flatten_nil, List.append_nil,
        List.singleton_append, List.mem_cons, List.not_mem_nil, or_false] at hq
      rcases hq with rfl | rfl
      · rw [List.getD_eq_getElem _ _ (by omega)]; exact List.getElem_mem _
      · rw [List.getD_eq_getElem _ _ (by omega)]; exact List.getElem_mem _

/-- The discrete Fourier transform of a register held by some qubits, with the output index read in order (`rev`) or in
reverse order. -/
noncomputable def qfftSpec (n : Nat) (rev : Bool) (ws : List Nat) (v : List ℂ) (r : Nat) : ℂ :=
  dftAt n ws (subIndex n (if rev then ws else ws.reverse) r) (fun j => v.getD j 0) r

theorem dftAt_congr {n : Nat} {ws : List Nat} {k r : Nat} {v v' : Nat → ℂ} (h : ∀ c < 2 ^ n, v c = v' c) :
    dftAt n ws k v r = dftAt n ws k v' r := by
  unfold dftAt
  congr 1
  apply Finset.sum_congr rfl
  intro c hc
  rw [h c (Finset.mem_range.1 (Finset.mem_filter.1 hc).1)]

/-- **C48, C49** with any number of controls (`C(…C(QFFT)…)(cs…, qs…)`; none: `QFFT(qs…)`), in any circuit: the call
succeeds; the results hold the same qubits as the arguments, register by register (the controls in reverse order, see
C53); where all controls are 1, the state is transformed by the discrete Fourier transform of the number spelled by the
arguments. -/
theorem C48_controlled {s : WState} {f : Nat} (rev : Bool) {env live cs qs rest : List Nat}
    (hcur : Current s.heap env live) (hs : s.stack = []) (ht : s.total = 0) (hw : s.wraps f = 0)
    (hp : live.Perm (cs ++ qs ++ rest)) (hone : ∀ c ∈ cs, s.heap.n c = 1) (hne : qs ≠ []) :
    ∃ cs' outs s', (nestC f cs.length >>= fun g => qfft g rev (cs ++ qs)) s = (.ok (cs' ++ outs), s') ∧
      cs'.map (wires s'.heap (cs' ++ outs ++ rest)) = (cs.map (wires s.heap live)).reverse ∧
      outs.map (wires s'.heap (cs' ++ outs ++ rest)) = qs.map (wires s.heap live) ∧
      rest.map (wires s'.heap (cs' ++ outs ++ rest)) = rest.map (wires s.heap live) ∧
      (∃ env', Current s'.heap env' (cs' ++ outs ++ rest)) ∧
      ∀ feed, Startable s.heap live feed → ∃ v0 v1,
        Outputs s.heap live feed v0 ∧ Outputs s'.heap (cs' ++ outs ++ rest) feed v1 ∧
        v0.length = 2 ^ width s.heap live ∧ v1.length = 2 ^ width s.heap live ∧
        ∀ r < 2 ^ width s.heap live, v1[r]? =
          if ∀ q ∈ (cs.map (wires s.heap live)).flatten, qbit (width s.heap live) r q = true then
            some (qfftSpec (width s.heap live) rev (qs.map (wires s.heap live)).flatten v0 r) else v0[r]? := by
  have l := hcur.live
  set wr' : Nat → Nat := fun g => if g = f then s.wraps g + cs.length else s.wraps g with hwr'
  set s' : WState := { s with wraps := wr' } with hs'
  set ws := (qs.map (wires s.heap live)).flatten with hws
  have hc0' : InCtl s' [] := ⟨by simp [hs', hs], by simp [hs', ht]⟩
  have hwf : s'.wraps f = cs.length := by simp [hs', hwr', hw]
  have R2 : Ran s' [] live rest (qfft f rev (cs ++ qs) s')
      ((cs.map (wires s.heap live)).reverse ++ qs.map (wires s.heap live))
      ((qfftActs rev ws).map (Act.more (cs.map (wires s.heap live)).flatten)) := by
    have := call_ok (f := f) (body := qfftBody rev) (ins := cs ++ qs) (rest := rest) (live := live)
      (Wo := qs.map (wires s.heap live)) (acts := qfftActs rev ws) hc0' (by rw [hwf]; simp) (by
        intro s1 hc1 hh1 hw1
        rw [hwf] at hc1 ⊢
        simp only [List.take_left', List.nil_append, List.drop_left'] at hc1 ⊢
        have hpr : live.Perm (cs.reverse ++ qs ++ rest) :=
          hp.trans (((cs.reverse_perm.symm).append_right qs).append_right rest)
        have hh : s1.heap = s.heap := hh1
        have r : Ready s1 cs.reverse live qs rest :=
          ⟨hc1, ⟨env, hh ▸ l⟩, hpr, hh ▸ hcur.unused, by rw [hh]; simpa using hone⟩
        have := qfftBody_ok rev r hne
        rwa [hh] at this)
    rw [hwf] at this
    simpa [hs', qfft] using this
  obtain ⟨cs2, outs2, drop2, h2, st2, r2, a2, b2, e2, w2, w2'⟩ := R2.ran
  have hcs2 : cs2 = [] := by
    have := congrArg List.length w2
    simpa using this
  subst hcs2
  have hp2 : live.Perm ([] ++ (cs ++ qs) ++ rest) := by simpa using hp
  have hd2 : drop2 = [] := by
    refine drop_nil (cs := []) (cs' := []) l hp2 e2 rfl rfl ?_
    rw [w2', List.map_append, List.flatten_append, List.flatten_append, List.length_append, List.length_append]
    congr 1
    exact ((List.reverse_perm _).flatten).length_eq
  subst hd2
  simp only [List.nil_append, List.map_nil, List.flatten_nil] at e2 w2'
  have em : Act.more ([] : List Nat) = id := by funext a; simp [Act.more]
  rw [em, List.map_id] at e2
  obtain ⟨cs', outs', rfl, wa, wb⟩ := List.map_eq_append_iff.1 w2'
  have heap2 : s'.heap = s.heap := rfl
  rw [heap2] at e2
  refine ⟨cs', outs', ⟨h2, st2, s'.total, s'.wraps⟩, ?_, wa, wb, ?_, ?_, ?_⟩
  · rw [W.bind_ok (nestC_ok f cs.length s)]
    exact r2
  · exact e2.map_wires fun x hx => hp.mem_iff.2 (by simp [hx])
  · obtain ⟨env2, l2⟩ := e2.new
    exact ⟨env2, l2.current e2.unused⟩
  · intro feed hfeed
    refine ⟨_, _, l.outputs hfeed, e2.outputs hfeed, by simp, by simp, ?_⟩
    intro r hr
    rw [List.getElem?_map, List.getElem?_map, List.getElem?_range hr]
    simp only [Option.map_some]
    rw [← apply_ite some]
    congr 1
    have hnd := l.part.nodup_iff.2 List.nodup_range
    have hpf := (hp.map (wires s.heap live)).flatten
    have hnd' := (hpf.nodup_iff.1 hnd)
    simp only [List.map_append, List.flatten_append] at hnd' hpf
    have hall : ∀ q ∈ (cs.map (wires s.heap live)).flatten ++ ws, q < width s.heap live := by
      intro q hq
      exact List.mem_range.1 (l.part.mem_iff.1 (hpf.mem_iff.2 (List.mem_append_left _ hq)))
    have hwnd : ws.Nodup := (List.nodup_append.1 (List.nodup_append.1 hnd').1).2.1
    have hwlt : ∀ w ∈ ws, w < width s.heap live := fun w h => hall w (List.mem_append_right _ h)
    rw [controlled_all _ _ (fun q hq => hall q (List.mem_append_left _ hq)) _ ?_]
    · apply if_congr Iff.rfl ?_ rfl
      unfold qfftSpec
      have hv : ∀ c < 2 ^ width s.heap live, ((List.range (2 ^ width s.heap live)).map
          (finalState s.heap live feed)).getD c 0 = finalState s.heap live feed c := by
        intro c hc
        rw [List.getD_eq_getElem _ _ (by simpa using hc), List.getElem_map, List.getElem_range]
      rw [dftAt_congr hv]
      cases rev with
      | true => rw [qfft_rev hwnd hwlt _ hr]; rfl
      | false => rw [qfft_norev hwnd hwlt _ hr]; rfl
    · intro a ha q hq hqa
      exact (List.nodup_append.1 (List.nodup_append.1 hnd').1).2.2 q hq q (qfftActs_qubits rev ws a ha q hqa) rfl

/-- The state of new registers is what has been fed. -/
theorem regs_final {ns : List Nat} (hpos : ∀ n ∈ ns, 0 < n) {v : List ℂ} (hv : v.length = 2 ^ ns.sum) :
    Startable (registers ns) (List.range ns.length) [(List.range ns.length, v)] ∧
    Outputs (registers ns) (List.range ns.length) [(List.range ns.length, v)] v := by
  have a := allRegs_registers ns hpos
  have l := (a.current hpos).live
  have hst : Startable (registers ns) (List.range ns.length) [(List.range ns.length, v)] := by
    refine ⟨⟨?_, ?_, ?_⟩, ?_⟩
    · simpa using List.nodup_range
    · intro q hq; rw [a.leaves]; simpa using hq
    · intro kv hkv
      simp only [List.mem_singleton] at hkv
      subst hkv
      simp only
      rw [a.map_n _ le_rfl, List.take_length, hv]
    · intro q hq hnot; rw [a.leaves] at hq; simp at hq hnot; omega
  refine ⟨hst, ?_⟩
  have := l.outputs hst
  have e : (List.range (2 ^ width (registers ns) (List.range ns.length))).map
      (finalState (registers ns) (List.range ns.length) [(List.range ns.length, v)]) = v := by
    rw [a.width]
    apply List.ext_getElem
    · simp [hv]
    · intro i h1 h2
      simp only [List.length_map, List.length_range] at h1
      simp only [List.getElem_map, List.getElem_range]
      unfold finalState
      have key : ∀ (L : List Nat), (∀ x ∈ L, (registers ns).kind x = .qubit) → ∀ w,
          applyAll (width (registers ns) (List.range ns.length)) (registers ns) (List.range ns.length) L w = w := by
        intro L
        induction L with
        | nil => intro _ _; rfl
        | cons x L ih =>
          intro hL w
          unfold applyAll at ih ⊢
          rw [List.foldl_cons, ih fun y hy => hL y (by simp [hy])]
          unfold nodeApply
          rw [hL x (by simp)]
      rw [key]
      · unfold startAmp
        simp only [a.width, a.leaves, a.wires_all, List.map_cons, List.map_nil, List.prod_cons, List.prod_nil, mul_one,
          List.flatten_cons, List.flatten_nil, List.append_nil]
        rw [subIndex_range h1, List.getD_eq_getElem _ _ h2]
        have : (List.range ns.length).filter (fun q => decide (q ∉ List.range ns.length)) = [] := by
          rw [List.filter_eq_nil_iff]; intro q hq; simpa using hq
        rw [this]
        simp
      · intro x hx
        unfold needed at hx
        rw [List.mem_filter] at hx
        exact a.kind x ((a.reach x).1 (by simpa using hx.2))
  rwa [e] at this

theorem agreeOff_range (n r : Nat) : (range (2 ^ n)).filter (fun c => AgreeOff n (List.range n) r c) = range (2 ^ n) := by
  rw [Finset.filter_true_of_mem]
  intro c _ q hq hn
  exact absurd (List.mem_range.2 hq) hn

theorem dftAt_range {n k r : Nat} (v : List ℂ) : dftAt n (List.range n) k (fun j => v.getD j 0) r = dft n v k := by
  unfold dftAt dft
  rw [agreeOff_range, List.length_range]
  congr 1
  apply Finset.sum_congr rfl
  intro c hc
  rw [subIndex_range (Finset.mem_range.1 hc)]

theorem subIndex_reverse {n k : Nat} : subIndex n (List.range n).reverse k = bitRev n k := by
  unfold subIndex bitRev
  congr 1
  apply List.ext_getElem
  · simp
  · intro i h1 h2
    simp only [List.length_map, List.length_reverse, List.length_range] at h1
    simp only [List.getElem_map, List.getElem_reverse, List.getElem_range, List.length_range, qbit]
    congr 1
    omega

/-- Running has one result. -/
theorem outputs_unique {h : Heap} {live : List Nat} {feed : List (List Nat × List ℂ)} {v w : List ℂ}
    (hv : Outputs h live feed v) (hw : Outputs h live feed w) : v = w := by
  obtain ⟨e, he⟩ : ∃ e, EnvOK h live e := ⟨⟨fun _ => 0, id, fun x => ⟨List.range (2 ^ width h live),
    (faCounters (width h live) ((groups h live x).getD 0 []) ((groups h live x).getD 1 [])), fun _ => 0, 0, 0⟩,
    List.replicate (2 ^ width h live) 0⟩, ⟨fun _ => .refl _, fun _ => .refl _, fun _ => .refl _, by simp⟩⟩
  obtain ⟨_, _, h1⟩ := hv e he
  obtain ⟨_, _, h2⟩ := hw e he
  rw [h1] at h2
  simp only [Except.ok.injEq, Prod.mk.injEq] at h2
  exact h2.1

/-- QFFT of new registers, fed with one vector. -/
theorem qfft_registers (rev : Bool) (f : Nat) {ns : List Nat} (hne : ns ≠ []) (hpos : ∀ n ∈ ns, 0 < n) {v : List ℂ}
    (hv : v.length = 2 ^ ns.sum) :
    ∃ outs s', qfft f rev (List.range ns.length) ⟨registers ns, [], 0, fun _ => 0⟩ = (.ok outs, s') ∧
      outs.map s'.heap.n = ns ∧ (outs.map (wires s'.heap outs)).flatten = List.range ns.sum ∧
      Outputs s'.heap outs [(List.range ns.length, v)] ((List.range (2 ^ ns.sum)).map fun k =>
        dft ns.sum v (if rev then k else bitRev ns.sum k)) := by
  have a := allRegs_registers ns hpos
  obtain ⟨cs', outs, s', r1, w1, w2, w3, hcur', h⟩ := C48_controlled (s := ⟨registers ns, [], 0, fun _ => 0⟩) (f := f) rev
    (cs := []) (qs := List.range ns.length) (rest := []) (a.current hpos) rfl rfl rfl (by simp) (by simp)
    (by simpa using hne)
  have hcs : cs' = [] := by simpa using congrArg List.length w1
  subst hcs
  simp only [List.nil_append, List.append_nil] at r1 w2 hcur' h
  obtain ⟨hst, ho⟩ := regs_final hpos hv
  obtain ⟨v0, v1, o0, o1, l0, l1, hr⟩ := h _ hst
  refine ⟨outs, s', r1, ?_, by rw [w2]; exact a.wires_all, ?_⟩
  · obtain ⟨env', c'⟩ := hcur'
    rw [c'.live.sizes fun x hx => hx, w2, ← (a.current hpos).live.sizes fun x hx => hx]
    have := a.map_n ns.length le_rfl
    rwa [List.take_length] at this
  · have hv0 : v0 = v := outputs_unique o0 ho
    subst hv0
    have hv1 : v1 = (List.range (2 ^ ns.sum)).map fun k => dft ns.sum v0 (if rev then k else bitRev ns.sum k) := by
      simp only [a.width] at hr l1
      apply List.ext_getElem?
      intro k
      by_cases hk : k < 2 ^ ns.sum
      · rw [hr k hk, List.getElem?_map, List.getElem?_range hk]
        simp only [List.map_nil, List.flatten_nil, List.not_mem_nil, false_implies, implies_true, if_true, Option.map_some]
        unfold qfftSpec
        rw [a.wires_all, dftAt_range]
        congr 2
        cases rev
        · exact subIndex_reverse
        · exact subIndex_range hk
      · rw [List.getElem?_eq_none (by omega), List.getElem?_eq_none (by simp; omega)]
    rw [← hv1]
    exact o1

/-- **C48**: for every division of the qubits into registers and every input vector `v`, `QFFT(*registers)` returns
registers of the same sizes, and running gives `out[k] = 1/√N ∑_j exp(2πi jk/N) v[j]`. -/
theorem C48_dft (f : Nat) {ns : List Nat} (hne : ns ≠ []) (hpos : ∀ n ∈ ns, 0 < n) {v : List ℂ}
    (hv : v.length = 2 ^ ns.sum) :
    ∃ outs s', qfft f true (List.range ns.length) ⟨registers ns, [], 0, fun _ => 0⟩ = (.ok outs, s') ∧
      outs.map s'.heap.n = ns ∧ (outs.map (wires s'.heap outs)).flatten = List.range ns.sum ∧
      Outputs s'.heap outs [(List.range ns.length, v)] ((List.range (2 ^ ns.sum)).map (dft ns.sum v)) := by
  simpa using qfft_registers true f hne hpos hv

/-- **C49**: with `rev=False` the output index is bit-reversed. -/
theorem C49_bit_reversed (f : Nat) {ns : List Nat} (hne : ns ≠ []) (hpos : ∀ n ∈ ns, 0 < n) {v : List ℂ}
    (hv : v.length = 2 ^ ns.sum) :
    ∃ outs s', qfft f false (List.range ns.length) ⟨registers ns, [], 0, fun _ => 0⟩ = (.ok outs, s') ∧
      outs.map s'.heap.n = ns ∧ (outs.map (wires s'.heap outs)).flatten = List.range ns.sum ∧
      Outputs s'.heap outs [(List.range ns.length, v)]
        ((List.range (2 ^ ns.sum)).map fun k => dft ns.sum v (bitRev ns.sum k)) := by
  simpa using qfft_registers false f hne hpos hv

/-- Registers of 3, 1 and 2 qubits. -/
example (v : List ℂ) (hv : v.length = 64) : ∃ outs s',
    qfft 0 true [0, 1, 2] ⟨registers [3, 1, 2], [], 0, fun _ => 0⟩ = (.ok outs, s') ∧ outs.map s'.heap.n = [3, 1, 2] ∧
      Outputs s'.heap outs [([0, 1, 2], v)] ((List.range 64).map (dft 6 v)) := by
  obtain ⟨outs, s', h1, h2, -, h3⟩ := C48_dft 0 (ns := [3, 1, 2]) (by simp) (by simp) (v := v) (by simpa using hv)
  exact ⟨outs, s', h1, h2, h3⟩

example : bitRev 3 1 = 4 ∧ bitRev 3 6 = 3 ∧ bitRev 3 5 = 5 := by decide

/-- A controlled QFFT in a circuit with another qubit. -/
example : ∃ cs' outs s', (nestC 5 [2].length >>= fun g => qfft g true ([2] ++ [0])) threeQubits = (.ok (cs' ++ outs), s') ∧
    outs.map (wires s'.heap (cs' ++ outs ++ [1])) = [[0]] := by
  have hw := threeQubits_wires
  simp only [List.map_cons, List.map_nil, List.cons.injEq, and_true] at hw
  obtain ⟨cs', outs, s', h1, -, h2, -⟩ := C48_controlled (s := threeQubits) (f := 5) true (cs := [2]) (qs := [0]) (rest := [1])
    threeQubits_current rfl rfl rfl (by decide) (by
      intro c hc
      simp only [List.mem_singleton] at hc
      subst hc
      exact (allRegs_registers [1, 1, 1] (by simp)).n 2 (by simp)) (by simp)
  refine ⟨cs', outs, s', h1, ?_⟩
  rw [h2]
  simp [hw]

end QIP.Props
