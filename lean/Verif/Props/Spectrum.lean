import Verif.Lemmas.ShorRun
import Verif.Props.Grover

/-! # C105: the Fourier transform example (`examples/qfft_example.py`) -/

namespace QIP.Props

open QIP Spec Heap Finset

/-- Reading all qubits in order, the first one as the lowest bit. -/
theorem report_all {n b : Nat} (hb : b < 2 ^ n) (v : Nat → ℂ) {idx : List Nat} (hidx : idx = List.range n) :
    (∑ i ∈ (range (2 ^ n)).filter (fun i => ∀ j (hj : j < idx.length), qbit n i idx[j] = b.testBit j),
      Complex.normSq (v i)) = Complex.normSq (v (bitRev n b)) := by
  subst hidx
  have : (range (2 ^ n)).filter (fun i => ∀ j (hj : j < (List.range n).length), qbit n i (List.range n)[j] = b.testBit j)
      = {bitRev n b} := by
    ext i
    rw [Finset.mem_filter, Finset.mem_range, Finset.mem_singleton]
    constructor
    · rintro ⟨hi, h⟩
      apply Nat.eq_of_testBit_eq
      intro j
      by_cases hj : j < n
      · rw [testBit_bitRev hj]
        have := h (n - 1 - j) (by simp; omega)
        rw [List.getElem_range] at this
        rw [← this]
        unfold qbit
        congr 1
        omega
      · rw [Nat.testBit_lt_two_pow (hi.trans_le (Nat.pow_le_pow_right (by norm_num) (by omega))),
          Nat.testBit_lt_two_pow ((bitRev_lt n _).trans_le (Nat.pow_le_pow_right (by norm_num) (by omega)))]
    · rintro rfl
      refine ⟨bitRev_lt n b, ?_⟩
      intro j hj
      have hj : j < n := by simpa using hj
      rw [List.getElem_range]
      unfold qbit
      rw [testBit_bitRev (by omega)]
      congr 1
      omega
  rw [this, Finset.sum_singleton]

/-- **C105**: the program of the example makes its objects without error for every number of qubits; with every vector fed, the run
succeeds, `c[mq]` holds the squared moduli of the vector and `c[mqft]` those of its discrete Fourier transform, each with the bits
of the index reversed.  Partial: not in order, as the plots of the example show them (`C105_order_false`). -/
theorem C105_spectrum_partial {n : Nat} (hn : 0 < n) {v : List ℂ} (hv : v.length = 2 ^ n) :
    ∃ q mq mqft S, spectrum n ⟨Heap.empty, [], 0, fun _ => 0⟩ = (.ok (q, mq, mqft), S) ∧
      ∀ e : Env, EnvOK S.heap [mqft] e → ∃ out cl ms ps qs,
        run S.heap (fun _ => none) [mqft] [([q], .vec v)] false none e.pick e.shuffle e.orc e.arena = .ok (out, cl, ms) ∧
        out = (List.range (2 ^ n)).map (dft n v) ∧
        (mq, Classic.probs ps) ∈ cl ∧ (mqft, Classic.probs qs) ∈ cl ∧ ps.length = 2 ^ n ∧ qs.length = 2 ^ n ∧
        ∀ b < 2 ^ n, ps[b]? = some (Complex.normSq (v.getD (bitRev n b) 0)) ∧
          qs[b]? = some (Complex.normSq (dft n v (bitRev n b))) := by
  -- the register
  have hd : badDefault n none = false := rfl
  have hpos : ∀ m ∈ [n], 0 < m := by simpa using hn
  have x0 := exec_register (h := Heap.empty) hn hd
  have h0 : registers [n] = Heap.empty.push (Heap.empty.newNode .qubit [] (some (n : Int)) none none) (Heap.empty.newNext none) := by
    unfold registers
    simp only [List.foldl_cons, List.foldl_nil]
    rw [x0]
  rw [← h0] at x0
  have a := allRegs_registers [n] hpos
  have cur := a.current hpos
  have hw0 : width (registers [n]) [0] = n := by have := a.width; simpa using this
  have hq0 : wires (registers [n]) [0] 0 = List.range n := by have := a.wires (x := 0) (by simp); simpa using this
  have t0 : Top ⟨registers [n], [], 0, fun _ => 0⟩ [0] := ⟨rfl, rfl, ⟨_, cur.live⟩, cur.unused⟩
  have hlen0 : (registers [n]).nodes.length = 1 := a.len
  -- the circuit
  obtain ⟨s1, mq, k1, kd1, in1, ix1, len1⟩ := t0.smeasure (ins := [0]) (rest := []) (by simp) (by simp)
  simp only [hlen0] at ix1
  subst ix1
  have u1 := k1.wires
  simp only [List.map_cons, List.map_nil, List.append_nil, List.flatten_cons, List.flatten_nil, hq0, List.cons.injEq, and_true] at u1
  have t1 : Top s1 [1] := k1.top
  obtain ⟨s2, o2, k2⟩ := t1.qfft (qs := [1]) (rest := []) (by simp) (f := 0) (by rw [k1.wraps]) true (by simp)
  obtain ⟨p2, rfl⟩ : ∃ p, o2 = [p] := List.length_eq_one_iff.1 (by have := k2.len; simpa using this)
  have e2 : [1].map (wires s1.heap [1]) = [List.range n] := by simp [u1]
  rw [e2] at k2
  have u2 := k2.wires
  simp only [List.map_cons, List.map_nil, List.append_nil, List.cons.injEq, and_true] at u2
  have t2 : Top s2 [p2] := k2.top
  obtain ⟨s3, mqft, k3, kd3, in3, ix3, len3⟩ := t2.smeasure (ins := [p2]) (rest := []) (by simp) (by simp)
  have u3 := k3.wires
  simp only [List.map_cons, List.map_nil, List.append_nil, List.flatten_cons, List.flatten_nil, u2, List.cons.injEq, and_true] at u3
  have ev1 : Evolves (registers [n]) [0] s1.heap [1] _ := k1.ev
  have ev2 : Evolves s1.heap [1] s2.heap [p2] _ := k2.ev
  have ev3 : Evolves s2.heap [p2] s3.heap [mqft] _ := k3.ev
  have hev := (ev1.trans ev2).trans ev3
  have v3 : width s3.heap [mqft] = n := hev.width.trans hw0
  obtain ⟨hst0, -⟩ := regs_final hpos (v := v) (by simpa using hv)
  have hst0 : Startable (registers [n]) [0] [([0], v)] := by simpa using hst0
  have hst := hev.startable hst0
  obtain ⟨env3, l3⟩ := hev.new
  obtain ⟨V3, c3⟩ := l3.circuit.ctx
  obtain ⟨_, l2⟩ := ev3.old
  obtain ⟨V2, c2⟩ := l2.circuit.ctx
  obtain ⟨_, l1⟩ := ev2.old
  obtain ⟨V1, c1⟩ := l1.circuit.ctx
  obtain ⟨_, l0⟩ := ev1.old
  obtain ⟨V0, c0⟩ := l0.circuit.ctx
  -- the start
  have hstart : ∀ r < 2 ^ n, startAmp s3.heap [mqft] [([0], v)] r = v.getD r 0 := by
    intro r hr
    obtain ⟨_, g, -⟩ := hev.grows
    rw [g.startAmp c0 c3 hst0.1]
    unfold startAmp
    have hl : leaves (registers [n]) [0] = [0] := by have := a.leaves; simpa using this
    simp only [hw0, hl, List.map_cons, List.map_nil, List.flatten_cons, List.flatten_nil, List.append_nil, List.prod_cons,
      List.prod_nil, mul_one, hq0, subIndex_range hr]
    simp
  -- the order of the nodes
  have hneed1 : needed s1.heap [1] = [0, 1] := by
    unfold needed
    rw [len1, show List.range (1 + 1) = [0, 1] from rfl]
    refine List.filter_eq_self.2 fun y hy => ?_
    simp only [List.mem_cons, List.not_mem_nil, or_false] at hy
    rcases hy with rfl | rfl
    · simpa using Reach.input (h := s1.heap) (args := [1]) (x := 0) (y := 1) (.arg (by simp)) (by rw [in1]; simp)
    · simpa using Reach.arg (h := s1.heap) (args := [1]) (x := 1) (by simp)
  obtain ⟨new, g13, -⟩ := (ev2.trans ev3).grows
  have hneedA : needed s3.heap [mqft] = [0, 1] ++ new := by rw [g13.needed c1 c3, hneed1]
  obtain ⟨L, hneedB⟩ : ∃ L, needed s3.heap [mqft] = L ++ [mqft] := by
    unfold needed
    rw [len3, List.range_succ, List.filter_append]
    refine ⟨_, congrArg _ ?_⟩
    exact List.filter_eq_self.2 fun y hy => by simpa using Reach.arg hy
  have hk0 : s3.heap.kind 0 = .qubit := by
    obtain ⟨_, g, -⟩ := hev.grows
    rw [g.ext.kind 0 (by omega), a.kind 0 (by simp)]
  have hk1 : s3.heap.kind 1 = .smeasure 0 := by rw [g13.ext.kind 1 (by omega), kd1]
  have hg1 : (groups s3.heap [mqft] 1).flatten = List.range n := by
    have w1 : wires s3.heap [mqft] 1 = List.range n := ((ev2.trans ev3).wires (by simp)).trans u1
    have hin : s3.heap.inputs 1 ≠ [] := by rw [g13.ext.inputs 1 (by omega), in1]; simp
    have hr : Reach s3.heap [mqft] 1 := (g13.reach 1).2 (Or.inl (.arg (by simp)))
    rw [wires_node hin (c3.ilt hr), hk1] at w1
    exact w1
  have hg3 : (groups s3.heap [mqft] mqft).flatten = List.range n := by
    have w1 := u3
    rw [wires_node (by rw [in3]; simp) (c3.ilt (.arg (by simp))), kd3] at w1
    exact w1
  refine ⟨0, 1, mqft, s3, ?_, ?_⟩
  · unfold spectrum
    have y0 : direct (.qubit [] (some (n : Int)) none) ⟨Heap.empty, [], 0, fun _ => 0⟩
        = (.ok [0], ⟨registers [n], [], 0, fun _ => 0⟩) := direct_ok x0
    rw [W.bind_ok (single_ok y0), W.bind_ok (single_ok k1.ret), W.bind_ok (single_ok k2.ret), W.bind_ok (single_ok k3.ret)]
    rfl
  · intro e he
    obtain ⟨out, cl, ms, h1, h2, h3⟩ := C35_run_computes_partial l3.circuit l3.ok l3.nomeasure hst.1 hst.2 he
    obtain ⟨-, w, hw, hsteps⟩ := C35_run_sound l3.circuit l3.ok hst.1 hst.2 he h1
    rw [v3] at h2 h3 hw hsteps
    have hout : out = (List.range (2 ^ n)).map (dft n v) := by
      apply List.ext_getElem?
      intro r
      by_cases hr : r < 2 ^ n
      · rw [h3 r hr, List.getElem?_map, List.getElem?_range hr, Option.map_some]
        congr 1
        rw [hev.state n]
        have ha := a.applyAll n (startAmp s3.heap [mqft] [([0], v)])
        have ha : applyAll n (registers [n]) [0] (needed (registers [n]) [0]) (startAmp s3.heap [mqft] [([0], v)])
          = startAmp s3.heap [mqft] [([0], v)] := by simpa using ha
        rw [ha]
        have hnd : (List.range n).Nodup := List.nodup_range
        have : ([List.range n] : List (List Nat)).flatten = List.range n := by simp
        simp only [this]
        rw [qfft_rev hnd (by simp) _ hr, dftAt_congr hstart, dftAt_range, subIndex_range hr]
      · rw [List.getElem?_eq_none (by omega), List.getElem?_eq_none (by simp; omega)]
    have hA := hsteps
    rw [hneedA] at hA
    have hB := hsteps
    rw [hneedB] at hB
    -- the first report
    obtain ⟨ps, hps, hpl, hpb⟩ : ∃ ps, (1, Classic.probs ps) ∈ cl ∧ ps.length = 2 ^ n ∧
        ∀ b < 2 ^ n, ps[b]? = some (Complex.normSq (v.getD (bitRev n b) 0)) := by
      cases hA with
      | cons q1 q2 =>
        cases q2 with
        | cons q3 q4 =>
          unfold StepSpec at q1 q3
          simp only [hk0, hk1, if_true] at q1 q3
          obtain ⟨-, ps, rfl, hlen, hpb⟩ := q3
          rw [hg1, List.length_range] at hlen
          refine ⟨ps, by simp, hlen, ?_⟩
          intro b hb
          rw [hpb b (by rw [hg1, List.length_range]; exact hb), report_all hb _ hg1, q1.1 _ (bitRev_lt n b)]
          congr 2
          unfold nodeApply
          rw [hk0]
          simp only
          rw [hw _ (bitRev_lt n b), hstart _ (bitRev_lt n b)]
    obtain ⟨qs, hqs, hql, hqb⟩ : ∃ qs, (mqft, Classic.probs qs) ∈ cl ∧ qs.length = 2 ^ n ∧
        ∀ b < 2 ^ n, qs[b]? = some (Complex.normSq (dft n v (bitRev n b))) := by
      obtain ⟨v1, cs1, cs2, rfl, -, s2'⟩ := steps_append hB
      cases s2' with
      | cons q1 q2 =>
        cases q2 with
        | nil q3 =>
          unfold StepSpec at q1
          simp only [kd3, if_true] at q1
          obtain ⟨q1, qs, rfl, hlen, hqb⟩ := q1
          rw [hg3, List.length_range] at hlen
          refine ⟨qs, by simp, hlen, ?_⟩
          intro b hb
          have hlt := bitRev_lt n b
          rw [hqb b (by rw [hg3, List.length_range]; exact hb), report_all hb _ hg3, ← q1 _ hlt, ← q3 _ hlt, hout]
          congr 2
          simp only
          rw [List.getD_eq_getElem _ _ (by simpa using hlt), List.getElem_map, List.getElem_range]
    exact ⟨out, cl, ms, ps, qs, h1, hout, hps, hqs, hpl, hql, fun b hb => ⟨hpb b hb, hqb b hb⟩⟩

/-- The transform of a tone has one peak. -/
theorem dft_tone {n k m : Nat} (hk : k < 2 ^ n) (hm : m < 2 ^ n) : dft n (tone n k) m = if m = k then 1 else 0 := by
  have hN : (2 ^ n : ℂ) ≠ 0 := pow_ne_zero _ two_ne_zero
  have hsq : ((√(2 ^ n) : ℝ) : ℂ) * ((√(2 ^ n) : ℝ) : ℂ) = 2 ^ n := by
    rw [← Complex.ofReal_mul, Real.mul_self_sqrt (by positivity)]; simp
  have hs0 : ((√(2 ^ n) : ℝ) : ℂ) ≠ 0 := by
    intro h; rw [h, mul_zero] at hsq; exact hN hsq.symm
  set x : ℂ := Complex.exp (2 * Real.pi * Complex.I * ((m : ℂ) - k) / 2 ^ n) with hx
  have hterm : ∀ j ∈ range (2 ^ n), Complex.exp (2 * Real.pi * Complex.I * (j * m) / 2 ^ n) * (tone n k).getD j 0
      = x ^ j * (1 / ((√(2 ^ n) : ℝ) : ℂ)) := by
    intro j hj
    have hj := Finset.mem_range.1 hj
    unfold tone
    rw [List.getD_eq_getElem _ _ (by simpa using hj), List.getElem_map, List.getElem_range, hx, ← Complex.exp_nat_mul,
      ← mul_div_assoc, ← Complex.exp_add, mul_one_div]
    congr 2
    ring
  unfold dft
  rw [Finset.sum_congr rfl hterm, ← Finset.sum_mul]
  by_cases h : m = k
  · subst h
    have : x = 1 := by rw [hx]; simp
    rw [if_pos rfl, this]
    simp only [one_pow, Finset.sum_const, Finset.card_range, nsmul_eq_mul, mul_one, one_div, Complex.ofReal_inv]
    push_cast
    rw [← hsq]
    field_simp
  · rw [if_neg h]
    have hxN : x ^ (2 ^ n) = 1 := by
      rw [hx, ← Complex.exp_nat_mul, Complex.exp_eq_one_iff]
      refine ⟨(m : ℤ) - k, ?_⟩
      push_cast
      field_simp
    have hx1 : x ≠ 1 := by
      intro h1
      rw [hx, Complex.exp_eq_one_iff] at h1
      obtain ⟨z, hz⟩ := h1
      have hpi : (2 * Real.pi * Complex.I : ℂ) ≠ 0 := Complex.two_pi_I_ne_zero
      have h2 : ((m : ℂ) - k) = z * 2 ^ n := by
        have : (2 * Real.pi * Complex.I : ℂ) * ((m : ℂ) - k) = (2 * Real.pi * Complex.I : ℂ) * (z * 2 ^ n) := by
          rw [div_eq_iff hN] at hz
          rw [hz]; ring
        exact mul_left_cancel₀ hpi this
      have h3 : (m : ℤ) - k = z * 2 ^ n := by exact_mod_cast h2
      have hm' : (m : ℤ) < 2 ^ n := by exact_mod_cast hm
      have hk' : (k : ℤ) < 2 ^ n := by exact_mod_cast hk
      have hz0 : z = 0 := by
        rcases lt_trichotomy z 0 with hz | hz | hz
        · nlinarith
        · exact hz
        · nlinarith
      rw [hz0] at h3
      omega
    have hsum : ∑ j ∈ range (2 ^ n), x ^ j = 0 := by
      have := mul_neg_geom_sum x (2 ^ n)
      rw [hxN, sub_self] at this
      rcases mul_eq_zero.1 this with h | h
      · exact absurd (sub_eq_zero.1 h).symm hx1
      · exact h
    rw [hsum]
    simp

theorem tone_length (n k : Nat) : (tone n k).length = 2 ^ n := by simp [tone]

/-- **C105**: the reported spectrum of a pure tone has its peak not at the frequency `k` of the tone, but at `k` with its bits
reversed. -/
theorem C105_tone {n k : Nat} (hn : 0 < n) (hk : k < 2 ^ n) :
    ∃ q mq mqft S, spectrum n ⟨Heap.empty, [], 0, fun _ => 0⟩ = (.ok (q, mq, mqft), S) ∧
      ∀ e : Env, EnvOK S.heap [mqft] e → ∃ out cl ms qs,
        run S.heap (fun _ => none) [mqft] [([q], .vec (tone n k))] false none e.pick e.shuffle e.orc e.arena = .ok (out, cl, ms) ∧
        (mqft, Classic.probs qs) ∈ cl ∧ ∀ b < 2 ^ n, qs[b]? = some (if b = bitRev n k then 1 else 0) := by
  obtain ⟨q, mq, mqft, S, hS, h⟩ := C105_spectrum_partial hn (tone_length n k)
  refine ⟨q, mq, mqft, S, hS, fun e he => ?_⟩
  obtain ⟨out, cl, ms, ps, qs, h1, -, -, h4, -, -, h7⟩ := h e he
  refine ⟨out, cl, ms, qs, h1, h4, fun b hb => ?_⟩
  rw [(h7 b hb).2, dft_tone hk (bitRev_lt n b)]
  by_cases hbk : b = bitRev n k
  · rw [if_pos hbk, hbk, bitRev_bitRev hk, if_pos rfl, map_one]
  · rw [if_neg hbk, if_neg, map_zero]
    intro h
    exact hbk (by rw [← h, bitRev_bitRev hb])

theorem bitRev_one {n : Nat} (hn : 2 ≤ n) : bitRev n 1 ≠ 1 := by
  intro h
  have h1 := testBit_bitRev (n := n) (b := 1) (i := 0) (by omega)
  rw [h, Nat.testBit_zero, Nat.testBit_lt_two_pow (i := n - 1 - 0) (x := 1) (Nat.one_lt_two_pow (by omega))] at h1
  simp at h1

/-- **C105** is false of the code: with at least two qubits the tone of frequency 1 is fed, its power is all at frequency 1, and entry
1 of `c[mqft]` is 0. -/
theorem C105_order_false {n : Nat} (hn : 2 ≤ n) :
    ∃ q mq mqft S, spectrum n ⟨Heap.empty, [], 0, fun _ => 0⟩ = (.ok (q, mq, mqft), S) ∧
      Complex.normSq (dft n (tone n 1) 1) = 1 ∧
      ∀ e : Env, EnvOK S.heap [mqft] e → ∃ out cl ms qs,
        run S.heap (fun _ => none) [mqft] [([q], .vec (tone n 1))] false none e.pick e.shuffle e.orc e.arena = .ok (out, cl, ms) ∧
        (mqft, Classic.probs qs) ∈ cl ∧ qs[1]? = some 0 := by
  have h1 : 1 < 2 ^ n := Nat.one_lt_two_pow (by omega)
  obtain ⟨q, mq, mqft, S, hS, h⟩ := C105_tone (n := n) (k := 1) (by omega) h1
  refine ⟨q, mq, mqft, S, hS, by rw [dft_tone h1 h1, if_pos rfl, map_one], fun e he => ?_⟩
  obtain ⟨out, cl, ms, qs, r1, r2, r3⟩ := h e he
  refine ⟨out, cl, ms, qs, r1, r2, ?_⟩
  rw [r3 1 h1, if_neg (bitRev_one hn).symm]

/-- The example as it is written, six qubits, with a tone of frequency 3: the peak is shown at 48. -/
example : ∃ q mq mqft S, spectrum 6 ⟨Heap.empty, [], 0, fun _ => 0⟩ = (.ok (q, mq, mqft), S) ∧ ∃ e : Env, EnvOK S.heap [mqft] e ∧
    ∃ out cl ms qs, run S.heap (fun _ => none) [mqft] [([q], .vec (tone 6 3))] false none e.pick e.shuffle e.orc e.arena
      = .ok (out, cl, ms) ∧ (mqft, Classic.probs qs) ∈ cl ∧ qs[48]? = some 1 ∧ qs[3]? = some 0 := by
  obtain ⟨q, mq, mqft, S, hS, h⟩ := C105_tone (n := 6) (k := 3) (by norm_num) (by norm_num)
  obtain ⟨e, he⟩ : ∃ e, EnvOK S.heap [mqft] e := ⟨⟨fun _ => 0, id, fun x => ⟨List.range (2 ^ width S.heap [mqft]),
    (faCounters (width S.heap [mqft]) ((groups S.heap [mqft] x).getD 0 []) ((groups S.heap [mqft] x).getD 1 [])), fun _ => 0, 0, 0⟩,
    List.replicate (2 ^ width S.heap [mqft]) 0⟩, ⟨fun _ => .refl _, fun _ => .refl _, fun _ => .refl _, by simp⟩⟩
  obtain ⟨out, cl, ms, qs, r1, r2, r3⟩ := h e he
  have h48 : bitRev 6 3 = 48 := by decide
  refine ⟨q, mq, mqft, S, hS, e, he, out, cl, ms, qs, r1, r2, ?_, ?_⟩
  · rw [r3 48 (by norm_num), h48, if_pos rfl]
  · rw [r3 3 (by norm_num), h48, if_neg (by norm_num)]

end QIP.Props
