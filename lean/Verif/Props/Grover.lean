import Verif.Lemmas.GroverRun
import Verif.Props.Continue
import Verif.Props.Examples
import Verif.Props.Qfft

/-!
# The search of `examples/grovers_iterative.py`: C80
-/

namespace QIP.Props

open QIP Spec Heap Finset

/-! ## Reading the search register -/

theorem inOrder_range (n : Nat) : inOrder (n + 1) (List.range n) = List.range n := by
  unfold inOrder
  rw [List.range_succ, List.filter_append, List.filter_eq_self.2 (by simp)]
  simp

/-- The probability of `y` in the first `n` of `n + 1` qubits. -/
theorem prob_first {n y : Nat} (v : Nat → ℂ) (hy : y < 2 ^ n) :
    outcomeProb (n + 1) (List.range n) v y = Complex.normSq (v (2 * y)) + Complex.normSq (v (2 * y + 1)) := by
  have hf : (range (2 ^ (n + 1))).filter (fun c => subIndex (n + 1) (inOrder (n + 1) (List.range n)) c = y)
      = {2 * y, 2 * y + 1} := by
    ext c
    rw [Finset.mem_filter, Finset.mem_range, Finset.mem_insert, Finset.mem_singleton, inOrder_range]
    constructor
    · rintro ⟨hc, h⟩
      rw [subIndex_high hc, pow_one] at h
      omega
    · intro h
      have hc : c < 2 ^ (n + 1) := by rw [pow_succ]; omega
      rw [subIndex_high hc, pow_one]
      omega
  unfold outcomeProb
  rw [hf, Finset.sum_pair (by omega)]

theorem prob_psi {n y : Nat} {g : Nat → ℂ} {v : Nat → ℂ}
    (hv : ∀ r < 2 ^ (n + 1), v r = psi g (fun b => if b then -1 / (√2 : ℝ) else 1 / (√2 : ℝ)) r) (hy : y < 2 ^ n) :
    outcomeProb (n + 1) (List.range n) v y = Complex.normSq (g y) := by
  rw [prob_first v hy, hv _ (by rw [pow_succ]; omega), hv _ (by rw [pow_succ]; omega)]
  unfold psi
  simp only [show 2 * y / 2 = y by omega, show (2 * y + 1) / 2 = y by omega, show 2 * y % 2 = 0 by omega,
    show (2 * y + 1) % 2 = 1 by omega]
  simp only [zero_ne_one, decide_false, decide_true, if_true, Bool.false_eq_true, if_false, Complex.normSq_mul,
    Complex.normSq_div, Complex.normSq_neg, Complex.normSq_one, Complex.normSq_ofReal]
  rw [Real.mul_self_sqrt (by norm_num)]
  ring

theorem testBit_bitRev {n b i : Nat} (hi : i < n) : (bitRev n b).testBit i = b.testBit (n - 1 - i) := by
  rw [← subIndex_reverse]
  have := testBit_subIndex n (List.range n).reverse b (n - 1 - i) (by simp; omega)
  simp only [List.length_reverse, List.length_range, List.getElem_reverse, List.getElem_range] at this
  rw [show n - 1 - (n - 1 - i) = i by omega] at this
  rw [this]
  rfl

theorem bitRev_lt (n b : Nat) : bitRev n b < 2 ^ n := by
  rw [← subIndex_reverse]
  simpa using subIndex_lt n (List.range n).reverse b

theorem bitRev_bitRev {n b : Nat} (hb : b < 2 ^ n) : bitRev n (bitRev n b) = b := by
  apply Nat.eq_of_testBit_eq
  intro i
  by_cases hi : i < n
  · rw [testBit_bitRev hi, testBit_bitRev (by omega)]
    congr 1
    omega
  · rw [Nat.testBit_lt_two_pow ((bitRev_lt n _).trans_le (Nat.pow_le_pow_right (by norm_num) (by omega))),
      Nat.testBit_lt_two_pow (hb.trans_le (Nat.pow_le_pow_right (by norm_num) (by omega)))]

/-- The entry `b` of the reported probabilities of the first `n` qubits. -/
theorem report_first {n b : Nat} (v : Nat → ℂ) :
    (∑ i ∈ (range (2 ^ (n + 1))).filter (fun i => ∀ j (hj : j < (List.range n).length), qbit (n + 1) i (List.range n)[j] = b.testBit j),
      Complex.normSq (v i)) = outcomeProb (n + 1) (List.range n) v (bitRev n b) := by
  unfold outcomeProb
  congr 1
  apply Finset.filter_congr
  intro i _
  rw [inOrder_range]
  unfold subIndex bitRev
  constructor
  · intro h
    congr 1
    apply List.ext_getElem
    · simp
    · intro j h1 h2
      simp only [List.length_map, List.length_range] at h1
      have := h j (by simpa using h1)
      rw [List.getElem_range] at this
      simpa using this
  · intro h j hj
    have := bitsVal_inj (by simp) h
    simp only [List.length_range] at hj
    have := congrArg (fun l => l[j]?) this
    simp only [List.getElem?_map, List.getElem?_range hj, Option.map_some, Option.some.injEq] at this
    simpa using this

/-! ## Results of the last nodes -/

theorem steps_append {n : Nat} {h : Heap} {args L1 L2 : List Nat} {v v'' : Nat → ℂ} {cs : List (Nat × Classic)}
    (hs : Steps n h args (L1 ++ L2) v v'' cs) :
    ∃ v' cs1 cs2, cs = cs1 ++ cs2 ∧ Steps n h args L1 v v' cs1 ∧ Steps n h args L2 v' v'' cs2 := by
  induction L1 generalizing v cs with
  | nil => exact ⟨v, [], cs, rfl, .nil fun _ _ => rfl, hs⟩
  | cons x L1 ih =>
    cases hs with
    | cons h1 h2 =>
      obtain ⟨v', c1, c2, rfl, s1, s2⟩ := ih h2
      exact ⟨v', _, c2, rfl, .cons h1 s1, s2⟩

/-- What the example reports about the search register. -/
theorem grover_report {n x : Nat} {S : WState} {ds da : Nat} (ok : GroverOK n x S ds da) {v : Nat → ℂ} {out : List ℂ}
    {cl : List (Nat × Classic)}
    (hs : Steps (width S.heap [ds, da]) S.heap [ds, da] (needed S.heap [ds, da]) v (fun r => out.getD r 0) cl) :
    ∃ ps, (ds, Classic.probs ps) ∈ cl ∧ ps.length = 2 ^ n ∧ ∀ b < 2 ^ n,
      ps[b]? = some (outcomeProb (n + 1) (List.range n) (fun r => out.getD r 0) (bitRev n b)) := by
  obtain ⟨L, hneed⟩ : ∃ L, needed S.heap [ds, da] = L ++ [ds, da] := by
    unfold needed
    rw [ok.last.2, List.range_succ, List.range_succ, List.filter_append, List.filter_append, List.append_assoc]
    refine ⟨_, congrArg _ ?_⟩
    rw [← List.filter_append, show [ds] ++ [ds + 1] = [ds, da] by rw [ok.last.1]; rfl]
    exact List.filter_eq_self.2 fun y hy => by simpa using Reach.arg hy
  rw [hneed, ok.width] at hs
  obtain ⟨v1, c1, c2, rfl, -, s2⟩ := steps_append hs
  cases s2 with
  | cons p1 s3 =>
    cases s3 with
    | cons p2 s4 =>
      cases s4 with
      | nil p3 =>
        unfold StepSpec at p1 p2
        simp only [ok.kinds.1, ok.kinds.2, ok.groups, if_true, List.length_range] at p1 p2
        obtain ⟨q1, ps, rfl, hlen, hps⟩ := p1
        refine ⟨ps, by simp, hlen, ?_⟩
        intro b hb
        rw [hps b hb, ← report_first]
        congr 1
        have e : ∀ i ∈ range (2 ^ (n + 1)), Complex.normSq (v1 i) = Complex.normSq (out.getD i 0) := by
          intro i hi
          have hi := mem_range.1 hi
          have h3 := p3 i hi
          simp only at h3
          rw [h3, p2.1 i hi, q1 i hi]
        have := Finset.sum_congr (s₁ := (range (2 ^ (n + 1))).filter (fun i => ∀ j (hj : j < (List.range n).length),
            qbit (n + 1) i (List.range n)[j] = b.testBit j)) rfl fun i hi => e i (mem_filter.1 hi).1
        rw [← this]
        congr 1
        apply Finset.filter_congr
        intro i _
        simp

/-! ## C80 -/

/-- The probability of reading `y` after `k` passes of Grover's search for `x` among `N`. -/
noncomputable def groverProb (N x k y : Nat) : ℝ :=
  if y = x then Real.sin ((2 * k + 1) * Real.arcsin (1 / √N)) ^ 2
  else Real.cos ((2 * k + 1) * Real.arcsin (1 / √N)) ^ 2 / (N - 1)

theorem angle {n : Nat} : Real.sin (Real.arcsin (1 / √(2 ^ n))) = 1 / √(2 ^ n) ∧
    Real.cos (Real.arcsin (1 / √(2 ^ n))) = √(2 ^ n - 1) / √(2 ^ n) := by
  have h1 : (1 : ℝ) ≤ 2 ^ n := one_le_pow₀ (by norm_num)
  have h2 : 1 ≤ √((2 : ℝ) ^ n) := Real.one_le_sqrt.2 h1
  have h3 : 0 ≤ 1 / √((2 : ℝ) ^ n) := by positivity
  have h4 : 1 / √((2 : ℝ) ^ n) ≤ 1 := by rw [div_le_one (by positivity)]; exact h2
  refine ⟨Real.sin_arcsin (by linarith) h4, ?_⟩
  rw [Real.cos_arcsin, ← Real.sqrt_div (by linarith)]
  congr 1
  rw [div_pow, Real.sq_sqrt (by linarith)]
  field_simp

theorem groverAmp_prob {n x k y : Nat} (hn : 0 < n) :
    Complex.normSq ((groverAmp (2 ^ n) x (Real.arcsin (1 / √(2 ^ n))) k y : ℝ) : ℂ) = groverProb (2 ^ n) x k y := by
  have h2 : (2 : ℝ) ≤ 2 ^ n := by
    calc (2 : ℝ) = 2 ^ 1 := by norm_num
      _ ≤ 2 ^ n := pow_le_pow_right₀ (by norm_num) hn
  have hk : ((-1 : ℝ) ^ k) * (-1) ^ k = 1 := by rw [← mul_pow]; norm_num
  rw [Complex.normSq_ofReal]
  unfold groverAmp groverProb
  push_cast
  split
  · rw [mul_mul_mul_comm, hk, one_mul, sq]
  · rw [mul_mul_mul_comm, hk, one_mul, div_mul_div_comm, Real.mul_self_sqrt (by linarith), sq]

theorem groverAmp_start {n x r : Nat} (hn : 0 < n) :
    ((groverAmp (2 ^ n) x (Real.arcsin (1 / √(2 ^ n))) 0 r : ℝ) : ℂ) = 1 / (√(2 ^ n) : ℝ) := by
  have h2 : (2 : ℝ) ≤ 2 ^ n := by
    calc (2 : ℝ) = 2 ^ 1 := by norm_num
      _ ≤ 2 ^ n := pow_le_pow_right₀ (by norm_num) hn
  have ht : √((2 : ℝ) ^ n - 1) ≠ 0 := (Real.sqrt_pos.2 (by linarith)).ne'
  rw [← Complex.ofReal_one, ← Complex.ofReal_div]
  congr 1
  unfold groverAmp
  push_cast
  simp only [pow_zero, mul_zero, zero_add, one_mul, angle.1, angle.2]
  split
  · rfl
  · rw [div_right_comm, div_self ht]

theorem anc_flip (b : Bool) : (fun b : Bool => if b then -1 / ((√2 : ℝ) : ℂ) else 1 / ((√2 : ℝ) : ℂ)) (!b)
    = -(fun b : Bool => if b then -1 / ((√2 : ℝ) : ℂ) else 1 / ((√2 : ℝ) : ℂ)) b := by
  cases b <;> simp [neg_div]

/-- The state after the first run and `k` more. -/
theorem grover_runs {n x : Nat} (hn : 0 < n) (hx : x < 2 ^ n) {S : WState} {ds da : Nat} (ok : GroverOK n x S ds da)
    {e : Nat → Env} (he : ∀ i, EnvOK S.heap [ds, da] (e i)) :
    ∃ out cl ms, run S.heap (fun _ => none) [ds, da] [] false none (e 0).pick (e 0).shuffle (e 0).orc (e 0).arena
        = .ok (out, cl, ms) ∧ out.length = 2 ^ (n + 1) ∧
      (∃ v, Steps (width S.heap [ds, da]) S.heap [ds, da] (needed S.heap [ds, da]) v (fun r => out.getD r 0) cl) ∧
      ∀ k, ∃ out' ms', runAgain S.heap [ds, da] (fun i => e (i + 1)) k (out, ms) = .ok (out', ms') ∧
        CacheOK S.heap [ds, da] ms' ∧ out'.length = 2 ^ (n + 1) ∧
        ∀ r < 2 ^ (n + 1), out'.getD r 0 = psi (fun i => (groverAmp (2 ^ n) x (Real.arcsin (1 / √(2 ^ n))) (k + 1) i : ℝ))
          (fun b => if b then -1 / (√2 : ℝ) else 1 / (√2 : ℝ)) r := by
  obtain ⟨env, l⟩ := ok.live
  obtain ⟨out, cl, ms, h1, h2, h3⟩ := C35_run_computes_partial l.circuit l.ok l.nomeasure ok.start.1 ok.start.2 (he 0)
  obtain ⟨-, v, -, hst⟩ := C35_run_sound l.circuit l.ok ok.start.1 ok.start.2 (he 0) h1
  have hc : CacheOK S.heap [ds, da] ms :=
    history_cache l.circuit (.run .fresh ⟨l.circuit, fun _ _ _ _ _ _ => rfl⟩ (he 0).shuffle h1)
  have hpass : ∀ k w, (∀ r < 2 ^ (n + 1), w r = psi (fun i => (groverAmp (2 ^ n) x (Real.arcsin (1 / √(2 ^ n))) k i : ℝ))
      (fun b => if b then -1 / ((√2 : ℝ) : ℂ) else 1 / ((√2 : ℝ) : ℂ)) r) → ∀ r < 2 ^ (n + 1), groverPass n x w r
      = psi (fun i => (groverAmp (2 ^ n) x (Real.arcsin (1 / √(2 ^ n))) (k + 1) i : ℝ))
        (fun b => if b then -1 / ((√2 : ℝ) : ℂ) else 1 / ((√2 : ℝ) : ℂ)) r := by
    intro k w hw r hr
    rw [groverPass_psi hn anc_flip hw hr]
    exact psi_congr _ (fun c hc => amplify_groverAmp hn hx angle.1 angle.2 k (fun _ _ => rfl) hc) hr
  have hfirst : ∀ r < 2 ^ (n + 1), out.getD r 0 = psi (fun i => (groverAmp (2 ^ n) x (Real.arcsin (1 / √(2 ^ n))) 1 i : ℝ))
      (fun b => if b then -1 / ((√2 : ℝ) : ℂ) else 1 / ((√2 : ℝ) : ℂ)) r := by
    intro r hr
    rw [ok.width, ok.pass] at h3
    rw [List.getD_eq_getElem?_getD, h3 r hr, Option.getD_some]
    refine hpass 0 _ ?_ r hr
    intro r hr
    rw [ok.amp r hr]
    exact psi_congr _ (fun c _ => (groverAmp_start hn).symm) hr
  rw [ok.width] at h2
  refine ⟨out, cl, ms, h1, h2, ⟨v, hst⟩, ?_⟩
  intro k
  obtain ⟨out', ms', r1, r2, r3, r4⟩ := C81_loop_partial l.circuit l.ok l.nomeasure hc (by rw [ok.width, h2])
    (fun i => he (i + 1)) k
  rw [ok.width] at r2 r4
  refine ⟨out', ms', r1, r3, r2, ?_⟩
  have hiter : ∀ k, ∀ r < 2 ^ (n + 1), (applyAll (n + 1) S.heap [ds, da] (needed S.heap [ds, da]))^[k] (fun c => out.getD c 0) r
      = psi (fun i => (groverAmp (2 ^ n) x (Real.arcsin (1 / √(2 ^ n))) (k + 1) i : ℝ))
        (fun b => if b then -1 / ((√2 : ℝ) : ℂ) else 1 / ((√2 : ℝ) : ℂ)) r := by
    intro k
    induction k with
    | zero => exact hfirst
    | succ k ih =>
      intro r hr
      rw [Function.iterate_succ_apply', ok.pass]
      exact hpass (k + 1) _ ih r hr
  intro r hr
  rw [List.getD_eq_getElem?_getD, r4 r hr, Option.getD_some]
  exact hiter k r hr

/-- **C80**, the search: the program of the example makes its objects without error for every `n` and every `x`, the first
run succeeds, and after `k` further runs, each continuing from the (list of the) state of the previous one, reading the
search register gives `x` with probability `sin²((2k+3)θ)`, `sin θ = 1/√2ⁿ`, and every other value with probability
`cos²((2k+3)θ)/(2ⁿ-1)`.  Partial: at most 30 qubits (as `C17`), and the states passed on are lists: with arrays, as in the
example, the loop fails (`C80_loop_false`). -/
theorem C80_search_partial {n x : Nat} (hn : 0 < n) (hn30 : n + 1 ≤ 30) (hx : x < 2 ^ n) :
    ∃ ds da S, grover n x (started Heap.empty) = (.ok (ds, da), S) ∧
      ∀ e : Nat → Env, (∀ i, EnvOK S.heap [ds, da] (e i)) →
        ∃ out cl ms, run S.heap (fun _ => none) [ds, da] [] false none (e 0).pick (e 0).shuffle (e 0).orc (e 0).arena
            = .ok (out, cl, ms) ∧
          ∀ k, ∃ out' ms', runAgain S.heap [ds, da] (fun i => e (i + 1)) k (out, ms) = .ok (out', ms') ∧
            out'.length = 2 ^ (n + 1) ∧
            ∀ y < 2 ^ n, outcomeProb (n + 1) (List.range n) (fun c => out'.getD c 0) y = groverProb (2 ^ n) x (k + 1) y := by
  obtain ⟨ds, da, S, hS, ok⟩ := grover_objects (x := x) hn hn30
  refine ⟨ds, da, S, hS, fun e he => ?_⟩
  obtain ⟨out, cl, ms, h1, -, -, h3⟩ := grover_runs hn hx ok he
  refine ⟨out, cl, ms, h1, fun k => ?_⟩
  obtain ⟨out', ms', r1, -, r2, r3⟩ := h3 k
  refine ⟨out', ms', r1, r2, ?_⟩
  intro y hy
  rw [prob_psi r3 hy, groverAmp_prob hn]

/-- **C80 is false of the example as written**: the second run, to which the first state is passed, raises ValueError. -/
theorem C80_loop_false {n x : Nat} (hn : 0 < n) (hn30 : n + 1 ≤ 30) :
    ∃ ds da S, grover n x (started Heap.empty) = (.ok (ds, da), S) ∧
      ∀ e e', EnvOK S.heap [ds, da] e → EnvOK S.heap [ds, da] e' →
        ∃ out cl ms, run S.heap (fun _ => none) [ds, da] [] false none e.pick e.shuffle e.orc e.arena = .ok (out, cl, ms) ∧
          run S.heap ms [ds, da] [] false (some (.array out)) e'.pick e'.shuffle e'.orc e'.arena = .error .valueError := by
  obtain ⟨ds, da, S, hS, ok⟩ := grover_objects (x := x) hn hn30
  obtain ⟨env, l⟩ := ok.live
  exact ⟨ds, da, S, hS, fun e e' he he' => C81_array_again_false l.circuit l.ok l.nomeasure
    (fun q hq => ok.start.2 q hq (by simp)) (by rw [ok.width]; omega) he he'.shuffle⟩

/-- **C80**, the report: in every run the entry `b` of `c[sm_ds]` is the probability of reading `b` with its bits
reversed. -/
theorem C80_report {n x : Nat} (hn : 0 < n) (hn30 : n + 1 ≤ 30) (hx : x < 2 ^ n) :
    ∃ ds da S, grover n x (started Heap.empty) = (.ok (ds, da), S) ∧
      ∀ e : Nat → Env, (∀ i, EnvOK S.heap [ds, da] (e i)) →
        ∃ out cl ms ps, run S.heap (fun _ => none) [ds, da] [] false none (e 0).pick (e 0).shuffle (e 0).orc (e 0).arena
            = .ok (out, cl, ms) ∧ (ds, Classic.probs ps) ∈ cl ∧ ps.length = 2 ^ n ∧
          (∀ b < 2 ^ n, ps[b]? = some (groverProb (2 ^ n) x 1 (bitRev n b))) ∧
          ∀ k, ∃ out' ms' out'' cl' ms'' ps', runAgain S.heap [ds, da] (fun i => e (i + 1)) k (out, ms) = .ok (out', ms') ∧
            run S.heap ms' [ds, da] [] false (some (.list out')) (e (k + 1)).pick (e (k + 1)).shuffle (e (k + 1)).orc
              (e (k + 1)).arena = .ok (out'', cl', ms'') ∧ (ds, Classic.probs ps') ∈ cl' ∧ ps'.length = 2 ^ n ∧
            ∀ b < 2 ^ n, ps'[b]? = some (groverProb (2 ^ n) x (k + 2) (bitRev n b)) := by
  obtain ⟨ds, da, S, hS, ok⟩ := grover_objects (x := x) hn hn30
  refine ⟨ds, da, S, hS, fun e he => ?_⟩
  obtain ⟨out, cl, ms, h1, -, ⟨v, hst⟩, h3⟩ := grover_runs hn hx ok he
  obtain ⟨ps, p1, p2, p3⟩ := grover_report ok hst
  refine ⟨out, cl, ms, ps, h1, p1, p2, ?_, ?_⟩
  · intro b hb
    obtain ⟨out0, ms0, r1, -, -, r3⟩ := h3 0
    cases r1
    rw [p3 b hb, prob_psi r3 (bitRev_lt n b), groverAmp_prob hn]
  · intro k
    obtain ⟨out', ms', r1, rc, rl, -⟩ := h3 k
    obtain ⟨out2, ms2, q1, -, -, q3⟩ := h3 (k + 1)
    obtain ⟨env, l⟩ := ok.live
    obtain ⟨out'', cl', ms'', u1, -, -, -, u5⟩ := C81_list_partial l.circuit l.ok l.nomeasure rc (feed := []) (by simp)
      (by rw [ok.width, rl]) (he (k + 1))
    obtain ⟨ps', t1, t2, t3⟩ := grover_report ok u5
    refine ⟨out', ms', out'', cl', ms'', ps', r1, u1, t1, t2, ?_⟩
    have : out'' = out2 := by
      unfold runAgain at q1
      rw [r1] at q1
      simp only [bind, Except.bind] at q1
      rw [u1] at q1
      simp only [Except.ok.injEq, Prod.mk.injEq] at q1
      exact q1.1
    subst this
    intro b hb
    rw [t3 b hb, prob_psi q3 (bitRev_lt n b), groverAmp_prob hn]

theorem triple_angle {n : Nat} (hn : 2 ≤ n) (x y : Nat) (hy : y ≠ x) : groverProb (2 ^ n) x 1 y < groverProb (2 ^ n) x 1 x := by
  unfold groverProb
  rw [if_neg hy, if_pos rfl]
  have h4 : (4 : ℝ) ≤ 2 ^ n := by
    calc (4 : ℝ) = 2 ^ 2 := by norm_num
      _ ≤ 2 ^ n := pow_le_pow_right₀ (by norm_num) hn
  push_cast
  rw [show (2 * 1 + 1 : ℝ) = 3 by norm_num, Real.sin_three_mul, Real.cos_three_mul, angle.1, angle.2]
  have hq : √((2 : ℝ) ^ n) ^ 2 = 2 ^ n := Real.sq_sqrt (by linarith)
  have ht : √((2 : ℝ) ^ n - 1) ^ 2 = 2 ^ n - 1 := Real.sq_sqrt (by linarith)
  have hq0 : 0 < √((2 : ℝ) ^ n) := Real.sqrt_pos.2 (by linarith)
  set q := √((2 : ℝ) ^ n)
  set t := √((2 : ℝ) ^ n - 1)
  set N : ℝ := 2 ^ n
  have e1 : (3 * (1 / q) - 4 * (1 / q) ^ 3) ^ 2 = (3 * N - 4) ^ 2 / N ^ 3 := by
    rw [← hq]; field_simp
  have e2 : (4 * (t / q) ^ 3 - 3 * (t / q)) ^ 2 / (N - 1) = (N - 4) ^ 2 / N ^ 3 := by
    have : (4 * (t / q) ^ 3 - 3 * (t / q)) ^ 2 = t ^ 2 * (4 * t ^ 2 - 3 * q ^ 2) ^ 2 / (q ^ 2) ^ 3 := by field_simp
    rw [this, ht, hq]
    have : N - 1 ≠ 0 := by linarith
    field_simp
    ring
  rw [e1, e2]
  apply div_lt_div_of_pos_right _ (by positivity)
  nlinarith

/-- **C80 is false of the report**: after the first run the largest entry of `c[sm_ds]` is at `x` with its bits reversed,
so that is what `numpy.argmax` gives. -/
theorem C80_argmax_false {n x : Nat} (hn : 2 ≤ n) (hn30 : n + 1 ≤ 30) (hx : x < 2 ^ n) :
    ∃ ds da S, grover n x (started Heap.empty) = (.ok (ds, da), S) ∧
      ∀ e, EnvOK S.heap [ds, da] e → ∃ out cl ms ps,
        run S.heap (fun _ => none) [ds, da] [] false none e.pick e.shuffle e.orc e.arena = .ok (out, cl, ms) ∧
          (ds, Classic.probs ps) ∈ cl ∧ ps.length = 2 ^ n ∧
          ∀ b < 2 ^ n, b ≠ bitRev n x → ps.getD b 0 < ps.getD (bitRev n x) 0 := by
  obtain ⟨ds, da, S, hS, h⟩ := C80_report (x := x) (by omega : 0 < n) hn30 hx
  refine ⟨ds, da, S, hS, fun e he => ?_⟩
  obtain ⟨out, cl, ms, ps, h1, h2, h3, h4, -⟩ := h (fun _ => e) fun _ => he
  refine ⟨out, cl, ms, ps, h1, h2, h3, ?_⟩
  intro b hb hne
  rw [List.getD_eq_getElem?_getD, List.getD_eq_getElem?_getD, h4 b hb, h4 _ (bitRev_lt n x), bitRev_bitRev hx]
  simp only [Option.getD_some]
  apply triple_angle hn
  intro heq
  apply hne
  rw [← heq, bitRev_bitRev hb]

/-- The numbers of the example, `n = 10` and `x = 42`: the largest entry is at 336. -/
example : ∃ ds da S, grover 10 42 (started Heap.empty) = (.ok (ds, da), S) ∧
    ∃ e, EnvOK S.heap [ds, da] e ∧ ∃ out cl ms ps,
      run S.heap (fun _ => none) [ds, da] [] false none e.pick e.shuffle e.orc e.arena = .ok (out, cl, ms) ∧
        (ds, Classic.probs ps) ∈ cl ∧ ps.getD 42 0 < ps.getD 336 0 := by
  obtain ⟨ds, da, S, hS, h⟩ := C80_argmax_false (n := 10) (x := 42) (by norm_num) (by norm_num) (by norm_num)
  obtain ⟨e, he⟩ := env_exists S.heap [ds, da]
  obtain ⟨out, cl, ms, ps, h1, h2, -, h4⟩ := h e he
  have hb : bitRev 10 42 = 336 := by decide
  rw [hb] at h4
  exact ⟨ds, da, S, hS, e, he, out, cl, ms, ps, h1, h2, h4 42 (by norm_num) (by norm_num)⟩

/-- With two qubits one pass finds `x` for certain. -/
example (x : Nat) (hx : x < 4) : ∃ ds da S, grover 2 x (started Heap.empty) = (.ok (ds, da), S) ∧
    ∃ e, EnvOK S.heap [ds, da] e ∧ ∃ out cl ms,
      run S.heap (fun _ => none) [ds, da] [] false none e.pick e.shuffle e.orc e.arena = .ok (out, cl, ms) ∧
        outcomeProb 3 (List.range 2) (fun c => out.getD c 0) x = 1 := by
  obtain ⟨ds, da, S, hS, h⟩ := C80_search_partial (n := 2) (x := x) (by norm_num) (by norm_num) hx
  obtain ⟨e, he⟩ := env_exists S.heap [ds, da]
  obtain ⟨out, cl, ms, h1, h2⟩ := h (fun _ => e) fun _ => he
  obtain ⟨out', ms', r1, -, r3⟩ := h2 0
  cases r1
  refine ⟨ds, da, S, hS, e, he, out, cl, ms, h1, (r3 x hx).trans ?_⟩
  unfold groverProb
  rw [if_pos rfl]
  have h2 : (1 : ℝ) / √4 = 1 / 2 := by
    rw [show (4 : ℝ) = 2 ^ 2 by norm_num, Real.sqrt_sq (by norm_num)]
  have := (angle (n := 2)).1
  rw [show (2 : ℝ) ^ 2 = 4 by norm_num] at this
  push_cast
  rw [show (2 * 1 + 1 : ℝ) = 3 by norm_num, Real.sin_three_mul, this, h2]
  norm_num

end QIP.Props
