import Verif.Lemmas.CMeasure
import Verif.Props.Probs
import Verif.Props.Measure

/-!
# C93: the measurement kernels on C ints
-/

namespace QIP.Props

open QIP QIP.Spec QIP.C32

/-- The outcome that Python sees: the value of the C int. -/
def seen {α : Type} (r : Except PyErr (CInt × α)) : Except PyErr (Int × α) := r.map fun x => (x.1.toInt, x.2)

/-- The outcome of the kernels on natural numbers as a Python int. -/
def seenN {α : Type} (r : Except PyErr (Nat × α)) : Except PyErr (Int × α) := r.map fun x => ((x.1 : Int), x.2)

theorem seen_map {α : Type} {r : Except PyErr (Nat × α)} (h : ∀ x, r = .ok x → x.1 < 2 ^ 31) :
    seen (r.map fun x => (I x.1, x.2)) = seenN r := by
  rcases r with e | x
  · rfl
  · unfold seen seenN
    simp only [Except.map]
    rw [toInt_I (h x rfl)]

/-- C93: on at most 30 qubits `measure_probabilities` with its 32-bit ints does what the kernel on unbounded numbers does:
nothing overflows, no memory outside the buffers is touched. -/
theorem C93_probabilities {n : Nat} {indices : List Nat} (h : IdxOK n indices) (h1 : 1 ≤ n) (hn : n ≤ 30) {vec : List ℂ}
    (hv : vec.length = 2 ^ n) : measureProbabilitiesC indices n vec = measureProbabilities indices n vec :=
  Sizes.probabilities ⟨h, h1, hn⟩ (by omega)

/-- C93: so it computes the marginal distribution (C20). -/
theorem C93_marginals {n : Nat} {indices : List Nat} (h : IdxOK n indices) (h1 : 1 ≤ n) (hn : n ≤ 30) (state : List ℂ)
    (hl : state.length = 2 ^ n) :
    ∃ ps, measureProbabilitiesC indices n state = .ok ps ∧ ps.length = 2 ^ indices.length ∧
      (∀ b < 2 ^ indices.length, ps[b]? = some (∑ c ∈ (Finset.range (2 ^ n)).filter (fun c =>
        ∀ j (hj : j < indices.length), qbit n c indices[j] = b.testBit j), Complex.normSq (state.getD c 0))) := by
  obtain ⟨ps, hp, hlen, hb, -⟩ := C20_marginals h.lt state hl
  exact ⟨ps, by rw [C93_probabilities h h1 hn hl, hp], hlen, hb⟩

/-- C93: `measure_top_probabilities`; where the kernel on unbounded numbers writes outside the heap (C21), so does this one. -/
theorem C93_top {n : Nat} {indices : List Nat} (h : IdxOK n indices) (h1 : 1 ≤ n) (hn : n ≤ 30) {topK : Nat}
    (hk : topK < 2 ^ 31) {vec : List ℂ} (hv : vec.length = 2 ^ n) :
    measureTopProbabilitiesC indices n topK vec = measureTopProbabilities indices n topK vec :=
  Sizes.top ⟨h, h1, hn⟩ (by omega) hk

/-- C93: `soft_measure` on any part of the state. -/
theorem C93_soft {n : Nat} {indices : List Nat} (h : IdxOK n indices) (h1 : 1 ≤ n) (hn : n ≤ 30) {vec : List ℂ} {inOff : Nat}
    (hin : vec.length + inOff ≤ 2 ^ n) {measured : Option Nat} (hm : ∀ m ∈ measured, m < 2 ^ indices.length) (u garbage : ℝ) :
    seen (softMeasureC indices n vec measured inOff u garbage) = seenN (softMeasure indices n vec measured inOff u garbage) := by
  have hs : Sizes n indices := ⟨h, h1, hn⟩
  have hle : 2 ^ indices.length ≤ 2 ^ n := Nat.pow_le_pow_right (by norm_num) hs.len
  have h30 := hs.pow_le
  rw [hs.soft hin fun m hm' => by have := hm m hm'; omega]
  apply seen_map
  intro x hx
  have := Sizes.soft_lt hm hx
  omega

/-- C93: the one number that does overflow: the value of the unused variable `iter_num`, for every state of six or more qubits. -/
theorem C93_iter_num {n : Nat} {vec : List ℂ} (hv : vec.length = 2 ^ n) : iterNumC vec = .error .ub ↔ 6 ≤ n := by
  unfold iterNumC
  rw [hv]
  constructor
  · intro h
    by_contra hn
    have : 2 ^ n ≤ 2 ^ 5 := Nat.pow_le_pow_right (by norm_num) (by omega)
    rw [if_pos (by omega)] at h
    cases h
  · intro hn
    have : 2 ^ 6 ≤ 2 ^ n := Nat.pow_le_pow_right (by norm_num) hn
    rw [if_neg (by omega)]

/-- The hypothesis of `C93_iter_num` holds: six qubits, all zero. -/
example : iterNumC (1 :: List.replicate 63 0) = .error .ub := (C93_iter_num (n := 6) (by simp)).2 (by norm_num)

/-- C93: `measure`, from any part of the state to any part of the output, with any arguments: same outcome, probability and
output, same exceptions. -/
theorem C93_measure {n : Nat} {indices : List Nat} (h : IdxOK n indices) (h1 : 1 ≤ n) (hn : n ≤ 30) {vec out : List ℂ}
    {inOff outOff : Nat} (hin : vec.length + inOff ≤ 2 ^ n) (hout : out.length + outOff ≤ 2 ^ n) (measured : Option Int)
    (measuredProb : Option ℝ) (u garbage : ℝ) :
    seen (measureC indices n vec out inOff outOff measured measuredProb u garbage)
      = seenN (measure indices n vec out inOff outOff measured measuredProb u garbage) := by
  have hs : Sizes n indices := ⟨h, h1, hn⟩
  have hle : 2 ^ indices.length ≤ 2 ^ n := Nat.pow_le_pow_right (by norm_num) hs.len
  have h30 := hs.pow_le
  rw [hs.measure hin hout]
  apply seen_map
  intro x hx
  unfold measure at hx
  simp only [bind, Except.bind] at hx
  rcases hc : chooseOutcome indices n vec inOff measured measuredProb u garbage with e | r <;> rw [hc] at hx <;> dsimp only at hx
  · cases hx
  · have := Sizes.choose_lt hc
    rw [if_neg h.not_bad] at hx
    injection hx with hx
    rw [← hx]
    dsimp only
    omega

/-- C93: `reduce_measure`, likewise. -/
theorem C93_reduce {n : Nat} {indices : List Nat} (h : IdxOK n indices) (h1 : 1 ≤ n) (hn : n ≤ 30) {vec out : List ℂ}
    {inOff outOff : Nat} (hin : vec.length + inOff ≤ 2 ^ n) (hout : out.length + outOff ≤ 2 ^ n) (measured : Option Int)
    (measuredProb : Option ℝ) (u garbage : ℝ) :
    seen (reduceMeasureC indices n vec out inOff outOff measured measuredProb u garbage)
      = seenN (reduceMeasure indices n vec out inOff outOff measured measuredProb u garbage) := by
  have hs : Sizes n indices := ⟨h, h1, hn⟩
  have hle : 2 ^ indices.length ≤ 2 ^ n := Nat.pow_le_pow_right (by norm_num) hs.len
  have h30 := hs.pow_le
  rw [hs.reduce hin hout]
  apply seen_map
  intro x hx
  unfold reduceMeasure at hx
  simp only [bind, Except.bind] at hx
  rcases hc : chooseOutcome indices n vec inOff measured measuredProb u garbage with e | r <;> rw [hc] at hx <;> dsimp only at hx
  · cases hx
  · have := Sizes.choose_lt hc
    rw [if_neg h.not_bad] at hx
    split at hx
    · cases hx
    · injection hx with hx
      rw [← hx]
      dsimp only
      omega

/-- C93: measuring a whole state with the compiled kernel collapses it: the forced outcome `m` comes with its probability, and
the output is the part of the state that agrees with it, normalised. -/
theorem C93_collapse {b : BState} (hb : b.Full) {indices : List Nat} (h : IdxOK b.n indices) (h1 : 1 ≤ b.n) (hn : b.n ≤ 30)
    {m : Nat} (hm : m < 2 ^ indices.length) (hp : outcomeProb b.n indices b.amp m ≠ 0) (u g : ℝ) :
    ∃ out, seen (measureC indices b.n b.state b.arena 0 0 (some (m : Int)) none u g)
        = .ok ((m : Int), outcomeProb b.n indices b.amp m, out) ∧ out.length = 2 ^ b.n ∧
      ∀ i < 2 ^ b.n, out.getD i 0 = if subIndex b.n (inOrder b.n indices) i = m then
        b.amp i / ((√(outcomeProb b.n indices b.amp m) : ℝ) : ℂ) else 0 := by
  obtain ⟨⟨b', hr, hbn, hfull, hamp⟩, -⟩ := C26_forced hb h hm hp u g
  rw [C93_measure h h1 hn (by rw [hb.state]; omega) (by rw [hb.arena]; omega)]
  unfold BState.measure at hr
  rcases hmm : measure indices b.n b.state b.arena 0 0 (some (m : Int)) none u g with e | ⟨m', p', out⟩
  · rw [hmm] at hr; cases hr
  · rw [hmm] at hr
    injection hr with hr1 hr2
    injection hr1 with hr1
    injection hr1 with hm' hp'
    subst hm' hp'
    refine ⟨out, rfl, ?_, ?_⟩
    · have := hfull.state
      rw [← hr2] at this
      exact this
    · intro i hi
      rw [← hamp i hi, ← hr2]
      rfl

-- the second of two qubits in |00⟩ + |11⟩ (not normalised)
example (u g : ℝ) : ∃ out p, seen (measureC [1] 2 [1, 0, 0, 1] [0, 0, 0, 0] 0 0 (some ((1 : Nat) : Int)) none u g) = .ok (1, p, out) :=
  let b : BState := ⟨2, [1, 0, 0, 1], [0, 0, 0, 0]⟩
  have hp : outcomeProb b.n [1] b.amp 1 ≠ 0 := by
    have e : ((Finset.range (2 ^ b.n)).filter (fun c => subIndex b.n (inOrder b.n [1]) c = 1)) = {1, 3} := by decide
    unfold outcomeProb
    rw [e]
    simp [b, BState.amp]
  let ⟨out, h, _⟩ := C93_collapse (b := b) ⟨rfl, rfl⟩ ⟨by decide, by decide⟩ (by decide) (by decide) (by decide) hp u g
  ⟨out, _, h⟩

-- a part of a register of 30 qubits, as on a worker of the distributed backend
example (vec out : List ℂ) (hv : vec.length = 2 ^ 29) (ho : out.length = 2 ^ 29) (u g : ℝ) :
    seen (measureC [0, 29, 13] 30 vec out (2 ^ 29) (2 ^ 29) none none u g)
      = seenN (measure [0, 29, 13] 30 vec out (2 ^ 29) (2 ^ 29) none none u g) :=
  C93_measure ⟨by decide, by decide⟩ (by norm_num) (le_refl 30) (by rw [hv]; norm_num) (by rw [ho]; norm_num) none none u g

/-! ## Larger registers -/

theorem softLoopC_zero {acc : CInt → Except PyErr ℝ} (ha : ∀ p, acc p = .ok 0) {L : List CInt} (hL : L ≠ []) (r : ℝ) :
    ∃ p ∈ L, softLoopC acc L r = .ok (p, 0) := by
  induction L generalizing r with
  | nil => exact absurd rfl hL
  | cons p L ih =>
    unfold softLoopC
    rw [ha p]
    simp only [bind, Except.bind]
    by_cases h1 : r - 0 ≤ 0
    · rw [if_pos h1]; exact ⟨p, by simp, rfl⟩
    · rw [if_neg h1]
      by_cases h2 : L = []
      · rw [if_pos h2]; exact ⟨p, by simp, rfl⟩
      · rw [if_neg h2]
        obtain ⟨q, hq, hr⟩ := ih h2 (r - 0)
        exact ⟨q, by simp [hq], hr⟩

theorem rowMaskC_exists {n : Nat} (hn : n < 2 ^ 31) {indices : List Nat} (hq : ∀ q ∈ indices, q < n ∧ n ≤ q + 31)
    (hl : indices.length < 2 ^ 31) : ∃ w, rowMaskC (I n) (indices.map I) = .ok w := by
  unfold rowMaskC
  rw [List.length_map]
  change ∃ w, (cRange (I indices.length)).foldlM _ (0 : CInt) = _
  rw [cRange_I hl, List.foldlM_map]
  refine ⟨_, foldlM_ok _ (fun m t => C32.setBit m (n - 1 - indices.getD t 0) 1) _ ?_ _⟩
  intro m t ht
  have ht : t < indices.length := by simpa using ht
  obtain ⟨h1, h2⟩ := hq indices[t] (List.getElem_mem ht)
  rw [read_I (by omega) (by simpa using ht)]
  simp only [bind, Except.bind, List.getElem_map]
  rw [show sub (I n) (1 : CInt) = sub (I n) (I 1) from rfl, sub_I (by omega) (by omega)]
  dsimp only
  rw [sub_I (by omega) (by omega)]
  dsimp only
  unfold setBitI
  rw [toInt_I (by omega), if_pos (by omega), toNat_I (by omega), List.getD_eq_getElem _ _ ht]

/-- C93 fails on larger registers, such as the distributed backend is meant for: as soon as 31 qubits are not measured, the
number of basis states to add up does not fit an `int` and becomes negative or 0.  `soft_measure` on a part of the register then
finds probability 0, whatever the amplitudes and the outcome asked for. -/
theorem C93_large_false {n : Nat} {indices : List Nat} (hq : ∀ q ∈ indices, q < n ∧ n ≤ q + 31)
    (hl : indices.length ≤ 30) (hu : indices.length + 31 ≤ n) (hn : n ≤ 62) {vec : List ℂ} (hv : vec.length ≤ 2 ^ 31) {inOff : Nat}
    (hin : inOff < 2 ^ 31) {measured : Option Nat} (hm : ∀ m ∈ measured, m < 2 ^ indices.length) (u garbage : ℝ) :
    ∃ w, softMeasureC indices n vec measured inOff u garbage = .ok (w, 0) := by
  obtain ⟨w, hw⟩ := rowMaskC_exists (n := n) (by omega) hq (by omega)
  have hle : 2 ^ indices.length ≤ 2 ^ 30 := Nat.pow_le_pow_right (by norm_num) hl
  unfold softMeasureC
  rw [mapM_ofPy fun q h => by have := hq q h; omega, ofPy_ok (by omega), ofPy_ok hin]
  simp only [bind, Except.bind]
  simp only [trunc_eq]
  rw [sub_I (by omega) (by omega)]
  dsimp only
  rw [pow2L_I (by omega)]
  dsimp only
  rw [pow2L_I (by omega), pow2L_I (by omega)]
  dsimp only
  rw [probMagnitudeC_I hv, hw]
  dsimp only
  have hlt : indices.length < 2 ^ n := (show indices.length ≤ n by omega).trans_lt Nat.lt_two_pow_self
  have hacc : ∀ p, softAccC (I indices.length) (I (n - indices.length)) (I (2 ^ (n - indices.length))) w (I inOff) vec p
      = .ok 0 := by
    intro p
    unfold softAccC cRange
    have := trunc_big (n := n - indices.length) (by omega)
    rw [trunc_eq] at this
    rw [this]
    rfl
  cases measured with
  | none =>
    have e0 : cRangeFrom 0 (I (2 ^ indices.length)) = (List.range (2 ^ indices.length)).map I := by
      rw [show (0 : CInt) = I 0 from rfl, cRangeFrom_I (by norm_num) (by omega), List.range_eq_range', Nat.sub_zero]
    dsimp only [pure, Except.pure]
    rw [e0, if_pos hlt]
    obtain ⟨q, -, h⟩ := softLoopC_zero hacc (L := (List.range (2 ^ indices.length)).map I) (by simp)
      (u * probMagnitude garbage vec)
    exact ⟨q, h⟩
  | some m =>
    have hm' := hm m rfl
    dsimp only
    rw [ofPy_ok (by omega), ofPy_ok (by omega)]
    dsimp only [pure, Except.pure]
    rw [cRangeFrom_I (by omega) (by omega), show m + 1 - m = 1 by omega, if_pos hlt]
    obtain ⟨q, -, h⟩ := softLoopC_zero hacc (L := (List.range' m 1).map I) (by simp) (u * probMagnitude garbage vec)
    exact ⟨q, h⟩

/-- … and `measure` raises ZeroDivisionError for every draw. -/
theorem C93_large_measure_false {n : Nat} {indices : List Nat} (hq : ∀ q ∈ indices, q < n ∧ n ≤ q + 31)
    (hl : indices.length ≤ 30) (hu : indices.length + 31 ≤ n) (hn : n ≤ 62) {vec out : List ℂ} (hv : vec.length ≤ 2 ^ 31)
    {inOff outOff : Nat} (hin : inOff < 2 ^ 31) (hout : outOff < 2 ^ 31) (u garbage : ℝ) :
    measureC indices n vec out inOff outOff none none u garbage = .error .zeroDivision := by
  obtain ⟨w, hw⟩ := C93_large_false hq hl hu hn hv hin (measured := none) (by simp) u garbage
  unfold measureC
  rw [mapM_ofPy fun q h => by have := hq q h; omega, ofPy_ok (by omega), ofPy_ok hin, ofPy_ok hout]
  simp only [bind, Except.bind]
  have hc : chooseOutcomeC indices n vec inOff none none u garbage = .error .zeroDivision := by
    unfold chooseOutcomeC
    dsimp only [Option.map_none, bind, Except.bind, pure, Except.pure]
    rw [hw]
    dsimp only
    rw [if_pos rfl]
  rw [hc]

-- the first half of a register of 32 qubits, one of two workers: measuring the last qubit
example (vec out : List ℂ) (hv : vec.length = 2 ^ 31) (u g : ℝ) :
    measureC [31] 32 vec out 0 0 none none u g = .error .zeroDivision :=
  C93_large_measure_false (by decide) (by decide) (by decide) (by decide) (le_of_eq hv) (by norm_num) (by norm_num) u g

end QIP.Props
