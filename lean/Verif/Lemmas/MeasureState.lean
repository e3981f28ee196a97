import Verif.Lemmas.Measure

/-! # `chooseOutcome`, the backend's `measure`, `reduce_measure` -/

namespace QIP

open Spec Finset

theorem chooseOutcome_soft (indices : List Nat) (n : Nat) (vec : List ℂ) (inOff : Nat) (measured : Option Nat)
    (hm : ∀ m ∈ measured, m < 2 ^ indices.length) (u g : ℝ) {m : Nat} {p : ℝ}
    (hs : softMeasure indices n vec measured inOff u g = .ok (m, p)) :
    chooseOutcome indices n vec inOff (measured.map Int.ofNat) none u g
      = if p = 0 then .error .zeroDivision else .ok (m, p, √(1 / p)) := by
  unfold chooseOutcome
  cases measured with
  | none =>
    simp only [Option.map_none, hs, bind, Except.bind, pure, Except.pure]
  | some k =>
    have hk := hm k rfl
    have hk' : 0 ≤ Int.ofNat k ∧ Int.ofNat k < 2 ^ indices.length := ⟨Int.natCast_nonneg k, by
      have : ((k : Nat) : Int) < ((2 ^ indices.length : Nat) : Int) := by exact_mod_cast hk
      push_cast at this
      exact this⟩
    simp only [Option.map_some, bind, Except.bind, pure, Except.pure]
    rw [if_neg (not_not.2 hk')]
    have e : (Int.ofNat k).toNat = k := by simp
    simp only [e, hs]

theorem chooseOutcome_both (indices : List Nat) (n : Nat) (vec : List ℂ) (inOff : Nat) {m : Nat}
    (hm : m < 2 ^ indices.length) {p : ℝ} (hp : 0 < p ∧ p ≤ 1) (u g : ℝ) :
    chooseOutcome indices n vec inOff (some (m : Int)) (some p) u g = .ok (m, p, √(1 / p)) := by
  unfold chooseOutcome
  have hk' : 0 ≤ (m : Int) ∧ (m : Int) < 2 ^ indices.length := ⟨Int.natCast_nonneg m, by exact_mod_cast hm⟩
  have hne : p ≠ 0 := by linarith [hp.1]
  simp [bind, Except.bind, pure, Except.pure, hk', hp, hne]

theorem chooseOutcome_bad_measured (indices : List Nat) (n : Nat) (vec : List ℂ) (inOff : Nat) {m : Int}
    (hm : ¬ (0 ≤ m ∧ m < 2 ^ indices.length)) (mp : Option ℝ) (u g : ℝ) :
    chooseOutcome indices n vec inOff (some m) mp u g = .error .valueError := by
  unfold chooseOutcome
  simp only [bind, Except.bind]
  rw [if_pos hm]

theorem chooseOutcome_bad_prob (indices : List Nat) (n : Nat) (vec : List ℂ) (inOff : Nat) {p : ℝ}
    (hp : ¬ (0 < p ∧ p ≤ 1)) (measured : Option Int) (u g : ℝ) :
    chooseOutcome indices n vec inOff measured (some p) u g = .error .valueError := by
  unfold chooseOutcome
  cases measured with
  | none =>
    simp only [bind, Except.bind, pure, Except.pure]
    rw [if_pos hp]
  | some k =>
    simp only [bind, Except.bind, pure, Except.pure]
    by_cases hk : 0 ≤ k ∧ k < 2 ^ indices.length
    · rw [if_neg (not_not.2 hk)]
      rw [if_pos hp]
    · rw [if_pos hk]

/-- A complete (unsliced) backend state. -/
structure BState.Full (b : BState) : Prop where
  state : b.state.length = 2 ^ b.n
  arena : b.arena.length = 2 ^ b.n

/-- The amplitudes of a backend state. -/
noncomputable def BState.amp (b : BState) (i : Nat) : ℂ := b.state.getD i 0

theorem BState.measure_error (b : BState) {indices : List Nat} {measured : Option Int} {mp : Option ℝ} {inOff outOff : Nat}
    {u g : ℝ} {e : PyErr}
    (hc : chooseOutcome indices b.n b.state inOff measured mp u g = .error e) :
    b.measure indices measured mp inOff outOff u g = (.error e, b) := by
  unfold BState.measure QIP.measure
  rw [hc]
  rfl

theorem BState.measure_ok {b : BState} (hb : b.Full) {indices : List Nat} (h : IdxOK b.n indices)
    {measured : Option Int} {mp : Option ℝ} {u g : ℝ} {m : Nat} {p : ℝ} (hm : m < 2 ^ indices.length)
    (hc : chooseOutcome indices b.n b.state 0 measured mp u g = .ok (m, p, √(1 / p))) :
    b.measure indices measured mp 0 0 u g
      = (.ok (m, p), ⟨b.n, (List.range (2 ^ b.n)).map (collapsed b.n indices b.amp m p), b.state⟩) := by
  obtain ⟨out', h1, h2, h3⟩ := measure_eq h b.state b.arena 0 0 (by have := hb.state; omega) hm rfl hc
  unfold BState.measure
  rw [h1]
  have : out' = (List.range (2 ^ b.n)).map (collapsed b.n indices b.amp m p) := by
    apply List.ext_getElem?
    intro j
    by_cases hj : j < 2 ^ b.n
    · rw [h3 j (by rw [hb.arena]; exact hj), if_pos (by rw [hb.state]; omega), List.getElem?_map,
        List.getElem?_range hj, Option.map_some, sliceAt_zero']
      rfl
    · rw [List.getElem?_eq_none (by rw [h2, hb.arena]; omega), List.getElem?_eq_none (by simp; omega)]
  rw [this]

theorem amp_map {n : Nat} {a : List ℂ} (f : Nat → ℂ) {i : Nat} (hi : i < 2 ^ n) :
    BState.amp ⟨n, (List.range (2 ^ n)).map f, a⟩ i = f i := by
  simp [BState.amp, hi]

theorem outcomeProb_collapsed {n : Nat} {indices : List Nat} (v : Nat → ℂ) (m : Nat) {p : ℝ} (hp : 0 < p)
    (m' : Nat) :
    outcomeProb n indices (collapsed n indices v m p) m'
      = if m' = m then outcomeProb n indices v m / p else 0 := by
  unfold outcomeProb
  by_cases e : m' = m
  · subst e
    rw [if_pos rfl, div_eq_mul_inv, Finset.sum_mul]
    apply Finset.sum_congr rfl
    intro c hc
    have := (mem_filter.1 hc).2
    unfold collapsed
    rw [if_pos this, map_mul, Complex.normSq_ofReal, Real.mul_self_sqrt (by positivity)]
    ring
  · rw [if_neg e]
    apply Finset.sum_eq_zero
    intro c hc
    have := (mem_filter.1 hc).2
    unfold collapsed
    rw [if_neg (by rw [this]; exact e)]
    simp

/-- The unforced measurement of a full state. -/
theorem BState.measure_spec {b : BState} (hb : b.Full) {indices : List Nat} (h : IdxOK b.n indices) (u g : ℝ) :
    ∃ m, m < 2 ^ indices.length ∧
      (∀ j < m, cumProb b.n indices b.amp (j + 1) < u * (g + Spec.totalProb b.n b.amp)) ∧
      (m + 1 = 2 ^ indices.length ∨ u * (g + Spec.totalProb b.n b.amp) ≤ cumProb b.n indices b.amp (m + 1)) ∧
      softMeasure indices b.n b.state none 0 u g = .ok (m, outcomeProb b.n indices b.amp m) ∧
      b.measure indices none none 0 0 u g
        = if outcomeProb b.n indices b.amp m = 0 then (.error .zeroDivision, b)
          else (.ok (m, outcomeProb b.n indices b.amp m), ⟨b.n, (List.range (2 ^ b.n)).map
            (collapsed b.n indices b.amp m (outcomeProb b.n indices b.amp m)), b.state⟩) := by
  obtain ⟨m, h1, h2, h3, h4⟩ := softMeasure_spec h b.state 0 (by have := hb.state; omega) u g
  rw [sliceAt_zero'] at h1 h3 h4
  refine ⟨m, h2, h3, h4, h1, ?_⟩
  have hc := chooseOutcome_soft indices b.n b.state 0 none (by simp) u g h1
  have e : outcomeProb b.n indices (fun c => b.state.getD c 0) m = outcomeProb b.n indices b.amp m := rfl
  rw [e] at hc
  split
  · next hz =>
    rw [if_pos hz] at hc
    exact b.measure_error hc
  · next hz =>
    rw [if_neg hz] at hc
    exact BState.measure_ok hb h h2 hc

theorem cumProb_top {n : Nat} {indices : List Nat} (h : IdxOK n indices) (v : Nat → ℂ) :
    cumProb n indices v (2 ^ indices.length) = totalProb n v := h.sum_outcomeProb v

theorem totalProb_nonneg (n : Nat) (v : Nat → ℂ) : 0 ≤ totalProb n v :=
  Finset.sum_nonneg fun _ _ => Complex.normSq_nonneg _

theorem totalProb_congr {n : Nat} {v w : Nat → ℂ} (hvw : ∀ c < 2 ^ n, v c = w c) : totalProb n v = totalProb n w :=
  Finset.sum_congr rfl fun c hc => by rw [hvw c (mem_range.1 hc)]

/-! ## reduce_measure -/

theorem spread_mod (n : Nat) (S : List Nat) (r i : Nat) : spread n S r (i % 2 ^ S.length) = spread n S r i := by
  apply qbit_ext (spread_lt _ _ _ _) (spread_lt _ _ _ _)
  intro q hq
  rw [qbit_spread _ _ _ hq, qbit_spread _ _ _ hq]
  split
  · next hS =>
    rw [Nat.testBit_mod_two_pow]
    have := List.length_pos_of_mem hS
    simp only [Bool.and_eq_right_iff_imp, decide_eq_true_eq]
    intro _; omega
  · rfl

theorem IdxOK.maskOff_eq {n : Nat} {indices : List Nat} (h : IdxOK n indices) :
    maskOff n (rowMask n indices) = remaining n indices := by
  unfold maskOff remaining
  apply List.filter_congr
  intro q hq
  rw [h.qbit_rowMask (List.mem_range.1 hq)]
  simp

theorem IdxOK.length_remaining {n : Nat} {indices : List Nat} (h : IdxOK n indices) :
    (remaining n indices).length = n - indices.length := by
  rw [← h.maskOff_eq, h.length_off]

/-- The basis state with the measured qubits at `m` and the others at `i`. -/
noncomputable def redRow (n : Nat) (indices : List Nat) (m i : Nat) : Nat :=
  spread n (remaining n indices) (spread n (inOrder n indices) 0 m) i

theorem redRow_lt (n : Nat) (indices : List Nat) (m i : Nat) : redRow n indices m i < 2 ^ n := spread_lt _ _ _ _

theorem subIndex_inOrder_redRow {n : Nat} {indices : List Nat} (h : IdxOK n indices) {m : Nat}
    (hm : m < 2 ^ indices.length) (i : Nat) : subIndex n (inOrder n indices) (redRow n indices m i) = m := by
  rw [← h.agree_iff hm, h.maskOff_eq]
  exact agreeOff_spread _ _ _ _

theorem subIndex_remaining_redRow {n : Nat} {indices : List Nat} (h : IdxOK n indices) (m : Nat) {i : Nat}
    (hi : i < 2 ^ (n - indices.length)) : subIndex n (remaining n indices) (redRow n indices m i) = i :=
  subIndex_spread _ (List.nodup_range.filter _) (fun q hq => List.mem_range.1 (List.mem_filter.1 hq).1)
    (by rwa [h.length_remaining])

theorem redRow_subIndex {n : Nat} {indices : List Nat} (h : IdxOK n indices) {c : Nat} (hc : c < 2 ^ n) :
    redRow n indices (subIndex n (inOrder n indices) c) (subIndex n (remaining n indices) c) = c := by
  apply spread_subIndex hc
  rw [← h.maskOff_eq, h.agree_iff (h.subIndex_lt' c)]

theorem sum_redRow {M : Type} [AddCommMonoid M] {n : Nat} {indices : List Nat} (h : IdxOK n indices) {m : Nat}
    (hm : m < 2 ^ indices.length) (F : Nat → M) :
    ∑ i ∈ range (2 ^ (n - indices.length)), F (redRow n indices m i)
      = ∑ c ∈ (range (2 ^ n)).filter (fun c => subIndex n (inOrder n indices) c = m), F c := by
  rw [← h.sum_entwine hm]
  apply Finset.sum_congr rfl
  intro i _
  rw [h.entwine_eq, h.maskOff_eq]
  rfl

theorem reduceFold_ok {row : Nat → Nat} {vec : List ℂ} {inOff outOff : Nat} {mult : ℝ} {k : Nat} (len lo : Nat)
    (o : List ℂ) (hrow : ∀ i, lo ≤ i → i < lo + len → row i < inOff + vec.length) :
    (List.range' lo len).foldlM (fun (o : List ℂ) i =>
      if row i < inOff ∨ row i > k + row i then .ok (o.set (i - outOff) 0)
      else if vec.length ≤ row i - inOff then .error .ub
      else .ok (o.set (i - outOff) (vec.getD (row i - inOff) 0 * (mult : ℂ)))) o
      = (Except.ok ((List.range' lo len).foldl (fun o i =>
        o.set (i - outOff) (sliceAt inOff vec (row i) * (mult : ℂ))) o) : Except PyErr (List ℂ)) := by
  induction len generalizing lo o with
  | zero => rfl
  | succ len ih =>
    rw [List.range'_succ, List.foldlM_cons, List.foldl_cons]
    have e : (if row lo < inOff ∨ row lo > k + row lo then (.ok (o.set (lo - outOff) 0) : Except PyErr (List ℂ))
      else if vec.length ≤ row lo - inOff then .error .ub
      else .ok (o.set (lo - outOff) (vec.getD (row lo - inOff) 0 * (mult : ℂ))))
        = .ok (o.set (lo - outOff) (sliceAt inOff vec (row lo) * (mult : ℂ))) := by
      have := hrow lo le_rfl (by omega)
      unfold sliceAt
      by_cases h1 : row lo < inOff
      · rw [if_pos (Or.inl h1), if_neg (by omega), zero_mul]
      · rw [if_neg (by omega), if_neg (by omega), if_pos (by omega)]
    rw [e]
    exact ih (lo + 1) _ fun i h1 h2 => hrow i (by omega) (by omega)

theorem reduceMeasure_eq {n : Nat} {indices : List Nat} (h : IdxOK n indices) (vec out : List ℂ) (inOff outOff : Nat)
    {measured : Option Int} {measuredProb : Option ℝ} {u g : ℝ} {m : Nat} {p : ℝ}
    (hrow : ∀ i, outOff ≤ i → i < outOff + out.length → redRow n indices m i < inOff + vec.length)
    (hc : chooseOutcome indices n vec inOff measured measuredProb u g = .ok (m, p, √(1 / p))) :
    ∃ out', reduceMeasure indices n vec out inOff outOff measured measuredProb u g = .ok (m, p, out') ∧
      out'.length = out.length ∧
      ∀ j < out.length, out'[j]? = some (sliceAt inOff vec (redRow n indices m (j + outOff)) * ((√(1 / p) : ℝ) : ℂ)) := by
  unfold reduceMeasure
  rw [hc]
  simp only [bind, Except.bind]
  rw [if_neg h.not_bad]
  have er : ∀ i, entwineBit indices.length (n - indices.length) m i (rowMask n indices) = redRow n indices m i := by
    intro i
    rw [h.entwine_eq, h.maskOff_eq]; rfl
  simp only [er]
  rw [reduceFold_ok (row := redRow n indices m) _ _ _ hrow]
  refine ⟨_, rfl, length_foldl_set (fun i => i - outOff) _ _ _, ?_⟩
  intro j hj
  rw [foldl_set_range' (fun i => sliceAt inOff vec (redRow n indices m i) * ((√(1 / p) : ℝ) : ℂ)) outOff _ _ le_rfl _ _
    hj, if_pos (by omega)]

theorem foldlM_error_of_mem {α β : Type} {f : α → β → Except PyErr α} {P : β → Prop}
    (hP : ∀ a i, P i → f a i = .error .ub) (hok : ∀ a i, (∃ a', f a i = .ok a') ∨ f a i = .error .ub) (L : List β) (a : α)
    (hL : ∃ i ∈ L, P i) : L.foldlM f a = .error .ub := by
  induction L generalizing a with
  | nil => obtain ⟨i, hi, _⟩ := hL; simp at hi
  | cons i L ih =>
    rw [List.foldlM_cons]
    rcases hok a i with ⟨a', h1⟩ | h1
    · rw [h1]
      obtain ⟨j, hj, hPj⟩ := hL
      rcases List.mem_cons.1 hj with rfl | hj
      · rw [hP a j hPj] at h1; cases h1
      · exact ih a' ⟨j, hj, hPj⟩
    · rw [h1]; rfl

theorem reduceMeasure_ub {n : Nat} {indices : List Nat} (h : IdxOK n indices) (vec out : List ℂ) (inOff outOff : Nat)
    {measured : Option Int} {measuredProb : Option ℝ} {u g : ℝ} {m : Nat} {p mult : ℝ}
    (hrow : ∃ i, outOff ≤ i ∧ i < outOff + out.length ∧ inOff + vec.length ≤ redRow n indices m i)
    (hc : chooseOutcome indices n vec inOff measured measuredProb u g = .ok (m, p, mult)) :
    reduceMeasure indices n vec out inOff outOff measured measuredProb u g = .error .ub := by
  unfold reduceMeasure
  rw [hc]
  simp only [bind, Except.bind]
  rw [if_neg h.not_bad]
  have er : ∀ i, entwineBit indices.length (n - indices.length) m i (rowMask n indices) = redRow n indices m i := by
    intro i
    rw [h.entwine_eq, h.maskOff_eq]; rfl
  simp only [er]
  rw [foldlM_error_of_mem (P := fun i => inOff + vec.length ≤ redRow n indices m i)]
  · intro o i hi
    rw [if_neg (by omega), if_pos (by omega)]
  · intro o i
    split
    · exact Or.inl ⟨_, rfl⟩
    · split
      · exact Or.inr rfl
      · exact Or.inl ⟨_, rfl⟩
  · obtain ⟨i, h1, h2, h3⟩ := hrow
    exact ⟨i, by simp; omega, h3⟩

end QIP
