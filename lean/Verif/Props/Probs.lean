import Verif.Lemmas.MeasureTop

/-!
# C20 – C22, C27: outcome probabilities
-/

namespace QIP.Props

open QIP QIP.Spec Finset

/-! ## C20 -/

/-- C20: entry `b` is the total squared magnitude of the basis states whose qubit `indices[j]` equals bit `j` of `b`;
all entries are nonnegative and they add up to the squared norm.  (The kernel returns a new list; the state is an
argument that is not written.) -/
theorem C20_marginals {n : Nat} {indices : List Nat} (hlt : ∀ q ∈ indices, q < n) (state : List ℂ)
    (hl : state.length = 2 ^ n) :
    ∃ ps, measureProbabilities indices n state = .ok ps ∧ ps.length = 2 ^ indices.length ∧
      (∀ b < 2 ^ indices.length, ps[b]? = some (∑ c ∈ (range (2 ^ n)).filter (fun c =>
        ∀ j (hj : j < indices.length), qbit n c indices[j] = b.testBit j), Complex.normSq (state.getD c 0))) ∧
      (∀ p ∈ ps, 0 ≤ p) ∧ ps.sum = totalProb n (fun c => state.getD c 0) := by
  refine ⟨_, measureProbabilities_eq hlt state hl, by simp, ?_, ?_, ?_⟩
  · intro b hb
    rw [List.getElem?_map, List.getElem?_range hb, Option.map_some]
    congr 2
    apply Finset.filter_congr
    intro c _
    have hrev : ∀ j (hj : j < indices.length), (subIndex n indices.reverse c).testBit j = qbit n c indices[j] := by
      intro j hj
      have h1 : indices.length - 1 - j < indices.reverse.length := by simp; omega
      have := testBit_subIndex n indices.reverse c (indices.length - 1 - j) h1
      have e : indices.reverse.length - 1 - (indices.length - 1 - j) = j := by simp; omega
      have e2 : indices.length - 1 - (indices.length - 1 - j) = j := by omega
      rw [e] at this
      rw [this, List.getElem_reverse]
      simp [e2]
    constructor
    · rintro rfl j hj
      exact (hrev j hj).symm
    · intro H
      apply Nat.eq_of_testBit_eq
      intro j
      by_cases hj : j < indices.length
      · rw [hrev j hj, H j hj]
      · have h1 := subIndex_lt n indices.reverse c
        rw [List.length_reverse] at h1
        rw [high_of_lt_two_pow h1 (by omega), high_of_lt_two_pow hb (by omega)]
  · intro p hp
    obtain ⟨b, _, rfl⟩ := List.mem_map.1 hp
    exact Finset.sum_nonneg fun _ _ => Complex.normSq_nonneg _
  · rw [sum_map_range]
    unfold totalProb
    apply Finset.sum_fiberwise_of_maps_to
    intro c _
    have := subIndex_lt n indices.reverse c
    simpa using this

example : ∀ q ∈ [2, 0], q < 3 := by decide

/-! ## C21 -/

/-- C21 (partial: `top_k` at least the number of outcomes): the result lists every outcome exactly once with its
probability, in decreasing order of probability. -/
theorem C21_top_k_partial {n : Nat} {indices : List Nat} (h : IdxOK n indices) (topK : Nat)
    (hk : 2 ^ indices.length ≤ topK) (state : List ℂ) (hl : state.length = 2 ^ n) :
    ∃ ms ps, measureTopProbabilities indices n topK state = .ok (ms, ps) ∧ ms.length = ps.length ∧
      (ms.zip ps).Perm ((List.range (2 ^ indices.length)).map fun m =>
        (m, outcomeProb n indices (fun c => state.getD c 0) m)) ∧
      ps.Pairwise (· ≥ ·) := by
  unfold measureTopProbabilities
  rw [if_neg (by
    rintro (hb | hb)
    · exact h.not_bad hb
    · omega)]
  simp only [min_eq_right hk]
  obtain ⟨A, hA, hf⟩ := topFold (prob := topProb n indices state) (K := 2 ^ indices.length)
    (fun m hm => by rw [h.topProb_eq state hm]; exact outcomeProb_nonneg _ _ _ _) (2 ^ indices.length) le_rfl
  rw [hf]
  simp only [bind, Except.bind, Nat.sub_self, List.replicate_zero, List.append_nil]
  refine ⟨_, _, rfl, by simp, ?_, ?_⟩
  · have hz : ∀ L : List (Nat × ℝ), (L.map (·.1)).zip (L.map (·.2)) = L := by
      intro L
      induction L with
      | nil => rfl
      | cons a L ih => simp [ih]
    rw [hz]
    refine (List.mergeSort_perm _ _).trans (hA.trans ?_)
    apply List.Perm.of_eq
    apply List.map_congr_left
    intro m hm
    rw [h.topProb_eq state (List.mem_range.1 hm)]
  · have hsrt := List.pairwise_mergeSort (le := fun a b : Nat × ℝ => decide (a.2 ≥ b.2))
      (by intro a b c h1 h2; simp only [decide_eq_true_eq] at *; linarith)
      (by intro a b; simp only [Bool.or_eq_true, decide_eq_true_eq]; exact le_total _ _) A
    rw [List.pairwise_map]
    exact hsrt.imp fun {a b} hab => by simpa using hab

/-- C21 (negation of the full property): whenever fewer outcomes are requested than exist, the code accesses the
result buffers beyond their end, for every state. -/
theorem C21_out_of_bounds {n : Nat} {indices : List Nat} (h : IdxOK n indices) (topK : Nat)
    (hk : topK < 2 ^ indices.length) (state : List ℂ) (hl : state.length = 2 ^ n) :
    measureTopProbabilities indices n topK state = .error .ub := by
  unfold measureTopProbabilities
  rw [if_neg (by
    rintro (hb | hb)
    · exact h.not_bad hb
    · omega)]
  simp only [min_eq_left hk.le]
  rw [topFold_oob (prob := topProb n indices state) (fun m hm => by
    rw [h.topProb_eq state (by omega)]; exact outcomeProb_nonneg _ _ _ _) hk]
  rfl

-- qubits 3 and 1 of 4; top 2 of 4 outcomes
example : IdxOK 4 [3, 1] ∧ 2 < 2 ^ [3, 1].length := ⟨⟨by decide, by decide⟩, by decide⟩

/-! ## C22 -/

/-- C22 (partial: qubits listed in decreasing order, or a single qubit): label `b` of `measure_probabilities` and
outcome `b` of `Measure` (and of `top_k`) mean the same. -/
theorem C22_labels_partial {n : Nat} {indices : List Nat} (h : IdxOK n indices) (hdec : indices.Pairwise (· > ·))
    (state : List ℂ) (hl : state.length = 2 ^ n) :
    ∃ ps, measureProbabilities indices n state = .ok ps ∧
      ∀ b < 2 ^ indices.length, ps[b]? = some (outcomeProb n indices (fun c => state.getD c 0) b) := by
  have hio : inOrder n indices = indices.reverse := by
    have hp : (inOrder n indices).Perm indices.reverse := by
      rw [List.perm_ext_iff_of_nodup IdxOK.nodup_inOrder (List.nodup_reverse.2 h.nodup)]
      intro a
      rw [h.mem_inOrder, List.mem_reverse]
    apply hp.eq_of_pairwise (le := (· < ·))
    · intro a b _ _ h1 h2; omega
    · exact List.pairwise_lt_range.filter _
    · rw [List.pairwise_reverse]; exact hdec
  refine ⟨_, measureProbabilities_eq h.lt state hl, ?_⟩
  intro b hb
  rw [List.getElem?_map, List.getElem?_range hb, Option.map_some, outcomeProb, hio]

/-- C22 (negation of the full property): for every list of qubits that is not in decreasing order there is a basis
state for which `measure_probabilities` reports certainty under one label and the outcome read by `Measure`/`top_k`
carries another label. -/
theorem C22_labels_differ {n : Nat} {indices : List Nat} (h : IdxOK n indices) (hdec : ¬ indices.Pairwise (· > ·)) :
    ∃ (c b m : Nat) (ps : List ℝ), c < 2 ^ n ∧ b ≠ m ∧ b < 2 ^ indices.length ∧ m < 2 ^ indices.length ∧
      measureProbabilities indices n ((List.replicate (2 ^ n) 0).set c 1) = .ok ps ∧ ps[b]? = some 1 ∧
      outcomeProb n indices (fun i => ((List.replicate (2 ^ n) 0).set c 1).getD i 0) m = 1 := by
  -- a position at which the two qubit orders differ
  have hne : ∃ j, ∃ (hj : j < indices.length), indices.reverse[j]'(by simpa using hj)
      ≠ (inOrder n indices)[j]'(by rwa [h.length_inOrder]) := by
    by_contra hcon
    push Not at hcon
    apply hdec
    have e : indices.reverse = inOrder n indices := by
      apply List.ext_getElem (by rw [h.length_inOrder, List.length_reverse])
      intro j h1 h2
      exact hcon j (by simpa using h1)
    rw [← List.pairwise_reverse, e]
    exact List.pairwise_lt_range.filter _
  obtain ⟨j, hj, hne⟩ := hne
  set a := indices.reverse[j]'(by simpa using hj) with ha
  have ham : a ∈ indices := by
    have : a ∈ indices.reverse := List.getElem_mem _
    simpa using this
  have han : a < n := h.lt a ham
  set c := spread n [a] 0 1 with hcdef
  have hc : c < 2 ^ n := spread_lt _ _ _ _
  have hbit : ∀ q < n, qbit n c q = decide (q = a) := by
    intro q hq
    rw [hcdef, qbit_spread _ _ _ hq, qbit_zero]
    by_cases e : q = a <;> simp [e]
  have hvec : ∀ i < 2 ^ n, ((List.replicate (2 ^ n) (0 : ℂ)).set c 1).getD i 0 = if i = c then 1 else 0 := by
    intro i hi
    rw [List.getD_eq_getElem?_getD, List.getElem?_set]
    by_cases e : c = i
    · subst e; simp [hi]
    · rw [if_neg e, if_neg (fun e' => e e'.symm)]; simp [hi]
  have hsum : ∀ (f : Nat → Nat) (b : Nat), f c = b → ∑ i ∈ (range (2 ^ n)).filter (fun i => f i = b),
      Complex.normSq (((List.replicate (2 ^ n) (0 : ℂ)).set c 1).getD i 0) = 1 := by
    intro f b hb
    rw [Finset.sum_eq_single c]
    · rw [hvec c hc]; simp
    · intro i hi hic
      rw [hvec i (mem_range.1 (mem_filter.1 hi).1), if_neg hic]; simp
    · intro hn
      exact absurd (mem_filter.2 ⟨mem_range.2 hc, hb⟩) hn
  refine ⟨c, subIndex n indices.reverse c, subIndex n (inOrder n indices) c, _, hc, ?_, ?_, h.subIndex_lt' c,
    measureProbabilities_eq h.lt _ (by simp), ?_, hsum _ _ rfl⟩
  · intro e
    have e1 := testBit_subIndex n indices.reverse c j (by simpa using hj)
    have e2 := testBit_subIndex n (inOrder n indices) c j (by rwa [h.length_inOrder])
    simp only [h.length_inOrder] at e2
    simp only [List.length_reverse] at e1
    rw [e, e2, hbit _ (h.lt _ (h.mem_inOrder.1 (List.getElem_mem _))), ← ha, hbit a han] at e1
    simp only [decide_eq_decide] at e1
    simp only [iff_true] at e1
    exact hne e1.symm
  · have := subIndex_lt n indices.reverse c
    simpa using this
  · have hb : subIndex n indices.reverse c < 2 ^ indices.length := by
      have := subIndex_lt n indices.reverse c
      simpa using this
    rw [List.getElem?_map, List.getElem?_range hb, Option.map_some, hsum _ _ rfl]

example : IdxOK 2 [0, 1] ∧ ¬ [0, 1].Pairwise (· > ·) := ⟨⟨by decide, by decide⟩, by decide⟩
example : IdxOK 4 [3, 1] ∧ [3, 1].Pairwise (· > ·) := ⟨⟨by decide, by decide⟩, by decide⟩

/-! ## C27 -/

/-- C27 (partial: the uninitialised accumulator happens to be 0): `total_prob()` is the squared norm. -/
theorem C27_total_prob_partial (b : BState) (hl : b.state.length = 2 ^ b.n) :
    b.totalProb 0 = totalProb b.n (fun c => b.state.getD c 0) := by
  unfold BState.totalProb
  rw [probMagnitude_eq (n := b.n) (inOff := 0) 0 b.state (by omega), sliceAt_zero', zero_add]

/-- C27 (negation of the full property): any other initial content of the accumulator is added to the result, so
for every nonzero content the result is wrong for every state. -/
theorem C27_total_prob_wrong (b : BState) (hl : b.state.length = 2 ^ b.n) (garbage : ℝ) (hg : garbage ≠ 0) :
    b.totalProb garbage = garbage + totalProb b.n (fun c => b.state.getD c 0) ∧
      b.totalProb garbage ≠ totalProb b.n (fun c => b.state.getD c 0) := by
  have e : b.totalProb garbage = garbage + totalProb b.n (fun c => b.state.getD c 0) := by
    unfold BState.totalProb
    rw [probMagnitude_eq (n := b.n) (inOff := 0) garbage b.state (by omega), sliceAt_zero']
  refine ⟨e, ?_⟩
  rw [e]
  intro h
  exact hg (by linarith)

end QIP.Props
