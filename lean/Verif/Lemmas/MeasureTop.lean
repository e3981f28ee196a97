import Verif.Lemmas.Measure

/-! # Closed forms of `measure_probabilities` and `measure_top_probabilities` -/

namespace QIP

open Spec Finset

theorem probIndex_eq (n : Nat) (indices : List Nat) (i : Nat) :
    probIndex n indices i = subIndex n indices.reverse i := by
  have key : ∀ k ≤ indices.length, ∀ b, ((List.range k).foldl
      (fun p j => setBit p j (getBit i ((n - 1) - indices.getD j 0))) 0).testBit b
      = (decide (b < k) && qbit n i (indices.getD b 0)) := by
    intro k hk b
    induction k with
    | zero => simp
    | succ k ih =>
      rw [List.range_succ, List.foldl_append, List.foldl_cons, List.foldl_nil, testBit_setBit, ih (by omega)]
      by_cases hb : b = k
      · subst hb
        simp [getBit_eq, qbit]
      · have : b < k + 1 ↔ b < k := by omega
        simp [hb, this]
  apply Nat.eq_of_testBit_eq
  intro b
  unfold probIndex
  rw [key _ le_rfl]
  by_cases hb : b < indices.length
  · have hb' : indices.length - 1 - b < indices.reverse.length := by simp; omega
    have := testBit_subIndex n indices.reverse i (indices.length - 1 - b) hb'
    have e : indices.reverse.length - 1 - (indices.length - 1 - b) = b := by simp; omega
    rw [e] at this
    rw [this, List.getElem_reverse]
    have e2 : indices.length - 1 - (indices.length - 1 - b) = b := by omega
    simp [hb, e2]
  · have h1 := subIndex_lt n indices.reverse i
    rw [high_of_lt_two_pow h1 (by simp; omega)]
    simp [hb]

theorem length_measureProb_fold (idx : Nat → Nat) (vec : List ℂ) (L : List Nat) (p : List ℝ) :
    (L.foldl (fun p i => if vec.getD i 0 = 0 then p
      else p.set (idx i) (p.getD (idx i) 0 + Complex.normSq (vec.getD i 0))) p).length = p.length := by
  induction L generalizing p with
  | nil => rfl
  | cons i L ih =>
    rw [List.foldl_cons, ih]
    split <;> simp

theorem measureProb_fold (idx : Nat → Nat) (vec : List ℂ) (t : Nat) (p : List ℝ) (b : Nat) (hb : b < p.length) :
    ((List.range t).foldl (fun p i => if vec.getD i 0 = 0 then p
      else p.set (idx i) (p.getD (idx i) 0 + Complex.normSq (vec.getD i 0))) p).getD b 0
      = p.getD b 0 + ∑ i ∈ (range t).filter (fun i => idx i = b), Complex.normSq (vec.getD i 0) := by
  induction t with
  | zero => simp
  | succ t ih =>
    rw [List.range_succ, List.foldl_append, List.foldl_cons, List.foldl_nil, Finset.range_add_one,
      Finset.filter_insert]
    have hlen := length_measureProb_fold idx vec (List.range t) p
    by_cases hz : vec.getD t 0 = 0
    · rw [if_pos hz, ih]
      split
      · rw [Finset.sum_insert (by simp), hz]
        simp
      · rfl
    · rw [if_neg hz]
      by_cases he : idx t = b
      · rw [if_pos he, Finset.sum_insert (by simp), he, List.getD_eq_getElem?_getD, List.getElem?_set,
          if_pos rfl, if_pos (by omega), Option.getD_some, ih]
        ring
      · rw [if_neg he, List.getD_eq_getElem?_getD, List.getElem?_set, if_neg he, ← List.getD_eq_getElem?_getD, ih]

/-- Closed form of `measure_probabilities`. -/
theorem measureProbabilities_eq {n : Nat} {indices : List Nat} (hlt : ∀ q ∈ indices, q < n) (vec : List ℂ)
    (hl : vec.length = 2 ^ n) :
    measureProbabilities indices n vec = .ok ((List.range (2 ^ indices.length)).map fun b =>
      ∑ c ∈ (range (2 ^ n)).filter (fun c => subIndex n indices.reverse c = b), Complex.normSq (vec.getD c 0)) := by
  unfold measureProbabilities
  rw [if_neg]
  · congr 1
    apply List.ext_getElem
    · rw [length_measureProb_fold]; simp
    · intro b h1 h2
      rw [length_measureProb_fold, List.length_replicate] at h1
      have := measureProb_fold (probIndex n indices) vec (2 ^ n) (List.replicate (2 ^ indices.length) 0) b (by simpa)
      rw [List.getD_eq_getElem _ _ (by rw [length_measureProb_fold]; simpa)] at this
      rw [this]
      simp only [probIndex_eq]
      simp [h1]
  · rintro (⟨q, hq, hq'⟩ | h)
    · have := hlt q hq; omega
    · omega

/-! ## The heap -/

theorem bubble_def (heap : List (Nat × ℝ)) (pos : Nat) :
    bubble heap pos = if pos > 0 ∧ (heap.getD pos (0, 0)).2 > (heap.getD ((pos - 1) >>> 1) (0, 0)).2 then
      bubble ((heap.set pos (heap.getD ((pos - 1) >>> 1) (0, 0))).set ((pos - 1) >>> 1) (heap.getD pos (0, 0)))
        ((pos - 1) >>> 1)
    else heap := by
  rw [bubble]

theorem bubble_append (A B : List (Nat × ℝ)) (pos : Nat) (hpos : pos < A.length) :
    bubble (A ++ B) pos = bubble A pos ++ B ∧ (bubble A pos).Perm A := by
  induction pos using Nat.strongRecOn generalizing A with
  | ind pos ih =>
    rw [bubble_def (A ++ B) pos, bubble_def A pos]
    have hpar : (pos - 1) >>> 1 < A.length := by simp only [Nat.shiftRight_one]; omega
    have e : ∀ i < A.length, (A ++ B).getD i (0, 0) = A.getD i (0, 0) := by
      intro i hi
      simp [List.getD_eq_getElem?_getD, List.getElem?_append_left hi]
    rw [e pos hpos, e _ hpar]
    by_cases hc : pos > 0 ∧ (A.getD pos (0, 0)).2 > (A.getD ((pos - 1) >>> 1) (0, 0)).2
    · rw [if_pos hc, if_pos hc, List.set_append_left _ _ hpos, List.set_append_left _ _ (by simpa using hpar)]
      have hlt : (pos - 1) >>> 1 < pos := by simp only [Nat.shiftRight_one]; omega
      obtain ⟨h1, h2⟩ := ih _ hlt ((A.set pos (A.getD ((pos - 1) >>> 1) (0, 0))).set ((pos - 1) >>> 1)
        (A.getD pos (0, 0))) (by simpa using hpar)
      refine ⟨h1, h2.trans ?_⟩
      rw [List.getD_eq_getElem _ _ hpos, List.getD_eq_getElem _ _ hpar]
      exact List.set_set_perm hpos hpar
    · rw [if_neg hc, if_neg hc]
      exact ⟨rfl, List.Perm.refl _⟩

theorem length_bubble (A : List (Nat × ℝ)) (pos : Nat) (hpos : pos < A.length) : (bubble A pos).length = A.length :=
  (bubble_append A [] pos hpos).2.length_eq

/-- The heap after `t ≤ K` outcomes. -/
theorem topFold {prob : Nat → ℝ} {K : Nat} (hp : ∀ m < K, 0 ≤ prob m) (t : Nat) (ht : t ≤ K) :
    ∃ A : List (Nat × ℝ), A.Perm ((List.range t).map fun m => (m, prob m)) ∧
      (List.range t).foldlM (topStep prob K) (List.replicate K (0, 0), 0)
        = .ok (A ++ List.replicate (K - t) (0, 0), t) := by
  induction t with
  | zero => exact ⟨[], by simp, by simp; rfl⟩
  | succ t ih =>
    obtain ⟨A, hA, hf⟩ := ih (by omega)
    have hlen : A.length = t := by simpa using hA.length_eq
    have hK : K - t = (K - (t + 1)) + 1 := by omega
    refine ⟨bubble (A ++ [(t, prob t)]) t, ?_, ?_⟩
    · refine (bubble_append _ [] t (by simp [hlen])).2.trans ?_
      rw [List.range_succ, List.map_append]
      exact hA.append_right _
    · rw [List.range_succ, List.foldlM_append, hf]
      simp only [bind, Except.bind, List.foldlM_cons, List.foldlM_nil]
      rw [hK, List.replicate_succ]
      have hget : (A ++ (0, 0) :: List.replicate (K - (t + 1)) ((0 : Nat), (0 : ℝ)))[t]? = some (0, 0) := by
        rw [List.getElem?_append_right (by omega), hlen]
        simp
      have hset : (A ++ (0, 0) :: List.replicate (K - (t + 1)) ((0 : Nat), (0 : ℝ))).set t (t, prob t)
          = (A ++ [(t, prob t)]) ++ List.replicate (K - (t + 1)) (0, 0) := by
        rw [List.set_append_right _ _ (by omega), hlen]
        simp
      unfold topStep
      simp only [hget]
      rw [if_pos (hp t (by omega)), if_pos (by omega), hset, (bubble_append _ _ t (by simp [hlen])).1]
      rfl

/-- If there are more outcomes than buffer entries, the access after the last entry happens. -/
theorem topFold_oob {prob : Nat → ℝ} {K N : Nat} (hp : ∀ m < K, 0 ≤ prob m) (hKN : K < N) :
    (List.range N).foldlM (topStep prob K) (List.replicate K (0, 0), 0) = .error .ub := by
  obtain ⟨A, hA, hf⟩ := topFold hp K le_rfl
  have hlen : A.length = K := by simpa using hA.length_eq
  obtain ⟨d, rfl⟩ := Nat.exists_eq_add_of_lt hKN
  have e : K + d + 1 = K + (d + 1) := by omega
  rw [e, List.range_add, List.foldlM_append, hf]
  simp only [bind, Except.bind, List.range_succ_eq_map, List.map_cons, List.foldlM_cons]
  have : topStep prob K (A ++ List.replicate (K - K) (0, 0), K) (K + 0) = .error .ub := by
    unfold topStep
    have hn : (A ++ List.replicate (K - K) ((0 : Nat), (0 : ℝ)))[K]? = none := by
      apply List.getElem?_eq_none
      simp [hlen]
    simp only [hn]
  rw [this]

end QIP
