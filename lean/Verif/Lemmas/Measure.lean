import Mathlib.Algebra.BigOperators.Ring.Finset
import Mathlib.Algebra.Order.BigOperators.Group.Finset
import Mathlib.Algebra.Order.BigOperators.Group.List
import Mathlib.Tactic.Linarith
import Mathlib.Tactic.FieldSimp
import Verif.Lemmas.Entwine
import Verif.Lemmas.FuncApply
import Verif.Model.Measure
import Verif.Spec.Measure

/-! # Closed forms of the measurement kernels -/

namespace QIP

open Spec Finset

/-- Distinct qubits below `n`. -/
structure IdxOK (n : Nat) (indices : List Nat) : Prop where
  nodup : indices.Nodup
  lt : ∀ q ∈ indices, q < n

namespace IdxOK
variable {n : Nat} {indices : List Nat} (h : IdxOK n indices)
include h

theorem not_bad : ¬ badIndices n indices := by
  rintro (⟨q, hq, hq'⟩ | hn)
  · have := h.lt q hq; omega
  · exact hn h.nodup

theorem length_le : indices.length ≤ n := length_le_of_lt h.nodup h.lt

theorem qbit_rowMask {q : Nat} (hq : q < n) : qbit n (rowMask n indices) q = decide (q ∈ indices) := by
  unfold rowMask
  rw [testBit_foldl_setBit n indices (fun _ => true) h.nodup h.lt _ le_rfl _ _ hq, List.take_length, qbit_zero]
  by_cases hm : q ∈ indices <;> simp [hm]

theorem rowMask_lt : rowMask n indices < 2 ^ n := by
  apply lt_two_pow_of_high
  intro b hb
  unfold rowMask
  rw [setBit_foldl_high n indices (fun _ => true) h.lt _ le_rfl _ _ hb]
  simp

theorem maskOn_eq : maskOn n (rowMask n indices) = inOrder n indices := by
  unfold maskOn inOrder
  apply List.filter_congr
  intro q hq
  exact h.qbit_rowMask (List.mem_range.1 hq)

theorem length_inOrder : (inOrder n indices).length = indices.length := by
  apply List.Perm.length_eq
  unfold inOrder
  rw [List.perm_ext_iff_of_nodup (List.nodup_range.filter _) h.nodup]
  intro a
  simp only [List.mem_filter, List.mem_range, decide_eq_true_eq]
  exact ⟨fun ha => ha.2, fun ha => ⟨h.lt a ha, ha⟩⟩

theorem mem_inOrder {q : Nat} : q ∈ inOrder n indices ↔ q ∈ indices := by
  simp only [inOrder, List.mem_filter, List.mem_range, decide_eq_true_eq]
  exact ⟨fun ha => ha.2, fun ha => ⟨h.lt q ha, ha⟩⟩

omit h in
theorem nodup_inOrder : (inOrder n indices).Nodup := List.nodup_range.filter _

theorem on_len : (maskOn (indices.length + (n - indices.length)) (rowMask n indices)).length = indices.length := by
  have e : indices.length + (n - indices.length) = n := by have := h.length_le; omega
  rw [e, h.maskOn_eq, h.length_inOrder]

theorem entwine_eq (m i : Nat) :
    entwineBit indices.length (n - indices.length) m i (rowMask n indices)
      = spread n (maskOff n (rowMask n indices)) (spread n (inOrder n indices) 0 m) i := by
  rw [entwineBit_eq h.on_len]
  have e : indices.length + (n - indices.length) = n := by have := h.length_le; omega
  rw [e, h.maskOn_eq]

theorem length_off : (maskOff n (rowMask n indices)).length = n - indices.length := by
  rw [length_maskOff, h.maskOn_eq, h.length_inOrder]

theorem mem_off {q : Nat} : q ∈ maskOff n (rowMask n indices) ↔ q < n ∧ q ∉ indices := by
  rw [mem_maskOff]
  constructor
  · rintro ⟨h1, h2⟩
    rw [h.qbit_rowMask h1] at h2
    exact ⟨h1, by simpa using h2⟩
  · rintro ⟨h1, h2⟩
    refine ⟨h1, ?_⟩
    rw [h.qbit_rowMask h1]
    simpa using h2

/-- Basis states reached by varying the unmeasured qubits are those showing outcome `m`. -/
theorem agree_iff {m c : Nat} (hm : m < 2 ^ indices.length) :
    AgreeOff n (maskOff n (rowMask n indices)) (spread n (inOrder n indices) 0 m) c
      ↔ subIndex n (inOrder n indices) c = m := by
  have hon : subIndex n (inOrder n indices) (spread n (inOrder n indices) 0 m) = m :=
    subIndex_spread 0 nodup_inOrder (fun q hq => h.lt q (h.mem_inOrder.1 hq)) (by rwa [h.length_inOrder])
  constructor
  · intro H
    rw [← hon]
    apply subIndex_congr
    intro q hq
    have hq' := h.mem_inOrder.1 hq
    exact (H q (h.lt q hq') fun hh => (h.mem_off.1 hh).2 hq').symm
  · intro H q hq hoff
    have hq' : q ∈ inOrder n indices := by
      rw [h.mem_inOrder]
      by_contra hn
      exact hoff (h.mem_off.2 ⟨hq, hn⟩)
    rw [← testBit_subIndex_idxOf hq' c, ← testBit_subIndex_idxOf hq' (spread n (inOrder n indices) 0 m), H, hon]

theorem sum_entwine {M : Type} [AddCommMonoid M] {m : Nat} (hm : m < 2 ^ indices.length) (F : Nat → M) :
    ∑ i ∈ range (2 ^ (n - indices.length)),
        F (entwineBit indices.length (n - indices.length) m i (rowMask n indices))
      = ∑ c ∈ (range (2 ^ n)).filter (fun c => subIndex n (inOrder n indices) c = m), F c := by
  simp only [h.entwine_eq]
  rw [← h.length_off, ← sum_agreeOff (nodup_maskOff _ _) (fun q hq => (mem_maskOff.1 hq).1)]
  apply Finset.sum_congr _ fun _ _ => rfl
  apply Finset.filter_congr
  intro c _
  exact h.agree_iff hm

theorem softAcc_eq (vec : List ℂ) (inOff : Nat) {m : Nat} (hm : m < 2 ^ indices.length) :
    softAcc n indices vec inOff m = outcomeProb n indices (sliceAt inOff vec) m := by
  unfold softAcc outcomeProb
  rw [← h.sum_entwine hm, ← sum_map_range]
  have : ∀ vi : Nat, ∀ acc : ℝ, (if inOff ≤ vi ∧ vi < vec.length + inOff then
      acc + Complex.normSq (vec.getD (vi - inOff) 0) else acc) = acc + Complex.normSq (sliceAt inOff vec vi) := by
    intro vi acc
    unfold sliceAt
    by_cases h1 : inOff ≤ vi
    · rw [if_pos h1]
      by_cases h2 : vi < vec.length + inOff
      · rw [if_pos ⟨h1, h2⟩]
      · rw [if_neg (fun H => h2 H.2), List.getD_eq_default _ _ (by omega)]
        simp
    · rw [if_neg h1, if_neg fun H => h1 H.1]
      simp
  simp only [this]
  rw [foldl_add_eq (fun i => Complex.normSq (sliceAt inOff vec
    (entwineBit indices.length (n - indices.length) m i (rowMask n indices))))]
  simp

theorem topProb_eq (vec : List ℂ) {m : Nat} (hm : m < 2 ^ indices.length) :
    topProb n indices vec m = outcomeProb n indices (fun c => vec.getD c 0) m := by
  unfold topProb outcomeProb
  rw [← h.sum_entwine hm, ← sum_map_range,
    foldl_add_eq (fun i => Complex.normSq (vec.getD
      (entwineBit indices.length (n - indices.length) m i (rowMask n indices)) 0))]
  simp

theorem subIndex_lt' (c : Nat) : subIndex n (inOrder n indices) c < 2 ^ indices.length := by
  rw [← h.length_inOrder]; exact subIndex_lt _ _ _

theorem sum_outcomeProb (v : Nat → ℂ) :
    ∑ m ∈ range (2 ^ indices.length), outcomeProb n indices v m = totalProb n v := by
  unfold outcomeProb totalProb
  exact Finset.sum_fiberwise_of_maps_to (fun c _ => mem_range.2 (h.subIndex_lt' c)) _

end IdxOK

theorem outcomeProb_nonneg (n : Nat) (indices : List Nat) (v : Nat → ℂ) (m : Nat) : 0 ≤ outcomeProb n indices v m :=
  Finset.sum_nonneg fun _ _ => Complex.normSq_nonneg _

theorem outcomeProb_congr {n : Nat} {indices : List Nat} {v w : Nat → ℂ} (hvw : ∀ c < 2 ^ n, v c = w c) (m : Nat) :
    outcomeProb n indices v m = outcomeProb n indices w m := by
  unfold outcomeProb
  apply Finset.sum_congr rfl
  intro c hc
  rw [hvw c (mem_range.1 (mem_filter.1 hc).1)]

theorem probMagnitude_eq (g : ℝ) (vec : List ℂ) {n inOff : Nat} (hl : vec.length + inOff ≤ 2 ^ n) :
    probMagnitude g vec = g + totalProb n (sliceAt inOff vec) := by
  unfold probMagnitude totalProb
  rw [foldl_add_eq (fun i => Complex.normSq (vec.getD i 0)), sum_map_range]
  congr 1
  have hsub : (range vec.length).image (· + inOff) ⊆ range (2 ^ n) := by
    intro c hc
    simp only [mem_image, mem_range] at hc ⊢
    omega
  rw [← Finset.sum_subset hsub, Finset.sum_image (by intro a _ b _ e; simpa using e)]
  · apply Finset.sum_congr rfl
    intro i _
    simp [sliceAt]
  · intro c _ hc
    simp only [mem_image, mem_range, not_exists, not_and] at hc
    unfold sliceAt
    split
    · rw [List.getD_eq_default]
      · simp
      · by_contra hlt
        exact hc (c - inOff) (by omega) (by omega)
    · simp

/-! ## The outcome selection loop -/

theorem softLoop_spec (acc : Nat → ℝ) (l a : Nat) (r : ℝ) :
    ∃ m, softLoop acc (List.range' a (l + 1)) r = (m, acc m) ∧ a ≤ m ∧ m ≤ a + l ∧
      (∀ j, a ≤ j → j < m → ∑ i ∈ Finset.Ico a (j + 1), acc i < r) ∧
      (m = a + l ∨ r ≤ ∑ i ∈ Finset.Ico a (m + 1), acc i) := by
  induction l generalizing a r with
  | zero =>
    refine ⟨a, ?_, le_rfl, by omega, fun j h1 h2 => by omega, Or.inl rfl⟩
    simp [softLoop, List.range']
  | succ l ih =>
    rw [List.range'_succ]
    unfold softLoop
    by_cases h : r - acc a ≤ 0
    · rw [if_pos h]
      refine ⟨a, rfl, le_rfl, by omega, fun j h1 h2 => by omega, Or.inr ?_⟩
      simp only [Nat.Ico_succ_singleton, Finset.sum_singleton]
      linarith
    · rw [if_neg h, if_neg (by simp [List.range'_succ])]
      obtain ⟨m, h1, h2, h3, h4, h5⟩ := ih (a + 1) (r - acc a)
      refine ⟨m, h1, by omega, by omega, ?_, ?_⟩
      · intro j hj1 hj2
        rw [Finset.sum_eq_sum_Ico_succ_bot (by omega)]
        by_cases hja : j = a
        · subst hja
          simp
          linarith
        · have := h4 j (by omega) hj2
          linarith
      · rcases h5 with h5 | h5
        · left; omega
        · right
          rw [Finset.sum_eq_sum_Ico_succ_bot (by omega)]
          linarith

/-- Probability of an outcome below `m`. -/
noncomputable def cumProb (n : Nat) (indices : List Nat) (v : Nat → ℂ) (m : Nat) : ℝ :=
  ∑ j ∈ range m, outcomeProb n indices v j

theorem cumProb_succ (n : Nat) (indices : List Nat) (v : Nat → ℂ) (m : Nat) :
    cumProb n indices v (m + 1) = cumProb n indices v m + outcomeProb n indices v m := by
  simp [cumProb, Finset.sum_range_succ]

theorem cumProb_mono (n : Nat) (indices : List Nat) (v : Nat → ℂ) {a b : Nat} (h : a ≤ b) :
    cumProb n indices v a ≤ cumProb n indices v b :=
  Finset.sum_le_sum_of_subset_of_nonneg (Finset.range_mono h) fun _ _ _ => outcomeProb_nonneg _ _ _ _

/-- Closed form of an unforced `soft_measure`. -/
theorem softMeasure_spec {n : Nat} {indices : List Nat} (h : IdxOK n indices) (vec : List ℂ) (inOff : Nat)
    (hl : vec.length + inOff ≤ 2 ^ n) (u g : ℝ) :
    ∃ m, softMeasure indices n vec none inOff u g = .ok (m, outcomeProb n indices (sliceAt inOff vec) m) ∧
      m < 2 ^ indices.length ∧
      (∀ j < m, cumProb n indices (sliceAt inOff vec) (j + 1) < u * (g + totalProb n (sliceAt inOff vec))) ∧
      (m + 1 = 2 ^ indices.length ∨
        u * (g + totalProb n (sliceAt inOff vec)) ≤ cumProb n indices (sliceAt inOff vec) (m + 1)) := by
  have hk : 0 < 2 ^ indices.length := by positivity
  obtain ⟨l, hl'⟩ : ∃ l, 2 ^ indices.length = l + 1 := ⟨2 ^ indices.length - 1, by omega⟩
  unfold softMeasure
  rw [if_neg h.not_bad]
  have hlt : indices.length < 2 ^ n := lt_of_le_of_lt h.length_le Nat.lt_two_pow_self
  simp only [if_pos hlt]
  obtain ⟨m, h1, h2, h3, h4, h5⟩ := softLoop_spec (softAcc n indices vec inOff) l 0 (u * probMagnitude g vec)
  have hm : m < 2 ^ indices.length := by omega
  have hcum : ∀ j ≤ m, ∑ i ∈ Finset.Ico 0 (j + 1), softAcc n indices vec inOff i
      = cumProb n indices (sliceAt inOff vec) (j + 1) := by
    intro j hj
    rw [← Finset.range_eq_Ico]
    apply Finset.sum_congr rfl
    intro i hi
    exact h.softAcc_eq vec inOff (by have := mem_range.1 hi; omega)
  rw [probMagnitude_eq g vec hl] at h4 h5 h1
  refine ⟨m, ?_, hm, ?_, ?_⟩
  · rw [probMagnitude_eq g vec hl, hl', List.range_eq_range', h1, h.softAcc_eq vec inOff hm]
  · intro j hj
    rw [← hcum j (by omega)]
    exact h4 j (by omega) hj
  · rcases h5 with h5 | h5
    · left; omega
    · right
      rw [← hcum m le_rfl]
      exact h5

/-- Closed form of a forced `soft_measure`. -/
theorem softMeasure_forced {n : Nat} {indices : List Nat} (h : IdxOK n indices) (vec : List ℂ) (inOff : Nat)
    {m : Nat} (hm : m < 2 ^ indices.length) (u g : ℝ) :
    softMeasure indices n vec (some m) inOff u g = .ok (m, outcomeProb n indices (sliceAt inOff vec) m) := by
  unfold softMeasure
  rw [if_neg h.not_bad]
  simp [softLoop, h.softAcc_eq vec inOff hm]

/-! ## `measure` -/

theorem and_mask_iff {n : Nat} {indices : List Nat} (h : IdxOK n indices) {m i : Nat} (hm : m < 2 ^ indices.length)
    (hi : i < 2 ^ n) :
    (i &&& rowMask n indices) ^^^ entwineBit indices.length (n - indices.length) m 0 (rowMask n indices) ≠ 0
      ↔ subIndex n (inOrder n indices) i ≠ m := by
  have hx : ∀ a b : Nat, a ^^^ b = 0 ↔ a = b := fun a b => Nat.xor_eq_zero_iff
  rw [not_iff_not, hx, h.entwine_eq, ← h.agree_iff hm]
  have hq : ∀ q < n, qbit n (i &&& rowMask n indices) q = (qbit n i q && decide (q ∈ indices)) := by
    intro q hq
    rw [← h.qbit_rowMask hq]
    simp [qbit]
  have hq' : ∀ q < n, qbit n (spread n (maskOff n (rowMask n indices)) (spread n (inOrder n indices) 0 m) 0) q
      = (qbit n (spread n (inOrder n indices) 0 m) q && decide (q ∈ indices)) := by
    intro q hqn
    rw [qbit_spread _ _ _ hqn]
    by_cases hmem : q ∈ indices
    · rw [if_neg fun hh => (h.mem_off.1 hh).2 hmem]
      simp [hmem]
    · rw [if_pos (h.mem_off.2 ⟨hqn, hmem⟩)]
      simp [hmem]
  constructor
  · intro e q hqn hoff
    have hmem : q ∈ indices := by
      by_contra hn
      exact hoff (h.mem_off.2 ⟨hqn, hn⟩)
    have := hq' q hqn
    rw [← e, hq q hqn] at this
    simpa [hmem] using this.symm
  · intro H
    apply qbit_ext (lt_of_le_of_lt Nat.and_le_left hi) (spread_lt _ _ _ _)
    intro q hqn
    rw [hq q hqn, hq' q hqn]
    by_cases hmem : q ∈ indices
    · rw [H q hqn fun hh => (h.mem_off.1 hh).2 hmem]
    · simp [hmem]

theorem foldl_set_range' {α : Type} (f : Nat → α) (outOff : Nat) (len lo : Nat) (hlo : outOff ≤ lo) (o : List α) (j : Nat)
    (hj : j < o.length) :
    ((List.range' lo len).foldl (fun o i => o.set (i - outOff) (f i)) o)[j]?
      = if lo ≤ j + outOff ∧ j + outOff < lo + len then some (f (j + outOff)) else o[j]? := by
  induction len generalizing lo o with
  | zero => rw [if_neg (by omega)]; simp
  | succ len ih =>
    rw [List.range'_succ, List.foldl_cons, ih (lo + 1) (by omega) _ (by simpa using hj), List.getElem?_set]
    by_cases h1 : lo - outOff = j
    · have e : j + outOff = lo := by omega
      rw [if_neg (by omega), if_pos h1, if_pos (by omega), if_pos (by omega), e]
    · rw [if_neg h1]
      by_cases h2 : lo + 1 ≤ j + outOff ∧ j + outOff < lo + 1 + len
      · rw [if_pos h2, if_pos (by omega)]
      · rw [if_neg h2, if_neg (by omega)]

theorem length_foldl_set' {α ι : Type} (f : ι → Nat) (g : List α → ι → α) (L : List ι) (o : List α) :
    (L.foldl (fun o i => o.set (f i) (g o i)) o).length = o.length := by
  induction L generalizing o with
  | nil => rfl
  | cons i L ih => rw [List.foldl_cons, ih]; simp

/-- The amplitude after the collapse. -/
noncomputable def collapsed (n : Nat) (indices : List Nat) (v : Nat → ℂ) (m : Nat) (p : ℝ) (i : Nat) : ℂ :=
  if subIndex n (inOrder n indices) i = m then v i * ((√(1 / p) : ℝ) : ℂ) else 0

/-- Closed form of `measure` after the outcome is chosen. -/
theorem measure_eq {n : Nat} {indices : List Nat} (h : IdxOK n indices) (vec out : List ℂ) (inOff outOff : Nat)
    (hl : vec.length + inOff ≤ 2 ^ n) {measured : Option Int}
    {measuredProb : Option ℝ} {u g : ℝ} {m : Nat} {p mult : ℝ} (hm : m < 2 ^ indices.length)
    (hmult : mult = √(1 / p))
    (hc : chooseOutcome indices n vec inOff measured measuredProb u g = .ok (m, p, mult)) :
    ∃ out', measure indices n vec out inOff outOff measured measuredProb u g = .ok (m, p, out') ∧
      out'.length = out.length ∧
      ∀ j < out.length, out'[j]? = if inOff ≤ j + outOff ∧ j + outOff < inOff + vec.length then
        some (collapsed n indices (sliceAt inOff vec) m p (j + outOff)) else out[j]? := by
  unfold measure
  rw [hc]
  simp only [bind, Except.bind]
  rw [if_neg h.not_bad]
  refine ⟨_, rfl, ?_, ?_⟩
  · have e : ∀ (o : List ℂ) (i : Nat), (if (i &&& rowMask n indices) ^^^
        entwineBit indices.length (n - indices.length) m 0 (rowMask n indices) ≠ 0 then o.set (i - outOff) 0
        else o.set (i - outOff) (vec.getD (i - inOff) 0 * (mult : ℂ)))
        = o.set (i - outOff) (if (i &&& rowMask n indices) ^^^
        entwineBit indices.length (n - indices.length) m 0 (rowMask n indices) ≠ 0 then 0
        else vec.getD (i - inOff) 0 * (mult : ℂ)) := by
      intro o i; split <;> rfl
    simp only [e]
    exact length_foldl_set (fun i => i - outOff) _ _ _
  · intro j hj
    have e : ∀ (o : List ℂ) (i : Nat), (if (i &&& rowMask n indices) ^^^
        entwineBit indices.length (n - indices.length) m 0 (rowMask n indices) ≠ 0 then o.set (i - outOff) 0
        else o.set (i - outOff) (vec.getD (i - inOff) 0 * (mult : ℂ)))
        = o.set (i - outOff) (if (i &&& rowMask n indices) ^^^
        entwineBit indices.length (n - indices.length) m 0 (rowMask n indices) ≠ 0 then 0
        else vec.getD (i - inOff) 0 * (mult : ℂ)) := by
      intro o i; split <;> rfl
    simp only [e]
    rw [foldl_set_range' (fun i => if (i &&& rowMask n indices) ^^^
        entwineBit indices.length (n - indices.length) m 0 (rowMask n indices) ≠ 0 then 0
        else vec.getD (i - inOff) 0 * (mult : ℂ)) outOff _ _ (le_max_right _ _) _ _ hj]
    by_cases hw : inOff ≤ j + outOff ∧ j + outOff < inOff + vec.length
    · rw [if_pos hw, if_pos (by omega)]
      congr 1
      unfold collapsed
      rw [if_congr (and_mask_iff h hm (by omega)) rfl rfl]
      rw [hmult, sliceAt, if_pos hw.1]
      by_cases heq : subIndex n (inOrder n indices) (j + outOff) = m
      · rw [if_neg (not_not.2 heq), if_pos heq]
      · rw [if_pos heq, if_neg heq]
    · rw [if_neg hw, if_neg]
      have h1 := le_max_left inOff outOff
      have h2 := min_le_left (inOff + vec.length) (outOff + out.length)
      omega

end QIP
