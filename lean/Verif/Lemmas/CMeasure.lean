import Verif.Lemmas.CGate
import Verif.Lemmas.MeasureTop
import Verif.Model.CMeasure

/-!
# The measurement kernels on C ints refine those on natural numbers
-/

namespace QIP.C32

open QIP Spec

theorem and_I {a b : Nat} (ha : a < 2 ^ 31) (hb : b < 2 ^ 31) : I a &&& I b = I (a &&& b) := by
  apply BitVec.eq_of_toNat_eq
  rw [BitVec.toNat_and, toNat_I ha, toNat_I hb, toNat_I (Nat.and_le_left.trans_lt ha)]

theorem xor_I {a b : Nat} (ha : a < 2 ^ 31) (hb : b < 2 ^ 31) : I a ^^^ I b = I (a ^^^ b) := by
  apply BitVec.eq_of_toNat_eq
  rw [BitVec.toNat_xor, toNat_I ha, toNat_I hb, toNat_I (Nat.xor_lt_two_pow ha hb)]

theorem shl_I {a k : Nat} (ha : a < 2 ^ 31) (hk : k < 32) (h : a <<< k < 2 ^ 31) : shl (I a) (I k) = .ok (I (a <<< k)) := by
  unfold shl fits
  rw [Nat.shiftLeft_eq] at h ⊢
  have h1 : ((a * 2 ^ k : Nat) : Int) < 2 ^ 31 := by exact_mod_cast h
  have h0 : (0 : Int) ≤ ((a * 2 ^ k : Nat) : Int) := by positivity
  push_cast at h1 h0
  rw [toInt_I (by omega : k < 2 ^ 31), if_pos (by omega), toInt_I ha, toNat_I (by omega : k < 2 ^ 31), if_pos (by omega)]
  congr 1
  apply BitVec.eq_of_toNat_eq
  rw [BitVec.toNat_shiftLeft, toNat_I ha, toNat_I h, Nat.shiftLeft_eq, Nat.mod_eq_of_lt (by omega)]

theorem shr_I {a k : Nat} (ha : a < 2 ^ 31) (hk : k < 32) : shr (I a) (I k) = .ok (I (a >>> k)) := by
  unfold shr
  rw [toInt_I (by omega), if_pos (by omega), toNat_I (by omega), sshiftRight_I ha]

theorem pow2L_I {k : Nat} (h : k < 63) : pow2L (I k) = .ok (2 ^ k) := by
  unfold pow2L
  rw [toInt_I (by omega), if_pos (by omega), toNat_I (by omega)]

theorem shiftRight_lt {a k b : Nat} (h : a < b) : a >>> k < b := by
  rw [Nat.shiftRight_eq_div_pow]; exact (Nat.div_le_self _ _).trans_lt h

/-- The state of the loop of `entwine_bit` as C ints. -/
def imgSt (s : QIP.EntwineSt) : EntSt := ⟨I s.nI, I s.nN, I s.maskI, I s.maskN, I s.select, I s.m⟩

theorem entwineStepI_I {nI nN vI vN mask j : Nat} (hn : nI + nN ≤ 31) (hon : (maskOn (nI + nN) mask).length = nI)
    (hj : j < nI + nN) (hI : vI < 2 ^ 31) (hN : vN < 2 ^ 31) (hm : mask < 2 ^ 31) :
    entwineStepI (I (nI + nN)) (I vI) (I vN) (I mask) (imgSt (entwineInv nI nN vI vN mask j)) (I j)
      = .ok (imgSt (entwineInv nI nN vI vN mask (j + 1))) := by
  have hstep := entwineStep_inv (vI := vI) (vN := vN) hon hj
  have hoff := length_maskOff (nI + nN) mask
  rw [hon, Nat.add_sub_cancel_left] at hoff
  have l1 := length_filter_range_le (fun q => qbit (nI + nN) mask q) (Nat.succ_le_of_lt hj)
  have l2 := length_filter_range_le (fun q => !qbit (nI + nN) mask q) (Nat.succ_le_of_lt hj)
  rw [length_filter_range_succ] at l1 l2
  change _ ≤ (maskOn (nI + nN) mask).length at l1
  change _ ≤ (maskOff (nI + nN) mask).length at l2
  rw [hon] at l1
  rw [hoff] at l2
  have hc := entwine_cond (mask := mask) hj
  have hmlt : (entwineInv nI nN vI vN mask j).m < 2 ^ j := by
    have := bitsVal_lt ((List.range j).map (entwineFun (nI + nN) nI nN vI vN mask))
    rw [List.length_map, List.length_range] at this
    exact this
  have hmlt' : (entwineInv nI nN vI vN mask (j + 1)).m < 2 ^ (j + 1) := by
    have := bitsVal_lt ((List.range (j + 1)).map (entwineFun (nI + nN) nI nN vI vN mask))
    rw [List.length_map, List.length_range] at this
    exact this
  have hj31 : 2 ^ (j + 1) ≤ 2 ^ 31 := Nat.pow_le_pow_right (by norm_num) (by omega)
  have hsel : (entwineInv nI nN vI vN mask j).select = 2 ^ (nI + nN - 1) >>> j := rfl
  have hmI : (entwineInv nI nN vI vN mask j).maskI < 2 ^ 31 :=
    shiftRight_lt (Nat.pow_lt_pow_right (by norm_num) (by omega))
  have hmN : (entwineInv nI nN vI vN mask j).maskN < 2 ^ 31 :=
    shiftRight_lt (Nat.pow_lt_pow_right (by norm_num) (by omega))
  have hsl : (entwineInv nI nN vI vN mask j).select < 2 ^ 31 :=
    shiftRight_lt (Nat.pow_lt_pow_right (by norm_num) (by omega))
  have hnI : (entwineInv nI nN vI vN mask j).nI = nI - ((List.range j).filter fun q => qbit (nI + nN) mask q).length := rfl
  have hnN : (entwineInv nI nN vI vN mask j).nN = nN - ((List.range j).filter fun q => !qbit (nI + nN) mask q).length := rfl
  generalize entwineInv nI nN vI vN mask (j + 1) = t at *
  generalize entwineInv nI nN vI vN mask j = s at *
  have hm2 : s.m <<< 1 < 2 ^ 31 := by rw [Nat.shiftLeft_eq]; rw [pow_succ] at hj31; omega
  unfold entwineStepI
  rw [show (1 : CInt) = I 1 from rfl]
  simp only [imgSt]
  rw [shl_I (by rw [pow_succ] at hj31; omega) (by norm_num) hm2, sub_I (by omega) (by omega)]
  simp only [bind, Except.bind]
  rw [sub_I (by omega) (by omega)]
  dsimp only
  rw [and_I hm hsl, shr_I (Nat.and_le_left.trans_lt hm) (by omega)]
  dsimp only
  have hcond : (I ((mask &&& s.select) >>> (nI + nN - 1 - j)) ≠ 0) ↔ qbit (nI + nN) mask j = true := by
    rw [show (0 : CInt) = I 0 from rfl, Ne, I_inj (shiftRight_lt (Nat.and_le_left.trans_lt hm)) (by norm_num), ← hc, hsel]
    simp
  unfold QIP.entwineStep at hstep
  rw [hsel, hc] at hstep
  rw [← hsel] at hstep
  by_cases hq : qbit (nI + nN) mask j = true
  · rw [if_pos (hcond.2 hq)]
    rw [if_pos hq] at hstep
    rw [hq, Bool.toNat_true] at l1
    rw [sub_I (by omega) (by omega)]
    dsimp only
    rw [and_I hI hmI, shr_I (Nat.and_le_left.trans_lt hI) (by omega)]
    subst hstep
    dsimp only at hmlt' ⊢
    rw [add_I (by omega)]
    dsimp only
    rw [sshiftRight_I hmI, sshiftRight_I hsl]
  · rw [if_neg fun h => hq (hcond.1 h)]
    rw [if_neg hq] at hstep
    rw [Bool.eq_false_iff.2 hq, Bool.not_false, Bool.toNat_true] at l2
    rw [sub_I (by omega) (by omega)]
    dsimp only
    rw [and_I hN hmN, shr_I (Nat.and_le_left.trans_lt hN) (by omega)]
    subst hstep
    dsimp only at hmlt' ⊢
    rw [add_I (by omega)]
    dsimp only
    rw [sshiftRight_I hmN, sshiftRight_I hsl]

theorem max0_I {k : Nat} (hk : k ≤ 31) : ∃ a, sub (I k) (I 1) = .ok a ∧ max0 a = I (k - 1) := by
  rcases k with - | k
  · exact ⟨_, rfl, by decide⟩
  · refine ⟨I k, sub_I (by omega) (by omega), ?_⟩
    unfold max0
    rw [toInt_I (by omega), if_neg (by omega)]
    rfl

theorem entwineI_I {nI nN vI vN mask : Nat} (hn0 : 1 ≤ nI + nN) (hn : nI + nN ≤ 31)
    (hon : (maskOn (nI + nN) mask).length = nI) (hI : vI < 2 ^ 31) (hN : vN < 2 ^ 31) (hm : mask < 2 ^ 31) :
    entwineI (I nI) (I nN) (I vI) (I vN) (I mask) = .ok (I (QIP.entwineBit nI nN vI vN mask)) := by
  obtain ⟨a, ha, ha'⟩ := max0_I (show nI ≤ 31 by omega)
  obtain ⟨b, hb, hb'⟩ := max0_I (show nN ≤ 31 by omega)
  have hp : ∀ k ≤ 30, 1 <<< k < 2 ^ 31 := fun k hk => by
    rw [Nat.one_shiftLeft]; exact Nat.pow_lt_pow_right (by norm_num) (by omega)
  have key : ∀ j ≤ nI + nN, ((List.range j).map I).foldlM (entwineStepI (I (nI + nN)) (I vI) (I vN) (I mask))
      (imgSt (entwineInv nI nN vI vN mask 0)) = .ok (imgSt (entwineInv nI nN vI vN mask j)) := by
    intro j hj
    induction j with
    | zero => rfl
    | succ j ih =>
      rw [List.range_succ, List.map_append, List.foldlM_append, ih (by omega)]
      simp only [bind, Except.bind, List.map_cons, List.map_nil, List.foldlM_cons, List.foldlM_nil]
      rw [entwineStepI_I hn hon (by omega) hI hN hm]
      rfl
  unfold entwineI
  rw [show (1 : CInt) = I 1 from rfl, ha, hb, add_I (by omega)]
  simp only [bind, Except.bind, ha', hb']
  rw [shl_I (by norm_num) (by omega) (hp _ (by omega))]
  dsimp only
  rw [shl_I (by norm_num) (by omega) (hp _ (by omega))]
  dsimp only
  rw [sub_I (by omega) (by omega)]
  dsimp only
  rw [shl_I (by norm_num) (by omega) (hp _ (by omega)), cRange_I (by omega)]
  dsimp only
  have e : (⟨I nI, I nN, I (1 <<< (nI - 1)), I (1 <<< (nN - 1)), I (1 <<< (nI + nN - 1)), 0⟩ : EntSt)
      = imgSt (entwineInv nI nN vI vN mask 0) := by
    simp [imgSt, entwineInv, Nat.one_shiftLeft]
  rw [e, key _ le_rfl]
  unfold QIP.entwineBit
  dsimp only
  rw [entwineFold_inv hon _ le_rfl]
  rfl

/-! ## Loops -/

theorem trunc_eq (k : Nat) : trunc k = I k := rfl


/-- Two loops whose bodies agree on the states that occur. -/
theorem foldlM_agree {ε σ α : Type} {L : List α} {f g : σ → α → Except ε σ} (P : σ → Prop) {x : σ} (hx : P x)
    (h : ∀ s, P s → ∀ a ∈ L, f s a = g s a ∧ ∀ s', g s a = .ok s' → P s') : L.foldlM f x = L.foldlM g x := by
  induction L generalizing x with
  | nil => rfl
  | cons a L ih =>
    have h1 := h x hx a (by simp)
    rw [List.foldlM_cons, List.foldlM_cons, h1.1]
    rcases hg : g x a with e | s'
    · rfl
    · exact ih (h1.2 s' hg) fun s hs b hb => h s hs b (by simp [hb])

theorem foldl_ok {ε σ α : Type} (L : List α) (g : σ → α → σ) (x : σ) :
    L.foldlM (fun s a => (.ok (g s a) : Except ε σ)) x = .ok (L.foldl g x) := by
  induction L generalizing x with
  | nil => rfl
  | cons a L ih => rw [List.foldlM_cons]; exact ih _

theorem write_I {α : Type} {a : List α} {i : Nat} (hi : i < 2 ^ 31) (h : i < a.length) (x : α) :
    write a (I i) x = .ok (a.set i x) := by
  unfold write
  rw [toInt_I hi, toNat_I hi, if_neg (by omega)]

/-- Loops whose states are the images of the states of another loop. -/
theorem foldlM_img {ε σ τ α : Type} {L : List α} {f : τ → α → Except ε τ} {g : σ → α → Except ε σ} (φ : σ → τ) (P : σ → Prop)
    {x : σ} (hx : P x) (h : ∀ s, P s → ∀ a ∈ L, f (φ s) a = (g s a).map φ ∧ ∀ s', g s a = .ok s' → P s') :
    L.foldlM f (φ x) = (L.foldlM g x).map φ := by
  induction L generalizing x with
  | nil => rfl
  | cons a L ih =>
    have h1 := h x hx a (by simp)
    rw [List.foldlM_cons, List.foldlM_cons, h1.1]
    rcases hg : g x a with e | s'
    · rfl
    · exact ih (h1.2 s' hg) fun s hs b hb => h s hs b (by simp [hb])

theorem pred_I {a : Nat} (h : a < 2 ^ 31) : ∃ w, sub (I a) (I 1) = .ok w ∧ (a > 0 → w.sshiftRight 1 = I ((a - 1) >>> 1)) := by
  rcases a with - | a
  · exact ⟨_, rfl, fun h => absurd h (by omega)⟩
  · exact ⟨I a, sub_I h (by omega), fun _ => sshiftRight_I (by omega) _⟩

theorem bubbleC_I {fuel pos : Nat} {heap : List (Nat × ℝ)} {parent : CInt} (hf : pos < fuel) (hp : pos < heap.length)
    (hh : heap.length < 2 ^ 31) (hpar : pos > 0 → parent = I ((pos - 1) >>> 1)) :
    bubbleC fuel heap (I pos) parent = .ok (bubble heap pos) := by
  induction fuel generalizing pos heap parent with
  | zero => omega
  | succ fuel ih =>
    unfold bubbleC bubble
    rw [toInt_I (by omega)]
    by_cases h0 : pos > 0
    · have hpp : (pos - 1) >>> 1 < pos := by rw [Nat.shiftRight_one]; omega
      rw [if_pos (by omega), hpar h0, read_I (by omega) hp]
      simp only [bind, Except.bind]
      rw [read_I (by omega) (by omega)]
      dsimp only
      rw [List.getD_eq_getElem _ _ hp, List.getD_eq_getElem _ _ (show (pos - 1) >>> 1 < heap.length by omega)]
      by_cases hgt : heap[pos].2 > heap[(pos - 1) >>> 1].2
      · rw [if_pos hgt, if_pos ⟨h0, hgt⟩, write_I (by omega) hp]
        dsimp only
        rw [write_I (by omega) (by rw [List.length_set]; omega)]
        dsimp only
        obtain ⟨w, hw, hw'⟩ := pred_I (show (pos - 1) >>> 1 < 2 ^ 31 by omega)
        rw [show (1 : CInt) = I 1 from rfl, hw]
        dsimp only
        exact ih (by omega) (by rw [List.length_set, List.length_set]; omega) (by rw [List.length_set, List.length_set]; omega) hw'
      · rw [if_neg hgt, if_neg fun h => hgt h.2]
    · rw [if_neg (by omega), if_neg fun h => h0 h.1]

theorem length_bubble (heap : List (Nat × ℝ)) (pos : Nat) : (bubble heap pos).length = heap.length := by
  induction pos using Nat.strong_induction_on generalizing heap with
  | _ pos ih =>
    unfold bubble
    split
    · rename_i h
      rw [ih _ (by rw [Nat.shiftRight_one]; omega)]
      simp
    · rfl

theorem probMagnitudeC_I {garbage : ℝ} {vec : List ℂ} (hv : vec.length ≤ 2 ^ 31) :
    probMagnitudeC garbage vec = .ok (probMagnitude garbage vec) := by
  unfold probMagnitudeC probMagnitude
  apply foldlM_ok
  intro s i hi
  have hi : i < vec.length := by simpa using hi
  change (read vec (I i) >>= _) = _
  rw [read_I (by omega) hi, List.getD_eq_getElem _ _ hi]
  rfl

theorem cRangeFrom_I {a b : Nat} (ha : a < 2 ^ 31) (hb : b < 2 ^ 31) :
    cRangeFrom (I a) (I b) = (List.range' a (b - a)).map I := by
  unfold cRangeFrom
  rw [toInt_I ha, toInt_I hb, List.range'_eq_map_range, List.map_map, show ((b : Int) - a).toNat = b - a by omega]
  apply List.map_congr_left
  intro k _
  exact (BitVec.ofNat_add a k).symm

/-- The numbers occurring in a measurement. -/
structure Sizes (n : Nat) (indices : List Nat) : Prop where
  idx : IdxOK n indices
  pos : 1 ≤ n
  small : n ≤ 30

namespace Sizes
variable {n : Nat} {indices : List Nat} (h : Sizes n indices)
include h

theorem pow_le : 2 ^ n ≤ 2 ^ 30 := Nat.pow_le_pow_right (by norm_num) h.small

theorem len : indices.length ≤ n := h.idx.length_le

theorem sum : indices.length + (n - indices.length) = n := by have := h.len; omega

theorem small_idx : ∀ q ∈ indices, q < 2 ^ 31 := fun q hq => by have := h.idx.lt q hq; have := h.small; omega

theorem mask_lt : rowMask n indices < 2 ^ 31 := by have := h.idx.rowMask_lt; have := h.pow_le; omega

theorem rowMaskC_I : rowMaskC (I n) (indices.map I) = .ok (I (rowMask n indices)) := by
  have hs := h.small
  have hl := h.len
  unfold rowMaskC rowMask
  rw [List.length_map]
  change (cRange (I indices.length)).foldlM _ (I 0) = _
  rw [cRange_I (by omega), List.foldlM_map]
  refine (foldlM_I _ _ _ (fun y => y < 2 ^ 31) (by norm_num) ?_).1
  intro y hy t ht
  have ht : t < indices.length := by simpa using ht
  have hq := h.idx.lt indices[t] (List.getElem_mem ht)
  rw [read_I (by omega) (by simpa using ht)]
  simp only [bind, Except.bind, List.getElem_map]
  rw [show (1 : CInt) = I 1 from rfl, sub_I (by omega) (by omega)]
  dsimp only
  rw [sub_I (by omega) (by omega)]
  dsimp only
  rw [setBitI_I hy (by omega) (by norm_num), List.getD_eq_getElem _ _ ht]
  exact ⟨rfl, setBit_lt hy (by omega)⟩

theorem entwine {m i : Nat} (hm : m < 2 ^ 31) (hi : i < 2 ^ 31) :
    entwineI (I indices.length) (I (n - indices.length)) (I m) (I i) (I (rowMask n indices))
      = .ok (I (QIP.entwineBit indices.length (n - indices.length) m i (rowMask n indices))) := by
  have hs := h.small
  have hp := h.pos
  have he := h.sum
  exact entwineI_I (by omega) (by omega) h.idx.on_len hm hi h.mask_lt

theorem entwine_lt (m i : Nat) : QIP.entwineBit indices.length (n - indices.length) m i (rowMask n indices) < 2 ^ n := by
  have := entwineBit_lt (vI := m) (vN := i) h.idx.on_len
  rwa [h.sum] at this

theorem probIndexC_I {i : Nat} (hi : i < 2 ^ 31) :
    probIndexC (I n) (indices.map I) i = .ok (I (probIndex n indices i)) ∧ probIndex n indices i < 2 ^ indices.length := by
  have hs := h.small
  have hl := h.len
  unfold probIndexC probIndex
  rw [List.length_map, show (trunc indices.length).toInt.toNat = indices.length by
    change (I indices.length).toInt.toNat = _; rw [toInt_I (by omega)]; rfl]
  refine foldlM_I _ _ _ (fun y => y < 2 ^ indices.length) (by positivity) ?_
  intro y hy t ht
  have ht : t < indices.length := by simpa using ht
  have hq := h.idx.lt indices[t] (List.getElem_mem ht)
  have hy' : y < 2 ^ 31 := hy.trans_le (Nat.pow_le_pow_right (by norm_num) (by omega))
  rw [List.getElem?_map, List.getElem?_eq_getElem ht]
  simp only [bind, Except.bind, Option.map_some]
  rw [show (1 : CInt) = I 1 from rfl, sub_I (by omega) (by omega)]
  dsimp only
  rw [sub_I (by omega) (by omega)]
  dsimp only [trunc]
  rw [getBitI_I hi (by omega)]
  dsimp only
  rw [setBitI_I hy' (by omega) (by cases QIP.getBit i (n - 1 - indices[t]) <;> norm_num)]
  have e : decide ((QIP.getBit i (n - 1 - indices[t])).toNat ≠ 0) = QIP.getBit i (n - 1 - indices[t]) := by
    cases QIP.getBit i (n - 1 - indices[t]) <;> rfl
  rw [e, List.getD_eq_getElem _ _ ht]
  exact ⟨rfl, setBit_lt hy (by omega)⟩

theorem probabilities {vec : List ℂ} (hv : 2 ^ n ≤ vec.length) :
    measureProbabilitiesC indices n vec = measureProbabilities indices n vec := by
  have hs := h.small
  have h30 := h.pow_le
  unfold measureProbabilitiesC measureProbabilities
  rw [if_neg (by
    rintro (⟨q, hq, hq'⟩ | hlt)
    · have := h.idx.lt q hq; omega
    · omega), mapM_ofPy h.small_idx, ofPy_ok (by omega)]
  simp only [bind, Except.bind]
  rw [pow2L_I (by omega)]
  dsimp only
  rw [← foldl_ok (ε := PyErr)]
  refine foldlM_agree (fun p => p.length = 2 ^ indices.length) (by simp) ?_
  intro p hp i hi
  have hi : i < 2 ^ n := by simpa using hi
  obtain ⟨h1, h2⟩ := h.probIndexC_I (i := i) (by omega)
  rw [List.getElem?_eq_getElem (by omega), List.getD_eq_getElem _ _ (by omega)]
  dsimp only
  have hl := h.len
  have hle : 2 ^ indices.length ≤ 2 ^ n := Nat.pow_le_pow_right (by norm_num) hl
  by_cases hx : vec[i] = 0
  · rw [if_pos hx, if_pos hx]
    refine ⟨rfl, ?_⟩
    rintro s' ⟨⟩
    exact hp
  · rw [if_neg hx, if_neg hx, h1]
    dsimp only
    rw [read_I (by omega) (by omega)]
    dsimp only
    rw [write_I (by omega) (by omega), List.getD_eq_getElem _ _ (by omega)]
    refine ⟨rfl, ?_⟩
    rintro s' ⟨⟩
    rw [List.length_set, hp]

theorem topProbC_I {vec : List ℂ} (hv : 2 ^ n ≤ vec.length) {m : Nat} (hm : m < 2 ^ 31) :
    topProbC (I n) (indices.map I) (I indices.length) (I (n - indices.length)) (2 ^ (n - indices.length)) vec m
      = .ok (topProb n indices vec m) := by
  have h30 := h.pow_le
  unfold topProbC topProb
  rw [h.rowMaskC_I]
  simp only [bind, Except.bind]
  apply foldlM_ok
  intro s j hj
  have hj : j < 2 ^ (n - indices.length) := by simpa using hj
  have hj' : j < 2 ^ n := hj.trans_le (Nat.pow_le_pow_right (by norm_num) (by omega))
  have hlt := h.entwine_lt m j
  rw [trunc_eq, trunc_eq]
  rw [h.entwine hm (by omega)]
  dsimp only
  rw [read_I (by omega) (by omega), List.getD_eq_getElem _ _ (by omega)]
  rfl

theorem top {vec : List ℂ} {topK : Nat} (hv : 2 ^ n ≤ vec.length) (hk : topK < 2 ^ 31) :
    measureTopProbabilitiesC indices n topK vec = measureTopProbabilities indices n topK vec := by
  have hs := h.small
  have h30 := h.pow_le
  have hl := h.len
  have hle : 2 ^ indices.length ≤ 2 ^ n := Nat.pow_le_pow_right (by norm_num) hl
  unfold measureTopProbabilitiesC measureTopProbabilities
  rw [if_neg (by
    rintro (hb | hlt)
    · exact h.idx.not_bad hb
    · omega), mapM_ofPy h.small_idx, ofPy_ok (by omega), ofPy_ok hk]
  simp only [bind, Except.bind]
  rw [toNat_I hk, ofPy_ok (by omega)]
  dsimp only
  simp only [trunc_eq]
  rw [sub_I (by omega) hl]
  dsimp only
  rw [pow2L_I (by omega)]
  dsimp only
  rw [pow2L_I (by omega), toNat_I (by omega)]
  dsimp only
  set K := min topK (2 ^ indices.length) with hK
  have hfold : (List.range (2 ^ indices.length)).foldlM (topStepC (topProbC (I n) (indices.map I) (I indices.length)
      (I (n - indices.length)) (2 ^ (n - indices.length)) vec) (I K)) (List.replicate K (0, 0), 0)
      = ((List.range (2 ^ indices.length)).foldlM (topStep (topProb n indices vec) K) (List.replicate K (0, 0), 0)).map
        (fun st : List (Nat × ℝ) × Nat => (st.1, I st.2)) := by
    refine foldlM_img (fun st : List (Nat × ℝ) × Nat => (st.1, I st.2)) (fun st => st.1.length = K ∧ st.2 ≤ K)
      (x := (List.replicate K (0, 0), 0)) ⟨by simp, by simp⟩ ?_
    rintro ⟨heap, e⟩ ⟨hh, he⟩ m hm
    have hm : m < 2 ^ indices.length := by simpa using hm
    dsimp only at hh he ⊢
    unfold topStepC topStep
    rw [h.topProbC_I hv (by omega)]
    simp only [bind, Except.bind]
    by_cases heK : e < heap.length
    · rw [read_I (by omega) heK, List.getElem?_eq_getElem heK]
      obtain ⟨w, hw, hw'⟩ := pred_I (show e < 2 ^ 31 by omega)
      rw [show (1 : CInt) = I 1 from rfl, hw]
      dsimp only
      rw [write_I (by omega) heK]
      dsimp only
      rw [toNat_I (by omega), bubbleC_I (by omega) (by simpa using heK) (by simp; omega) hw', toInt_I (by omega),
        toInt_I (by omega)]
      constructor
      · by_cases hp : topProb n indices vec m ≥ heap[e].2
        · rw [if_pos hp, if_pos hp]
          dsimp only
          rw [if_pos (by omega), if_pos (by omega), add_I (by omega)]
          rfl
        · rw [if_neg hp, if_neg hp]
          rw [if_pos (by omega), if_pos (by omega), add_I (by omega)]
          rfl
      · rintro s' ⟨⟩
        constructor
        · dsimp only
          split
          · rw [length_bubble, List.length_set, hh]
          · exact hh
        · dsimp only
          split <;> omega
    · rw [read_none (by omega) (by omega), List.getElem?_eq_none (by omega)]
      refine ⟨rfl, ?_⟩
      rintro s' ⟨⟩
  rw [hfold]
  rcases (List.range (2 ^ indices.length)).foldlM (topStep (topProb n indices vec) K) (List.replicate K (0, 0), 0) with e | st
  · rfl
  · rfl

theorem softAccC_I {vec : List ℂ} {inOff p : Nat} (hin : vec.length + inOff ≤ 2 ^ n) (hp : p < 2 ^ 31) :
    softAccC (I indices.length) (I (n - indices.length)) (I (2 ^ (n - indices.length))) (I (rowMask n indices)) (I inOff) vec (I p)
      = .ok (softAcc n indices vec inOff p) := by
  have h30 := h.pow_le
  have hle : 2 ^ (n - indices.length) ≤ 2 ^ n := Nat.pow_le_pow_right (by norm_num) (by omega)
  unfold softAccC softAcc
  rw [cRange_I (by omega), List.foldlM_map]
  apply foldlM_ok
  intro s i hi
  have hi : i < 2 ^ (n - indices.length) := by simpa using hi
  have hlt := h.entwine_lt p i
  rw [h.entwine hp (by omega)]
  simp only [bind, Except.bind]
  generalize QIP.entwineBit indices.length (n - indices.length) p i (rowMask n indices) = v at *
  rw [toInt_I (by omega), toInt_I (by omega)]
  by_cases hc : inOff ≤ v ∧ v < vec.length + inOff
  · rw [if_pos (by omega), if_pos hc, sub_I (by omega) hc.1]
    dsimp only
    rw [read_I (by omega) (by omega), List.getD_eq_getElem _ _ (by omega)]
    rfl
  · rw [if_neg (by omega), if_neg hc]
    rfl

omit h in
theorem softLoopC_I {acc : CInt → Except PyErr ℝ} {acc' : Nat → ℝ} {L : List Nat} (hL : L ≠ [])
    (ha : ∀ p ∈ L, acc (I p) = .ok (acc' p)) (r : ℝ) :
    softLoopC acc (L.map I) r = .ok (I (softLoop acc' L r).1, (softLoop acc' L r).2) := by
  induction L generalizing r with
  | nil => exact absurd rfl hL
  | cons p L ih =>
    rw [List.map_cons]
    unfold softLoopC softLoop
    rw [ha p (by simp)]
    simp only [bind, Except.bind, List.map_eq_nil_iff]
    by_cases h1 : r - acc' p ≤ 0
    · rw [if_pos h1, if_pos h1]
    · rw [if_neg h1, if_neg h1]
      by_cases h2 : L = []
      · rw [if_pos h2, if_pos h2]
      · rw [if_neg h2, if_neg h2]
        exact ih h2 (fun q hq => ha q (by simp [hq])) _

theorem soft {vec : List ℂ} {measured : Option Nat} {inOff : Nat} {u garbage : ℝ} (hin : vec.length + inOff ≤ 2 ^ n)
    (hm : ∀ m ∈ measured, m + 1 < 2 ^ 31) :
    softMeasureC indices n vec measured inOff u garbage
      = (softMeasure indices n vec measured inOff u garbage).map fun r => (I r.1, r.2) := by
  have hs := h.small
  have h30 := h.pow_le
  have hl := h.len
  have hle : 2 ^ (n - indices.length) ≤ 2 ^ n := Nat.pow_le_pow_right (by norm_num) (by omega)
  have hle' : 2 ^ indices.length ≤ 2 ^ n := Nat.pow_le_pow_right (by norm_num) hl
  unfold softMeasureC softMeasure
  rw [if_neg h.idx.not_bad, mapM_ofPy h.small_idx, ofPy_ok (by omega), ofPy_ok (by omega)]
  simp only [bind, Except.bind]
  simp only [trunc_eq]
  rw [sub_I (by omega) hl]
  dsimp only
  rw [pow2L_I (by omega)]
  dsimp only
  rw [pow2L_I (by omega), pow2L_I (by omega)]
  dsimp only
  rw [probMagnitudeC_I (by omega), h.rowMaskC_I]
  dsimp only
  have hlt : indices.length < 2 ^ n := hl.trans_lt Nat.lt_two_pow_self
  cases measured with
  | none =>
    have e0 : cRangeFrom 0 (I (2 ^ indices.length)) = (List.range (2 ^ indices.length)).map I := by
      rw [show (0 : CInt) = I 0 from rfl, cRangeFrom_I (by norm_num) (by omega), List.range_eq_range', Nat.sub_zero]
    dsimp only
    rw [e0]
    dsimp only [pure, Except.pure]
    rw [if_pos hlt, if_pos hlt]
    exact softLoopC_I (by simp) (fun p hp => h.softAccC_I hin (by have : p < 2 ^ indices.length := by simpa using hp
                                                                  omega)) _
  | some m =>
    have hm' := hm m rfl
    dsimp only
    rw [ofPy_ok (by omega), ofPy_ok hm']
    dsimp only
    rw [cRangeFrom_I (by omega) hm', show m + 1 - m = 1 by omega]
    dsimp only [pure, Except.pure]
    rw [if_pos hlt, if_pos hlt]
    exact softLoopC_I (L := [m]) (by simp) (fun p hp => by
      obtain rfl : p = m := by simpa using hp
      exact h.softAccC_I hin (by omega)) _

theorem choose {vec : List ℂ} {measured : Option Int} {measuredProb : Option ℝ} {inOff : Nat} {u garbage : ℝ}
    (hin : vec.length + inOff ≤ 2 ^ n) :
    chooseOutcomeC indices n vec inOff measured measuredProb u garbage
      = (chooseOutcome indices n vec inOff measured measuredProb u garbage).map fun r => (I r.1, r.2) := by
  have h30 := h.pow_le
  have hl := h.len
  have hle' : 2 ^ indices.length ≤ 2 ^ n := Nat.pow_le_pow_right (by norm_num) hl
  have hcut : ∀ m : Int, m < 2 ^ indices.length → m.toNat + 1 < 2 ^ 31 := by
    intro m hm
    have : ((2 ^ indices.length : Nat) : Int) ≤ 2 ^ 30 := by exact_mod_cast hle'.trans h30
    push_cast at this
    omega
  unfold chooseOutcomeC chooseOutcome
  cases measured with
  | none =>
    cases measuredProb with
    | none =>
      dsimp only [Option.map_none, bind, Except.bind]
      rw [h.soft hin (by simp)]
      rcases softMeasure indices n vec none inOff u garbage with e | ⟨m, p⟩
      · rfl
      · dsimp only [Except.map]
        by_cases hp : p = 0
        · rw [if_pos hp, if_pos hp]
        · rw [if_neg hp, if_neg hp]; rfl
    | some q =>
      dsimp only [Option.map_none, bind, Except.bind]
      by_cases hq : ¬ (0 < q ∧ q ≤ 1)
      · rw [if_pos hq, if_pos hq]; rfl
      · rw [if_neg hq, if_neg hq]
        dsimp only [pure, Except.pure]
        rw [h.soft hin (by simp)]
        rcases softMeasure indices n vec none inOff u garbage with e | ⟨m, p⟩
        · rfl
        · dsimp only [Except.map]
          by_cases hp : p = 0
          · rw [if_pos hp, if_pos hp]
          · rw [if_neg hp, if_neg hp]
  | some m =>
    dsimp only [Option.map_some, bind, Except.bind]
    by_cases hm : ¬ (0 ≤ m ∧ m < 2 ^ indices.length)
    · rw [if_pos hm, if_pos hm]; rfl
    · rw [if_neg hm, if_neg hm]
      rw [not_not] at hm
      have hm' := hcut m hm.2
      cases measuredProb with
      | none =>
        dsimp only [pure, Except.pure]
        rw [h.soft hin (by simpa using hm')]
        rcases softMeasure indices n vec (some m.toNat) inOff u garbage with e | ⟨m, p⟩
        · rfl
        · dsimp only [Except.map]
          by_cases hp : p = 0
          · rw [if_pos hp, if_pos hp]
          · rw [if_neg hp, if_neg hp]
      | some q =>
        dsimp only [pure, Except.pure]
        by_cases hq : ¬ (0 < q ∧ q ≤ 1)
        · rw [if_pos hq, if_pos hq]; rfl
        · rw [if_neg hq, if_neg hq, ofPy_ok (by omega)]
          dsimp only [Except.map]
          by_cases hp : q = 0
          · rw [if_pos hp, if_pos hp]
          · rw [if_neg hp, if_neg hp]

omit h in
theorem softLoop_mem {acc : Nat → ℝ} {L : List Nat} (hL : L ≠ []) (r : ℝ) : (softLoop acc L r).1 ∈ L := by
  induction L generalizing r with
  | nil => exact absurd rfl hL
  | cons p L ih =>
    unfold softLoop
    by_cases h1 : r - acc p ≤ 0
    · rw [if_pos h1]; simp
    · rw [if_neg h1]
      by_cases h2 : L = []
      · rw [if_pos h2]; simp
      · rw [if_neg h2]; exact List.mem_cons_of_mem _ (ih h2 _)

omit h in
theorem soft_lt {vec : List ℂ} {measured : Option Nat} {inOff : Nat} {u garbage : ℝ}
    (hm : ∀ m ∈ measured, m < 2 ^ indices.length) {r : Nat × ℝ}
    (hr : softMeasure indices n vec measured inOff u garbage = .ok r) : r.1 < 2 ^ indices.length := by
  unfold softMeasure at hr
  split at hr
  · cases hr
  · cases measured with
    | none =>
      injection hr with hr
      rw [← hr]
      exact List.mem_range.1 (softLoop_mem (by simp) _)
    | some m =>
      injection hr with hr
      rw [← hr]
      dsimp only
      have := softLoop_mem (acc := softAcc n indices vec inOff) (L := [m]) (by simp)
        (if indices.length < 2 ^ n then u * probMagnitude garbage vec else u)
      rw [List.mem_singleton] at this
      rw [this]
      exact hm m rfl

omit h in
theorem choose_lt {vec : List ℂ} {measured : Option Int} {measuredProb : Option ℝ} {inOff : Nat} {u garbage : ℝ}
    {r : Nat × ℝ × ℝ} (hr : chooseOutcome indices n vec inOff measured measuredProb u garbage = .ok r) :
    r.1 < 2 ^ indices.length := by
  unfold chooseOutcome at hr
  cases measured with
  | none =>
    cases measuredProb with
    | none =>
      dsimp only [Option.map_none, bind, Except.bind, pure, Except.pure] at hr
      rcases hs : softMeasure indices n vec none inOff u garbage with e | ⟨m, p⟩ <;> rw [hs] at hr <;> dsimp only at hr
      · cases hr
      · split at hr
        · cases hr
        · injection hr with hr
          rw [← hr]
          exact soft_lt (by simp) hs
    | some q =>
      dsimp only [Option.map_none, bind, Except.bind, pure, Except.pure] at hr
      by_cases hq : ¬ (0 < q ∧ q ≤ 1)
      · rw [if_pos hq] at hr; cases hr
      · rw [if_neg hq] at hr
        rcases hs : softMeasure indices n vec none inOff u garbage with e | ⟨m, p⟩ <;> rw [hs] at hr <;> dsimp only at hr
        · cases hr
        · split at hr
          · cases hr
          · injection hr with hr
            rw [← hr]
            exact soft_lt (by simp) hs
  | some m =>
    dsimp only [Option.map_some, bind, Except.bind, pure, Except.pure] at hr
    by_cases hm : ¬ (0 ≤ m ∧ m < 2 ^ indices.length)
    · rw [if_pos hm] at hr; cases hr
    · rw [if_neg hm] at hr
      rw [not_not] at hm
      have hm' : m.toNat < 2 ^ indices.length := by
        zify
        rw [Int.toNat_of_nonneg hm.1]
        exact hm.2
      cases measuredProb with
      | none =>
        dsimp only at hr
        rcases hs : softMeasure indices n vec (some m.toNat) inOff u garbage with e | ⟨m', p⟩ <;> rw [hs] at hr <;>
          dsimp only at hr
        · cases hr
        · split at hr
          · cases hr
          · injection hr with hr
            rw [← hr]
            exact soft_lt (by simpa using hm') hs
      | some q =>
        dsimp only at hr
        by_cases hq : ¬ (0 < q ∧ q ≤ 1)
        · rw [if_pos hq] at hr; cases hr
        · rw [if_neg hq] at hr
          split at hr
          · cases hr
          · injection hr with hr
            rw [← hr]
            exact hm'

theorem measure {vec out : List ℂ} {measured : Option Int} {measuredProb : Option ℝ} {inOff outOff : Nat} {u garbage : ℝ}
    (hin : vec.length + inOff ≤ 2 ^ n) (hout : out.length + outOff ≤ 2 ^ n) :
    measureC indices n vec out inOff outOff measured measuredProb u garbage
      = (QIP.measure indices n vec out inOff outOff measured measuredProb u garbage).map fun r => (I r.1, r.2) := by
  have hs := h.small
  have h30 := h.pow_le
  have hl := h.len
  have hle' : 2 ^ indices.length ≤ 2 ^ n := Nat.pow_le_pow_right (by norm_num) hl
  unfold measureC QIP.measure
  rw [mapM_ofPy h.small_idx, ofPy_ok (by omega), ofPy_ok (by omega), ofPy_ok (by omega), h.choose hin]
  simp only [bind, Except.bind]
  rcases hc : chooseOutcome indices n vec inOff measured measuredProb u garbage with e | ⟨m, p, mult⟩
  · rfl
  · have hm := choose_lt hc
    dsimp only at hm
    dsimp only [Except.map]
    rw [if_neg h.idx.not_bad, trunc_eq, sub_I (by omega) hl]
    dsimp only
    rw [h.rowMaskC_I]
    dsimp only
    rw [show (0 : CInt) = I 0 from rfl, h.entwine (by omega) (by norm_num)]
    dsimp only
    have hmin : minC (trunc (inOff + vec.length)) (trunc (outOff + out.length))
        = I (min (inOff + vec.length) (outOff + out.length)) := by
      rw [trunc_eq, trunc_eq]
      unfold minC
      rw [toInt_I (by omega), toInt_I (by omega)]
      split <;> congr 1 <;> omega
    have hmax : maxC (I inOff) (I outOff) = I (max inOff outOff) := by
      unfold maxC
      rw [toInt_I (by omega), toInt_I (by omega)]
      split <;> congr 1 <;> omega
    rw [hmin, hmax, cRangeFrom_I (by omega) (by omega), List.foldlM_map]
    have hmask := h.mask_lt
    have hent := h.entwine_lt m 0
    have hfold : ∀ {a : Except PyErr (List ℂ)} {X : List ℂ}, a = .ok X →
        Except.bind a (fun v => .ok (I m, p, v)) = (.ok (I m, p, X) : Except PyErr (CInt × ℝ × List ℂ)) := by
      rintro a X rfl
      rfl
    refine hfold ?_
    rw [← foldl_ok (ε := PyErr)]
    refine foldlM_agree (fun o => o.length = out.length) rfl ?_
    intro o ho i hi
    rw [List.mem_range'_1] at hi
    rw [sub_I (by omega) (by omega)]
    dsimp only
    rw [and_I (by omega) hmask, xor_I (Nat.and_le_left.trans_lt (by omega)) (by omega)]
    have hinj := I_inj (Nat.xor_lt_two_pow (Nat.and_le_left.trans_lt (by omega) : i &&& rowMask n indices < 2 ^ 31)
      (by omega : QIP.entwineBit indices.length (n - indices.length) m 0 (rowMask n indices) < 2 ^ 31)) (show 0 < 2 ^ 31 by norm_num)
    by_cases hx : (i &&& rowMask n indices) ^^^ QIP.entwineBit indices.length (n - indices.length) m 0 (rowMask n indices) = 0
    · rw [if_neg (not_not.2 (hinj.2 hx)), if_neg (not_not.2 hx), sub_I (by omega) (by omega)]
      dsimp only
      rw [read_I (by omega) (by omega)]
      dsimp only
      rw [write_I (by omega) (by omega), List.getD_eq_getElem _ _ (by omega)]
      refine ⟨rfl, ?_⟩
      rintro s' ⟨⟩
      rw [List.length_set, ho]
    · rw [if_pos fun hc => hx (hinj.1 hc), if_pos hx, write_I (by omega) (by omega)]
      refine ⟨rfl, ?_⟩
      rintro s' ⟨⟩
      rw [List.length_set, ho]

theorem reduce {vec out : List ℂ} {measured : Option Int} {measuredProb : Option ℝ} {inOff outOff : Nat} {u garbage : ℝ}
    (hin : vec.length + inOff ≤ 2 ^ n) (hout : out.length + outOff ≤ 2 ^ n) :
    reduceMeasureC indices n vec out inOff outOff measured measuredProb u garbage
      = (QIP.reduceMeasure indices n vec out inOff outOff measured measuredProb u garbage).map fun r => (I r.1, r.2) := by
  have hs := h.small
  have h30 := h.pow_le
  have hl := h.len
  have hle' : 2 ^ indices.length ≤ 2 ^ n := Nat.pow_le_pow_right (by norm_num) hl
  unfold reduceMeasureC QIP.reduceMeasure
  rw [mapM_ofPy h.small_idx, ofPy_ok (by omega), ofPy_ok (by omega), ofPy_ok (by omega), h.choose hin]
  simp only [bind, Except.bind]
  rcases hc : chooseOutcome indices n vec inOff measured measuredProb u garbage with e | ⟨m, p, mult⟩
  · rfl
  · have hm := choose_lt hc
    dsimp only at hm
    dsimp only [Except.map]
    rw [if_neg h.idx.not_bad, trunc_eq, sub_I (by omega) hl]
    dsimp only
    rw [h.rowMaskC_I, trunc_eq]
    dsimp only
    rw [add_I (by omega)]
    dsimp only
    rw [cRangeFrom_I (by omega) (by omega), List.foldlM_map, show out.length + outOff - outOff = out.length by omega]
    have hfold : ∀ {a b : Except PyErr (List ℂ)}, a = b →
        Except.bind a (fun v => (.ok (I m, p, v) : Except PyErr (CInt × ℝ × List ℂ)))
          = Except.map (fun r => (I r.1, r.2)) (Except.bind b (fun v => .ok (m, p, v))) := by
      rintro a b rfl
      rcases a with e | v <;> rfl
    refine hfold ?_
    refine foldlM_agree (fun o => o.length = out.length) rfl ?_
    intro o ho i hi
    rw [List.mem_range'_1] at hi
    have hlt := h.entwine_lt m i
    rw [h.entwine (by omega) (by omega)]
    dsimp only
    generalize QIP.entwineBit indices.length (n - indices.length) m i (rowMask n indices) = row at *
    rw [add_I (by omega)]
    dsimp only
    rw [sub_I (by omega) (by omega)]
    dsimp only
    rw [toInt_I (by omega), toInt_I (by omega), toInt_I (by omega)]
    by_cases hr : row < inOff
    · rw [if_pos (by omega), if_pos (by omega), write_I (by omega) (by omega)]
      refine ⟨rfl, ?_⟩
      rintro s' ⟨⟩
      rw [List.length_set, ho]
    · rw [if_neg (by omega), if_neg (by omega), sub_I (by omega) (by omega)]
      dsimp only
      by_cases hb : vec.length ≤ row - inOff
      · rw [if_pos hb, read_none (by omega) hb]
        refine ⟨rfl, ?_⟩
        rintro s' ⟨⟩
      · rw [if_neg hb, read_I (by omega) (by omega)]
        dsimp only
        rw [write_I (by omega) (by omega), List.getD_eq_getElem _ _ (by omega)]
        refine ⟨rfl, ?_⟩
        rintro s' ⟨⟩
        rw [List.length_set, ho]

end Sizes

end QIP.C32
