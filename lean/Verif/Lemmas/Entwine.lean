import Verif.Lemmas.Kron

/-! # Closed form of `entwine_bit` -/

namespace QIP

open Spec Finset

/-- Qubits set in a mask, in increasing order. -/
def maskOn (n mask : Nat) : List Nat := (List.range n).filter fun q => qbit n mask q

/-- Qubits clear in a mask, in increasing order. -/
def maskOff (n mask : Nat) : List Nat := (List.range n).filter fun q => !qbit n mask q

theorem mem_maskOn {n mask q : Nat} : q ∈ maskOn n mask ↔ q < n ∧ qbit n mask q = true := by
  simp [maskOn]

theorem mem_maskOff {n mask q : Nat} : q ∈ maskOff n mask ↔ q < n ∧ qbit n mask q = false := by
  simp [maskOff]

theorem nodup_maskOn (n mask : Nat) : (maskOn n mask).Nodup := List.nodup_range.filter _
theorem nodup_maskOff (n mask : Nat) : (maskOff n mask).Nodup := List.nodup_range.filter _

theorem length_filter_not (p : Nat → Bool) (l : List Nat) :
    (l.filter p).length + (l.filter fun q => !p q).length = l.length := by
  induction l with
  | nil => rfl
  | cons x l ih => cases h : p x <;> simp [h] <;> omega

theorem length_maskOff (n mask : Nat) : (maskOff n mask).length = n - (maskOn n mask).length := by
  have := length_filter_not (fun q => qbit n mask q) (List.range n)
  simp only [List.length_range] at this
  unfold maskOff maskOn
  omega

theorem idxOf_filter_range (p : Nat → Bool) {n q : Nat} (hq : q < n) (hp : p q = true) :
    ((List.range n).filter p).idxOf q = ((List.range q).filter p).length := by
  obtain ⟨m, rfl⟩ := Nat.exists_eq_add_of_lt hq
  have e : q + m + 1 = q + (m + 1) := by omega
  rw [e, List.range_add, List.filter_append, List.idxOf_append_of_notMem (by simp), List.range_succ_eq_map]
  simp [hp]

/-- The bit `entwine_bit` places at qubit `q`. -/
def entwineFun (n nI nN vI vN mask q : Nat) : Bool :=
  if qbit n mask q then vI.testBit (nI - 1 - ((List.range q).filter fun q => qbit n mask q).length)
  else vN.testBit (nN - 1 - ((List.range q).filter fun q => !qbit n mask q).length)

theorem and_pow_shift (v i : Nat) : (v &&& 2 ^ i) >>> i = (v.testBit i).toNat := by
  rw [Nat.and_two_pow, Nat.shiftRight_eq_div_pow, Nat.mul_div_cancel _ (by positivity)]

theorem length_filter_range_le (p : Nat → Bool) {j n : Nat} (h : j ≤ n) :
    ((List.range j).filter p).length ≤ ((List.range n).filter p).length := by
  obtain ⟨m, rfl⟩ := Nat.exists_eq_add_of_le h
  rw [List.range_add, List.filter_append, List.length_append]
  omega

theorem length_filter_range_succ (p : Nat → Bool) (j : Nat) :
    ((List.range (j + 1)).filter p).length = ((List.range j).filter p).length + (p j).toNat := by
  rw [List.range_succ, List.filter_append, List.length_append]
  cases h : p j <;> simp [h]

theorem two_pow_shiftRight {a b : Nat} (h : b ≤ a) : 2 ^ a >>> b = 2 ^ (a - b) := by
  rw [Nat.shiftRight_eq_div_pow, Nat.pow_div h (by norm_num)]

/-- State of the loop after `j` iterations. -/
def entwineInv (nI nN vI vN mask j : Nat) : EntwineSt :=
  let n := nI + nN
  { nI := nI - ((List.range j).filter fun q => qbit n mask q).length
    nN := nN - ((List.range j).filter fun q => !qbit n mask q).length
    maskI := 2 ^ (nI - 1) >>> ((List.range j).filter fun q => qbit n mask q).length
    maskN := 2 ^ (nN - 1) >>> ((List.range j).filter fun q => !qbit n mask q).length
    select := 2 ^ (n - 1) >>> j
    m := bitsVal ((List.range j).map (entwineFun n nI nN vI vN mask)) }

theorem entwine_cond {n mask j : Nat} (hj : j < n) :
    ((mask &&& 2 ^ (n - 1) >>> j) >>> ((n - 1) - j) != 0) = qbit n mask j := by
  rw [two_pow_shiftRight (by omega), and_pow_shift]
  unfold qbit
  cases mask.testBit (n - 1 - j) <;> rfl

theorem entwineStep_inv {nI nN vI vN mask j : Nat} (hon : (maskOn (nI + nN) mask).length = nI) (hj : j < nI + nN) :
    entwineStep (nI + nN) vI vN mask (entwineInv nI nN vI vN mask j) j
      = entwineInv nI nN vI vN mask (j + 1) := by
  have hoff := length_maskOff (nI + nN) mask
  rw [hon, Nat.add_sub_cancel_left] at hoff
  have l1 := length_filter_range_le (fun q => qbit (nI + nN) mask q) (Nat.succ_le_of_lt hj)
  have l2 := length_filter_range_le (fun q => !qbit (nI + nN) mask q) (Nat.succ_le_of_lt hj)
  rw [length_filter_range_succ] at l1 l2
  change _ ≤ (maskOn (nI + nN) mask).length at l1
  change _ ≤ (maskOff (nI + nN) mask).length at l2
  rw [hon] at l1
  rw [hoff] at l2
  unfold entwineStep
  have hc := entwine_cond (mask := mask) hj
  have hsel : (entwineInv nI nN vI vN mask j).select = 2 ^ (nI + nN - 1) >>> j := rfl
  rw [hsel, hc]
  have s1 := length_filter_range_succ (fun q => qbit (nI + nN) mask q) j
  have s2 := length_filter_range_succ (fun q => !qbit (nI + nN) mask q) j
  have hm : ∀ b : Bool, entwineFun (nI + nN) nI nN vI vN mask j = b →
      bitsVal ((List.range (j + 1)).map (entwineFun (nI + nN) nI nN vI vN mask))
        = bitsVal ((List.range j).map (entwineFun (nI + nN) nI nN vI vN mask)) <<< 1 + b.toNat := by
    intro b hb
    rw [List.range_succ, List.map_append, List.map_singleton, bitsVal_concat, hb, Nat.shiftLeft_eq]
    omega
  cases hq : qbit (nI + nN) mask j
  · simp only [hq, Bool.not_false, Bool.toNat_true] at l1 l2 s1 s2
    simp only [Bool.toNat_false, Nat.add_zero] at s1
    have hf : entwineFun (nI + nN) nI nN vI vN mask j
        = vN.testBit (nN - 1 - ((List.range j).filter fun q => !qbit (nI + nN) mask q).length) := by
      simp [entwineFun, hq]
    simp only [Bool.false_eq_true, if_false, entwineInv]
    rw [s1, s2, hm _ hf]
    simp only [EntwineSt.mk.injEq, Nat.shiftRight_add, true_and]
    refine ⟨by omega, ?_⟩
    rw [two_pow_shiftRight (by omega)]
    have e : nN - ((List.range j).filter fun q => !qbit (nI + nN) mask q).length - 1
        = nN - 1 - ((List.range j).filter fun q => !qbit (nI + nN) mask q).length := by omega
    rw [e, and_pow_shift]
  · simp only [hq, Bool.not_true, Bool.toNat_true] at l1 l2 s1 s2
    simp only [Bool.toNat_false, Nat.add_zero] at s2
    have hf : entwineFun (nI + nN) nI nN vI vN mask j
        = vI.testBit (nI - 1 - ((List.range j).filter fun q => qbit (nI + nN) mask q).length) := by
      simp [entwineFun, hq]
    simp only [if_true, entwineInv]
    rw [s1, s2, hm _ hf]
    simp only [EntwineSt.mk.injEq, Nat.shiftRight_add, true_and]
    refine ⟨by omega, ?_⟩
    rw [two_pow_shiftRight (by omega)]
    have e : nI - ((List.range j).filter fun q => qbit (nI + nN) mask q).length - 1
        = nI - 1 - ((List.range j).filter fun q => qbit (nI + nN) mask q).length := by omega
    rw [e, and_pow_shift]

theorem entwineFold_inv {nI nN vI vN mask : Nat} (hon : (maskOn (nI + nN) mask).length = nI) (j : Nat)
    (hj : j ≤ nI + nN) :
    (List.range j).foldl (entwineStep (nI + nN) vI vN mask)
      { nI := nI, nN := nN, maskI := 1 <<< (nI - 1), maskN := 1 <<< (nN - 1), select := 1 <<< (nI + nN - 1), m := 0 }
      = entwineInv nI nN vI vN mask j := by
  induction j with
  | zero => simp [entwineInv, Nat.one_shiftLeft]
  | succ j ih =>
    rw [List.range_succ, List.foldl_append, ih (by omega), List.foldl_cons, List.foldl_nil,
      entwineStep_inv hon (by omega)]

theorem entwineBit_eq {nI nN vI vN mask : Nat} (hon : (maskOn (nI + nN) mask).length = nI) :
    entwineBit nI nN vI vN mask
      = spread (nI + nN) (maskOff (nI + nN) mask) (spread (nI + nN) (maskOn (nI + nN) mask) 0 vI) vN := by
  have hoff := length_maskOff (nI + nN) mask
  rw [hon, Nat.add_sub_cancel_left] at hoff
  unfold entwineBit
  dsimp only
  rw [entwineFold_inv hon _ le_rfl]
  change ofQbits (nI + nN) (entwineFun (nI + nN) nI nN vI vN mask) = _
  apply qbit_ext (ofQbits_lt _ _) (spread_lt _ _ _ _)
  intro q hq
  rw [qbit_ofQbits _ hq, qbit_spread _ _ _ hq, qbit_spread _ _ _ hq, hon, hoff]
  simp only [mem_maskOn, mem_maskOff]
  unfold entwineFun
  cases h : qbit (nI + nN) mask q
  · have := idxOf_filter_range (fun q => !qbit (nI + nN) mask q) hq (by simp [h])
    simp [hq, maskOff, this]
  · have := idxOf_filter_range (fun q => qbit (nI + nN) mask q) hq h
    simp [hq, maskOn, this]

theorem entwineBit_lt {nI nN vI vN mask : Nat} (hon : (maskOn (nI + nN) mask).length = nI) :
    entwineBit nI nN vI vN mask < 2 ^ (nI + nN) := by
  rw [entwineBit_eq hon]; exact spread_lt _ _ _ _

end QIP
