import Verif.Lemmas.Entwine

/-! # 32-bit C ints refine natural numbers below 31 bits -/

namespace QIP.C32

open QIP

theorem getLsbD_one_shiftLeft (i j : Nat) (hj : j < 32) : (1#32 <<< i).getLsbD j = decide (j = i) := by
  rw [BitVec.getLsbD_shiftLeft, BitVec.getLsbD_one, Bool.eq_iff_iff]
  simp only [hj, decide_true, Bool.true_and, Bool.and_eq_true, Bool.not_eq_true', decide_eq_false_iff_not,
    decide_eq_true_eq]
  omega

theorem getLsbD_setBit (num : CInt) (i : Nat) (hi : i < 32) (v : CInt) (j : Nat) :
    (setBit num i v).getLsbD j = if j = i then decide (v ≠ 0) else num.getLsbD j := by
  unfold setBit
  by_cases hj : j < 32
  · have hneg : (-(if v != 0 then 1#32 else 0#32)).getLsbD j = decide (v ≠ 0) := by
      by_cases hv : v = 0
      · subst hv; simp
      · have : (v != 0) = true := by simpa using hv
        have h1 : (-(1#32)) = BitVec.allOnes 32 := by decide
        rw [this, if_pos rfl, h1, BitVec.getLsbD_allOnes]
        simp [hj]; exact hv
    rw [BitVec.getLsbD_xor, BitVec.getLsbD_and, BitVec.getLsbD_xor, hneg, getLsbD_one_shiftLeft i j hj]
    by_cases h : j = i
    · rw [if_pos h]
      cases num.getLsbD j <;> cases decide (v ≠ 0) <;> simp [h]
    · rw [if_neg h]; simp [h]
  · have h1 : ¬ j = i := by omega
    rw [if_neg h1, BitVec.getLsbD_of_ge _ _ (by omega), BitVec.getLsbD_of_ge _ _ (by omega)]

theorem toNat_setBit (num : CInt) (i : Nat) (hi : i < 32) (v : CInt) :
    (setBit num i v).toNat = QIP.setBit num.toNat i (decide (v ≠ 0)) := by
  apply Nat.eq_of_testBit_eq
  intro j
  rw [testBit_setBit, BitVec.testBit_toNat, BitVec.testBit_toNat, getLsbD_setBit num i hi v j]

theorem getBit_eq (num : CInt) (i : Nat) (hi : i < 32) :
    getBit num i = if num.getLsbD i then 1#32 else 0#32 := by
  unfold getBit
  apply BitVec.eq_of_getLsbD_eq
  intro j hj
  simp only [BitVec.getLsbD_and, BitVec.getLsbD_sshiftRight, BitVec.getLsbD_one, hj]
  by_cases h : j = 0
  · subst h
    cases hb : num.getLsbD i <;> simp [hi, hb]
  · cases hb : num.getLsbD i <;> simp [h, hb]

theorem toNat_getBit (num : CInt) (i : Nat) (hi : i < 32) :
    (getBit num i).toNat = (QIP.getBit num.toNat i).toNat := by
  rw [getBit_eq num i hi, QIP.getBit_eq, BitVec.testBit_toNat]
  cases num.getLsbD i <;> rfl

theorem toNat_sshiftRight_of_lt {x : CInt} (hx : x.toNat < 2 ^ 31) (s : Nat) :
    (x.sshiftRight s).toNat = x.toNat >>> s := by
  rw [BitVec.sshiftRight_eq_of_msb_false]
  · simp
  · rw [BitVec.msb_eq_false_iff_two_mul_lt]; omega

/-- Relation between a 32-bit loop state and an unbounded one. -/
def Rel (s : EntwineSt) (t : QIP.EntwineSt) : Prop :=
  s.nI = t.nI ∧ s.nN = t.nN ∧ s.maskI.toNat = t.maskI ∧ s.maskN.toNat = t.maskN ∧ s.select.toNat = t.select ∧
    s.m.toNat = t.m

theorem step_rel {n : Nat} {vI vN mask : CInt} {s : EntwineSt} {t : QIP.EntwineSt} {j : Nat}
    (hr : Rel s t) (h1 : t.maskI < 2 ^ 31) (h2 : t.maskN < 2 ^ 31) (h3 : t.select < 2 ^ 31)
    (hm : (QIP.entwineStep n vI.toNat vN.toNat mask.toNat t j).m < 2 ^ 31) :
    Rel (entwineStep n vI vN mask s j) (QIP.entwineStep n vI.toNat vN.toNat mask.toNat t j) := by
  obtain ⟨r1, r2, r3, r4, r5, r6⟩ := hr
  have hsel : ((mask &&& s.select).sshiftRight ((n - 1) - j)).toNat = (mask.toNat &&& t.select) >>> ((n - 1) - j) := by
    rw [toNat_sshiftRight_of_lt]
    · rw [BitVec.toNat_and, r5]
    · rw [BitVec.toNat_and, r5]
      exact lt_of_le_of_lt Nat.and_le_right h3
  have hc : ((mask &&& s.select).sshiftRight ((n - 1) - j) != 0)
      = ((mask.toNat &&& t.select) >>> ((n - 1) - j) != 0) := by
    rw [← hsel, Bool.eq_iff_iff]
    simp only [bne_iff_ne, ne_eq]
    rw [not_iff_not]
    constructor
    · intro h; rw [h]; rfl
    · intro h; exact BitVec.eq_of_toNat_eq (by simpa using h)
  unfold entwineStep QIP.entwineStep at *
  rw [hc]
  have hI : ((vI &&& s.maskI).sshiftRight (s.nI - 1)).toNat = (vI.toNat &&& t.maskI) >>> (t.nI - 1) := by
    rw [toNat_sshiftRight_of_lt]
    · rw [BitVec.toNat_and, r3, r1]
    · rw [BitVec.toNat_and, r3]
      exact lt_of_le_of_lt Nat.and_le_right h1
  have hN : ((vN &&& s.maskN).sshiftRight (s.nN - 1)).toNat = (vN.toNat &&& t.maskN) >>> (t.nN - 1) := by
    rw [toNat_sshiftRight_of_lt]
    · rw [BitVec.toNat_and, r4, r2]
    · rw [BitVec.toNat_and, r4]
      exact lt_of_le_of_lt Nat.and_le_right h2
  have hsel2 : (s.select.sshiftRight 1).toNat = t.select >>> 1 := by
    rw [toNat_sshiftRight_of_lt (by rw [r5]; exact h3), r5]
  split
  · next hcond =>
    simp only [hcond, if_true] at hm
    refine ⟨by simp [r1], r2, ?_, r4, hsel2, ?_⟩
    · simp only
      rw [toNat_sshiftRight_of_lt (by rw [r3]; exact h1), r3]
    · simp only [BitVec.toNat_add, BitVec.toNat_shiftLeft, hI, r6]
      rw [Nat.mod_add_mod]
      exact Nat.mod_eq_of_lt (by omega)
  · next hcond =>
    rw [if_neg hcond] at hm
    dsimp only at hm
    refine ⟨r1, by simp [r2], r3, ?_, hsel2, ?_⟩
    · simp only
      rw [toNat_sshiftRight_of_lt (by rw [r4]; exact h2), r4]
    · simp only [BitVec.toNat_add, BitVec.toNat_shiftLeft, hN, r6]
      rw [Nat.mod_add_mod]
      exact Nat.mod_eq_of_lt (by omega)

theorem toNat_one_shiftLeft {k : Nat} (hk : k < 32) : (1#32 <<< k).toNat = 1 <<< k := by
  rw [BitVec.toNat_shiftLeft, BitVec.toNat_one (by norm_num)]
  apply Nat.mod_eq_of_lt
  rw [Nat.one_shiftLeft]
  exact Nat.pow_lt_pow_right (by norm_num) hk

theorem entwineBit_toNat {nI nN : Nat} (hn : nI + nN ≤ 31) (vI vN mask : CInt)
    (hon : (maskOn (nI + nN) mask.toNat).length = nI) :
    (entwineBit nI nN vI vN mask).toNat = QIP.entwineBit nI nN vI.toNat vN.toNat mask.toNat := by
  have key : ∀ j ≤ nI + nN, Rel
      ((List.range j).foldl (entwineStep (nI + nN) vI vN mask)
        { nI := nI, nN := nN, maskI := 1#32 <<< (nI - 1), maskN := 1#32 <<< (nN - 1), select := 1#32 <<< (nI + nN - 1), m := 0 })
      (entwineInv nI nN vI.toNat vN.toNat mask.toNat j) := by
    intro j hj
    induction j with
    | zero =>
      refine ⟨by simp [entwineInv], by simp [entwineInv], ?_, ?_, ?_, ?_⟩
      · simp only [List.range_zero, List.foldl_nil, entwineInv, List.filter_nil, List.length_nil]
        rw [toNat_one_shiftLeft (by omega), Nat.one_shiftLeft, Nat.shiftRight_zero]
      · simp only [List.range_zero, List.foldl_nil, entwineInv, List.filter_nil, List.length_nil]
        rw [toNat_one_shiftLeft (by omega), Nat.one_shiftLeft, Nat.shiftRight_zero]
      · simp only [List.range_zero, List.foldl_nil, entwineInv]
        rw [toNat_one_shiftLeft (by omega), Nat.one_shiftLeft, Nat.shiftRight_zero]
      · simp [entwineInv]
    | succ j ih =>
      have hstep := entwineStep_inv (vI := vI.toNat) (vN := vN.toNat) hon (by omega : j < nI + nN)
      rw [List.range_succ, List.foldl_append, List.foldl_cons, List.foldl_nil, ← hstep]
      have pw : ∀ a b : Nat, a < 31 → 2 ^ a >>> b < 2 ^ 31 := fun a b ha => by
        rw [Nat.shiftRight_eq_div_pow]
        exact lt_of_le_of_lt (Nat.div_le_self _ _) (Nat.pow_lt_pow_right (by norm_num) ha)
      apply step_rel (ih (by omega))
      · exact pw _ _ (by omega)
      · exact pw _ _ (by omega)
      · exact pw _ _ (by omega)
      · rw [hstep]
        have := bitsVal_lt ((List.range (j + 1)).map (entwineFun (nI + nN) nI nN vI.toNat vN.toNat mask.toNat))
        simp only [List.length_map, List.length_range] at this
        refine lt_of_lt_of_le this (Nat.pow_le_pow_right (by norm_num) (by omega))
  have h := key (nI + nN) le_rfl
  unfold entwineBit QIP.entwineBit
  dsimp only
  rw [entwineFold_inv hon _ le_rfl]
  exact h.2.2.2.2.2

end QIP.C32
