import Verif.Lemmas.C32

/-!
# C01 – C03: bit arrays, register notation, bit primitives
-/

namespace QIP.Props

open QIP QIP.Spec

/-! ## C01 -/

/-- C01: encoding into `n` bits and decoding gives the number modulo `2**n` (for negative numbers too). -/
theorem C01_decode_encode (num : Int) (n : Nat) :
    (bitarrayToUint (uintToBitarray num n) : Int) = num % 2 ^ n := by
  rw [bitarrayToUint_eq, bitsVal_uintToBitarray]

/-- C01: decoding a bit list and encoding it again with its own length gives the list back. -/
theorem C01_encode_decode (bits : List Bool) :
    uintToBitarray (bitarrayToUint bits) bits.length = bits := by
  rw [bitarrayToUint_eq, uintToBitarray_bitsVal]

/-- C01: entry `j` is the bit of weight `2**(n-1-j)` (big endian), and there are exactly `n` entries. -/
theorem C01_big_endian (num : Int) (n : Nat) :
    (uintToBitarray num n).length = n ∧
      ∀ j < n, (uintToBitarray num n)[j]? = some (decide (num / 2 ^ (n - 1 - j) % 2 = 1)) := by
  refine ⟨length_uintToBitarray n num, ?_⟩
  induction n generalizing num with
  | zero => intro j hj; omega
  | succ n ih =>
    intro j hj
    rw [uintToBitarray_succ]
    by_cases h : j = n
    · subst h
      rw [List.getElem?_append_right (by simp)]
      simp [beq_eq_decide]
    · have hj' : j < n := by omega
      rw [List.getElem?_append_left (by simpa using hj'), ih (num / 2) j hj', Int.ediv_ediv]
      have e : (2 : Int) * 2 ^ (n - 1 - j) = 2 ^ (n + 1 - 1 - j) := by
        rw [← pow_succ']; congr 1; omega
      simp [e]

example : uintToBitarray (-3) 4 = [true, true, false, true] := by decide
example : bitarrayToUint [true, true, false] = 6 := by decide

/-! ## C02 -/

/-- Specification: the basis index of the product of registers of sizes `ks` holding the values `xs`. -/
def joinRegs : List Nat → List Nat → Nat
  | k :: ks, x :: xs => x * 2 ^ ks.sum + joinRegs ks xs
  | _, _ => 0

/-- Specification: one value below `2**k` for every register size `k`. -/
def RegsOK : List Nat → List Nat → Prop
  | [], [] => True
  | k :: ks, x :: xs => x < 2 ^ k ∧ RegsOK ks xs
  | _, _ => False

theorem notationLoop_spec (bits : List Bool) (qns : List Nat) (start : Nat) (h : start + qns.sum = bits.length) :
    RegsOK qns (notationLoop bits qns start) ∧
      joinRegs qns (notationLoop bits qns start) = bitsVal (bits.drop start) := by
  induction qns generalizing start with
  | nil =>
    simp only [List.sum_nil] at h
    have hd : bits.drop start = [] := List.drop_eq_nil_of_le (by omega)
    simp [notationLoop, RegsOK, joinRegs, hd]
  | cons k ks ih =>
    simp only [List.sum_cons] at h
    obtain ⟨h1, h2⟩ := ih (start + k) (by omega)
    have hsplit : bits.drop start = (bits.drop start).take k ++ bits.drop (start + k) := by
      rw [← List.drop_drop]; exact (List.take_append_drop k _).symm
    have hlen : ((bits.drop start).take k).length = k := by simp; omega
    refine ⟨⟨?_, h1⟩, ?_⟩
    · rw [bitarrayToUint_eq]
      have := bitsVal_lt ((bits.drop start).take k)
      rwa [hlen] at this
    · rw [notationLoop, joinRegs, h2, bitarrayToUint_eq]
      conv_rhs => rw [hsplit, bitsVal_append]
      have : (bits.drop (start + k)).length = ks.sum := by simp; omega
      rw [this]

theorem RegsOK.join_lt : ∀ {ks xs : List Nat}, RegsOK ks xs → joinRegs ks xs < 2 ^ ks.sum
  | [], [], _ => by simp [joinRegs]
  | k :: ks, x :: xs, h => by
    have ih := RegsOK.join_lt h.2
    simp only [joinRegs, List.sum_cons, pow_add]
    calc x * 2 ^ ks.sum + joinRegs ks xs < x * 2 ^ ks.sum + 2 ^ ks.sum := by omega
      _ = (x + 1) * 2 ^ ks.sum := by ring
      _ ≤ 2 ^ k * 2 ^ ks.sum := Nat.mul_le_mul_right _ h.1

theorem RegsOK.join_inj : ∀ {ks xs ys : List Nat}, RegsOK ks xs → RegsOK ks ys →
    joinRegs ks xs = joinRegs ks ys → xs = ys
  | [], [], [], _, _, _ => rfl
  | k :: ks, x :: xs, y :: ys, hx, hy, h => by
    simp only [joinRegs] at h
    have lx := RegsOK.join_lt hx.2
    have ly := RegsOK.join_lt hy.2
    have e1 : x = y := by
      have := congrArg (· / 2 ^ ks.sum) h
      simpa [Nat.mul_comm _ (2 ^ ks.sum), Nat.mul_add_div, Nat.div_eq_of_lt lx, Nat.div_eq_of_lt ly] using this
    subst e1
    rw [RegsOK.join_inj hx.2 hy.2 (by omega)]

/-- C02: the notation of a basis index lists register values whose concatenation is that index. -/
theorem C02_notation (i : Nat) (qns : List Nat) (hi : i < 2 ^ qns.sum) :
    RegsOK qns (qubitIndexNotation i qns) ∧ joinRegs qns (qubitIndexNotation i qns) = i := by
  unfold qubitIndexNotation
  have hval : bitsVal (uintToBitarray (i : Int) qns.sum) = i := by
    have := bitsVal_uintToBitarray (i : Int) qns.sum
    have h2 := Nat.mod_eq_of_lt hi
    exact_mod_cast (by rw [this]; exact_mod_cast h2 : ((bitsVal (uintToBitarray (i : Int) qns.sum) : Nat) : Int) = i)
  have := notationLoop_spec (uintToBitarray (i : Int) qns.sum) qns 0 (by simp)
  simpa [hval] using this

/-- C02: different indices get different notation. -/
theorem C02_injective (i j : Nat) (qns : List Nat) (hi : i < 2 ^ qns.sum) (hj : j < 2 ^ qns.sum)
    (h : qubitIndexNotation i qns = qubitIndexNotation j qns) : i = j := by
  rw [← (C02_notation i qns hi).2, ← (C02_notation j qns hj).2, h]

/-- C02: `gen_qubit_prints` prints exactly the nonzero amplitudes, each under the registers that spell its index. -/
theorem C02_prints_mem {R : Type} [Zero R] [DecidableEq R] (state : List R) (qs : List Nat)
    (hlen : state.length ≤ 2 ^ qs.sum) (line : List Nat × R) :
    line ∈ genQubitPrints state qs ↔
      RegsOK qs line.1 ∧ line.2 ≠ 0 ∧ state[joinRegs qs line.1]? = some line.2 := by
  have hnot : ∀ i : Nat, qubitIndexNotation (i : Int) qs (some qs.sum) = qubitIndexNotation (i : Int) qs := fun _ => rfl
  unfold genQubitPrints
  simp only [List.mem_filterMap, List.mem_range]
  constructor
  · rintro ⟨i, hi, h⟩
    by_cases h0 : state.getD i 0 = 0
    · rw [if_pos h0] at h; simp at h
    · rw [if_neg h0] at h
      obtain ⟨h1, h2⟩ := C02_notation i qs (by omega)
      simp only [Option.some.injEq] at h
      subst h
      simp only [hnot]
      refine ⟨h1, h0, ?_⟩
      rw [h2]
      simp [hi]
  · rintro ⟨h1, h2, h3⟩
    have hi : joinRegs qs line.1 < state.length := (List.getElem?_eq_some_iff.1 h3).1
    refine ⟨joinRegs qs line.1, hi, ?_⟩
    have hv : state.getD (joinRegs qs line.1) 0 = line.2 := by simp [h3]
    rw [hv, if_neg h2, hnot]
    obtain ⟨h4, h5⟩ := C02_notation (joinRegs qs line.1) qs (by omega)
    have := RegsOK.join_inj h4 h1 h5
    rw [this]

/-- C02: the lines come in strictly increasing basis index. -/
theorem C02_prints_sorted {R : Type} [Zero R] [DecidableEq R] (state : List R) (qs : List Nat)
    (hlen : state.length ≤ 2 ^ qs.sum) :
    (genQubitPrints state qs).Pairwise fun a b => joinRegs qs a.1 < joinRegs qs b.1 := by
  have hnot : ∀ i : Nat, qubitIndexNotation (i : Int) qs (some qs.sum) = qubitIndexNotation (i : Int) qs := fun _ => rfl
  unfold genQubitPrints
  rw [List.pairwise_filterMap]
  have hr := List.pairwise_lt_range (n := state.length)
  refine List.Pairwise.imp_of_mem ?_ hr
  intro i j hi hj hij a ha b hb
  simp only [List.mem_range] at hi hj
  by_cases h0 : state.getD i 0 = 0
  · rw [if_pos h0] at ha; simp at ha
  by_cases h1 : state.getD j 0 = 0
  · rw [if_pos h1] at hb; simp at hb
  rw [if_neg h0] at ha
  rw [if_neg h1] at hb
  simp only [Option.some.injEq, hnot] at ha hb
  subst ha; subst hb
  rw [(C02_notation i qs (by omega)).2, (C02_notation j qs (by omega)).2]
  exact hij

example : qubitIndexNotation 13 [1, 2, 1] = [1, 2, 1] := by decide
example : genQubitPrints (R := Int) [0, 5, 0, 7] [1, 1] = [([0, 1], 5), ([1, 1], 7)] := by decide

/-! ## C03 -/

/-- C03: on 32-bit C ints `set_bit` changes exactly the addressed bit, to `value != 0`, for every value of `num`. -/
theorem C03_set_bit (num value : C32.CInt) (i : Nat) (hi : i < 32) (j : Nat) :
    (C32.setBit num i value).getLsbD j = if j = i then decide (value ≠ 0) else num.getLsbD j :=
  C32.getLsbD_setBit num i hi value j

/-- C03: `get_bit` reads the addressed bit, also of negative ints. -/
theorem C03_get_bit (num : C32.CInt) (i : Nat) (hi : i < 32) :
    C32.getBit num i = if num.getLsbD i then 1#32 else 0#32 := C32.getBit_eq num i hi

/-- C03: the 32-bit primitives agree with the unbounded ones used by the kernel models. -/
theorem C03_refines (num value : C32.CInt) (i : Nat) (hi : i < 32) :
    (C32.setBit num i value).toNat = setBit num.toNat i (decide (value ≠ 0)) ∧
      (C32.getBit num i).toNat = (getBit num.toNat i).toNat :=
  ⟨C32.toNat_setBit num i hi value, C32.toNat_getBit num i hi⟩

/-- C03: `entwine_bit` on 32-bit ints agrees with unbounded arithmetic for all widths up to 31, for every mask with
`nI` ones. -/
theorem C03_entwine_refines {nI nN : Nat} (hn : nI + nN ≤ 31) (vI vN mask : C32.CInt)
    (hon : ((List.range (nI + nN)).filter fun q => qbit (nI + nN) mask.toNat q).length = nI) :
    (C32.entwineBit nI nN vI vN mask).toNat = entwineBit nI nN vI.toNat vN.toNat mask.toNat :=
  C32.entwineBit_toNat hn vI vN mask hon

/-- C03: the masked positions of `entwine_bit(a, b)` spell `a` and the others spell `b`, most significant first. -/
theorem C03_entwine_spec {nI nN : Nat} (a b mask : Nat) (ha : a < 2 ^ nI) (hb : b < 2 ^ nN)
    (hon : ((List.range (nI + nN)).filter fun q => qbit (nI + nN) mask q).length = nI) :
    let n := nI + nN
    entwineBit nI nN a b mask < 2 ^ n ∧
    subIndex n ((List.range n).filter fun q => qbit n mask q) (entwineBit nI nN a b mask) = a ∧
    subIndex n ((List.range n).filter fun q => !qbit n mask q) (entwineBit nI nN a b mask) = b := by
  change (maskOn (nI + nN) mask).length = nI at hon
  have hoff := length_maskOff (nI + nN) mask
  rw [hon, Nat.add_sub_cancel_left] at hoff
  refine ⟨entwineBit_lt hon, ?_, ?_⟩
  · change subIndex _ (maskOn _ _) _ = _
    rw [entwineBit_eq hon]
    rw [subIndex_congr (c := spread (nI + nN) (maskOn (nI + nN) mask) 0 a)]
    · exact subIndex_spread 0 (nodup_maskOn _ _) (fun q hq => (mem_maskOn.1 hq).1) (by rw [hon]; exact ha)
    · intro q hq
      rw [mem_maskOn] at hq
      rw [qbit_spread _ _ _ hq.1, if_neg]
      rw [mem_maskOff]; simp [hq.2]
  · change subIndex _ (maskOff _ _) _ = _
    rw [entwineBit_eq hon]
    exact subIndex_spread _ (nodup_maskOff _ _) (fun q hq => (mem_maskOff.1 hq).1) (by rw [hoff]; exact hb)

/-- C03: every `n`-bit number is `entwine_bit` of exactly one pair. -/
theorem C03_entwine_bijective {nI nN : Nat} (mask : Nat)
    (hon : ((List.range (nI + nN)).filter fun q => qbit (nI + nN) mask q).length = nI) (c : Nat)
    (hc : c < 2 ^ (nI + nN)) :
    ∃ a b, (a < 2 ^ nI ∧ b < 2 ^ nN ∧ entwineBit nI nN a b mask = c) ∧
      ∀ a' b', a' < 2 ^ nI → b' < 2 ^ nN → entwineBit nI nN a' b' mask = c → a' = a ∧ b' = b := by
  have hon' : (maskOn (nI + nN) mask).length = nI := hon
  have hoff := length_maskOff (nI + nN) mask
  rw [hon', Nat.add_sub_cancel_left] at hoff
  have la := subIndex_lt (nI + nN) (maskOn (nI + nN) mask) c
  have lb := subIndex_lt (nI + nN) (maskOff (nI + nN) mask) c
  rw [hon'] at la
  rw [hoff] at lb
  refine ⟨subIndex (nI + nN) (maskOn (nI + nN) mask) c, subIndex (nI + nN) (maskOff (nI + nN) mask) c,
    ⟨la, lb, ?_⟩, ?_⟩
  · rw [entwineBit_eq hon']
    rw [spread_subIndex hc]
    intro q hq hqoff
    have hqon : q ∈ maskOn (nI + nN) mask := by
      rw [mem_maskOn]; rw [mem_maskOff] at hqoff
      refine ⟨hq, ?_⟩
      cases h : qbit (nI + nN) mask q
      · exact absurd ⟨hq, h⟩ hqoff
      · rfl
    rw [qbit_spread _ _ _ hq, if_pos hqon,
      testBit_subIndex _ _ _ _ (List.idxOf_lt_length_iff.2 hqon)]
    simp
  · intro a' b' ha' hb' h
    have := C03_entwine_spec a' b' mask ha' hb' hon
    dsimp only at this
    rw [h] at this
    exact ⟨this.2.1.symm, this.2.2.symm⟩

-- the masks of the hypotheses exist: 5 qubits, qubits 0, 2 and 3 masked
example : ((List.range (3 + 2)).filter fun q => qbit (3 + 2) 0b10110 q).length = 3 := by decide
example : entwineBit 3 2 0b101 0b01 0b10110 = 0b10011 := by decide

end QIP.Props
