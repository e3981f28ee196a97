import Verif.Model.Bits
import Verif.Spec.Qubits
import Mathlib.Tactic.Ring
import Mathlib.Tactic.Linarith
import Mathlib.Data.List.Induction

/-! # Lemmas about bit lists and basis indices -/

namespace QIP

open Spec

theorem bitsVal_foldl (bs : List Bool) (a : Nat) :
    bs.foldl (fun a b => 2 * a + b.toNat) a = a * 2 ^ bs.length + bitsVal bs := by
  unfold bitsVal
  induction bs generalizing a with
  | nil => simp
  | cons b bs ih =>
    simp only [List.foldl_cons, List.length_cons]
    rw [ih, ih (2 * 0 + b.toNat)]
    ring

@[simp] theorem bitsVal_nil : bitsVal [] = 0 := rfl

theorem bitsVal_cons (b : Bool) (bs : List Bool) :
    bitsVal (b :: bs) = b.toNat * 2 ^ bs.length + bitsVal bs := by
  rw [bitsVal, List.foldl_cons, bitsVal_foldl]; simp

theorem bitsVal_append (as bs : List Bool) :
    bitsVal (as ++ bs) = bitsVal as * 2 ^ bs.length + bitsVal bs := by
  rw [bitsVal, List.foldl_append, bitsVal_foldl]; rfl

theorem bitsVal_concat (as : List Bool) (b : Bool) :
    bitsVal (as ++ [b]) = 2 * bitsVal as + b.toNat := by
  rw [bitsVal_append]; simp [bitsVal]; ring

theorem bitsVal_lt (bs : List Bool) : bitsVal bs < 2 ^ bs.length := by
  induction bs with
  | nil => simp
  | cons b bs ih =>
    rw [bitsVal_cons, List.length_cons, pow_succ]
    cases b <;> simp <;> omega

theorem testBit_bitsVal (bs : List Bool) (j : Nat) :
    (bitsVal bs).testBit j = (decide (j < bs.length) && bs.getD (bs.length - 1 - j) false) := by
  induction bs using List.reverseRecOn generalizing j with
  | nil => simp
  | append_singleton bs b ih =>
    rw [bitsVal_concat]
    cases j with
    | zero =>
      have : (2 * bitsVal bs + b.toNat).testBit 0 = b := by
        cases b <;> simp [Nat.testBit_zero] <;> omega
      rw [this]; simp
    | succ j =>
      rw [Nat.testBit_succ]
      have h2 : (2 * bitsVal bs + b.toNat) / 2 = bitsVal bs := by
        cases b <;> simp <;> omega
      rw [h2, ih]
      by_cases hj : j < bs.length
      · have h3 : bs.length + 1 - 1 - (j + 1) < bs.length := by omega
        simp only [List.length_append, List.length_singleton, hj, Nat.add_lt_add_iff_right, decide_true,
          Bool.true_and]
        rw [List.getD_append _ _ _ _ h3]
        congr 1; omega
      · simp [hj]

theorem bitarrayToUint_eq (bits : List Bool) : bitarrayToUint bits = bitsVal bits := by
  unfold bitarrayToUint
  have key : ∀ k ≤ bits.length, (List.range k).foldl
      (fun s i => s + if bits.getD (bits.length - i - 1) false then 2 ^ i else 0) 0
      = bitsVal (bits.drop (bits.length - k)) := by
    intro k hk
    induction k with
    | zero => simp
    | succ k ih =>
      rw [List.range_succ, List.foldl_append, ih (by omega)]
      have hlt : bits.length - (k + 1) < bits.length := by omega
      rw [List.drop_eq_getElem_cons hlt, bitsVal_cons]
      simp only [List.foldl_cons, List.foldl_nil]
      have e1 : bits.length - (k + 1) + 1 = bits.length - k := by omega
      have e2 : bits.length - k - 1 = bits.length - (k + 1) := by omega
      rw [e1, e2, List.getD_eq_getElem _ _ hlt, List.length_drop]
      have e3 : bits.length - (bits.length - k) = k := by omega
      rw [e3]
      cases bits[bits.length - (k + 1)]
      · simp
      · simp; omega
  have := key bits.length le_rfl
  simpa using this

theorem length_uintBitsLoop (n : Nat) (num : Int) : (uintBitsLoop n num).length = n := by
  induction n generalizing num with
  | zero => rfl
  | succ n ih => simp [uintBitsLoop, ih]

@[simp] theorem length_uintToBitarray (n : Nat) (num : Int) : (uintToBitarray num n).length = n := by
  simp [uintToBitarray, length_uintBitsLoop]

theorem uintToBitarray_succ (num : Int) (n : Nat) :
    uintToBitarray num (n + 1) = uintToBitarray (num / 2) n ++ [num % 2 == 1] := by
  simp [uintToBitarray, uintBitsLoop]

theorem bitsVal_uintToBitarray (num : Int) (n : Nat) :
    ((bitsVal (uintToBitarray num n) : Nat) : Int) = num % 2 ^ n := by
  induction n generalizing num with
  | zero => simp [uintToBitarray, uintBitsLoop, Int.emod_one]
  | succ n ih =>
    rw [uintToBitarray_succ, bitsVal_concat]
    push_cast
    have hm : num % (2 * 2 ^ n) = num % 2 + 2 * ((num / 2) % 2 ^ n) := by
      have h0 : num / (2 * 2 ^ n) = num / 2 / 2 ^ n := by rw [Int.ediv_ediv]; simp
      rw [Int.emod_def, Int.emod_def num 2, Int.emod_def (num / 2), h0]; ring
    rw [ih, pow_succ, mul_comm ((2 : Int) ^ n) 2, hm]
    have hb : ((((num % 2 == 1) : Bool).toNat : Nat) : Int) = num % 2 := by
      rcases Int.emod_two_eq_zero_or_one num with h | h <;> simp [h]
    rw [hb]; ring

theorem uintToBitarray_nat_get (r n j : Nat) (hj : j < n) :
    (uintToBitarray (r : Int) n).getD j false = qbit n r j := by
  have h := testBit_bitsVal (uintToBitarray (r : Int) n) (n - 1 - j)
  have hv : bitsVal (uintToBitarray (r : Int) n) = r % 2 ^ n := by
    have := bitsVal_uintToBitarray (r : Int) n
    exact_mod_cast this
  rw [hv, Nat.testBit_mod_two_pow] at h
  have e : n - 1 - (n - 1 - j) = j := by omega
  have h1 : n - 1 - j < n := by omega
  simp only [length_uintToBitarray, h1, decide_true, Bool.true_and, e] at h
  rw [← h]; rfl

theorem uintToBitarray_nat (r n : Nat) :
    uintToBitarray (r : Int) n = (List.range n).map (qbit n r) := by
  apply List.ext_getElem
  · simp
  · intro j h1 h2
    have hj : j < n := by simpa using h1
    have := uintToBitarray_nat_get r n j hj
    rw [List.getD_eq_getElem _ _ h1] at this
    simp [this]

theorem bitsVal_inj {as bs : List Bool} (hl : as.length = bs.length) (h : bitsVal as = bitsVal bs) : as = bs := by
  apply List.ext_getElem hl
  intro i h1 h2
  have ha := testBit_bitsVal as (as.length - 1 - i)
  have hb := testBit_bitsVal bs (as.length - 1 - i)
  have h3 : as.length - 1 - i < as.length := by omega
  have e1 : as.length - 1 - (as.length - 1 - i) = i := by omega
  have e2 : bs.length - 1 - (as.length - 1 - i) = i := by omega
  rw [h, hb] at ha
  rw [e1, e2] at ha
  have h4 : as.length - 1 - i < bs.length := by omega
  simp only [h3, h4, decide_true, Bool.true_and] at ha
  rw [List.getD_eq_getElem _ _ h1, List.getD_eq_getElem _ _ h2] at ha
  exact ha.symm

theorem uintToBitarray_bitsVal (bits : List Bool) :
    uintToBitarray (bitsVal bits : Int) bits.length = bits := by
  apply bitsVal_inj (by simp)
  have := bitsVal_uintToBitarray (bitsVal bits : Int) bits.length
  have h2 := Nat.mod_eq_of_lt (bitsVal_lt bits)
  have h3 : ((bitsVal bits : Int) % 2 ^ bits.length) = ((bitsVal bits % 2 ^ bits.length : Nat) : Int) := by
    push_cast; rfl
  rw [h3, h2] at this
  exact_mod_cast this

/-! ## `qbit`, extensionality -/

theorem qbit_ext {n r c : Nat} (hr : r < 2 ^ n) (hc : c < 2 ^ n) (h : ∀ q < n, qbit n r q = qbit n c q) : r = c := by
  apply Nat.eq_of_testBit_eq
  intro i
  by_cases hi : i < n
  · have := h (n - 1 - i) (by omega)
    unfold qbit at this
    have e : n - 1 - (n - 1 - i) = i := by omega
    rwa [e] at this
  · have hp : 2 ^ n ≤ 2 ^ i := Nat.pow_le_pow_right (by norm_num) (by omega)
    rw [Nat.testBit_lt_two_pow (by omega), Nat.testBit_lt_two_pow (by omega)]

/-- The basis index with prescribed qubits. -/
def ofQbits (n : Nat) (f : Nat → Bool) : Nat := bitsVal ((List.range n).map f)

theorem ofQbits_lt (n : Nat) (f : Nat → Bool) : ofQbits n f < 2 ^ n := by
  have := bitsVal_lt ((List.range n).map f)
  simpa [ofQbits] using this

theorem qbit_ofQbits {n q : Nat} (f : Nat → Bool) (hq : q < n) : qbit n (ofQbits n f) q = f q := by
  unfold qbit ofQbits
  rw [testBit_bitsVal]
  have h1 : n - 1 - q < n := by omega
  have e : n - 1 - (n - 1 - q) = q := by omega
  simp only [List.length_map, List.length_range, h1, decide_true, Bool.true_and, e]
  rw [List.getD_eq_getElem _ _ (by simpa using hq)]
  simp

theorem ofQbits_congr {n : Nat} {f g : Nat → Bool} (h : ∀ q < n, f q = g q) : ofQbits n f = ofQbits n g := by
  apply qbit_ext (ofQbits_lt _ _) (ofQbits_lt _ _)
  intro q hq
  rw [qbit_ofQbits f hq, qbit_ofQbits g hq, h q hq]

theorem ofQbits_qbit {n r : Nat} (hr : r < 2 ^ n) : ofQbits n (qbit n r) = r :=
  qbit_ext (ofQbits_lt _ _) hr fun _ hq => qbit_ofQbits _ hq

theorem subIndex_lt (n : Nat) (g : List Nat) (r : Nat) : subIndex n g r < 2 ^ g.length := by
  have := bitsVal_lt (g.map (qbit n r))
  simpa [subIndex] using this

theorem testBit_subIndex (n : Nat) (g : List Nat) (r j : Nat) (hj : j < g.length) :
    (subIndex n g r).testBit (g.length - 1 - j) = qbit n r g[j] := by
  unfold subIndex
  rw [testBit_bitsVal]
  have h1 : g.length - 1 - j < g.length := by omega
  have e : g.length - 1 - (g.length - 1 - j) = j := by omega
  simp only [List.length_map, h1, decide_true, Bool.true_and, e]
  rw [List.getD_eq_getElem _ _ (by simpa using hj)]
  simp

theorem subIndex_congr {n : Nat} {g : List Nat} {r c : Nat} (h : ∀ q ∈ g, qbit n r q = qbit n c q) :
    subIndex n g r = subIndex n g c := by
  unfold subIndex
  congr 1
  exact List.map_congr_left h

theorem subIndex_range {n r : Nat} (hr : r < 2 ^ n) : subIndex n (List.range n) r = r := ofQbits_qbit hr

end QIP
