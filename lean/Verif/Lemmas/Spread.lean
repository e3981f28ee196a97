import Verif.Lemmas.Bits
import Verif.Spec.Tensor

/-! # Replacing the qubits in a list by the bits of a number -/

namespace QIP

open Spec Finset

/-- Basis state `r` with the qubits listed in `S` replaced by the bits of `i` (first listed most significant). -/
def spread (n : Nat) (S : List Nat) (r i : Nat) : Nat :=
  ofQbits n fun q => if q ∈ S then i.testBit (S.length - 1 - S.idxOf q) else qbit n r q

theorem spread_lt (n : Nat) (S : List Nat) (r i : Nat) : spread n S r i < 2 ^ n := ofQbits_lt _ _

theorem qbit_spread {n q : Nat} (S : List Nat) (r i : Nat) (hq : q < n) :
    qbit n (spread n S r i) q = if q ∈ S then i.testBit (S.length - 1 - S.idxOf q) else qbit n r q :=
  qbit_ofQbits _ hq

theorem agreeOff_spread (n : Nat) (S : List Nat) (r i : Nat) : AgreeOff n S r (spread n S r i) := by
  intro q hq hS
  rw [qbit_spread S r i hq, if_neg hS]

theorem _root_.QIP.Spec.AgreeOff.symm {n : Nat} {S : List Nat} {r c : Nat} (h : AgreeOff n S r c) : AgreeOff n S c r :=
  fun q hq hS => (h q hq hS).symm

theorem _root_.QIP.Spec.AgreeOff.trans {n : Nat} {S : List Nat} {a b c : Nat} (h : AgreeOff n S a b) (h' : AgreeOff n S b c) :
    AgreeOff n S a c := fun q hq hS => (h q hq hS).trans (h' q hq hS)

theorem _root_.QIP.Spec.AgreeOff.refl (n : Nat) (S : List Nat) (a : Nat) : AgreeOff n S a a := fun _ _ _ => rfl

theorem _root_.QIP.Spec.AgreeOff.mono {n : Nat} {S T : List Nat} {a b : Nat} (h : AgreeOff n S a b) (hST : ∀ q ∈ S, q ∈ T) :
    AgreeOff n T a b := fun q hq hT => h q hq fun hS => hT (hST q hS)

theorem agreeOff_congr {n : Nat} {S T : List Nat} (h : ∀ q, q ∈ S ↔ q ∈ T) (a b : Nat) :
    AgreeOff n S a b ↔ AgreeOff n T a b :=
  ⟨fun H => H.mono fun q => (h q).1, fun H => H.mono fun q => (h q).2⟩

theorem subIndex_spread {n : Nat} {S : List Nat} (r : Nat) {i : Nat} (hS : S.Nodup) (hn : ∀ q ∈ S, q < n)
    (hi : i < 2 ^ S.length) : subIndex n S (spread n S r i) = i := by
  apply Nat.eq_of_testBit_eq
  intro b
  by_cases hb : b < S.length
  · have hj : S.length - 1 - b < S.length := by omega
    have := testBit_subIndex n S (spread n S r i) (S.length - 1 - b) hj
    have e : S.length - 1 - (S.length - 1 - b) = b := by omega
    rw [e] at this
    rw [this, qbit_spread _ _ _ (hn _ (List.getElem_mem hj)), if_pos (List.getElem_mem hj), hS.idxOf_getElem, e]
  · have h1 : 2 ^ S.length ≤ 2 ^ b := Nat.pow_le_pow_right (by norm_num) (by omega)
    have h2 := subIndex_lt n S (spread n S r i)
    rw [Nat.testBit_lt_two_pow (by omega), Nat.testBit_lt_two_pow (by omega)]

theorem spread_subIndex {n : Nat} {S : List Nat} {r c : Nat} (hc : c < 2 ^ n)
    (h : AgreeOff n S r c) : spread n S r (subIndex n S c) = c := by
  apply qbit_ext (spread_lt _ _ _ _) hc
  intro q hq
  rw [qbit_spread _ _ _ hq]
  split
  · next hS =>
    have hj := List.idxOf_lt_length_iff.2 hS
    rw [testBit_subIndex n S c (S.idxOf q) hj]
    simp
  · next hS => exact h q hq hS

theorem spread_spread (n : Nat) (S : List Nat) (r i j : Nat) : spread n S (spread n S r i) j = spread n S r j := by
  apply qbit_ext (spread_lt _ _ _ _) (spread_lt _ _ _ _)
  intro q hq
  rw [qbit_spread _ _ _ hq, qbit_spread _ _ _ hq, qbit_spread _ _ _ hq]
  split <;> rfl

theorem spread_congr {n : Nat} {S : List Nat} {r c : Nat} (h : AgreeOff n S r c) (i : Nat) :
    spread n S r i = spread n S c i := by
  apply qbit_ext (spread_lt _ _ _ _) (spread_lt _ _ _ _)
  intro q hq
  rw [qbit_spread _ _ _ hq, qbit_spread _ _ _ hq]
  split
  · rfl
  · next hS => exact h q hq hS

/-- Sum over the basis states that agree with `r` off `S`. -/
theorem sum_agreeOff {M : Type} [AddCommMonoid M] {n : Nat} {S : List Nat} (hS : S.Nodup) (hn : ∀ q ∈ S, q < n)
    (r : Nat) (F : Nat → M) :
    ∑ c ∈ (range (2 ^ n)).filter (fun c => AgreeOff n S r c), F c
      = ∑ i ∈ range (2 ^ S.length), F (spread n S r i) := by
  symm
  apply Finset.sum_nbij' (fun i => spread n S r i) (fun c => subIndex n S c)
  · intro i _
    simp [spread_lt, agreeOff_spread]
  · intro c _
    simpa using subIndex_lt n S c
  · intro i hi
    exact subIndex_spread r hS hn (by simpa using hi)
  · intro c hc
    simp only [mem_filter, mem_range] at hc
    exact spread_subIndex hc.1 hc.2
  · intro i _; rfl

/-- `kronApply` as a sum over bit patterns of the touched qubits. -/
theorem kronApply_eq_sum {R : Type} [CommSemiring R] {n : Nat} (ops : List (List Nat × (Nat → Nat → R)))
    {S : List Nat} (hS : S.Nodup) (hmem : ∀ q, q ∈ S ↔ q ∈ ops.flatMap (·.1)) (hn : ∀ q ∈ S, q < n)
    (v : Nat → R) (r : Nat) :
    kronApply n ops v r = ∑ i ∈ range (2 ^ S.length),
      (ops.map fun gm => gm.2 (subIndex n gm.1 r) (subIndex n gm.1 (spread n S r i))).prod * v (spread n S r i) := by
  have := sum_agreeOff hS hn r fun c =>
    (ops.map fun gm => gm.2 (subIndex n gm.1 r) (subIndex n gm.1 c)).prod * v c
  rw [← this, Finset.sum_filter]
  unfold kronApply kronEntry
  apply Finset.sum_congr rfl
  intro c _
  by_cases h : AgreeOff n S r c
  · rw [if_pos h, if_pos ((agreeOff_congr hmem r c).1 h)]
  · rw [if_neg h, if_neg fun h' => h ((agreeOff_congr hmem r c).2 h'), zero_mul]

end QIP
