import Verif.Lemmas.OneQubit

/-! # Registers at consecutive qubits -/

namespace QIP

open Spec Finset

/-- The value of a register at consecutive qubits. -/
theorem subIndex_block {n off k : Nat} (h : off + k ≤ n) (r : Nat) :
    subIndex n ((List.range k).map (off + ·)) r = r / 2 ^ (n - off - k) % 2 ^ k := by
  apply Nat.eq_of_testBit_eq
  intro b
  rw [Nat.testBit_mod_two_pow, Nat.testBit_div_two_pow]
  by_cases hb : b < k
  · have := testBit_subIndex n ((List.range k).map (off + ·)) r (k - 1 - b) (by simp; omega)
    simp only [List.length_map, List.length_range, List.getElem_map, List.getElem_range] at this
    rw [show k - 1 - (k - 1 - b) = b by omega] at this
    rw [this, qbit, show n - 1 - (off + (k - 1 - b)) = n - off - k + b by omega]
    simp [hb, Nat.add_comm]
  · have h1 := subIndex_lt n ((List.range k).map (off + ·)) r
    simp only [List.length_map, List.length_range] at h1
    rw [Nat.testBit_lt_two_pow (lt_of_lt_of_le h1 (Nat.pow_le_pow_right (by norm_num) (by omega)))]
    simp [hb]

theorem qbit_first {n : Nat} (r : Nat) (hr : r < 2 ^ (n + 1)) : qbit (n + 1) r 0 = decide (2 ^ n ≤ r) := by
  unfold qbit
  rw [Nat.add_sub_cancel, Nat.sub_zero]
  rw [pow_succ] at hr
  by_cases h : 2 ^ n ≤ r
  · rw [decide_eq_true h]
    obtain ⟨t, rfl⟩ := Nat.exists_eq_add_of_le h
    rw [Nat.testBit_two_pow_add_eq, Nat.testBit_lt_two_pow (by omega)]
    rfl
  · rw [decide_eq_false h, Nat.testBit_lt_two_pow (by omega)]

end QIP
