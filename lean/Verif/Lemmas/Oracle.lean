import Verif.Lemmas.Hadamard
import Verif.Lemmas.OpStep

/-! # The oracle on two adjacent registers -/

namespace QIP

open Spec Finset

theorem subIndex_high {m k : Nat} {r : Nat} (hr : r < 2 ^ (m + k)) : subIndex (m + k) (List.range m) r = r / 2 ^ k := by
  have := subIndex_block (n := m + k) (off := 0) (k := m) (by omega) r
  rw [show (List.range m).map (0 + ·) = List.range m by simp, show m + k - 0 - m = k by omega] at this
  rw [this, Nat.mod_eq_of_lt]
  rw [Nat.div_lt_iff_lt_mul (by positivity), ← pow_add]
  exact hr

theorem subIndex_low {m k : Nat} (r : Nat) : subIndex (m + k) ((List.range k).map (m + ·)) r = r % 2 ^ k := by
  rw [subIndex_block le_rfl, show m + k - m - k = 0 by omega, pow_zero, Nat.div_one]

theorem agreeOff_low {m k : Nat} {r c : Nat} (hr : r < 2 ^ (m + k)) (hc : c < 2 ^ (m + k)) :
    AgreeOff (m + k) ((List.range k).map (m + ·)) r c ↔ r / 2 ^ k = c / 2 ^ k := by
  rw [← subIndex_high hr, ← subIndex_high hc]
  constructor
  · intro h
    apply subIndex_congr
    intro q hq
    rw [List.mem_range] at hq
    exact h q (by omega) (by simp; intros; omega)
  · intro h q hq hn
    have hqm : q < m := by
      by_contra hge
      exact hn (List.mem_map.2 ⟨q - m, by simp; omega, by omega⟩)
    have h1 := testBit_subIndex (m + k) (List.range m) r q (by simpa using hqm)
    have h2 := testBit_subIndex (m + k) (List.range m) c q (by simpa using hqm)
    rw [h] at h1
    simp only [List.getElem_range] at h1 h2
    rw [← h1, ← h2]

/-- `F(f, reg1, reg2)` takes the amplitude at `|i, y⟩` from `|i, y ⊕ f(i)⟩`. -/
theorem oracle_apply {m k : Nat} (f : Nat → Except PyErr Int) (v : Nat → ℂ) {r : Nat} (hr : r < 2 ^ (m + k)) :
    kindApply (m + k) (.fop f) [List.range m, (List.range k).map (m + ·)] v r
      = v (r / 2 ^ k * 2 ^ k + (r % 2 ^ k ^^^ (fval f (r / 2 ^ k) % 2 ^ k).toNat)) := by
  have hp : 0 < 2 ^ k := by positivity
  set y := (fval f (r / 2 ^ k) % 2 ^ k).toNat with hy
  have hylt : y < 2 ^ k := by
    have h1 : fval f (r / 2 ^ k) % 2 ^ k < 2 ^ k := Int.emod_lt_of_pos _ (by positivity)
    have h0 : 0 ≤ fval f (r / 2 ^ k) % 2 ^ k := Int.emod_nonneg _ (by positivity)
    have : ((2 ^ k : Nat) : Int) = 2 ^ k := by push_cast; rfl
    omega
  have hx : r % 2 ^ k ^^^ y < 2 ^ k := Nat.xor_lt_two_pow (Nat.mod_lt _ hp) hylt
  have hq : r / 2 ^ k < 2 ^ m := by rw [Nat.div_lt_iff_lt_mul hp, ← pow_add]; exact hr
  set c0 := r / 2 ^ k * 2 ^ k + (r % 2 ^ k ^^^ y) with hc0
  have hc0d : c0 / 2 ^ k = r / 2 ^ k := by
    rw [hc0, Nat.mul_comm, Nat.mul_add_div hp, Nat.div_eq_of_lt hx, Nat.add_zero]
  have hc0m : c0 % 2 ^ k = r % 2 ^ k ^^^ y := by
    rw [hc0, Nat.mul_comm, Nat.mul_add_mod, Nat.mod_eq_of_lt hx]
  have hc0lt : c0 < 2 ^ (m + k) := by
    rw [pow_add, hc0]
    calc _ < r / 2 ^ k * 2 ^ k + 2 ^ k := by omega
      _ = (r / 2 ^ k + 1) * 2 ^ k := by ring
      _ ≤ _ := Nat.mul_le_mul_right _ hq
  unfold kindApply
  have hf : (range (2 ^ (m + k))).filter (fun c => OraclePre (m + k) (List.range m) ((List.range k).map (m + ·)) (fval f) r c)
      = {c0} := by
    ext c
    rw [Finset.mem_filter, Finset.mem_range, Finset.mem_singleton]
    unfold OraclePre
    have hlen : ((List.range k).map (m + ·)).length = k := by simp
    constructor
    · rintro ⟨hc, h1, h2⟩
      rw [agreeOff_low hr hc] at h1
      rw [subIndex_low, subIndex_low, subIndex_high hr, hlen, ← hy] at h2
      rw [← Nat.div_add_mod c (2 ^ k), ← h1, hc0, h2, Nat.xor_assoc, Nat.xor_self, Nat.xor_zero, Nat.mul_comm]
    · rintro rfl
      refine ⟨hc0lt, (agreeOff_low hr hc0lt).2 hc0d.symm, ?_⟩
      rw [subIndex_low, subIndex_low, subIndex_high hr, hlen, ← hy, hc0m, Nat.xor_assoc, Nat.xor_self, Nat.xor_zero]
  simp only [List.getD_cons_zero, List.getD_cons_succ]
  rw [hf, Finset.sum_singleton]

/-- With the second register in the state `(|0⟩ - |1⟩)/√2` the oracle of `i = x0` changes the sign at `x0`. -/
theorem oracle_psi {n x0 : Nat} (g : Nat → ℂ) (μ : Bool → ℂ) (hμ : ∀ b, μ (!b) = -μ b) {r : Nat} (hr : r < 2 ^ (n + 1)) :
    kindApply (n + 1) (.fop fun i => .ok (if i = x0 then 1 else 0)) [List.range n, [n]] (psi g μ) r
      = psi (fun i => if i = x0 then -g i else g i) μ r := by
  have := oracle_apply (m := n) (k := 1) (fun i => .ok (if i = x0 then 1 else 0)) (psi g μ) hr
  rw [show (List.range 1).map (n + ·) = [n] by simp, pow_one] at this
  have hv : (fval (fun i => .ok (if i = x0 then 1 else 0)) (r / 2) % 2 ^ 1).toNat = if r / 2 = x0 then 1 else 0 := by
    unfold fval
    simp only
    split <;> rfl
  rw [this, hv]
  by_cases h : r / 2 = x0
  · rw [if_pos h]
    have h1 := hμ false
    simp only [Bool.not_false] at h1
    rcases Nat.mod_two_eq_zero_or_one r with h2 | h2 <;> rw [h2]
    · rw [show r / 2 * 2 + (0 ^^^ 1) = 2 * (r / 2) + 1 by simp; ring]
      unfold psi
      simp only [show (2 * (r / 2) + 1) / 2 = r / 2 by omega, show (2 * (r / 2) + 1) % 2 = 1 by omega, h2, if_pos h]
      simp [h1]
    · rw [show r / 2 * 2 + (1 ^^^ 1) = 2 * (r / 2) by simp; ring]
      unfold psi
      simp only [show (2 * (r / 2)) / 2 = r / 2 by omega, show (2 * (r / 2)) % 2 = 0 by omega, h2, if_pos h]
      simp [h1]
  · rw [if_neg h, Nat.xor_zero, Nat.mul_comm, Nat.div_add_mod]
    unfold psi
    simp only [if_neg h]

end QIP
