import Verif.Lemmas.ShorRun
import Verif.Lemmas.Born
import Verif.Props.Examples
import Verif.Spec.Shor

/-! # The amplitudes of the Shor example -/

namespace QIP

open Spec Heap Finset

theorem agreeOff_high {m k : Nat} {r c : Nat} :
    AgreeOff (m + k) (List.range m) r c ↔ r % 2 ^ k = c % 2 ^ k := by
  rw [← subIndex_low (m := m) r, ← subIndex_low (m := m) c]
  constructor
  · intro h
    apply subIndex_congr
    intro q hq
    obtain ⟨i, hi, rfl⟩ := List.mem_map.1 hq
    rw [List.mem_range] at hi
    exact h _ (by omega) (by simp)
  · intro h q hq hn
    rw [List.mem_range] at hn
    have hqm : q - m < ((List.range k).map (m + ·)).length := by simp; omega
    have h1 := testBit_subIndex (m + k) ((List.range k).map (m + ·)) r (q - m) hqm
    have h2 := testBit_subIndex (m + k) ((List.range k).map (m + ·)) c (q - m) hqm
    rw [h] at h1
    simp only [List.getElem_map, List.getElem_range, show m + (q - m) = q by omega] at h1 h2
    rw [← h1, ← h2]

theorem inOrder_low (m n : Nat) : inOrder (m + n) (List.range m) = List.range m := by
  unfold inOrder
  rw [List.range_add, List.filter_append, List.filter_eq_self.2 (by simp)]
  simp

/-- The state before the measurement, at `|k, y⟩`. -/
theorem shor_amp {m n x N : Nat} (hN : 0 < N) (hN2 : N ≤ 2 ^ n) {v : Nat → ℂ} (hv : ∀ r < 2 ^ (m + n), v r = shorStart m n r)
    {k y : Nat} (hk : k < 2 ^ m) (hy : y < 2 ^ n) :
    actAll (m + n) (qfftActs true (List.range m))
        (kindApply (m + n) (.fop (powMod x N)) [List.range m, (List.range n).map (m + ·)] v) (k * 2 ^ n + y)
      = ((1 / 2 ^ m : ℝ) : ℂ) * ∑ i ∈ (range (2 ^ m)).filter (fun i => x ^ i % N = y),
          Complex.exp (2 * Real.pi * Complex.I * (i * k) / 2 ^ m) := by
  have hp : 0 < 2 ^ n := by positivity
  have hlt : ∀ {a b : Nat}, a < 2 ^ m → b < 2 ^ n → a * 2 ^ n + b < 2 ^ (m + n) := by
    intro a b ha hb
    rw [pow_add]
    calc a * 2 ^ n + b < a * 2 ^ n + 2 ^ n := by omega
      _ = (a + 1) * 2 ^ n := by ring
      _ ≤ _ := Nat.mul_le_mul_right _ ha
  have hdiv : ∀ {a b : Nat}, b < 2 ^ n → (a * 2 ^ n + b) / 2 ^ n = a := by
    intro a b hb
    rw [Nat.mul_comm, Nat.mul_add_div hp, Nat.div_eq_of_lt hb, Nat.add_zero]
  have hmod : ∀ {a b : Nat}, b < 2 ^ n → (a * 2 ^ n + b) % 2 ^ n = b := by
    intro a b hb
    rw [Nat.mul_comm, Nat.mul_add_mod, Nat.mod_eq_of_lt hb]
  have hr := hlt hk hy
  rw [qfft_rev List.nodup_range (by intro w hw; rw [List.mem_range] at hw; omega) _ hr, subIndex_high hr, hdiv hy]
  unfold dftAt
  rw [List.length_range, Finset.sum_filter]
  have e1 : ∀ c ∈ range (2 ^ (m + n)), (if AgreeOff (m + n) (List.range m) (k * 2 ^ n + y) c then
      Complex.exp (2 * Real.pi * Complex.I * (subIndex (m + n) (List.range m) c * k) / 2 ^ m) *
        kindApply (m + n) (.fop (powMod x N)) [List.range m, (List.range n).map (m + ·)] v c else 0)
      = if c % 2 ^ n = y then Complex.exp (2 * Real.pi * Complex.I * ((c / 2 ^ n : Nat) * k) / 2 ^ m) *
        (((1 * (2 ^ m : ℝ) ^ (-1 / 2 : ℝ) : ℝ) : ℂ) * if x ^ (c / 2 ^ n) % N = y then 1 else 0) else 0 := by
    intro c hc
    rw [Finset.mem_range] at hc
    by_cases hcy : c % 2 ^ n = y
    · rw [if_pos (agreeOff_high.2 (by rw [hmod hy, hcy])), if_pos hcy, subIndex_high hc, oracle_apply _ _ hc, hcy]
      have hf : (fval (powMod x N) (c / 2 ^ n) % 2 ^ n).toNat = x ^ (c / 2 ^ n) % N := by
        unfold fval powMod
        rw [if_neg (by omega)]
        have h1 : x ^ (c / 2 ^ n) % N < 2 ^ n := lt_of_lt_of_le (Nat.mod_lt _ hN) hN2
        show (((x ^ (c / 2 ^ n) % N : Nat) : Int) % 2 ^ n).toNat = _
        rw [show (2 : Int) ^ n = ((2 ^ n : Nat) : Int) by push_cast; rfl, ← Int.natCast_mod, Nat.mod_eq_of_lt h1, Int.toNat_natCast]
      have h1 : x ^ (c / 2 ^ n) % N < 2 ^ n := lt_of_lt_of_le (Nat.mod_lt _ hN) hN2
      have h2 : y ^^^ (x ^ (c / 2 ^ n) % N) < 2 ^ n := Nat.xor_lt_two_pow hy h1
      have hq : c / 2 ^ n < 2 ^ m := by rw [Nat.div_lt_iff_lt_mul hp, ← pow_add]; exact hc
      rw [hf, hv _ (hlt hq h2)]
      unfold shorStart
      rw [hmod h2]
      congr 2
      apply if_congr _ rfl rfl
      rw [Nat.xor_eq_zero_iff]
      exact eq_comm
    · rw [if_neg (fun h => hcy (by have := agreeOff_high.1 h; rw [hmod hy] at this; exact this.symm)), if_neg hcy]
  rw [Finset.sum_congr rfl e1, pow_add, Props.sum_blocks]
  have e2 : ∀ i ∈ range (2 ^ m), (∑ b ∈ range (2 ^ n), if (i * 2 ^ n + b) % 2 ^ n = y then
      Complex.exp (2 * Real.pi * Complex.I * (((i * 2 ^ n + b) / 2 ^ n : Nat) * k) / 2 ^ m) *
        (((1 * (2 ^ m : ℝ) ^ (-1 / 2 : ℝ) : ℝ) : ℂ) * if x ^ ((i * 2 ^ n + b) / 2 ^ n) % N = y then 1 else 0) else 0)
      = ((1 / √(2 ^ m) : ℝ) : ℂ) * if x ^ i % N = y then Complex.exp (2 * Real.pi * Complex.I * (i * k) / 2 ^ m) else 0 := by
    intro i hi
    rw [Finset.sum_eq_single_of_mem y (Finset.mem_range.2 hy)]
    · rw [if_pos (hmod hy), hdiv hy, one_mul]
      have : (2 ^ m : ℝ) ^ (-1 / 2 : ℝ) = 1 / √(2 ^ m) := by
        rw [Real.sqrt_eq_rpow, one_div, ← Real.rpow_neg (by positivity)]
        norm_num
      rw [this]
      split <;> simp [mul_comm]
    · intro b hb hne
      rw [if_neg]
      rw [hmod (Finset.mem_range.1 hb)]
      exact hne
  rw [Finset.sum_congr rfl e2, ← Finset.mul_sum, ← mul_assoc, Finset.sum_filter]
  congr 1
  rw [← Complex.ofReal_mul]
  congr 1
  rw [div_mul_div_comm, one_mul, Real.mul_self_sqrt (by positivity)]

end QIP
