import Verif.Lemmas.Spread
import Verif.Spec.Gates

/-! # One-qubit gates applied to one qubit -/

namespace QIP

open Spec Finset

theorem apply1_eq {n q : Nat} (hq : q < n) (U : Bool → Bool → ℂ) (v : Nat → ℂ) (r : Nat) :
    apply1 n q U v r = U (qbit n r q) false * v (spread n [q] r 0) + U (qbit n r q) true * v (spread n [q] r 1) := by
  unfold apply1
  rw [sum_agreeOff (List.nodup_singleton q) (by simpa using hq) r]
  have h0 : qbit n (spread n [q] r 0) q = false := by rw [qbit_spread _ _ _ hq]; simp
  have h1 : qbit n (spread n [q] r 1) q = true := by rw [qbit_spread _ _ _ hq]; simp
  have hr : range (2 ^ [q].length) = {0, 1} := by rw [List.length_singleton]; rfl
  rw [hr, Finset.sum_insert (by simp), Finset.sum_singleton, h0, h1]

theorem spread_self {n q r : Nat} (hr : r < 2 ^ n) (hq : q < n) : spread n [q] r (qbit n r q).toNat = r := by
  apply qbit_ext (spread_lt _ _ _ _) hr
  intro k hk
  rw [qbit_spread _ _ _ hk]
  by_cases h : k = q
  · subst h; cases qbit n r k <;> simp
  · simp [h]

theorem apply1_diag {n q r : Nat} (hq : q < n) (hr : r < 2 ^ n) {U : Bool → Bool → ℂ}
    (hU : ∀ i j, i ≠ j → U i j = 0) (v : Nat → ℂ) :
    apply1 n q U v r = U (qbit n r q) (qbit n r q) * v r := by
  rw [apply1_eq hq]
  have hs := spread_self hr hq
  rcases hb : qbit n r q with _ | _
  · rw [hb] at hs
    rw [hU false true (by simp), zero_mul, add_zero]
    simp only [Bool.toNat_false] at hs
    rw [hs]
  · rw [hb] at hs
    rw [hU true false (by simp), zero_mul, zero_add]
    simp only [Bool.toNat_true] at hs
    rw [hs]

end QIP
