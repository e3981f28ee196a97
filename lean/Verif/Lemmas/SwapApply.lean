import Verif.Lemmas.SwapTest
import Verif.Lemmas.Dft

/-! # What the operations of the swap test do -/

namespace QIP

open Spec Finset

theorem subIndex_spread_off {n : Nat} {S g : List Nat} (hg : ∀ q ∈ g, q ∉ S) (hn : ∀ q ∈ g, q < n) (r i : Nat) :
    subIndex n g (spread n S r i) = subIndex n g r :=
  subIndex_congr fun q hq => by rw [qbit_spread _ _ _ (hn q hq), if_neg (hg q hq)]

/-- Exchange of two registers. -/
theorem swap_sum {n : Nat} {a b : List Nat} (hnd : (a ++ b).Nodup) (hn : ∀ q ∈ a ++ b, q < n) (hl : a.length = b.length)
    (v : Nat → ℂ) (r : Nat) :
    ∑ c ∈ (range (2 ^ n)).filter (fun c => Swapped n a b r c), v c
      = v (spread n (a ++ b) r (subIndex n b r * 2 ^ b.length + subIndex n a r)) := by
  have hlt : subIndex n b r * 2 ^ b.length + subIndex n a r < 2 ^ (a ++ b).length := by
    have h1 := subIndex_lt n a r
    have h2 := subIndex_lt n b r
    rw [hl] at h1
    rw [List.length_append, hl, pow_add]
    nlinarith [Nat.one_le_two_pow (n := b.length)]
  have key : ∀ c, AgreeOff n (a ++ b) r c →
      ((subIndex n a c = subIndex n b r ∧ subIndex n b c = subIndex n a r) ↔
        subIndex n (a ++ b) c = subIndex n b r * 2 ^ b.length + subIndex n a r) := by
    intro c _
    rw [subIndex_append]
    constructor
    · rintro ⟨h1, h2⟩; rw [h1, h2]
    · intro h
      have ha := subIndex_lt n a r
      have hb := subIndex_lt n b c
      rw [hl] at ha
      have hp : 0 < 2 ^ b.length := by positivity
      have e1 : (subIndex n a c * 2 ^ b.length + subIndex n b c) / 2 ^ b.length = subIndex n a c := by
        rw [Nat.mul_comm, Nat.mul_add_div hp, Nat.div_eq_of_lt hb, Nat.add_zero]
      have e2 : (subIndex n b r * 2 ^ b.length + subIndex n a r) / 2 ^ b.length = subIndex n b r := by
        rw [Nat.mul_comm, Nat.mul_add_div hp, Nat.div_eq_of_lt ha, Nat.add_zero]
      have e3 : subIndex n a c = subIndex n b r := by rw [← e1, h, e2]
      exact ⟨e3, by rw [e3] at h; omega⟩
  have : (range (2 ^ n)).filter (fun c => Swapped n a b r c)
      = {spread n (a ++ b) r (subIndex n b r * 2 ^ b.length + subIndex n a r)} := by
    ext c
    simp only [Finset.mem_filter, Finset.mem_range, Finset.mem_singleton]
    constructor
    · rintro ⟨hc, h1, h2⟩
      rw [← (key c h1).1 h2, spread_subIndex hc h1]
    · rintro rfl
      exact ⟨spread_lt _ _ _ _, agreeOff_spread _ _ _ _,
        (key _ (agreeOff_spread _ _ _ _)).2 (subIndex_spread _ hnd hn hlt)⟩
  rw [this, Finset.sum_singleton]

/-- A state given by the value of a qubit and of two registers. -/
def triple (n : Nat) (q : Nat) (a b : List Nat) (G : Bool → Nat → Nat → ℂ) (r : Nat) : ℂ :=
  G (qbit n r q) (subIndex n a r) (subIndex n b r)

theorem triple_h {n q : Nat} {a b : List Nat} (hnd : (q :: (a ++ b)).Nodup) (hn : ∀ x ∈ q :: (a ++ b), x < n)
    (G : Bool → Nat → Nat → ℂ) :
    gateApply n .h [[q]] (triple n q a b G) = triple n q a b fun z x y =>
      ((1 / √2 : ℝ) : ℂ) * (G false x y + (if z then -1 else 1) * G true x y) := by
  have hq : q < n := hn q (by simp)
  rw [List.nodup_cons] at hnd
  funext r
  have e1 : gateApply n .h [[q]] (triple n q a b G) r = apply1 n q (gateU .h) (triple n q a b G) r := by simp [gateApply]
  have ha : ∀ i, subIndex n a (spread n [q] r i) = subIndex n a r := fun i => subIndex_spread_off (by
    intro x hx hxq; simp at hxq; subst hxq; exact hnd.1 (by simp [hx])) (fun x hx => hn x (by simp [hx])) r i
  have hb : ∀ i, subIndex n b (spread n [q] r i) = subIndex n b r := fun i => subIndex_spread_off (by
    intro x hx hxq; simp at hxq; subst hxq; exact hnd.1 (by simp [hx])) (fun x hx => hn x (by simp [hx])) r i
  have h0 : qbit n (spread n [q] r 0) q = false := by rw [qbit_spread _ _ _ hq]; simp
  have h1 : qbit n (spread n [q] r 1) q = true := by rw [qbit_spread _ _ _ hq]; simp
  rw [e1, apply1_eq hq]
  unfold triple
  rw [ha, ha, hb, hb, h0, h1]
  cases qbit n r q <;> simp [gateU] <;> ring

theorem triple_cswap {n q k : Nat} {a b : List Nat} (hnd : (q :: (a ++ b)).Nodup) (hn : ∀ x ∈ q :: (a ++ b), x < n)
    (hl : a.length = b.length) (G : Bool → Nat → Nat → ℂ) :
    gateApply n (.c (.swap k)) [[q], a, b] (triple n q a b G) = triple n q a b fun z x y => if z then G z y x else G z x y := by
  have hq : q < n := hn q (by simp)
  rw [List.nodup_cons] at hnd
  have hn' : ∀ x ∈ a ++ b, x < n := fun x hx => hn x (by simp [List.mem_append.1 hx])
  funext r
  have e1 : gateApply n (.c (.swap k)) [[q], a, b] (triple n q a b G) r = if qbit n r q then
      ∑ c ∈ (range (2 ^ n)).filter (fun c => Swapped n a b r c), triple n q a b G c else triple n q a b G r := by
    simp [gateApply]
  rw [e1]
  by_cases hz : qbit n r q = true
  · rw [if_pos hz, swap_sum hnd.2 hn' hl]
    have hlt : subIndex n b r * 2 ^ b.length + subIndex n a r < 2 ^ (a ++ b).length := by
      have h1 := subIndex_lt n a r
      have h2 := subIndex_lt n b r
      rw [hl] at h1
      rw [List.length_append, hl, pow_add]
      nlinarith [Nat.one_le_two_pow (n := b.length)]
    have hs := subIndex_spread r hnd.2 hn' hlt
    rw [subIndex_append] at hs
    generalize hc : spread n (a ++ b) r (subIndex n b r * 2 ^ b.length + subIndex n a r) = c at hs ⊢
    have hp : 0 < 2 ^ b.length := by positivity
    have h1 := subIndex_lt n a r
    rw [hl] at h1
    have h2 := subIndex_lt n b c
    have e1 : (subIndex n a c * 2 ^ b.length + subIndex n b c) / 2 ^ b.length = subIndex n a c := by
      rw [Nat.mul_comm, Nat.mul_add_div hp, Nat.div_eq_of_lt h2, Nat.add_zero]
    have e2 : (subIndex n b r * 2 ^ b.length + subIndex n a r) / 2 ^ b.length = subIndex n b r := by
      rw [Nat.mul_comm, Nat.mul_add_div hp, Nat.div_eq_of_lt h1, Nat.add_zero]
    have ea : subIndex n a c = subIndex n b r := by rw [← e1, hs, e2]
    have eb : subIndex n b c = subIndex n a r := by rw [ea] at hs; omega
    have eq : qbit n c q = qbit n r q := by
      rw [← hc, qbit_spread _ _ _ hq, if_neg hnd.1]
    unfold triple
    rw [ea, eb, eq, hz]
    simp
  · rw [if_neg hz]
    unfold triple
    simp at hz
    simp [hz]

/-- Reading a basis state of one qubit and two registers. -/
theorem triple_at {k a x y : Nat} (ha : a < 2) (hx : x < 2 ^ k) (hy : y < 2 ^ k) (G : Bool → Nat → Nat → ℂ) :
    triple (1 + (k + k)) 0 ((List.range k).map (1 + ·)) ((List.range k).map (1 + k + ·)) G (a * 2 ^ (2 * k) + x * 2 ^ k + y)
      = G (decide (a = 1)) x y := by
  have hp : 2 ^ (2 * k) = 2 ^ k * 2 ^ k := by rw [two_mul, pow_add]
  have hq : 0 < 2 ^ k := by positivity
  have hxy : x * 2 ^ k + y < 2 ^ k * 2 ^ k := by nlinarith
  unfold triple
  rw [subIndex_block (by omega), subIndex_block (by omega)]
  have e1 : 1 + (k + k) - 1 - k = k := by omega
  have e2 : 1 + (k + k) - (1 + k) - k = 0 := by omega
  rw [e1, e2, pow_zero, Nat.div_one]
  have hb : qbit (1 + (k + k)) (a * 2 ^ (2 * k) + x * 2 ^ k + y) 0 = decide (a = 1) := by
    rw [Nat.add_comm 1, qbit_first]
    · rw [← two_mul, hp]
      rcases (by omega : a = 0 ∨ a = 1) with rfl | rfl
      · simp; omega
      · simp; omega
    · rw [pow_succ, ← two_mul, hp]
      rcases (by omega : a = 0 ∨ a = 1) with rfl | rfl
      · omega
      · omega
  have h1 : (a * 2 ^ (2 * k) + x * 2 ^ k + y) / 2 ^ k % 2 ^ k = x := by
    rw [hp, show a * (2 ^ k * 2 ^ k) + x * 2 ^ k + y = 2 ^ k * (2 ^ k * a + x) + y by ring, Nat.mul_add_div hq,
      Nat.div_eq_of_lt hy, Nat.add_zero, Nat.mul_add_mod, Nat.mod_eq_of_lt hx]
  have h2 : (a * 2 ^ (2 * k) + x * 2 ^ k + y) % 2 ^ k = y := by
    rw [hp, show a * (2 ^ k * 2 ^ k) + x * 2 ^ k + y = 2 ^ k * (2 ^ k * a + x) + y by ring, Nat.mul_add_mod,
      Nat.mod_eq_of_lt hy]
  rw [hb, h1, h2]

end QIP
