import Mathlib.RingTheory.ZMod.UnitsCyclic
import Mathlib.NumberTheory.Padics.PadicVal.Basic
import Mathlib.Data.Nat.Totient

/-!
# Orders of units modulo an odd number with two prime factors
-/

namespace QIP

open Finset

section Cyclic

variable {G : Type*} [CommGroup G] [Fintype G] [IsCyclic G] [DecidableEq G]

/-- In a cyclic group of even order at most half of the elements have an order with a given power of two. -/
theorem half_of_cyclic (heven : 2 ∣ Fintype.card G) (t : Nat) :
    2 * (univ.filter fun a : G => padicValNat 2 (orderOf a) = t).card ≤ Fintype.card G := by
  obtain ⟨g, hg⟩ := IsCyclic.exists_generator (α := G)
  have hord : orderOf g = Fintype.card G := by
    rw [← Nat.card_eq_fintype_card]; exact orderOf_eq_card_of_forall_mem_zpowers hg
  have hpow : ∀ a : G, ∃ i : Nat, g ^ i = a := fun a => by
    have := hg a
    rw [← mem_powers_iff_mem_zpowers] at this
    exact this
  have hpos : 0 < Fintype.card G := Fintype.card_pos
  -- even powers have a smaller power of two in their order, odd powers the full one
  have hodd : ∀ i : Nat, i % 2 = 1 → padicValNat 2 (orderOf (g ^ i)) = padicValNat 2 (Fintype.card G) := by
    intro i hi
    have h0 : i ≠ 0 := by omega
    rw [orderOf_pow' g h0, hord]
    have hd : Nat.gcd (Fintype.card G) i ∣ Fintype.card G := Nat.gcd_dvd_left _ _
    have h2 : ¬ 2 ∣ Nat.gcd (Fintype.card G) i := fun h => by
      have := h.trans (Nat.gcd_dvd_right _ _)
      omega
    rw [padicValNat.div_of_dvd hd, padicValNat.eq_zero_of_not_dvd h2, Nat.sub_zero]
  have hev : ∀ i : Nat, i % 2 = 0 → padicValNat 2 (orderOf (g ^ i)) < padicValNat 2 (Fintype.card G) := by
    intro i hi
    have h1 : orderOf (g ^ i) ∣ Fintype.card G / 2 := by
      rw [orderOf_dvd_iff_pow_eq_one, ← pow_mul]
      obtain ⟨j, rfl⟩ : ∃ j, i = 2 * j := ⟨i / 2, by omega⟩
      rw [show 2 * j * (Fintype.card G / 2) = Fintype.card G * j by
        rw [mul_assoc, mul_comm j, ← mul_assoc, Nat.mul_div_cancel' heven], pow_mul, pow_card_eq_one, one_pow]
    have h3 : Fintype.card G / 2 ≠ 0 := by omega
    have h4 : padicValNat 2 (orderOf (g ^ i)) ≤ padicValNat 2 (Fintype.card G / 2) :=
      (padicValNat_dvd_iff_le h3).1 (dvd_trans pow_padicValNat_dvd h1)
    have h5 : padicValNat 2 (Fintype.card G / 2) = padicValNat 2 (Fintype.card G) - 1 := by
      rw [padicValNat.div_of_dvd heven]; simp
    have h6 : 1 ≤ padicValNat 2 (Fintype.card G) := one_le_padicValNat_of_dvd hpos.ne' heven
    omega
  set S := univ.filter fun a : G => padicValNat 2 (orderOf a) = t
  have hdis : Disjoint S (S.image (g * ·)) := by
    rw [Finset.disjoint_left]
    intro a ha hb
    obtain ⟨b, hb, hab⟩ := Finset.mem_image.1 hb
    have ha' := (Finset.mem_filter.1 ha).2
    have hb' := (Finset.mem_filter.1 hb).2
    obtain ⟨i, rfl⟩ := hpow b
    have : g ^ (i + 1) = a := by rw [pow_succ']; exact hab
    rw [← this] at ha'
    rcases Nat.mod_two_eq_zero_or_one i with h | h
    · have h1 := hodd (i + 1) (by omega)
      have h2 := hev i h
      omega
    · have h1 := hodd i h
      have h2 := hev (i + 1) (by omega)
      omega
  have hc : (S.image (g * ·)).card = S.card := Finset.card_image_of_injective _ (mul_right_injective g)
  have := Finset.card_le_univ (S ∪ S.image (g * ·))
  rw [Finset.card_union_of_disjoint hdis, hc] at this
  omega

/-- In a product with a cyclic group of even order at most half of the pairs agree in the power of two in the orders. -/
theorem half_of_prod {H : Type*} [CommGroup H] [Fintype H] [DecidableEq H] (heven : 2 ∣ Fintype.card G) :
    2 * (univ.filter fun p : G × H => padicValNat 2 (orderOf p.1) = padicValNat 2 (orderOf p.2)).card ≤ Fintype.card (G × H) := by
  have : (univ.filter fun p : G × H => padicValNat 2 (orderOf p.1) = padicValNat 2 (orderOf p.2)).card
      = ∑ b : H, (univ.filter fun a : G => padicValNat 2 (orderOf a) = padicValNat 2 (orderOf b)).card := by
    simp only [Finset.card_filter]
    rw [Fintype.sum_prod_type_right]
  rw [this, Finset.mul_sum, Fintype.card_prod, mul_comm (Fintype.card G)]
  calc _ ≤ ∑ _b : H, Fintype.card G := Finset.sum_le_sum fun b _ => half_of_cyclic heven _
    _ = _ := by simp

end Cyclic

/-- The choices of Shor's algorithm that do not lead to a factor. -/
def BadUnit {M : Type*} [Monoid M] [HasDistribNeg M] (a : M) : Prop :=
  orderOf a % 2 = 1 ∨ a ^ (orderOf a / 2) = -1

/-- If `a ^ (r/2) = -1 ≠ 1` for a multiple `r` of the order, then the order has the same power of two as `r`. -/
theorem val_of_neg_one {M : Type*} [Monoid M] [HasDistribNeg M] (hne : (-1 : M) ≠ 1) {a : M} {r : Nat} (hr : r ≠ 0)
    (hd : orderOf a ∣ r) (h2 : r % 2 = 0) (h : a ^ (r / 2) = -1) : padicValNat 2 (orderOf a) = padicValNat 2 r := by
  obtain ⟨k, rfl⟩ := hd
  have hk : k % 2 = 1 := by
    by_contra hcon
    have : a ^ (orderOf a * k / 2) = 1 := by
      rw [← orderOf_dvd_iff_pow_eq_one]
      exact ⟨k / 2, by rw [Nat.mul_div_assoc _ (by omega : 2 ∣ k)]⟩
    exact hne (h.symm.trans this)
  have hk0 : k ≠ 0 := by omega
  have ho : orderOf a ≠ 0 := fun h => hr (by rw [h]; simp)
  rw [padicValNat.mul ho hk0, padicValNat.eq_zero_of_not_dvd (n := k) (by omega), Nat.add_zero]

theorem neg_one_ne_one_units {m : Nat} (hm : 2 < m) : (-1 : (ZMod m)ˣ) ≠ 1 := by
  intro h
  have h1 : (-1 : ZMod m) = 1 := by
    have := congrArg Units.val h
    simpa using this
  have : Fact (2 < m) := ⟨hm⟩
  exact ZMod.neg_one_ne_one h1

open Classical in
/-- Modulo a product of a prime power and an odd number greater than 1, coprime to each other, at most half of the units
are bad. -/
theorem bad_units {p e m : Nat} (hp : p.Prime) (hp2 : p ≠ 2) (he : e ≠ 0) (hm : 2 < m) (hco : Nat.Coprime (p ^ e) m)
    [NeZero (p ^ e)] [NeZero m] [NeZero (p ^ e * m)] :
    2 * (univ.filter fun a : (ZMod (p ^ e * m))ˣ => BadUnit a).card ≤ Fintype.card (ZMod (p ^ e * m))ˣ := by
  have : IsCyclic (ZMod (p ^ e))ˣ := ZMod.isCyclic_units_of_prime_pow p hp hp2 e
  have hpe : 2 < p ^ e := by
    have h3 : 3 ≤ p := by have := hp.two_le; omega
    calc 2 < p := h3
      _ = p ^ 1 := (pow_one p).symm
      _ ≤ p ^ e := Nat.pow_le_pow_right (by omega) (by omega)
  have heven : 2 ∣ Fintype.card (ZMod (p ^ e))ˣ := by
    rw [ZMod.card_units_eq_totient]
    exact (Nat.totient_even hpe).two_dvd
  let E : (ZMod (p ^ e * m))ˣ ≃* (ZMod (p ^ e))ˣ × (ZMod m)ˣ :=
    (Units.mapEquiv (ZMod.chineseRemainder hco).toMulEquiv).trans MulEquiv.prodUnits
  have hneg : E (-1) = (-1, -1) := by
    refine Prod.ext (Units.ext ?_) (Units.ext ?_)
    · have : ((E (-1)).1 : ZMod (p ^ e)) = (ZMod.chineseRemainder hco (-1)).1 := rfl
      rw [this, map_neg, map_one]; simp
    · have : ((E (-1)).2 : ZMod m) = (ZMod.chineseRemainder hco (-1)).2 := rfl
      rw [this, map_neg, map_one]; simp
  have himp : ∀ a, BadUnit a → padicValNat 2 (orderOf (E a).1) = padicValNat 2 (orderOf (E a).2) := by
    intro a ha
    have hord : orderOf a = Nat.lcm (orderOf (E a).1) (orderOf (E a).2) := by
      rw [← Prod.orderOf, MulEquiv.orderOf_eq]
    have d1 : orderOf (E a).1 ∣ orderOf a := by rw [hord]; exact Nat.dvd_lcm_left _ _
    have d2 : orderOf (E a).2 ∣ orderOf a := by rw [hord]; exact Nat.dvd_lcm_right _ _
    have hpos : orderOf a ≠ 0 := (orderOf_pos a).ne'
    rcases Nat.mod_two_eq_zero_or_one (orderOf a) with h | h
    · rcases ha with h' | h'
      · omega
      · have hE : (E a) ^ (orderOf a / 2) = (-1, -1) := by rw [← map_pow, h', hneg]
        have e1 : (E a).1 ^ (orderOf a / 2) = -1 := by rw [← Prod.pow_fst, hE]
        have e2 : (E a).2 ^ (orderOf a / 2) = -1 := by rw [← Prod.pow_snd, hE]
        rw [val_of_neg_one (neg_one_ne_one_units hpe) hpos d1 h e1, val_of_neg_one (neg_one_ne_one_units hm) hpos d2 h e2]
    · have n1 : ¬ 2 ∣ orderOf (E a).1 := fun h' => by have := h'.trans d1; omega
      have n2 : ¬ 2 ∣ orderOf (E a).2 := fun h' => by have := h'.trans d2; omega
      rw [padicValNat.eq_zero_of_not_dvd n1, padicValNat.eq_zero_of_not_dvd n2]
  have hle : (univ.filter fun a : (ZMod (p ^ e * m))ˣ => BadUnit a).card
      ≤ (univ.filter fun q : (ZMod (p ^ e))ˣ × (ZMod m)ˣ => padicValNat 2 (orderOf q.1) = padicValNat 2 (orderOf q.2)).card :=
    Finset.card_le_card_of_injOn E (fun a ha => by
      simp only [coe_filter, mem_univ, true_and, Set.mem_ofPred_eq] at ha ⊢
      exact himp a ha) E.injective.injOn
  have := half_of_prod (G := (ZMod (p ^ e))ˣ) (H := (ZMod m)ˣ) heven
  rw [Fintype.card_congr E.toEquiv]
  omega

open Classical in
/-- The same for an odd number with two different prime factors. -/
theorem bad_units_odd {N : Nat} [NeZero N] (hodd : N % 2 = 1) {p q : Nat} (hp : p.Prime) (hq : q.Prime) (hpq : p ≠ q)
    (hpN : p ∣ N) (hqN : q ∣ N) : 2 * (univ.filter fun a : (ZMod N)ˣ => BadUnit a).card ≤ Fintype.card (ZMod N)ˣ := by
  have hN0 : N ≠ 0 := by omega
  obtain ⟨e, m, hm, hNe⟩ := Nat.exists_eq_pow_mul_and_not_dvd hN0 p hp.ne_one
  have hp2 : p ≠ 2 := by rintro rfl; omega
  have hq2 : q ≠ 2 := by rintro rfl; omega
  have he : e ≠ 0 := by
    rintro rfl
    rw [pow_zero, one_mul] at hNe
    exact hm (hNe ▸ hpN)
  have hco : Nat.Coprime (p ^ e) m := Nat.Coprime.pow_left _ ((Nat.Prime.coprime_iff_not_dvd hp).2 hm)
  have hqm : q ∣ m := by
    have h1 : Nat.Coprime q (p ^ e) := Nat.Coprime.pow_right _ ((Nat.coprime_primes hq hp).2 (Ne.symm hpq))
    exact h1.dvd_of_dvd_mul_left (hNe ▸ hqN)
  have hm0 : m ≠ 0 := by rintro rfl; omega
  have hm2 : 2 < m := by
    have := Nat.le_of_dvd (by omega) hqm
    have := hq.two_le
    omega
  have : NeZero (p ^ e) := ⟨(Nat.pow_pos hp.pos).ne'⟩
  have : NeZero m := ⟨hm0⟩
  subst hNe
  exact bad_units hp hp2 he hm2 hco

end QIP
