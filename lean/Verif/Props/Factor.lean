import Verif.Lemmas.Units
import Verif.Props.Period

/-!
# How often a round of Shor's example finds factors (C106)
-/

namespace QIP.Props

open QIP QIP.Spec Finset

theorem unit_pow_iff {a N : Nat} (h : Nat.Coprime a N) (i : Nat) :
    ZMod.unitOfCoprime a h ^ i = 1 ↔ a ^ i % N = 1 % N := by
  rw [Units.ext_iff, Units.val_pow_eq_pow_val, ZMod.coe_unitOfCoprime, Units.val_one]
  rw [show ((a : ZMod N) ^ i) = ((a ^ i : Nat) : ZMod N) by push_cast; rfl, show (1 : ZMod N) = ((1 : Nat) : ZMod N) by simp,
    ZMod.natCast_eq_natCast_iff']

theorem orderOf_period {a N s : Nat} (h : Nat.Coprime a N) (hs : IsPeriod a N s) : orderOf (ZMod.unitOfCoprime a h) = s := by
  apply Nat.dvd_antisymm
  · rw [orderOf_dvd_iff_pow_eq_one, unit_pow_iff, hs.2]
  · rw [← hs.2, ← unit_pow_iff h, pow_orderOf_eq_one]

theorem square_dvd {a N r : Nat} (h : Nat.Coprime a N) (h2 : r % 2 = 0) (hr : a ^ r % N = 1 % N) :
    (N : Int) ∣ (((a ^ (r / 2) % N : Nat) : Int) + 1) * (((a ^ (r / 2) % N : Nat) : Int) - 1) := by
  have h1 : ((a ^ (r / 2) % N : Nat) : ZMod N) = (a : ZMod N) ^ (r / 2) := by rw [ZMod.natCast_mod]; push_cast; rfl
  have h2 : (a : ZMod N) ^ r = 1 := by
    have := (unit_pow_iff h r).2 hr
    rw [Units.ext_iff, Units.val_pow_eq_pow_val, ZMod.coe_unitOfCoprime] at this
    simpa using this
  rw [← ZMod.intCast_zmod_eq_zero_iff_dvd]
  rw [Int.cast_mul, Int.cast_add, Int.cast_sub, Int.cast_natCast, Int.cast_one, h1]
  have h3 : (a : ZMod N) ^ (r / 2) * (a : ZMod N) ^ (r / 2) = 1 := by
    rw [← pow_add, show r / 2 + r / 2 = r by omega, h2]
  linear_combination h3

theorem residue_one {x N : Nat} (hN : 1 < N) (hx : x < N) (hd : (N : Int) ∣ (x : Int) - 1) : x = 1 := by
  rcases Nat.eq_zero_or_pos x with h0 | h0
  · rw [h0] at hd
    have : (N : Int) ∣ 1 := by simpa using (dvd_neg.2 hd)
    have := Int.le_of_dvd one_pos this
    omega
  · by_contra hne
    have := Int.le_of_dvd (by omega) hd
    omega

/-- A round with the right period that finds nothing has drawn a bad number. -/
theorem step_bad {a N r : Nat} (hN : 1 < N) (hodd : N % 2 = 1) (h53 : N < 2 ^ 53) (h : Nat.Coprime a N) (hr : IsPeriod a N r)
    (hs : classicalStep N a r = none) : BadUnit (ZMod.unitOfCoprime a h) := by
  have hlt := period_lt hN hr
  unfold BadUnit
  rw [orderOf_period h hr]
  unfold classicalStep at hs
  simp only at hs
  rw [if_neg (not_not.2 h)] at hs
  split at hs
  · left; assumption
  rename_i hr2
  right
  have hdiv : floatDivInt r 2 = r / 2 := floatDivInt_eq (by omega) (by norm_num) (by norm_num)
  rw [hdiv] at hs
  set x := a ^ (r / 2) % N with hx
  have hxN : x < N := Nat.mod_lt _ (by omega)
  have key : x = N - 1 → ZMod.unitOfCoprime a h ^ (r / 2) = -1 := by
    intro he
    rw [Units.ext_iff, Units.val_pow_eq_pow_val, ZMod.coe_unitOfCoprime, Units.val_neg, Units.val_one]
    have h1 : ((a ^ (r / 2) : Nat) : ZMod N) = ((N - 1 : Nat) : ZMod N) := by
      rw [ZMod.natCast_eq_natCast_iff', ← hx, Nat.mod_eq_of_lt (by omega : N - 1 < N), he]
    rw [← Nat.cast_pow, h1, Nat.cast_sub (by omega)]
    simp
  split at hs
  · exact key (by assumption)
  rename_i hne
  split at hs
  swap
  · simp at hs
  rename_i hf
  exfalso
  have hN0 : (N : Int) ∣ ((x : Int) + 1) * ((x : Int) - 1) := square_dvd h (by omega) ((hr.2 r).2 dvd_rfl)
  rcases hf with hf | hf
  · have hco : IsCoprime (N : Int) ((x : Int) + 1) := by
      rw [Int.isCoprime_iff_gcd_eq_one, Int.gcd_comm, show ((x : Int) + 1) = ((x + 1 : Nat) : Int) by push_cast; rfl,
        Int.gcd_natCast_natCast]
      exact hf
    have hd := hco.dvd_of_dvd_mul_left hN0
    have hx1 : x = 1 := residue_one hN hxN hd
    have := (hr.2 (r / 2)).1 (by rw [← hx, hx1, Nat.mod_eq_of_lt hN])
    have := Nat.le_of_dvd (by have := hr.1; omega) this
    have := hr.1
    omega
  · have hco : IsCoprime (N : Int) ((x : Int) - 1) := by
      rw [Int.isCoprime_iff_gcd_eq_one, Int.gcd_comm]
      exact hf
    have hd := hco.dvd_of_dvd_mul_right hN0
    have := Int.le_of_dvd (by omega) hd
    omega

/-- Among the numbers that can be drawn, those for which a round with the right period finds nothing are at most half. -/
theorem bad_choices {N : Nat} (hodd : N % 2 = 1) (h53 : N < 2 ^ 53) {p q : Nat} (hp : p.Prime) (hq : q.Prime) (hpq : p ≠ q)
    (hpN : p ∣ N) (hqN : q ∣ N) {r : Nat → Nat} (hr : ∀ a, Nat.Coprime a N → IsPeriod a N (r a)) :
    2 * ((choices N).filter fun a => classicalStep N a (r a) = none).card ≤ N - 2 := by
  classical
  have hN0 : N ≠ 0 := by omega
  have : NeZero N := ⟨hN0⟩
  have hbad := bad_units_odd hodd hp hq hpq hpN hqN
  have hN1 : 1 < N := by
    have := Nat.le_of_dvd (by omega) hpN
    have := hp.two_le
    omega
  let u : Nat → (ZMod N)ˣ := fun a => if h : Nat.Coprime a N then ZMod.unitOfCoprime a h else 1
  set S := (choices N).filter fun a => classicalStep N a (r a) = none with hS
  have hmem : ∀ a ∈ S, 2 ≤ a ∧ a < N ∧ ∃ h : Nat.Coprime a N, u a = ZMod.unitOfCoprime a h ∧ BadUnit (u a) := by
    intro a ha
    obtain ⟨h1, h2⟩ := Finset.mem_filter.1 ha
    have h3 := Finset.mem_Icc.1 h1
    have h4 : Nat.Coprime a N := by
      by_contra hcon
      simp [classicalStep, if_pos (show Nat.gcd a N ≠ 1 from hcon)] at h2
    refine ⟨h3.1, by omega, h4, dif_pos h4, ?_⟩
    rw [show u a = ZMod.unitOfCoprime a h4 from dif_pos h4]
    exact step_bad hN1 hodd h53 h4 (hr a h4) h2
  have hval : ∀ a ∈ S, ((u a : (ZMod N)ˣ) : ZMod N) = a := fun a ha => by
    obtain ⟨-, -, h, he, -⟩ := hmem a ha
    rw [he, ZMod.coe_unitOfCoprime]
  have hinj : Set.InjOn u S := by
    intro a ha b hb hab
    have h1 := congrArg Units.val hab
    rw [hval a ha, hval b hb, ZMod.natCast_eq_natCast_iff', Nat.mod_eq_of_lt (hmem a ha).2.1,
      Nat.mod_eq_of_lt (hmem b hb).2.1] at h1
    exact h1
  have hone : (1 : (ZMod N)ˣ) ∉ S.image u := by
    intro h
    obtain ⟨a, ha, h1⟩ := Finset.mem_image.1 h
    have h2 := congrArg Units.val h1
    rw [hval a ha, Units.val_one, show (1 : ZMod N) = ((1 : Nat) : ZMod N) by simp, ZMod.natCast_eq_natCast_iff',
      Nat.mod_eq_of_lt (hmem a ha).2.1, Nat.mod_eq_of_lt hN1] at h2
    have := (hmem a ha).1
    omega
  have hsub : insert 1 (S.image u) ⊆ univ.filter fun a : (ZMod N)ˣ => BadUnit a := by
    intro x hx
    rw [Finset.mem_filter]
    refine ⟨Finset.mem_univ _, ?_⟩
    rcases Finset.mem_insert.1 hx with rfl | hx
    · left; simp
    · obtain ⟨a, ha, rfl⟩ := Finset.mem_image.1 hx
      exact (hmem a ha).2.2.choose_spec.2
  have hcard := Finset.card_le_card hsub
  rw [Finset.card_insert_of_notMem hone, Finset.card_image_of_injOn hinj] at hcard
  rw [ZMod.card_units_eq_totient] at hbad
  have := Nat.totient_lt N hN1
  omega

open Classical in
/-- **C106**: for every odd `N` with two different prime factors (below `2^53`), a round of `classical` in which the
quantum part returns the period returns factors for at least half of the numbers that can be drawn.  Partial: false for
prime powers (`C106_prime_power`), and `quantum` does not return every period (`C106_period_two`). -/
theorem C106_half_partial {N : Nat} (hodd : N % 2 = 1) (h53 : N < 2 ^ 53) {p q : Nat} (hp : p.Prime) (hq : q.Prime)
    (hpq : p ≠ q) (hpN : p ∣ N) (hqN : q ∣ N) {r : Nat → Nat} (hr : ∀ a, Nat.Coprime a N → IsPeriod a N (r a)) :
    (choices N).card ≤ 2 * ((choices N).filter fun a => ∃ f g, classicalStep N a (r a) = some (f, g) ∧
      f ∣ N ∧ 1 < f ∧ f < N ∧ g ∣ N ∧ 1 < g ∧ g < N).card := by
  have hbad := bad_choices hodd h53 hp hq hpq hpN hqN hr
  have hN1 : 1 < N := by
    have := Nat.le_of_dvd (by omega) hpN
    have := hp.two_le
    omega
  have hcard : (choices N).card = N - 2 := by rw [choices, Nat.card_Icc]; omega
  have hsplit := Finset.card_filter_add_card_filter_not (s := choices N) fun a => classicalStep N a (r a) = none
  have hle : ((choices N).filter fun a => ¬ classicalStep N a (r a) = none).card ≤
      ((choices N).filter fun a => ∃ f g, classicalStep N a (r a) = some (f, g) ∧
        f ∣ N ∧ 1 < f ∧ f < N ∧ g ∣ N ∧ 1 < g ∧ g < N).card := by
    apply Finset.card_le_card
    intro a ha
    obtain ⟨h1, h2⟩ := Finset.mem_filter.1 ha
    refine Finset.mem_filter.2 ⟨h1, ?_⟩
    obtain ⟨⟨f, g⟩, hfg⟩ := Option.ne_none_iff_exists'.1 h2
    have h3 := Finset.mem_Icc.1 h1
    by_cases hco : Nat.Coprime a N
    · exact ⟨f, g, hfg, C75_factors_partial hodd h53 (draws := [(a, r a)])
        (by intro x hx; rw [List.mem_singleton] at hx; subst hx
            exact ⟨h3.1, by simp only; omega, by have := period_lt hN1 (hr a hco); simp only; omega⟩)
        (by simp [classicalLoop, hfg])⟩
    · have h0 : classicalStep N a 0 = some (f, g) := by
        rw [← hfg]
        unfold classicalStep
        simp only
        rw [if_pos (show Nat.gcd a N ≠ 1 from hco), if_pos (show Nat.gcd a N ≠ 1 from hco)]
      exact ⟨f, g, hfg, C75_factors_partial hodd h53 (draws := [(a, 0)])
        (by intro x hx; rw [List.mem_singleton] at hx; subst hx; exact ⟨h3.1, by simp only; omega, by norm_num⟩)
        (by simp [classicalLoop, h0])⟩
  omega

theorem loop_none {N : Nat} (l : List (Nat × Nat)) : classicalLoop N l = none ↔ ∀ x ∈ l, classicalStep N x.1 x.2 = none := by
  induction l with
  | nil => simp [classicalLoop]
  | cons x l ih =>
    obtain ⟨a, r⟩ := x
    unfold classicalLoop
    cases h : classicalStep N a r <;> simp [h, ih]

/-- **C106**: after `k` rounds at most the fraction `2^-k` of the sequences of numbers that can be drawn has led to no
result. -/
theorem C106_rounds_partial {N : Nat} (hodd : N % 2 = 1) (h53 : N < 2 ^ 53) {p q : Nat} (hp : p.Prime) (hq : q.Prime)
    (hpq : p ≠ q) (hpN : p ∣ N) (hqN : q ∣ N) {r : Nat → Nat} (hr : ∀ a, Nat.Coprime a N → IsPeriod a N (r a)) (k : Nat) :
    2 ^ k * ((Fintype.piFinset fun _ : Fin k => choices N).filter fun d =>
      classicalLoop N ((List.ofFn d).map fun a => (a, r a)) = none).card ≤ (Fintype.piFinset fun _ : Fin k => choices N).card := by
  have hbad := bad_choices hodd h53 hp hq hpq hpN hqN hr
  have hN1 : 1 < N := by
    have := Nat.le_of_dvd (by omega) hpN
    have := hp.two_le
    omega
  have hcard : (choices N).card = N - 2 := by rw [choices, Nat.card_Icc]; omega
  have he : ((Fintype.piFinset fun _ : Fin k => choices N).filter fun d =>
      classicalLoop N ((List.ofFn d).map fun a => (a, r a)) = none)
      = Fintype.piFinset fun _ : Fin k => (choices N).filter fun a => classicalStep N a (r a) = none := by
    ext d
    simp only [Finset.mem_filter, Fintype.mem_piFinset, loop_none, List.mem_map, List.mem_ofFn']
    constructor
    · rintro ⟨h1, h2⟩ i
      exact ⟨h1 i, h2 (d i, r (d i)) ⟨d i, ⟨i, rfl⟩, rfl⟩⟩
    · intro h
      refine ⟨fun i => (h i).1, ?_⟩
      rintro _ ⟨_, ⟨i, rfl⟩, rfl⟩
      exact (h i).2
  rw [he, Fintype.card_piFinset_const, Fintype.card_piFinset_const, ← mul_pow, hcard]
  exact Nat.pow_le_pow_left hbad k

/-- **C106** is false for prime powers: whatever unit is drawn and whatever multiple of its period the quantum part
returns, the round finds nothing. -/
theorem C106_prime_power {p e a r : Nat} (hp : p.Prime) (hp2 : p ≠ 2) (he : 0 < e) (h : Nat.Coprime a (p ^ e))
    (h53 : r < 2 ^ 53) (hr : a ^ r % p ^ e = 1) : classicalStep (p ^ e) a r = none := by
  have hp3 : 3 ≤ p := by have := hp.two_le; omega
  have hodd : p % 2 = 1 := (hp.eq_two_or_odd).resolve_left hp2
  have hN : 1 < p ^ e := Nat.one_lt_pow (by omega) (by omega)
  unfold classicalStep
  simp only
  rw [if_neg (not_not.2 h)]
  split
  · rfl
  rename_i hr2
  have hdiv : floatDivInt r 2 = r / 2 := floatDivInt_eq h53 (by norm_num) (by norm_num)
  rw [hdiv]
  have hd := square_dvd (r := r) h (by omega) (by rw [hr, Nat.mod_eq_of_lt hN])
  have hxN : a ^ (r / 2) % p ^ e < p ^ e := Nat.mod_lt _ (by omega)
  generalize a ^ (r / 2) % p ^ e = x at hd hxN ⊢
  have hpP : Prime (p : Int) := Nat.prime_iff_prime_int.1 hp
  have hnot : ¬ ((p : Int) ∣ (x : Int) + 1 ∧ (p : Int) ∣ (x : Int) - 1) := by
    rintro ⟨h1, h2⟩
    have h3 : (p : Int) ∣ 2 := by
      have := dvd_sub h1 h2
      rwa [show (x : Int) + 1 - ((x : Int) - 1) = 2 by ring] at this
    have := Int.le_of_dvd (by norm_num) h3
    omega
  split
  · rfl
  rename_i hne
  rw [if_pos]
  left
  have hx1 : x = 1 := by
    apply residue_one hN hxN
    push_cast at hd ⊢
    by_cases h1 : (p : Int) ∣ (x : Int) + 1
    · exfalso
      have h2 : ¬ (p : Int) ∣ (x : Int) - 1 := fun h2 => hnot ⟨h1, h2⟩
      have hco : IsCoprime ((p : Int) ^ e) ((x : Int) - 1) := ((hpP.coprime_iff_not_dvd).2 h2).pow_left
      have h4 := hco.dvd_of_dvd_mul_right hd
      have h5 := Int.le_of_dvd (by omega) h4
      have h6 : ((p ^ e : Nat) : Int) ≤ (x : Int) + 1 := by push_cast; exact h5
      omega
    · have hco : IsCoprime ((p : Int) ^ e) ((x : Int) + 1) := ((hpP.coprime_iff_not_dvd).2 h1).pow_left
      exact hco.dvd_of_dvd_mul_left hd
  rw [hx1]
  have : Nat.Coprime 2 (p ^ e) := Nat.Coprime.pow_right _ ((Nat.coprime_primes Nat.prime_two hp).2 (Ne.symm hp2))
  exact this

/-- **C106** is false for primes: the loop never returns, whatever the quantum part returns. -/
theorem C106_prime {p : Nat} (hp : p.Prime) (hp2 : p ≠ 2) (h53 : p < 2 ^ 53) {draws : List (Nat × Nat)}
    (hd : ∀ ar ∈ draws, 2 ≤ ar.1 ∧ ar.1 < p ∧ ar.2 < 2 ^ 53) : classicalLoop p draws = none := by
  by_contra hcon
  obtain ⟨⟨f, g⟩, hfg⟩ := Option.ne_none_iff_exists'.1 hcon
  have hodd : p % 2 = 1 := by
    rcases hp.eq_two_or_odd with h | h
    · exact absurd h hp2
    · exact h
  obtain ⟨h1, h2, h3, -⟩ := C75_factors_partial hodd h53 hd hfg
  rcases (Nat.dvd_prime hp).1 h1 with h | h <;> omega

/-- If the period divides `2^m`, only multiples of `2^m / s` are measured. -/
theorem peak_exact {m x N s k : Nat} (h : IsPeriod x N s) (hs : s ∣ 2 ^ m) (hk : ¬ 2 ^ m ∣ s * k) : peakProb m x N k = 0 := by
  obtain ⟨c, hc⟩ := hs
  have hspos := h.1
  have hN : (2 ^ m : ℂ) ≠ 0 := pow_ne_zero _ two_ne_zero
  have hcs : (s : ℂ) * c = 2 ^ m := by exact_mod_cast congrArg (Nat.cast (R := ℂ)) hc.symm
  unfold peakProb
  refine mul_eq_zero_of_right _ (Finset.sum_eq_zero fun y _ => ?_)
  rw [Complex.normSq_eq_zero]
  by_cases hy : ∃ i, x ^ i % N = y
  swap
  · rw [Finset.filter_false_of_mem fun i _ hi => hy ⟨i, hi⟩, Finset.sum_empty]
  obtain ⟨i0, hi0⟩ := hy
  set a := i0 % s with ha
  have halt : a < s := Nat.mod_lt _ hspos
  have hset : (range (2 ^ m)).filter (fun i => x ^ i % N = y) = (range c).image fun j => a + s * j := by
    ext i
    rw [Finset.mem_filter, Finset.mem_image, ← hi0, period_iff h, Finset.mem_range, hc]
    constructor
    · rintro ⟨h1, h2⟩
      refine ⟨i / s, Finset.mem_range.2 (Nat.div_lt_of_lt_mul h1), ?_⟩
      rw [ha, ← h2, Nat.mod_add_div]
    · rintro ⟨j, hj, rfl⟩
      have hj := Finset.mem_range.1 hj
      refine ⟨?_, by rw [Nat.add_mul_mod_self_left, ha, Nat.mod_mod]⟩
      calc a + s * j < s + s * j := by omega
        _ = s * (j + 1) := by ring
        _ ≤ s * c := Nat.mul_le_mul_left _ hj
  rw [hset, Finset.sum_image (fun i _ j _ hij => Nat.eq_of_mul_eq_mul_left hspos (by simpa using hij))]
  set z : ℂ := Complex.exp (2 * Real.pi * Complex.I * (s * k) / 2 ^ m) with hz
  have hterm : ∀ j ∈ range c, Complex.exp (2 * Real.pi * Complex.I * (((a + s * j : Nat) : ℂ) * k) / 2 ^ m)
      = Complex.exp (2 * Real.pi * Complex.I * (a * k) / 2 ^ m) * z ^ j := by
    intro j _
    rw [hz, ← Complex.exp_nat_mul, ← Complex.exp_add]
    congr 1
    push_cast
    ring
  rw [Finset.sum_congr rfl hterm, ← Finset.mul_sum]
  refine mul_eq_zero_of_right _ ?_
  have hzc : z ^ c = 1 := by
    rw [hz, ← Complex.exp_nat_mul, Complex.exp_eq_one_iff]
    refine ⟨k, ?_⟩
    rw [← mul_div_assoc, div_eq_iff hN, ← hcs]
    push_cast
    ring
  have hz1 : z ≠ 1 := by
    intro h1
    rw [hz, Complex.exp_eq_one_iff] at h1
    obtain ⟨t, ht⟩ := h1
    rw [div_eq_iff hN] at ht
    have h2 : ((s : ℂ) * k) = t * 2 ^ m := by
      have : (2 * Real.pi * Complex.I : ℂ) * ((s : ℂ) * k) = (2 * Real.pi * Complex.I : ℂ) * (t * 2 ^ m) := by
        rw [ht]; ring
      exact mul_left_cancel₀ Complex.two_pi_I_ne_zero this
    have h3 : ((s * k : Nat) : Int) = t * ((2 ^ m : Nat) : Int) := by
      have : (((s * k : Nat) : Int) : ℂ) = ((t * ((2 ^ m : Nat) : Int) : Int) : ℂ) := by push_cast; exact h2
      exact_mod_cast this
    exact hk (Int.natCast_dvd_natCast.1 ⟨t, by rw [h3]; ring⟩)
  have := mul_neg_geom_sum z c
  rw [hzc, sub_self] at this
  exact (mul_eq_zero.1 this).resolve_left (sub_ne_zero.2 (Ne.symm hz1))

/-- Numbers of period 2 never lead to a result, although they may give factors (for 21: 8): whatever numbers of positive
probability the circuits report, `quantum` returns 1, if anything, because it requires `1 < d` of the fraction `d/r`. -/
theorem C106_period_two {N x : Nat} (hN : qQubits N ≤ 52) (h : IsPeriod x N 2) (hN2 : 2 ≤ N) (peaks : List Nat)
    (hp : ∀ k ∈ peaks, k < 2 ^ qQubits N ∧ 0 < peakProb (qQubits N) x N k) :
    ∃ F, ∀ fuel ≥ F, ∀ r, quantum fuel N peaks = some r → r = 1 ∧ classicalStep N x r.toNat = none := by
  have hq53 : 2 ^ qQubits N < 2 ^ 53 := Nat.pow_lt_pow_right (by norm_num) (by omega)
  have hqN : N ^ 2 ≤ 2 ^ qQubits N := Nat.le_pow_clog (by norm_num) _
  have h2q : 2 ∣ 2 ^ qQubits N := dvd_pow_self 2 fun h0 => by
    rw [h0] at hqN
    nlinarith
  have hcop : Nat.Coprime x N := by
    have h1 : x ^ 2 ≡ 1 [MOD N] := (h.2 2).2 dvd_rfl
    have h2 : Nat.gcd (x ^ 2) N = Nat.gcd 1 N := h1.gcd_eq
    rw [Nat.gcd_one_left] at h2
    exact (Nat.coprime_pow_left_iff (by norm_num) _ _).1 h2
  obtain ⟨F1, hF1⟩ := C86_result_partial hN peaks fun k hk => (hp k hk).1
  obtain ⟨F2, hF2⟩ := fuel_all hq53 peaks fun k hk => (hp k hk).1
  refine ⟨max F1 F2, fun fuel hf r hr => ?_⟩
  have hr1 : r = 1 := by
    rcases (hF1 fuel (le_trans (le_max_left _ _) hf)).1 r hr with ⟨h1, -⟩ | ⟨k, hk, hk0, l1, d, l2, e1, e2, -⟩
    · exact h1
    exfalso
    rw [hF2 fuel (le_trans (le_max_right _ _) hf) k hk] at e1
    obtain ⟨hkq, hpos⟩ := hp k hk
    have hdvd : 2 ^ qQubits N ∣ 2 * k := by
      by_contra hcon
      rw [peak_exact h h2q hcon] at hpos
      exact lt_irrefl _ hpos
    have hk2 : 2 ^ qQubits N = 2 * k := by
      obtain ⟨t, ht⟩ := hdvd
      have h1 : t < 2 := by
        by_contra hcon
        have : 2 ^ qQubits N * 2 ≤ 2 ^ qQubits N * t := Nat.mul_le_mul_left _ (by omega)
        omega
      have h2 : t ≠ 0 := by rintro rfl; omega
      rw [show t = 1 by omega, mul_one] at ht
      exact ht.symm
    have hpairs : pairsOf k (2 * k) = [(0, 1), (1, 2)] := by
      rw [pairsOf, dif_neg (by omega), pairsOf, dif_neg (by rw [Nat.mod_eq_of_lt (by omega)]; omega)]
      rw [Nat.mod_eq_of_lt (show k < 2 * k by omega), Nat.mul_mod_left, Nat.div_eq_of_lt (show k < 2 * k by omega),
        Nat.mul_div_cancel _ hk0, pairsOf, dif_pos (Or.inr rfl)]
      rfl
    rw [hk2, hpairs, Option.some.injEq] at e1
    have hmem : (d, r) ∈ [((0 : Int), (1 : Int)), (1, 2)] := by rw [e1]; simp
    obtain ⟨h1, -⟩ := e2
    simp only [List.mem_cons, Prod.mk.injEq, List.not_mem_nil, or_false] at hmem
    simp only at h1
    omega
  refine ⟨hr1, ?_⟩
  subst hr1
  unfold classicalStep
  simp only
  rw [if_neg (not_not.2 hcop), if_pos (by decide)]

/-- A period exists for every unit, so that the hypotheses of C106 can be met. -/
theorem exists_period {a N : Nat} (hN : 1 < N) (h : Nat.Coprime a N) : ∃ s, IsPeriod a N s := by
  have : NeZero N := ⟨by omega⟩
  exact ⟨orderOf (ZMod.unitOfCoprime a h), orderOf_pos _, fun i => by
    rw [orderOf_dvd_iff_pow_eq_one, unit_pow_iff]⟩

/-- 21: after ten rounds at most one sequence of draws in 1024 has led to no result. -/
example : ∃ r : Nat → Nat, (∀ a, Nat.Coprime a 21 → IsPeriod a 21 (r a)) ∧
    2 ^ 10 * ((Fintype.piFinset fun _ : Fin 10 => choices 21).filter fun d =>
      classicalLoop 21 ((List.ofFn d).map fun a => (a, r a)) = none).card ≤ 19 ^ 10 := by
  classical
  refine ⟨fun a => if h : Nat.Coprime a 21 then (exists_period (by norm_num) h).choose else 0, ?_, ?_⟩
  · intro a h
    simp only [dif_pos h]
    exact (exists_period (by norm_num) h).choose_spec
  · refine (C106_rounds_partial (by norm_num) (by norm_num) Nat.prime_three Nat.prime_seven (by norm_num) (by norm_num)
      (by norm_num) (fun a h => ?_) 10).trans ?_
    · rw [dif_pos h]
      exact (exists_period (by norm_num) h).choose_spec
    · rw [Fintype.card_piFinset_const, choices, Nat.card_Icc]

/-- 9: the draw 2 with the period 6. -/
example : classicalStep (3 ^ 2) 2 6 = none :=
  C106_prime_power Nat.prime_three (by norm_num) (by norm_num) (by norm_num) (by norm_num) (by norm_num)

/-- 101: two draws. -/
example : classicalLoop 101 [(2, 100), (10, 4)] = none :=
  C106_prime (by norm_num) (by norm_num) (by norm_num) (by simp)

/-- 8 has period 2 modulo 21; 256 is the number measured besides 0. -/
example : ∃ F, ∀ fuel ≥ F, ∀ r, quantum fuel 21 (List.replicate 10 256) = some r → r = 1 ∧ classicalStep 21 8 r.toNat = none := by
  have hper : IsPeriod 8 21 2 := by
    refine ⟨by norm_num, fun i => ?_⟩
    have h : 8 ^ i % 21 = 8 ^ (i % 2) % 21 := by
      conv_lhs => rw [← Nat.div_add_mod i 2, pow_add, pow_mul, Nat.mul_mod, Nat.pow_mod]
      norm_num
    rw [h, Nat.dvd_iff_mod_eq_zero]
    have : i % 2 < 2 := Nat.mod_lt _ (by norm_num)
    interval_cases i % 2 <;> norm_num
  refine C106_period_two (by rw [qQubits_21]; norm_num) hper (by norm_num) _ fun k hk => ?_
  obtain rfl := List.eq_of_mem_replicate hk
  rw [qQubits_21]
  refine ⟨by norm_num, lt_of_lt_of_le ?_ (peak_ge (d := 1) (by norm_num) hper (by norm_num) (by norm_num))⟩
  have := Real.pi_pos
  have h2 : (1 - 6 * ((2 : Nat) : ℝ) / 2 ^ 9) ^ 2 = 15625 / 16384 := by norm_num
  rw [h2]
  positivity

end QIP.Props
