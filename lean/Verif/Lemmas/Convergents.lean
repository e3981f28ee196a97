import Verif.Props.Shor
import Mathlib.NumberTheory.DiophantineApproximation.Basic

/-! # The pairs yielded by `gen_continued_fractions` are the convergents -/

namespace QIP

/-- The convergents of `c/q` as pairs. -/
def pairsOf (c q : Nat) : List (Int × Int) :=
  if h : c = 0 ∨ q = 0 then [] else
    ((c / q : Nat), 1) :: (pairsOf q (c % q)).map fun p => ((c / q : Nat) * p.1 + p.2, p.1)
termination_by q
decreasing_by exact Nat.mod_lt _ (by omega)

theorem cfLoop_linear (l : List Int) (d2 d1 r2 r1 : Int) :
    cfLoop l d2 d1 r2 r1 = (cfLoop l 0 1 1 0).map fun p => (p.1 * d1 + p.2 * d2, p.1 * r1 + p.2 * r2) := by
  induction l generalizing d2 d1 r2 r1 with
  | nil => simp [cfLoop]
  | cons a l ih =>
    simp only [cfLoop, List.map_cons]
    congr 1
    · simp
    · rw [ih d1, ih 1, List.map_map]
      apply List.map_congr_left
      intro p _
      simp only [Function.comp, Prod.mk.injEq]
      constructor <;> ring

theorem cf_eq (q : Nat) : ∀ c : Nat, c < 2 ^ 53 → q < 2 ^ 53 → ∃ F, ∀ fuel ≥ F, continuedFractions fuel c q = some (pairsOf c q) := by
  induction q using Nat.strong_induction_on with
  | _ q ih =>
  intro c hc hq
  by_cases h : c = 0 ∨ q = 0
  · refine ⟨1, fun fuel hf => ?_⟩
    obtain ⟨k, rfl⟩ : ∃ k, fuel = k + 1 := ⟨fuel - 1, by omega⟩
    unfold continuedFractions cfCoefs pairsOf
    rw [if_neg (by omega), dif_pos h]
    rfl
  · have hmod := Nat.mod_lt c (show q > 0 by omega)
    obtain ⟨F, hF⟩ := ih (c % q) hmod q hq (by omega)
    refine ⟨F + 1, fun fuel hf => ?_⟩
    obtain ⟨k, rfl⟩ : ∃ k, fuel = k + 1 := ⟨fuel - 1, by omega⟩
    have h1 := hF k (by omega)
    unfold continuedFractions at h1 ⊢
    unfold cfCoefs pairsOf
    rw [if_pos (by omega), dif_neg h]
    have hrem : (c : Int) - q * ((c / q : Nat) : Int) = ((c % q : Nat) : Int) := by
      push_cast; rw [Int.emod_def]
    simp only [Int.toNat_natCast, Props.floatDivInt_eq hc (show 0 < q by omega) hq, hrem]
    rcases hl : cfCoefs k (q : Int) ((c % q : Nat) : Int) with _ | l
    · rw [hl] at h1; simp at h1
    · rw [hl] at h1
      simp only [Option.map_some, Option.some.injEq] at h1 ⊢
      simp only [cfLoop]
      rw [cfLoop_linear, h1]
      congr 1
      · simp
      · apply List.map_congr_left
        intro p _
        simp only [Prod.mk.injEq]
        constructor <;> ring

theorem pairs_pos (q : Nat) : ∀ c, ∀ p ∈ pairsOf c q, 0 ≤ p.1 ∧ 0 < p.2 ∧ IsCoprime p.1 p.2 ∧ (q ≤ c → 0 < p.1) := by
  induction q using Nat.strong_induction_on with
  | _ q ih =>
  intro c p hp
  unfold pairsOf at hp
  by_cases h : c = 0 ∨ q = 0
  · rw [dif_pos h] at hp; simp at hp
  · rw [dif_neg h, List.mem_cons] at hp
    have hmod := Nat.mod_lt c (show q > 0 by omega)
    rcases hp with rfl | hp
    · refine ⟨by positivity, one_pos, isCoprime_one_right, fun hle => ?_⟩
      have := Nat.div_pos hle (by omega)
      show (0 : Int) < ((c / q : Nat) : Int)
      exact_mod_cast this
    · obtain ⟨p', hp', rfl⟩ := List.mem_map.1 hp
      obtain ⟨h1, h2, h3, h4⟩ := ih _ hmod q p' hp'
      have h5 := h4 (by omega)
      refine ⟨by positivity, h5, ?_, fun _ => by positivity⟩
      have := h3.symm.add_mul_right_left ((c / q : Nat) : Int)
      rw [show ((c / q : Nat) : Int) * p'.1 + p'.2 = p'.2 + ((c / q : Nat) : Int) * p'.1 by ring]
      first | exact this | (rw [mul_comm] ; exact this)

theorem floor_quot (c q : Nat) : ⌊(c : ℝ) / q⌋ = ((c / q : Nat) : Int) := by
  rw [Int.floor_div_natCast, Int.floor_natCast]
  simp

theorem convergent_mem (n : Nat) : ∀ c q : Nat, 0 < c → 0 < q →
    ∃ p ∈ pairsOf c q, (((c : ℝ) / q).convergent n : ℚ) = (p.1 : ℚ) / p.2 := by
  induction n with
  | zero =>
    intro c q hc hq
    refine ⟨((c / q : Nat), 1), ?_, ?_⟩
    · unfold pairsOf; rw [dif_neg (by omega)]; simp
    · rw [Real.convergent_zero, floor_quot]
      simp
  | succ n ih =>
    intro c q hc hq
    have hfl : ⌊(c : ℝ) / q⌋ = ((c / q : Nat) : Int) := floor_quot c q
    have hfr : Int.fract ((c : ℝ) / q) = ((c % q : Nat) : ℝ) / q := Int.fract_div_natCast_eq_div_natCast_mod
    rw [Real.convergent_succ, hfl, hfr, inv_div]
    by_cases h0 : c % q = 0
    · refine ⟨((c / q : Nat), 1), ?_, ?_⟩
      · unfold pairsOf; rw [dif_neg (by omega)]; simp
      · rw [h0]; simp
    · obtain ⟨p, hp, he⟩ := ih q (c % q) hq (by omega)
      obtain ⟨h1, h2, -, h4⟩ := pairs_pos _ _ p hp
      have h5 := h4 (Nat.mod_lt _ hq).le
      refine ⟨((c / q : Nat) * p.1 + p.2, p.1), ?_, ?_⟩
      · rw [pairsOf, dif_neg (by omega), List.mem_cons]
        exact Or.inr (List.mem_map.2 ⟨p, hp, rfl⟩)
      · rw [he, inv_div]
        have : (p.1 : ℚ) ≠ 0 := by exact_mod_cast h5.ne'
        push_cast
        field_simp

/-- Legendre: a fraction in lowest terms close to `c/q` is one of the pairs. -/
theorem legendre_mem {c q : Nat} (hc : 0 < c) (hq : 0 < q) {d s : Nat} (hs : 0 < s) (hco : Nat.Coprime d s)
    (h : |(c : ℝ) / q - d / s| < 1 / (2 * (s : ℝ) ^ 2)) : ((d : Int), (s : Int)) ∈ pairsOf c q := by
  have hden : ((d : ℚ) / s).den = s := by
    have := Rat.den_div_eq_of_coprime (a := d) (b := s) (by exact_mod_cast hs) (by simpa using hco)
    simp only [Int.cast_natCast] at this
    exact Int.natCast_inj.1 this
  obtain ⟨n, hn⟩ := Real.exists_rat_eq_convergent (ξ := (c : ℝ) / q) (q := (d : ℚ) / s) (by
    rw [hden]
    push_cast
    exact h)
  obtain ⟨p, hp, he⟩ := convergent_mem n c q hc hq
  obtain ⟨h1, h2, h3, -⟩ := pairs_pos _ _ p hp
  rw [← hn] at he
  have := Rat.div_int_inj (a := d) (b := s) (c := p.1) (d := p.2) (by exact_mod_cast hs) h2 (by simpa using hco)
    (Int.isCoprime_iff_gcd_eq_one.1 h3) (by rw [Int.cast_natCast, Int.cast_natCast]; exact he)
  rw [this.1, this.2]
  exact hp

end QIP
