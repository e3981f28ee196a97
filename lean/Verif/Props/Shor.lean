import Verif.Model.Shor
import Mathlib.Tactic

/-!
# Shor's example: C70, C75
-/

namespace QIP.Props

open QIP

theorem roundHalfEven_mul_add {a b k : Nat} (hb : 0 < b) : ∃ e, (e = 0 ∨ e = 1) ∧ roundHalfEven (k * b + a) b = k + a / b + e ∧
    (2 * (a % b) < b → e = 0) := by
  unfold roundHalfEven
  have h1 : (k * b + a) % b = a % b := by rw [Nat.mul_comm, Nat.mul_add_mod]
  have h2 : (k * b + a) / b = k + a / b := by rw [Nat.mul_comm, Nat.mul_add_div hb]
  rw [h1, h2]
  split
  · exact ⟨0, Or.inl rfl, rfl, fun _ => rfl⟩
  · rename_i h
    exact ⟨1, Or.inr rfl, rfl, fun h' => absurd (Or.inl h') h⟩

/-- Enough bits: the rounded quotient has the right integer part. -/
theorem round_div {c q T : Nat} (hq : 0 < q) (hT : 0 < T) (h : q < 2 * T) : roundHalfEven (c * T) q / T = c / q := by
  obtain ⟨e, he, hr, he0⟩ := roundHalfEven_mul_add (a := c % q * T) (b := q) (k := c / q * T) hq
  have hc : c / q * T * q + c % q * T = c * T := by
    have := Nat.div_add_mod c q
    calc c / q * T * q + c % q * T = (q * (c / q) + c % q) * T := by ring
      _ = c * T := by rw [this]
  rw [hc] at hr
  rw [hr]
  have hlt : c % q < q := Nat.mod_lt _ hq
  have hle : c % q * T ≤ (q - 1) * T := Nat.mul_le_mul_right _ (by omega)
  have hd : c % q * T / q + e < T := by
    set m := c % q * T with hm
    have hm2 : m + T ≤ q * T := by
      have : (q - 1) * T + T = q * T := by
        rw [Nat.sub_mul, one_mul]
        have : T ≤ q * T := Nat.le_mul_of_pos_left _ hq
        omega
      omega
    have hdm := Nat.div_add_mod m q
    have hml := Nat.mod_lt m hq
    by_contra hcon
    push Not at hcon
    rcases he with rfl | rfl
    · have : q * T ≤ q * (m / q) := Nat.mul_le_mul_left _ (by omega)
      omega
    · have h1 : q * (T - 1) ≤ q * (m / q) := Nat.mul_le_mul_left _ (by omega)
      have h2 : q * (T - 1) + q = q * T := by
        rw [← Nat.mul_succ]; congr 1; omega
      have h3 : ¬ 2 * (m % q) < q := fun h => by have := he0 h; omega
      omega
  rw [show c / q * T + c % q * T / q + e = (c % q * T / q + e) + T * (c / q) by ring, Nat.add_mul_div_left _ _ hT,
    Nat.div_eq_of_lt hd, zero_add]

/-- Float division is right below `2**53`. -/
theorem floatDivInt_eq {c q : Nat} (hc : c < 2 ^ 53) (hq0 : 0 < q) (hq : q < 2 ^ 53) : floatDivInt c q = c / q := by
  unfold floatDivInt
  simp only
  split
  · exact round_div hq0 (by positivity) (by omega)
  · rename_i hk
    have hlog := Nat.pow_log_le_self 2 hk
    have hk53 : c / q < 2 ^ 53 := lt_of_le_of_lt (Nat.div_le_self _ _) hc
    have h52 : Nat.log 2 (c / q) ≤ 52 := by
      by_contra hcon
      push Not at hcon
      have : 2 ^ 53 ≤ 2 ^ Nat.log 2 (c / q) := Nat.pow_le_pow_right (by norm_num) hcon
      omega
    rw [if_pos h52]
    refine round_div hq0 (by positivity) ?_
    have h1 : 2 ^ Nat.log 2 (c / q) * q ≤ c := le_trans (Nat.mul_le_mul_right _ hlog) (Nat.div_mul_le_self c q)
    have h2 : 2 ^ Nat.log 2 (c / q) * (2 * 2 ^ (52 - Nat.log 2 (c / q))) = 2 ^ 53 := by
      rw [← pow_succ', ← pow_add]; congr 1; omega
    by_contra hcon
    push Not at hcon
    have := Nat.mul_le_mul_left (2 ^ Nat.log 2 (c / q)) hcon
    omega

/-- The loop runs Euclid's algorithm. -/
theorem cf_key (q : Nat) : ∀ (c : Nat), 0 < c → c < 2 ^ 53 → q < 2 ^ 53 → ∀ (d2 d1 r2 r1 c0 q0 : Int),
    d1 * c + d2 * q = c0 → r1 * c + r2 * q = q0 → (d1 * r2 - d2 * r1 = 1 ∨ d1 * r2 - d2 * r1 = -1) →
    ∃ N l, (∀ fuel ≥ N, cfCoefs fuel c q = some l) ∧ (0 < q → l ≠ []) ∧
      ∃ (d r : Int) (g : Int), ((d1, r1) :: cfLoop l d2 d1 r2 r1).getLast (by simp) = (d, r) ∧ d * g = c0 ∧ r * g = q0 ∧
        IsCoprime d r := by
  induction q using Nat.strong_induction_on with
  | _ q ih =>
    intro c hc0 hc hq d2 d1 r2 r1 c0 q0 h1 h2 hdet
    rcases Nat.eq_zero_or_pos q with rfl | hqpos
    · refine ⟨1, [], ?_, by simp, d1, r1, c, rfl, by simpa using h1, by simpa using h2, ?_⟩
      · intro fuel hf
        obtain ⟨k, rfl⟩ : ∃ k, fuel = k + 1 := ⟨fuel - 1, by omega⟩
        simp [cfCoefs]
      · rcases hdet with h | h
        · exact ⟨r2, -d2, by linarith⟩
        · exact ⟨-r2, d2, by linarith⟩
    · have hf : ((floatDivInt c q : Nat) : Int) = (c : Int) / q := by rw [floatDivInt_eq hc hqpos hq]; simp
      have hrem : (c : Int) - q * ((c : Int) / q) = ((c % q : Nat) : Int) := by
        push_cast; rw [Int.emod_def]
      have hmod : c % q < q := Nat.mod_lt _ hqpos
      set a : Int := (c : Int) / q with ha
      obtain ⟨N, l, hN, -, d, r, g, hl, hd, hr, hco⟩ := ih (c % q) hmod q hqpos hq (by omega) d1 (a * d1 + d2) r1
        (a * r1 + r2) c0 q0 (by
          rw [← hrem]; rw [← h1]; ring) (by rw [← hrem]; rw [← h2]; ring) (by
          rcases hdet with h | h
          · right; linarith
          · left; linarith)
      refine ⟨N + 1, a :: l, ?_, by simp, d, r, g, ?_, hd, hr, hco⟩
      · intro fuel hfu
        obtain ⟨k, rfl⟩ : ∃ k, fuel = k + 1 := ⟨fuel - 1, by omega⟩
        unfold cfCoefs
        rw [if_pos ⟨by exact_mod_cast hc0, by exact_mod_cast hqpos⟩]
        simp only [Int.toNat_natCast, hf, hrem]
        rw [hN k (by omega)]
        rfl
      · rw [← hl]
        simp only [cfLoop]
        rw [List.getLast_cons (by simp)]

/-- **C70** for numbers below `2**53`: the generator ends, and its last pair `(d, r)` is `c/q` in lowest terms.  Partial:
false for larger numbers, see `C70_large_false`. -/
theorem C70_last_pair_partial {c q : Nat} (hc0 : 0 < c) (hq0 : 0 < q) (hc : c < 2 ^ 53) (hq : q < 2 ^ 53) :
    ∃ N ps d r, (∀ fuel ≥ N, continuedFractions fuel c q = some (ps ++ [(d, r)])) ∧
      d * q = c * r ∧ Int.gcd d r = 1 := by
  obtain ⟨N, l, hN, hl0, d, r, g, hl, hd, hr, hco⟩ := cf_key q c hc0 hc hq 0 1 1 0 c q (by ring) (by ring) (by norm_num)
  have hne : cfLoop l 0 1 1 0 ≠ [] := by
    match l, hl0 hq0 with
    | a :: l, _ => simp [cfLoop]
  rw [List.getLast_cons hne] at hl
  refine ⟨N, (cfLoop l 0 1 1 0).dropLast, d, r, ?_, ?_, ?_⟩
  · intro fuel hf
    unfold continuedFractions
    rw [hN fuel hf, Option.map_some, ← hl, List.dropLast_append_getLast]
  · rw [← hd, ← hr]; ring
  · exact Int.isCoprime_iff_gcd_eq_one.1 hco

/-- **C70** is false for large numbers, where `int(c/q)` goes through a float: `2**60 - 1` over 1. -/
theorem C70_large_false : ∃ (c q : Nat), 0 < c ∧ 0 < q ∧ ∀ fuel ≥ 2, ∃ d r,
    continuedFractions fuel c q = some [(d, r)] ∧ d * q ≠ c * r := by
  refine ⟨2 ^ 60 - 1, 1, by norm_num, by norm_num, ?_⟩
  intro fuel hf
  obtain ⟨k, rfl⟩ : ∃ k, fuel = k + 2 := ⟨fuel - 2, by omega⟩
  refine ⟨2 ^ 60, 1, ?_, by norm_num⟩
  have hl : Nat.log 2 (2 ^ 60 - 1) = 59 := by
    rw [Nat.log_eq_iff] <;> norm_num
  have hdiv : floatDivInt (2 ^ 60 - 1) 1 = 2 ^ 60 := by
    unfold floatDivInt
    simp only [Nat.div_one, hl]
    norm_num [roundHalfEven]
  unfold continuedFractions
  have : cfCoefs (k + 2) ((2 ^ 60 - 1 : Nat) : Int) ((1 : Nat) : Int) = some [2 ^ 60] := by
    rw [cfCoefs]
    rw [if_pos (by norm_num)]
    simp only [Int.toNat_natCast, hdiv]
    rw [cfCoefs]
    rw [if_neg (by norm_num)]
    simp
  rw [this]
  simp [cfLoop]

/-- `649/200`, from Shor-like numbers: hypotheses are met. -/
example : ∃ N ps d r, (∀ fuel ≥ N, continuedFractions fuel (649 : Nat) (200 : Nat) = some (ps ++ [(d, r)])) ∧
    d * (200 : Nat) = (649 : Nat) * r ∧ Int.gcd d r = 1 :=
  C70_last_pair_partial (by norm_num) (by norm_num) (by norm_num) (by norm_num)

/-- **C75** for odd `N`: whatever numbers are drawn and whatever the quantum part returns, the numbers returned are
non-trivial factors of `N`.  Partial: false for even `N`, see `C75_even_false`. -/
theorem C75_factors_partial {N : Nat} (hodd : N % 2 = 1) (hN : N < 2 ^ 53) {draws : List (Nat × Nat)}
    (hd : ∀ ar ∈ draws, 2 ≤ ar.1 ∧ ar.1 < N ∧ ar.2 < 2 ^ 53) {p q : Nat} (h : classicalLoop N draws = some (p, q)) :
    p ∣ N ∧ 1 < p ∧ p < N ∧ q ∣ N ∧ 1 < q ∧ q < N := by
  induction draws with
  | nil => simp [classicalLoop] at h
  | cons ar draws ih =>
    obtain ⟨a, r⟩ := ar
    obtain ⟨ha2, haN, hr⟩ := hd (a, r) (by simp)
    simp only at ha2 haN hr
    unfold classicalLoop at h
    cases hs : classicalStep N a r with
    | none =>
      rw [hs] at h
      exact ih (fun x hx => hd x (by simp [hx])) (by simpa using h)
    | some pq =>
      rw [hs] at h
      simp only [Option.orElse_some, Option.some.injEq] at h
      subst h
      have hNpos : 0 < N := by omega
      unfold classicalStep at hs
      simp only at hs
      split at hs
      · rename_i hg
        have hgpos : 0 < Nat.gcd a N := Nat.gcd_pos_of_pos_right _ hNpos
        have hgle : Nat.gcd a N ≤ a := Nat.gcd_le_left _ (by omega)
        simp only [Option.some.injEq, Prod.mk.injEq] at hs
        obtain ⟨rfl, rfl⟩ := hs
        rw [floatDivInt_eq hN hgpos (by omega)]
        have hdvd := Nat.gcd_dvd_right a N
        have h1 : 1 < Nat.gcd a N := by omega
        refine ⟨hdvd, h1, by omega, Nat.div_dvd_of_dvd hdvd, ?_, Nat.div_lt_self hNpos h1⟩
        have := Nat.div_mul_cancel hdvd
        by_contra hcon
        have h3 : N / Nat.gcd a N ≤ 1 := by omega
        have : N / Nat.gcd a N * Nat.gcd a N ≤ 1 * Nat.gcd a N := Nat.mul_le_mul_right _ h3
        omega
      · split at hs
        · simp at hs
        · split at hs
          · simp at hs
          · split at hs
            · simp at hs
            · rename_i hg hr2 hap hf
              push Not at hf
              simp only [Option.some.injEq, Prod.mk.injEq] at hs
              obtain ⟨rfl, rfl⟩ := hs
              set apow := a ^ floatDivInt r 2 % N with hapd
              have hlt : apow < N := Nat.mod_lt _ hNpos
              have hg1 : 0 < Nat.gcd (apow + 1) N := Nat.gcd_pos_of_pos_right _ hNpos
              have hle : Nat.gcd (apow + 1) N ≤ apow + 1 := Nat.gcd_le_left _ (by omega)
              have hd2 : Int.gcd ((apow : Int) - 1) N ∣ N := by
                have := Int.gcd_dvd_right ((apow : Int) - 1) N
                exact_mod_cast this
              have hg2 : 0 < Int.gcd ((apow : Int) - 1) N := Nat.pos_of_dvd_of_pos hd2 hNpos
              refine ⟨Nat.gcd_dvd_right _ _, by omega, by omega, hd2, by omega, ?_⟩
              refine lt_of_le_of_ne (Nat.le_of_dvd hNpos hd2) ?_
              intro he
              -- N divides apow - 1
              have hdv : (N : Int) ∣ (apow : Int) - 1 := by
                have := Int.gcd_dvd_left ((apow : Int) - 1) N
                rwa [he] at this
              have h1 : apow = 1 := by
                rcases Nat.eq_zero_or_pos apow with h0 | h0
                · rw [h0] at hdv
                  have : (N : Int) ∣ 1 := by simpa using (dvd_neg.2 hdv)
                  have := Int.le_of_dvd one_pos this
                  omega
                · by_contra hne
                  have := Int.le_of_dvd (by omega) hdv
                  omega
              have h2 : Nat.gcd 2 N = 1 := by
                rw [← Nat.coprime_iff_gcd_eq_one, Nat.coprime_two_left, Nat.odd_iff]; exact hodd
              rw [h1] at hf
              exact hf.1 h2

/-- **C75** is false for even `N`: for `N = 6`, drawing 5 with the quantum part returning 4 (a multiple of the period
of 5 mod 6), the answer is `(2, 6)`. -/
theorem C75_even_false : ∃ N draws, (∀ ar ∈ draws, 2 ≤ ar.1 ∧ ar.1 < N ∧ ar.2 < 2 ^ 53 ∧ ar.1 ^ ar.2 % N = 1) ∧
    classicalLoop N draws = some (2, N) := by
  refine ⟨6, [(5, 4)], by simp, ?_⟩
  have h2 : floatDivInt 4 2 = 2 := floatDivInt_eq (by norm_num) (by norm_num) (by norm_num)
  simp [classicalLoop, classicalStep, h2]

/-- 21 = 3·7 with `a = 8`, period 2. -/
example : classicalLoop 21 [(2, 5), (8, 2)] = some (3, 7) := by
  have h2 : floatDivInt 2 2 = 1 := floatDivInt_eq (by norm_num) (by norm_num) (by norm_num)
  simp [classicalLoop, classicalStep, h2]
  decide

end QIP.Props
