import Verif.Spec.Shor
import Mathlib.Analysis.SpecialFunctions.Trigonometric.Bounds
import Mathlib.Algebra.Order.Chebyshev
import Mathlib.Analysis.Real.Pi.Bounds
import Mathlib.Tactic

/-! # Lower bound for the probability of a peak -/

namespace QIP

open Spec Finset

theorem sum_sin {q : Nat} (hq : 0 < q) :
    (∑ i ∈ range q, Real.sin (i * Real.pi / q)) * Real.sin (Real.pi / (2 * q)) = Real.cos (Real.pi / (2 * q)) := by
  have hq' : (q : ℝ) ≠ 0 := by positivity
  have h : ∀ n : Nat, 2 * ((∑ i ∈ range n, Real.sin (i * Real.pi / q)) * Real.sin (Real.pi / (2 * q)))
      = Real.cos (Real.pi / (2 * q)) - Real.cos ((2 * n - 1) * Real.pi / (2 * q)) := by
    intro n
    induction n with
    | zero =>
      have e0 : (2 * ((0 : Nat) : ℝ) - 1) * Real.pi / (2 * q) = -(Real.pi / (2 * q)) := by push_cast; ring
      rw [e0, Real.cos_neg]
      simp
    | succ n ih =>
      rw [Finset.sum_range_succ, add_mul, mul_add, ih]
      have e1 : (2 * (n : ℝ) - 1) * Real.pi / (2 * q) = n * Real.pi / q - Real.pi / (2 * q) := by field_simp
      have e2 : (2 * ((n + 1 : Nat) : ℝ) - 1) * Real.pi / (2 * q) = n * Real.pi / q + Real.pi / (2 * q) := by
        push_cast; field_simp; ring
      rw [e1, e2, Real.cos_sub, Real.cos_add]
      ring
  have := h q
  have e : (2 * (q : ℝ) - 1) * Real.pi / (2 * q) = Real.pi - Real.pi / (2 * q) := by field_simp
  rw [e, Real.cos_pi_sub] at this
  linarith

theorem sum_sin_ge {q : Nat} (hq : 0 < q) :
    2 * q / Real.pi * (1 - Real.pi ^ 2 / (8 * q ^ 2)) ≤ ∑ i ∈ range q, Real.sin (i * Real.pi / q) := by
  have hq' : (0 : ℝ) < q := by positivity
  have hpi := Real.pi_pos
  set h := Real.pi / (2 * q) with hh
  have hpos : 0 < h := by positivity
  have hS : 0 ≤ ∑ i ∈ range q, Real.sin (i * Real.pi / q) := by
    apply Finset.sum_nonneg
    intro i hi
    apply Real.sin_nonneg_of_nonneg_of_le_pi (by positivity)
    rw [div_le_iff₀ hq', mul_comm]
    have : (i : ℝ) ≤ q := by exact_mod_cast (Finset.mem_range.1 hi).le
    nlinarith
  have h1 := sum_sin hq
  rw [← hh] at h1
  have h2 := Real.one_sub_sq_div_two_le_cos (x := h)
  have h3 := Real.sin_le hpos.le
  have h4 : 1 - h ^ 2 / 2 ≤ (∑ i ∈ range q, Real.sin (i * Real.pi / q)) * h := by
    rw [← h1] at h2
    exact h2.trans (mul_le_mul_of_nonneg_left h3 hS)
  have h5 : (2 * q / Real.pi) * h = 1 := by rw [hh]; field_simp
  have h6 : 1 - Real.pi ^ 2 / (8 * (q : ℝ) ^ 2) = 1 - h ^ 2 / 2 := by rw [hh]; field_simp; ring
  rw [h6]
  calc _ ≤ 2 * q / Real.pi * ((∑ i ∈ range q, Real.sin (i * Real.pi / q)) * h) :=
        mul_le_mul_of_nonneg_left h4 (by positivity)
    _ = (∑ i ∈ range q, Real.sin (i * Real.pi / q)) * (2 * q / Real.pi * h) := by ring
    _ = _ := by rw [h5, mul_one]

theorem sum_cos_ge {q s : Nat} (hq : 0 < q) (hs : 0 < s) {θ : ℝ} (hθ : |θ| ≤ Real.pi * s / q) :
    2 * q / Real.pi * (1 - Real.pi ^ 2 / (8 * q ^ 2)) - Real.pi * s
      ≤ ∑ i ∈ range q, Real.cos ((((i / s : Nat) : ℝ) - q / (2 * s)) * θ) := by
  have hq' : (0 : ℝ) < q := by positivity
  have hs' : (0 : ℝ) < s := by positivity
  have hpi := Real.pi_pos
  have h1 : ∀ i ∈ range q, Real.sin (i * Real.pi / q) - Real.pi * s / q
      ≤ Real.cos ((((i / s : Nat) : ℝ) - q / (2 * s)) * θ) := by
    intro i hi
    have hi' : (i : ℝ) ≤ q := by exact_mod_cast (Finset.mem_range.1 hi).le
    have hi0 : (0 : ℝ) ≤ i := by positivity
    set b : ℝ := ((i : ℝ) / s - q / (2 * s)) * θ with hb
    have hb1 : |b| ≤ |i * Real.pi / q - Real.pi / 2| := by
      rw [hb, abs_mul]
      have e1 : (i : ℝ) * Real.pi / q - Real.pi / 2 = ((i : ℝ) / s - q / (2 * s)) * (Real.pi * s / q) := by
        field_simp
      rw [e1, abs_mul]
      apply mul_le_mul_of_nonneg_left _ (abs_nonneg _)
      rw [abs_of_nonneg (show 0 ≤ Real.pi * s / q by positivity)]
      exact hθ
    have hb2 : |i * Real.pi / q - Real.pi / 2| ≤ Real.pi := by
      rw [abs_le]
      have h2 : (i : ℝ) * Real.pi / q ≤ Real.pi := by
        rw [div_le_iff₀ hq']; nlinarith
      have h3 : 0 ≤ (i : ℝ) * Real.pi / q := by positivity
      constructor <;> linarith
    have hb3 : Real.sin (i * Real.pi / q) ≤ Real.cos b := by
      rw [← Real.cos_sub_pi_div_two, ← Real.cos_abs b, ← Real.cos_abs (_ - _)]
      exact Real.cos_le_cos_of_nonneg_of_le_pi (abs_nonneg _) hb2 hb1
    have hb4 : |Real.cos b - Real.cos ((((i / s : Nat) : ℝ) - q / (2 * s)) * θ)| ≤ Real.pi * s / q := by
      refine (Real.abs_cos_sub_cos_le _ _).trans ?_
      rw [hb, ← sub_mul, abs_mul]
      have h4 : |(i : ℝ) / s - q / (2 * s) - (((i / s : Nat) : ℝ) - q / (2 * s))| ≤ 1 := by
        have e2 : (i : ℝ) / s - q / (2 * s) - (((i / s : Nat) : ℝ) - q / (2 * s)) = (i : ℝ) / s - ((i / s : Nat) : ℝ) := by ring
        rw [e2, abs_le]
        have h5 : ((i / s : Nat) : ℝ) ≤ (i : ℝ) / s := Nat.cast_div_le
        have h6 : (i : ℝ) / s < ((i / s : Nat) : ℝ) + 1 := by
          rw [div_lt_iff₀ hs']
          have := Nat.lt_div_mul_add (a := i) hs
          have h7 : i < (i / s + 1) * s := by rw [add_mul, one_mul]; exact this
          exact_mod_cast h7
        constructor <;> linarith
      calc _ ≤ 1 * |θ| := mul_le_mul_of_nonneg_right h4 (abs_nonneg _)
        _ ≤ _ := by rw [one_mul]; exact hθ
    have := abs_le.1 hb4
    linarith [this.2]
  calc _ ≤ (∑ i ∈ range q, Real.sin (i * Real.pi / q)) - Real.pi * s := by linarith [sum_sin_ge hq]
    _ = ∑ i ∈ range q, (Real.sin (i * Real.pi / q) - Real.pi * s / q) := by
        rw [Finset.sum_sub_distrib]
        simp
        field_simp
    _ ≤ _ := Finset.sum_le_sum h1

/-- Powers repeat with the period. -/
theorem period_iff {x N s : Nat} (h : IsPeriod x N s) (i j : Nat) : x ^ i % N = x ^ j % N ↔ i % s = j % s := by
  have hco : Nat.Coprime N x := by
    have h1 : x ^ s ≡ 1 [MOD N] := (h.2 s).2 dvd_rfl
    have h2 : Nat.gcd (x ^ s) N = Nat.gcd 1 N := h1.gcd_eq
    rw [Nat.gcd_one_left] at h2
    have h3 : Nat.Coprime (x ^ s) N := h2
    exact ((Nat.coprime_pow_left_iff h.1 _ _).1 h3).symm
  have key : ∀ a b, x ^ (a + b) % N = x ^ a % N ↔ s ∣ b := by
    intro a b
    rw [← h.2 b]
    constructor
    · intro hab
      rw [pow_add] at hab
      have h1 : x ^ a * x ^ b ≡ x ^ a * 1 [MOD N] := by rw [mul_one]; exact hab
      exact Nat.ModEq.cancel_left_of_coprime (Nat.Coprime.pow_right a hco) h1
    · intro hb
      rw [pow_add]
      have h1 : x ^ a * x ^ b ≡ x ^ a * 1 [MOD N] := Nat.ModEq.mul_left _ hb
      rw [mul_one] at h1
      exact h1
  rcases Nat.le_total i j with hij | hij
  · obtain ⟨b, rfl⟩ := Nat.exists_eq_add_of_le hij
    rw [eq_comm, key]
    have := (Nat.modEq_iff_dvd' (n := s) (Nat.le_add_right i b))
    rw [Nat.add_sub_cancel_left] at this
    exact this.symm
  · obtain ⟨b, rfl⟩ := Nat.exists_eq_add_of_le hij
    rw [key]
    have := (Nat.modEq_iff_dvd' (n := s) (Nat.le_add_right j b))
    rw [Nat.add_sub_cancel_left] at this
    exact this.symm.trans eq_comm

/-- The sum over one residue class, against the real sum. -/
theorem class_ge {m k s d a : Nat} (hs : 0 < s) {θ : ℝ} (hθ : θ = 2 * Real.pi * ((k : ℝ) * s - d * 2 ^ m) / 2 ^ m) (c : ℝ) :
    (∑ i ∈ (range (2 ^ m)).filter (fun i => i % s = a), Real.cos ((((i / s : Nat) : ℝ) - c) * θ)) ^ 2
      ≤ Complex.normSq (∑ i ∈ (range (2 ^ m)).filter (fun i => i % s = a),
          Complex.exp (2 * Real.pi * Complex.I * (i * k) / 2 ^ m)) := by
  set w : ℂ := Complex.exp (((2 * Real.pi * (a * k) / 2 ^ m + c * θ : ℝ) : ℂ) * Complex.I) with hw
  have h1 : ∀ i ∈ (range (2 ^ m)).filter (fun i => i % s = a), Complex.exp (2 * Real.pi * Complex.I * (i * k) / 2 ^ m)
      = w * Complex.exp ((((((i / s : Nat) : ℝ) - c) * θ : ℝ) : ℂ) * Complex.I) := by
    intro i hi
    have hi := (Finset.mem_filter.1 hi).2
    rw [hw, ← Complex.exp_add, Complex.exp_eq_exp_iff_exists_int]
    refine ⟨((i / s : Nat) : Int) * d, ?_⟩
    have e : (i : ℂ) = s * (i / s : Nat) + a := by
      have := Nat.div_add_mod i s
      rw [hi] at this
      exact_mod_cast this.symm
    have h2 : (2 : ℂ) ^ m ≠ 0 := pow_ne_zero _ (by norm_num)
    have e' : (((((i / s : Nat) : Int) * d : Int)) : ℂ) = ((i / s : Nat) : ℂ) * d := by rw [Int.cast_mul, Int.cast_natCast, Int.cast_natCast]
    rw [e', hθ, e]
    push_cast
    field_simp
    ring
  rw [Finset.sum_congr rfl h1, ← Finset.mul_sum, Complex.normSq_mul]
  have hw1 : Complex.normSq w = 1 := by
    rw [hw, Complex.normSq_eq_norm_sq, Complex.norm_exp_ofReal_mul_I, one_pow]
  rw [hw1, one_mul, Complex.normSq_apply, ← sq, ← sq]
  have hre : (∑ i ∈ (range (2 ^ m)).filter (fun i => i % s = a),
      Complex.exp ((((((i / s : Nat) : ℝ) - c) * θ : ℝ) : ℂ) * Complex.I)).re
      = ∑ i ∈ (range (2 ^ m)).filter (fun i => i % s = a), Real.cos ((((i / s : Nat) : ℝ) - c) * θ) := by
    rw [Complex.re_sum]
    exact Finset.sum_congr rfl fun i _ => Complex.exp_ofReal_mul_I_re _
  rw [hre]
  exact le_add_of_nonneg_right (sq_nonneg _)

/-- **Peaks**: a number within half a unit of a multiple of `q / s` is measured with probability at least about
`4 / (π² s)`. -/
theorem peak_ge {m x N k s d : Nat} (hN : 0 < N) (h : IsPeriod x N s) (hsq : 6 * s ≤ 2 ^ m)
    (hk : |(k : ℝ) * s - d * 2 ^ m| ≤ s / 2) :
    4 / (Real.pi ^ 2 * s) * (1 - 6 * s / 2 ^ m) ^ 2 ≤ peakProb m x N k := by
  have hs := h.1
  have hs' : (0 : ℝ) < s := by positivity
  have hpi := Real.pi_pos
  set q : Nat := 2 ^ m with hq
  have hq0 : 0 < q := by positivity
  have hqc : (q : ℝ) = 2 ^ m := by rw [hq]; push_cast; rfl
  have hq' : (0 : ℝ) < q := by positivity
  set θ : ℝ := 2 * Real.pi * ((k : ℝ) * s - d * 2 ^ m) / 2 ^ m with hθ
  have hθ1 : |θ| ≤ Real.pi * s / q := by
    rw [hθ, hqc, abs_div, abs_mul, abs_of_pos (show (0 : ℝ) < 2 * Real.pi by positivity),
      abs_of_pos (show (0 : ℝ) < 2 ^ m by positivity)]
    apply div_le_div_of_nonneg_right _ (by positivity)
    nlinarith
  set R : Nat → ℝ := fun a => ∑ i ∈ (range q).filter (fun i => i % s = a), Real.cos ((((i / s : Nat) : ℝ) - q / (2 * s)) * θ)
    with hR
  have hsum : ∑ a ∈ range s, R a = ∑ i ∈ range q, Real.cos ((((i / s : Nat) : ℝ) - q / (2 * s)) * θ) := by
    rw [hR]
    exact Finset.sum_fiberwise_of_maps_to (fun i _ => Finset.mem_range.2 (Nat.mod_lt i hs)) _
  have hlow := sum_cos_ge hq0 hs hθ1
  rw [← hsum] at hlow
  -- the bound of the sum
  have hlow2 : 2 * q / Real.pi * (1 - 6 * s / q) ≤ ∑ a ∈ range s, R a := by
    refine le_trans ?_ hlow
    have hpi4 : Real.pi ^ 2 < 10 := by nlinarith [Real.pi_lt_d4]
    have h1q : (1 : ℝ) ≤ q := by exact_mod_cast hq0
    have h1s : (1 : ℝ) ≤ s := by exact_mod_cast hs
    have e1 : 2 * q / Real.pi * (1 - Real.pi ^ 2 / (8 * (q : ℝ) ^ 2)) - Real.pi * s
        = 2 * q / Real.pi * (1 - (Real.pi ^ 2 / (8 * (q : ℝ) ^ 2) + Real.pi ^ 2 * s / (2 * q))) := by
      field_simp
      ring
    rw [e1]
    apply mul_le_mul_of_nonneg_left _ (by positivity)
    have e2 : Real.pi ^ 2 / (8 * (q : ℝ) ^ 2) + Real.pi ^ 2 * s / (2 * q) = (Real.pi ^ 2 / (8 * q) + Real.pi ^ 2 * s / 2) / q := by
      field_simp
    rw [e2]
    have h3 : (Real.pi ^ 2 / (8 * q) + Real.pi ^ 2 * s / 2) / q ≤ 6 * s / q := by
      apply div_le_div_of_nonneg_right _ hq'.le
      have h6 : (6 : ℝ) ≤ q := by
        have : 6 ≤ q := by omega
        exact_mod_cast this
      have h4 : Real.pi ^ 2 / (8 * q) ≤ 1 := by
        rw [div_le_one (by positivity)]
        nlinarith
      nlinarith
    linarith
  have hnn : 0 ≤ 2 * q / Real.pi * (1 - 6 * s / q) := by
    apply mul_nonneg (by positivity)
    have : (6 : ℝ) * s ≤ q := by exact_mod_cast hsq
    rw [sub_nonneg, div_le_one hq']
    exact this
  have hcs : (∑ a ∈ range s, R a) ^ 2 ≤ s * ∑ a ∈ range s, R a ^ 2 := by
    have := sq_sum_le_card_mul_sum_sq (s := range s) (f := R)
    rwa [Finset.card_range] at this
  have hf : ∑ a ∈ range s, R a ^ 2 ≤ ∑ y ∈ range N, Complex.normSq (∑ i ∈ (range (2 ^ m)).filter (fun i => x ^ i % N = y),
      Complex.exp (2 * Real.pi * Complex.I * (i * k) / 2 ^ m)) := by
    have hinj : Set.InjOn (fun a => x ^ a % N) (range s : Set Nat) := by
      intro a ha b hb hab
      have := (period_iff h a b).1 hab
      simp only [Finset.coe_range, Set.mem_Iio] at ha hb
      rwa [Nat.mod_eq_of_lt ha, Nat.mod_eq_of_lt hb] at this
    calc ∑ a ∈ range s, R a ^ 2
        ≤ ∑ a ∈ range s, Complex.normSq (∑ i ∈ (range (2 ^ m)).filter (fun i => x ^ i % N = x ^ a % N),
            Complex.exp (2 * Real.pi * Complex.I * (i * k) / 2 ^ m)) := by
          apply Finset.sum_le_sum
          intro a ha
          have e : (range (2 ^ m)).filter (fun i => x ^ i % N = x ^ a % N) = (range (2 ^ m)).filter (fun i => i % s = a) := by
            apply Finset.filter_congr
            intro i _
            rw [period_iff h, Nat.mod_eq_of_lt (Finset.mem_range.1 ha)]
          rw [e]
          exact class_ge hs hθ _
      _ = ∑ y ∈ (range s).image (fun a => x ^ a % N), Complex.normSq (∑ i ∈ (range (2 ^ m)).filter (fun i => x ^ i % N = y),
            Complex.exp (2 * Real.pi * Complex.I * (i * k) / 2 ^ m)) := by
          rw [Finset.sum_image hinj]
      _ ≤ _ := by
          apply Finset.sum_le_sum_of_subset_of_nonneg
          · intro y hy
            obtain ⟨a, -, rfl⟩ := Finset.mem_image.1 hy
            exact Finset.mem_range.2 (Nat.mod_lt _ hN)
          · intro y _ _
            exact Complex.normSq_nonneg _
  have hsq2 : (2 * q / Real.pi * (1 - 6 * s / q)) ^ 2 ≤ s * ∑ a ∈ range s, R a ^ 2 :=
    (pow_le_pow_left₀ hnn hlow2 2).trans hcs
  unfold peakProb
  refine le_trans ?_ (mul_le_mul_of_nonneg_left hf (by positivity))
  rw [← hqc]
  have e3 : 4 / (Real.pi ^ 2 * s) * (1 - 6 * s / q) ^ 2 = 1 / (q : ℝ) ^ 2 * ((2 * q / Real.pi * (1 - 6 * s / q)) ^ 2 / s) := by
    field_simp
    ring
  rw [e3]
  apply mul_le_mul_of_nonneg_left _ (by positivity)
  rw [div_le_iff₀ hs', mul_comm (∑ a ∈ range s, R a ^ 2)]
  exact hsq2

end QIP
