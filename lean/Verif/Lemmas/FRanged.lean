import Verif.Lemmas.FMeasure

/-! # The measurement kernels in rounded arithmetic with underflow -/

namespace QIP

open Spec Finset

section Within

variable {b c e d x y x' y' z u : ℝ}

theorem within_of_rel (h : Rel b x y) : Within b 0 x y := by
  unfold Within
  rw [add_zero, add_zero]
  exact h

theorem within_refl (hb : 1 ≤ b) (he : 0 ≤ e) (hy : 0 ≤ y) : Within b e y y := ⟨by nlinarith, by nlinarith⟩

theorem within_mono (hb : 0 ≤ b) (hbc : b ≤ c) (he : 0 ≤ e) (hed : e ≤ d) (hx : 0 ≤ x) (hy : 0 ≤ y) (h : Within b e x y) : Within c d x y :=
  ⟨h.1.trans (mul_le_mul (by linarith) hbc hb (by linarith)), h.2.trans (mul_le_mul (by linarith) hbc hb (by linarith))⟩

theorem within_trans (hb : 1 ≤ b) (hc : 1 ≤ c) (he : 0 ≤ e) (hd : 0 ≤ d) (h : Within b e x y) (h' : Within c d y z) :
    Within (b * c) (e + d) x z := by
  obtain ⟨h1, h2⟩ := h
  obtain ⟨h3, h4⟩ := h'
  constructor
  · have k1 : (y + d) * c ≤ ((x + e) * b + d * b) * c := by
      apply mul_le_mul_of_nonneg_right _ (by linarith)
      nlinarith
    nlinarith
  · have k1 : (y + e) * b ≤ ((z + d) * c + e * c) * b := by
      apply mul_le_mul_of_nonneg_right _ (by linarith)
      nlinarith
    nlinarith

theorem within_add (h : Within b e x y) (h' : Within b d x' y') : Within b (e + d) (x + x') (y + y') :=
  ⟨by have := h.1; have := h'.1; nlinarith, by have := h.2; have := h'.2; nlinarith⟩

theorem within_abs (hb : 1 ≤ b) (he : 0 ≤ e) (hy : 0 ≤ y) (h : Within b e x y) : |x - y| ≤ (b - 1) * y + b * e := by
  obtain ⟨h1, h2⟩ := h
  rw [abs_le]
  constructor
  · by_cases hxy : y ≤ x
    · nlinarith
    · nlinarith
  · nlinarith

theorem within_of_err (h0 : 0 ≤ u) (h1 : u < 1) (hy : 0 ≤ y) (h : |x - y| ≤ u * |y| + e) : Within (factor u) e x y := by
  rw [abs_of_nonneg hy, abs_le] at h
  have he : 0 ≤ u * y + e := by linarith [h.1, h.2]
  unfold factor Spec.Within
  rw [mul_one_div, mul_one_div, le_div_iff₀ (by linarith), le_div_iff₀ (by linarith)]
  constructor
  · linarith
  · nlinarith [mul_nonneg h0 he]

/-- Multiplying by a draw. -/
theorem within_draw (hb : 1 ≤ b) (he : 0 ≤ e) {t : ℝ} (ht0 : 0 ≤ t) (ht1 : t ≤ 1) (h : Within b e x y) : Within b e (t * x) (t * y) := by
  obtain ⟨h1, h2⟩ := h
  have hbe : 0 ≤ e * b := by nlinarith
  constructor
  · have := mul_le_mul_of_nonneg_left h1 ht0
    nlinarith
  · have := mul_le_mul_of_nonneg_left h2 ht0
    nlinarith

end Within

/-- The terms added up by the inner loop of `soft_measure`. -/
theorem softAcc_terms (n : Nat) (indices : List Nat) (vec : List ℂ) (inOff m : Nat) :
    ∃ L : List Nat, ∃ f : Nat → ℂ, L.length ≤ 2 ^ (n - indices.length) ∧
      (∀ F : FOps, softAccF F n indices vec inOff m = F.acc 0 (L.map fun i => F.absSq (f i))) ∧
      (L.map fun i => Complex.normSq (f i)).sum = softAcc n indices vec inOff m := by
  refine ⟨(List.range (2 ^ (n - indices.length))).filter fun i =>
      let vi := entwineBit indices.length (n - indices.length) m i (rowMask n indices)
      decide (inOff ≤ vi ∧ vi < vec.length + inOff),
    fun i => vec.getD (entwineBit indices.length (n - indices.length) m i (rowMask n indices) - inOff) 0, ?_, fun F => rfl, ?_⟩
  · have := List.length_filter_le (fun i =>
        let vi := entwineBit indices.length (n - indices.length) m i (rowMask n indices)
        decide (inOff ≤ vi ∧ vi < vec.length + inOff)) (List.range (2 ^ (n - indices.length)))
    rw [List.length_range] at this
    exact this
  · unfold softAcc
    generalize List.range (2 ^ (n - indices.length)) = R
    have : ∀ (R : List Nat) (a : ℝ), a + ((R.filter fun i =>
        let vi := entwineBit indices.length (n - indices.length) m i (rowMask n indices)
        decide (inOff ≤ vi ∧ vi < vec.length + inOff)).map fun i => Complex.normSq
      (vec.getD (entwineBit indices.length (n - indices.length) m i (rowMask n indices) - inOff) 0)).sum
      = R.foldl (fun acc i =>
        let vi := entwineBit indices.length (n - indices.length) m i (rowMask n indices)
        if inOff ≤ vi ∧ vi < vec.length + inOff then acc + Complex.normSq (vec.getD (vi - inOff) 0) else acc) a := by
      intro R
      induction R with
      | nil => intro a; simp
      | cons i R ih =>
        intro a
        rw [List.foldl_cons, ← ih, List.filter_cons]
        by_cases hc : inOff ≤ entwineBit indices.length (n - indices.length) m i (rowMask n indices) ∧
          entwineBit indices.length (n - indices.length) m i (rowMask n indices) < vec.length + inOff
        · dsimp only
          rw [if_pos (by simpa using hc), if_pos hc, List.map_cons, List.sum_cons, add_assoc]
        · dsimp only
          rw [if_neg (by simpa using hc), if_neg hc]
    have := this R 0
    rw [zero_add] at this
    exact this

variable {F : FOps} {u eta big : ℝ} (hF : Ranged F u eta big) {n : Nat} {indices : List Nat}

include hF

theorem Spec.Ranged.b1 : 1 ≤ factor u := one_le_factor hF.nonneg hF.lt_one

theorem Spec.Ranged.bpow (k : Nat) : 1 ≤ factor u ^ k := one_le_pow₀ hF.b1

/-- Bound for everything that is added up. -/
theorem within_accR {ι : Type} (L : List ι) (f : ι → ℂ)
    (hbig : ((L.map fun i => Complex.normSq (f i)).sum + 2 * L.length * eta) * factor u ^ (L.length + 1) ≤ big) :
    Within (factor u ^ (L.length + 1)) (2 * L.length * eta) (F.acc 0 (L.map fun i => F.absSq (f i)))
      (L.map fun i => Complex.normSq (f i)).sum := by
  have hb := hF.b1
  have he := hF.eta_nonneg
  have hS0 : 0 ≤ (L.map fun i => Complex.normSq (f i)).sum := List.sum_nonneg (by
    intro x hx
    obtain ⟨i, _, rfl⟩ := List.mem_map.1 hx
    exact Complex.normSq_nonneg _)
  have hpk := hF.bpow L.length
  have hle : (L.map fun i => Complex.normSq (f i)).sum + 2 * L.length * eta ≤ big := by
    refine le_trans ?_ hbig
    have h0 : 0 ≤ (L.map fun i => Complex.normSq (f i)).sum + 2 * L.length * eta := by positivity
    exact le_mul_of_one_le_right h0 (hF.bpow _)
  have h2 : Within (factor u) (L.length * eta) (L.map fun i => F.absSq (f i)).sum (L.map fun i => Complex.normSq (f i)).sum := by
    have hle' : ∀ i ∈ L, Complex.normSq (f i) ≤ big := by
      intro i hi
      have : Complex.normSq (f i) ≤ (L.map fun i => Complex.normSq (f i)).sum :=
        List.single_le_sum (by
          intro x hx
          obtain ⟨i, _, rfl⟩ := List.mem_map.1 hx
          exact Complex.normSq_nonneg _) _ (List.mem_map_of_mem hi)
      have h3 : (0 : ℝ) ≤ 2 * L.length * eta := by positivity
      linarith
    clear hbig hle hpk hS0
    induction L with
    | nil => simp [Within]
    | cons i L ih =>
      rw [List.map_cons, List.map_cons, List.sum_cons, List.sum_cons]
      have h1 := within_of_err hF.nonneg hF.lt_one (Complex.normSq_nonneg (f i)) (by
        rw [abs_of_nonneg (Complex.normSq_nonneg (f i))]
        exact hF.absSq (f i) (hle' i (by simp)))
      have := within_add h1 (ih fun i hi => hle' i (by simp [hi]))
      have e : ((i :: L).length : ℝ) * eta = eta + L.length * eta := by
        rw [List.length_cons]
        push_cast
        ring
      rw [e]
      exact this
  have h1 := hF.acc 0 (L.map fun i => F.absSq (f i)) le_rfl (by
    intro x hx
    obtain ⟨i, _, rfl⟩ := List.mem_map.1 hx
    exact hF.absSq_nonneg _) (by
      rw [zero_add, List.length_map]
      refine le_trans ?_ hbig
      rw [pow_succ', ← mul_assoc]
      apply mul_le_mul_of_nonneg_right _ (by linarith)
      have := h2.2
      have h3 : (0 : ℝ) ≤ L.length * eta := by positivity
      nlinarith)
  rw [zero_add, List.length_map] at h1
  have h3 : (0 : ℝ) ≤ L.length * eta := by positivity
  have := within_trans hpk hb h3 h3 h1 h2
  rw [← pow_succ] at this
  have e : (L.length : ℝ) * eta + L.length * eta = 2 * L.length * eta := by ring
  rwa [e] at this

/-- What has to be below the largest number. -/
def RoomR (u eta big : ℝ) (n : Nat) (P : ℝ) : Prop := (P + 2 ^ (n + 2) * eta) * factor u ^ (2 ^ (n + 1) + 2) ≤ big

theorem roomR_le {P x y : ℝ} {k : Nat} (h : RoomR u eta big n P) (hx : 0 ≤ x) (hy : 0 ≤ y) (hxP : x ≤ P) (hy' : y ≤ 2 ^ (n + 2) * eta)
    (hk : k ≤ 2 ^ (n + 1) + 2) : (x + y) * factor u ^ k ≤ big := by
  refine le_trans ?_ h
  have h1 := hF.bpow k
  exact mul_le_mul (by linarith) (pow_le_pow_right₀ hF.b1 hk) (by linarith) (by linarith)

theorem within_probMagnitude_slice (vec : List ℂ) {inOff : Nat} (hl : vec.length + inOff ≤ 2 ^ n)
    (hroom : RoomR u eta big n (totalProb n (sliceAt inOff vec))) :
    Within (factor u ^ (2 ^ n + 1)) (2 * 2 ^ n * eta) (probMagnitudeF F 0 vec) (totalProb n (sliceAt inOff vec)) ∧
      0 ≤ probMagnitudeF F 0 vec := by
  have h2 := probMagnitude_eq 0 vec (n := n) (inOff := inOff) hl
  rw [zero_add] at h2
  have e : (List.range vec.length).map (fun i => Complex.normSq (vec.getD i 0)) = vec.map Complex.normSq := by
    apply List.ext_getElem (by simp)
    intro i h1 h2
    simp at h1
    simp [h1]
  have e2 : (vec.map fun i => Complex.normSq (id i)).sum = totalProb n (sliceAt inOff vec) := by
    rw [← h2]
    unfold probMagnitude
    rw [foldl_add_eq (fun i => Complex.normSq (vec.getD i 0)), zero_add, e]
    rfl
  have he := hF.eta_nonneg
  have hln : (vec.length : ℝ) ≤ 2 ^ n := by exact_mod_cast (by omega : vec.length ≤ 2 ^ n)
  have hle := mul_le_mul_of_nonneg_right hln he
  have h0 : 0 ≤ probMagnitudeF F 0 vec := by
    apply hF.acc_nonneg 0 _ le_rfl
    intro y hy
    obtain ⟨z, _, rfl⟩ := List.mem_map.1 hy
    exact hF.absSq_nonneg _
  have h1 := within_accR hF vec id (by
    rw [e2]
    refine roomR_le hF hroom (totalProb_nonneg _ _) (by positivity) le_rfl ?_ ?_
    · rw [pow_add]
      have : (0 : ℝ) ≤ 2 ^ n * eta := by positivity
      nlinarith
    · have : 2 ^ (n + 1) = 2 * 2 ^ n := by ring
      omega)
  rw [e2] at h1
  refine ⟨within_mono (by linarith [hF.bpow (vec.length + 1)]) (pow_le_pow_right₀ hF.b1 (by omega)) (by positivity) (by linarith) h0
    (totalProb_nonneg _ _) h1, h0⟩

theorem within_probMagnitude (vec : List ℂ) (hl : vec.length = 2 ^ n) (hroom : RoomR u eta big n (totalProb n fun c => vec.getD c 0)) :
    Within (factor u ^ (2 ^ n + 1)) (2 * 2 ^ n * eta) (probMagnitudeF F 0 vec) (totalProb n fun c => vec.getD c 0) := by
  have := (within_probMagnitude_slice hF (n := n) vec (inOff := 0) (by omega) (by rw [sliceAt_zero']; exact hroom)).1
  rwa [sliceAt_zero'] at this

theorem within_softAcc_slice (h : IdxOK n indices) (vec : List ℂ) (inOff : Nat) {m : Nat} (hm : m < 2 ^ indices.length)
    (hroom : RoomR u eta big n (totalProb n (sliceAt inOff vec))) :
    Within (factor u ^ (2 ^ (n - indices.length) + 1)) (2 * 2 ^ (n - indices.length) * eta) (softAccF F n indices vec inOff m)
      (outcomeProb n indices (sliceAt inOff vec) m) ∧ 0 ≤ softAccF F n indices vec inOff m := by
  have h2 := h.softAcc_eq vec inOff hm
  obtain ⟨L, f, hL, h3, h4⟩ := softAcc_terms n indices vec inOff m
  have he := hF.eta_nonneg
  have hq := outcomeProb_nonneg n indices (sliceAt inOff vec) m
  have hqP : outcomeProb n indices (sliceAt inOff vec) m ≤ totalProb n (sliceAt inOff vec) := by
    unfold outcomeProb totalProb
    exact Finset.sum_le_sum_of_subset_of_nonneg (Finset.filter_subset _ _) fun _ _ _ => Complex.normSq_nonneg _
  have hK : 2 ^ (n - indices.length) ≤ 2 ^ n := Nat.pow_le_pow_right (by norm_num) (by omega)
  have hLn : (L.length : ℝ) ≤ 2 ^ n := by exact_mod_cast hL.trans hK
  have hLk : (L.length : ℝ) ≤ 2 ^ (n - indices.length) := by exact_mod_cast hL
  have h0 : 0 ≤ softAccF F n indices vec inOff m := by
    rw [h3]
    apply hF.acc_nonneg 0 _ le_rfl
    intro x hx
    obtain ⟨i, _, rfl⟩ := List.mem_map.1 hx
    exact hF.absSq_nonneg _
  refine ⟨?_, h0⟩
  have h1 := within_accR hF L f (by
    rw [h4, h2]
    refine roomR_le hF hroom hq (by positivity) hqP ?_ ?_
    · rw [pow_add]
      have := mul_le_mul_of_nonneg_right hLn he
      have : (0 : ℝ) ≤ 2 ^ n * eta := by positivity
      nlinarith
    · have : 2 ^ (n + 1) = 2 * 2 ^ n := by ring
      have := Nat.two_pow_pos n
      omega)
  rw [h4, h2, ← h3] at h1
  refine within_mono (by linarith [hF.bpow (L.length + 1)]) (pow_le_pow_right₀ hF.b1 (by omega)) (by positivity) ?_ h0 hq h1
  have := mul_le_mul_of_nonneg_right hLk he
  nlinarith

theorem within_softAcc (h : IdxOK n indices) (vec : List ℂ) {m : Nat} (hm : m < 2 ^ indices.length)
    (hroom : RoomR u eta big n (totalProb n fun c => vec.getD c 0)) :
    Within (factor u ^ (2 ^ (n - indices.length) + 1)) (2 * 2 ^ (n - indices.length) * eta) (softAccF F n indices vec 0 m)
      (outcomeProb n indices (fun c => vec.getD c 0) m) ∧ 0 ≤ softAccF F n indices vec 0 m := by
  have := within_softAcc_slice hF h vec 0 hm (by rw [sliceAt_zero']; exact hroom)
  rwa [sliceAt_zero'] at this

/-- Outcomes of probability zero are found to be impossible. -/
theorem softAcc_zero_slice (h : IdxOK n indices) (vec : List ℂ) (inOff : Nat) {m : Nat} (hm : m < 2 ^ indices.length)
    (hz : outcomeProb n indices (sliceAt inOff vec) m = 0) : softAccF F n indices vec inOff m = 0 := by
  have h2 := h.softAcc_eq vec inOff hm
  rw [hz] at h2
  obtain ⟨L, f, hL, h3, h4⟩ := softAcc_terms n indices vec inOff m
  rw [h2] at h4
  rw [h3]
  apply hF.acc_zero
  intro x hx
  obtain ⟨i, hi, rfl⟩ := List.mem_map.1 hx
  have : Complex.normSq (f i) ≤ (L.map fun i => Complex.normSq (f i)).sum :=
        List.single_le_sum (by
          intro x hx
          obtain ⟨i, _, rfl⟩ := List.mem_map.1 hx
          exact Complex.normSq_nonneg _) _ (List.mem_map_of_mem hi)
  rw [h4] at this
  have := Complex.normSq_eq_zero.1 (le_antisymm this (Complex.normSq_nonneg _))
  rw [this, hF.absSq_zero]

/-- Outcomes of probability zero are found to be impossible. -/
theorem softAcc_zero (h : IdxOK n indices) (vec : List ℂ) {m : Nat} (hm : m < 2 ^ indices.length)
    (hz : outcomeProb n indices (fun c => vec.getD c 0) m = 0) : softAccF F n indices vec 0 m = 0 := softAcc_zero_slice hF h vec 0 hm (by rw [sliceAt_zero']; exact hz)

theorem sub_pos_near {x y : ℝ} (hxy : |x - y| ≤ big) (h : 0 < F.sub x y) :
    -(factor u * eta) ≤ x - y ∧ |F.sub x y - (x - y)| ≤ (factor u - 1) * max (x - y) 0 + factor u * eta := by
  have hs := hF.sub x y hxy
  have h0 := hF.nonneg
  have h1 := hF.lt_one
  have he := hF.eta_nonneg
  have hf : factor u * (1 - u) = 1 := by unfold factor; field_simp [(by linarith : (1 : ℝ) - u ≠ 0)]
  have hb := hF.b1
  have hfu : factor u * u = factor u - 1 := by linarith
  by_cases hd : 0 ≤ x - y
  · rw [abs_of_nonneg hd] at hs
    refine ⟨by nlinarith, hs.trans ?_⟩
    rw [max_eq_left hd]
    have : u ≤ factor u - 1 := by nlinarith
    nlinarith
  · have hd : x - y < 0 := by linarith
    rw [abs_of_neg hd] at hs
    have h2 : -(x - y) * (1 - u) ≤ eta := by linarith [(abs_le.1 hs).2]
    have h3 : -(x - y) ≤ factor u * eta := by
      have := mul_le_mul_of_nonneg_left h2 (by linarith : 0 ≤ factor u)
      nlinarith
    refine ⟨by linarith, hs.trans ?_⟩
    rw [max_eq_right hd.le, mul_zero, zero_add]
    have := mul_le_mul_of_nonneg_left h3 h0
    nlinarith

theorem sub_nonpos_near {x y : ℝ} (hxy : |x - y| ≤ big) (h : F.sub x y ≤ 0) : x - y ≤ factor u * eta := by
  have hs := hF.sub x y hxy
  have h0 := hF.nonneg
  have h1 := hF.lt_one
  have he := hF.eta_nonneg
  have hf : factor u * (1 - u) = 1 := by unfold factor; field_simp [(by linarith : (1 : ℝ) - u ≠ 0)]
  have hb := hF.b1
  by_cases hd : 0 ≤ x - y
  · rw [abs_of_nonneg hd] at hs
    have h2 : (x - y) * (1 - u) ≤ eta := by linarith [(abs_le.1 hs).1]
    have := mul_le_mul_of_nonneg_left h2 (by linarith : 0 ≤ factor u)
    nlinarith
  · nlinarith

/-- The values of `r` follow the exact ones. -/
theorem runF_near {acc p : Nat → ℝ} {B0 e0 B1 e1 r P x : ℝ} (hB0 : 1 ≤ B0) (he0 : 0 ≤ e0) (hB1 : 1 ≤ B1) (he1 : 0 ≤ e1) (hx0 : 0 ≤ x)
    (hx1 : x ≤ 1) (hP : 0 ≤ P) (hr0 : 0 ≤ r) (hr : Within B0 e0 r (x * P)) {k : Nat} (hacc : ∀ j < k, Within B1 e1 (acc j) (p j) ∧ 0 ≤ acc j)
    (hp : ∀ j < k, 0 ≤ p j) (hbig : ∀ j < k, acc j ≤ big) (hbig' : B0 * factor u ^ k * (P + e0 + k * eta) ≤ big)
    (hpos : ∀ j < k, 0 < F.sub (runF F acc r j) (acc j)) :
    0 ≤ runF F acc r k ∧ runF F acc r k ≤ B0 * factor u ^ k * (P + e0 + k * eta) ∧
      |runF F acc r k - (x * P - ∑ j ∈ range k, p j)|
        ≤ B0 * factor u ^ k * (P + e0 + k * eta) - P + ((B1 - 1) * ∑ j ∈ range k, p j + k * (B1 * e1)) := by
  have hb := hF.b1
  have he := hF.eta_nonneg
  induction k with
  | zero =>
    have hxP : 0 ≤ x * P := mul_nonneg hx0 hP
    have hxP' : x * P ≤ P := by nlinarith
    simp only [pow_zero, mul_one, Nat.cast_zero, zero_mul, add_zero, Finset.range_zero, Finset.sum_empty, sub_zero, mul_zero]
    refine ⟨hr0, ?_, ?_⟩
    · change r ≤ _
      refine hr.2.trans ?_
      nlinarith
    · change |r - _| ≤ _
      refine (within_abs hB0 he0 hxP hr).trans ?_
      nlinarith
  | succ k ih =>
    have hmono : B0 * factor u ^ k * (P + e0 + k * eta) ≤ B0 * factor u ^ (k + 1) * (P + e0 + (k + 1 : Nat) * eta) := by
      have h1 := pow_le_pow_right₀ hb (Nat.le_succ k)
      have h2 : P + e0 + k * eta ≤ P + e0 + (k + 1 : Nat) * eta := by push_cast; nlinarith
      have h3 : 0 ≤ P + e0 + k * eta := by positivity
      have h4 := hF.bpow k
      exact mul_le_mul (mul_le_mul_of_nonneg_left h1 (by linarith)) h2 h3 (by positivity)
    obtain ⟨i1, i2, i3⟩ := ih (fun j hj => hacc j (by omega)) (fun j hj => hp j (by omega)) (fun j hj => hbig j (by omega))
      (hmono.trans hbig') fun j hj => hpos j (by omega)
    have hd := hpos k (by omega)
    have hpk := hp k (by omega)
    obtain ⟨hnk, ha0⟩ := hacc k (by omega)
    have ha := within_abs hB1 he1 hpk hnk
    change 0 ≤ F.sub (runF F acc r k) (acc k) ∧ F.sub (runF F acc r k) (acc k) ≤ _ ∧
      |F.sub (runF F acc r k) (acc k) - _| ≤ _
    set R := runF F acc r k
    have hRa : |R - acc k| ≤ big := by
      rw [abs_le]
      have := hbig k (by omega)
      constructor
      · linarith
      · linarith [hmono.trans hbig']
    obtain ⟨_, hs⟩ := sub_pos_near hF hRa hd
    have hmax : max (R - acc k) 0 ≤ R := max_le (by linarith) i1
    have hs' : |F.sub R (acc k) - (R - acc k)| ≤ (factor u - 1) * R + factor u * eta :=
      hs.trans (by nlinarith)
    rw [Finset.sum_range_succ, pow_succ]
    push_cast
    set f := factor u
    set c := f ^ k
    set M := P + e0 + k * eta
    have h1 : (f - 1) * R ≤ (f - 1) * (B0 * c * M) := mul_le_mul_of_nonneg_left i2 (by linarith)
    have hc1 : 1 ≤ c := hF.bpow k
    have h2 : f * eta ≤ B0 * c * f * eta := by
      have : 1 ≤ B0 * c := by nlinarith
      have hfe : 0 ≤ f * eta := by positivity
      nlinarith
    have e1' : P + e0 + ((k : ℝ) + 1) * eta = M + eta := by simp only [M]; ring
    rw [e1']
    refine ⟨hd.le, ?_, ?_⟩
    · have := (abs_le.1 hs').2
      nlinarith
    · have e : F.sub R (acc k) - (x * P - (∑ j ∈ range k, p j + p k))
          = (F.sub R (acc k) - (R - acc k)) + ((R - (x * P - ∑ j ∈ range k, p j)) - (acc k - p k)) := by ring
      rw [e]
      refine (abs_add_le _ _).trans ?_
      have := abs_sub (R - (x * P - ∑ j ∈ range k, p j)) (acc k - p k)
      nlinarith

/-- Distance between the position of the draw and the cumulated probability at a decision. -/
theorem decision_near {acc p : Nat → ℝ} {B0 e0 B1 e1 r P x : ℝ} (hB0 : 1 ≤ B0) (he0 : 0 ≤ e0) (hB1 : 1 ≤ B1) (he1 : 0 ≤ e1)
    (hx0 : 0 ≤ x) (hx1 : x ≤ 1) (hP : 0 ≤ P) (hr0 : 0 ≤ r) (hr : Within B0 e0 r (x * P)) {k : Nat}
    (hacc : ∀ j < k + 1, Within B1 e1 (acc j) (p j) ∧ 0 ≤ acc j) (hp : ∀ j < k + 1, 0 ≤ p j) (hbig : ∀ j < k + 1, acc j ≤ big)
    (hbig' : B0 * factor u ^ k * (P + e0 + k * eta) ≤ big) (hpos : ∀ j < k, 0 < F.sub (runF F acc r j) (acc j)) :
    |runF F acc r k - acc k| ≤ big ∧ |runF F acc r k - acc k - (x * P - ∑ j ∈ range (k + 1), p j)|
      ≤ B0 * factor u ^ k * (P + e0 + k * eta) - P + ((B1 - 1) * ∑ j ∈ range (k + 1), p j + (k + 1 : Nat) * (B1 * e1)) := by
  obtain ⟨i1, i2, h⟩ := runF_near hF hB0 he0 hB1 he1 hx0 hx1 hP hr0 hr (k := k) (fun j hj => hacc j (by omega))
    (fun j hj => hp j (by omega)) (fun j hj => hbig j (by omega)) hbig' hpos
  obtain ⟨hn, h0⟩ := hacc k (by omega)
  have ha := within_abs hB1 he1 (hp k (by omega)) hn
  have hb := hbig k (by omega)
  refine ⟨abs_le.2 ⟨by linarith, by linarith⟩, ?_⟩
  rw [Finset.sum_range_succ]
  push_cast
  have e : runF F acc r k - acc k - (x * P - (∑ j ∈ range k, p j + p k))
      = (runF F acc r k - (x * P - ∑ j ∈ range k, p j)) - (acc k - p k) := by ring
  rw [e]
  refine (abs_sub _ _).trans ?_
  nlinarith

theorem drawTiny_ge {k : Nat} (hk : indices.length ≤ n) (hkl : k + 1 ≤ 2 ^ indices.length) {P c : ℝ} (hP : 0 ≤ P) (hc0 : 0 ≤ c) (hc : c ≤ P) :
    factor u ^ (2 ^ n + 2) * factor u ^ k * (P + (2 * 2 ^ n + 1) * eta + k * eta) - P
        + ((factor u ^ (2 ^ (n - indices.length) + 1) - 1) * c
          + (k + 1 : Nat) * (factor u ^ (2 ^ (n - indices.length) + 1) * (2 * 2 ^ (n - indices.length) * eta)))
        + factor u * eta
      ≤ drawErr u n * P + drawTiny u eta n := by
  have hb := hF.b1
  have he := hF.eta_nonneg
  unfold drawErr drawTiny
  rw [← pow_add]
  have h1 : 2 ^ indices.length ≤ 2 ^ n := Nat.pow_le_pow_right (by norm_num) hk
  have h2 : 2 ^ (n - indices.length) ≤ 2 ^ n := Nat.pow_le_pow_right (by norm_num) (by omega)
  have h3 : 2 ^ (n + 1) = 2 * 2 ^ n := by ring
  have h4 : 2 ^ indices.length * 2 ^ (n - indices.length) = 2 ^ n := by
    rw [← pow_add]
    congr 1
    omega
  have hn0 := Nat.two_pow_pos n
  have e1 := pow_le_pow_right₀ hb (by omega : 2 ^ n + 2 + k ≤ 2 ^ (n + 1) + 2)
  have e2 := pow_le_pow_right₀ hb (by omega : 2 ^ (n - indices.length) + 1 ≤ 2 ^ (n + 1) + 2)
  have e2' := pow_le_pow_right₀ hb (by omega : 1 ≤ 2 ^ (n + 1) + 2)
  rw [pow_one] at e2'
  have e3 := hF.bpow (2 ^ (n - indices.length) + 1)
  have e4 := hF.bpow (2 ^ n + 2 + k)
  set X := factor u ^ (2 ^ (n + 1) + 2)
  set Y := factor u ^ (2 ^ n + 2 + k)
  set Z := factor u ^ (2 ^ (n - indices.length) + 1)
  have hkN : ((k : ℝ) + 1) ≤ 2 ^ n := by exact_mod_cast hkl.trans h1
  have hkK : ((k : ℝ) + 1) * 2 ^ (n - indices.length) ≤ 2 ^ n := by
    have : (k + 1) * 2 ^ (n - indices.length) ≤ 2 ^ n := by
      rw [← h4]
      exact Nat.mul_le_mul_right _ hkl
    exact_mod_cast this
  have hN1 : (1 : ℝ) ≤ 2 ^ n := by exact_mod_cast hn0
  set N : ℝ := 2 ^ n
  set K : ℝ := 2 ^ (n - indices.length)
  have hK0 : 0 ≤ K := by positivity
  have hk0 : (0 : ℝ) ≤ k := by positivity
  -- the three parts that come from underflow
  have t1 : Y * ((2 * N + 1) * eta + k * eta) ≤ X * (3 * N * eta) := by
    apply mul_le_mul e1 _ (by positivity) (by linarith)
    nlinarith
  have t2 : ((k + 1 : Nat) : ℝ) * (Z * (2 * K * eta)) ≤ X * (2 * N * eta) := by
    push_cast
    have : ((k : ℝ) + 1) * (Z * (2 * K * eta)) = Z * (2 * (((k : ℝ) + 1) * K) * eta) := by ring
    rw [this]
    apply mul_le_mul e2 _ (by positivity) (by linarith)
    nlinarith
  have t3 : factor u * eta ≤ X * (N * eta) := by
    apply mul_le_mul e2' _ he (by linarith)
    nlinarith
  have t4 : Y * P ≤ X * P := mul_le_mul_of_nonneg_right e1 hP
  have t5 : (Z - 1) * c ≤ (X - 1) * P := mul_le_mul (by linarith) hc hc0 (by linarith)
  have hX : 0 ≤ X := by linarith
  nlinarith [mul_nonneg hX (mul_nonneg (by linarith : 0 ≤ N) he)]

/-- An unforced `soft_measure` in rounded arithmetic with underflow, on a part of the state. -/
theorem softMeasureF_near_slice (h : IdxOK n indices) (vec : List ℂ) {inOff : Nat} (hl : vec.length + inOff ≤ 2 ^ n)
    (hroom : RoomR u eta big n (totalProb n (sliceAt inOff vec))) {x : ℝ} (hx0 : 0 ≤ x) (hx1 : x ≤ 1) :
    ∃ m, softMeasureF F indices n vec none inOff x 0 = .ok (m, softAccF F n indices vec inOff m) ∧ m < 2 ^ indices.length ∧
      (∀ j < m, cumProb n indices (sliceAt inOff vec) (j + 1) ≤ x * totalProb n (sliceAt inOff vec)
        + (drawErr u n * totalProb n (sliceAt inOff vec) + drawTiny u eta n)) ∧
      (m + 1 = 2 ^ indices.length ∨ x * totalProb n (sliceAt inOff vec) ≤ cumProb n indices (sliceAt inOff vec) (m + 1)
        + (drawErr u n * totalProb n (sliceAt inOff vec) + drawTiny u eta n)) ∧
      (drawTiny u eta n < x * totalProb n (sliceAt inOff vec) → softAccF F n indices vec inOff m = 0 →
        totalProb n (sliceAt inOff vec) ≤ x * totalProb n (sliceAt inOff vec)
          + (drawErr u n * totalProb n (sliceAt inOff vec) + drawTiny u eta n)) := by
  set v : Nat → ℂ := sliceAt inOff vec with hv
  set P := totalProb n v with hPdef
  have hP : 0 ≤ P := totalProb_nonneg n v
  obtain ⟨l, hl'⟩ : ∃ l, 2 ^ indices.length = l + 1 := ⟨2 ^ indices.length - 1, by have := Nat.two_pow_pos indices.length; omega⟩
  have hlt : indices.length < 2 ^ n := lt_of_le_of_lt h.length_le Nat.lt_two_pow_self
  have hlN : 2 ^ indices.length ≤ 2 ^ n := Nat.pow_le_pow_right (by norm_num) h.length_le
  have hKN : 2 ^ (n - indices.length) ≤ 2 ^ n := Nat.pow_le_pow_right (by norm_num) (by omega)
  have h2n : 2 ^ (n + 1) = 2 * 2 ^ n := by ring
  have h4n : (2 : ℝ) ^ (n + 2) = 4 * 2 ^ n := by ring
  have hN1 : (1 : ℝ) ≤ 2 ^ n := by exact_mod_cast Nat.two_pow_pos n
  have he := hF.eta_nonneg
  have hb := hF.b1
  unfold softMeasureF
  rw [if_neg h.not_bad]
  simp only [if_pos hlt]
  set acc := softAccF F n indices vec inOff
  set T := probMagnitudeF F 0 vec with hTdef
  set r := F.mul x T
  have hB0 := hF.bpow (2 ^ n + 2)
  have hB1 := hF.bpow (2 ^ (n - indices.length) + 1)
  have hxP : 0 ≤ x * P := mul_nonneg hx0 hP
  obtain ⟨hT, hT0⟩ := within_probMagnitude_slice hF vec hl hroom
  have hTbig : T ≤ big := by
    refine hT.2.trans (roomR_le hF hroom hP (by positivity) le_rfl ?_ (by omega))
    rw [h4n]
    have : (0 : ℝ) ≤ 2 ^ n * eta := by positivity
    nlinarith
  have hr0 : 0 ≤ r := hF.mul_nonneg _ _ hx0 hT0
  have he0 : (0 : ℝ) ≤ (2 * 2 ^ n + 1) * eta := by positivity
  have hr : Within (factor u ^ (2 ^ n + 2)) ((2 * 2 ^ n + 1) * eta) r (x * P) := by
    have h1 := within_of_err hF.nonneg hF.lt_one (mul_nonneg hx0 hT0) (hF.mul x T (by
      rw [abs_of_nonneg (mul_nonneg hx0 hT0)]
      nlinarith))
    have h2 := within_draw (hF.bpow _) (by positivity) hx0 hx1 hT
    have := within_trans hb (hF.bpow _) he (by positivity) h1 h2
    rw [← pow_succ'] at this
    have e : eta + 2 * 2 ^ n * eta = (2 * 2 ^ n + 1) * eta := by ring
    rwa [e] at this
  have he1 : (0 : ℝ) ≤ 2 * 2 ^ (n - indices.length) * eta := by positivity
  obtain ⟨m, h1, _, h3, h4, h5⟩ := softLoopF_spec (F := F) acc (runF F acc r) (fun _ => rfl) l 0
  have hm : m < 2 ^ indices.length := by omega
  rw [Nat.zero_add] at h3
  have hacc : ∀ j < 2 ^ indices.length, Within (factor u ^ (2 ^ (n - indices.length) + 1)) (2 * 2 ^ (n - indices.length) * eta) (acc j)
      (outcomeProb n indices v j) ∧ 0 ≤ acc j := fun j hj => within_softAcc_slice hF h vec inOff hj hroom
  have hqP : ∀ j, outcomeProb n indices v j ≤ P := by
    intro j
    unfold outcomeProb
    exact Finset.sum_le_sum_of_subset_of_nonneg (Finset.filter_subset _ _) fun _ _ _ => Complex.normSq_nonneg _
  have haccbig : ∀ j < 2 ^ indices.length, acc j ≤ big := by
    intro j hj
    refine (hacc j hj).1.2.trans (roomR_le hF hroom (outcomeProb_nonneg _ _ _ _) he1 (hqP j) ?_ (by omega))
    rw [h4n]
    have : (2 : ℝ) ^ (n - indices.length) ≤ 2 ^ n := by exact_mod_cast hKN
    have := mul_le_mul_of_nonneg_right this he
    have : (0 : ℝ) ≤ 2 ^ n * eta := by positivity
    nlinarith
  have hpos : ∀ j < m, 0 < F.sub (runF F acc r j) (acc j) := fun j hj => not_le.1 (h4 j (by omega) hj)
  have hcP : ∀ k ≤ 2 ^ indices.length, cumProb n indices v k ≤ P := by
    intro k hk
    rw [hPdef, ← cumProb_top h]
    exact cumProb_mono _ _ _ hk
  have hdec : ∀ k ≤ m, |runF F acc r k - acc k| ≤ big ∧
      |runF F acc r k - acc k - (x * P - cumProb n indices v (k + 1))| + factor u * eta ≤ drawErr u n * P + drawTiny u eta n := by
    intro k hk
    have hkN : ((k : ℝ) + 1) ≤ 2 ^ n := by exact_mod_cast (by omega : k + 1 ≤ 2 ^ n)
    have hbg : factor u ^ (2 ^ n + 2) * factor u ^ k * (P + (2 * 2 ^ n + 1) * eta + k * eta) ≤ big := by
      rw [← pow_add, mul_comm, add_assoc]
      refine roomR_le hF hroom hP (by positivity) le_rfl ?_ (by omega)
      rw [h4n]
      nlinarith
    obtain ⟨d1, d2⟩ := decision_near hF hB0 he0 hB1 he1 hx0 hx1 hP hr0 hr (k := k) (fun j hj => hacc j (by omega))
      (fun j _ => outcomeProb_nonneg n indices v j) (fun j hj => haccbig j (by omega)) hbg fun j hj => hpos j (by omega)
    refine ⟨d1, ?_⟩
    have hc0 : 0 ≤ cumProb n indices v (k + 1) := Finset.sum_nonneg fun _ _ => outcomeProb_nonneg _ _ _ _
    have := drawTiny_ge hF h.length_le (by omega : k + 1 ≤ 2 ^ indices.length) hP hc0 (hcP (k + 1) (by omega))
    have d2' : |runF F acc r k - acc k - (x * P - cumProb n indices v (k + 1))| ≤ _ := d2
    change _ ≤ _ - P + ((factor u ^ (2 ^ (n - indices.length) + 1) - 1) * cumProb n indices v (k + 1) + _) at d2'
    linarith
  refine ⟨m, ?_, hm, ?_, ?_, ?_⟩
  · rw [hl', List.range_eq_range']
    exact congrArg _ h1
  · intro j hj
    obtain ⟨d1, d2⟩ := hdec j hj.le
    have := (sub_pos_near hF d1 (hpos j hj)).1
    have := le_abs_self (runF F acc r j - acc j - (x * P - cumProb n indices v (j + 1)))
    linarith
  · rcases h5 with h5 | h5
    · right
      obtain ⟨d1, d2⟩ := hdec m le_rfl
      have := sub_nonpos_near hF d1 h5
      have := neg_abs_le (runF F acc r m - acc m - (x * P - cumProb n indices v (m + 1)))
      linarith
    · left; omega
  · intro hx ham
    have hrm : 0 < runF F acc r m ∧ F.sub (runF F acc r m) 0 = runF F acc r m := by
      cases m with
      | zero =>
        refine ⟨?_, hF.sub_zero_mul _ _⟩
        change 0 < r
        rcases hr0.lt_or_eq with h' | h'
        · exact h'
        · exfalso
          have h6 := hr.1
          rw [← h', zero_add] at h6
          have h7 : (2 * 2 ^ n + 1) * eta * factor u ^ (2 ^ n + 2) ≤ drawTiny u eta n := by
            unfold drawTiny
            apply mul_le_mul _ (pow_le_pow_right₀ hb (by omega)) (by linarith) (by positivity)
            apply mul_le_mul_of_nonneg_right _ he
            linarith
          linarith
      | succ j => exact ⟨hpos j (by omega), hF.sub_zero_sub _ _⟩
    have hlast : m + 1 = 2 ^ indices.length := by
      rcases h5 with h5 | h5
      · have ham' : acc m = 0 := ham
        rw [ham', hrm.2] at h5
        linarith
      · omega
    obtain ⟨d1, d2⟩ := hdec m le_rfl
    rw [hlast, cumProb_top h] at d2
    have ham' : acc m = 0 := ham
    rw [ham', sub_zero] at d2
    have := le_abs_self (runF F acc r m - (x * P - totalProb n v))
    have hfe : 0 ≤ factor u * eta := by positivity
    linarith

/-- An unforced `soft_measure` in rounded arithmetic with underflow. -/
theorem softMeasureF_near (h : IdxOK n indices) (vec : List ℂ) (hl : vec.length = 2 ^ n)
    (hroom : RoomR u eta big n (totalProb n fun c => vec.getD c 0)) {x : ℝ} (hx0 : 0 ≤ x) (hx1 : x ≤ 1) :
    ∃ m, softMeasureF F indices n vec none 0 x 0 = .ok (m, softAccF F n indices vec 0 m) ∧ m < 2 ^ indices.length ∧
      (∀ j < m, cumProb n indices (fun c => vec.getD c 0) (j + 1) ≤ x * totalProb n (fun c => vec.getD c 0)
        + (drawErr u n * totalProb n (fun c => vec.getD c 0) + drawTiny u eta n)) ∧
      (m + 1 = 2 ^ indices.length ∨ x * totalProb n (fun c => vec.getD c 0) ≤ cumProb n indices (fun c => vec.getD c 0) (m + 1)
        + (drawErr u n * totalProb n (fun c => vec.getD c 0) + drawTiny u eta n)) ∧
      (drawTiny u eta n < x * totalProb n (fun c => vec.getD c 0) → softAccF F n indices vec 0 m = 0 →
        totalProb n (fun c => vec.getD c 0) ≤ x * totalProb n (fun c => vec.getD c 0)
          + (drawErr u n * totalProb n (fun c => vec.getD c 0) + drawTiny u eta n)) := by
  have := softMeasureF_near_slice hF h vec (inOff := 0) (by omega) (by rw [sliceAt_zero']; exact hroom) hx0 hx1
  rwa [sliceAt_zero'] at this

end QIP
