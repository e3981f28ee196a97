import Mathlib.Analysis.Normed.Field.Basic
import Mathlib.Analysis.Complex.Basic
import Verif.Spec.FMeasure
import Verif.Lemmas.MeasureState

/-! # The measurement kernels in rounded arithmetic -/

namespace QIP

open Spec Finset

section Rel

variable {b c x y x' y' z u : ℝ}

theorem rel_nonneg (hb : 1 ≤ b) (hy : 0 ≤ y) (h : Rel b x y) : 0 ≤ x := by
  by_contra hx
  have := h.1
  nlinarith

theorem rel_refl (hb : 1 ≤ b) (hy : 0 ≤ y) : Rel b y y := ⟨by nlinarith, by nlinarith⟩

theorem rel_mono (hb : 1 ≤ b) (hc : b ≤ c) (hy : 0 ≤ y) (h : Rel b x y) : Rel c x y := by
  have hx := rel_nonneg hb hy h
  exact ⟨h.1.trans (by nlinarith), h.2.trans (by nlinarith)⟩

theorem rel_trans (hb : 1 ≤ b) (hc : 1 ≤ c) (h : Rel b x y) (h' : Rel c y z) : Rel (b * c) x z := by
  constructor
  · have := mul_le_mul_of_nonneg_right h.1 (by linarith : 0 ≤ c)
    linarith [h'.1]
  · have := mul_le_mul_of_nonneg_right h'.2 (by linarith : 0 ≤ b)
    linarith [h.2]

theorem rel_add (h : Rel b x y) (h' : Rel b x' y') : Rel b (x + x') (y + y') :=
  ⟨by linarith [h.1, h'.1], by linarith [h.2, h'.2]⟩

theorem rel_mul (hb : 1 ≤ b) (hc : 1 ≤ c) (hy : 0 ≤ y) (hy' : 0 ≤ y') (h : Rel b x y) (h' : Rel c x' y') :
    Rel (b * c) (x * x') (y * y') := by
  have hx := rel_nonneg hb hy h
  have hx' := rel_nonneg hc hy' h'
  constructor
  · have := mul_le_mul h.1 h'.1 hy' (by positivity)
    linarith
  · have := mul_le_mul h.2 h'.2 hx' (by positivity)
    linarith

theorem rel_pos (hb : 1 ≤ b) (hy : 0 < y) (h : Rel b x y) : 0 < x := by
  rcases (rel_nonneg hb hy.le h).eq_or_lt with e | e
  · have := h.1
    rw [← e] at this
    linarith
  · exact e

theorem rel_zero (h : Rel b x 0) (hb : 1 ≤ b) : x = 0 :=
  le_antisymm (by linarith [h.2]) (rel_nonneg hb le_rfl h)

theorem rel_inv (hb : 1 ≤ b) (hy : 0 < y) (h : Rel b x y) : Rel b (1 / x) (1 / y) := by
  have hx := rel_pos hb hy h
  constructor
  · rw [one_div_mul_eq_div, div_le_div_iff₀ hy hx]
    linarith [h.2]
  · rw [one_div_mul_eq_div, div_le_div_iff₀ hx hy]
    linarith [h.1]

theorem rel_sqrt (hb : 1 ≤ b) (hy : 0 ≤ y) (h : Rel b x y) : Rel b (√x) (√y) := by
  have hx := rel_nonneg hb hy h
  have hs : √b ≤ b := by
    rw [Real.sqrt_le_left (by linarith)]
    nlinarith
  constructor
  · calc √y ≤ √(x * b) := Real.sqrt_le_sqrt h.1
      _ = √x * √b := Real.sqrt_mul hx b
      _ ≤ √x * b := mul_le_mul_of_nonneg_left hs (Real.sqrt_nonneg _)
  · calc √x ≤ √(y * b) := Real.sqrt_le_sqrt h.2
      _ = √y * √b := Real.sqrt_mul hy b
      _ ≤ √y * b := mul_le_mul_of_nonneg_left hs (Real.sqrt_nonneg _)

theorem rel_abs (hb : 1 ≤ b) (hy : 0 ≤ y) (h : Rel b x y) : |x - y| ≤ (b - 1) * y := by
  have hx := rel_nonneg hb hy h
  rw [abs_le]
  constructor
  · by_cases hxy : y ≤ x
    · nlinarith
    · nlinarith [h.1]
  · linarith [h.2]

theorem one_le_factor (h0 : 0 ≤ u) (h1 : u < 1) : 1 ≤ factor u := by
  unfold factor
  rw [le_div_iff₀ (by linarith)]
  linarith

theorem rel_of_err (h0 : 0 ≤ u) (h1 : u < 1) (hy : 0 ≤ y) (h : |x - y| ≤ u * |y|) : Rel (factor u) x y := by
  rw [abs_of_nonneg hy, abs_le] at h
  unfold factor Spec.Rel
  rw [mul_one_div, mul_one_div, le_div_iff₀ (by linarith), le_div_iff₀ (by linarith)]
  constructor
  · linarith
  · nlinarith

end Rel

theorem getD_set' (l : List ℝ) (j b : Nat) (a : ℝ) :
    (l.set j a).getD b 0 = if j = b then (if j < l.length then a else 0) else l.getD b 0 := by
  rw [List.getD_eq_getElem?_getD, List.getD_eq_getElem?_getD, List.getElem?_set]
  by_cases h1 : j = b
  · rw [if_pos h1, if_pos h1]
    split <;> rfl
  · rw [if_neg h1, if_neg h1]

/-- Any order of the additions. -/
theorem rel_sumOf {fl : ℝ → ℝ} {u : ℝ} (h0 : 0 ≤ u) (h1 : u < 1) (hfl : ∀ x, |fl x - x| ≤ u * |x|) {L : List ℝ} {s : ℝ}
    (h : SumOf fl L s) (hL : ∀ x ∈ L, 0 ≤ x) : L ≠ [] ∧ Rel (factor u ^ (L.length - 1)) s L.sum := by
  have hb := one_le_factor h0 h1
  induction h with
  | one x => exact ⟨by simp, by simpa using rel_refl le_rfl (hL x (by simp))⟩
  | @add L L' s s' h h' ih ih' =>
    obtain ⟨hn, hr⟩ := ih fun x hx => hL x (by simp [hx])
    obtain ⟨hn', hr'⟩ := ih' fun x hx => hL x (by simp [hx])
    have hl := List.length_pos_of_ne_nil hn
    have hl' := List.length_pos_of_ne_nil hn'
    refine ⟨by simp [hn], ?_⟩
    have hs : 0 ≤ L.sum := List.sum_nonneg fun x hx => hL x (by simp [hx])
    have hs' : 0 ≤ L'.sum := List.sum_nonneg fun x hx => hL x (by simp [hx])
    have p1 := one_le_pow₀ hb (n := L.length - 1)
    have p2 := one_le_pow₀ hb (n := L'.length - 1)
    have hk : ∀ k, k ≤ L.length + L'.length - 2 → factor u ^ k ≤ factor u ^ (L.length + L'.length - 2) := fun k hk =>
      pow_le_pow_right₀ hb hk
    have r1 := rel_mono p1 (hk _ (by omega)) hs hr
    have r2 := rel_mono p2 (hk _ (by omega)) hs' hr'
    have hx := rel_nonneg p1 hs hr
    have hx' := rel_nonneg p2 hs' hr'
    have r3 := rel_of_err h0 h1 (by linarith : 0 ≤ s + s') (hfl (s + s'))
    have r4 := rel_trans hb (one_le_pow₀ hb) r3 (rel_add r1 r2)
    rw [List.length_append, List.sum_append]
    have e : L.length + L'.length - 1 = (L.length + L'.length - 2) + 1 := by omega
    rw [e, pow_succ']
    exact r4
  | @perm L L' s hp h ih =>
    obtain ⟨hn, hr⟩ := ih fun x hx => hL x (hp.mem_iff.1 hx)
    refine ⟨fun e => hn (by simpa [e] using hp), ?_⟩
    rw [← hp.sum_eq, ← hp.length_eq]
    exact hr

theorem sumOf_foldl (fl : ℝ → ℝ) (L : List ℝ) {M : List ℝ} {a : ℝ} (h : SumOf fl M a) :
    SumOf fl (M ++ L) (L.foldl (fun s x => fl (s + x)) a) := by
  induction L generalizing M a with
  | nil => simpa using h
  | cons x L ih =>
    have := ih (SumOf.add h (SumOf.one x))
    simpa using this

/-! ## The kernels -/

variable {F : FOps} {u : ℝ} (hF : Accurate F u) {n : Nat} {indices : List Nat}

include hF

theorem Spec.Accurate.b1 : 1 ≤ factor u := one_le_factor hF.nonneg hF.lt_one

theorem Spec.Accurate.bpow (k : Nat) : 1 ≤ factor u ^ k := one_le_pow₀ hF.b1

theorem rel_absSq (z : ℂ) : Rel (factor u) (F.absSq z) (Complex.normSq z) := by
  have := hF.absSq z
  exact rel_of_err hF.nonneg hF.lt_one (Complex.normSq_nonneg z) (by rwa [abs_of_nonneg (Complex.normSq_nonneg z)])

theorem absSq_nonneg (z : ℂ) : 0 ≤ F.absSq z := rel_nonneg hF.b1 (Complex.normSq_nonneg z) (rel_absSq hF z)

theorem rel_acc {ι : Type} (L : List ι) (f : ι → ℂ) :
    Rel (factor u ^ (L.length + 1)) (F.acc 0 (L.map fun i => F.absSq (f i))) (L.map fun i => Complex.normSq (f i)).sum := by
  have h1 := hF.acc 0 (L.map fun i => F.absSq (f i)) le_rfl (by
    intro x hx
    obtain ⟨i, _, rfl⟩ := List.mem_map.1 hx
    exact absSq_nonneg hF _)
  rw [zero_add, List.length_map] at h1
  have h2 : Rel (factor u) (L.map fun i => F.absSq (f i)).sum (L.map fun i => Complex.normSq (f i)).sum := by
    clear h1
    induction L with
    | nil => exact rel_refl hF.b1 le_rfl
    | cons i L ih =>
      rw [List.map_cons, List.map_cons, List.sum_cons, List.sum_cons]
      exact rel_add (rel_absSq hF (f i)) ih
  rw [pow_succ]
  exact rel_trans (hF.bpow _) hF.b1 h1 h2

theorem rel_probMagnitude (vec : List ℂ) (hl : vec.length = 2 ^ n) :
    Rel (factor u ^ (2 ^ n + 1)) (probMagnitudeF F 0 vec) (totalProb n fun c => vec.getD c 0) := by
  have h1 := rel_acc hF vec id
  rw [hl] at h1
  have h2 := probMagnitude_eq 0 vec (n := n) (inOff := 0) (by omega)
  rw [zero_add, sliceAt_zero'] at h2
  rw [← h2]
  unfold probMagnitude
  rw [foldl_add_eq (fun i => Complex.normSq (vec.getD i 0)), zero_add]
  have e : (List.range vec.length).map (fun i => Complex.normSq (vec.getD i 0)) = vec.map Complex.normSq := by
    apply List.ext_getElem (by simp)
    intro i h1 h2
    simp at h1
    simp [h1]
  rw [e]
  exact h1

theorem rel_softAcc (h : IdxOK n indices) (vec : List ℂ) (hl : vec.length = 2 ^ n) {m : Nat} (hm : m < 2 ^ indices.length) :
    Rel (factor u ^ (2 ^ (n - indices.length) + 1)) (softAccF F n indices vec 0 m)
      (outcomeProb n indices (fun c => vec.getD c 0) m) := by
  have h2 := h.softAcc_eq vec 0 hm
  rw [sliceAt_zero'] at h2
  rw [← h2]
  have h0 : 0 ≤ softAcc n indices vec 0 m := by
    rw [h2]
    exact outcomeProb_nonneg _ _ _ _
  unfold softAccF
  set L := (List.range (2 ^ (n - indices.length))).filter _ with hL
  have h1 := rel_acc hF L fun i =>
    vec.getD (entwineBit indices.length (n - indices.length) m i (rowMask n indices) - 0) 0
  have e : (L.map fun i => Complex.normSq
      (vec.getD (entwineBit indices.length (n - indices.length) m i (rowMask n indices) - 0) 0)).sum
      = softAcc n indices vec 0 m := by
    unfold softAcc
    rw [hL]
    generalize List.range (2 ^ (n - indices.length)) = R
    have : ∀ (R : List Nat) (a : ℝ), a + ((R.filter fun i =>
        let vi := entwineBit indices.length (n - indices.length) m i (rowMask n indices)
        decide (0 ≤ vi ∧ vi < vec.length + 0)).map fun i => Complex.normSq
      (vec.getD (entwineBit indices.length (n - indices.length) m i (rowMask n indices) - 0) 0)).sum
      = R.foldl (fun acc i =>
        let vi := entwineBit indices.length (n - indices.length) m i (rowMask n indices)
        if 0 ≤ vi ∧ vi < vec.length + 0 then acc + Complex.normSq (vec.getD (vi - 0) 0) else acc) a := by
      intro R
      induction R with
      | nil => intro a; simp
      | cons i R ih =>
        intro a
        rw [List.foldl_cons, ← ih, List.filter_cons]
        by_cases hc : 0 ≤ entwineBit indices.length (n - indices.length) m i (rowMask n indices) ∧
          entwineBit indices.length (n - indices.length) m i (rowMask n indices) < vec.length + 0
        · dsimp only
          rw [if_pos (by simpa using hc), if_pos hc, List.map_cons, List.sum_cons, add_assoc]
        · dsimp only
          rw [if_neg (by simpa using hc), if_neg hc]
    have := this R 0
    rw [zero_add] at this
    exact this
  rw [e] at h1
  refine rel_mono (hF.bpow _) (pow_le_pow_right₀ hF.b1 ?_) h0 h1
  have := List.length_filter_le (fun i =>
        let vi := entwineBit indices.length (n - indices.length) m i (rowMask n indices)
        decide (0 ≤ vi ∧ vi < vec.length + 0)) (List.range (2 ^ (n - indices.length)))
  rw [List.length_range] at this
  exact Nat.add_le_add_right this 1

theorem sub_nonpos_iff (x y : ℝ) : F.sub x y ≤ 0 ↔ x - y ≤ 0 := by
  have h := hF.sub x y
  have h0 := hF.nonneg
  have h1 := hF.lt_one
  rw [abs_le] at h
  constructor
  · intro hs
    by_contra hc
    rw [abs_of_pos (by linarith : 0 < x - y)] at h
    nlinarith [h.1]
  · intro hs
    rw [abs_of_nonpos hs] at h
    nlinarith [h.2]

omit hF in
/-- The outcome found by the loop, in terms of the values of `r`. -/
theorem softLoopF_spec (acc run : Nat → ℝ) (hrun : ∀ k, run (k + 1) = F.sub (run k) (acc k)) (l a : Nat) :
    ∃ m, softLoopF F acc (List.range' a (l + 1)) (run a) = (m, acc m) ∧ a ≤ m ∧ m ≤ a + l ∧
      (∀ j, a ≤ j → j < m → ¬ F.sub (run j) (acc j) ≤ 0) ∧ (F.sub (run m) (acc m) ≤ 0 ∨ m = a + l) := by
  induction l generalizing a with
  | zero =>
    refine ⟨a, ?_, le_rfl, by omega, fun j h1 h2 => by omega, Or.inr rfl⟩
    simp [softLoopF, List.range']
  | succ l ih =>
    rw [List.range'_succ]
    unfold softLoopF
    by_cases h : F.sub (run a) (acc a) ≤ 0
    · rw [if_pos h]
      exact ⟨a, rfl, le_rfl, by omega, fun j h1 h2 => by omega, Or.inl h⟩
    · rw [if_neg h, if_neg (by simp [List.range'_succ]), ← hrun]
      obtain ⟨m, h1, h2, h3, h4, h5⟩ := ih (a + 1)
      refine ⟨m, h1, by omega, by omega, ?_, ?_⟩
      · intro j hj1 hj2
        by_cases e : j = a
        · rw [e]; exact h
        · exact h4 j (by omega) hj2
      · rcases h5 with h5 | h5
        · exact Or.inl h5
        · right; omega

omit hF in
/-- The values of `r` in the loop of `soft_measure`. -/
noncomputable def runF (F : FOps) (acc : Nat → ℝ) (r : ℝ) : Nat → ℝ
  | 0 => r
  | k + 1 => F.sub (runF F acc r k) (acc k)

theorem u_le : u ≤ factor u - 1 := by
  have h0 := hF.nonneg
  have h1 := hF.lt_one
  unfold factor
  rw [le_sub_iff_add_le, le_div_iff₀ (by linarith)]
  nlinarith

/-- The values of `r` follow the exact ones. -/
theorem runF_err {acc p : Nat → ℝ} {B0 B1 r P x : ℝ} (hB0 : 1 ≤ B0) (hB1 : 1 ≤ B1) (hx0 : 0 ≤ x) (hx1 : x ≤ 1) (hP : 0 ≤ P)
    (hr : Rel B0 r (x * P)) {k : Nat} (hacc : ∀ j < k, Rel B1 (acc j) (p j)) (hp : ∀ j < k, 0 ≤ p j)
    (hpos : ∀ j < k, 0 < runF F acc r j - acc j) :
    0 ≤ runF F acc r k ∧ runF F acc r k ≤ B0 * factor u ^ k * P ∧
      |runF F acc r k - (x * P - ∑ j ∈ range k, p j)| ≤ (B0 * factor u ^ k - 1) * P + (B1 - 1) * ∑ j ∈ range k, p j := by
  have hb := hF.b1
  induction k with
  | zero =>
    have hxP : 0 ≤ x * P := mul_nonneg hx0 hP
    have hxP' : x * P ≤ P := by nlinarith
    refine ⟨rel_nonneg hB0 hxP hr, ?_, ?_⟩
    · rw [pow_zero, mul_one]
      refine hr.2.trans ?_
      nlinarith
    · rw [pow_zero, mul_one, Finset.range_zero, Finset.sum_empty, sub_zero, mul_zero, add_zero]
      refine (rel_abs hB0 hxP hr).trans ?_
      nlinarith
  | succ k ih =>
    obtain ⟨i1, i2, i3⟩ := ih (fun j hj => hacc j (by omega)) (fun j hj => hp j (by omega)) fun j hj => hpos j (by omega)
    have hd := hpos k (by omega)
    have hpk := hp k (by omega)
    have ha := rel_abs hB1 hpk (hacc k (by omega))
    have ha0 := rel_nonneg hB1 hpk (hacc k (by omega))
    change 0 ≤ F.sub (runF F acc r k) (acc k) ∧ F.sub (runF F acc r k) (acc k) ≤ _ ∧
      |F.sub (runF F acc r k) (acc k) - _| ≤ _
    set R := runF F acc r k
    have hs := hF.sub R (acc k)
    rw [abs_of_pos hd] at hs
    have hu := u_le hF
    have hu0 := hF.nonneg
    have hu1 := hF.lt_one
    have hs' : |F.sub R (acc k) - (R - acc k)| ≤ (factor u - 1) * R := by
      refine hs.trans (mul_le_mul hu (by linarith) hd.le (by linarith))
    rw [Finset.sum_range_succ, pow_succ]
    set f := factor u
    set c := f ^ k
    have h1 : (f - 1) * R ≤ (f - 1) * (B0 * c * P) := mul_le_mul_of_nonneg_left i2 (by linarith)
    refine ⟨?_, ?_, ?_⟩
    · have := (abs_le.1 hs).1
      nlinarith
    · have := (abs_le.1 hs').2
      nlinarith
    · have e : F.sub R (acc k) - (x * P - (∑ j ∈ range k, p j + p k))
          = (F.sub R (acc k) - (R - acc k)) + ((R - (x * P - ∑ j ∈ range k, p j)) - (acc k - p k)) := by ring
      rw [e]
      refine (abs_add_le _ _).trans ?_
      have := abs_sub (R - (x * P - ∑ j ∈ range k, p j)) (acc k - p k)
      nlinarith

/-- Distance between the position of the draw and the cumulated probability at a decision. -/
theorem decision_err {acc p : Nat → ℝ} {B0 B1 r P x : ℝ} (hB0 : 1 ≤ B0) (hB1 : 1 ≤ B1) (hx0 : 0 ≤ x) (hx1 : x ≤ 1) (hP : 0 ≤ P)
    (hr : Rel B0 r (x * P)) {k : Nat} (hacc : ∀ j < k + 1, Rel B1 (acc j) (p j)) (hp : ∀ j < k + 1, 0 ≤ p j)
    (hpos : ∀ j < k, 0 < runF F acc r j - acc j) :
    |runF F acc r k - acc k - (x * P - ∑ j ∈ range (k + 1), p j)|
      ≤ (B0 * factor u ^ k - 1) * P + (B1 - 1) * ∑ j ∈ range (k + 1), p j := by
  obtain ⟨_, _, h⟩ := runF_err hF hB0 hB1 hx0 hx1 hP hr (k := k) (fun j hj => hacc j (by omega)) (fun j hj => hp j (by omega)) hpos
  have ha := rel_abs hB1 (hp k (by omega)) (hacc k (by omega))
  rw [Finset.sum_range_succ]
  have e : runF F acc r k - acc k - (x * P - (∑ j ∈ range k, p j + p k))
      = (runF F acc r k - (x * P - ∑ j ∈ range k, p j)) - (acc k - p k) := by ring
  rw [e]
  refine (abs_sub _ _).trans ?_
  nlinarith

theorem drawErr_ge {k : Nat} (hk : indices.length ≤ n) (hkl : k ≤ 2 ^ indices.length) {P c : ℝ} (hP : 0 ≤ P) (hc : c ≤ P) :
    (factor u ^ (2 ^ n + 2) * factor u ^ k - 1) * P + (factor u ^ (2 ^ (n - indices.length) + 1) - 1) * c ≤ drawErr u n * P := by
  have hb := hF.b1
  unfold drawErr
  rw [← pow_add]
  have h1 : 2 ^ indices.length ≤ 2 ^ n := Nat.pow_le_pow_right (by norm_num) hk
  have h2 : 2 ^ (n - indices.length) ≤ 2 ^ n := Nat.pow_le_pow_right (by norm_num) (by omega)
  have h3 : 2 ^ (n + 1) = 2 * 2 ^ n := by ring
  have e1 := pow_le_pow_right₀ hb (by omega : 2 ^ n + 2 + k ≤ 2 ^ (n + 1) + 2)
  have e2 := pow_le_pow_right₀ hb (by omega : 2 ^ (n - indices.length) + 1 ≤ 2 ^ (n + 1) + 2)
  have e3 := hF.bpow (2 ^ (n - indices.length) + 1)
  have e4 := hF.bpow (2 ^ n + 2 + k)
  nlinarith

/-- An unforced `soft_measure` in rounded arithmetic. -/
theorem softMeasureF_spec (h : IdxOK n indices) (vec : List ℂ) (hl : vec.length = 2 ^ n) {x : ℝ} (hx0 : 0 ≤ x) (hx1 : x ≤ 1) :
    ∃ m, softMeasureF F indices n vec none 0 x 0 = .ok (m, softAccF F n indices vec 0 m) ∧ m < 2 ^ indices.length ∧
      (∀ j < m, cumProb n indices (fun c => vec.getD c 0) (j + 1)
        < x * totalProb n (fun c => vec.getD c 0) + drawErr u n * totalProb n (fun c => vec.getD c 0)) ∧
      (m + 1 = 2 ^ indices.length ∨ x * totalProb n (fun c => vec.getD c 0)
        ≤ cumProb n indices (fun c => vec.getD c 0) (m + 1) + drawErr u n * totalProb n (fun c => vec.getD c 0)) ∧
      (0 < x → 0 < totalProb n (fun c => vec.getD c 0) → outcomeProb n indices (fun c => vec.getD c 0) m = 0 →
        totalProb n (fun c => vec.getD c 0)
          < x * totalProb n (fun c => vec.getD c 0) + drawErr u n * totalProb n (fun c => vec.getD c 0)) := by
  set v : Nat → ℂ := fun c => vec.getD c 0
  set P := totalProb n v
  have hP : 0 ≤ P := totalProb_nonneg n v
  obtain ⟨l, hl'⟩ : ∃ l, 2 ^ indices.length = l + 1 := ⟨2 ^ indices.length - 1, by have := Nat.two_pow_pos indices.length; omega⟩
  have hlt : indices.length < 2 ^ n := lt_of_le_of_lt h.length_le Nat.lt_two_pow_self
  unfold softMeasureF
  rw [if_neg h.not_bad]
  simp only [if_pos hlt]
  set acc := softAccF F n indices vec 0
  set r := F.mul x (probMagnitudeF F 0 vec)
  have hB0 := hF.bpow (2 ^ n + 2)
  have hB1 := hF.bpow (2 ^ (n - indices.length) + 1)
  have hxP : 0 ≤ x * P := mul_nonneg hx0 hP
  have hr : Rel (factor u ^ (2 ^ n + 2)) r (x * P) := by
    have hS := rel_probMagnitude hF vec hl
    have hS0 := rel_nonneg (hF.bpow _) hP hS
    have h1 := rel_of_err hF.nonneg hF.lt_one (mul_nonneg hx0 hS0) (hF.mul x (probMagnitudeF F 0 vec))
    have h2 : Rel (factor u ^ (2 ^ n + 1)) (x * probMagnitudeF F 0 vec) (x * P) := by
      have := rel_mul (le_refl 1) (hF.bpow _) hx0 hP (rel_refl (le_refl 1) hx0) hS
      rwa [one_mul] at this
    have := rel_trans hF.b1 (hF.bpow _) h1 h2
    rwa [← pow_succ'] at this
  obtain ⟨m, h1, _, h3, h4, h5⟩ := softLoopF_spec (F := F) acc (runF F acc r) (fun _ => rfl) l 0
  have hm : m < 2 ^ indices.length := by omega
  rw [Nat.zero_add] at h3
  have hacc : ∀ j < 2 ^ indices.length, Rel (factor u ^ (2 ^ (n - indices.length) + 1)) (acc j) (outcomeProb n indices v j) :=
    fun j hj => rel_softAcc hF h vec hl hj
  have hpos : ∀ j < m, 0 < runF F acc r j - acc j := by
    intro j hj
    have := h4 j (by omega) hj
    rw [sub_nonpos_iff hF] at this
    linarith
  have hcP : ∀ k ≤ 2 ^ indices.length, cumProb n indices v k ≤ P := by
    intro k hk
    change _ ≤ totalProb n v
    rw [← cumProb_top h]
    exact cumProb_mono _ _ _ hk
  have hdec : ∀ k ≤ m, |runF F acc r k - acc k - (x * P - cumProb n indices v (k + 1))| ≤ drawErr u n * P := by
    intro k hk
    have := decision_err hF hB0 hB1 hx0 hx1 hP hr (k := k) (fun j hj => hacc j (by omega)) (fun j _ => outcomeProb_nonneg n indices v j)
      fun j hj => hpos j (by omega)
    refine this.trans (drawErr_ge hF h.length_le (by omega) hP (hcP (k + 1) (by omega)))
  refine ⟨m, ?_, hm, ?_, ?_, ?_⟩
  · rw [hl', List.range_eq_range']
    exact congrArg _ h1
  · intro j hj
    have := (abs_le.1 (hdec j hj.le)).2
    linarith [hpos j hj]
  · rcases h5 with h5 | h5
    · right
      rw [sub_nonpos_iff hF] at h5
      have := (abs_le.1 (hdec m le_rfl)).1
      linarith
    · left; omega
  · intro hx hPpos hz
    have ham : acc m = 0 := rel_zero (by have := hacc m hm; rwa [hz] at this) hB1
    have hrm : 0 < runF F acc r m := by
      cases m with
      | zero => exact rel_pos hB0 (mul_pos hx hPpos) hr
      | succ j =>
        have := h4 j (by omega) (by omega)
        exact not_le.1 this
    have hd : 0 < runF F acc r m - acc m := by rw [ham]; linarith
    have hlast : m + 1 = 2 ^ indices.length := by
      rcases h5 with h5 | h5
      · rw [sub_nonpos_iff hF] at h5
        linarith
      · omega
    have := (abs_le.1 (hdec m le_rfl)).2
    rw [hlast, cumProb_top h] at this
    have e : totalProb n v = P := rfl
    rw [e] at this
    linarith

omit hF in
/-- A forced `soft_measure`. -/
theorem softMeasureF_forced (h : IdxOK n indices) (vec : List ℂ) (m : Nat) (x g : ℝ) :
    softMeasureF F indices n vec (some m) 0 x g = .ok (m, softAccF F n indices vec 0 m) := by
  unfold softMeasureF
  rw [if_neg h.not_bad]
  simp [softLoopF]

omit hF in
theorem chooseOutcomeF_soft (F : FOps) (indices : List Nat) (n : Nat) (vec : List ℂ) (inOff : Nat) (measured : Option Nat)
    (hm : ∀ m ∈ measured, m < 2 ^ indices.length) (x g : ℝ) {m : Nat} {p : ℝ}
    (hs : softMeasureF F indices n vec measured inOff x g = .ok (m, p)) :
    chooseOutcomeF F indices n vec inOff (measured.map Int.ofNat) none x g
      = if p = 0 then .error .zeroDivision else .ok (m, p, F.sqrt (F.div 1 p)) := by
  unfold chooseOutcomeF
  cases measured with
  | none =>
    simp only [Option.map_none, hs, bind, Except.bind, pure, Except.pure]
  | some k =>
    have hk := hm k rfl
    have hk' : 0 ≤ Int.ofNat k ∧ Int.ofNat k < 2 ^ indices.length := ⟨Int.natCast_nonneg k, by
      have : ((k : Nat) : Int) < ((2 ^ indices.length : Nat) : Int) := by exact_mod_cast hk
      push_cast at this
      exact this⟩
    simp only [Option.map_some, bind, Except.bind, pure, Except.pure]
    rw [if_neg (not_not.2 hk')]
    have e : (Int.ofNat k).toNat = k := by simp
    simp only [e, hs]

omit hF in
/-- `measure` on a whole state once the outcome is chosen. -/
theorem measureF_eq (h : IdxOK n indices) (vec out : List ℂ) (hl : vec.length = 2 ^ n) (hlo : out.length = 2 ^ n)
    {measured : Option Int} {measuredProb : Option ℝ} {x g : ℝ} {m : Nat} {p mult : ℝ} (hm : m < 2 ^ indices.length)
    (hc : chooseOutcomeF F indices n vec 0 measured measuredProb x g = .ok (m, p, mult)) :
    measureF F indices n vec out 0 0 measured measuredProb x g
      = .ok (m, p, (List.range (2 ^ n)).map fun i =>
          if subIndex n (inOrder n indices) i = m then F.scale (vec.getD i 0) mult else 0) := by
  unfold measureF
  rw [hc]
  simp only [bind, Except.bind]
  rw [if_neg h.not_bad]
  have e : ∀ (o : List ℂ) (i : Nat), (if (i &&& rowMask n indices) ^^^
      entwineBit indices.length (n - indices.length) m 0 (rowMask n indices) ≠ 0 then o.set (i - 0) 0
      else o.set (i - 0) (F.scale (vec.getD (i - 0) 0) mult))
      = o.set (i - 0) (if (i &&& rowMask n indices) ^^^
      entwineBit indices.length (n - indices.length) m 0 (rowMask n indices) ≠ 0 then 0
      else F.scale (vec.getD (i - 0) 0) mult) := by
    intro o i; split <;> rfl
  simp only [e]
  congr 3
  apply List.ext_getElem?
  intro j
  by_cases hj : j < 2 ^ n
  · rw [foldl_set_range' (fun i => if (i &&& rowMask n indices) ^^^
        entwineBit indices.length (n - indices.length) m 0 (rowMask n indices) ≠ 0 then 0
        else F.scale (vec.getD (i - 0) 0) mult) 0 _ _ (le_max_right _ _) _ _ (by omega), if_pos (by simp; omega),
      List.getElem?_map, List.getElem?_range hj, Option.map_some]
    congr 1
    rw [if_congr (and_mask_iff h hm (by simpa using hj)) rfl rfl]
    by_cases heq : subIndex n (inOrder n indices) j = m
    · rw [if_neg (not_not.2 (by simpa using heq)), if_pos heq]; rfl
    · rw [if_pos (by simpa using heq), if_neg heq]
  · rw [List.getElem?_eq_none, List.getElem?_eq_none (by simp; omega)]
    rw [length_foldl_set (fun i => i - 0) _ _ _]
    omega

/-- The factor all amplitudes are multiplied by. -/
theorem rel_mult {p q : ℝ} {k : Nat} (hq : 0 < q) (h : Rel (factor u ^ k) p q) :
    Rel (factor u ^ (k + 2)) (F.sqrt (F.div 1 p)) (√(1 / q)) := by
  have hb := hF.b1
  have hp := rel_pos (hF.bpow k) hq h
  have h1 := rel_trans hb (hF.bpow k) (rel_of_err hF.nonneg hF.lt_one (by positivity) (hF.div 1 p)) (rel_inv (hF.bpow k) hq h)
  rw [← pow_succ'] at h1
  have h2 := rel_sqrt (hF.bpow _) (by positivity) h1
  have h3 := rel_of_err (y := √(F.div 1 p)) hF.nonneg hF.lt_one (Real.sqrt_nonneg _) (by
    rw [abs_of_nonneg (Real.sqrt_nonneg _)]
    exact hF.sqrt _)
  have h4 := rel_trans hb (hF.bpow _) h3 h2
  rwa [← pow_succ'] at h4

theorem scale_err {z : ℂ} {r μ : ℝ} {k : Nat} (hμ : 0 ≤ μ) (h : Rel (factor u ^ k) r μ) :
    ‖F.scale z r - z * (μ : ℂ)‖ ≤ (factor u ^ (k + 1) - 1) * ‖z * (μ : ℂ)‖ := by
  have hr := rel_nonneg (hF.bpow k) hμ h
  have h1 := hF.scale z r
  have h2 := rel_abs (hF.bpow k) hμ h
  have e : F.scale z r - z * (μ : ℂ) = (F.scale z r - z * (r : ℂ)) + z * ((r : ℂ) - (μ : ℂ)) := by ring
  rw [e]
  refine (norm_add_le _ _).trans ?_
  rw [norm_mul, norm_mul, ← Complex.ofReal_sub, Complex.norm_real, Complex.norm_real, Real.norm_eq_abs, Real.norm_eq_abs,
    abs_of_nonneg hμ]
  rw [norm_mul, Complex.norm_real, Real.norm_eq_abs, abs_of_nonneg hr] at h1
  have hz := norm_nonneg z
  have hu := u_le hF
  have hu0 := hF.nonneg
  have hb := hF.bpow k
  rw [pow_succ]
  have h3 := h.2
  have h4 : u * (‖z‖ * r) ≤ (factor u - 1) * (‖z‖ * (μ * factor u ^ k)) := by
    apply mul_le_mul hu (mul_le_mul_of_nonneg_left h3 hz) (by positivity) (by linarith)
  have h5 := mul_le_mul_of_nonneg_left h2 hz
  nlinarith

/-- The probabilities of `measure_probabilities`. -/
theorem rel_measureProbabilities (hlt : ∀ q ∈ indices, q < n) (vec : List ℂ) (hl : vec.length = 2 ^ n) :
    ∃ ps qs, measureProbabilitiesF F indices n vec = .ok ps ∧ measureProbabilities indices n vec = .ok qs ∧
      ps.length = qs.length ∧ ∀ b, Rel (factor u ^ (2 ^ n + 1)) (ps.getD b 0) (qs.getD b 0) ∧ 0 ≤ qs.getD b 0 := by
  have hbad : ¬ ((∃ q ∈ indices, n ≤ q) ∨ vec.length < 2 ^ n) := by
    rintro (⟨q, hq, h⟩ | h)
    · have := hlt q hq
      omega
    · omega
  refine ⟨_, _, if_neg hbad, if_neg hbad, ?_⟩
  have key : ∀ (L : List Nat) (k : Nat) (ps qs : List ℝ), ps.length = qs.length →
      (∀ b, Rel (factor u ^ (k + 1)) (ps.getD b 0) (qs.getD b 0) ∧ 0 ≤ qs.getD b 0) →
      (L.foldl (fun p i => if vec.getD i 0 = 0 then p
        else p.set (probIndex n indices i) (F.add (p.getD (probIndex n indices i) 0) (F.absSq (vec.getD i 0)))) ps).length
        = (L.foldl (fun p i => if vec.getD i 0 = 0 then p
        else p.set (probIndex n indices i) (p.getD (probIndex n indices i) 0 + Complex.normSq (vec.getD i 0))) qs).length ∧
      ∀ b, Rel (factor u ^ (k + L.length + 1)) ((L.foldl (fun p i => if vec.getD i 0 = 0 then p
        else p.set (probIndex n indices i) (F.add (p.getD (probIndex n indices i) 0) (F.absSq (vec.getD i 0)))) ps).getD b 0)
        ((L.foldl (fun p i => if vec.getD i 0 = 0 then p
        else p.set (probIndex n indices i) (p.getD (probIndex n indices i) 0 + Complex.normSq (vec.getD i 0))) qs).getD b 0) ∧
        0 ≤ (L.foldl (fun p i => if vec.getD i 0 = 0 then p
        else p.set (probIndex n indices i) (p.getD (probIndex n indices i) 0 + Complex.normSq (vec.getD i 0))) qs).getD b 0 := by
    intro L
    induction L with
    | nil => intro k ps qs hlen h; exact ⟨hlen, h⟩
    | cons i L ih =>
      intro k ps qs hlen h
      rw [List.foldl_cons, List.foldl_cons]
      have e : k + (i :: L).length + 1 = (k + 1) + L.length + 1 := by simp only [List.length_cons]; omega
      rw [e]
      have hmono : ∀ b, Rel (factor u ^ (k + 1 + 1)) (ps.getD b 0) (qs.getD b 0) := fun b =>
        rel_mono (hF.bpow _) (pow_le_pow_right₀ hF.b1 (by omega)) (h b).2 (h b).1
      apply ih
      · split <;> simp [hlen]
      · intro b
        split
        · exact ⟨hmono b, (h b).2⟩
        · set j := probIndex n indices i
          rw [getD_set', getD_set']
          by_cases hjb : j = b
          · rw [if_pos hjb, if_pos hjb, hlen]
            by_cases hjl : j < qs.length
            · rw [if_pos hjl, if_pos hjl]
              have hq := (h j).2
              have hz := Complex.normSq_nonneg (vec.getD i 0)
              refine ⟨?_, by positivity⟩
              have r1 := rel_mono hF.b1 (le_self_pow₀ hF.b1 (by omega : k + 1 ≠ 0)) hz (rel_absSq hF (vec.getD i 0))
              have r2 := rel_add (h j).1 r1
              have r3 := rel_nonneg (hF.bpow _) (by positivity) r2
              have r4 := rel_trans hF.b1 (hF.bpow _) (rel_of_err hF.nonneg hF.lt_one r3 (hF.add _ _)) r2
              rwa [← pow_succ'] at r4
            · rw [if_neg hjl, if_neg hjl]
              exact ⟨rel_refl (hF.bpow _) le_rfl, le_rfl⟩
          · rw [if_neg hjb, if_neg hjb]
            exact ⟨hmono b, (h b).2⟩
  have := key (List.range (2 ^ n)) 0 (List.replicate (2 ^ indices.length) 0) (List.replicate (2 ^ indices.length) 0) rfl (by
    intro b
    have e : (List.replicate (2 ^ indices.length) (0 : ℝ)).getD b 0 = 0 := by
      rw [List.getD_eq_getElem?_getD, List.getElem?_replicate]
      split <;> rfl
    rw [e]
    exact ⟨rel_refl (hF.bpow _) le_rfl, le_rfl⟩)
  rw [List.length_range, Nat.zero_add] at this
  exact this

end QIP
