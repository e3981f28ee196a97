import Verif.Model.FDistMeasure
import Verif.Spec.FDistMeasure
import Verif.Lemmas.FMeasure
import Verif.Lemmas.MeasureNet
import Verif.Lemmas.DistBorn

/-!
# Measurements of the distributed backend in rounded arithmetic
-/

namespace QIP

open Spec Finset

variable {F : FOps} {u : ℝ} {n : Nat} {indices : List Nat} (hF : Accurate F u)
include hF

theorem rel_probMagnitude_slice (vec : List ℂ) {inOff : Nat} (hl : vec.length + inOff ≤ 2 ^ n) :
    Rel (factor u ^ (2 ^ n + 1)) (probMagnitudeF F 0 vec) (totalProb n (sliceAt inOff vec)) := by
  have h1 := rel_acc hF vec id
  have h2 := probMagnitude_eq 0 vec (n := n) (inOff := inOff) hl
  rw [zero_add] at h2
  have hn := totalProb_nonneg n (sliceAt inOff vec)
  refine rel_mono (hF.bpow _) (pow_le_pow_right₀ hF.b1 (by omega : vec.length + 1 ≤ 2 ^ n + 1)) hn ?_
  rw [← h2]
  unfold probMagnitude
  rw [foldl_add_eq (fun i => Complex.normSq (vec.getD i 0)), zero_add]
  have e : (List.range vec.length).map (fun i => Complex.normSq (vec.getD i 0)) = vec.map fun z => Complex.normSq (id z) := by
    apply List.ext_getElem (by simp)
    intro i h1 h2
    simp at h1
    simp [h1]
  rw [e]
  exact h1

theorem rel_softAcc_slice (h : IdxOK n indices) (vec : List ℂ) (inOff : Nat) {m : Nat} (hm : m < 2 ^ indices.length) :
    Rel (factor u ^ (2 ^ (n - indices.length) + 1)) (softAccF F n indices vec inOff m)
      (outcomeProb n indices (sliceAt inOff vec) m) := by
  have h2 := h.softAcc_eq vec inOff hm
  rw [← h2]
  have h0 : 0 ≤ softAcc n indices vec inOff m := by
    rw [h2]
    exact outcomeProb_nonneg _ _ _ _
  unfold softAccF
  set L := (List.range (2 ^ (n - indices.length))).filter _ with hL
  have h1 := rel_acc hF L fun i =>
    vec.getD (entwineBit indices.length (n - indices.length) m i (rowMask n indices) - inOff) 0
  have e : (L.map fun i => Complex.normSq
      (vec.getD (entwineBit indices.length (n - indices.length) m i (rowMask n indices) - inOff) 0)).sum
      = softAcc n indices vec inOff m := by
    unfold softAcc
    rw [hL]
    generalize List.range (2 ^ (n - indices.length)) = R
    have : ∀ (R : List Nat) (a : ℝ), a + ((R.filter fun i =>
        let vi := entwineBit indices.length (n - indices.length) m i (rowMask n indices)
        decide (inOff ≤ vi ∧ vi < vec.length + inOff)).map fun i => Complex.normSq
      (vec.getD (entwineBit indices.length (n - indices.length) m i (rowMask n indices) - inOff) 0)).sum
      = R.foldl (fun acc i =>
        let vi := entwineBit indices.length (n - indices.length) m i (rowMask n indices)
        if inOff ≤ vi ∧ vi < vec.length + inOff then acc + Complex.normSq (vec.getD (vi - inOff) 0) else acc) a := by
      intro R
      induction R with
      | nil => intro a; simp
      | cons i R ih =>
        intro a
        rw [List.foldl_cons, ← ih, List.filter_cons]
        by_cases hc : inOff ≤ entwineBit indices.length (n - indices.length) m i (rowMask n indices) ∧
          entwineBit indices.length (n - indices.length) m i (rowMask n indices) < vec.length + inOff
        · dsimp only
          rw [if_pos (by simpa using hc), if_pos hc, List.map_cons, List.sum_cons, add_assoc]
        · dsimp only
          rw [if_neg (by simpa using hc), if_neg hc]
    have := this R 0
    rw [zero_add] at this
    exact this
  rw [e] at h1
  refine rel_mono (hF.bpow _) (pow_le_pow_right₀ hF.b1 ?_) h0 h1
  have := List.length_filter_le (fun i =>
        let vi := entwineBit indices.length (n - indices.length) m i (rowMask n indices)
        decide (inOff ≤ vi ∧ vi < vec.length + inOff)) (List.range (2 ^ (n - indices.length)))
  rw [List.length_range] at this
  exact Nat.add_le_add_right this 1

/-- An unforced `soft_measure` of a part of the state. -/
theorem softMeasureF_slice (h : IdxOK n indices) (vec : List ℂ) {inOff : Nat} (hl : vec.length + inOff ≤ 2 ^ n) {x : ℝ} (hx0 : 0 ≤ x)
    (hx1 : x ≤ 1) :
    ∃ m, softMeasureF F indices n vec none inOff x 0 = .ok (m, softAccF F n indices vec inOff m) ∧ m < 2 ^ indices.length ∧
      (∀ j < m, cumProb n indices (sliceAt inOff vec) (j + 1)
        < x * totalProb n (sliceAt inOff vec) + drawErr u n * totalProb n (sliceAt inOff vec)) ∧
      (m + 1 = 2 ^ indices.length ∨ x * totalProb n (sliceAt inOff vec)
        ≤ cumProb n indices (sliceAt inOff vec) (m + 1) + drawErr u n * totalProb n (sliceAt inOff vec)) ∧
      (0 < x → 0 < totalProb n (sliceAt inOff vec) → outcomeProb n indices (sliceAt inOff vec) m = 0 →
        totalProb n (sliceAt inOff vec)
          < x * totalProb n (sliceAt inOff vec) + drawErr u n * totalProb n (sliceAt inOff vec)) := by
  set v : Nat → ℂ := sliceAt inOff vec with hv
  set P := totalProb n v with hPdef
  have hP : 0 ≤ P := totalProb_nonneg n v
  obtain ⟨l, hl'⟩ : ∃ l, 2 ^ indices.length = l + 1 := ⟨2 ^ indices.length - 1, by have := Nat.two_pow_pos indices.length; omega⟩
  have hlt : indices.length < 2 ^ n := lt_of_le_of_lt h.length_le Nat.lt_two_pow_self
  unfold softMeasureF
  rw [if_neg h.not_bad]
  simp only [if_pos hlt]
  set acc := softAccF F n indices vec inOff
  set r := F.mul x (probMagnitudeF F 0 vec)
  have hB0 := hF.bpow (2 ^ n + 2)
  have hB1 := hF.bpow (2 ^ (n - indices.length) + 1)
  have hxP : 0 ≤ x * P := mul_nonneg hx0 hP
  have hr : Rel (factor u ^ (2 ^ n + 2)) r (x * P) := by
    have hS := rel_probMagnitude_slice hF vec hl
    have hS0 := rel_nonneg (hF.bpow _) hP hS
    have h1 := rel_of_err hF.nonneg hF.lt_one (mul_nonneg hx0 hS0) (hF.mul x (probMagnitudeF F 0 vec))
    have h2 : Rel (factor u ^ (2 ^ n + 1)) (x * probMagnitudeF F 0 vec) (x * P) := by
      have := rel_mul (le_refl 1) (hF.bpow _) hx0 hP (rel_refl (le_refl 1) hx0) hS
      rwa [one_mul] at this
    have := rel_trans hF.b1 (hF.bpow _) h1 h2
    rwa [← pow_succ'] at this
  obtain ⟨m, h1, _, h3, h4, h5⟩ := softLoopF_spec (F := F) acc (runF F acc r) (fun _ => rfl) l 0
  have hm : m < 2 ^ indices.length := by omega
  rw [Nat.zero_add] at h3
  have hacc : ∀ j < 2 ^ indices.length, Rel (factor u ^ (2 ^ (n - indices.length) + 1)) (acc j) (outcomeProb n indices v j) :=
    fun j hj => rel_softAcc_slice hF h vec inOff hj
  have hpos : ∀ j < m, 0 < runF F acc r j - acc j := by
    intro j hj
    have := h4 j (by omega) hj
    rw [sub_nonpos_iff hF] at this
    linarith
  have hcP : ∀ k ≤ 2 ^ indices.length, cumProb n indices v k ≤ P := by
    intro k hk
    rw [hPdef, ← cumProb_top h]
    exact cumProb_mono _ _ _ hk
  have hdec : ∀ k ≤ m, |runF F acc r k - acc k - (x * P - cumProb n indices v (k + 1))| ≤ drawErr u n * P := by
    intro k hk
    have := decision_err hF hB0 hB1 hx0 hx1 hP hr (k := k) (fun j hj => hacc j (by omega)) (fun j _ => outcomeProb_nonneg n indices v j)
      fun j hj => hpos j (by omega)
    refine this.trans (drawErr_ge hF h.length_le (by omega) hP (hcP (k + 1) (by omega)))
  refine ⟨m, ?_, hm, ?_, ?_, ?_⟩
  · rw [hl', List.range_eq_range']
    exact congrArg _ h1
  · intro j hj
    have := (abs_le.1 (hdec j hj.le)).2
    linarith [hpos j hj]
  · rcases h5 with h5 | h5
    · right
      rw [sub_nonpos_iff hF] at h5
      have := (abs_le.1 (hdec m le_rfl)).1
      linarith
    · left; omega
  · intro hx hPpos hz
    have ham : acc m = 0 := rel_zero (by have := hacc m hm; rwa [hz] at this) hB1
    have hrm : 0 < runF F acc r m := by
      cases m with
      | zero => exact rel_pos hB0 (mul_pos hx hPpos) hr
      | succ j =>
        have := h4 j (by omega) (by omega)
        exact not_le.1 this
    have hd : 0 < runF F acc r m - acc m := by rw [ham]; linarith
    have hlast : m + 1 = 2 ^ indices.length := by
      rcases h5 with h5 | h5
      · rw [sub_nonpos_iff hF] at h5
        linarith
      · omega
    have := (abs_le.1 (hdec m le_rfl)).2
    rw [hlast, cumProb_top h] at this
    linarith

omit hF in
theorem softMeasureF_forced_slice (h : IdxOK n indices) (vec : List ℂ) (inOff m : Nat) (x g : ℝ) :
    softMeasureF F indices n vec (some m) inOff x g = .ok (m, softAccF F n indices vec inOff m) := by
  unfold softMeasureF
  rw [if_neg h.not_bad]
  simp [softLoopF]

omit hF in
/-- The worker that is selected, in terms of the values of `r`. -/
theorem selectWorkerF_spec (acc run : Nat → ℝ) (hrun : ∀ k, run (k + 1) = F.sub (run k) (acc k)) (l a : Nat) :
    (selectWorkerF F ((List.range' a l).map acc) (run a) = none ∧ ∀ j, a ≤ j → j < a + l → ¬ F.sub (run j) (acc j) ≤ 0) ∨
    ∃ s, selectWorkerF F ((List.range' a l).map acc) (run a) = some (s - a) ∧ a ≤ s ∧ s < a + l ∧
      (∀ j, a ≤ j → j < s → ¬ F.sub (run j) (acc j) ≤ 0) ∧ F.sub (run s) (acc s) ≤ 0 := by
  induction l generalizing a with
  | zero => exact Or.inl ⟨rfl, fun j h1 h2 => by omega⟩
  | succ l ih =>
    rw [List.range'_succ, List.map_cons]
    unfold selectWorkerF
    by_cases h : F.sub (run a) (acc a) ≤ 0
    · rw [if_pos h]
      exact Or.inr ⟨a, by simp, le_rfl, by omega, fun j h1 h2 => by omega, h⟩
    · rw [if_neg h, ← hrun]
      rcases ih (a + 1) with ⟨h1, h2⟩ | ⟨s, h1, h2, h3, h4, h5⟩
      · left
        refine ⟨by rw [h1]; rfl, fun j hj1 hj2 => ?_⟩
        by_cases e : j = a
        · rw [e]; exact h
        · exact h2 j (by omega) (by omega)
      · right
        refine ⟨s, ?_, by omega, by omega, ?_, h5⟩
        · rw [h1, Option.map_some, Option.some.injEq]; omega
        · intro j hj1 hj2
          by_cases e : j = a
          · rw [e]; exact h
          · exact h4 j (by omega) hj2

omit hF in
theorem measureF_slice (h : IdxOK n indices) (vec out : List ℂ) (off : Nat) (hl : vec.length + off ≤ 2 ^ n)
    (hlo : out.length = vec.length) {measured : Option Int} {measuredProb : Option ℝ} {x g : ℝ} {m : Nat} {p mult : ℝ}
    (hm : m < 2 ^ indices.length) (hc : chooseOutcomeF F indices n vec off measured measuredProb x g = .ok (m, p, mult)) :
    measureF F indices n vec out off off measured measuredProb x g
      = .ok (m, p, (List.range vec.length).map fun i =>
          if subIndex n (inOrder n indices) (i + off) = m then F.scale (vec.getD i 0) mult else 0) := by
  unfold measureF
  rw [hc]
  simp only [bind, Except.bind]
  rw [if_neg h.not_bad]
  have e : ∀ (o : List ℂ) (i : Nat), (if (i &&& rowMask n indices) ^^^
      entwineBit indices.length (n - indices.length) m 0 (rowMask n indices) ≠ 0 then o.set (i - off) 0
      else o.set (i - off) (F.scale (vec.getD (i - off) 0) mult))
      = o.set (i - off) (if (i &&& rowMask n indices) ^^^
      entwineBit indices.length (n - indices.length) m 0 (rowMask n indices) ≠ 0 then 0
      else F.scale (vec.getD (i - off) 0) mult) := by
    intro o i; split <;> rfl
  simp only [e]
  congr 3
  apply List.ext_getElem?
  intro j
  by_cases hj : j < vec.length
  · rw [foldl_set_range' (fun i => if (i &&& rowMask n indices) ^^^
        entwineBit indices.length (n - indices.length) m 0 (rowMask n indices) ≠ 0 then 0
        else F.scale (vec.getD (i - off) 0) mult) off _ _ (le_max_right _ _) _ _ (by omega), if_pos (by simp; omega),
      List.getElem?_map, List.getElem?_range hj, Option.map_some]
    congr 1
    rw [if_congr (and_mask_iff h hm (by omega)) rfl rfl, Nat.add_sub_cancel]
    by_cases heq : subIndex n (inOrder n indices) (j + off) = m
    · rw [if_neg (not_not.2 heq), if_pos heq]
    · rw [if_pos heq, if_neg heq]
  · rw [List.getElem?_eq_none, List.getElem?_eq_none (by simp; omega)]
    rw [length_foldl_set (fun i => i - off) _ _ _]
    omega

omit hF in
theorem chooseOutcomeF_both (F : FOps) (indices : List Nat) (n : Nat) (vec : List ℂ) (inOff : Nat) {m : Nat} (hm : m < 2 ^ indices.length)
    (p x g : ℝ) : chooseOutcomeF F indices n vec inOff (some (m : Int)) (some p) x g
      = if 0 < p ∧ p ≤ 1 then .ok (m, p, F.sqrt (F.div 1 p)) else .error .valueError := by
  have hk' : 0 ≤ (m : Int) ∧ (m : Int) < 2 ^ indices.length := ⟨Int.natCast_nonneg m, by
    have : ((m : Nat) : Int) < ((2 ^ indices.length : Nat) : Int) := by exact_mod_cast hm
    push_cast at this
    exact this⟩
  unfold chooseOutcomeF
  simp only [bind, Except.bind, pure, Except.pure]
  rw [if_neg (not_not.2 hk')]
  by_cases hp : 0 < p ∧ p ≤ 1
  · simp only [if_neg (not_not.2 hp), if_pos hp, if_neg hp.1.ne', Int.toNat_natCast]
  · simp only [if_pos hp, if_neg hp]


omit hF in
theorem mapM_ok' {α β : Type} (L : List α) {f : α → Except PyErr β} {g : α → β} (h : ∀ a ∈ L, f a = .ok (g a)) :
    L.mapM f = .ok (L.map g) := by
  induction L with
  | nil => rfl
  | cons a L ih =>
    rw [List.mapM_cons, h a (by simp), ih fun b hb => h b (by simp [hb])]
    rfl

theorem selectErr_ge {k : Nat} (hk : k ≤ 2 ^ n) {T c : ℝ} (hc : c ≤ T) (hc0 : 0 ≤ c) :
    (1 * factor u ^ k - 1) * 1 + (factor u ^ (2 ^ n + 1) - 1) * c ≤ selectErr u n T := by
  have e1 := pow_le_pow_right₀ hF.b1 (by omega : k ≤ 2 ^ n + 1)
  have e2 := hF.bpow (2 ^ n + 1)
  unfold selectErr
  nlinarith

theorem rel_sum {ι : Type} (L : List ι) {a p : ι → ℝ} {k : Nat} (h : ∀ i ∈ L, Rel (factor u ^ k) (a i) (p i)) :
    Rel (factor u ^ k) (L.map a).sum (L.map p).sum := by
  induction L with
  | nil => simpa using rel_refl (hF.bpow k) le_rfl
  | cons i L ih =>
    rw [List.map_cons, List.map_cons, List.sum_cons, List.sum_cons]
    exact rel_add (h i (by simp)) (ih fun j hj => h j (by simp [hj]))

/-- The probability that is reported for the outcome `m` if worker `s` is selected. -/
noncomputable def reportedF (F : FOps) (indices : List Nat) (n K N : Nat) (v : List ℂ) (s m : Nat) : ℝ :=
  F.add (softAccF F n indices (shareOf N v s) (s * N) m)
    (F.acc 0 (((List.range K).eraseIdx s).map fun i => softAccF F n indices (shareOf N v i) (i * N) m))

open Props in
theorem rel_reportedF (h : IdxOK n indices) {K N : Nat} {v : List ℂ} (hvK : v.length = K * N) {s m : Nat} (h3 : s < K)
    (s2 : m < 2 ^ indices.length) :
    Rel (factor u ^ (2 ^ (n - indices.length) + 1 + K)) (reportedF F indices n K N v s m) (outcomeProb n indices (fun c => v.getD c 0) m) := by
  have hB := hF.bpow (2 ^ (n - indices.length) + 1)
  have hi : ∀ i, Rel (factor u ^ (2 ^ (n - indices.length) + 1)) (softAccF F n indices (shareOf N v i) (i * N) m)
      (outcomeProb n indices (sl N v i) m) := fun i => rel_softAcc_slice hF h (shareOf N v i) (i * N) s2
  have hnn : ∀ i, 0 ≤ softAccF F n indices (shareOf N v i) (i * N) m := fun i =>
    rel_nonneg hB (outcomeProb_nonneg _ _ _ _) (hi i)
  set L := (List.range K).eraseIdx s with hL
  have hLl : L.length = K - 1 := by rw [hL, List.length_eraseIdx_of_lt (by simpa using h3), List.length_range]
  unfold reportedF
  rw [← hL]
  have ha := hF.acc 0 (L.map fun i => softAccF F n indices (shareOf N v i) (i * N) m) le_rfl (by
    intro x hx
    obtain ⟨i, -, rfl⟩ := List.mem_map.1 hx
    exact hnn i)
  rw [zero_add, List.length_map, hLl] at ha
  have hsum := rel_sum hF L fun i _ => hi i
  have hrest := rel_trans (hF.bpow _) hB ha hsum
  rw [← pow_add] at hrest
  have hown := rel_mono hB (pow_le_pow_right₀ hF.b1 (by omega : 2 ^ (n - indices.length) + 1
    ≤ K - 1 + (2 ^ (n - indices.length) + 1))) (outcomeProb_nonneg _ _ _ _) (hi s)
  have hadd := rel_add hown hrest
  have etot : outcomeProb n indices (sl N v s) m + (L.map fun i => outcomeProb n indices (sl N v i) m).sum
      = outcomeProb n indices (fun c => v.getD c 0) m := by
    have := getD_add_eraseIdx (List.range K) (fun i => outcomeProb n indices (sl N v i) m) s (by simpa using h3) 0
    rw [List.getD_eq_getElem _ _ (by simpa using h3), List.getElem_range] at this
    rw [hL, this]
    exact sum_parts_outcome indices m hvK
  rw [etot] at hadd
  have hx0 := rel_nonneg (hF.bpow _) (outcomeProb_nonneg _ _ _ _) hadd
  have hlast := rel_trans hF.b1 (hF.bpow _) (rel_of_err hF.nonneg hF.lt_one hx0 (hF.add _ _)) hadd
  rw [← pow_succ'] at hlast
  rwa [show K - 1 + (2 ^ (n - indices.length) + 1) + 1 = 2 ^ (n - indices.length) + 1 + K by omega] at hlast

open Props in
/-- How the outcome of a measurement on several workers is chosen. -/
theorem distChooseF_spec (h : IdxOK n indices) {K N : Nat} {v : List ℂ} (hKN : K * N = 2 ^ n) (hv : v.length = 2 ^ n) {r : ℝ}
    (hr0 : 0 ≤ r) (hr1 : r ≤ 1) {draw : Nat → ℝ} (hd : ∀ i, 0 ≤ draw i ∧ draw i ≤ 1) :
    (distChooseF F indices n K N v r draw = .error .attributeError ∧
      totalProb n (fun c => v.getD c 0) < r + selectErr u n (totalProb n fun c => v.getD c 0)) ∨
    ∃ s < K, ∃ m < 2 ^ indices.length, ∃ p, distChooseF F indices n K N v r draw = .ok (m, p) ∧
      (∀ j < s, before n N v (j + 1) < r + selectErr u n (totalProb n fun c => v.getD c 0)) ∧
      r ≤ before n N v (s + 1) + selectErr u n (totalProb n fun c => v.getD c 0) ∧
      (0 < r → 0 < totalProb n (sl N v s)) ∧
      (∀ j < m, cumProb n indices (sl N v s) (j + 1)
        < draw s * totalProb n (sl N v s) + drawErr u n * totalProb n (sl N v s)) ∧
      (m + 1 = 2 ^ indices.length ∨ draw s * totalProb n (sl N v s)
        ≤ cumProb n indices (sl N v s) (m + 1) + drawErr u n * totalProb n (sl N v s)) ∧
      (0 < draw s → 0 < totalProb n (sl N v s) → outcomeProb n indices (sl N v s) m = 0 →
        totalProb n (sl N v s) < draw s * totalProb n (sl N v s) + drawErr u n * totalProb n (sl N v s)) ∧
      Rel (factor u ^ (2 ^ (n - indices.length) + 1 + K)) p (outcomeProb n indices (fun c => v.getD c 0) m) ∧
      p = reportedF F indices n K N v s m := by
  have hvK : v.length = K * N := by omega
  set T := totalProb n (fun c => v.getD c 0) with hT
  set acc : Nat → ℝ := fun i => probMagnitudeF F 0 (shareOf N v i) with hacc
  have hKle : K ≤ 2 ^ n := by
    rcases Nat.eq_zero_or_pos N with rfl | hN
    · have := Nat.two_pow_pos n
      omega
    · nlinarith
  have hfit : ∀ i < K, (shareOf N v i).length + i * N ≤ 2 ^ n := fun i hi => part_fits hKN hv hi
  have hrel : ∀ i < K, Rel (factor u ^ (2 ^ n + 1)) (acc i) (totalProb n (sl N v i)) :=
    fun i hi => rel_probMagnitude_slice hF (shareOf N v i) (hfit i hi)
  have hbef : ∀ k, ∑ j ∈ range k, totalProb n (sl N v j) = before n N v k := fun k => by
    rw [before, sum_map_range]
  have hbT : before n N v K = T := sum_parts_total hvK
  have hb0 : ∀ k, 0 ≤ before n N v k := fun k => by
    have := before_mono n N v (Nat.zero_le k)
    simpa [before] using this
  have hdec : ∀ k < K, (∀ j < k, 0 < runF F acc r j - acc j) →
      |runF F acc r k - acc k - (r - before n N v (k + 1))| ≤ selectErr u n T := by
    intro k hk hpos
    have := decision_err hF (le_refl 1) (hF.bpow (2 ^ n + 1)) hr0 hr1 zero_le_one (by rw [mul_one]; exact rel_refl le_rfl hr0)
      (k := k) (fun j hj => hrel j (by omega)) (fun j _ => totalProb_nonneg n (sl N v j)) hpos
    rw [mul_one r, hbef] at this
    refine this.trans (selectErr_ge hF (by omega) ?_ (hb0 _))
    rw [← hbT]
    exact before_mono n N v hk
  have hposiff : ∀ j, ¬ F.sub (runF F acc r j) (acc j) ≤ 0 → 0 < runF F acc r j - acc j := by
    intro j hj
    rw [sub_nonpos_iff hF] at hj
    linarith
  have hsel := selectWorkerF_spec (F := F) acc (runF F acc r) (fun _ => rfl) K 0
  rw [← List.range_eq_range', Nat.zero_add] at hsel
  change (selectWorkerF F _ r = none ∧ _) ∨ ∃ s, selectWorkerF F _ r = _ ∧ _ at hsel
  unfold distChooseF
  rcases hsel with ⟨h1, h2⟩ | ⟨s, h1, -, h3, h4, h5⟩
  · left
    rw [h1]
    refine ⟨rfl, ?_⟩
    have hKpos : 0 < K := by
      rcases Nat.eq_zero_or_pos K with rfl | hK
      · have := Nat.two_pow_pos n
        omega
      · exact hK
    have hlast := hdec (K - 1) (by omega) fun j hj => hposiff j (h2 j (by omega) (by omega))
    have hp := hposiff (K - 1) (h2 (K - 1) (by omega) (by omega))
    rw [show K - 1 + 1 = K by omega, hbT] at hlast
    linarith [(abs_le.1 hlast).2]
  · right
    rw [h1, Nat.sub_zero]
    obtain ⟨m, s1, s2, s3, s4, s5⟩ := softMeasureF_slice hF h (shareOf N v s) (hfit s h3) (hd s).1 (hd s).2
    have ho : ((List.range K).eraseIdx s).mapM (fun i =>
        softMeasureF F indices n (shareOf N v i) (some m) (i * N) (draw i) 0)
        = .ok (((List.range K).eraseIdx s).map fun i => (m, softAccF F n indices (shareOf N v i) (i * N) m)) :=
      mapM_ok' _ fun i _ => softMeasureF_forced_slice h _ _ _ _ _
    refine ⟨s, h3, m, s2, reportedF F indices n K N v s m, by
      simp only [bind, Except.bind, s1, ho, pure, Except.pure, List.map_map]; rfl, ?_, ?_, ?_, s3, s4, s5, ?_, rfl⟩
    · intro j hj
      have := (abs_le.1 (hdec j (by omega) fun i hi => hposiff i (h4 i (by omega) (by omega)))).2
      linarith [hposiff j (h4 j (by omega) hj)]
    · have := (abs_le.1 (hdec s h3 fun i hi => hposiff i (h4 i (by omega) hi))).1
      rw [sub_nonpos_iff hF] at h5
      linarith
    · intro hr
      rcases (totalProb_nonneg n (sl N v s)).lt_or_eq with e | e
      · exact e
      · exfalso
        have ha : acc s = 0 := rel_zero (by have := hrel s h3; rwa [← e] at this) (hF.bpow _)
        rw [sub_nonpos_iff hF, ha, sub_zero] at h5
        cases s with
        | zero => exact absurd hr (not_lt.2 h5)
        | succ j => exact h4 j (by omega) (by omega) h5
    · exact rel_reportedF hF h hvK h3 s2

omit hF in
/-- The collapse on several workers once the outcome and its probability are known. -/
theorem distMeasureF_eq (h : IdxOK n indices) {K N : Nat} {v : List ℂ} (hKN : K * N = 2 ^ n) (hv : v.length = 2 ^ n)
    {arena : Nat → List ℂ} (ha : ∀ i < K, (arena i).length = N) {r : ℝ} {draw : Nat → ℝ} {m : Nat} (hm : m < 2 ^ indices.length) {p : ℝ}
    (hc : distChooseF F indices n K N v r draw = .ok (m, p)) :
    distMeasureF F indices n K N v arena r draw
      = if 0 < p ∧ p ≤ 1 then .ok (m, p, (List.range (2 ^ n)).map fun i =>
          if subIndex n (inOrder n indices) i = m then F.scale (v.getD i 0) (F.sqrt (F.div 1 p)) else 0)
        else .error .valueError := by
  have hvK : v.length = K * N := by omega
  have hlen : ∀ i < K, (shareOf N v i).length = N := fun i hi => part_length hvK hi
  unfold distMeasureF
  rw [hc]
  simp only [bind, Except.bind]
  by_cases hp : 0 < p ∧ p ≤ 1
  · rw [if_pos hp]
    have hmap : (List.range K).mapM (fun i =>
        measureF F indices n (shareOf N v i) (arena i) (i * N) (i * N) (some (m : Int)) (some p) (draw i) 0)
        = .ok ((List.range K).map fun i => (m, p, (List.range N).map fun o =>
          if subIndex n (inOrder n indices) (o + i * N) = m then F.scale ((shareOf N v i).getD o 0) (F.sqrt (F.div 1 p)) else 0)) := by
      refine mapM_ok' _ fun i hi => ?_
      have hi := List.mem_range.1 hi
      have := measureF_slice h (shareOf N v i) (arena i) (i * N) (part_fits hKN hv hi) (by rw [ha i hi, hlen i hi]) hm
        (x := draw i) (g := 0) (by rw [chooseOutcomeF_both F indices n _ _ hm, if_pos hp])
      rw [hlen i hi] at this
      exact this
    rw [hmap]
    simp only [pure, Except.pure, Except.ok.injEq, Prod.mk.injEq, true_and, List.map_map]
    have e : ∀ k ≤ K, ((List.range k).map ((fun x : Nat × ℝ × List ℂ => x.2.2) ∘ fun i => (m, p, (List.range N).map fun o =>
        if subIndex n (inOrder n indices) (o + i * N) = m then F.scale ((shareOf N v i).getD o 0) (F.sqrt (F.div 1 p)) else 0))).flatten
        = (List.range (k * N)).map fun i =>
          if subIndex n (inOrder n indices) i = m then F.scale (v.getD i 0) (F.sqrt (F.div 1 p)) else 0 := by
      intro k hk
      induction k with
      | zero => simp
      | succ k ih =>
        rw [List.range_succ, List.map_append, List.flatten_append, ih (by omega), Nat.succ_mul, List.range_add, List.map_append]
        congr 1
        simp only [List.map_cons, List.map_nil, List.flatten_cons, List.flatten_nil, List.append_nil, Function.comp_apply, List.map_map]
        apply List.map_congr_left
        intro o ho
        have ho := List.mem_range.1 ho
        have eg : (shareOf N v k).getD o 0 = v.getD (k * N + o) 0 := part_getD ho 0
        simp only [Function.comp_apply, eg, Nat.add_comm o]
    rw [e K le_rfl, hKN]
  · rw [if_neg hp]
    have hKpos : 0 < K := by
      rcases Nat.eq_zero_or_pos K with rfl | hK
      · have := Nat.two_pow_pos n
        omega
      · exact hK
    obtain ⟨k, rfl⟩ : ∃ k, K = k + 1 := ⟨K - 1, by omega⟩
    rw [List.range_succ_eq_map, List.mapM_cons]
    have : measureF F indices n (shareOf N v 0) (arena 0) (0 * N) (0 * N) (some (m : Int)) (some p) (draw 0) 0 = .error .valueError := by
      unfold measureF
      rw [chooseOutcomeF_both F indices n _ _ hm, if_neg hp]
      rfl
    rw [this]
    rfl

end QIP
