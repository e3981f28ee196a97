import Verif.Lemmas.FDistMeasure
import Verif.Lemmas.FRanged

/-!
# Measurements of the distributed backend in rounded arithmetic with underflow and overflow
-/

namespace QIP

open Spec Finset

variable {F : FOps} {u eta big : ℝ} {n K N : Nat} {indices : List Nat} {v : List ℂ} (hF : Ranged F u eta big)

/-- What has to be below the largest number, on `K` workers. -/
def RoomD (u eta big : ℝ) (n K : Nat) (T : ℝ) : Prop := (1 + T + K * 2 ^ (n + 2) * eta) * factor u ^ (2 ^ (n + 1) + 2) ≤ big

include hF

theorem roomD_le {T x y : ℝ} {k : Nat} (h : RoomD u eta big n K T) (hx : 0 ≤ x) (hy : 0 ≤ y) (hxT : x ≤ 1 + T)
    (hy' : y ≤ K * 2 ^ (n + 2) * eta) (hk : k ≤ 2 ^ (n + 1) + 2) : (x + y) * factor u ^ k ≤ big := by
  refine le_trans ?_ h
  have h1 := hF.bpow k
  exact mul_le_mul (by linarith) (pow_le_pow_right₀ hF.b1 hk) (by linarith) (by linarith)

theorem roomD_R {T x : ℝ} (h : RoomD u eta big n K T) (hK : 0 < K) (hx : 0 ≤ x) (hxT : x ≤ 1 + T) : RoomR u eta big n x := by
  have he := hF.eta_nonneg
  refine roomD_le hF h hx (by positivity) hxT ?_ le_rfl
  have hK1 : (1 : ℝ) ≤ K := by exact_mod_cast hK
  have : (0 : ℝ) ≤ 2 ^ (n + 2) * eta := by positivity
  nlinarith

theorem distTiny_nonneg : 0 ≤ distTiny u eta n K := by
  have he := hF.eta_nonneg
  have hb := hF.bpow (2 ^ (n + 1) + 2)
  unfold distTiny drawTiny
  positivity

theorem drawTiny_le (hK : 0 < K) : drawTiny u eta n ≤ distTiny u eta n K := by
  have he := hF.eta_nonneg
  have hb := hF.bpow (2 ^ (n + 1) + 2)
  have h0 : 0 ≤ drawTiny u eta n := by unfold drawTiny; positivity
  have hK1 : (1 : ℝ) ≤ K := by exact_mod_cast hK
  unfold distTiny
  nlinarith

theorem selectTiny_ge {k : Nat} (hK : K ≤ 2 ^ n) (hk : k < K) {T c : ℝ} (hc : c ≤ T) (hc0 : 0 ≤ c) :
    1 * factor u ^ k * (1 + 0 + k * eta) - 1 + ((factor u ^ (2 ^ n + 1) - 1) * c
      + (k + 1 : Nat) * (factor u ^ (2 ^ n + 1) * (2 * 2 ^ n * eta))) + factor u * eta ≤ selectErr u n T + distTiny u eta n K := by
  have hb := hF.b1
  have he := hF.eta_nonneg
  have h2 : 2 ^ (n + 1) = 2 * 2 ^ n := by ring
  have hn0 := Nat.two_pow_pos n
  have e1 := pow_le_pow_right₀ hb (by omega : k ≤ 2 ^ n + 1)
  have e2 := pow_le_pow_right₀ hb (by omega : 2 ^ n + 1 ≤ 2 ^ (n + 1) + 2)
  have e3 := pow_le_pow_right₀ hb (by omega : 1 ≤ 2 ^ (n + 1) + 2)
  rw [pow_one] at e3
  have e4 := hF.bpow k
  have e5 := hF.bpow (2 ^ n + 1)
  unfold selectErr distTiny drawTiny
  set X := factor u ^ (2 ^ (n + 1) + 2)
  set Y := factor u ^ (2 ^ n + 1)
  set Z := factor u ^ k
  have hkK : ((k + 1 : Nat) : ℝ) ≤ K := by exact_mod_cast hk
  have hk' : (k : ℝ) ≤ K := by exact_mod_cast hk.le
  have hK1 : (1 : ℝ) ≤ K := by exact_mod_cast (by omega : 1 ≤ K)
  have hN1 : (1 : ℝ) ≤ 2 ^ n := by exact_mod_cast hn0
  set M : ℝ := 2 ^ n
  have t1 : Z * (k * eta) ≤ X * (K * eta) := mul_le_mul (e1.trans e2) (mul_le_mul_of_nonneg_right hk' he) (by positivity) (by linarith)
  have t2 : ((k + 1 : Nat) : ℝ) * (Y * (2 * M * eta)) ≤ K * (X * (2 * M * eta)) :=
    mul_le_mul hkK (mul_le_mul_of_nonneg_right e2 (by positivity)) (by positivity) (by positivity)
  have t3 : factor u * eta ≤ X * (K * eta) := mul_le_mul e3 (by nlinarith) he (by linarith)
  have t4 : (Y - 1) * c ≤ (Y - 1) * T := mul_le_mul_of_nonneg_left hc (by linarith)
  have t5 : X * (K * eta) ≤ K * (X * (M * eta)) := by
    have h0 : 0 ≤ X * (K * eta) := by
      have : 0 ≤ X := by linarith
      positivity
    calc X * (K * eta) = X * (K * eta) * 1 := (mul_one _).symm
      _ ≤ X * (K * eta) * M := mul_le_mul_of_nonneg_left hN1 h0
      _ = K * (X * (M * eta)) := by ring
  have h0 : 0 ≤ K * (X * (M * eta)) := by
    have : 0 ≤ X := by linarith
    positivity
  have e6 : (K : ℝ) * (8 * M * eta * X) = 8 * (K * (X * (M * eta))) := by ring
  have e7 : (K : ℝ) * (X * (2 * M * eta)) = 2 * (K * (X * (M * eta))) := by ring
  have e8 : 1 * Z * (1 + 0 + k * eta) = Z + Z * (k * eta) := by ring
  rw [e6, e8]
  rw [e7] at t2
  linarith

open Props in
/-- The reported probability. -/
theorem within_reportedF (h : IdxOK n indices) (hvK : v.length = K * N) (hroom : RoomD u eta big n K (totalProb n fun c => v.getD c 0))
    (hK : K ≤ 2 ^ n) {s m : Nat} (h3 : s < K) (s2 : m < 2 ^ indices.length) :
    Within (factor u ^ (2 ^ (n - indices.length) + 1 + K)) (K * (2 * 2 ^ (n - indices.length) * eta) + K * eta)
      (reportedF F indices n K N v s m) (outcomeProb n indices (fun c => v.getD c 0) m) ∧ 0 ≤ reportedF F indices n K N v s m := by
  have hB := hF.bpow (2 ^ (n - indices.length) + 1)
  have he := hF.eta_nonneg
  have hT0 : ∀ i, 0 ≤ totalProb n (sl N v i) := fun i => totalProb_nonneg n _
  have hTi : ∀ i < K, totalProb n (sl N v i) ≤ totalProb n fun c => v.getD c 0 := by
    intro i hi
    have h1 := before_mono n N v (show i + 1 ≤ K from hi)
    have h2 : before n N v K = totalProb n fun c => v.getD c 0 := sum_parts_total hvK
    have h4 := before_mono n N v (Nat.zero_le i)
    rw [before_succ] at h1
    have h5 : before n N v 0 = 0 := by simp [before]
    linarith
  have hi : ∀ i < K, Within (factor u ^ (2 ^ (n - indices.length) + 1)) (2 * 2 ^ (n - indices.length) * eta)
      (softAccF F n indices (shareOf N v i) (i * N) m) (outcomeProb n indices (sl N v i) m) ∧
      0 ≤ softAccF F n indices (shareOf N v i) (i * N) m := fun i hi =>
    within_softAcc_slice hF h (shareOf N v i) (i * N) s2 (roomD_R hF hroom (by omega) (hT0 i) (by have := hTi i hi; change totalProb n (sl N v i) ≤ _; linarith))
  set L := (List.range K).eraseIdx s with hL
  have hLK : ∀ i ∈ L, i < K := fun i hi' => List.mem_range.1 (List.mem_of_mem_eraseIdx hi')
  have hLl : L.length = K - 1 := by rw [hL, List.length_eraseIdx_of_lt (by simpa using h3), List.length_range]
  have etot : outcomeProb n indices (sl N v s) m + (L.map fun i => outcomeProb n indices (sl N v i) m).sum
      = outcomeProb n indices (fun c => v.getD c 0) m := by
    have := getD_add_eraseIdx (List.range K) (fun i => outcomeProb n indices (sl N v i) m) s (by simpa using h3) 0
    rw [List.getD_eq_getElem _ _ (by simpa using h3), List.getElem_range] at this
    rw [hL, this]
    exact sum_parts_outcome indices m hvK
  have hsum : ∀ L' : List Nat, (∀ i ∈ L', i < K) → Within (factor u ^ (2 ^ (n - indices.length) + 1))
      (L'.length * (2 * 2 ^ (n - indices.length) * eta)) (L'.map fun i => softAccF F n indices (shareOf N v i) (i * N) m).sum
      (L'.map fun i => outcomeProb n indices (sl N v i) m).sum := by
    intro L' hL'
    induction L' with
    | nil => simp [Within]
    | cons i L' ih =>
      rw [List.map_cons, List.map_cons, List.sum_cons, List.sum_cons]
      have := within_add (hi i (hL' i (by simp))).1 (ih fun j hj => hL' j (by simp [hj]))
      have e : ((i :: L').length : ℝ) * (2 * 2 ^ (n - indices.length) * eta)
          = 2 * 2 ^ (n - indices.length) * eta + L'.length * (2 * 2 ^ (n - indices.length) * eta) := by
        rw [List.length_cons]
        push_cast
        ring
      rw [e]
      exact this
  have hS := hsum L hLK
  set q := outcomeProb n indices (fun c => v.getD c 0) m with hq
  set qs := outcomeProb n indices (sl N v s) m with hqs
  have hqs0 : 0 ≤ qs := outcomeProb_nonneg _ _ _ _
  set Q := (L.map fun i => outcomeProb n indices (sl N v i) m).sum with hQ
  have hQ0 : 0 ≤ Q := List.sum_nonneg (by
    intro x hx
    obtain ⟨i, -, rfl⟩ := List.mem_map.1 hx
    exact outcomeProb_nonneg _ _ _ _)
  set S := (L.map fun i => softAccF F n indices (shareOf N v i) (i * N) m).sum with hSdef
  have hnn : ∀ x ∈ L.map fun i => softAccF F n indices (shareOf N v i) (i * N) m, 0 ≤ x := by
    intro x hx
    obtain ⟨i, hi', rfl⟩ := List.mem_map.1 hx
    exact (hi i (hLK i hi')).2
  have hS0 : 0 ≤ S := List.sum_nonneg hnn
  have hqT : q ≤ totalProb n fun c => v.getD c 0 := by
    rw [hq]
    unfold outcomeProb totalProb
    exact Finset.sum_le_sum_of_subset_of_nonneg (Finset.filter_subset _ _) fun _ _ _ => Complex.normSq_nonneg _
  have hTn := totalProb_nonneg n fun c => v.getD c 0
  -- the numbers
  have hA : 2 ^ (n - indices.length) ≤ 2 ^ n := Nat.pow_le_pow_right (by norm_num) (by omega)
  have hA' : (2 : ℝ) ^ (n - indices.length) ≤ 2 ^ n := by exact_mod_cast hA
  have h2n : 2 ^ (n + 1) = 2 * 2 ^ n := by ring
  have h4n : (2 : ℝ) ^ (n + 2) = 4 * 2 ^ n := by ring
  have hK1 : (1 : ℝ) ≤ K := by exact_mod_cast (by omega : 1 ≤ K)
  have hLr : (L.length : ℝ) = K - 1 := by rw [hLl, Nat.cast_sub (by omega), Nat.cast_one]
  have hN1 : (1 : ℝ) ≤ 2 ^ n := by exact_mod_cast Nat.two_pow_pos n
  set A : ℝ := 2 ^ (n - indices.length) with hAdef
  set M : ℝ := 2 ^ n with hM
  have hA0 : 0 ≤ A := by positivity
  have hAe : A * eta ≤ M * eta := mul_le_mul_of_nonneg_right hA' he
  have hMe : eta ≤ M * eta := by nlinarith
  have hKA : K * (2 * A * eta) + K * eta ≤ K * 2 ^ (n + 2) * eta := by
    rw [h4n]
    have h1 : (K : ℝ) * (A * eta) ≤ K * (M * eta) := mul_le_mul_of_nonneg_left hAe (by linarith)
    have h2 : (K : ℝ) * eta ≤ K * (M * eta) := mul_le_mul_of_nonneg_left hMe (by linarith)
    have h0 : 0 ≤ K * (M * eta) := by positivity
    linarith
  have hp1 := hF.bpow L.length
  have hae : 0 ≤ A * eta := mul_nonneg hA0 he
  -- the others
  have ha := hF.acc 0 (L.map fun i => softAccF F n indices (shareOf N v i) (i * N) m) le_rfl hnn (by
    rw [zero_add, List.length_map]
    change (S + L.length * eta) * _ ≤ big
    have h1 := hS.2
    have h2 : S + L.length * eta ≤ (Q + (L.length * (2 * A * eta) + L.length * eta)) * factor u ^ (2 ^ (n - indices.length) + 1) := by
      have : 0 ≤ L.length * eta := by positivity
      nlinarith
    refine (mul_le_mul_of_nonneg_right h2 (by linarith)).trans ?_
    rw [mul_assoc, ← pow_add]
    refine roomD_le hF hroom hQ0 (by positivity) (by linarith) (le_trans ?_ hKA) (by omega)
    rw [hLr]
    nlinarith)
  rw [zero_add, List.length_map] at ha
  have hrest := within_trans hp1 hB (by positivity) (by positivity) ha hS
  rw [← pow_add] at hrest
  have hacc0 := hF.acc_nonneg 0 _ le_rfl hnn
  set R := F.acc 0 (L.map fun i => softAccF F n indices (shareOf N v i) (i * N) m) with hR
  obtain ⟨hown, hown0⟩ := hi s h3
  set o := softAccF F n indices (shareOf N v s) (s * N) m with ho
  have hown' := within_mono (by linarith) (pow_le_pow_right₀ hF.b1 (by omega : 2 ^ (n - indices.length) + 1
    ≤ L.length + (2 ^ (n - indices.length) + 1))) (by positivity) le_rfl hown0 hqs0 hown
  have hadd := within_add hown' hrest
  rw [etot] at hadd
  have e1 : 2 * A * eta + (L.length * eta + L.length * (2 * A * eta)) = K * (2 * A * eta) + (K - 1) * eta := by rw [hLr]; ring
  rw [e1] at hadd
  have he1 : 0 ≤ K * (2 * A * eta) + (K - 1) * eta := add_nonneg (by positivity) (mul_nonneg (by linarith) he)
  have hle1 : K * (2 * A * eta) + (K - 1) * eta ≤ K * 2 ^ (n + 2) * eta := by linarith
  have hq0 : 0 ≤ q := by rw [← etot]; linarith
  have hbigadd : |o + R| ≤ big := by
    rw [abs_of_nonneg (by linarith)]
    exact hadd.2.trans (roomD_le hF hroom hq0 he1 (by linarith) hle1 (by omega))
  have hlast := within_trans hF.b1 (hF.bpow _) he he1 (within_of_err hF.nonneg hF.lt_one (by linarith) (hF.add o R hbigadd)) hadd
  rw [← pow_succ'] at hlast
  have e2 : eta + (K * (2 * A * eta) + (K - 1) * eta) = K * (2 * A * eta) + K * eta := by ring
  rw [e2, show L.length + (2 ^ (n - indices.length) + 1) + 1 = 2 ^ (n - indices.length) + 1 + K by omega] at hlast
  exact ⟨hlast, hF.add_nonneg _ _ hown0 hacc0⟩

/-- The absolute error of the reported probability. -/
theorem reported_tiny (hK : K ≤ 2 ^ n) :
    (K * (2 * 2 ^ (n - indices.length) * eta) + K * eta) * factor u ^ (2 ^ (n - indices.length) + 1 + K) ≤ distTiny u eta n K := by
  have he := hF.eta_nonneg
  have hA : 2 ^ (n - indices.length) ≤ 2 ^ n := Nat.pow_le_pow_right (by norm_num) (by omega)
  have hA' : (2 : ℝ) ^ (n - indices.length) ≤ 2 ^ n := by exact_mod_cast hA
  have h2n : 2 ^ (n + 1) = 2 * 2 ^ n := by ring
  have e1 := pow_le_pow_right₀ hF.b1 (by omega : 2 ^ (n - indices.length) + 1 + K ≤ 2 ^ (n + 1) + 2)
  have e2 := hF.bpow (2 ^ (n - indices.length) + 1 + K)
  have hN1 : (1 : ℝ) ≤ 2 ^ n := by exact_mod_cast Nat.two_pow_pos n
  unfold distTiny drawTiny
  rw [show (K : ℝ) * (8 * 2 ^ n * eta * factor u ^ (2 ^ (n + 1) + 2)) = K * (8 * 2 ^ n * eta) * factor u ^ (2 ^ (n + 1) + 2) by ring]
  apply mul_le_mul _ e1 (by linarith) (by positivity)
  have h1 : (2 : ℝ) ^ (n - indices.length) * eta ≤ 2 ^ n * eta := mul_le_mul_of_nonneg_right hA' he
  have h2 : eta ≤ 2 ^ n * eta := by nlinarith
  have h3 : (K : ℝ) * (2 * 2 ^ (n - indices.length) * eta) + K * eta = K * (2 * (2 ^ (n - indices.length) * eta) + eta) := by ring
  rw [h3]
  apply mul_le_mul_of_nonneg_left _ (by positivity)
  linarith

open Props in
/-- How the outcome of a measurement on several workers is chosen. -/
theorem distChooseF_near (h : IdxOK n indices) (hKN : K * N = 2 ^ n) (hv : v.length = 2 ^ n)
    (hroom : RoomD u eta big n K (totalProb n fun c => v.getD c 0)) {r : ℝ}
    (hr0 : 0 ≤ r) (hr1 : r ≤ 1) {draw : Nat → ℝ} (hd : ∀ i, 0 ≤ draw i ∧ draw i ≤ 1) :
    (distChooseF F indices n K N v r draw = .error .attributeError ∧
      totalProb n (fun c => v.getD c 0) ≤ r + (selectErr u n (totalProb n fun c => v.getD c 0) + distTiny u eta n K)) ∨
    ∃ s < K, ∃ m < 2 ^ indices.length, distChooseF F indices n K N v r draw = .ok (m, reportedF F indices n K N v s m) ∧
      (∀ j < s, before n N v (j + 1) ≤ r + (selectErr u n (totalProb n fun c => v.getD c 0) + distTiny u eta n K)) ∧
      r ≤ before n N v (s + 1) + (selectErr u n (totalProb n fun c => v.getD c 0) + distTiny u eta n K) ∧
      (∀ j < m, cumProb n indices (sl N v s) (j + 1)
        ≤ draw s * totalProb n (sl N v s) + (drawErr u n * totalProb n (sl N v s) + distTiny u eta n K)) ∧
      (m + 1 = 2 ^ indices.length ∨ draw s * totalProb n (sl N v s)
        ≤ cumProb n indices (sl N v s) (m + 1) + (drawErr u n * totalProb n (sl N v s) + distTiny u eta n K)) := by
  have hvK : v.length = K * N := by omega
  have he := hF.eta_nonneg
  set T := totalProb n (fun c => v.getD c 0) with hT
  have hT0 : 0 ≤ T := totalProb_nonneg n _
  set acc : Nat → ℝ := fun i => probMagnitudeF F 0 (shareOf N v i) with hacc
  have hKpos : 0 < K := by
    rcases Nat.eq_zero_or_pos K with rfl | hK
    · have := Nat.two_pow_pos n
      omega
    · exact hK
  have hKle : K ≤ 2 ^ n := by
    rcases Nat.eq_zero_or_pos N with rfl | hN
    · have := Nat.two_pow_pos n
      omega
    · nlinarith
  have hfit : ∀ i < K, (shareOf N v i).length + i * N ≤ 2 ^ n := fun i hi => part_fits hKN hv hi
  have hbef : ∀ k, ∑ j ∈ range k, totalProb n (sl N v j) = before n N v k := fun k => by
    rw [before, sum_map_range]
  have hbT : before n N v K = T := sum_parts_total hvK
  have hb0 : ∀ k, 0 ≤ before n N v k := fun k => by
    have := before_mono n N v (Nat.zero_le k)
    simpa [before] using this
  have hTi : ∀ i < K, totalProb n (sl N v i) ≤ T := by
    intro i hi
    have h1 := before_mono n N v (show i + 1 ≤ K from hi)
    rw [before_succ, hbT] at h1
    linarith [hb0 i]
  have hroomi : ∀ i < K, RoomR u eta big n (totalProb n (sl N v i)) := fun i hi =>
    roomD_R hF hroom hKpos (totalProb_nonneg n _) (by linarith [hTi i hi])
  have hwi : ∀ i < K, Within (factor u ^ (2 ^ n + 1)) (2 * 2 ^ n * eta) (acc i) (totalProb n (sl N v i)) ∧ 0 ≤ acc i :=
    fun i hi => within_probMagnitude_slice hF (shareOf N v i) (hfit i hi) (hroomi i hi)
  have h2n : 2 ^ (n + 1) = 2 * 2 ^ n := by ring
  have h4n : (2 : ℝ) ^ (n + 2) = 4 * 2 ^ n := by ring
  have hK1 : (1 : ℝ) ≤ K := by exact_mod_cast hKpos
  have hN1 : (1 : ℝ) ≤ 2 ^ n := by exact_mod_cast Nat.two_pow_pos n
  have hMe : eta ≤ 2 ^ n * eta := by nlinarith
  have hKMe : 2 ^ n * eta ≤ K * (2 ^ n * eta) := le_mul_of_one_le_left (by positivity) hK1
  have hbig : ∀ i < K, acc i ≤ big := by
    intro i hi
    refine (hwi i hi).1.2.trans (roomD_le hF hroom (totalProb_nonneg n _) (by positivity) (by linarith [hTi i hi]) ?_ (by omega))
    rw [h4n]
    nlinarith
  have hdec : ∀ k < K, (∀ j < k, 0 < F.sub (runF F acc r j) (acc j)) → |runF F acc r k - acc k| ≤ big ∧
      |runF F acc r k - acc k - (r - before n N v (k + 1))| + factor u * eta ≤ selectErr u n T + distTiny u eta n K := by
    intro k hk hpos
    have hkK : (k : ℝ) ≤ K := by exact_mod_cast hk.le
    have hbg : 1 * factor u ^ k * (1 + 0 + k * eta) ≤ big := by
      rw [one_mul, mul_comm, add_zero]
      refine roomD_le hF hroom zero_le_one (by positivity) (by linarith) ?_ (by omega)
      rw [h4n]
      have h1 : (k : ℝ) * eta ≤ K * eta := mul_le_mul_of_nonneg_right hkK he
      have h2 : (K : ℝ) * eta ≤ K * (2 ^ n * eta) := mul_le_mul_of_nonneg_left hMe (by linarith)
      nlinarith
    obtain ⟨d1, d2⟩ := decision_near hF (le_refl 1) (le_refl 0) (hF.bpow (2 ^ n + 1)) (by positivity) hr0 hr1 zero_le_one hr0
      (by rw [mul_one]; exact within_refl le_rfl le_rfl hr0) (k := k) (fun j hj => hwi j (by omega))
      (fun j _ => totalProb_nonneg n (sl N v j)) (fun j hj => hbig j (by omega)) hbg hpos
    refine ⟨d1, ?_⟩
    rw [mul_one r, hbef] at d2
    have := selectTiny_ge hF hKle hk (T := T) (c := before n N v (k + 1)) (by rw [← hbT]; exact before_mono n N v hk) (hb0 _)
    linarith
  have hsel := selectWorkerF_spec (F := F) acc (runF F acc r) (fun _ => rfl) K 0
  rw [← List.range_eq_range', Nat.zero_add] at hsel
  change (selectWorkerF F _ r = none ∧ _) ∨ ∃ s, selectWorkerF F _ r = _ ∧ _ at hsel
  unfold distChooseF
  rcases hsel with ⟨h1, h2⟩ | ⟨s, h1, -, h3, h4, h5⟩
  · left
    rw [h1]
    refine ⟨rfl, ?_⟩
    obtain ⟨d1, d2⟩ := hdec (K - 1) (by omega) fun j hj => not_le.1 (h2 j (by omega) (by omega))
    have hp := (sub_pos_near hF d1 (not_le.1 (h2 (K - 1) (by omega) (by omega)))).1
    rw [show K - 1 + 1 = K by omega, hbT] at d2
    have := le_abs_self (runF F acc r (K - 1) - acc (K - 1) - (r - T))
    linarith
  · right
    rw [h1, Nat.sub_zero]
    obtain ⟨m, s1, s2, s3, s4, -⟩ := softMeasureF_near_slice hF h (shareOf N v s) (hfit s h3) (hroomi s h3) (hd s).1 (hd s).2
    have ho : ((List.range K).eraseIdx s).mapM (fun i =>
        softMeasureF F indices n (shareOf N v i) (some m) (i * N) (draw i) 0)
        = .ok (((List.range K).eraseIdx s).map fun i => (m, softAccF F n indices (shareOf N v i) (i * N) m)) :=
      mapM_ok' _ fun i _ => softMeasureF_forced_slice h _ _ _ _ _
    have htiny := drawTiny_le hF (n := n) hKpos
    refine ⟨s, h3, m, s2, by
      simp only [bind, Except.bind, s1, ho, pure, Except.pure, List.map_map]; rfl, ?_, ?_, ?_, ?_⟩
    · intro j hj
      obtain ⟨d1, d2⟩ := hdec j (by omega) fun i hi => not_le.1 (h4 i (by omega) (by omega))
      have hp := (sub_pos_near hF d1 (not_le.1 (h4 j (by omega) hj))).1
      have := le_abs_self (runF F acc r j - acc j - (r - before n N v (j + 1)))
      linarith
    · obtain ⟨d1, d2⟩ := hdec s h3 fun i hi => not_le.1 (h4 i (by omega) hi)
      have hp := sub_nonpos_near hF d1 h5
      have := neg_abs_le (runF F acc r s - acc s - (r - before n N v (s + 1)))
      linarith
    · intro j hj
      have := s3 j hj
      change cumProb n indices (sl N v s) (j + 1) ≤ draw s * totalProb n (sl N v s) + (drawErr u n * totalProb n (sl N v s) + _) at this
      linarith
    · rcases s4 with s4 | s4
      · exact .inl s4
      · right
        change draw s * totalProb n (sl N v s) ≤ cumProb n indices (sl N v s) (m + 1) + (drawErr u n * totalProb n (sl N v s) + _) at s4
        linarith

end QIP
