import Verif.Lemmas.FRanged
import Verif.Props.FMeasure

/-!
# C95: measurements in floating point, with underflow and overflow
-/

namespace QIP.Props

open QIP Spec Finset

variable {F : FOps} {u eta big : ℝ} {n : Nat} {indices : List Nat}

theorem outcome_le (idx : List Nat) (m : Nat) (v : Nat → ℂ) : outcomeProb n idx v m ≤ totalProb n v := by
  unfold outcomeProb totalProb
  exact Finset.sum_le_sum_of_subset_of_nonneg (Finset.filter_subset _ _) fun _ _ _ => Complex.normSq_nonneg _

theorem drawTiny_nonneg (hF : Ranged F u eta big) (n : Nat) : 0 ≤ drawTiny u eta n := by
  have := hF.eta_nonneg
  have := hF.b1
  unfold drawTiny
  positivity

/-- The probabilities of `measure_probabilities`. -/
theorem within_measureProbabilities (hF : Ranged F u eta big) (hlt : ∀ q ∈ indices, q < n) (vec : List ℂ) (hl : vec.length = 2 ^ n)
    (hroom : RoomR u eta big n (totalProb n fun c => vec.getD c 0)) :
    ∃ ps qs, measureProbabilitiesF F indices n vec = .ok ps ∧ measureProbabilities indices n vec = .ok qs ∧
      ps.length = qs.length ∧ ∀ b, Within (factor u ^ (2 ^ n + 1)) (2 * 2 ^ n * eta) (ps.getD b 0) (qs.getD b 0) ∧ 0 ≤ qs.getD b 0 := by
  have hbad : ¬ ((∃ q ∈ indices, n ≤ q) ∨ vec.length < 2 ^ n) := by
    rintro (⟨q, hq, h⟩ | h)
    · have := hlt q hq
      omega
    · omega
  refine ⟨_, _, if_neg hbad, if_neg hbad, ?_⟩
  have he := hF.eta_nonneg
  have hb1 := hF.b1
  set P := totalProb n fun c => vec.getD c 0 with hP
  have key : ∀ (L : List Nat) (k : Nat) (ps qs : List ℝ), k + L.length ≤ 2 ^ n → ps.length = qs.length →
      (∀ b, Within (factor u ^ (k + 1)) (2 * k * eta) (ps.getD b 0) (qs.getD b 0) ∧ 0 ≤ qs.getD b 0 ∧ 0 ≤ ps.getD b 0 ∧
        qs.getD b 0 + (L.map fun i => Complex.normSq (vec.getD i 0)).sum ≤ P) →
      (L.foldl (fun p i => if vec.getD i 0 = 0 then p
        else p.set (probIndex n indices i) (F.add (p.getD (probIndex n indices i) 0) (F.absSq (vec.getD i 0)))) ps).length
        = (L.foldl (fun p i => if vec.getD i 0 = 0 then p
        else p.set (probIndex n indices i) (p.getD (probIndex n indices i) 0 + Complex.normSq (vec.getD i 0))) qs).length ∧
      ∀ b, Within (factor u ^ (k + L.length + 1)) (2 * ((k + L.length : Nat) : ℝ) * eta) ((L.foldl (fun p i => if vec.getD i 0 = 0 then p
        else p.set (probIndex n indices i) (F.add (p.getD (probIndex n indices i) 0) (F.absSq (vec.getD i 0)))) ps).getD b 0)
        ((L.foldl (fun p i => if vec.getD i 0 = 0 then p
        else p.set (probIndex n indices i) (p.getD (probIndex n indices i) 0 + Complex.normSq (vec.getD i 0))) qs).getD b 0) ∧
        0 ≤ (L.foldl (fun p i => if vec.getD i 0 = 0 then p
        else p.set (probIndex n indices i) (p.getD (probIndex n indices i) 0 + Complex.normSq (vec.getD i 0))) qs).getD b 0 := by
    intro L
    induction L with
    | nil => intro k ps qs _ hlen h; exact ⟨hlen, fun b => ⟨(h b).1, (h b).2.1⟩⟩
    | cons i L ih =>
      intro k ps qs hk hlen h
      rw [List.foldl_cons, List.foldl_cons]
      have e : k + (i :: L).length = (k + 1) + L.length := by simp only [List.length_cons]; omega
      rw [e] at hk ⊢
      have hz := Complex.normSq_nonneg (vec.getD i 0)
      have hL0 : 0 ≤ (L.map fun i => Complex.normSq (vec.getD i 0)).sum := List.sum_nonneg (by
        intro x hx
        obtain ⟨i, _, rfl⟩ := List.mem_map.1 hx
        exact Complex.normSq_nonneg _)
      have hmono : ∀ b, Within (factor u ^ (k + 1 + 1)) (2 * ((k + 1 : Nat) : ℝ) * eta) (ps.getD b 0) (qs.getD b 0) := fun b =>
        within_mono (by positivity) (pow_le_pow_right₀ hF.b1 (by omega)) (by positivity) (by push_cast; nlinarith)
          (h b).2.2.1 (h b).2.1 (h b).1
      have hsum : ∀ b, qs.getD b 0 + Complex.normSq (vec.getD i 0) + (L.map fun i => Complex.normSq (vec.getD i 0)).sum ≤ P := by
        intro b
        have := (h b).2.2.2
        rw [List.map_cons, List.sum_cons] at this
        linarith
      apply ih _ _ _ hk
      · split <;> simp [hlen]
      · intro b
        split
        · exact ⟨hmono b, (h b).2.1, (h b).2.2.1, by linarith [hsum b]⟩
        · set j := probIndex n indices i
          rw [getD_set', getD_set']
          by_cases hjb : j = b
          · rw [if_pos hjb, if_pos hjb, hlen]
            by_cases hjl : j < qs.length
            · rw [if_pos hjl, if_pos hjl]
              have hq := (h j).2.1
              have hp := (h j).2.2.1
              have ha0 := hF.absSq_nonneg (vec.getD i 0)
              refine ⟨?_, by positivity, hF.add_nonneg _ _ hp ha0, hsum j⟩
              have hPb : P ≤ big := by
                have := roomR_le hF (x := P) (y := 0) (k := 0) hroom (by linarith [hsum j]) le_rfl le_rfl (by positivity) (by omega)
                simpa using this
              have r0 := within_of_err hF.nonneg hF.lt_one hz (by
                rw [abs_of_nonneg hz]
                exact hF.absSq (vec.getD i 0) (by linarith [hsum j]))
              have r1 := within_mono (by linarith) (le_self_pow₀ hF.b1 (by omega : k + 1 ≠ 0)) he le_rfl ha0 hz r0
              have r2 := within_add (h j).1 r1
              have r3 : 0 ≤ ps.getD j 0 + F.absSq (vec.getD i 0) := add_nonneg hp ha0
              have h2n : 2 ^ (n + 1) = 2 * 2 ^ n := by ring
              have hkn : ((k : Nat) : ℝ) + 1 ≤ 2 ^ n := by
                have : k + 1 ≤ 2 ^ n := by omega
                exact_mod_cast this
              have hbig := roomR_le hF (x := qs.getD j 0 + Complex.normSq (vec.getD i 0)) (y := 2 * k * eta + eta) (k := k + 1) hroom
                (by positivity) (by positivity) (by linarith [hsum j]) (by rw [pow_add]; nlinarith) (by omega)
              have r4 := within_trans hF.b1 (hF.bpow _) he (by positivity)
                (within_of_err hF.nonneg hF.lt_one r3 (hF.add _ _ (by rw [abs_of_nonneg r3]; exact r2.2.trans hbig))) r2
              rw [← pow_succ'] at r4
              have e2 : eta + (2 * (k : ℝ) * eta + eta) = 2 * ((k + 1 : Nat) : ℝ) * eta := by
                push_cast
                ring
              rwa [e2] at r4
            · rw [if_neg hjl, if_neg hjl]
              refine ⟨within_refl (hF.bpow _) (by positivity) le_rfl, le_rfl, le_rfl, ?_⟩
              linarith [hsum j, (h j).2.1]
          · rw [if_neg hjb, if_neg hjb]
            exact ⟨hmono b, (h b).2.1, (h b).2.2.1, by linarith [hsum b]⟩
  have hrep : ∀ b, (List.replicate (2 ^ indices.length) (0 : ℝ)).getD b 0 = 0 := by
    intro b
    rw [List.getD_eq_getElem?_getD, List.getElem?_replicate]
    split <;> rfl
  have := key (List.range (2 ^ n)) 0 (List.replicate (2 ^ indices.length) 0) (List.replicate (2 ^ indices.length) 0) (by simp) rfl (by
    intro b
    rw [hrep]
    refine ⟨within_refl (hF.bpow _) (by simp) le_rfl, le_rfl, le_rfl, ?_⟩
    rw [zero_add, hP, totalProb]
    exact le_of_eq rfl)
  rw [List.length_range, Nat.zero_add] at this
  refine ⟨this.1, fun b => ?_⟩
  have h2 := this.2 b
  push_cast at h2
  exact h2

/-- C95 with underflow and overflow: the probabilities of `measure_probabilities`. -/
theorem C95_ranged_probabilities (hF : Ranged F u eta big) (hlt : ∀ q ∈ indices, q < n) (state : List ℂ) (hl : state.length = 2 ^ n)
    (hroom : RoomR u eta big n (totalProb n fun c => state.getD c 0)) :
    ∃ ps, measureProbabilitiesF F indices n state = .ok ps ∧ ps.length = 2 ^ indices.length ∧
      ∀ b < 2 ^ indices.length,
        |ps.getD b 0 - ∑ c ∈ (range (2 ^ n)).filter (fun c => ∀ j (hj : j < indices.length), qbit n c indices[j] = b.testBit j),
            Complex.normSq (state.getD c 0)|
          ≤ (factor u ^ (2 ^ n + 1) - 1) *
            (∑ c ∈ (range (2 ^ n)).filter (fun c => ∀ j (hj : j < indices.length), qbit n c indices[j] = b.testBit j),
              Complex.normSq (state.getD c 0)) + drawTiny u eta n := by
  obtain ⟨ps, qs, h1, h2, h3, h4⟩ := within_measureProbabilities hF hlt state hl hroom
  obtain ⟨qs', h5, h6, h7, _⟩ := C20_marginals hlt state hl
  rw [h5] at h2
  injection h2 with h2
  subst h2
  refine ⟨ps, h1, by rw [h3, h6], fun b hb => ?_⟩
  obtain ⟨hr, h0⟩ := h4 b
  rw [List.getD_eq_getElem?_getD (l := qs'), h7 b hb, Option.getD_some] at hr h0
  have he := hF.eta_nonneg
  have hb1 := hF.b1
  refine (within_abs (hF.bpow _) (by positivity) h0 hr).trans (add_le_add le_rfl ?_)
  unfold drawTiny
  have h2n : 2 ^ (n + 1) = 2 * 2 ^ n := by ring
  rw [mul_comm]
  refine mul_le_mul ?_ (pow_le_pow_right₀ hb1 (by omega)) (by positivity) (by positivity)
  have : (0 : ℝ) ≤ 2 ^ n * eta := by positivity
  linarith

/-- An unforced `measure` in rounded arithmetic. -/
theorem measureF_near (hF : Ranged F u eta big) (h : IdxOK n indices) {vec out : List ℂ} (hl : vec.length = 2 ^ n)
    (hlo : out.length = 2 ^ n) (hroom : RoomR u eta big n (totalProb n fun c => vec.getD c 0)) {x : ℝ} (hx0 : 0 ≤ x) (hx1 : x ≤ 1) :
    ∃ m < 2 ^ indices.length,
      (∀ j < m, cumProb n indices (fun c => vec.getD c 0) (j + 1) ≤ x * totalProb n (fun c => vec.getD c 0)
        + (drawErr u n * totalProb n (fun c => vec.getD c 0) + drawTiny u eta n)) ∧
      (m + 1 = 2 ^ indices.length ∨ x * totalProb n (fun c => vec.getD c 0) ≤ cumProb n indices (fun c => vec.getD c 0) (m + 1)
        + (drawErr u n * totalProb n (fun c => vec.getD c 0) + drawTiny u eta n)) ∧
      (drawTiny u eta n < x * totalProb n (fun c => vec.getD c 0) → softAccF F n indices vec 0 m = 0 →
        totalProb n (fun c => vec.getD c 0) ≤ x * totalProb n (fun c => vec.getD c 0)
          + (drawErr u n * totalProb n (fun c => vec.getD c 0) + drawTiny u eta n)) ∧
      measureF F indices n vec out 0 0 none none x 0
        = if softAccF F n indices vec 0 m = 0 then .error .zeroDivision
          else .ok (m, softAccF F n indices vec 0 m, (List.range (2 ^ n)).map fun i =>
            if subIndex n (inOrder n indices) i = m
              then F.scale (vec.getD i 0) (F.sqrt (F.div 1 (softAccF F n indices vec 0 m))) else 0) := by
  obtain ⟨m, h1, h2, h3, h4, h5⟩ := softMeasureF_near hF h vec hl hroom hx0 hx1
  refine ⟨m, h2, h3, h4, h5, ?_⟩
  have hc := chooseOutcomeF_soft F indices n vec 0 none (by simp) x 0 h1
  by_cases hz : softAccF F n indices vec 0 m = 0
  · rw [if_pos hz] at hc
    rw [if_pos hz]
    unfold measureF
    rw [show (none : Option Int) = Option.map Int.ofNat none from rfl, hc]
    rfl
  · rw [if_neg hz] at hc
    rw [if_neg hz]
    exact measureF_eq h vec out hl hlo h2 hc

/-- An outcome that is found to be impossible is at least very unlikely. -/
theorem acc_zero_tiny (hF : Ranged F u eta big) (h : IdxOK n indices) {vec : List ℂ}
    (hroom : RoomR u eta big n (totalProb n fun c => vec.getD c 0)) {m : Nat} (hm : m < 2 ^ indices.length)
    (hz : softAccF F n indices vec 0 m = 0) : outcomeProb n indices (fun c => vec.getD c 0) m ≤ drawTiny u eta n := by
  have h1 := (within_softAcc hF h vec hm hroom).1.1
  rw [hz, zero_add] at h1
  refine h1.trans ?_
  have he := hF.eta_nonneg
  have hb := hF.b1
  unfold drawTiny
  have hKN : 2 ^ (n - indices.length) ≤ 2 ^ n := Nat.pow_le_pow_right (by norm_num) (by omega)
  have hK : (2 : ℝ) ^ (n - indices.length) ≤ 2 ^ n := by exact_mod_cast hKN
  have h2n : 2 ^ (n + 1) = 2 * 2 ^ n := by ring
  apply mul_le_mul _ (pow_le_pow_right₀ hb (by omega)) (by positivity) (by positivity)
  apply mul_le_mul_of_nonneg_right _ he
  have : (0 : ℝ) ≤ 2 ^ n := by positivity
  linarith

/-- C95 with underflow and overflow: the draws for which outcome `m` is returned have, up to an explicit error, the probability of `m`
as measure.  Missing: the content of the uninitialised accumulator (C27) is taken as 0. -/
theorem C95_ranged_born_partial (hF : Ranged F u eta big) (h : IdxOK n indices) {vec out : List ℂ} (hl : vec.length = 2 ^ n)
    (hlo : out.length = 2 ^ n) (hT : 0 < totalProb n (fun c => vec.getD c 0))
    (hroom : RoomR u eta big n (totalProb n fun c => vec.getD c 0)) {m : Nat} (hm : m < 2 ^ indices.length) :
    |(MeasureTheory.volume (drawsGivingF F indices n vec out m)).toReal
        - outcomeProb n indices (fun c => vec.getD c 0) m / totalProb n (fun c => vec.getD c 0)|
      ≤ 2 * (drawErr u n + drawTiny u eta n / totalProb n (fun c => vec.getD c 0)) := by
  have he := drawErr_nonneg hF.nonneg hF.lt_one n
  have ht := drawTiny_nonneg hF n
  set v : Nat → ℂ := fun c => vec.getD c 0 with hv
  set P := totalProb n v with hP
  set E := drawErr u n + drawTiny u eta n / P with hE
  have hEP : E * P = drawErr u n * P + drawTiny u eta n := by
    rw [hE]
    field_simp
  have hE0 : 0 ≤ E := by positivity
  apply volume_between (a := cumProb n indices v m / P) (b := cumProb n indices v (m + 1) / P) _ _ hE0
    (by rw [cumProb_succ]; ring) (div_nonneg (outcomeProb_nonneg _ _ _ _) hT.le)
  · rintro x ⟨h0, h1, p, out', hr⟩
    obtain ⟨m', _, h3, h4, _, h6⟩ := measureF_near hF h hl hlo hroom h0 h1.le
    rw [h6] at hr
    split at hr
    · cases hr
    simp only [Except.ok.injEq, Prod.mk.injEq] at hr
    obtain ⟨rfl, _⟩ := hr
    rw [← hEP] at h3 h4
    constructor
    · rw [sub_le_iff_le_add, div_le_iff₀ hT]
      cases m' with
      | zero =>
        simp only [cumProb, Finset.range_zero, Finset.sum_empty]
        positivity
      | succ j =>
        have := h3 j (by omega)
        rw [add_mul]
        exact this
    · rw [← sub_le_iff_le_add, le_div_iff₀ hT]
      rcases h4 with e | e
      · rw [e, cumProb_top h]
        nlinarith
      · rw [sub_mul]
        linarith
  · rintro x ⟨hlo', hhi'⟩
    rw [← lt_sub_iff_add_lt, div_lt_iff₀ hT, sub_mul] at hlo'
    rw [lt_sub_iff_add_lt, lt_div_iff₀ hT, add_mul] at hhi'
    have hc0 : 0 ≤ cumProb n indices v m := Finset.sum_nonneg fun _ _ => outcomeProb_nonneg _ _ _ _
    have hc1 : cumProb n indices v (m + 1) ≤ P := by
      rw [hP, ← cumProb_top h]; exact cumProb_mono _ _ _ (by omega)
    have heP : 0 ≤ E * P := mul_nonneg hE0 hT.le
    have hx0 : 0 ≤ x := by
      by_contra hn
      have : x * P ≤ 0 := mul_nonpos_of_nonpos_of_nonneg (by linarith) hT.le
      linarith
    have hx1 : x < 1 := by
      by_contra hn
      have : P ≤ x * P := le_mul_of_one_le_left hT.le (by linarith)
      linarith
    obtain ⟨m', hm', h3, h4, _, h6⟩ := measureF_near hF h hl hlo hroom hx0 hx1.le
    rw [← hEP] at h3 h4
    have e : m' = m := by
      rcases lt_trichotomy m' m with hlt | e | hgt
      · rcases h4 with h4 | h4
        · omega
        · have := cumProb_mono n indices v (show m' + 1 ≤ m by omega)
          have h4' : x * P ≤ cumProb n indices v (m' + 1) + E * P := h4
          linarith
      · exact e
      · have h3' : cumProb n indices v (m + 1) ≤ x * P + E * P := h3 m hgt
        linarith
    subst e
    rw [if_neg] at h6
    · exact ⟨hx0, hx1, _, _, h6⟩
    · intro hz
      have := acc_zero_tiny hF h hroom hm' hz
      rw [cumProb_succ] at hhi'
      have h7 : 0 ≤ drawErr u n * P := by positivity
      linarith

/-- C95 with underflow and overflow: unless the draw is within a small distance of 0 or 1, `measure` succeeds, and the outcome has
positive probability. -/
theorem C95_ranged_possible_partial (hF : Ranged F u eta big) (h : IdxOK n indices) {vec out : List ℂ} (hl : vec.length = 2 ^ n)
    (hlo : out.length = 2 ^ n) (hroom : RoomR u eta big n (totalProb n fun c => vec.getD c 0)) {x : ℝ}
    (hx0 : drawTiny u eta n < x * totalProb n (fun c => vec.getD c 0))
    (hx1 : x * totalProb n (fun c => vec.getD c 0)
      < (1 - drawErr u n) * totalProb n (fun c => vec.getD c 0) - drawTiny u eta n) :
    ∃ m p out', measureF F indices n vec out 0 0 none none x 0 = .ok (m, p, out') ∧ m < 2 ^ indices.length ∧
      0 < outcomeProb n indices (fun c => vec.getD c 0) m := by
  have he := drawErr_nonneg hF.nonneg hF.lt_one n
  have ht := drawTiny_nonneg hF n
  have hP := totalProb_nonneg n fun c => vec.getD c 0
  set P := totalProb n fun c => vec.getD c 0
  have hP0 : 0 < P := by
    rcases hP.lt_or_eq with h' | h'
    · exact h'
    · rw [← h', mul_zero] at hx0
      linarith
  have hx0' : 0 ≤ x := by
    by_contra hn
    nlinarith
  have hx1' : x ≤ 1 := by
    by_contra hn
    nlinarith
  obtain ⟨m, h1, _, _, h5, h6⟩ := measureF_near hF h hl hlo hroom hx0' hx1'
  have hz : softAccF F n indices vec 0 m ≠ 0 := by
    intro hz
    have := h5 hx0 hz
    have e : totalProb n (fun c => vec.getD c 0) = P := rfl
    rw [e] at this
    nlinarith
  rw [if_neg hz] at h6
  refine ⟨m, _, _, h6, h1, lt_of_le_of_ne (outcomeProb_nonneg _ _ _ _) fun hq => hz ?_⟩
  exact softAcc_zero hF h vec h1 hq.symm

/-- C95 with underflow and overflow: an outcome of probability zero is never returned, drawn or asked for. -/
theorem C95_ranged_never (hF : Ranged F u eta big) (h : IdxOK n indices) {vec out out' : List ℂ} (hl : vec.length = 2 ^ n)
    (hlo : out.length = 2 ^ n) (hroom : RoomR u eta big n (totalProb n fun c => vec.getD c 0)) {measured : Option Int} {x p : ℝ}
    (hx0 : 0 ≤ x) (hx1 : x ≤ 1) {m : Nat} (hr : measureF F indices n vec out 0 0 measured none x 0 = .ok (m, p, out')) :
    m < 2 ^ indices.length ∧ 0 < outcomeProb n indices (fun c => vec.getD c 0) m ∧ p = softAccF F n indices vec 0 m ∧ p ≠ 0 ∧
      out' = (List.range (2 ^ n)).map fun i => if subIndex n (inOrder n indices) i = m
              then F.scale (vec.getD i 0) (F.sqrt (F.div 1 p)) else 0 := by
  have main : ∀ m' < 2 ^ indices.length, measureF F indices n vec out 0 0 measured none x 0
      = (if softAccF F n indices vec 0 m' = 0 then .error .zeroDivision
          else .ok (m', softAccF F n indices vec 0 m', (List.range (2 ^ n)).map fun i =>
            if subIndex n (inOrder n indices) i = m'
              then F.scale (vec.getD i 0) (F.sqrt (F.div 1 (softAccF F n indices vec 0 m'))) else 0)) →
      m < 2 ^ indices.length ∧ 0 < outcomeProb n indices (fun c => vec.getD c 0) m ∧ p = softAccF F n indices vec 0 m ∧ p ≠ 0 ∧
      out' = (List.range (2 ^ n)).map fun i => if subIndex n (inOrder n indices) i = m
              then F.scale (vec.getD i 0) (F.sqrt (F.div 1 p)) else 0 := by
    intro m' hm' he
    rw [he] at hr
    by_cases hz : softAccF F n indices vec 0 m' = 0
    · rw [if_pos hz] at hr
      cases hr
    rw [if_neg hz] at hr
    simp only [Except.ok.injEq, Prod.mk.injEq] at hr
    obtain ⟨rfl, rfl, rfl⟩ := hr
    refine ⟨hm', lt_of_le_of_ne (outcomeProb_nonneg _ _ _ _) fun hq => hz ?_, rfl, hz, rfl⟩
    exact softAcc_zero hF h vec hm' hq.symm
  cases measured with
  | none =>
    obtain ⟨m', hm', _, _, _, h6⟩ := measureF_near hF h hl hlo hroom hx0 hx1
    exact main m' hm' h6
  | some k =>
    by_cases hk : 0 ≤ k ∧ k < 2 ^ indices.length
    · have hk' : k.toNat < 2 ^ indices.length := by
        have : ((k.toNat : Nat) : Int) < ((2 ^ indices.length : Nat) : Int) := by
          rw [Int.toNat_of_nonneg hk.1]; push_cast; exact hk.2
        exact_mod_cast this
      have hc := chooseOutcomeF_soft F indices n vec 0 (some k.toNat) (by simpa using hk') x 0
        (softMeasureF_forced h vec k.toNat x 0)
      have e : Option.map Int.ofNat (some k.toNat) = some k := by simp [Int.toNat_of_nonneg hk.1]
      rw [e] at hc
      refine main k.toNat hk' ?_
      by_cases hz : softAccF F n indices vec 0 k.toNat = 0
      · rw [if_pos hz] at hc
        rw [if_pos hz]
        unfold measureF
        rw [hc]
        rfl
      · rw [if_neg hz] at hc
        rw [if_neg hz]
        exact measureF_eq h vec out hl hlo hk' hc
    · exfalso
      unfold measureF chooseOutcomeF at hr
      simp only [bind, Except.bind] at hr
      rw [if_pos hk] at hr
      cases hr

/-- The relative error that underflow adds for an outcome of probability `q`. -/
theorem within_rel {b e p q ρ : ℝ} (hb : 1 ≤ b) (he : 0 ≤ e) (hq : 0 < q) (hρ1 : ρ < 1) (hρ : e * b ≤ ρ * q) (h : Within b e p q) :
    Rel (b * factor ρ) p q := by
  obtain ⟨h1, h2⟩ := h
  have hρ0 : 0 ≤ ρ := by
    by_contra hn
    nlinarith [mul_nonneg he (by linarith : 0 ≤ b)]
  have hf : factor ρ * (1 - ρ) = 1 := by unfold factor; field_simp [(by linarith : (1 : ℝ) - ρ ≠ 0)]
  have hf1 := one_le_factor hρ0 hρ1
  have he' : e ≤ ρ * q := le_trans (by nlinarith) hρ
  constructor
  · have h3 : q * (1 - ρ) ≤ p * b := by nlinarith
    have h4 := mul_le_mul_of_nonneg_right h3 (by linarith : 0 ≤ factor ρ)
    nlinarith
  · have h3 : 1 + ρ ≤ factor ρ := by nlinarith
    have h4 : (q + e) * b ≤ q * (1 + ρ) * b := mul_le_mul_of_nonneg_right (by nlinarith) (by linarith)
    have h5 : q * (1 + ρ) * b ≤ q * factor ρ * b := by gcongr
    nlinarith

theorem rel_of_err_eta {x y : ℝ} (h0 : 0 ≤ u) (he : 0 ≤ eta) (h1 : u + 4 * eta < 1) (hy : 1 / 4 ≤ y) (h : |x - y| ≤ u * |y| + eta) :
    Rel (factor (u + 4 * eta)) x y := by
  have hy0 : 0 ≤ y := by linarith
  apply rel_of_err (by linarith) h1 hy0
  rw [abs_of_nonneg hy0] at h ⊢
  nlinarith

theorem rel_prob (hF : Ranged F u eta big) (h : IdxOK n indices) (vec : List ℂ)
    (hroom : RoomR u eta big n (totalProb n fun c => vec.getD c 0)) {m : Nat} (hm : m < 2 ^ indices.length)
    (hq : drawTiny u eta n < outcomeProb n indices (fun c => vec.getD c 0) m) :
    Rel (factor u ^ (2 ^ (n - indices.length) + 1) * factor (drawTiny u eta n / outcomeProb n indices (fun c => vec.getD c 0) m))
      (softAccF F n indices vec 0 m) (outcomeProb n indices (fun c => vec.getD c 0) m) := by
  have hw := (within_softAcc hF h vec hm hroom).1
  have he := hF.eta_nonneg
  have hb := hF.b1
  have hq0 := (drawTiny_nonneg hF n).trans_lt hq
  apply within_rel (hF.bpow _) (by positivity) hq0 ((div_lt_one hq0).2 hq) _ hw
  rw [div_mul_cancel₀ _ hq0.ne']
  unfold drawTiny
  have hKN : 2 ^ (n - indices.length) ≤ 2 ^ n := Nat.pow_le_pow_right (by norm_num) (by omega)
  have hK : (2 : ℝ) ^ (n - indices.length) ≤ 2 ^ n := by exact_mod_cast hKN
  have h2n : 2 ^ (n + 1) = 2 * 2 ^ n := by ring
  apply mul_le_mul _ (pow_le_pow_right₀ hb (by omega)) (by positivity) (by positivity)
  apply mul_le_mul_of_nonneg_right _ he
  have : (0 : ℝ) ≤ 2 ^ n := by positivity
  linarith

theorem factor_mono {a b : ℝ} (hab : a ≤ b) (hb : b < 1) : factor a ≤ factor b := by
  unfold factor
  exact one_div_le_one_div_of_le (by linarith) (by linarith)

theorem rel_mult_ranged (hF : Ranged F u eta big) (hw1 : u + 4 * eta < 1) {c p q : ℝ} (hc : 1 ≤ c) (hq0 : 0 < q) (hq2 : q ≤ 2)
    (hcw : factor (u + 4 * eta) * c ≤ 2) (hbig : 8 / q ≤ big) (hrel : Rel c p q) :
    Rel (factor (u + 4 * eta) * factor (u + 4 * eta) * c) (F.sqrt (F.div 1 p)) (√(1 / q)) := by
  have he := hF.eta_nonneg
  have hu := hF.nonneg
  have hw0 : 0 ≤ u + 4 * eta := by positivity
  have f1 := one_le_factor hw0 hw1
  have hf2 : factor (u + 4 * eta) ≤ 2 := le_trans (by nlinarith) hcw
  have hc2 : c ≤ 2 := le_trans (by nlinarith) hcw
  have hp1 : 0 < p := rel_pos hc hq0 hrel
  have hp4 : p ≤ 4 := by
    have h1 := hrel.2
    nlinarith
  have hinv := rel_inv hc hq0 hrel
  have hip : 1 / p ≤ 2 / q := by
    have h1 := hinv.2
    have h2 : 1 / q * c ≤ 1 / q * 2 := mul_le_mul_of_nonneg_left hc2 (by positivity)
    calc 1 / p ≤ 1 / q * 2 := h1.trans h2
      _ = 2 / q := by ring
  have hq1 : 1 ≤ 2 / q := by
    rw [le_div_iff₀ hq0]
    linarith
  have h8 : 8 / q = 4 * (2 / q) := by ring
  have hip4 : 1 / 4 ≤ 1 / p := one_div_le_one_div_of_le hp1 hp4
  have hdiv := hF.div 1 p (by rw [abs_of_pos (by positivity)]; linarith)
  have hd := rel_of_err_eta hu he hw1 hip4 hdiv
  generalize F.div 1 p = d at hd ⊢
  have hd0 : 0 ≤ d := rel_nonneg f1 (by positivity) hd
  have hd8 : 1 / 8 ≤ d := by
    have h1 := hd.1
    have h2 := mul_le_mul_of_nonneg_left hf2 hd0
    linarith
  have hdb : d ≤ 2 * (2 / q) := by
    have h1 := hd.2
    have h2 : 1 / p * factor (u + 4 * eta) ≤ 2 / q * 2 := mul_le_mul hip hf2 (by linarith) (by positivity)
    linarith
  have hs4 : 1 / 4 ≤ √d := Real.le_sqrt_of_sq_le (by linarith)
  have hsb : √d ≤ big := by
    have : √d ≤ d + 1 := by
      rw [Real.sqrt_le_left (by linarith)]
      nlinarith
    linarith
  have hs := rel_of_err_eta hu he hw1 hs4 (by rw [abs_of_nonneg (Real.sqrt_nonneg d)]; exact hF.sqrt d hsb)
  have hμ1 := rel_trans f1 f1 hs (rel_sqrt f1 (by positivity) hd)
  exact rel_trans (by nlinarith) hc hμ1 (rel_sqrt hc (by positivity) hinv)

theorem scale_ranged (hF : Ranged F u eta big) (hw1 : u + 4 * eta < 1) {C μ s : ℝ} {z : ℂ} (hC1 : 1 ≤ C) (hC2 : C ≤ big) (hs : 0 ≤ s)
    (hz : ‖z‖ * s ≤ 1) (hμ : Rel C μ s) :
    ‖F.scale z μ - z * (s : ℂ)‖ ≤ (factor (u + 4 * eta) * C - 1) * (‖z‖ * s) + eta := by
  have he := hF.eta_nonneg
  have hu := hF.nonneg
  have hμ0 : 0 ≤ μ := rel_nonneg hC1 hs hμ
  have hμabs := rel_abs hC1 hs hμ
  have hμle := hμ.2
  set N := ‖z‖ * s with hN
  have hN0 : 0 ≤ N := by positivity
  have hnorm : ‖z * (μ : ℂ)‖ = ‖z‖ * μ := by rw [norm_mul, Complex.norm_real, Real.norm_of_nonneg hμ0]
  have hle : ‖z * (μ : ℂ)‖ ≤ C * N := by
    rw [hnorm, hN]
    calc ‖z‖ * μ ≤ ‖z‖ * (s * C) := mul_le_mul_of_nonneg_left hμle (norm_nonneg _)
      _ = C * (‖z‖ * s) := by ring
  have hsc := hF.scale z μ (by nlinarith)
  have htri : ‖F.scale z μ - z * (s : ℂ)‖ ≤ ‖F.scale z μ - z * (μ : ℂ)‖ + ‖z * (μ : ℂ) - z * (s : ℂ)‖ :=
    norm_sub_le_norm_sub_add_norm_sub _ _ _
  have hdiff : ‖z * (μ : ℂ) - z * (s : ℂ)‖ ≤ (C - 1) * N := by
    rw [← mul_sub, norm_mul, ← Complex.ofReal_sub, Complex.norm_real, Real.norm_eq_abs, hN]
    calc ‖z‖ * |μ - s| ≤ ‖z‖ * ((C - 1) * s) := mul_le_mul_of_nonneg_left hμabs (norm_nonneg _)
      _ = (C - 1) * (‖z‖ * s) := by ring
  have hfu : 1 + u ≤ factor (u + 4 * eta) := by
    have hf : factor (u + 4 * eta) * (1 - (u + 4 * eta)) = 1 := by
      unfold factor
      exact one_div_mul_cancel (by linarith)
    have := one_le_factor (by positivity : 0 ≤ u + 4 * eta) hw1
    nlinarith
  have h5 : u * ‖z * (μ : ℂ)‖ ≤ u * (C * N) := mul_le_mul_of_nonneg_left hle hu
  have h6 : (1 + u) * (C * N) ≤ factor (u + 4 * eta) * (C * N) := mul_le_mul_of_nonneg_right hfu (by positivity)
  linarith

theorem dist_parts {f g : Nat → ℂ} {a : Nat → ℝ} {γ e : ℝ} (hγ : 0 ≤ γ) (he : 0 ≤ e) (ha : ∀ i < 2 ^ n, 0 ≤ a i)
    (hs : ∑ i ∈ range (2 ^ n), a i ^ 2 ≤ 1) (h : ∀ i < 2 ^ n, ‖f i - g i‖ ≤ γ * a i + e) : dist2 n f g ≤ γ + √(2 ^ n) * e := by
  set a' : Nat → ℂ := fun i => ((γ * a i : ℝ) : ℂ)
  set b' : Nat → ℂ := fun _ => ((-e : ℝ) : ℂ)
  have h4 : dist2 n f g ≤ dist2 n a' b' := by
    unfold dist2
    apply Real.sqrt_le_sqrt
    apply Finset.sum_le_sum
    intro i hi
    refine pow_le_pow_left₀ (norm_nonneg _) ((h i (mem_range.1 hi)).trans (le_of_eq ?_)) 2
    simp only [a', b']
    have h0 : 0 ≤ γ * a i := mul_nonneg hγ (ha i (mem_range.1 hi))
    rw [← Complex.ofReal_sub, Complex.norm_real, Real.norm_of_nonneg (by linarith), sub_neg_eq_add]
  have h5 : dist2 n a' 0 ≤ γ := by
    unfold dist2
    rw [Real.sqrt_le_left hγ]
    calc ∑ i ∈ range (2 ^ n), ‖a' i - (0 : Nat → ℂ) i‖ ^ 2 = γ ^ 2 * ∑ i ∈ range (2 ^ n), a i ^ 2 := by
          rw [Finset.mul_sum]
          apply Finset.sum_congr rfl
          intro i _
          simp only [a', Pi.zero_apply, sub_zero]
          rw [Complex.norm_real, Real.norm_eq_abs, sq_abs, mul_pow]
      _ ≤ γ ^ 2 * 1 := by gcongr
      _ = γ ^ 2 := mul_one _
  have h6 : dist2 n 0 b' = √(2 ^ n) * e := by
    unfold dist2
    have e' : ∀ r ∈ range (2 ^ n), ‖(0 : Nat → ℂ) r - b' r‖ ^ 2 = e ^ 2 := by
      intro r _
      simp only [b', Pi.zero_apply, zero_sub, norm_neg]
      rw [Complex.norm_real, Real.norm_eq_abs, sq_abs, neg_sq]
    rw [Finset.sum_congr rfl e', Finset.sum_const, Finset.card_range, nsmul_eq_mul, Real.sqrt_mul (by positivity), Real.sqrt_sq he]
    push_cast
    rfl
  have h7 := dist2_triangle n a' 0 b'
  rw [h6] at h7
  exact h4.trans (h7.trans (add_le_add h5 le_rfl))


/-- The state left by a measurement whose outcome has, up to `k` roundings and a relative error `ρ`, the probability `p`. -/
theorem collapse_ranged (hF : Ranged F u eta big) {vec : List ℂ} {m k : Nat} {p ρ : ℝ}
    (hP : totalProb n (fun c => vec.getD c 0) ≤ 2) (hq0 : 0 < outcomeProb n indices (fun c => vec.getD c 0) m) (hρ0 : 0 ≤ ρ) (hρ1 : ρ < 1)
    (hbig : 8 / outcomeProb n indices (fun c => vec.getD c 0) m ≤ big) (hw1 : u + 4 * eta < 1)
    (hG : factor (u + 4 * eta) ^ (k + 3) * factor ρ ≤ 2)
    (hrel : Rel (factor u ^ k * factor ρ) p (outcomeProb n indices (fun c => vec.getD c 0) m)) :
    dist2 n (fun i => ((List.range (2 ^ n)).map fun i =>
        if subIndex n (inOrder n indices) i = m then F.scale (vec.getD i 0) (F.sqrt (F.div 1 p)) else 0).getD i 0)
      (fun i => if subIndex n (inOrder n indices) i = m
        then vec.getD i 0 / ((√(outcomeProb n indices (fun c => vec.getD c 0) m) : ℝ) : ℂ) else 0)
      ≤ factor (u + 4 * eta) ^ (k + 3) * factor ρ - 1 + √(2 ^ n) * eta := by
  have hqP := outcome_le (n := n) indices m fun c => vec.getD c 0
  have he := hF.eta_nonneg
  have hu := hF.nonneg
  set v : Nat → ℂ := fun c => vec.getD c 0 with hv
  set q := outcomeProb n indices v m with hqdef
  have f1 := one_le_factor (by positivity) hw1
  have g1 := one_le_factor hρ0 hρ1
  have b1 := hF.b1
  have hfw : factor u ≤ factor (u + 4 * eta) := factor_mono (by linarith) hw1
  have hB1 : 1 ≤ factor u ^ (k) * factor ρ := one_le_mul_of_one_le_of_one_le (one_le_pow₀ b1) g1
  have hBW : factor u ^ (k) * factor ρ ≤ factor (u + 4 * eta) ^ (k) * factor ρ := by gcongr
  have hW1 := hB1.trans hBW
  have hrel' := rel_mono hB1 hBW hq0.le hrel
  have hcw : factor (u + 4 * eta) * (factor (u + 4 * eta) ^ (k) * factor ρ) ≤ 2 := by
    refine le_trans ?_ hG
    rw [← mul_assoc, ← pow_succ']
    exact mul_le_mul_of_nonneg_right (pow_le_pow_right₀ f1 (by omega)) (by linarith)
  have hμ := rel_mult_ranged hF hw1 hW1 hq0 (hqP.trans hP) hcw hbig hrel'
  have e3 : factor (u + 4 * eta) * factor (u + 4 * eta) * (factor (u + 4 * eta) ^ (k) * factor ρ)
      = factor (u + 4 * eta) ^ (k + 2) * factor ρ := by ring
  rw [e3] at hμ
  have e4 : factor (u + 4 * eta) ^ (k + 3) * factor ρ = factor (u + 4 * eta) * (factor (u + 4 * eta) ^ (k + 2) * factor ρ) := by ring
  have hC1 : 1 ≤ factor (u + 4 * eta) ^ (k + 2) * factor ρ := one_le_mul_of_one_le_of_one_le (one_le_pow₀ f1) g1
  rw [e4] at hG ⊢
  have hC2 : factor (u + 4 * eta) ^ (k + 2) * factor ρ ≤ 2 := le_trans (le_mul_of_one_le_left (by linarith) f1) hG
  have h2big : 2 ≤ big := by
    refine le_trans ?_ hbig
    rw [le_div_iff₀ hq0]
    linarith [hqP.trans hP]
  have hsqq : (√(1 / q) : ℝ) = 1 / √q := by rw [Real.sqrt_div zero_le_one, Real.sqrt_one]
  have hsq0 := Real.sqrt_nonneg (1 / q)
  have hG1 := one_le_mul_of_one_le_of_one_le f1 hC1
  apply dist_parts (a := fun i => if subIndex n (inOrder n indices) i = m then ‖v i‖ * √(1 / q) else 0) (by linarith) he
  · intro i _
    split <;> positivity
  · refine le_of_eq ?_
    have e : ∀ i ∈ range (2 ^ n), (if subIndex n (inOrder n indices) i = m then ‖v i‖ * √(1 / q) else 0) ^ 2
        = if subIndex n (inOrder n indices) i = m then Complex.normSq (v i) / q else 0 := by
      intro i _
      by_cases hc : subIndex n (inOrder n indices) i = m
      · rw [if_pos hc, if_pos hc, mul_pow, Real.sq_sqrt (by positivity), ← Complex.normSq_eq_norm_sq]
        ring
      · rw [if_neg hc, if_neg hc]
        ring
    rw [Finset.sum_congr rfl e, ← Finset.sum_filter, ← Finset.sum_div]
    exact div_self hq0.ne'
  · intro i hi
    have e : ((List.range (2 ^ n)).map fun i =>
        if subIndex n (inOrder n indices) i = m then F.scale (vec.getD i 0) (F.sqrt (F.div 1 p)) else 0).getD i 0
        = if subIndex n (inOrder n indices) i = m then F.scale (v i) (F.sqrt (F.div 1 p)) else 0 := by
      simp [hi, hv]
    rw [e]
    by_cases hc : subIndex n (inOrder n indices) i = m
    · simp only [if_pos hc]
      have hvi : Complex.normSq (v i) ≤ q := by
        rw [hqdef]
        unfold outcomeProb
        exact Finset.single_le_sum (f := fun i => Complex.normSq (v i)) (fun _ _ => Complex.normSq_nonneg _)
          (Finset.mem_filter.2 ⟨Finset.mem_range.2 hi, hc⟩)
      have hn1 : ‖v i‖ * √(1 / q) ≤ 1 := by
        rw [hsqq, mul_one_div, div_le_one (Real.sqrt_pos.2 hq0)]
        apply Real.le_sqrt_of_sq_le
        rw [← Complex.normSq_eq_norm_sq]
        exact hvi
      have e2 : v i / ((√q : ℝ) : ℂ) = v i * ((√(1 / q) : ℝ) : ℂ) := by
        rw [hsqq]
        push_cast
        rw [mul_one_div]
      have := scale_ranged hF hw1 hC1 (hC2.trans h2big) hsq0 hn1 hμ
      rw [← e2] at this
      exact this
    · simp only [if_neg hc]
      simpa using he

/-- C95 with underflow and overflow: an outcome whose probability is well above the underflow threshold is returned with its probability,
up to a relative error, and the state is the normalised projection, up to an explicit error. -/
theorem C95_ranged_collapse (hF : Ranged F u eta big) (h : IdxOK n indices) {vec out out' : List ℂ} (hl : vec.length = 2 ^ n)
    (hlo : out.length = 2 ^ n) (hroom : RoomR u eta big n (totalProb n fun c => vec.getD c 0)) {measured : Option Int} {x p : ℝ}
    (hx0 : 0 ≤ x) (hx1 : x ≤ 1) {m : Nat} (hr : measureF F indices n vec out 0 0 measured none x 0 = .ok (m, p, out'))
    (hP : totalProb n (fun c => vec.getD c 0) ≤ 2)
    (hq : drawTiny u eta n < outcomeProb n indices (fun c => vec.getD c 0) m)
    (hbig : 8 / outcomeProb n indices (fun c => vec.getD c 0) m ≤ big) (hw1 : u + 4 * eta < 1)
    (hG : factor (u + 4 * eta) ^ (2 ^ (n - indices.length) + 4)
      * factor (drawTiny u eta n / outcomeProb n indices (fun c => vec.getD c 0) m) ≤ 2) :
    |p - outcomeProb n indices (fun c => vec.getD c 0) m|
      ≤ (factor u ^ (2 ^ (n - indices.length) + 1) * factor (drawTiny u eta n / outcomeProb n indices (fun c => vec.getD c 0) m) - 1)
        * outcomeProb n indices (fun c => vec.getD c 0) m ∧
    out'.length = 2 ^ n ∧
    dist2 n (fun i => out'.getD i 0) (fun i => if subIndex n (inOrder n indices) i = m
        then vec.getD i 0 / ((√(outcomeProb n indices (fun c => vec.getD c 0) m) : ℝ) : ℂ) else 0)
      ≤ factor (u + 4 * eta) ^ (2 ^ (n - indices.length) + 4)
        * factor (drawTiny u eta n / outcomeProb n indices (fun c => vec.getD c 0) m) - 1 + √(2 ^ n) * eta := by
  obtain ⟨hm, hq0, hp, hp0, rfl⟩ := C95_ranged_never hF h hl hlo hroom hx0 hx1 hr
  have hrel := rel_prob hF h vec hroom hm hq
  rw [← hp] at hrel
  have hρ0 := div_nonneg (drawTiny_nonneg hF n) hq0.le
  have hρ1 := (div_lt_one hq0).2 hq
  refine ⟨rel_abs (one_le_mul_of_one_le_of_one_le (hF.bpow _) (one_le_factor hρ0 hρ1)) hq0.le hrel, by simp, ?_⟩
  exact collapse_ranged hF hP hq0 hρ0 hρ1 hbig hw1 hG hrel

/-! ## Operations made of roundings -/

section Rounding

variable {fl : ℝ → ℝ} {acc : ℝ → List ℝ → ℝ} {ε η B : ℝ}

theorem sumOf_nonneg (hpos : ∀ x, 0 ≤ x → 0 ≤ fl x) {L : List ℝ} {s : ℝ} (h : SumOf fl L s) (hL : ∀ x ∈ L, 0 ≤ x) : 0 ≤ s := by
  induction h with
  | one x => exact hL x (by simp)
  | add h h' ih ih' => exact hpos _ (add_nonneg (ih fun x hx => hL x (by simp [hx])) (ih' fun x hx => hL x (by simp [hx])))
  | perm hp h ih => exact ih fun x hx => hL x (hp.mem_iff.1 hx)

theorem sumOf_zero (h0 : fl 0 = 0) {L : List ℝ} {s : ℝ} (h : SumOf fl L s) (hL : ∀ x ∈ L, x = 0) : s = 0 := by
  induction h with
  | one x => exact hL x (by simp)
  | add h h' ih ih' => rw [ih fun x hx => hL x (by simp [hx]), ih' fun x hx => hL x (by simp [hx]), add_zero, h0]
  | perm hp h ih => exact ih fun x hx => hL x (hp.mem_iff.1 hx)

/-- Any order of the additions. -/
theorem within_sumOf (h0 : 0 ≤ ε) (h1 : ε < 1) (hη : 0 ≤ η) (hfl : ∀ x, |x| ≤ B → |fl x - x| ≤ ε * |x| + η)
    (hpos : ∀ x, 0 ≤ x → 0 ≤ fl x) {L : List ℝ} {s : ℝ} (h : SumOf fl L s) (hL : ∀ x ∈ L, 0 ≤ x)
    (hB : (L.sum + (L.length - 1 : Nat) * η) * factor ε ^ (L.length - 1) ≤ B) :
    L ≠ [] ∧ Within (factor ε ^ (L.length - 1)) ((L.length - 1 : Nat) * η) s L.sum := by
  have hb := one_le_factor h0 h1
  induction h with
  | one x => exact ⟨by simp, by simpa using within_refl le_rfl le_rfl (hL x (by simp))⟩
  | @add L L' s s' h h' ih ih' =>
    have hn : L ≠ [] := by
      clear * - h
      induction h with
      | one x => simp
      | add h h' ih ih' => simp [ih]
      | perm hp h ih => intro e; rw [e] at hp; exact ih hp.eq_nil
    have hn' : L' ≠ [] := by
      clear * - h'
      induction h' with
      | one x => simp
      | add h h' ih ih' => simp [ih]
      | perm hp h ih => intro e; rw [e] at hp; exact ih hp.eq_nil
    have hl := List.length_pos_of_ne_nil hn
    have hl' := List.length_pos_of_ne_nil hn'
    have hs : 0 ≤ L.sum := List.sum_nonneg fun x hx => hL x (by simp [hx])
    have hs' : 0 ≤ L'.sum := List.sum_nonneg fun x hx => hL x (by simp [hx])
    rw [List.length_append, List.sum_append] at hB
    have hmono : ∀ (x : ℝ) (a : Nat), 0 ≤ x → x ≤ L.sum + L'.sum → a ≤ L.length + L'.length - 1 →
        (x + a * η) * factor ε ^ a ≤ (L.sum + L'.sum + (L.length + L'.length - 1 : Nat) * η) * factor ε ^ (L.length + L'.length - 1) := by
      intro x a hx0 hx ha
      have : (a : ℝ) ≤ (L.length + L'.length - 1 : Nat) := by exact_mod_cast ha
      apply mul_le_mul _ (pow_le_pow_right₀ hb ha) (by positivity) (by positivity)
      have := mul_le_mul_of_nonneg_right this hη
      linarith
    obtain ⟨_, hr⟩ := ih (fun x hx => hL x (by simp [hx])) ((hmono _ _ hs (by linarith) (by omega)).trans hB)
    obtain ⟨_, hr'⟩ := ih' (fun x hx => hL x (by simp [hx])) ((hmono _ _ hs' (by linarith) (by omega)).trans hB)
    refine ⟨by simp [hn], ?_⟩
    have hk : ∀ k, k ≤ L.length + L'.length - 2 → factor ε ^ k ≤ factor ε ^ (L.length + L'.length - 2) := fun k hk =>
      pow_le_pow_right₀ hb hk
    have hx := sumOf_nonneg hpos h fun x hx => hL x (by simp [hx])
    have hx' := sumOf_nonneg hpos h' fun x hx => hL x (by simp [hx])
    have r1 := within_mono (by positivity) (hk _ (by omega)) (by positivity) (le_refl _) hx hs hr
    have r2 := within_mono (by positivity) (hk _ (by omega)) (by positivity) (le_refl _) hx' hs' hr'
    have r3 := within_add r1 r2
    have ec : ((L.length - 1 : Nat) : ℝ) * η + ((L'.length - 1 : Nat) : ℝ) * η = (L.length + L'.length - 2 : Nat) * η := by
      rw [← add_mul]
      congr 1
      have : L.length + L'.length - 2 = (L.length - 1) + (L'.length - 1) := by omega
      rw [this]
      push_cast
      ring
    rw [ec] at r3
    have hsB : |s + s'| ≤ B := by
      rw [abs_of_nonneg (by linarith)]
      exact r3.2.trans ((hmono _ _ (by linarith) le_rfl (by omega)).trans hB)
    have r4 := within_of_err h0 h1 (by linarith : 0 ≤ s + s') (hfl _ hsB)
    have r5 := within_trans hb (one_le_pow₀ hb) hη (by positivity) r4 r3
    rw [List.length_append, List.sum_append]
    have e : L.length + L'.length - 1 = (L.length + L'.length - 2) + 1 := by omega
    rw [e, pow_succ']
    have e2 : η + ((L.length + L'.length - 2 : Nat) : ℝ) * η = ((L.length + L'.length - 2 + 1 : Nat) : ℝ) * η := by
      push_cast
      ring
    rwa [e2] at r5
  | @perm L L' s hp h ih =>
    rw [← hp.length_eq, ← hp.sum_eq] at hB ⊢
    obtain ⟨hn, hr⟩ := ih (fun x hx => hL x (hp.mem_iff.1 hx)) hB
    exact ⟨fun e => by rw [e] at hp; exact hn hp.eq_nil, hr⟩

theorem within_sq {b e a r : ℝ} (hb : 1 ≤ b) (he : 0 ≤ e) (ha : 0 ≤ a) (hr : 0 ≤ r) (h : Within b e a r) :
    Within (b * b * (1 + e)) (2 * e) (a * a) (r * r) := by
  have key : ∀ a r : ℝ, 0 ≤ a → 0 ≤ r → r ≤ (a + e) * b → r * r ≤ (a * a + 2 * e) * (b * b * (1 + e)) := by
    intro a r ha hr h
    have h1 := mul_le_mul h h hr (by positivity)
    have h2 : 2 * a * e ≤ e * (a * a) + e := by nlinarith [mul_nonneg he (sq_nonneg (a - 1))]
    have h3 : (a + e) * (a + e) ≤ (a * a + 2 * e) * (1 + e) := by nlinarith [mul_nonneg he he]
    have h4 := mul_le_mul_of_nonneg_right h3 (by positivity : 0 ≤ b * b)
    nlinarith
  exact ⟨key a r ha hr h.1, key r a hr ha h.2⟩

/-- C95: operations made of a rounding with relative error `ε` and, below the normal range, absolute error `η`, for numbers up to `B`. -/
theorem C95_rounding_ranged (h0 : 0 ≤ ε) (h1 : ε ≤ 1 / 56) (hη : 0 ≤ η) (hηε : η ≤ ε) (hB : 16 ≤ B)
    (hfl : ∀ x, |x| ≤ B → |fl x - x| ≤ ε * |x| + η) (hpos : ∀ x, 0 ≤ x → 0 ≤ fl x) (hzero : fl 0 = 0) (hidem : ∀ x, fl (fl x) = fl x)
    (hacc : ∀ a L, SumOf fl (a :: L) (acc a L)) : Ranged (FOps.ofRounding fl acc) (8 * ε) (8 * η) (B / 4) := by
  have hlt : ε < 1 := by linarith
  have hb := one_le_factor h0 hlt
  have hmono : factor ε ≤ factor (8 * ε) := factor_mono (by linarith) (by linarith)
  have up : ∀ x, |x| ≤ B / 4 → |fl x - x| ≤ 8 * ε * |x| + 8 * η := fun x hx =>
    (hfl x (by linarith)).trans (by nlinarith [abs_nonneg x])
  have f7 := factor_pow_err h0 h1
  have f87 : factor ε ^ 7 ≤ 8 / 7 := by linarith
  have fk : ∀ k ≤ 7, factor ε ^ k ≤ 8 / 7 := fun k hk => (pow_le_pow_right₀ hb hk).trans f87
  have one : ∀ x, 0 ≤ x → x ≤ B → Within (factor ε) η (fl x) x := fun x hx hxB =>
    within_of_err h0 hlt hx (hfl x (by rwa [abs_of_nonneg hx]))
  have hmem : ∀ {a : ℝ} {L : List ℝ}, 0 ≤ a → (∀ x ∈ L, 0 ≤ x) → ∀ x ∈ a :: L, 0 ≤ x := by
    intro a L ha hL x hx
    rcases List.mem_cons.1 hx with rfl | hx
    · exact ha
    · exact hL x hx
  refine ⟨by linarith, by linarith, by linarith, fun x y => up _, fun x y => up _, fun x y => up _, fun x y => up _, ?_, ?_, ?_, ?_,
    fun x y hx hy => hpos _ (by linarith), fun x y hx hy => hpos _ (mul_nonneg hx hy), fun z => hpos _ (mul_self_nonneg _), ?_, ?_, ?_, ?_, ?_⟩
  · intro x hx
    have := up (√x) (by rwa [abs_of_nonneg (Real.sqrt_nonneg x)])
    rwa [abs_of_nonneg (Real.sqrt_nonneg x)] at this
  · intro z hz
    have hN := Complex.normSq_nonneg z
    have hNe : Complex.normSq z = z.re * z.re + z.im * z.im := Complex.normSq_apply z
    have hr0 := mul_self_nonneg z.re
    have hi0 := mul_self_nonneg z.im
    have hre := one (z.re * z.re) hr0 (by linarith)
    have him := one (z.im * z.im) hi0 (by linarith)
    have hsum := within_add hre him
    rw [← hNe] at hsum
    have p0 := add_nonneg (hpos _ hr0) (hpos _ hi0)
    have hη1 : η ≤ 1 / 56 := hηε.trans h1
    have hfB : factor ε ≤ 8 / 7 := by simpa using fk 1 (by norm_num)
    have hs1 : fl (z.re * z.re) + fl (z.im * z.im) ≤ B := by
      have h2 := hsum.2
      have h3 : (Complex.normSq z + (η + η)) * factor ε ≤ (B / 4 + 1) * (8 / 7) :=
        mul_le_mul (by linarith) hfB (by linarith) (by linarith)
      linarith
    have hs := within_trans hb hb hη (by linarith) (one _ p0 hs1) hsum
    generalize hsd : fl (fl (z.re * z.re) + fl (z.im * z.im)) = s at hs
    have s0 : 0 ≤ s := by rw [← hsd]; exact hpos _ p0
    have f2 : factor ε * factor ε ≤ 8 / 7 := by have := fk 2 (by norm_num); rwa [pow_two] at this
    have hsB : s ≤ 2 * (B / 4 + 1) := by
      have h2 := hs.2
      have h3 : (Complex.normSq z + (η + (η + η))) * (factor ε * factor ε) ≤ (B / 4 + 1) * (8 / 7) :=
        mul_le_mul (by linarith) f2 (by positivity) (by linarith)
      linarith
    have hsq : √s ≤ s + 1 := by
      rw [Real.sqrt_le_left (by linarith)]
      nlinarith
    have ha := one (√s) (Real.sqrt_nonneg _) (by linarith)
    generalize had : fl (√s) = a at ha
    have a0 : 0 ≤ a := by rw [← had]; exact hpos _ (Real.sqrt_nonneg _)
    have haa := within_sq hb hη a0 (Real.sqrt_nonneg s) ha
    rw [Real.mul_self_sqrt s0] at haa
    have hη2 : 1 + η ≤ factor ε := by
      unfold factor
      rw [le_div_iff₀ (by linarith)]
      nlinarith
    have haa' := within_mono (c := factor ε ^ 3) (d := 2 * η) (by positivity)
      (by rw [pow_succ, pow_two]; exact mul_le_mul_of_nonneg_left hη2 (by positivity)) (by linarith) le_rfl (mul_self_nonneg a) s0 haa
    have haB : a * a ≤ B := by
      have h2 := haa'.2
      have h3 : (s + 2 * η) * factor ε ^ 3 ≤ (2 * (B / 4 + 1) + 1 / 28) * (8 / 7) :=
        mul_le_mul (by linarith) (fk 3 (by norm_num)) (by positivity) (by linarith)
      linarith
    have hf := within_trans hb (one_le_pow₀ hb) hη (by linarith) (one _ (mul_self_nonneg a) haB) haa'
    have hf' := within_trans (by nlinarith [one_le_pow₀ hb (n := 3)]) (by nlinarith) (by linarith) (by linarith) hf hs
    have e : factor ε * factor ε ^ 3 * (factor ε * factor ε) = factor ε ^ 6 := by ring
    rw [e] at hf'
    have hfin := within_abs (one_le_pow₀ hb) (by linarith) hN hf'
    have eF : (FOps.ofRounding fl acc).absSq z = fl (a * a) := by
      change absSqWith fl z = _
      unfold absSqWith
      simp only [hsd, had]
    rw [eF]
    have h6 : factor ε ^ 6 - 1 ≤ 8 * ε := by linarith [pow_le_pow_right₀ hb (show 6 ≤ 7 by norm_num)]
    have h7 := mul_le_mul_of_nonneg_right h6 hN
    have h8 := mul_le_mul_of_nonneg_right (fk 6 (by norm_num)) (by linarith : 0 ≤ η + 2 * η + (η + (η + η)))
    linarith
  · intro z r hz
    have hre := Complex.abs_re_le_norm (z * (r : ℂ))
    have him := Complex.abs_im_le_norm (z * (r : ℂ))
    have e1 : (z * (r : ℂ)).re = z.re * r := by simp [Complex.mul_re]
    have e2 : (z * (r : ℂ)).im = z.im * r := by simp [Complex.mul_im]
    rw [e1] at hre
    rw [e2] at him
    have k1 := hfl (z.re * r) (by linarith)
    have k2 := hfl (z.im * r) (by linarith)
    have hle := Complex.norm_le_abs_re_add_abs_im ((FOps.ofRounding fl acc).scale z r - z * (r : ℂ))
    rw [Complex.sub_re, Complex.sub_im, e1, e2] at hle
    change _ ≤ |fl (z.re * r) - z.re * r| + |fl (z.im * r) - z.im * r| at hle
    have k3 := mul_le_mul_of_nonneg_left hre h0
    have k4 := mul_le_mul_of_nonneg_left him h0
    have k5 : 0 ≤ ε * ‖z * (r : ℂ)‖ := by positivity
    linarith
  · intro a L ha hL hbig
    have hS : 0 ≤ a + L.sum := add_nonneg ha (List.sum_nonneg hL)
    have hp8 : factor ε ^ L.length ≤ factor (8 * ε) ^ L.length := pow_le_pow_left₀ (by linarith) hmono _
    have hl0 : 0 ≤ (L.length : ℝ) * η := by positivity
    have h := (within_sumOf (B := B) h0 hlt hη hfl hpos (hacc a L) (hmem ha hL) (by
      simp only [List.length_cons, Nat.add_sub_cancel, List.sum_cons]
      have h2 : (a + L.sum + L.length * η) * factor ε ^ L.length ≤ (a + L.sum + L.length * (8 * η)) * factor (8 * ε) ^ L.length :=
        mul_le_mul (by linarith) hp8 (by positivity) (by linarith)
      linarith)).2
    simp only [List.length_cons, Nat.add_sub_cancel, List.sum_cons] at h
    exact within_mono (by positivity) hp8 hl0 (by linarith) (sumOf_nonneg hpos (hacc a L) (hmem ha hL)) hS h
  · intro a L ha hL
    exact sumOf_nonneg hpos (hacc a L) (hmem ha hL)
  · change absSqWith fl 0 = 0
    simp [absSqWith, hzero]
  · intro L hL
    refine sumOf_zero hzero (hacc 0 L) fun x hx => ?_
    rcases List.mem_cons.1 hx with rfl | hx
    · rfl
    · exact hL x hx
  · intro x y
    change fl (fl (x * y) - 0) = fl (x * y)
    rw [sub_zero, hidem]
  · intro x y
    change fl (fl (x - y) - 0) = fl (x - y)
    rw [sub_zero, hidem]

end Rounding

/-! ## Binary64 -/

theorem round53_fix {j g : ℤ} (h : Int.log 2 |(j : ℝ) * 2 ^ g| - 52 ≤ g) : round53 ((j : ℝ) * 2 ^ g) = (j : ℝ) * 2 ^ g := by
  unfold round53
  generalize Int.log 2 |(j : ℝ) * 2 ^ g| - 52 = e at h
  obtain ⟨d, rfl⟩ := Int.le.dest h
  have e1 : (j : ℝ) * 2 ^ (e + d) / 2 ^ e = ((j * 2 ^ d : ℤ) : ℝ) := by
    rw [zpow_add₀ (by norm_num), zpow_natCast]
    have : (2 : ℝ) ^ e ≠ 0 := (zpow_pos (by norm_num) _).ne'
    field_simp
    push_cast
    ring
  rw [e1, round_intCast, zpow_add₀ (by norm_num), zpow_natCast]
  push_cast
  ring

theorem round53_form {x : ℝ} (hx : x ≠ 0) : ∃ k : ℤ, round53 x = (k : ℝ) * 2 ^ (Int.log 2 |x| - 52) ∧ 2 ^ 52 ≤ |k| ∧ |k| ≤ 2 ^ 53 := by
  have hax : 0 < |x| := abs_pos.2 hx
  refine ⟨_, rfl, ?_⟩
  set e := Int.log 2 |x|
  have hp : (0 : ℝ) < 2 ^ (e - 52) := zpow_pos (by norm_num) _
  have he : (2 : ℝ) ^ e ≤ |x| := by exact_mod_cast Int.zpow_log_le_self (b := 2) (by norm_num) hax
  have he' : |x| < (2 : ℝ) ^ (e + 1) := by exact_mod_cast Int.lt_zpow_succ_log_self (b := 2) (by norm_num) |x|
  set y := x / 2 ^ (e - 52) with hy
  have hay : |y| = |x| / 2 ^ (e - 52) := by rw [hy, abs_div, abs_of_pos hp]
  have h1 : (2 : ℝ) ^ 52 ≤ |y| := by
    rw [hay, le_div_iff₀ hp, ← zpow_natCast, ← zpow_add₀ (by norm_num)]
    have e3 : ((52 : ℕ) : ℤ) + (e - 52) = e := by omega
    rw [e3]
    exact he
  have h2 : |y| < (2 : ℝ) ^ 53 := by
    rw [hay, div_lt_iff₀ hp, ← zpow_natCast, ← zpow_add₀ (by norm_num)]
    have e3 : ((53 : ℕ) : ℤ) + (e - 52) = e + 1 := by omega
    rw [e3]
    exact he'
  have h3 := abs_sub_round y
  have h4 : |(|y| - ((|round y| : ℤ) : ℝ))| ≤ 1 / 2 := by
    rw [Int.cast_abs]
    exact (abs_abs_sub_abs_le _ _).trans h3
  rw [abs_le] at h4
  constructor
  · have : ((2 ^ 52 : ℤ) : ℝ) < ((|round y| + 1 : ℤ) : ℝ) := by push_cast at h4 ⊢; linarith
    have := Int.cast_lt.1 this
    omega
  · have : ((|round y| : ℤ) : ℝ) < ((2 ^ 53 + 1 : ℤ) : ℝ) := by push_cast at h4 ⊢; linarith
    have := Int.cast_lt.1 this
    omega

theorem round53_idem (x : ℝ) : round53 (round53 x) = round53 x := by
  rcases eq_or_ne x 0 with rfl | hx
  · simp [round53]
  obtain ⟨k, h1, h2, h3⟩ := round53_form hx
  rw [h1]
  generalize Int.log 2 |x| - 52 = g
  have hp : (0 : ℝ) < 2 ^ g := zpow_pos (by norm_num) _
  have hk0 : (0 : ℝ) < ((|k| : ℤ) : ℝ) := by
    have : (0 : ℤ) < |k| := by omega
    exact_mod_cast this
  rcases h3.lt_or_eq with h3 | h3
  · apply round53_fix
    have : Int.log 2 |(k : ℝ) * 2 ^ g| < g + 53 := by
      rw [← Int.lt_zpow_iff_log_lt (by norm_num) (by rw [abs_mul, abs_of_pos hp, ← Int.cast_abs]; positivity)]
      rw [abs_mul, abs_of_pos hp, ← Int.cast_abs, mul_comm, show ((2 : ℕ) : ℝ) = 2 by norm_num, zpow_add₀ (by norm_num)]
      apply mul_lt_mul_of_pos_left _ hp
      have : ((|k| : ℤ) : ℝ) < ((2 ^ 53 : ℤ) : ℝ) := Int.cast_lt.2 h3
      have e5 : (2 : ℝ) ^ (53 : ℤ) = ((2 ^ 53 : ℤ) : ℝ) := by norm_num
      rw [e5]
      exact this
    omega
  · obtain ⟨σ, hσ, hks⟩ : ∃ σ : ℤ, |σ| = 1 ∧ k = σ * 2 ^ 53 := by
      rcases le_or_gt 0 k with hk | hk
      · exact ⟨1, by norm_num, by rw [abs_of_nonneg hk] at h3; omega⟩
      · exact ⟨-1, by norm_num, by rw [abs_of_neg hk] at h3; omega⟩
    have e : (k : ℝ) * 2 ^ g = (σ : ℝ) * 2 ^ (g + 53) := by
      rw [hks, zpow_add₀ (by norm_num)]
      push_cast
      have : (2 : ℝ) ^ (53 : ℤ) = 2 ^ 53 := by norm_cast
      rw [this]
      ring
    rw [e]
    apply round53_fix
    have : |(σ : ℝ) * 2 ^ (g + 53)| = ((2 : ℕ) : ℝ) ^ (g + 53) := by
      rw [abs_mul, ← Int.cast_abs, hσ, abs_of_pos (zpow_pos (by norm_num) _)]
      push_cast
      ring
    rw [this, Int.log_zpow (by norm_num)]
    omega

theorem round53_nonneg {x : ℝ} (hx : 0 ≤ x) : 0 ≤ round53 x := by
  unfold round53
  have hp : (0 : ℝ) < 2 ^ (Int.log 2 |x| - 52) := zpow_pos (by norm_num) _
  apply mul_nonneg _ hp.le
  have h1 : 0 ≤ x / 2 ^ (Int.log 2 |x| - 52) := div_nonneg hx hp.le
  generalize x / 2 ^ (Int.log 2 |x| - 52) = y at h1
  have h2 := abs_le.1 (abs_sub_round y)
  have h3 : ((-1 : ℤ) : ℝ) < (round y : ℝ) := by push_cast; linarith
  have := Int.cast_lt.1 h3
  have h4 : 0 ≤ round y := by omega
  exact_mod_cast h4

theorem round64_nonneg {x : ℝ} (hx : 0 ≤ x) : 0 ≤ round64 x := by
  unfold round64
  split
  · exact le_rfl
  · split
    · norm_num
    · exact round53_nonneg hx

theorem round64_idem (x : ℝ) : round64 (round64 x) = round64 x := by
  have key : ∀ y : ℝ, 1 / 2 ^ 1022 ≤ |y| → |y| ≤ 2 ^ 1023 → round64 y = round53 y := by
    intro y h1 h2
    unfold round64
    rw [if_neg (not_lt.2 h1), if_neg (not_lt.2 h2)]
  by_cases h1 : |x| < 1 / 2 ^ 1022
  · have : round64 x = 0 := by unfold round64; rw [if_pos h1]
    rw [this, round64_zero]
  by_cases h2 : 2 ^ 1023 < |x|
  · have : round64 x = 7 := by unfold round64; rw [if_neg h1, if_pos h2]
    rw [this, key 7 _ _]
    · have h := round53_fix (j := 7) (g := 0) (by
        have : Int.log 2 |((7 : ℤ) : ℝ) * 2 ^ (0 : ℤ)| < 52 := by
          rw [← Int.lt_zpow_iff_log_lt (by norm_num) (by norm_num)]
          norm_num
        omega)
      simpa using h
    · rw [abs_of_pos (by norm_num)]
      refine le_trans ?_ (by norm_num : (1 : ℝ) ≤ 7)
      rw [div_le_one (by positivity)]
      exact one_le_pow₀ (by norm_num)
    · rw [abs_of_pos (by norm_num)]
      refine le_trans (by norm_num : (7 : ℝ) ≤ 2 ^ 3) ?_
      exact pow_le_pow_right₀ (by norm_num) (by norm_num)
  rw [not_lt] at h1 h2
  rw [key x h1 h2]
  have hx0 : 0 < |x| := lt_of_lt_of_le (by positivity) h1
  have hx : x ≠ 0 := abs_pos.1 hx0
  have hz1022 : (1 : ℝ) / 2 ^ 1022 = ((2 : ℕ) : ℝ) ^ (-1022 : ℤ) := by
    rw [zpow_neg, one_div, Nat.cast_ofNat, zpow_ofNat]
  have hz1023 : (2 : ℝ) ^ 1023 = 2 ^ (1023 : ℤ) := (zpow_ofNat _ _).symm
  rw [← round53_idem x]
  by_cases he : Int.log 2 |x| < 1023
  · obtain ⟨k, k1, k2, k3⟩ := round53_form hx
    have hlog : -1022 ≤ Int.log 2 |x| := by
      rw [← Int.zpow_le_iff_le_log (by norm_num) hx0, ← hz1022]
      exact h1
    rw [round53_idem]
    rw [key]
    · exact round53_idem x
    · rw [k1, abs_mul, abs_of_pos (zpow_pos (by norm_num) _ : (0 : ℝ) < 2 ^ (Int.log 2 |x| - 52)), ← Int.cast_abs, hz1022]
      have : ((2 ^ 52 : ℤ) : ℝ) ≤ ((|k| : ℤ) : ℝ) := Int.cast_le.2 k2
      calc (((2 : ℕ) : ℝ) ^ (-1022 : ℤ)) ≤ (2 : ℝ) ^ (Int.log 2 |x|) := by
            push_cast
            exact zpow_le_zpow_right₀ (by norm_num) hlog
        _ = ((2 ^ 52 : ℤ) : ℝ) * 2 ^ (Int.log 2 |x| - 52) := by
            rw [zpow_sub₀ (by norm_num)]
            push_cast
            have : (2 : ℝ) ^ (52 : ℤ) = 2 ^ 52 := by norm_cast
            rw [this]
            field_simp
            norm_num
        _ ≤ _ := mul_le_mul_of_nonneg_right this (zpow_pos (by norm_num) _).le
    · rw [k1, abs_mul, abs_of_pos (zpow_pos (by norm_num) _ : (0 : ℝ) < 2 ^ (Int.log 2 |x| - 52)), ← Int.cast_abs, hz1023]
      have : ((|k| : ℤ) : ℝ) ≤ ((2 ^ 53 : ℤ) : ℝ) := Int.cast_le.2 k3
      calc ((|k| : ℤ) : ℝ) * 2 ^ (Int.log 2 |x| - 52) ≤ ((2 ^ 53 : ℤ) : ℝ) * 2 ^ (Int.log 2 |x| - 52) :=
            mul_le_mul_of_nonneg_right this (zpow_pos (by norm_num) _).le
        _ = (2 : ℝ) ^ (Int.log 2 |x| + 1) := by
            rw [zpow_sub₀ (by norm_num), zpow_add₀ (by norm_num)]
            push_cast
            have : (2 : ℝ) ^ (52 : ℤ) = 2 ^ 52 := by norm_cast
            rw [this, zpow_one]
            field_simp
            norm_num
        _ ≤ (2 : ℝ) ^ (1023 : ℤ) := zpow_le_zpow_right₀ (by norm_num) (by omega)
  · have hxx : |x| = 2 ^ 1023 := by
      apply le_antisymm h2
      have h5 : (1023 : ℤ) ≤ Int.log 2 |x| := by omega
      rw [← Int.zpow_le_iff_le_log (by norm_num) hx0] at h5
      rw [hz1023]
      exact_mod_cast h5
    have hfix : round53 x = x := by
      obtain ⟨σ, hσ, hs⟩ : ∃ σ : ℤ, |σ| = 1 ∧ x = (σ : ℝ) * 2 ^ (1023 : ℤ) := by
        rcases le_or_gt 0 x with hk | hk
        · exact ⟨1, by norm_num, by rw [abs_of_nonneg hk] at hxx; rw [hxx, hz1023]; push_cast; ring⟩
        · exact ⟨-1, by norm_num, by rw [abs_of_neg hk] at hxx; rw [← hz1023, ← hxx]; push_cast; ring⟩
      rw [hs]
      apply round53_fix
      have : |(σ : ℝ) * 2 ^ (1023 : ℤ)| = ((2 : ℕ) : ℝ) ^ (1023 : ℤ) := by
        rw [abs_mul, ← Int.cast_abs, hσ, abs_of_pos (zpow_pos (by norm_num) _)]
        push_cast
        ring
      rw [this, Int.log_zpow (by norm_num)]
      omega
    rw [hfix, hfix]
    exact (key x h1 h2).trans hfix

/-- Binary64 with underflow to zero: relative error `2 ^ -50`, absolute error `2 ^ -1019`, numbers up to `2 ^ 1021`. -/
theorem binary64_ranged : Ranged (FOps.ofRounding round64 fun a L => L.foldl (fun s x => round64 (s + x)) a)
    (8 * (1 / 2 ^ 53)) (8 * (1 / 2 ^ 1022)) (2 ^ 1023 / 4) := by
  refine C95_rounding_ranged (by positivity) (by norm_num) (by positivity) ?_ ?_ round64_err (fun _ => round64_nonneg) round64_zero round64_idem
    fun a L => sumOf_foldl round64 L (.one a)
  · exact one_div_le_one_div_of_le (by positivity) (pow_le_pow_right₀ (by norm_num) (by norm_num))
  · calc (16 : ℝ) = 2 ^ 4 := by norm_num
      _ ≤ 2 ^ 1023 := pow_le_pow_right₀ (by norm_num) (by norm_num)

/-- C95: with binary64 and at most 30 qubits, underflow moves the borders of the outcomes by less than `2 ^ -900`. -/
theorem C95_binary64_tiny {n : Nat} (hn : n ≤ 30) :
    drawTiny (8 * (1 / 2 ^ 53)) (8 * (1 / 2 ^ 1022)) n ≤ 1 / 2 ^ 900 ∧ factor (8 * (1 / 2 ^ 53)) ^ (2 ^ (n + 1) + 2) ≤ 2 := by
  have e : (8 * (1 / 2 ^ 53) : ℝ) = 1 / 2 ^ 50 := by norm_num
  have h1 := C95_double hn
  unfold drawErr at h1
  rw [← e] at h1
  have h2 : factor (8 * (1 / 2 ^ 53)) ^ (2 ^ (n + 1) + 2) ≤ 2 := by
    have : (1 : ℝ) / 2 ^ 15 ≤ 1 := by norm_num
    linarith
  refine ⟨?_, h2⟩
  unfold drawTiny
  have h3 : (2 : ℝ) ^ n ≤ 2 ^ 30 := pow_le_pow_right₀ (by norm_num) hn
  have e2 : (8 * (1 / 2 ^ 1022) : ℝ) = 1 / 2 ^ 119 * (1 / 2 ^ 900) := by
    have : (2 : ℝ) ^ 1022 = 2 ^ 3 * 2 ^ 119 * 2 ^ 900 := by rw [← pow_add, ← pow_add]
    rw [this]
    field_simp
    norm_num
  rw [e2]
  generalize hη : (1 : ℝ) / 2 ^ 900 = η
  have hη0 : 0 ≤ η := by rw [← hη]; positivity
  calc 8 * 2 ^ n * (1 / 2 ^ 119 * η) * factor (8 * (1 / 2 ^ 53)) ^ (2 ^ (n + 1) + 2)
      ≤ 8 * 2 ^ 30 * (1 / 2 ^ 119 * η) * 2 := by
        refine mul_le_mul ?_ h2 (pow_nonneg (le_trans zero_le_one (one_le_factor (by positivity) (by norm_num))) _) (by positivity)
        gcongr
    _ = (8 * 2 ^ 30 * (1 / 2 ^ 119) * 2) * η := by ring
    _ ≤ 1 * η := mul_le_mul_of_nonneg_right (by norm_num) hη0
    _ = η := one_mul η

theorem binary64_room {n : Nat} (hn : n ≤ 30) {P : ℝ} (hP : P ≤ 2) :
    RoomR (8 * (1 / 2 ^ 53)) (8 * (1 / 2 ^ 1022)) (2 ^ 1023 / 4) n P := by
  unfold RoomR
  have h2 := (C95_binary64_tiny hn).2
  have h3 : (2 : ℝ) ^ (n + 2) ≤ 2 ^ 32 := pow_le_pow_right₀ (by norm_num) (by omega)
  have h4 : (8 * (1 / 2 ^ 1022) : ℝ) ≤ 8 := by
    have : (1 : ℝ) / 2 ^ 1022 ≤ 1 := by
      rw [div_le_one (by positivity)]
      exact one_le_pow₀ (by norm_num)
    linarith
  have h5 : (2 : ℝ) ^ (n + 2) * (8 * (1 / 2 ^ 1022)) ≤ 2 ^ 32 * 8 := mul_le_mul h3 h4 (by positivity) (by norm_num)
  have h6 : (2 + 2 ^ 32 * 8) * 2 ≤ (2 : ℝ) ^ 1023 / 4 := by
    rw [le_div_iff₀ (by norm_num)]
    refine le_trans (by norm_num : (2 + 2 ^ 32 * 8) * 2 * 4 ≤ (2 : ℝ) ^ 40) (pow_le_pow_right₀ (by norm_num) (by norm_num))
  refine le_trans (mul_le_mul (add_le_add hP h5) h2 ?_ (by norm_num)) h6
  exact pow_nonneg (le_trans zero_le_one (one_le_factor (by positivity) (by norm_num))) _

/-- C95: binary64 with underflow and overflow, at most 30 qubits, a state of norm near one: the distribution of the outcomes is the Born
rule up to `2 ^ -12`. -/
theorem C95_binary64_born_partial {n : Nat} {indices : List Nat} (hn : n ≤ 30) (h : IdxOK n indices) {vec out : List ℂ}
    (hl : vec.length = 2 ^ n) (hlo : out.length = 2 ^ n) (hP1 : 1 / 2 ≤ totalProb n (fun c => vec.getD c 0))
    (hP2 : totalProb n (fun c => vec.getD c 0) ≤ 2) {m : Nat} (hm : m < 2 ^ indices.length) :
    |(MeasureTheory.volume (drawsGivingF (FOps.ofRounding round64 fun a L => L.foldl (fun s x => round64 (s + x)) a)
        indices n vec out m)).toReal - outcomeProb n indices (fun c => vec.getD c 0) m / totalProb n (fun c => vec.getD c 0)|
      ≤ 1 / 2 ^ 12 := by
  refine (C95_ranged_born_partial binary64_ranged h hl hlo (by linarith) (binary64_room hn hP2) hm).trans ?_
  have h1 := C95_double hn
  have e : (8 * (1 / 2 ^ 53) : ℝ) = 1 / 2 ^ 50 := by norm_num
  have h2 := (C95_binary64_tiny hn).1
  have h3 : (1 : ℝ) / 2 ^ 900 ≤ 1 / 2 ^ 20 := one_div_le_one_div_of_le (by positivity) (pow_le_pow_right₀ (by norm_num) (by norm_num))
  have h4 : drawTiny (8 * (1 / 2 ^ 53)) (8 * (1 / 2 ^ 1022)) n / totalProb n (fun c => vec.getD c 0) ≤ 2 * (1 / 2 ^ 20) := by
    rw [div_le_iff₀ (by linarith)]
    have := h2.trans h3
    have h5 : (0 : ℝ) ≤ 1 / 2 ^ 20 := by positivity
    nlinarith
  rw [e] at h4 ⊢
  have h6 : 2 * ((1 : ℝ) / 2 ^ 15 + 2 * (1 / 2 ^ 20)) ≤ 1 / 2 ^ 12 := by norm_num
  linarith

-- the state (3/5, 0, 4/5, 0) in binary64: both outcomes of the first qubit
example : |(MeasureTheory.volume (drawsGivingF (FOps.ofRounding round64 fun a L => L.foldl (fun s x => round64 (s + x)) a)
        [0] 2 tilted tilted 1)).toReal - outcomeProb 2 [0] (fun c => tilted.getD c 0) 1 / totalProb 2 (fun c => tilted.getD c 0)|
      ≤ 1 / 2 ^ 12 :=
  C95_binary64_born_partial (by norm_num) tilted_ok rfl rfl (by rw [tilted_total]; norm_num) (by rw [tilted_total]; norm_num) (by norm_num)

theorem tilted_outcomes {m : Nat} (hm : m < 2 ^ [0].length) : 1 / 3 ≤ outcomeProb 2 [0] (fun c => tilted.getD c 0) m := by
  have h0 : subIndex 2 (inOrder 2 [0]) 0 = 0 := by decide
  have h1 : subIndex 2 (inOrder 2 [0]) 1 = 0 := by decide
  have h2 : subIndex 2 (inOrder 2 [0]) 2 = 1 := by decide
  have h3 : subIndex 2 (inOrder 2 [0]) 3 = 1 := by decide
  have hm' : m = 0 ∨ m = 1 := by
    have : m < 2 := hm
    omega
  rcases hm' with rfl | rfl <;>
    simp [outcomeProb, Finset.sum_filter, Finset.sum_range_succ, h0, h1, h2, h3, tilted, Complex.normSq_apply] <;> norm_num

-- a draw of 1/2 in binary64 gives an outcome and the collapsed state
example : ∃ m p out', measureF (FOps.ofRounding round64 fun a L => L.foldl (fun s x => round64 (s + x)) a)
      [0] 2 tilted [0, 0, 0, 0] 0 0 none none (1 / 2) 0 = .ok (m, p, out') ∧
    dist2 2 (fun i => out'.getD i 0) (fun i => if subIndex 2 (inOrder 2 [0]) i = m
        then tilted.getD i 0 / ((√(outcomeProb 2 [0] (fun c => tilted.getD c 0) m) : ℝ) : ℂ) else 0)
      ≤ factor (8 * (1 / 2 ^ 53) + 4 * (8 * (1 / 2 ^ 1022))) ^ (2 ^ (2 - [0].length) + 4)
        * factor (drawTiny (8 * (1 / 2 ^ 53)) (8 * (1 / 2 ^ 1022)) 2 / outcomeProb 2 [0] (fun c => tilted.getD c 0) m) - 1
        + √(2 ^ 2) * (8 * (1 / 2 ^ 1022)) := by
  have e : (8 * (1 / 2 ^ 53) : ℝ) = 1 / 2 ^ 50 := by norm_num
  have hd := C95_double (n := 2) (by norm_num)
  rw [← e] at hd
  have ht := (C95_binary64_tiny (n := 2) (by norm_num)).1
  have h3 : (1 : ℝ) / 2 ^ 900 ≤ 1 / 2 ^ 20 := one_div_le_one_div_of_le (by positivity) (pow_le_pow_right₀ (by norm_num) (by norm_num))
  have ht' := ht.trans h3
  have hroom := binary64_room (n := 2) (by norm_num) (P := totalProb 2 fun c => tilted.getD c 0) (by rw [tilted_total]; norm_num)
  have n15 : (1 : ℝ) / 2 ^ 15 ≤ 1 / 4 := by norm_num
  have n20 : (1 : ℝ) / 2 ^ 20 ≤ 1 / 30 := by norm_num
  obtain ⟨m, p, out', h, hm, _⟩ := C95_ranged_possible_partial binary64_ranged tilted_ok (vec := tilted) (out := [0, 0, 0, 0]) rfl rfl
    hroom (x := 1 / 2) (by rw [tilted_total]; linarith) (by rw [tilted_total]; linarith)
  have hq := tilted_outcomes hm
  have hw : (8 * (1 / 2 ^ 53) : ℝ) + 4 * (8 * (1 / 2 ^ 1022)) ≤ 1 / 100 := by
    have : (1 : ℝ) / 2 ^ 1022 ≤ 1 / 2 ^ 20 := one_div_le_one_div_of_le (by positivity) (pow_le_pow_right₀ (by norm_num) (by norm_num))
    rw [e]
    have h50 : (1 : ℝ) / 2 ^ 50 ≤ 1 / 1000 := by norm_num
    have h20 : (1 : ℝ) / 2 ^ 20 ≤ 1 / 32000 := by norm_num
    linarith
  refine ⟨m, p, out', h, (C95_ranged_collapse binary64_ranged tilted_ok rfl rfl hroom (by norm_num) (by norm_num) h
    (by rw [tilted_total]; norm_num) (by linarith) ?_ (by linarith) ?_).2.2⟩
  · calc 8 / outcomeProb 2 [0] (fun c => tilted.getD c 0) m ≤ 8 / (1 / 3) := by gcongr
      _ ≤ 2 ^ 5 := by norm_num
      _ ≤ 2 ^ 1023 / 4 := by
        rw [le_div_iff₀ (by norm_num)]
        refine le_trans (by norm_num : (2 : ℝ) ^ 5 * 4 ≤ 2 ^ 7) (pow_le_pow_right₀ (by norm_num) (by norm_num))
  · have hw0 : (0 : ℝ) ≤ 8 * (1 / 2 ^ 53) + 4 * (8 * (1 / 2 ^ 1022)) := by positivity
    have f1 := factor_mono hw (by norm_num)
    have hρ : drawTiny (8 * (1 / 2 ^ 53)) (8 * (1 / 2 ^ 1022)) 2 / outcomeProb 2 [0] (fun c => tilted.getD c 0) m ≤ 1 / 10 := by
      rw [div_le_iff₀ (by linarith)]
      linarith
    have f2 := factor_mono hρ (by norm_num)
    have f0 := one_le_factor hw0 (by linarith)
    generalize factor (8 * (1 / 2 ^ 53) + 4 * (8 * (1 / 2 ^ 1022))) = a at *
    have hp : a ^ (2 ^ (2 - [0].length) + 4) ≤ (factor (1 / 100)) ^ 6 := pow_le_pow_left₀ (by linarith) f1 6
    refine le_trans (mul_le_mul hp f2 ?_ ?_) ?_
    · exact le_trans zero_le_one (one_le_factor (div_nonneg (drawTiny_nonneg binary64_ranged 2) (by linarith)) (by linarith))
    · unfold factor; norm_num
    · unfold factor; norm_num

-- `measure_probabilities` in binary64
example := C95_ranged_probabilities binary64_ranged (n := 2) (indices := [0]) (by decide) tilted rfl
  (binary64_room (by norm_num) (by rw [tilted_total]; norm_num))

end QIP.Props
