import Verif.Lemmas.FDistMeasureRanged
import Verif.Props.FDistMeasure
import Verif.Props.FRanged

/-!
# C114 with underflow and overflow
-/

namespace QIP.Props

open Spec Finset MeasureTheory

variable {F : FOps} {u eta big : ℝ} {n K N : Nat} {indices : List Nat} {v : List ℂ} {arena : Nat → List ℂ}

/-- The distance between exact and computed borders of the workers. -/
noncomputable def selectErrR (u eta : ℝ) (n K : Nat) (T : ℝ) : ℝ := selectErr u n T + distTiny u eta n K

theorem selectErrR_nonneg (hF : Ranged F u eta big) (n K : Nat) {T : ℝ} (hT : 0 ≤ T) : 0 ≤ selectErrR u eta n K T := by
  have h1 := hF.bpow (2 ^ n + 1)
  have h2 := distTiny_nonneg hF (n := n) (K := K)
  unfold selectErrR selectErr
  have : 0 ≤ (factor u ^ (2 ^ n + 1) - 1) * (1 + T) := mul_nonneg (by linarith) (by linarith)
  linarith

/-- Upper bound: for every worker a set of random numbers outside which it is not selected or does not choose `m`. -/
theorem boxes_upper_ranged (hF : Ranged F u eta big) (h : IdxOK n indices) (hKN : K * N = 2 ^ n) (hv : v.length = 2 ^ n)
    (hroom : RoomD u eta big n K (totalProb n fun c => v.getD c 0)) (j c : Nat) {m : Nat} (hm : m < 2 ^ indices.length) :
    ∃ box : Nat → Set (JobDraw → ℝ), (∑ s ∈ range K, jobLaw (box s) ≤ ENNReal.ofReal (outcomeProb n indices (fun c => v.getD c 0) m
      + (2 * K * (selectErrR u eta n K (totalProb n fun c => v.getD c 0) + distTiny u eta n K)
        + 2 * drawErr u n * totalProb n (fun c => v.getD c 0)))) ∧
      ∀ ω p, (∀ i, 0 < ω i ∧ ω i < 1) → distChooseF F indices n K N v (ω (.inl j)) (fun i => ω (.inr ((i, i), c))) = .ok (m, p) →
        ∃ s < K, ω ∈ box s ∧ p = reportedF F indices n K N v s m := by
  have hvK : v.length = K * N := by omega
  set T := totalProb n (fun c => v.getD c 0) with hT
  have hT0 : 0 ≤ T := totalProb_nonneg n _
  set e := selectErrR u eta n K T with hedef
  have he : 0 ≤ e := selectErrR_nonneg hF n K hT0
  set d := drawErr u n with hddef
  have hd0 : 0 ≤ d := drawErr_nonneg hF.nonneg hF.lt_one n
  set t := distTiny u eta n K with htdef
  have ht0 : 0 ≤ t := distTiny_nonneg hF
  set box : Nat → Set (JobDraw → ℝ) := fun s => {ω | ω (.inl j) ∈ Set.Icc (before n N v s - e) (before n N v (s + 1) + e) ∧
    ω (.inr ((s, s), c)) ∈ if totalProb n (sl N v s) = 0 then Set.univ else
      Set.Icc (cumProb n indices (sl N v s) m / totalProb n (sl N v s) - (d + t / totalProb n (sl N v s)))
        (cumProb n indices (sl N v s) (m + 1) / totalProb n (sl N v s) + (d + t / totalProb n (sl N v s)))} with hbox
  refine ⟨box, ?_, ?_⟩
  rotate_left
  · intro ω p hω hp
    rcases distChooseF_near hF h hKN hv hroom (hω (.inl j)).1.le (hω (.inl j)).2.le
      (draw := fun i => ω (.inr ((i, i), c))) (fun i => ⟨(hω _).1.le, (hω _).2.le⟩) with ⟨h1, -⟩ | ⟨s, hs, m', hm', h1, h2, h3, h5, h6⟩
    · rw [h1] at hp
      cases hp
    · rw [h1] at hp
      simp only [Except.ok.injEq, Prod.mk.injEq] at hp
      obtain ⟨rfl, rfl⟩ := hp
      refine ⟨s, hs, ⟨⟨?_, h3⟩, ?_⟩, rfl⟩
      · cases s with
        | zero =>
          have : before n N v 0 = 0 := by simp [before]
          rw [this]
          linarith [(hω (.inl j)).1]
        | succ i =>
          have := h2 i (by omega)
          change before n N v (i + 1) ≤ _ + e at this
          linarith
      · by_cases hz : totalProb n (sl N v s) = 0
        · rw [if_pos hz]; trivial
        · rw [if_neg hz]
          have hpos := lt_of_le_of_ne (totalProb_nonneg n (sl N v s)) (Ne.symm hz)
          have hx := hω (.inr ((s, s), c))
          have hdt : 0 ≤ d + t / totalProb n (sl N v s) := by positivity
          have hmul : (d + t / totalProb n (sl N v s)) * totalProb n (sl N v s) = d * totalProb n (sl N v s) + t := by
            rw [add_mul, div_mul_cancel₀ _ hz]
          constructor
          · rw [sub_le_iff_le_add, div_le_iff₀ hpos, add_mul, hmul]
            cases m' with
            | zero =>
              simp only [cumProb, Finset.range_zero, Finset.sum_empty]
              have := mul_nonneg hx.1.le hpos.le
              positivity
            | succ i => exact h5 i (by omega)
          · rw [← sub_le_iff_le_add, le_div_iff₀ hpos, sub_mul, hmul]
            rcases h6 with e' | e'
            · rw [e', cumProb_top h]
              have : 0 ≤ d * totalProb n (sl N v s) := mul_nonneg hd0 hpos.le
              have := mul_le_mul_of_nonneg_right hx.2.le hpos.le
              linarith
            · linarith
  have hone : ∀ s ∈ range K, jobLaw (box s)
      ≤ ENNReal.ofReal (outcomeProb n indices (sl N v s) m + (2 * (e + t) + 2 * d * totalProb n (sl N v s))) := by
    intro s _
    rw [hbox]
    rw [law_pair j c s measurableSet_Icc (by split <;> [exact MeasurableSet.univ; exact measurableSet_Icc])]
    have h1 := uniform_le (before n N v s - e) (before n N v (s + 1) + e)
    rw [before_succ, show before n N v s + totalProb n (sl N v s) + e - (before n N v s - e) = totalProb n (sl N v s) + 2 * e by ring] at h1
    rw [before_succ]
    by_cases hz : totalProb n (sl N v s) = 0
    · rw [if_pos hz]
      refine (mul_le_mul' h1 (uniform_le_one _)).trans ?_
      rw [mul_one, hz]
      apply ENNReal.ofReal_le_ofReal
      linarith [outcomeProb_nonneg n indices (sl N v s) m]
    · rw [if_neg hz]
      have hpos := lt_of_le_of_ne (totalProb_nonneg n (sl N v s)) (Ne.symm hz)
      set q := outcomeProb n indices (sl N v s) m / totalProb n (sl N v s) with hq
      have hqT : q * totalProb n (sl N v s) = outcomeProb n indices (sl N v s) m := div_mul_cancel₀ _ hz
      have hq0 : 0 ≤ q := div_nonneg (outcomeProb_nonneg _ _ _ _) hpos.le
      set d' := d + t / totalProb n (sl N v s) with hd'
      have hd'0 : 0 ≤ d' := by positivity
      have hmul : d' * totalProb n (sl N v s) = d * totalProb n (sl N v s) + t := by
        rw [hd', add_mul, div_mul_cancel₀ _ hz]
      have h2 := uniform_le (cumProb n indices (sl N v s) m / totalProb n (sl N v s) - d')
        (cumProb n indices (sl N v s) (m + 1) / totalProb n (sl N v s) + d')
      rw [cumProb_succ, show (cumProb n indices (sl N v s) m + outcomeProb n indices (sl N v s) m) / totalProb n (sl N v s) + d'
        - (cumProb n indices (sl N v s) m / totalProb n (sl N v s) - d') = q + 2 * d' by rw [hq]; ring] at h2
      rw [cumProb_succ]
      have h3 : volume.restrict (Set.Ico (0 : ℝ) 1) (Set.Icc (cumProb n indices (sl N v s) m / totalProb n (sl N v s) - d')
          ((cumProb n indices (sl N v s) m + outcomeProb n indices (sl N v s) m) / totalProb n (sl N v s) + d'))
          ≤ ENNReal.ofReal (min 1 (q + 2 * d')) := by
        rcases le_total 1 (q + 2 * d') with hc | hc
        · rw [min_eq_left hc, ENNReal.ofReal_one]
          exact uniform_le_one _
        · rw [min_eq_right hc]
          exact h2
      refine (mul_le_mul' h1 h3).trans ?_
      rw [← ENNReal.ofReal_mul (by linarith)]
      apply ENNReal.ofReal_le_ofReal
      have m1 := min_le_left 1 (q + 2 * d')
      have m2 := min_le_right 1 (q + 2 * d')
      have m3 : 0 ≤ min 1 (q + 2 * d') := le_min zero_le_one (by linarith)
      have k1 := mul_le_mul_of_nonneg_left m2 hpos.le
      have k2 := mul_le_mul_of_nonneg_left m1 he
      linarith
  refine (Finset.sum_le_sum hone).trans ?_
  rw [← ENNReal.ofReal_sum_of_nonneg]
  · apply ENNReal.ofReal_le_ofReal
    rw [Finset.sum_add_distrib, Finset.sum_add_distrib, ← Finset.mul_sum (f := fun i => totalProb n (sl N v i)), sum_range_parts hvK,
      sum_range_total hvK, Finset.sum_const, card_range, nsmul_eq_mul]
    apply le_of_eq
    ring
  · intro s _
    have := outcomeProb_nonneg n indices (sl N v s) m
    have h2 := totalProb_nonneg n (sl N v s)
    positivity

/-- Upper bound: random numbers that choose `m`. -/
theorem law_upper_ranged (hF : Ranged F u eta big) (h : IdxOK n indices) (hKN : K * N = 2 ^ n) (hv : v.length = 2 ^ n)
    (hroom : RoomD u eta big n K (totalProb n fun c => v.getD c 0)) (j c : Nat) {m : Nat} (hm : m < 2 ^ indices.length) :
    jobLaw (distChosenF F indices n K N v j c m) ≤ ENNReal.ofReal (outcomeProb n indices (fun c => v.getD c 0) m
      + (2 * K * (selectErrR u eta n K (totalProb n fun c => v.getD c 0) + distTiny u eta n K)
        + 2 * drawErr u n * totalProb n (fun c => v.getD c 0))) := by
  obtain ⟨box, h1, h2⟩ := boxes_upper_ranged hF h hKN hv hroom j c hm
  refine (measure_mono_ae (t := ⋃ s ∈ range K, box s) ?_).trans ((measure_biUnion_finset_le _ _).trans h1)
  filter_upwards [jobLaw_inside] with ω hω
  rintro ⟨p, hp⟩
  obtain ⟨s, hs, hmem, -⟩ := h2 ω p hω hp
  exact Set.mem_biUnion (mem_coe.2 (mem_range.2 hs)) hmem

/-- Lower bound: for every worker a set of random numbers with which it is selected and chooses `m`, whose probability is then above the
errors due to underflow. -/
theorem boxes_lower_ranged (hF : Ranged F u eta big) (h : IdxOK n indices) (hKN : K * N = 2 ^ n) (hv : v.length = 2 ^ n)
    (hroom : RoomD u eta big n K (totalProb n fun c => v.getD c 0)) (j c : Nat) {m : Nat} (hm : m < 2 ^ indices.length) :
    ∃ box : Nat → Set (JobDraw → ℝ), (∀ s, MeasurableSet (box s)) ∧ Set.PairwiseDisjoint (↑(range K)) box ∧
      (ENNReal.ofReal (outcomeProb n indices (fun c => v.getD c 0) m
        - (2 * K * (selectErrR u eta n K (totalProb n fun c => v.getD c 0) + distTiny u eta n K)
          + 2 * drawErr u n * totalProb n (fun c => v.getD c 0)
          + |totalProb n (fun c => v.getD c 0) - 1|)) ≤ ∑ s ∈ range K, jobLaw (box s)) ∧
      ∀ s < K, ∀ ω ∈ box s, (∀ i, 0 < ω i ∧ ω i < 1) → distTiny u eta n K < outcomeProb n indices (fun c => v.getD c 0) m ∧
        0 < outcomeProb n indices (fun c => v.getD c 0) m ∧
        distChooseF F indices n K N v (ω (.inl j)) (fun i => ω (.inr ((i, i), c))) = .ok (m, reportedF F indices n K N v s m) := by
  have hvK : v.length = K * N := by omega
  set T := totalProb n (fun c => v.getD c 0) with hT
  have hT0 : 0 ≤ T := totalProb_nonneg n _
  set e := selectErrR u eta n K T with hedef
  have he : 0 ≤ e := selectErrR_nonneg hF n K hT0
  set d := drawErr u n with hddef
  have hd0 : 0 ≤ d := drawErr_nonneg hF.nonneg hF.lt_one n
  set t := distTiny u eta n K with htdef
  have ht0 : 0 ≤ t := distTiny_nonneg hF
  have hbT : before n N v K = T := sum_parts_total hvK
  have hb0 : ∀ k, 0 ≤ before n N v k := fun k => by
    have := before_mono n N v (Nat.zero_le k)
    simpa [before] using this
  set dd : Nat → ℝ := fun s => d + t / totalProb n (sl N v s) with hdd
  have hmul : ∀ s, totalProb n (sl N v s) ≠ 0 → dd s * totalProb n (sl N v s) = d * totalProb n (sl N v s) + t := fun s hz => by
    simp only [hdd]
    rw [add_mul, div_mul_cancel₀ _ hz]
  set A : Nat → Set ℝ := fun s => Set.Ioo (before n N v s + e) (min (before n N v (s + 1)) 1 - e) with hA
  set B : Nat → Set ℝ := fun s => Set.Ioo (cumProb n indices (sl N v s) m / totalProb n (sl N v s) + dd s)
        (cumProb n indices (sl N v s) (m + 1) / totalProb n (sl N v s) - dd s) with hB
  set box : Nat → Set (JobDraw → ℝ) := fun s => {ω | ω (.inl j) ∈ A s ∧ ω (.inr ((s, s), c)) ∈ B s} with hbox
  have hsub : ∀ s < K, ∀ ω ∈ box s, (∀ i, 0 < ω i ∧ ω i < 1) → t < outcomeProb n indices (fun c => v.getD c 0) m ∧
      0 < outcomeProb n indices (fun c => v.getD c 0) m ∧
      distChooseF F indices n K N v (ω (.inl j)) (fun i => ω (.inr ((i, i), c))) = .ok (m, reportedF F indices n K N v s m) := by
    rintro s hs ω ⟨hr, hx⟩ hω
    have hr1 : ω (.inl j) < before n N v (s + 1) - e := lt_of_lt_of_le hr.2 (by linarith [min_le_left (before n N v (s + 1)) 1])
    have hr0 := hr.1
    have hpos : 0 < totalProb n (sl N v s) := by
      rw [before_succ] at hr1
      linarith
    rcases distChooseF_near hF h hKN hv hroom (hω (.inl j)).1.le (hω (.inl j)).2.le
      (draw := fun i => ω (.inr ((i, i), c))) (fun i => ⟨(hω _).1.le, (hω _).2.le⟩) with ⟨-, h1⟩ | ⟨s', hs', m', hm', h1, h2, h3, h5, h6⟩
    · have := before_mono n N v (show s + 1 ≤ K from hs)
      change T ≤ _ + e at h1
      linarith
    · change _ ≤ before n N v (s' + 1) + e at h3
      have es : s' = s := by
        rcases lt_trichotomy s' s with hlt | heq | hgt
        · have := before_mono n N v (show s' + 1 ≤ s from hlt)
          linarith
        · exact heq
        · have := h2 s hgt
          change before n N v (s + 1) ≤ _ + e at this
          linarith
      subst es
      have hx1 := hx.1
      have hx2 := hx.2
      rw [← lt_sub_iff_add_lt, div_lt_iff₀ hpos, sub_mul, hmul _ hpos.ne'] at hx1
      rw [lt_sub_iff_add_lt, lt_div_iff₀ hpos, add_mul, hmul _ hpos.ne'] at hx2
      have em : m' = m := by
        rcases lt_trichotomy m' m with hlt | heq | hgt
        · rcases h6 with h6 | h6
          · omega
          · have := cumProb_mono n indices (sl N v s') (show m' + 1 ≤ m by omega)
            linarith
        · exact heq
        · have := h5 m hgt
          linarith
      subst em
      have hlt : t < outcomeProb n indices (fun c => v.getD c 0) m' := by
        refine lt_of_lt_of_le ?_ (outcome_part_le hKN hv hs m')
        rw [cumProb_succ] at hx2
        have : 0 ≤ d * totalProb n (sl N v s') := mul_nonneg hd0 hpos.le
        linarith
      exact ⟨hlt, ht0.trans_lt hlt, h1⟩
  have hAm : ∀ s, MeasurableSet (A s) := fun s => measurableSet_Ioo
  have hBm : ∀ s, MeasurableSet (B s) := fun s => measurableSet_Ioo
  have hmeas : ∀ s, MeasurableSet (box s) := fun s =>
    MeasurableSet.inter (s₁ := {ω : JobDraw → ℝ | ω (.inl j) ∈ A s}) (s₂ := {ω : JobDraw → ℝ | ω (.inr ((s, s), c)) ∈ B s})
      ((measurable_pi_apply (Sum.inl j : JobDraw)) (hAm s)) ((measurable_pi_apply (Sum.inr ((s, s), c) : JobDraw)) (hBm s))
  have hdisj : Set.PairwiseDisjoint (↑(range K)) box := by
    have key : ∀ s s', s < s' → Disjoint (box s) (box s') := by
      intro s s' hlt
      rw [Set.disjoint_left]
      rintro ω ⟨h1, -⟩ ⟨h2, -⟩
      have := before_mono n N v (show s + 1 ≤ s' from hlt)
      have h3 := h1.2
      have h4 := h2.1
      have := min_le_left (before n N v (s + 1)) 1
      linarith
    intro s _ s' _ hne
    rcases Nat.lt_or_gt_of_ne hne with hlt | hgt
    · exact key s s' hlt
    · exact (key s' s hgt).symm
  refine ⟨box, hmeas, hdisj, ?_, hsub⟩
  set D : Nat → ℝ := fun s => min (before n N v (s + 1)) 1 - min (before n N v s) 1 with hD
  have hone : ∀ s ∈ range K, ENNReal.ofReal (max 0 (outcomeProb n indices (sl N v s) m - (totalProb n (sl N v s) - D s)
      - (2 * (e + t) + 2 * d * totalProb n (sl N v s)))) ≤ jobLaw (box s) := by
    intro s hs
    have hbs := before_succ n N v s
    have hD0 : 0 ≤ D s := sub_nonneg.2 (min_le_min_right 1 (before_mono n N v (Nat.le_succ s)))
    have hDT : D s ≤ totalProb n (sl N v s) := by
      simp only [hD]
      rw [hbs]
      have := totalProb_nonneg n (sl N v s)
      rcases le_total (before n N v s) 1 with hc | hc
      · rw [min_eq_left hc]
        linarith [min_le_left (before n N v s + totalProb n (sl N v s)) 1]
      · rw [min_eq_right hc, min_eq_right (by linarith)]
        linarith
    have hPT : outcomeProb n indices (sl N v s) m ≤ totalProb n (sl N v s) := by
      have := cum_le_total (w := sl N v s) h (m := m + 1) hm
      rw [cumProb_succ] at this
      linarith [cum_nonneg (n := n) (indices := indices) (sl N v s) m]
    set val := outcomeProb n indices (sl N v s) m - (totalProb n (sl N v s) - D s) - (2 * (e + t) + 2 * d * totalProb n (sl N v s)) with hval
    rcases le_or_gt val 0 with hneg | hpos'
    · rw [max_eq_left hneg]
      simp
    rw [max_eq_right hpos'.le]
    have hP0 := outcomeProb_nonneg n indices (sl N v s) m
    have hT0s := totalProb_nonneg n (sl N v s)
    have hdT : 0 ≤ 2 * d * totalProb n (sl N v s) := by positivity
    have hDpos : 0 < D s := by linarith
    have hTs : 0 < totalProb n (sl N v s) := lt_of_lt_of_le hDpos hDT
    have hb1 : before n N v s ≤ 1 := by
      by_contra hb1
      push Not at hb1
      have : D s = 0 := by
        simp only [hD]
        rw [hbs, min_eq_right hb1.le, min_eq_right (by linarith), sub_self]
      linarith
    have hDe : D s = min (before n N v (s + 1)) 1 - before n N v s := by
      simp only [hD]
      rw [min_eq_left hb1]
    set q := outcomeProb n indices (sl N v s) m / totalProb n (sl N v s) with hq
    have hqT : q * totalProb n (sl N v s) = outcomeProb n indices (sl N v s) m := div_mul_cancel₀ _ hTs.ne'
    have hq0 : 0 ≤ q := div_nonneg hP0 hTs.le
    have hq1 : q ≤ 1 := by rw [hq, div_le_one hTs]; exact hPT
    have hds0 : 0 ≤ dd s := by simp only [hdd]; positivity
    rw [law_pair j c s (hAm s) (hBm s), hA, hB]
    simp only
    rw [uniform_Ioo (by linarith [hb0 s]) (by linarith [min_le_right (before n N v (s + 1)) 1]),
      uniform_Ioo (add_nonneg (div_nonneg (cum_nonneg _ _) hTs.le) hds0)
        (by
          have : cumProb n indices (sl N v s) (m + 1) / totalProb n (sl N v s) ≤ 1 := by
            rw [div_le_one hTs]; exact cum_le_total h hm
          linarith),
      show min (before n N v (s + 1)) 1 - e - (before n N v s + e) = D s - 2 * e by rw [hDe]; ring,
      cumProb_succ, show (cumProb n indices (sl N v s) m + outcomeProb n indices (sl N v s) m) / totalProb n (sl N v s) - dd s
        - (cumProb n indices (sl N v s) m / totalProb n (sl N v s) + dd s) = q - 2 * dd s by rw [hq]; ring]
    have hx : 0 ≤ D s - 2 * e := by linarith
    rw [← ENNReal.ofReal_mul hx]
    apply ENNReal.ofReal_le_ofReal
    have h1 : q * (totalProb n (sl N v s) - D s) ≤ 1 * (totalProb n (sl N v s) - D s) :=
      mul_le_mul_of_nonneg_right hq1 (by linarith)
    have h2 : dd s * D s ≤ dd s * totalProb n (sl N v s) := mul_le_mul_of_nonneg_left hDT hds0
    rw [hmul s hTs.ne'] at h2
    have h3 : e * q ≤ e * 1 := mul_le_mul_of_nonneg_left hq1 he
    have h4 : 0 ≤ e * dd s := mul_nonneg he hds0
    rw [hval]
    nlinarith
  refine le_trans ?_ (Finset.sum_le_sum hone)
  rw [← ENNReal.ofReal_sum_of_nonneg fun s _ => le_max_left _ _]
  apply ENNReal.ofReal_le_ofReal
  have hsum : ∑ s ∈ range K, (outcomeProb n indices (sl N v s) m - (totalProb n (sl N v s) - D s)
      - (2 * (e + t) + 2 * d * totalProb n (sl N v s))) ≤ ∑ s ∈ range K, max 0 (outcomeProb n indices (sl N v s) m
        - (totalProb n (sl N v s) - D s) - (2 * (e + t) + 2 * d * totalProb n (sl N v s))) :=
    Finset.sum_le_sum fun s _ => le_max_right _ _
  refine le_trans ?_ hsum
  have hDsum : ∑ s ∈ range K, D s = min T 1 := by
    simp only [hD]
    rw [Finset.sum_range_sub (fun s => min (before n N v s) 1), hbT]
    have : before n N v 0 = 0 := by simp [before]
    rw [this]
    simp
  rw [Finset.sum_sub_distrib, Finset.sum_sub_distrib, Finset.sum_sub_distrib, Finset.sum_add_distrib,
    ← Finset.mul_sum (f := fun i => totalProb n (sl N v i)), sum_range_parts hvK, sum_range_total hvK, hDsum, Finset.sum_const, card_range,
    nsmul_eq_mul]
  have : T - min T 1 ≤ |T - 1| := by
    rcases le_total T 1 with hc | hc
    · rw [min_eq_left hc, sub_self]; exact abs_nonneg _
    · rw [min_eq_right hc]; exact le_abs_self _
  linarith

/-- The distance of the law of the outcomes from Born's rule. -/
theorem law_near_ranged (hF : Ranged F u eta big) (h : IdxOK n indices) (hKN : K * N = 2 ^ n) (hv : v.length = 2 ^ n)
    (hroom : RoomD u eta big n K (totalProb n fun c => v.getD c 0)) (j c : Nat) {m : Nat} (hm : m < 2 ^ indices.length)
    {S : Set (JobDraw → ℝ)} (hsub : S ⊆ distChosenF F indices n K N v j c m)
    (hS : ∀ ω s, s < K → (∀ i, 0 < ω i ∧ ω i < 1) → distTiny u eta n K < outcomeProb n indices (fun c => v.getD c 0) m →
      distChooseF F indices n K N v (ω (.inl j)) (fun i => ω (.inr ((i, i), c))) = .ok (m, reportedF F indices n K N v s m) → ω ∈ S) :
    |(jobLaw S).toReal - outcomeProb n indices (fun c => v.getD c 0) m|
      ≤ 2 * K * (selectErr u n (totalProb n fun c => v.getD c 0) + 2 * distTiny u eta n K)
        + 2 * drawErr u n * totalProb n (fun c => v.getD c 0) + |totalProb n (fun c => v.getD c 0) - 1| := by
  have h1 := (measure_mono hsub).trans (law_upper_ranged hF h hKN hv hroom j c hm)
  obtain ⟨box, b1, b2, b3, b4⟩ := boxes_lower_ranged hF h hKN hv hroom j c hm
  rw [← measure_biUnion_finset b2 fun s _ => b1 s] at b3
  have h2 : _ ≤ jobLaw S := b3.trans (measure_mono_ae (by
    filter_upwards [jobLaw_inside] with ω hω
    intro hmem
    obtain ⟨s, hs, hmem⟩ : ∃ s < K, ω ∈ box s := by
      change ω ∈ ⋃ s ∈ range K, box s at hmem
      simpa only [Set.mem_iUnion, mem_range, exists_prop] using hmem
    obtain ⟨h5, -, h6⟩ := b4 s hs ω hmem hω
    exact hS ω s hs hω h5 h6))
  have hfin : jobLaw S ≠ ⊤ := ne_top_of_le_ne_top ENNReal.ofReal_ne_top h1
  have hT0 := totalProb_nonneg n fun c => v.getD c 0
  have he := selectErrR_nonneg hF n K hT0
  have ht := distTiny_nonneg hF (n := n) (K := K)
  have hd := drawErr_nonneg hF.nonneg hF.lt_one n
  have hP0 := outcomeProb_nonneg n indices (fun c => v.getD c 0) m
  have h3 := ENNReal.toReal_le_of_le_ofReal (by positivity) h1
  have h4 := (ENNReal.ofReal_le_iff_le_toReal hfin).1 h2
  have := abs_nonneg (totalProb n (fun c => v.getD c 0) - 1)
  have e : selectErrR u eta n K (totalProb n fun c => v.getD c 0) + distTiny u eta n K
      = selectErr u n (totalProb n fun c => v.getD c 0) + 2 * distTiny u eta n K := by unfold selectErrR; ring
  rw [e] at h3 h4
  rw [abs_le]
  constructor <;> linarith

theorem workers_le (hKN : K * N = 2 ^ n) : 0 < K ∧ K ≤ 2 ^ n := by
  have := Nat.two_pow_pos n
  rcases Nat.eq_zero_or_pos K with rfl | hK
  · omega
  rcases Nat.eq_zero_or_pos N with rfl | hN
  · omega
  · exact ⟨hK, by nlinarith⟩

/-- The reported probability of an outcome above the errors due to underflow. -/
theorem rel_reported_ranged (hF : Ranged F u eta big) (h : IdxOK n indices) (hKN : K * N = 2 ^ n) (hv : v.length = 2 ^ n)
    (hroom : RoomD u eta big n K (totalProb n fun c => v.getD c 0)) {s m : Nat} (hs : s < K) (hm : m < 2 ^ indices.length)
    (hq : distTiny u eta n K < outcomeProb n indices (fun c => v.getD c 0) m) :
    Rel (factor u ^ (2 ^ (n - indices.length) + 1 + K) * factor (distTiny u eta n K / outcomeProb n indices (fun c => v.getD c 0) m))
      (reportedF F indices n K N v s m) (outcomeProb n indices (fun c => v.getD c 0) m) := by
  have hKle := (workers_le hKN).2
  have he := hF.eta_nonneg
  have hq0 := (distTiny_nonneg hF (n := n) (K := K)).trans_lt hq
  refine within_rel (hF.bpow _) (by positivity) hq0 ((div_lt_one hq0).2 hq) ?_
    (within_reportedF hF h (by omega) hroom hKle hs hm).1
  rw [div_mul_cancel₀ _ hq0.ne']
  exact reported_tiny hF hKle

/-- C114 with underflow and overflow (law of the choice): the manager and the selected worker choose the outcome `m` with the probability
of Born's rule, up to an explicit error.  Missing: the uninitialised accumulators (C27) are taken as 0. -/
theorem C114_ranged_chosen_partial (hF : Ranged F u eta big) (h : IdxOK n indices) (hKN : K * N = 2 ^ n) (hv : v.length = 2 ^ n)
    (hroom : RoomD u eta big n K (totalProb n fun c => v.getD c 0)) (j c : Nat) {m : Nat} (hm : m < 2 ^ indices.length) :
    |(jobLaw (distChosenF F indices n K N v j c m)).toReal - outcomeProb n indices (fun c => v.getD c 0) m|
      ≤ 2 * K * (selectErr u n (totalProb n fun c => v.getD c 0) + 2 * distTiny u eta n K)
        + 2 * drawErr u n * totalProb n (fun c => v.getD c 0) + |totalProb n (fun c => v.getD c 0) - 1| :=
  law_near_ranged hF h hKN hv hroom j c hm subset_rfl fun _ _ _ _ _ hp => ⟨_, hp⟩

/-- C114 with underflow and overflow (law of the outcome): a measurement on `K` diagonal workers reports the outcome `m` with the
probability of Born's rule, up to an explicit error, if this probability is not too close to 1 (C96).  Missing: the uninitialised
accumulators (C27) are taken as 0. -/
theorem C114_ranged_born_partial (hF : Ranged F u eta big) (h : IdxOK n indices) (hKN : K * N = 2 ^ n) (hv : v.length = 2 ^ n)
    (ha : ∀ i < K, (arena i).length = N) (hroom : RoomD u eta big n K (totalProb n fun c => v.getD c 0)) (j c : Nat) {m : Nat}
    (hm : m < 2 ^ indices.length)
    (hP : outcomeProb n indices (fun c => v.getD c 0) m * factor u ^ (2 ^ (n - indices.length) + 1 + K) + distTiny u eta n K ≤ 1) :
    |(jobLaw (distDrawsF F indices n K N v arena j c m)).toReal - outcomeProb n indices (fun c => v.getD c 0) m|
      ≤ 2 * K * (selectErr u n (totalProb n fun c => v.getD c 0) + 2 * distTiny u eta n K)
        + 2 * drawErr u n * totalProb n (fun c => v.getD c 0) + |totalProb n (fun c => v.getD c 0) - 1| := by
  refine law_near_ranged hF h hKN hv hroom j c hm ?_ ?_
  · rintro ω ⟨p, out, hres⟩
    unfold distMeasureF at hres
    rcases hc : distChooseF F indices n K N v (ω (.inl j)) (fun i => ω (.inr ((i, i), c))) with e | ⟨m', p'⟩
    · rw [hc] at hres
      cases hres
    · rw [hc] at hres
      simp only [bind, Except.bind] at hres
      split at hres
      · cases hres
      · simp only [pure, Except.pure, Except.ok.injEq, Prod.mk.injEq] at hres
        obtain ⟨rfl, -⟩ := hres
        exact ⟨p', hc⟩
  · intro ω s hs hω hq hc
    have hKle := (workers_le hKN).2
    have hrel := rel_reported_ranged hF h hKN hv hroom hs hm hq
    have hw := (within_reportedF (N := N) hF h (by omega) hroom hKle hs hm).1
    have ht := reported_tiny hF (indices := indices) hKle
    have hq0 := (distTiny_nonneg hF (n := n) (K := K)).trans_lt hq
    have hp := rel_pos (one_le_mul_of_one_le_of_one_le (hF.bpow _)
      (one_le_factor (div_nonneg (distTiny_nonneg hF) hq0.le) ((div_lt_one hq0).2 hq))) hq0 hrel
    have hp1 : reportedF F indices n K N v s m ≤ 1 := by
      have := hw.2
      rw [add_mul] at this
      linarith
    have hok := distMeasureF_eq h hKN hv ha hm hc
    rw [if_pos ⟨hp, hp1⟩] at hok
    exact ⟨_, _, hok⟩

/-- C114 with underflow and overflow (result): an outcome above the errors due to underflow is reported with its probability, up to a
relative error, and the state is the normalised projection, up to an explicit error. -/
theorem C114_ranged_collapse (hF : Ranged F u eta big) (h : IdxOK n indices) (hKN : K * N = 2 ^ n) (hv : v.length = 2 ^ n)
    (ha : ∀ i < K, (arena i).length = N) (hroom : RoomD u eta big n K (totalProb n fun c => v.getD c 0)) {r : ℝ} (hr0 : 0 ≤ r)
    (hr1 : r ≤ 1) {draw : Nat → ℝ} (hd : ∀ i, 0 ≤ draw i ∧ draw i ≤ 1) {m : Nat} {p : ℝ} {out : List ℂ}
    (hres : distMeasureF F indices n K N v arena r draw = .ok (m, p, out)) (hP : totalProb n (fun c => v.getD c 0) ≤ 2)
    (hq : distTiny u eta n K < outcomeProb n indices (fun c => v.getD c 0) m)
    (hbig : 8 / outcomeProb n indices (fun c => v.getD c 0) m ≤ big) (hw1 : u + 4 * eta < 1)
    (hG : factor (u + 4 * eta) ^ (2 ^ (n - indices.length) + 4 + K)
      * factor (distTiny u eta n K / outcomeProb n indices (fun c => v.getD c 0) m) ≤ 2) :
    m < 2 ^ indices.length ∧ 0 < p ∧ p ≤ 1 ∧
    |p - outcomeProb n indices (fun c => v.getD c 0) m|
      ≤ (factor u ^ (2 ^ (n - indices.length) + 1 + K)
        * factor (distTiny u eta n K / outcomeProb n indices (fun c => v.getD c 0) m) - 1)
        * outcomeProb n indices (fun c => v.getD c 0) m ∧
    out.length = 2 ^ n ∧
    dist2 n (fun i => out.getD i 0) (fun i => if subIndex n (inOrder n indices) i = m
        then v.getD i 0 / ((√(outcomeProb n indices (fun c => v.getD c 0) m) : ℝ) : ℂ) else 0)
      ≤ factor (u + 4 * eta) ^ (2 ^ (n - indices.length) + 4 + K)
        * factor (distTiny u eta n K / outcomeProb n indices (fun c => v.getD c 0) m) - 1 + √(2 ^ n) * eta := by
  rcases distChooseF_near hF h hKN hv hroom hr0 hr1 hd with ⟨h1, -⟩ | ⟨s, hs, m', hm', h1, -⟩
  · unfold distMeasureF at hres
    rw [h1] at hres
    cases hres
  · rw [distMeasureF_eq h hKN hv ha hm' h1] at hres
    split at hres
    · rename_i hp
      simp only [Except.ok.injEq, Prod.mk.injEq] at hres
      obtain ⟨rfl, rfl, rfl⟩ := hres
      have hrel := rel_reported_ranged hF h hKN hv hroom hs hm' hq
      have hq0 := (distTiny_nonneg hF (n := n) (K := K)).trans_lt hq
      have hρ0 := div_nonneg (distTiny_nonneg hF (n := n) (K := K)) hq0.le
      have hρ1 := (div_lt_one hq0).2 hq
      refine ⟨hm', hp.1, hp.2, rel_abs (one_le_mul_of_one_le_of_one_le (hF.bpow _) (one_le_factor hρ0 hρ1)) hq0.le hrel, by simp, ?_⟩
      have e : 2 ^ (n - indices.length) + 4 + K = 2 ^ (n - indices.length) + 1 + K + 3 := by omega
      rw [e] at hG ⊢
      exact collapse_ranged hF hP hq0 hρ0 hρ1 hbig hw1 hG hrel
    · cases hres

/-- C114 with underflow and overflow (success): a measurement with a draw of the manager below the squared norm by more than the errors
reports an outcome, if every outcome has a probability above the errors and not too close to 1. -/
theorem C114_ranged_possible_partial (hF : Ranged F u eta big) (h : IdxOK n indices) (hKN : K * N = 2 ^ n) (hv : v.length = 2 ^ n)
    (ha : ∀ i < K, (arena i).length = N) (hroom : RoomD u eta big n K (totalProb n fun c => v.getD c 0)) {r : ℝ} (hr0 : 0 ≤ r)
    (hr1 : r ≤ 1) (hrT : r + (selectErr u n (totalProb n fun c => v.getD c 0) + distTiny u eta n K) < totalProb n fun c => v.getD c 0)
    {draw : Nat → ℝ} (hd : ∀ i, 0 ≤ draw i ∧ draw i ≤ 1)
    (hall : ∀ m < 2 ^ indices.length, distTiny u eta n K < outcomeProb n indices (fun c => v.getD c 0) m ∧
      outcomeProb n indices (fun c => v.getD c 0) m * factor u ^ (2 ^ (n - indices.length) + 1 + K) + distTiny u eta n K ≤ 1) :
    ∃ m p out, distMeasureF F indices n K N v arena r draw = .ok (m, p, out) := by
  rcases distChooseF_near hF h hKN hv hroom hr0 hr1 hd with ⟨-, h1⟩ | ⟨s, hs, m, hm, h1, -⟩
  · linarith
  · obtain ⟨hq, hP⟩ := hall m hm
    have hKle := (workers_le hKN).2
    have hw := (within_reportedF (N := N) hF h (by omega) hroom hKle hs hm).1
    have ht := reported_tiny hF (indices := indices) hKle
    have hq0 := (distTiny_nonneg hF (n := n) (K := K)).trans_lt hq
    have hp := rel_pos (one_le_mul_of_one_le_of_one_le (hF.bpow _)
      (one_le_factor (div_nonneg (distTiny_nonneg hF) hq0.le) ((div_lt_one hq0).2 hq))) hq0 (rel_reported_ranged hF h hKN hv hroom hs hm hq)
    have hp1 : reportedF F indices n K N v s m ≤ 1 := by
      have := hw.2
      rw [add_mul] at this
      linarith
    have hok := distMeasureF_eq h hKN hv ha hm h1
    rw [if_pos ⟨hp, hp1⟩] at hok
    exact ⟨_, _, _, hok⟩

/-! ## In binary64 -/

theorem binary64_distTiny (hn : n ≤ 20) (hK : K ≤ 2 ^ 8) :
    distTiny (8 * (1 / 2 ^ 53)) (8 * (1 / 2 ^ 1022)) n K ≤ 1 / 2 ^ 800 := by
  have h1 := (C95_binary64_tiny (n := n) (by omega)).1
  have hKr : (K : ℝ) ≤ 2 ^ 8 := by exact_mod_cast hK
  have h0 := drawTiny_nonneg binary64_ranged n
  unfold distTiny
  calc (K : ℝ) * _ ≤ 2 ^ 8 * (1 / 2 ^ 900) := mul_le_mul hKr h1 h0 (by positivity)
    _ = 1 / 2 ^ 892 := by
      have : (2 : ℝ) ^ 900 = 2 ^ 8 * 2 ^ 892 := by rw [← pow_add]
      rw [this]
      field_simp
    _ ≤ 1 / 2 ^ 800 := one_div_le_one_div_of_le (by positivity) (pow_le_pow_right₀ (by norm_num) (by norm_num))

theorem binary64_roomD (hn : n ≤ 20) (hK : K ≤ 2 ^ 8) {T : ℝ} (hT : T ≤ 2) :
    RoomD (8 * (1 / 2 ^ 53)) (8 * (1 / 2 ^ 1022)) (2 ^ 1023 / 4) n K T := by
  unfold RoomD
  have h2 := (C95_binary64_tiny (n := n) (by omega)).2
  have h3 : (2 : ℝ) ^ (n + 2) ≤ 2 ^ 22 := pow_le_pow_right₀ (by norm_num) (by omega)
  have hKr : (K : ℝ) ≤ 2 ^ 8 := by exact_mod_cast hK
  have h4 : (8 * (1 / 2 ^ 1022) : ℝ) ≤ 8 := by
    have : (1 : ℝ) / 2 ^ 1022 ≤ 1 := by
      rw [div_le_one (by positivity)]
      exact one_le_pow₀ (by norm_num)
    linarith
  have h5 : (K : ℝ) * 2 ^ (n + 2) * (8 * (1 / 2 ^ 1022)) ≤ 2 ^ 8 * 2 ^ 22 * 8 :=
    mul_le_mul (mul_le_mul hKr h3 (by positivity) (by norm_num)) h4 (by positivity) (by norm_num)
  have h6 : (3 + 2 ^ 8 * 2 ^ 22 * 8) * 2 ≤ (2 : ℝ) ^ 1023 / 4 := by
    rw [le_div_iff₀ (by norm_num)]
    refine le_trans (by norm_num : (3 + 2 ^ 8 * 2 ^ 22 * 8) * 2 * 4 ≤ (2 : ℝ) ^ 40) (pow_le_pow_right₀ (by norm_num) (by norm_num))
  refine le_trans (mul_le_mul (show 1 + T + K * 2 ^ (n + 2) * (8 * (1 / 2 ^ 1022)) ≤ 3 + 2 ^ 8 * 2 ^ 22 * 8 by linarith) h2 ?_
    (by norm_num)) h6
  exact pow_nonneg (le_trans zero_le_one (one_le_factor (by positivity) (by norm_num))) _

/-- C114 in binary64 with underflow and overflow: up to 20 qubits and `2 ^ 8` diagonal workers, the outcome `m` is reported with the
probability of Born's rule, up to `2 ^ -15` and the distance of the squared norm of the state from 1. -/
theorem C114_binary64_partial (h : IdxOK n indices) (hKN : K * N = 2 ^ n) (hv : v.length = 2 ^ n) (ha : ∀ i < K, (arena i).length = N)
    (hn : n ≤ 20) (hK : K ≤ 2 ^ 8) (hT : totalProb n (fun c => v.getD c 0) ≤ 2) (j c : Nat) {m : Nat} (hm : m < 2 ^ indices.length)
    (hP : outcomeProb n indices (fun c => v.getD c 0) m * factor (1 / 2 ^ 50) ^ (2 ^ (n - indices.length) + 1 + K) + 1 / 2 ^ 800 ≤ 1) :
    |(jobLaw (distDrawsF (FOps.ofRounding round64 fun a L => L.foldl (fun s x => round64 (s + x)) a) indices n K N v arena j c m)).toReal
        - outcomeProb n indices (fun c => v.getD c 0) m| ≤ 1 / 2 ^ 15 + |totalProb n (fun c => v.getD c 0) - 1| := by
  have e : (8 * (1 / 2 ^ 53) : ℝ) = 1 / 2 ^ 50 := by norm_num
  have ht := binary64_distTiny hn hK
  refine (C114_ranged_born_partial binary64_ranged h hKN hv ha (binary64_roomD hn hK hT) j c hm (by rw [e] at ht ⊢; linarith)).trans ?_
  have h1 := C114_double hn hK (totalProb_nonneg n fun c => v.getD c 0) hT
  have h3 : (1 : ℝ) / 2 ^ 800 ≤ 1 / 2 ^ 40 := one_div_le_one_div_of_le (by positivity) (pow_le_pow_right₀ (by norm_num) (by norm_num))
  have ht' := ht.trans h3
  have hKr : (K : ℝ) ≤ 2 ^ 8 := by exact_mod_cast hK
  have ht0 := distTiny_nonneg binary64_ranged (n := n) (K := K)
  have h4 : (K : ℝ) * distTiny (8 * (1 / 2 ^ 53)) (8 * (1 / 2 ^ 1022)) n K ≤ 2 ^ 8 * (1 / 2 ^ 40) := mul_le_mul hKr ht' ht0 (by norm_num)
  rw [e] at h4 ⊢
  have h6 : (1 : ℝ) / 2 ^ 16 + 4 * (2 ^ 8 * (1 / 2 ^ 40)) ≤ 1 / 2 ^ 15 := by norm_num
  linarith

-- the second qubit, measured on two workers, is 1 with probability 1/2
example (j c : Nat) : |(jobLaw (distDrawsF (FOps.ofRounding round64 fun a L => L.foldl (fun s x => round64 (s + x)) a) [1] 2 2 2 flat4
    (fun _ => [0, 0]) j c 1)).toReal - 1 / 2| ≤ 1 / 2 ^ 15 := by
  have h := C114_binary64_partial (n := 2) (K := 2) (N := 2) (indices := [1]) (v := flat4) (arena := fun _ => [0, 0]) flat4_ok rfl rfl
    (fun _ _ => rfl) (by norm_num) (by norm_num) (by rw [flat4_total]; norm_num) j c (m := 1) (by decide) (by
      rw [flat4_prob (by omega)]
      have h3 : (1 : ℝ) / 2 ^ 800 ≤ 1 / 2 ^ 40 := one_div_le_one_div_of_le (by positivity) (pow_le_pow_right₀ (by norm_num) (by norm_num))
      have hk : factor (1 / 2 ^ 50) ^ (2 ^ (2 - [1].length) + 1 + 2) ≤ 3 / 2 := by
        unfold factor; norm_num
      have : (1 : ℝ) / 2 ^ 40 ≤ 1 / 4 := by norm_num
      linarith)
  rw [flat4_prob (by omega), flat4_total, sub_self, abs_zero, add_zero] at h
  exact h

-- with draws of 1/2 the measurement succeeds in binary64, and the result is within the bounds
example : ∃ m p out, distMeasureF (FOps.ofRounding round64 fun a L => L.foldl (fun s x => round64 (s + x)) a) [1] 2 2 2 flat4
      (fun _ => [0, 0]) (1 / 2) (fun _ => 1 / 2) = .ok (m, p, out) ∧ 0 < p ∧ p ≤ 1 := by
  have e : (8 * (1 / 2 ^ 53) : ℝ) = 1 / 2 ^ 50 := by norm_num
  have h3 : (1 : ℝ) / 2 ^ 800 ≤ 1 / 2 ^ 40 := one_div_le_one_div_of_le (by positivity) (pow_le_pow_right₀ (by norm_num) (by norm_num))
  have h40 : (1 : ℝ) / 2 ^ 40 ≤ 1 / 100 := by norm_num
  have ht := (binary64_distTiny (n := 2) (K := 2) (by norm_num) (by norm_num)).trans (h3.trans h40)
  have ht0 := distTiny_nonneg binary64_ranged (n := 2) (K := 2)
  have hroom := binary64_roomD (n := 2) (K := 2) (by norm_num) (by norm_num) (T := totalProb 2 fun c => flat4.getD c 0)
    (by rw [flat4_total]; norm_num)
  have hs : selectErr (8 * (1 / 2 ^ 53)) 2 (totalProb 2 fun c => flat4.getD c 0) ≤ 1 / 4 := by
    rw [e, flat4_total]
    unfold selectErr factor
    norm_num
  have hk : factor (8 * (1 / 2 ^ 53)) ^ (2 ^ (2 - [1].length) + 1 + 2) ≤ 3 / 2 := by
    unfold factor; norm_num
  obtain ⟨m, p, out, hok⟩ := C114_ranged_possible_partial binary64_ranged flat4_ok (K := 2) (N := 2) (v := flat4) (arena := fun _ => [0, 0])
    rfl rfl (fun _ _ => rfl) hroom (r := 1 / 2) (by norm_num) (by norm_num) (by rw [flat4_total] at hs ⊢; linarith)
    (draw := fun _ => 1 / 2) (fun _ => by norm_num) (fun m hm => by
      rw [flat4_prob (by simpa using hm)]
      exact ⟨by linarith, by linarith⟩)
  have hq : outcomeProb 2 [1] (fun c => flat4.getD c 0) m = 1 / 2 := by
    have hm : m < 2 ^ [1].length := by
      rcases distChooseF_near binary64_ranged flat4_ok (K := 2) (N := 2) (v := flat4) rfl rfl hroom (r := 1 / 2) (by norm_num) (by norm_num)
        (draw := fun _ => 1 / 2) (fun _ => by norm_num) with ⟨h1, -⟩ | ⟨s, hs, m', hm', h1, -⟩
      · unfold distMeasureF at hok
        rw [h1] at hok
        cases hok
      · rw [distMeasureF_eq flat4_ok rfl rfl (fun _ _ => rfl) hm' h1] at hok
        split at hok
        · simp only [Except.ok.injEq, Prod.mk.injEq] at hok
          exact hok.1 ▸ hm'
        · cases hok
    exact flat4_prob (by simpa using hm)
  have hw : (8 * (1 / 2 ^ 53) : ℝ) + 4 * (8 * (1 / 2 ^ 1022)) ≤ 1 / 100 := by
    have : (1 : ℝ) / 2 ^ 1022 ≤ 1 / 2 ^ 20 := one_div_le_one_div_of_le (by positivity) (pow_le_pow_right₀ (by norm_num) (by norm_num))
    rw [e]
    have h50 : (1 : ℝ) / 2 ^ 50 ≤ 1 / 1000 := by norm_num
    have h20 : (1 : ℝ) / 2 ^ 20 ≤ 1 / 32000 := by norm_num
    linarith
  have := C114_ranged_collapse binary64_ranged flat4_ok rfl rfl (fun _ _ => rfl) hroom (by norm_num) (by norm_num)
    (fun _ => by norm_num) hok (by rw [flat4_total]; norm_num) (by rw [hq]; linarith) (by
      rw [hq, le_div_iff₀ (by norm_num)]
      refine le_trans (by norm_num : (8 : ℝ) / (1 / 2) * 4 ≤ 2 ^ 7) (pow_le_pow_right₀ (by norm_num) (by norm_num))) (by linarith) (by
      rw [hq]
      have hw0 : (0 : ℝ) ≤ 8 * (1 / 2 ^ 53) + 4 * (8 * (1 / 2 ^ 1022)) := by positivity
      have f1 := factor_mono hw (by norm_num)
      have hρ : distTiny (8 * (1 / 2 ^ 53)) (8 * (1 / 2 ^ 1022)) 2 2 / (1 / 2) ≤ 1 / 10 := by
        rw [div_le_iff₀ (by norm_num)]
        linarith
      have f2 := factor_mono hρ (by norm_num)
      have f0 := one_le_factor hw0 (by linarith)
      generalize factor (8 * (1 / 2 ^ 53) + 4 * (8 * (1 / 2 ^ 1022))) = a at *
      have hp : a ^ (2 ^ (2 - [1].length) + 4 + 2) ≤ (factor (1 / 100)) ^ 8 := pow_le_pow_left₀ (by linarith) f1 8
      refine le_trans (mul_le_mul hp f2 ?_ ?_) ?_
      · exact le_trans zero_le_one (one_le_factor (div_nonneg ht0 (by norm_num)) (by linarith))
      · unfold factor; norm_num
      · unfold factor; norm_num)
  exact ⟨m, p, out, hok, this.2.1, this.2.2.1⟩

end QIP.Props
