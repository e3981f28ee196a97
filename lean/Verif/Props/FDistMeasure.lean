import Verif.Lemmas.FDistMeasure
import Verif.Props.FMeasure
import Verif.Props.DistNorm

/-!
# C114: measurements on several workers are right up to rounding
-/

namespace QIP.Props

open Spec Finset MeasureTheory

variable {F : FOps} {u : ℝ} {n K N : Nat} {indices : List Nat} {v : List ℂ} {arena : Nat → List ℂ}

/-- The state left by a measurement whose outcome has, up to `k` roundings, the probability `p`. -/
theorem collapse_dist (hF : Accurate F u) {m k : Nat} {p : ℝ} (hq : 0 < outcomeProb n indices (fun c => v.getD c 0) m)
    (hrel : Rel (factor u ^ k) p (outcomeProb n indices (fun c => v.getD c 0) m)) :
    dist2 n (fun i => ((List.range (2 ^ n)).map fun i =>
        if subIndex n (inOrder n indices) i = m then F.scale (v.getD i 0) (F.sqrt (F.div 1 p)) else 0).getD i 0)
      (fun i => if subIndex n (inOrder n indices) i = m
        then v.getD i 0 / ((√(outcomeProb n indices (fun c => v.getD c 0) m) : ℝ) : ℂ) else 0)
      ≤ factor u ^ (k + 3) - 1 := by
  set w : Nat → ℂ := fun c => v.getD c 0 with hw
  set q := outcomeProb n indices w m with hqdef
  have hmult := rel_mult hF hq hrel
  set μ := F.sqrt (F.div 1 p)
  set γ := factor u ^ (k + 3) - 1
  have hγ : 0 ≤ γ := by linarith [hF.bpow (k + 3)]
  have hsq : (√(1 / q) : ℝ) = 1 / √q := by rw [Real.sqrt_div zero_le_one, Real.sqrt_one]
  have hterm : ∀ i < 2 ^ n, ‖((List.range (2 ^ n)).map fun i =>
        if subIndex n (inOrder n indices) i = m then F.scale (v.getD i 0) μ else 0).getD i 0
      - (if subIndex n (inOrder n indices) i = m then w i / ((√q : ℝ) : ℂ) else 0)‖ ^ 2
      ≤ γ ^ 2 * (if subIndex n (inOrder n indices) i = m then Complex.normSq (w i) / q else 0) := by
    intro i hi
    have e : ((List.range (2 ^ n)).map fun i =>
        if subIndex n (inOrder n indices) i = m then F.scale (v.getD i 0) μ else 0).getD i 0
        = if subIndex n (inOrder n indices) i = m then F.scale (v.getD i 0) μ else 0 := by
      simp [hi]
    rw [e]
    by_cases hc : subIndex n (inOrder n indices) i = m
    · rw [if_pos hc, if_pos hc, if_pos hc]
      have h1 := scale_err hF (z := v.getD i 0) (Real.sqrt_nonneg _) hmult
      have e2 : w i / ((√q : ℝ) : ℂ) = v.getD i 0 * ((√(1 / q) : ℝ) : ℂ) := by
        rw [hsq]
        push_cast
        rw [mul_one_div]
      rw [e2]
      refine (pow_le_pow_left₀ (norm_nonneg _) h1 2).trans (le_of_eq ?_)
      rw [mul_pow, norm_mul, mul_pow, Complex.norm_real, Real.norm_eq_abs, sq_abs, Real.sq_sqrt (by positivity),
        ← Complex.normSq_eq_norm_sq]
      change γ ^ 2 * _ = γ ^ 2 * _
      ring
    · rw [if_neg hc, if_neg hc, if_neg hc]
      simp
  unfold dist2
  rw [Real.sqrt_le_left hγ]
  refine (Finset.sum_le_sum fun i hi => hterm i (mem_range.1 hi)).trans (le_of_eq ?_)
  rw [← Finset.mul_sum, ← Finset.sum_filter, ← Finset.sum_div]
  change γ ^ 2 * (q / q) = γ ^ 2
  rw [div_self hq.ne', mul_one]

/-- C114 (result): a measurement on `K` diagonal workers reports a possible outcome and its probability up to `2 ^ (n - k) + 1 + K`
roundings, and leaves the normalised projection of the state, up to three roundings more. -/
theorem C114_collapse (hF : Accurate F u) (h : IdxOK n indices) (hKN : K * N = 2 ^ n) (hv : v.length = 2 ^ n)
    (ha : ∀ i < K, (arena i).length = N) {r : ℝ} (hr0 : 0 ≤ r) (hr1 : r ≤ 1) {draw : Nat → ℝ} (hd : ∀ i, 0 ≤ draw i ∧ draw i ≤ 1)
    {m : Nat} {p : ℝ} {out : List ℂ} (hres : distMeasureF F indices n K N v arena r draw = .ok (m, p, out)) :
    m < 2 ^ indices.length ∧ 0 < outcomeProb n indices (fun c => v.getD c 0) m ∧ 0 < p ∧ p ≤ 1 ∧
    |p - outcomeProb n indices (fun c => v.getD c 0) m|
      ≤ (factor u ^ (2 ^ (n - indices.length) + 1 + K) - 1) * outcomeProb n indices (fun c => v.getD c 0) m ∧
    out.length = 2 ^ n ∧
    dist2 n (fun i => out.getD i 0) (fun i => if subIndex n (inOrder n indices) i = m
        then v.getD i 0 / ((√(outcomeProb n indices (fun c => v.getD c 0) m) : ℝ) : ℂ) else 0)
      ≤ factor u ^ (2 ^ (n - indices.length) + 4 + K) - 1 := by
  rcases distChooseF_spec hF h hKN hv hr0 hr1 hd with ⟨h1, -⟩ | ⟨s, -, m', hm', p', h1, -, -, -, -, -, -, hrel, -⟩
  · unfold distMeasureF at hres
    rw [h1] at hres
    cases hres
  · rw [distMeasureF_eq h hKN hv ha hm' h1] at hres
    split at hres
    · rename_i hp
      simp only [Except.ok.injEq, Prod.mk.injEq] at hres
      obtain ⟨rfl, rfl, rfl⟩ := hres
      have hq : 0 < outcomeProb n indices (fun c => v.getD c 0) m' := by
        rcases (outcomeProb_nonneg n indices (fun c => v.getD c 0) m').lt_or_eq with e | e
        · exact e
        · exfalso
          rw [← e] at hrel
          have := rel_zero hrel (hF.bpow _)
          linarith [hp.1]
      refine ⟨hm', hq, hp.1, hp.2, rel_abs (hF.bpow _) hq.le hrel, by simp, ?_⟩
      have := collapse_dist hF hq hrel
      rwa [show 2 ^ (n - indices.length) + 1 + K + 3 = 2 ^ (n - indices.length) + 4 + K by omega] at this
    · cases hres

/-- C114 (success): unless the draw of the manager is 0 or close to the squared norm of the state, or the draw of a worker is 0 or close
to 1, a possible outcome is selected, and the measurement succeeds if the probability of the outcome is not too close to 1. -/
theorem C114_possible_partial (hF : Accurate F u) (h : IdxOK n indices) (hKN : K * N = 2 ^ n) (hv : v.length = 2 ^ n)
    (ha : ∀ i < K, (arena i).length = N) {r : ℝ} (hr0 : 0 < r) (hr1 : r ≤ 1)
    (hrT : r ≤ totalProb n (fun c => v.getD c 0) - selectErr u n (totalProb n fun c => v.getD c 0)) {draw : Nat → ℝ}
    (hd : ∀ i, 0 < draw i ∧ draw i ≤ 1 - drawErr u n) :
    ∃ m < 2 ^ indices.length, 0 < outcomeProb n indices (fun c => v.getD c 0) m ∧
      (∃ p, distChooseF F indices n K N v r draw = .ok (m, p)) ∧
      (outcomeProb n indices (fun c => v.getD c 0) m * factor u ^ (2 ^ (n - indices.length) + 1 + K) ≤ 1 →
        ∃ p out, distMeasureF F indices n K N v arena r draw = .ok (m, p, out)) ∧
      (factor u ^ (2 ^ (n - indices.length) + 1 + K) < outcomeProb n indices (fun c => v.getD c 0) m →
        distMeasureF F indices n K N v arena r draw = .error .valueError) := by
  have he := drawErr_nonneg hF.nonneg hF.lt_one n
  rcases distChooseF_spec hF h hKN hv hr0.le hr1 (fun i => ⟨(hd i).1.le, (hd i).2.trans (by linarith)⟩) with
    ⟨-, h2⟩ | ⟨s, hs, m, hm, p, h1, -, -, h3, -, -, h6, hrel, -⟩
  · linarith
  · have hTs := h3 hr0
    have hps : 0 < outcomeProb n indices (sl N v s) m := by
      rcases (outcomeProb_nonneg n indices (sl N v s) m).lt_or_eq with e | e
      · exact e
      · exfalso
        have := h6 (hd s).1 hTs e.symm
        have h7 := mul_le_mul_of_nonneg_right (hd s).2 hTs.le
        nlinarith
    have hq := lt_of_lt_of_le hps (outcome_part_le hKN hv hs m)
    have hp := rel_pos (hF.bpow _) hq hrel
    refine ⟨m, hm, hq, ⟨p, h1⟩, fun hle => ?_, fun hlt => ?_⟩
    · rw [distMeasureF_eq h hKN hv ha hm h1, if_pos ⟨hp, hrel.2.trans hle⟩]
      exact ⟨_, _, rfl⟩
    · rw [distMeasureF_eq h hKN hv ha hm h1, if_neg]
      rintro ⟨-, hp1⟩
      have := hrel.1
      have hb := hF.bpow (2 ^ (n - indices.length) + 1 + K)
      nlinarith

/-! ## The law of the outcomes -/

/-- The random numbers of a job with which the measurement reports `m`: the manager draws the `j`-th number of its own, the workers
those of their `c`-th operation. -/
def distDrawsF (F : FOps) (indices : List Nat) (n K N : Nat) (v : List ℂ) (arena : Nat → List ℂ) (j c m : Nat) : Set (JobDraw → ℝ) :=
  {ω | ∃ p out, distMeasureF F indices n K N v arena (ω (.inl j)) (fun i => ω (.inr ((i, i), c))) = .ok (m, p, out)}

/-- The random numbers of a job with which the outcome `m` is chosen (whether or not the workers accept its probability). -/
def distChosenF (F : FOps) (indices : List Nat) (n K N : Nat) (v : List ℂ) (j c m : Nat) : Set (JobDraw → ℝ) :=
  {ω | ∃ p, distChooseF F indices n K N v (ω (.inl j)) (fun i => ω (.inr ((i, i), c))) = .ok (m, p)}

/-- Draws of the manager in `A` and of worker `s` in `B`. -/
theorem law_pair (j c s : Nat) {A B : Set ℝ} (hA : MeasurableSet A) (hB : MeasurableSet B) :
    jobLaw {ω : JobDraw → ℝ | ω (.inl j) ∈ A ∧ ω (.inr ((s, s), c)) ∈ B}
      = volume.restrict (Set.Ico (0 : ℝ) 1) A * volume.restrict (Set.Ico (0 : ℝ) 1) B := by
  classical
  have e : {ω : JobDraw → ℝ | ω (.inl j) ∈ A ∧ ω (.inr ((s, s), c)) ∈ B}
      = Set.pi (({Sum.inl j, Sum.inr ((s, s), c)} : Finset JobDraw) : Set JobDraw)
        (fun i => if i = Sum.inl j then A else B) := by
    ext ω
    simp [Set.mem_pi]
  rw [e, jobLaw_box (by intro i _; split <;> assumption), Finset.prod_pair (by simp)]
  simp

theorem uniform_le (a b : ℝ) : volume.restrict (Set.Ico (0 : ℝ) 1) (Set.Icc a b) ≤ ENNReal.ofReal (b - a) := by
  rw [← Real.volume_Icc]
  exact Measure.restrict_apply_le _ _

theorem uniform_le_one (A : Set ℝ) : volume.restrict (Set.Ico (0 : ℝ) 1) A ≤ 1 := by
  refine (measure_mono (Set.subset_univ A)).trans ?_
  rw [Measure.restrict_apply_univ, Real.volume_Ico]
  simp

theorem uniform_Ioo {a b : ℝ} (ha : 0 ≤ a) (hb : b ≤ 1) :
    volume.restrict (Set.Ico (0 : ℝ) 1) (Set.Ioo a b) = ENNReal.ofReal (b - a) := by
  rw [Measure.restrict_apply measurableSet_Ioo, Set.inter_eq_left.2, Real.volume_Ioo]
  intro x hx
  exact ⟨ha.trans hx.1.le, hx.2.trans_le hb⟩

theorem sum_range_parts (hvK : v.length = K * N) (m : Nat) :
    ∑ s ∈ range K, outcomeProb n indices (sl N v s) m = outcomeProb n indices (fun c => v.getD c 0) m := by
  rw [← sum_parts_outcome indices m hvK, sum_map_range]
  rfl

theorem sum_range_total (hvK : v.length = K * N) :
    ∑ s ∈ range K, totalProb n (sl N v s) = totalProb n (fun c => v.getD c 0) := by
  rw [← sum_parts_total hvK, sum_map_range]
  rfl

theorem selectErr_nonneg (hF : Accurate F u) (n : Nat) {T : ℝ} (hT : 0 ≤ T) : 0 ≤ selectErr u n T := by
  unfold selectErr
  have := hF.bpow (2 ^ n + 1)
  exact mul_nonneg (by linarith) (by linarith)

/-- Upper bound: for every worker a set of random numbers outside which it is not selected or does not choose `m`. -/
theorem boxes_upper (hF : Accurate F u) (h : IdxOK n indices) (hKN : K * N = 2 ^ n) (hv : v.length = 2 ^ n) (j c : Nat) {m : Nat}
    (hm : m < 2 ^ indices.length) :
    ∃ box : Nat → Set (JobDraw → ℝ), (∑ s ∈ range K, jobLaw (box s) ≤ ENNReal.ofReal (outcomeProb n indices (fun c => v.getD c 0) m
      + (2 * K * selectErr u n (totalProb n fun c => v.getD c 0) + 2 * drawErr u n * totalProb n (fun c => v.getD c 0)))) ∧
      ∀ ω p, (∀ i, 0 < ω i ∧ ω i < 1) → distChooseF F indices n K N v (ω (.inl j)) (fun i => ω (.inr ((i, i), c))) = .ok (m, p) →
        ∃ s < K, ω ∈ box s ∧ p = reportedF F indices n K N v s m := by
  have hvK : v.length = K * N := by omega
  set T := totalProb n (fun c => v.getD c 0) with hT
  have hT0 : 0 ≤ T := totalProb_nonneg n _
  set e := selectErr u n T with hedef
  have he : 0 ≤ e := selectErr_nonneg hF n hT0
  set d := drawErr u n with hddef
  have hd0 : 0 ≤ d := drawErr_nonneg hF.nonneg hF.lt_one n
  set box : Nat → Set (JobDraw → ℝ) := fun s => {ω | ω (.inl j) ∈ Set.Icc (before n N v s - e) (before n N v (s + 1) + e) ∧
    ω (.inr ((s, s), c)) ∈ if totalProb n (sl N v s) = 0 then Set.univ else
      Set.Icc (cumProb n indices (sl N v s) m / totalProb n (sl N v s) - d)
        (cumProb n indices (sl N v s) (m + 1) / totalProb n (sl N v s) + d)} with hbox
  refine ⟨box, ?_, ?_⟩
  rotate_left
  · intro ω p hω hp
    rcases distChooseF_spec hF h hKN hv (hω (.inl j)).1.le (hω (.inl j)).2.le
      (draw := fun i => ω (.inr ((i, i), c))) (fun i => ⟨(hω _).1.le, (hω _).2.le⟩) with ⟨h1, -⟩ | ⟨s, hs, m', hm', p', h1, h2, h3, -, h5, h6, -, -, h7⟩
    · rw [h1] at hp
      cases hp
    · rw [h1] at hp
      simp only [Except.ok.injEq, Prod.mk.injEq] at hp
      obtain ⟨rfl, rfl⟩ := hp
      refine ⟨s, hs, ⟨⟨?_, h3⟩, ?_⟩, h7⟩
      · cases s with
        | zero =>
          have : before n N v 0 = 0 := by simp [before]
          rw [this]
          linarith [(hω (.inl j)).1]
        | succ i =>
          have := h2 i (by omega)
          linarith
      · by_cases hz : totalProb n (sl N v s) = 0
        · rw [if_pos hz]; trivial
        · rw [if_neg hz]
          have hpos := lt_of_le_of_ne (totalProb_nonneg n (sl N v s)) (Ne.symm hz)
          have hx := hω (.inr ((s, s), c))
          constructor
          · rw [sub_le_iff_le_add, div_le_iff₀ hpos]
            cases m' with
            | zero =>
              simp only [cumProb, Finset.range_zero, Finset.sum_empty]
              exact mul_nonneg (by linarith [hx.1]) hpos.le
            | succ i =>
              have := h5 i (by omega)
              rw [add_mul]
              exact this.le
          · rw [← sub_le_iff_le_add, le_div_iff₀ hpos]
            rcases h6 with e' | e'
            · rw [e', cumProb_top h]
              nlinarith [hx.2]
            · rw [sub_mul]
              linarith
  have hone : ∀ s ∈ range K, jobLaw (box s)
      ≤ ENNReal.ofReal (outcomeProb n indices (sl N v s) m + (2 * e + 2 * d * totalProb n (sl N v s))) := by
    intro s _
    rw [hbox]
    rw [law_pair j c s measurableSet_Icc (by split <;> [exact MeasurableSet.univ; exact measurableSet_Icc])]
    have h1 := uniform_le (before n N v s - e) (before n N v (s + 1) + e)
    rw [before_succ, show before n N v s + totalProb n (sl N v s) + e - (before n N v s - e) = totalProb n (sl N v s) + 2 * e by ring] at h1
    rw [before_succ]
    by_cases hz : totalProb n (sl N v s) = 0
    · rw [if_pos hz]
      refine (mul_le_mul' h1 (uniform_le_one _)).trans ?_
      rw [mul_one, hz]
      apply ENNReal.ofReal_le_ofReal
      linarith [outcomeProb_nonneg n indices (sl N v s) m]
    · rw [if_neg hz]
      have hpos := lt_of_le_of_ne (totalProb_nonneg n (sl N v s)) (Ne.symm hz)
      set q := outcomeProb n indices (sl N v s) m / totalProb n (sl N v s) with hq
      have hqT : q * totalProb n (sl N v s) = outcomeProb n indices (sl N v s) m := div_mul_cancel₀ _ hz
      have hq0 : 0 ≤ q := div_nonneg (outcomeProb_nonneg _ _ _ _) hpos.le
      have h2 := uniform_le (cumProb n indices (sl N v s) m / totalProb n (sl N v s) - d)
        (cumProb n indices (sl N v s) (m + 1) / totalProb n (sl N v s) + d)
      rw [cumProb_succ, show (cumProb n indices (sl N v s) m + outcomeProb n indices (sl N v s) m) / totalProb n (sl N v s) + d
        - (cumProb n indices (sl N v s) m / totalProb n (sl N v s) - d) = q + 2 * d by rw [hq]; ring] at h2
      rw [cumProb_succ]
      have h3 : volume.restrict (Set.Ico (0 : ℝ) 1) (Set.Icc (cumProb n indices (sl N v s) m / totalProb n (sl N v s) - d)
          ((cumProb n indices (sl N v s) m + outcomeProb n indices (sl N v s) m) / totalProb n (sl N v s) + d))
          ≤ ENNReal.ofReal (min 1 (q + 2 * d)) := by
        rcases le_total 1 (q + 2 * d) with hc | hc
        · rw [min_eq_left hc, ENNReal.ofReal_one]
          exact uniform_le_one _
        · rw [min_eq_right hc]
          exact h2
      refine (mul_le_mul' h1 h3).trans ?_
      rw [← ENNReal.ofReal_mul (by linarith)]
      apply ENNReal.ofReal_le_ofReal
      have m1 := min_le_left 1 (q + 2 * d)
      have m2 := min_le_right 1 (q + 2 * d)
      have m3 : 0 ≤ min 1 (q + 2 * d) := le_min zero_le_one (by linarith)
      nlinarith
  refine (Finset.sum_le_sum hone).trans ?_
  rw [← ENNReal.ofReal_sum_of_nonneg]
  · apply ENNReal.ofReal_le_ofReal
    rw [Finset.sum_add_distrib, Finset.sum_add_distrib, ← Finset.mul_sum (f := fun i => totalProb n (sl N v i)), sum_range_parts hvK,
      sum_range_total hvK, Finset.sum_const, card_range, nsmul_eq_mul]
    apply le_of_eq
    ring
  · intro s _
    have := outcomeProb_nonneg n indices (sl N v s) m
    have h2 := totalProb_nonneg n (sl N v s)
    positivity

/-- Upper bound: random numbers that choose `m`. -/
theorem law_upper (hF : Accurate F u) (h : IdxOK n indices) (hKN : K * N = 2 ^ n) (hv : v.length = 2 ^ n) (j c : Nat) {m : Nat}
    (hm : m < 2 ^ indices.length) :
    jobLaw (distChosenF F indices n K N v j c m) ≤ ENNReal.ofReal (outcomeProb n indices (fun c => v.getD c 0) m
      + (2 * K * selectErr u n (totalProb n fun c => v.getD c 0) + 2 * drawErr u n * totalProb n (fun c => v.getD c 0))) := by
  obtain ⟨box, h1, h2⟩ := boxes_upper hF h hKN hv j c hm
  refine (measure_mono_ae (t := ⋃ s ∈ range K, box s) ?_).trans ((measure_biUnion_finset_le _ _).trans h1)
  filter_upwards [jobLaw_inside] with ω hω
  rintro ⟨p, hp⟩
  obtain ⟨s, hs, hmem, -⟩ := h2 ω p hω hp
  exact Set.mem_biUnion (mem_coe.2 (mem_range.2 hs)) hmem

/-- Lower bound: for every worker a set of random numbers with which it is selected and chooses `m`, which is possible. -/
theorem boxes_lower (hF : Accurate F u) (h : IdxOK n indices) (hKN : K * N = 2 ^ n) (hv : v.length = 2 ^ n) (j c : Nat) {m : Nat}
    (hm : m < 2 ^ indices.length) :
    ∃ box : Nat → Set (JobDraw → ℝ), (∀ s, MeasurableSet (box s)) ∧ Set.PairwiseDisjoint (↑(range K)) box ∧
      (ENNReal.ofReal (outcomeProb n indices (fun c => v.getD c 0) m
        - (2 * K * selectErr u n (totalProb n fun c => v.getD c 0) + 2 * drawErr u n * totalProb n (fun c => v.getD c 0)
          + |totalProb n (fun c => v.getD c 0) - 1|)) ≤ ∑ s ∈ range K, jobLaw (box s)) ∧
      ∀ s < K, ∀ ω ∈ box s, (∀ i, 0 < ω i ∧ ω i < 1) → 0 < outcomeProb n indices (fun c => v.getD c 0) m ∧
        distChooseF F indices n K N v (ω (.inl j)) (fun i => ω (.inr ((i, i), c))) = .ok (m, reportedF F indices n K N v s m) := by
  have hvK : v.length = K * N := by omega
  set T := totalProb n (fun c => v.getD c 0) with hT
  have hT0 : 0 ≤ T := totalProb_nonneg n _
  set e := selectErr u n T with hedef
  have he : 0 ≤ e := selectErr_nonneg hF n hT0
  set d := drawErr u n with hddef
  have hd0 : 0 ≤ d := drawErr_nonneg hF.nonneg hF.lt_one n
  have hbT : before n N v K = T := sum_parts_total hvK
  have hb0 : ∀ k, 0 ≤ before n N v k := fun k => by
    have := before_mono n N v (Nat.zero_le k)
    simpa [before] using this
  set A : Nat → Set ℝ := fun s => Set.Ioo (before n N v s + e) (min (before n N v (s + 1)) 1 - e) with hA
  set B : Nat → Set ℝ := fun s => Set.Ioo (cumProb n indices (sl N v s) m / totalProb n (sl N v s) + d)
        (cumProb n indices (sl N v s) (m + 1) / totalProb n (sl N v s) - d) with hB
  set box : Nat → Set (JobDraw → ℝ) := fun s => {ω | ω (.inl j) ∈ A s ∧ ω (.inr ((s, s), c)) ∈ B s} with hbox
  have hsub : ∀ s < K, ∀ ω ∈ box s, (∀ i, 0 < ω i ∧ ω i < 1) → 0 < outcomeProb n indices (fun c => v.getD c 0) m ∧
      distChooseF F indices n K N v (ω (.inl j)) (fun i => ω (.inr ((i, i), c))) = .ok (m, reportedF F indices n K N v s m) := by
    rintro s hs ω ⟨hr, hx⟩ hω
    have hr1 : ω (.inl j) < before n N v (s + 1) - e := lt_of_lt_of_le hr.2 (by linarith [min_le_left (before n N v (s + 1)) 1])
    have hr0 := hr.1
    have hpos : 0 < totalProb n (sl N v s) := by
      rw [before_succ] at hr1
      linarith
    rcases distChooseF_spec hF h hKN hv (hω (.inl j)).1.le (hω (.inl j)).2.le
      (draw := fun i => ω (.inr ((i, i), c))) (fun i => ⟨(hω _).1.le, (hω _).2.le⟩) with ⟨-, h1⟩ | ⟨s', hs', m', hm', p', h1, h2, h3, -, h5, h6, -, -, h7⟩
    · have := before_mono n N v (show s + 1 ≤ K from hs)
      linarith
    · have es : s' = s := by
        rcases lt_trichotomy s' s with hlt | heq | hgt
        · have := before_mono n N v (show s' + 1 ≤ s from hlt)
          linarith
        · exact heq
        · have := h2 s hgt
          linarith
      subst es
      have hx1 := hx.1
      have hx2 := hx.2
      rw [← lt_sub_iff_add_lt, div_lt_iff₀ hpos, sub_mul] at hx1
      rw [lt_sub_iff_add_lt, lt_div_iff₀ hpos, add_mul] at hx2
      have em : m' = m := by
        rcases lt_trichotomy m' m with hlt | heq | hgt
        · rcases h6 with h6 | h6
          · omega
          · have := cumProb_mono n indices (sl N v s') (show m' + 1 ≤ m by omega)
            linarith
        · exact heq
        · have := h5 m hgt
          linarith
      subst em
      rw [h7] at h1
      refine ⟨?_, h1⟩
      refine lt_of_lt_of_le ?_ (outcome_part_le hKN hv hs m')
      rw [cumProb_succ] at hx2
      have : 0 ≤ d * totalProb n (sl N v s') := mul_nonneg hd0 hpos.le
      linarith
  have hAm : ∀ s, MeasurableSet (A s) := fun s => measurableSet_Ioo
  have hBm : ∀ s, MeasurableSet (B s) := fun s => measurableSet_Ioo
  have hmeas : ∀ s, MeasurableSet (box s) := fun s =>
    MeasurableSet.inter (s₁ := {ω : JobDraw → ℝ | ω (.inl j) ∈ A s}) (s₂ := {ω : JobDraw → ℝ | ω (.inr ((s, s), c)) ∈ B s})
      ((measurable_pi_apply (Sum.inl j : JobDraw)) (hAm s)) ((measurable_pi_apply (Sum.inr ((s, s), c) : JobDraw)) (hBm s))
  have hdisj : Set.PairwiseDisjoint (↑(range K)) box := by
    have key : ∀ s s', s < s' → Disjoint (box s) (box s') := by
      intro s s' hlt
      rw [Set.disjoint_left]
      rintro ω ⟨h1, -⟩ ⟨h2, -⟩
      have := before_mono n N v (show s + 1 ≤ s' from hlt)
      have h3 := h1.2
      have h4 := h2.1
      have := min_le_left (before n N v (s + 1)) 1
      linarith
    intro s _ s' _ hne
    rcases Nat.lt_or_gt_of_ne hne with hlt | hgt
    · exact key s s' hlt
    · exact (key s' s hgt).symm
  refine ⟨box, hmeas, hdisj, ?_, hsub⟩
  set D : Nat → ℝ := fun s => min (before n N v (s + 1)) 1 - min (before n N v s) 1 with hD
  have hone : ∀ s ∈ range K, ENNReal.ofReal (max 0 (outcomeProb n indices (sl N v s) m - (totalProb n (sl N v s) - D s)
      - (2 * e + 2 * d * totalProb n (sl N v s)))) ≤ jobLaw (box s) := by
    intro s hs
    have hbs := before_succ n N v s
    have hD0 : 0 ≤ D s := sub_nonneg.2 (min_le_min_right 1 (before_mono n N v (Nat.le_succ s)))
    have hDT : D s ≤ totalProb n (sl N v s) := by
      simp only [hD]
      rw [hbs]
      have := totalProb_nonneg n (sl N v s)
      rcases le_total (before n N v s) 1 with hc | hc
      · rw [min_eq_left hc]
        linarith [min_le_left (before n N v s + totalProb n (sl N v s)) 1]
      · rw [min_eq_right hc, min_eq_right (by linarith)]
        linarith
    have hPT : outcomeProb n indices (sl N v s) m ≤ totalProb n (sl N v s) := by
      have := cum_le_total (w := sl N v s) h (m := m + 1) hm
      rw [cumProb_succ] at this
      linarith [cum_nonneg (n := n) (indices := indices) (sl N v s) m]
    set val := outcomeProb n indices (sl N v s) m - (totalProb n (sl N v s) - D s) - (2 * e + 2 * d * totalProb n (sl N v s)) with hval
    rcases le_or_gt val 0 with hneg | hpos'
    · rw [max_eq_left hneg]
      simp
    rw [max_eq_right hpos'.le]
    have hP0 := outcomeProb_nonneg n indices (sl N v s) m
    have hT0s := totalProb_nonneg n (sl N v s)
    have hdT : 0 ≤ 2 * d * totalProb n (sl N v s) := by positivity
    have hDpos : 0 < D s := by linarith
    have hTs : 0 < totalProb n (sl N v s) := lt_of_lt_of_le hDpos hDT
    have hb1 : before n N v s ≤ 1 := by
      by_contra hb1
      push Not at hb1
      have : D s = 0 := by
        simp only [hD]
        rw [hbs, min_eq_right hb1.le, min_eq_right (by linarith), sub_self]
      linarith
    have hDe : D s = min (before n N v (s + 1)) 1 - before n N v s := by
      simp only [hD]
      rw [min_eq_left hb1]
    set q := outcomeProb n indices (sl N v s) m / totalProb n (sl N v s) with hq
    have hqT : q * totalProb n (sl N v s) = outcomeProb n indices (sl N v s) m := div_mul_cancel₀ _ hTs.ne'
    have hq0 : 0 ≤ q := div_nonneg hP0 hTs.le
    have hq1 : q ≤ 1 := by rw [hq, div_le_one hTs]; exact hPT
    rw [law_pair j c s (hAm s) (hBm s), hA, hB]
    simp only
    rw [uniform_Ioo (by linarith [hb0 s]) (by linarith [min_le_right (before n N v (s + 1)) 1]),
      uniform_Ioo (add_nonneg (div_nonneg (cum_nonneg _ _) hTs.le) hd0)
        (by
          have : cumProb n indices (sl N v s) (m + 1) / totalProb n (sl N v s) ≤ 1 := by
            rw [div_le_one hTs]; exact cum_le_total h hm
          linarith),
      show min (before n N v (s + 1)) 1 - e - (before n N v s + e) = D s - 2 * e by rw [hDe]; ring,
      cumProb_succ, show (cumProb n indices (sl N v s) m + outcomeProb n indices (sl N v s) m) / totalProb n (sl N v s) - d
        - (cumProb n indices (sl N v s) m / totalProb n (sl N v s) + d) = q - 2 * d by rw [hq]; ring]
    have hx : 0 ≤ D s - 2 * e := by linarith
    rw [← ENNReal.ofReal_mul hx]
    apply ENNReal.ofReal_le_ofReal
    have h1 : q * (totalProb n (sl N v s) - D s) ≤ 1 * (totalProb n (sl N v s) - D s) :=
      mul_le_mul_of_nonneg_right hq1 (by linarith)
    have h2 : d * D s ≤ d * totalProb n (sl N v s) := mul_le_mul_of_nonneg_left hDT hd0
    have h3 : e * q ≤ e * 1 := mul_le_mul_of_nonneg_left hq1 he
    have h4 : 0 ≤ e * d := mul_nonneg he hd0
    rw [hval]
    nlinarith
  refine le_trans ?_ (Finset.sum_le_sum hone)
  rw [← ENNReal.ofReal_sum_of_nonneg fun s _ => le_max_left _ _]
  apply ENNReal.ofReal_le_ofReal
  have hsum : ∑ s ∈ range K, (outcomeProb n indices (sl N v s) m - (totalProb n (sl N v s) - D s)
      - (2 * e + 2 * d * totalProb n (sl N v s))) ≤ ∑ s ∈ range K, max 0 (outcomeProb n indices (sl N v s) m
        - (totalProb n (sl N v s) - D s) - (2 * e + 2 * d * totalProb n (sl N v s))) :=
    Finset.sum_le_sum fun s _ => le_max_right _ _
  refine le_trans ?_ hsum
  have hDsum : ∑ s ∈ range K, D s = min T 1 := by
    simp only [hD]
    rw [Finset.sum_range_sub (fun s => min (before n N v s) 1), hbT]
    have : before n N v 0 = 0 := by simp [before]
    rw [this]
    simp
  rw [Finset.sum_sub_distrib, Finset.sum_sub_distrib, Finset.sum_sub_distrib, Finset.sum_add_distrib,
    ← Finset.mul_sum (f := fun i => totalProb n (sl N v i)), sum_range_parts hvK, sum_range_total hvK, hDsum, Finset.sum_const, card_range,
    nsmul_eq_mul]
  have : T - min T 1 ≤ |T - 1| := by
    rcases le_total T 1 with hc | hc
    · rw [min_eq_left hc, sub_self]; exact abs_nonneg _
    · rw [min_eq_right hc]; exact le_abs_self _
  linarith

/-- Lower bound: random numbers for which `m` is chosen and possible. -/
theorem law_lower (hF : Accurate F u) (h : IdxOK n indices) (hKN : K * N = 2 ^ n) (hv : v.length = 2 ^ n) (j c : Nat) {m : Nat}
    (hm : m < 2 ^ indices.length) {S : Set (JobDraw → ℝ)}
    (hS : ∀ ω p, (∀ i, 0 < ω i ∧ ω i < 1) → 0 < outcomeProb n indices (fun c => v.getD c 0) m →
      distChooseF F indices n K N v (ω (.inl j)) (fun i => ω (.inr ((i, i), c))) = .ok (m, p) → ω ∈ S) :
    ENNReal.ofReal (outcomeProb n indices (fun c => v.getD c 0) m
      - (2 * K * selectErr u n (totalProb n fun c => v.getD c 0) + 2 * drawErr u n * totalProb n (fun c => v.getD c 0)
        + |totalProb n (fun c => v.getD c 0) - 1|)) ≤ jobLaw S := by
  obtain ⟨box, h1, h2, h3, h4⟩ := boxes_lower hF h hKN hv j c hm
  rw [← measure_biUnion_finset h2 fun s _ => h1 s] at h3
  refine h3.trans (measure_mono_ae ?_)
  filter_upwards [jobLaw_inside] with ω hω
  intro hmem
  obtain ⟨s, hs, hmem⟩ : ∃ s < K, ω ∈ box s := by
    change ω ∈ ⋃ s ∈ range K, box s at hmem
    simpa only [Set.mem_iUnion, mem_range, exists_prop] using hmem
  obtain ⟨h5, h6⟩ := h4 s hs ω hmem hω
  exact hS ω _ hω h5 h6

/-- The distance of the law of the outcomes from Born's rule. -/
theorem law_near (hF : Accurate F u) (h : IdxOK n indices) (hKN : K * N = 2 ^ n) (hv : v.length = 2 ^ n) (j c : Nat) {m : Nat}
    (hm : m < 2 ^ indices.length) {S : Set (JobDraw → ℝ)} (hsub : S ⊆ distChosenF F indices n K N v j c m)
    (hS : ∀ ω p, (∀ i, 0 < ω i ∧ ω i < 1) → 0 < outcomeProb n indices (fun c => v.getD c 0) m →
      distChooseF F indices n K N v (ω (.inl j)) (fun i => ω (.inr ((i, i), c))) = .ok (m, p) → ω ∈ S) :
    |(jobLaw S).toReal - outcomeProb n indices (fun c => v.getD c 0) m|
      ≤ 2 * K * selectErr u n (totalProb n fun c => v.getD c 0) + 2 * drawErr u n * totalProb n (fun c => v.getD c 0)
        + |totalProb n (fun c => v.getD c 0) - 1| := by
  have h1 := (measure_mono hsub).trans (law_upper hF h hKN hv j c hm)
  have h2 := law_lower hF h hKN hv j c hm hS
  have hfin : jobLaw S ≠ ⊤ := ne_top_of_le_ne_top ENNReal.ofReal_ne_top h1
  have hT0 := totalProb_nonneg n fun c => v.getD c 0
  have he := selectErr_nonneg hF n hT0
  have hd := drawErr_nonneg hF.nonneg hF.lt_one n
  have hP0 := outcomeProb_nonneg n indices (fun c => v.getD c 0) m
  have h3 := ENNReal.toReal_le_of_le_ofReal (by positivity) h1
  have h4 := (ENNReal.ofReal_le_iff_le_toReal hfin).1 h2
  have := abs_nonneg (totalProb n (fun c => v.getD c 0) - 1)
  rw [abs_le]
  constructor <;> linarith

/-- C114 (law of the outcome): the manager and the selected worker choose the outcome `m` with the probability of Born's rule, up to an
explicit error.  Missing: the uninitialised accumulators (C27) are taken as 0. -/
theorem C114_chosen_partial (hF : Accurate F u) (h : IdxOK n indices) (hKN : K * N = 2 ^ n) (hv : v.length = 2 ^ n) (j c : Nat) {m : Nat}
    (hm : m < 2 ^ indices.length) :
    |(jobLaw (distChosenF F indices n K N v j c m)).toReal - outcomeProb n indices (fun c => v.getD c 0) m|
      ≤ 2 * K * selectErr u n (totalProb n fun c => v.getD c 0) + 2 * drawErr u n * totalProb n (fun c => v.getD c 0)
        + |totalProb n (fun c => v.getD c 0) - 1| :=
  law_near hF h hKN hv j c hm subset_rfl fun _ p _ _ hp => ⟨p, hp⟩

/-- C114 (law of the outcome): a measurement on `K` diagonal workers reports the outcome `m` with the probability of Born's rule, up to an
explicit error, if this probability is not too close to 1 (C96).  Missing: the uninitialised accumulators (C27) are taken as 0. -/
theorem C114_born_partial (hF : Accurate F u) (h : IdxOK n indices) (hKN : K * N = 2 ^ n) (hv : v.length = 2 ^ n)
    (ha : ∀ i < K, (arena i).length = N) (j c : Nat) {m : Nat} (hm : m < 2 ^ indices.length)
    (hP : outcomeProb n indices (fun c => v.getD c 0) m * factor u ^ (2 ^ (n - indices.length) + 1 + K) ≤ 1) :
    |(jobLaw (distDrawsF F indices n K N v arena j c m)).toReal - outcomeProb n indices (fun c => v.getD c 0) m|
      ≤ 2 * K * selectErr u n (totalProb n fun c => v.getD c 0) + 2 * drawErr u n * totalProb n (fun c => v.getD c 0)
        + |totalProb n (fun c => v.getD c 0) - 1| := by
  refine law_near hF h hKN hv j c hm ?_ ?_
  · rintro ω ⟨p, out, hres⟩
    unfold distMeasureF at hres
    rcases hc : distChooseF F indices n K N v (ω (.inl j)) (fun i => ω (.inr ((i, i), c))) with e | ⟨m', p'⟩
    · rw [hc] at hres
      cases hres
    · rw [hc] at hres
      simp only [bind, Except.bind] at hres
      split at hres
      · cases hres
      · simp only [pure, Except.pure, Except.ok.injEq, Prod.mk.injEq] at hres
        obtain ⟨rfl, -⟩ := hres
        exact ⟨p', hc⟩
  · intro ω p hω hq hc
    have hc' := hc
    rcases distChooseF_spec hF h hKN hv (hω (.inl j)).1.le (hω (.inl j)).2.le
      (draw := fun i => ω (.inr ((i, i), c))) (fun i => ⟨(hω _).1.le, (hω _).2.le⟩) with ⟨h1, -⟩ | ⟨s, -, m', -, p', h1, -, -, -, -, -, -, hrel, -⟩
    · rw [h1] at hc'
      cases hc'
    · rw [h1] at hc'
      simp only [Except.ok.injEq, Prod.mk.injEq] at hc'
      obtain ⟨rfl, rfl⟩ := hc'
      have hok := distMeasureF_eq h hKN hv ha hm hc
      rw [if_pos ⟨rel_pos (hF.bpow _) hq hrel, hrel.2.trans hP⟩] at hok
      exact ⟨p', _, hok⟩

/-! ## In double precision -/

/-- C114: with double precision, at most 20 qubits and at most `2 ^ 8` diagonal workers, the error of the law is below `2 ^ -16`. -/
theorem C114_double (hn : n ≤ 20) (hK : K ≤ 2 ^ 8) {T : ℝ} (hT0 : 0 ≤ T) (hT : T ≤ 2) :
    2 * K * selectErr (1 / 2 ^ 50) n T + 2 * drawErr (1 / 2 ^ 50) n * T ≤ 1 / 2 ^ 16 := by
  have hb := one_le_factor (u := 1 / 2 ^ 50) (by positivity) (by norm_num)
  have hf : factor (1 / 2 ^ 50) ≤ 1 + 2 * (1 / 2 ^ 50) := by
    unfold factor
    rw [div_le_iff₀ (by norm_num)]
    norm_num
  have key : ∀ k : Nat, k ≤ 2 ^ 21 + 2 → factor (1 / 2 ^ 50) ^ k - 1 ≤ k / 2 ^ 48 := by
    intro k hk
    have hk' : (k : ℝ) ≤ 2097154 := by
      have : k ≤ 2097154 := by omega
      exact_mod_cast this
    have h2 : factor (1 / 2 ^ 50) ^ k ≤ (1 + 2 * (1 / 2 ^ 50)) ^ k := pow_le_pow_left₀ (by linarith) hf _
    have h3 := pow_bound (u := 2 * (1 / 2 ^ 50)) (k := k) (by positivity) (by
      rw [show (2 : ℝ) * (1 / 2 ^ 50) = 1 / 562949953421312 by norm_num]
      linarith)
    refine (sub_le_sub_right (h2.trans h3) 1).trans (le_of_eq ?_)
    rw [show (2 : ℝ) * (1 / 2 ^ 50) = 1 / 562949953421312 by norm_num, show (2 : ℝ) ^ 48 = 281474976710656 by norm_num]
    ring
  have hp := Nat.pow_le_pow_right (show 0 < 2 by omega) hn
  have k1 : 2 ^ n + 1 ≤ 1048577 := by omega
  have k2 : 2 ^ (n + 1) + 2 ≤ 2097154 := by rw [pow_succ]; omega
  have e1 := key (2 ^ n + 1) (by omega)
  have e2 := key (2 ^ (n + 1) + 2) (by omega)
  have c1 : ((2 ^ n + 1 : Nat) : ℝ) ≤ 1048577 := by exact_mod_cast k1
  have c2 : ((2 ^ (n + 1) + 2 : Nat) : ℝ) ≤ 2097154 := by exact_mod_cast k2
  have hKr : (K : ℝ) ≤ 256 := by exact_mod_cast hK
  have hK0 : (0 : ℝ) ≤ K := Nat.cast_nonneg K
  have s1 : factor (1 / 2 ^ 50) ^ (2 ^ n + 1) - 1 ≤ 1048577 / 2 ^ 48 := e1.trans (by gcongr)
  have s2 : drawErr (1 / 2 ^ 50) n ≤ 2 * (2097154 / 2 ^ 48) := mul_le_mul_of_nonneg_left (e2.trans (by gcongr)) (by norm_num)
  have s0 : 0 ≤ factor (1 / 2 ^ 50) ^ (2 ^ n + 1) - 1 := sub_nonneg.2 (one_le_pow₀ hb)
  have d0 := drawErr_nonneg (u := 1 / 2 ^ 50) (by positivity) (by norm_num) n
  have a1 : selectErr (1 / 2 ^ 50) n T ≤ 1048577 / 2 ^ 48 * 3 :=
    mul_le_mul s1 (by linarith) (by linarith) (by positivity)
  have a0 : 0 ≤ selectErr (1 / 2 ^ 50) n T := mul_nonneg s0 (by linarith)
  have a2 : 2 * K * selectErr (1 / 2 ^ 50) n T ≤ 512 * (1048577 / 2 ^ 48 * 3) :=
    mul_le_mul (by linarith) a1 a0 (by norm_num)
  have a3 : 2 * drawErr (1 / 2 ^ 50) n * T ≤ 2 * (2 * (2097154 / 2 ^ 48)) * 2 :=
    mul_le_mul (by linarith) hT hT0 (by norm_num)
  refine (add_le_add a2 a3).trans (by norm_num)

/-- C114 in double precision: up to 20 qubits and `2 ^ 8` diagonal workers, the outcome `m` is reported with the probability of Born's
rule, up to `2 ^ -16` and the distance of the squared norm of the state from 1. -/
theorem C114_double_partial (h : IdxOK n indices) (hKN : K * N = 2 ^ n) (hv : v.length = 2 ^ n) (ha : ∀ i < K, (arena i).length = N)
    (hn : n ≤ 20) (hK : K ≤ 2 ^ 8) (hT : totalProb n (fun c => v.getD c 0) ≤ 2) (j c : Nat) {m : Nat} (hm : m < 2 ^ indices.length)
    (hP : outcomeProb n indices (fun c => v.getD c 0) m * factor (1 / 2 ^ 50) ^ (2 ^ (n - indices.length) + 1 + K) ≤ 1) :
    |(jobLaw (distDrawsF FOps.double indices n K N v arena j c m)).toReal - outcomeProb n indices (fun c => v.getD c 0) m|
      ≤ 1 / 2 ^ 16 + |totalProb n (fun c => v.getD c 0) - 1| :=
  (C114_born_partial double_accurate h hKN hv ha j c hm hP).trans
    (add_le_add (C114_double hn hK (totalProb_nonneg n _) hT) le_rfl)

theorem coin_worker : probMagnitudeF FOps.double 0 (shareOf 2 coinV 0) = 1 + 1 / 2 ^ 52 ∧
    softAccF FOps.double 2 [0] (shareOf 2 coinV 0) 0 0 = 1 + 1 / 2 ^ 52 := by
  have h1 : round53 (0 + (1 / 2 + 1 / 2 ^ 53)) = 1 / 2 + 1 / 2 ^ 53 := by
    have := round53_nat 4503599627370497 53
    rw [show roundNat 4503599627370497 = 4503599627370497 by decide +kernel] at this
    rw [show (0 + (1 / 2 + 1 / 2 ^ 53) : ℝ) = ((4503599627370497 : Nat) : ℝ) / 2 ^ 53 by norm_num, this]
    norm_num
  have h2 : round53 (1 / 2 + 1 / 2 ^ 53 + (1 / 2 + 1 / 2 ^ 53)) = 1 + 1 / 2 ^ 52 := by
    have := round53_nat 4503599627370497 52
    rw [show roundNat 4503599627370497 = 4503599627370497 by decide +kernel] at this
    rw [show (1 / 2 + 1 / 2 ^ 53 + (1 / 2 + 1 / 2 ^ 53) : ℝ) = ((4503599627370497 : Nat) : ℝ) / 2 ^ 52 by norm_num, this]
    norm_num
  have hs : shareOf 2 coinV 0 = [(coin : ℂ), (coin : ℂ)] := rfl
  have hacc : FOps.double.acc 0 [1 / 2 + 1 / 2 ^ 53, 1 / 2 + 1 / 2 ^ 53] = 1 + 1 / 2 ^ 52 := by
    change round53 (round53 (0 + (1 / 2 + 1 / 2 ^ 53)) + (1 / 2 + 1 / 2 ^ 53)) = _
    rw [h1, h2]
  rw [hs]
  constructor
  · unfold probMagnitudeF
    rw [List.map_cons, List.map_cons, List.map_nil, coin_absSq, hacc]
  · have e1 : entwineBit 1 1 0 0 (rowMask 2 [0]) = 0 := by decide
    have e2 : entwineBit 1 1 0 1 (rowMask 2 [0]) = 1 := by decide
    unfold softAccF
    simp only [List.length_cons, List.length_nil, Nat.zero_add, Nat.reduceSub, pow_one, show List.range 2 = [0, 1] from rfl]
    rw [List.filter_cons, if_pos (by rw [e1]; simp), List.filter_cons, if_pos (by rw [e2]; simp)]
    simp only [List.filter_nil, List.map_cons, List.map_nil, e1, e2, Nat.sub_zero, List.getD_cons_zero, List.getD_cons_succ]
    rw [coin_absSq, hacc]

/-- C114 (negation of the full property): two diagonal workers hold a state as a Hadamard gate leaves it, in which the first qubit
certainly is 0.  In double precision its measurement fails whatever the random numbers are: the reported probability is `1 + 2 ^ -52`. -/
theorem C114_rejected {arena : Nat → List ℂ} (ha : ∀ i < 2, (arena i).length = 2) {r : ℝ} (hr : 0 ≤ r ∧ r < 1) {draw : Nat → ℝ}
    (hd : ∀ i, 0 ≤ draw i ∧ draw i < 1) : distMeasureF FOps.double [0] 2 2 2 coinV arena r draw = .error .valueError := by
  have h : IdxOK 2 [0] := ⟨by decide, by decide⟩
  have hsel : selectWorkerF FOps.double ((List.range 2).map fun i => probMagnitudeF FOps.double 0 (shareOf 2 coinV i)) r = some 0 := by
    rw [show List.range 2 = [0, 1] from rfl, List.map_cons]
    unfold selectWorkerF
    rw [if_pos]
    rw [coin_worker.1]
    have h1 := (abs_le.1 (double_accurate.sub r (1 + 1 / 2 ^ 52))).2
    have h2 : r - (1 + 1 / 2 ^ 52) ≤ 0 := by linarith [show (0 : ℝ) < 1 / 2 ^ 52 by positivity]
    rw [abs_of_nonpos h2] at h1
    nlinarith
  obtain ⟨m, hs, hm, -⟩ := softMeasureF_slice double_accurate h (shareOf 2 coinV 0) (inOff := 0) (by simp [shareOf, coinV]) (hd 0).1 (hd 0).2.le
  have hc : distChooseF FOps.double [0] 2 2 2 coinV r draw = .ok (m, FOps.double.add (softAccF FOps.double 2 [0] (shareOf 2 coinV 0) 0 m)
      (FOps.double.acc 0 [softAccF FOps.double 2 [0] (shareOf 2 coinV 1) 2 m])) := by
    unfold distChooseF
    rw [hsel]
    simp only [Nat.zero_mul]
    rw [hs, show (List.range 2).eraseIdx 0 = [1] from rfl]
    simp only [bind, Except.bind, List.mapM_cons, softMeasureF_forced_slice h]
    rfl
  rw [distMeasureF_eq h rfl rfl ha hm hc, if_neg]
  rintro ⟨hp0, hp1⟩
  rcases (show m = 0 ∨ m = 1 by simp at hm; omega) with rfl | rfl
  · rw [coin_worker.2, show softAccF FOps.double 2 [0] (shareOf 2 coinV 1) 2 0 = 0 from rfl] at hp1
    have e0 : FOps.double.acc 0 [0] = 0 := by
      change round53 (0 + 0) = 0
      simp [round53]
    have e1 : FOps.double.add (1 + 1 / 2 ^ 52) 0 = 1 + 1 / 2 ^ 52 := by
      change round53 (1 + 1 / 2 ^ 52 + 0) = _
      have := round53_nat 4503599627370497 52
      rw [show roundNat 4503599627370497 = 4503599627370497 by decide +kernel] at this
      rw [show (1 + 1 / 2 ^ 52 + 0 : ℝ) = ((4503599627370497 : Nat) : ℝ) / 2 ^ 52 by norm_num, this]
      norm_num
    rw [e0, e1] at hp1
    linarith [show (0 : ℝ) < 1 / 2 ^ 52 by positivity]
  · rcases distChooseF_spec double_accurate h (K := 2) (N := 2) (v := coinV) rfl rfl hr.1 hr.2.le
      (fun i => ⟨(hd i).1, (hd i).2.le⟩) with ⟨h1, -⟩ | ⟨s, -, m, -, p, h1, -, -, -, -, -, -, hrel, -⟩
    · rw [h1] at hc
      cases hc
    · rw [h1] at hc
      simp only [Except.ok.injEq, Prod.mk.injEq] at hc
      obtain ⟨rfl, rfl⟩ := hc
      rw [coin_prob, if_neg (by omega)] at hrel
      linarith [rel_zero hrel (double_accurate.bpow _)]

/-! ## Examples -/

/-- Both qubits are 0 or 1 with equal probability; each of two workers holds both values of the second qubit. -/
noncomputable def flat4 : List ℂ := [1 / 2, 1 / 2, 1 / 2, 1 / 2]

theorem flat4_ok : IdxOK 2 [1] := ⟨by decide, by decide⟩

theorem flat4_total : totalProb 2 (fun c => flat4.getD c 0) = 1 := by
  simp only [totalProb, flat4, Finset.sum_range_succ, Finset.sum_range_zero, show 2 ^ 2 = 4 from rfl]
  norm_num [Complex.normSq_apply]

theorem flat4_prob {m : Nat} (hm : m < 2) : outcomeProb 2 [1] (fun c => flat4.getD c 0) m = 1 / 2 := by
  have e : ∀ i < 4, (subIndex 2 (inOrder 2 [1]) i = m) ↔ i % 2 = m := by
    intro i hi
    have : subIndex 2 (inOrder 2 [1]) i = i % 2 := by
      rcases (show i = 0 ∨ i = 1 ∨ i = 2 ∨ i = 3 by omega) with rfl | rfl | rfl | rfl <;> decide
    rw [this]
  unfold outcomeProb
  rw [Finset.sum_filter]
  simp only [flat4, Finset.sum_range_succ, Finset.sum_range_zero, show 2 ^ 2 = 4 from rfl, e 0 (by omega), e 1 (by omega), e 2 (by omega),
    e 3 (by omega)]
  rcases (show m = 0 ∨ m = 1 by omega) with rfl | rfl <;> norm_num [Complex.normSq_apply]

theorem factor_small : 1 / 2 * factor (1 / 2 ^ 50) ^ (2 ^ (2 - [1].length) + 1 + 2) ≤ 1 := by
  have : factor (1 / 2 ^ 50) ≤ 1 + 1 / 100 := by
    unfold factor
    rw [div_le_iff₀ (by norm_num)]
    norm_num
  have h2 := pow_le_pow_left₀ (by linarith [one_le_factor (u := 1 / 2 ^ 50) (by positivity) (by norm_num)]) this 5
  norm_num at h2 ⊢
  linarith

-- the second qubit, measured on two workers, is 1 with probability 1/2
example (j c : Nat) : |(jobLaw (distDrawsF FOps.double [1] 2 2 2 flat4 (fun _ => [0, 0]) j c 1)).toReal - 1 / 2| ≤ 1 / 2 ^ 16 := by
  have h := C114_double_partial (n := 2) (K := 2) (N := 2) (indices := [1]) (v := flat4) (arena := fun _ => [0, 0]) flat4_ok rfl rfl
    (fun _ _ => rfl) (by norm_num) (by norm_num) (by rw [flat4_total]; norm_num) j c (m := 1) (by decide) (by
      rw [flat4_prob (by omega)]
      exact factor_small)
  rw [flat4_prob (by omega), flat4_total, sub_self, abs_zero, add_zero] at h
  exact h

/-- With draws of 1/2 the measurement succeeds. -/
theorem flat4_measure : ∃ m p out, distMeasureF FOps.double [1] 2 2 2 flat4 (fun _ => [0, 0]) (1 / 2) (fun _ => 1 / 2) = .ok (m, p, out) ∧
    |p - 1 / 2| ≤ (factor (1 / 2 ^ 50) ^ (2 ^ (2 - [1].length) + 1 + 2) - 1) * (1 / 2) := by
  have hd := C95_double (n := 2) (by norm_num)
  have hsum := C114_double (n := 2) (K := 2) (by norm_num) (by norm_num) (T := 1) (by norm_num) (by norm_num)
  have hd0 := drawErr_nonneg (u := 1 / 2 ^ 50) (by positivity) (by norm_num) 2
  have e15 : (1 : ℝ) / 2 ^ 15 ≤ 1 / 2 := by norm_num
  have e16 : (1 : ℝ) / 2 ^ 16 ≤ 1 / 2 := by norm_num
  obtain ⟨m, hm, -, -, h2, -⟩ := C114_possible_partial double_accurate flat4_ok (K := 2) (N := 2) (v := flat4) (arena := fun _ => [0, 0]) rfl
    rfl (fun _ _ => rfl) (r := 1 / 2) (by norm_num) (by norm_num)
    (by rw [flat4_total]; push_cast at hsum; linarith) (draw := fun _ => 1 / 2) (fun _ => ⟨by norm_num, by linarith⟩)
  have hp := flat4_prob (m := m) (by simpa using hm)
  obtain ⟨p, out, hok⟩ := h2 (by rw [hp]; exact factor_small)
  have := (C114_collapse double_accurate flat4_ok rfl rfl (fun _ _ => rfl) (by norm_num) (by norm_num) (fun _ => by norm_num) hok).2.2.2.2.1
  rw [hp] at this
  exact ⟨m, p, out, hok, this⟩

-- the rejected state
example := C114_rejected (arena := fun _ => [0, 0]) (fun _ _ => rfl) (r := 1 / 3) (by norm_num) (draw := fun _ => 1 / 2) (by norm_num)

end QIP.Props
