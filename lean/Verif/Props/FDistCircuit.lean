import Verif.Lemmas.FDistCircuit

/-!
# C115: circuits with measurements on several workers in floating point
-/

namespace QIP.Props

open QIP Spec Finset MeasureTheory

variable {A : Arith} {F : FOps} {u : ℝ} {t n K size : Nat}

/-- A run whose first request is a measurement. -/
theorem run_measure (hF : Accurate F u) {idx : List Nat} (hi : IdxOK n idx) (hK : K * size = 2 ^ n) {v : List (FC A)}
    (hv : v.length = 2 ^ n) {arena : Nat → List ℂ} (ha : ∀ i < K, (arena i).length = size) {x : ℝ × (Nat → ℝ)}
    {xs : List (ℝ × (Nat → ℝ))} (hx : (0 ≤ x.1 ∧ x.1 ≤ 1) ∧ ∀ i, 0 ≤ x.2 i ∧ x.2 i ≤ 1) {calls : List (DCall A)} {os : List Nat}
    {v' : List (FC A)} (hr : distRunF F n K size (.measure idx arena :: calls) (x :: xs) v = (os, .ok v')) :
    ∃ m os' p, os = m :: os' ∧ m < 2 ^ idx.length ∧ distChooseF F idx n K size (v.map FC.val) x.1 x.2 = .ok (m, p) ∧
      0 < outcomeProb n idx (vals v) m ∧
      Rel (factor u ^ (2 ^ (n - idx.length) + 1 + K)) p (outcomeProb n idx (vals v) m) ∧
      distRunF F n K size calls xs (collapsedF F idx n v m p) = (os', .ok v') := by
  rcases distChooseF_spec hF hi hK (v := v.map FC.val) (by simpa using hv) hx.1.1 hx.1.2 hx.2 with
    ⟨h1, -⟩ | ⟨s, -, m, hm, p, h1, -, -, -, -, -, -, hrel, -⟩
  · rw [distRunF] at hr
    simp only [List.headD_cons, List.tail_cons] at hr
    rw [h1] at hr
    simp at hr
  · rw [distRunF_measure hi hK hv ha hm h1] at hr
    rw [vals_map] at hrel
    split at hr
    · rename_i hp
      simp only [Prod.mk.injEq] at hr
      refine ⟨m, _, p, hr.1.symm, hm, h1, ?_, hrel, Prod.ext rfl hr.2⟩
      rcases (outcomeProb_nonneg n idx (vals v) m).lt_or_eq with h | h
      · exact h
      · rw [← h] at hrel
        have := rel_zero hrel (hF.bpow _)
        linarith [hp.1]
    · simp at hr

theorem inside_draws {k : Nat} {x : Fin (k + 1) → JobDraw → ℝ} (hx : ∀ i, 0 < x 0 i ∧ x 0 i < 1) :
    (0 ≤ x 0 (.inl 0) ∧ x 0 (.inl 0) ≤ 1) ∧ ∀ i : Nat, 0 ≤ x 0 (.inr ((i, i), 0)) ∧ x 0 (.inr ((i, i), 0)) ≤ 1 :=
  ⟨⟨(hx _).1.le, (hx _).2.le⟩, fun _ => ⟨(hx _).1.le, (hx _).2.le⟩⟩

theorem err_mono {X Y : ℝ} (h0 : 0 ≤ X) (h : X ≤ Y) : X * (3 + X) ≤ Y * (3 + Y) :=
  mul_le_mul h (by linarith) (by linarith) (by linarith)

theorem collapse_lt (hF : Accurate F u) {uG B R : ℝ} (t : Nat) {idx : List Nat} (hB : 1 ≤ B) (hR : 1 ≤ R)
    (h : B * stepErrD uG u t n K (.measure idx) * R - 1 < 1) : collapseErrD u n K idx.length < 1 := by
  have hγ := collapseErrD_nonneg hF n K idx.length
  have h2 : (1 + collapseErrD u n K idx.length) ^ 2 ≤ stepErrD uG u t n K (.measure idx) := by
    have h3 := stepErrD_measure (n := n) (K := K) hF (uG := uG) t (idx := idx) (le_refl 1) (le_refl 1)
    rw [one_mul, one_pow, one_mul, one_mul] at h3
    refine le_trans ?_ h3
    have h4 : 1 ≤ ((1 + collapseErrD u n K idx.length) ^ 2) ^ 2 := one_le_pow₀ (one_le_pow₀ (by linarith))
    have h5 : 0 ≤ chooseErrD u n K 1 := (abs_nonneg _).trans
      (choose_near (K := K) (n := n) hF (Q := 1) (T := 1) (q := 0) le_rfl one_pos (by simp) le_rfl zero_le_one).1
    have h6 := sq_nonneg (1 + collapseErrD u n K idx.length)
    nlinarith
  have h1 := factor_lt_two hB hR ((sq_nonneg _).trans h2) h
  nlinarith

theorem collapse_err0 (hF : Accurate F u) {P D R : ℝ} {k : Nat} (hP : 1 ≤ P) (hD : 0 ≤ D) (hR : 1 ≤ R) :
    0 ≤ P * ((1 + collapseErrD u n K k) ^ 2 + D) * ((1 + collapseErrD u n K k) ^ 2) ^ 2 * R - 1 := by
  have hγ := collapseErrD_nonneg hF n K k
  have h1 : 1 ≤ (1 + collapseErrD u n K k) ^ 2 := one_le_pow₀ (by linarith)
  have h2 : 1 ≤ ((1 + collapseErrD u n K k) ^ 2) ^ 2 := one_le_pow₀ h1
  have h3 : 1 ≤ P * ((1 + collapseErrD u n K k) ^ 2 + D) := by nlinarith
  have h4 := one_le_mul_of_one_le_of_one_le h3 h2
  have h5 := one_le_mul_of_one_le_of_one_le h4 hR
  linarith

variable [A.Ideal]

theorem upper_main (hF : Accurate F u) {calls : List (DCall A)} {steps : List QStep}
    (hp : List.Forall₂ (DPerforms A t n K size) calls steps) (hok : ∀ q ∈ steps, StepOK n q) (hsize : 0 < size) (hK : K * size = 2 ^ n)
    {os : List Nat} (hlen : os.length = countMeasures steps) {v : List (FC A)} (hv : v.length = 2 ^ n) {s P Q a : ℝ} {w : Nat → ℂ}
    (h : Track n s (vals v) w P Q a) (hsmall : P * Q ^ 2 * (steps.map (stepErrD A.u u t n K)).prod - 1 < 1) :
    a * (circuitLaw os.length (distDrawsFor F n K size calls v os)).toReal ≤ totalProb n (branchOf n steps os w)
      + (P * Q ^ 2 * (steps.map (stepErrD A.u u t n K)).prod - 1) * (3 + (P * Q ^ 2 * (steps.map (stepErrD A.u u t n K)).prod - 1)) := by
  induction hp generalizing os v s P Q a w with
  | nil =>
    have h1 := (abs_le.1 (track_end h)).2
    have h2 : (circuitLaw os.length (distDrawsFor F n K size [] v os)).toReal ≤ 1 := by
      have := prob_le_one (μ := circuitLaw os.length) (s := distDrawsFor F n K size [] v os)
      simpa using ENNReal.toReal_mono ENNReal.one_ne_top this
    have h3 := h.a0
    simp only [List.map_nil, List.prod_nil, mul_one, branchOf]
    have h4 := mul_le_mul_of_nonneg_left h2 h3
    linarith
  | @cons call q calls steps hpq hrest ih =>
    have hq := hok q (by simp)
    have hok' : ∀ q ∈ steps, StepOK n q := fun q hq => hok q (by simp [hq])
    rw [List.map_cons, List.prod_cons, ← mul_assoc] at hsmall ⊢
    have hPr := one_le_stepProdD hF A t n K steps
    have hP := h.close.one_le
    have hQ := h.oneQ
    have hPQ : 1 ≤ P * Q ^ 2 := by nlinarith [one_le_pow₀ hQ (n := 2)]
    by_cases hm : ∀ idx, q ≠ .measure idx
    · obtain ⟨v', ε, k1, k2, k3, k4, k5⟩ := dunit_next (F := F) (u := u) hq hm hpq hsize hK hv calls
      rw [k3] at hsmall ⊢
      have hε : ε < 1 := by
        have h1 := factor_lt_two hPQ hPr (by positivity) hsmall
        by_contra hc
        have : (2 : ℝ) ^ 6 ≤ (1 + ε) ^ 6 := pow_le_pow_left₀ (by norm_num) (by linarith) 6
        linarith
      have e : P * (1 + ε) ^ 2 * (Q * (1 + ε) ^ 2) ^ 2 = P * Q ^ 2 * (1 + ε) ^ 6 := by ring
      have h2 := ih hok' (hlen.trans (branchOf_unit (n := n) hm steps os w).2) k1 (track_unit (iso_step hq hm) h k2 hε k5)
        (by rw [e]; exact hsmall)
      rw [e] at h2
      rw [(branchOf_unit hm steps os w).1]
      refine le_trans (le_of_eq ?_) h2
      unfold distDrawsFor
      simp only [k4]
    · have hm : ∃ idx, q = .measure idx := by
        by_contra h
        exact hm fun idx he => h ⟨idx, he⟩
      obtain ⟨idx, rfl⟩ := hm
      have hi : IdxOK n idx := hq
      obtain ⟨arena, ha, rfl⟩ : ∃ arena, (∀ i < K, (arena i).length = size) ∧ call = .measure idx arena := by
        cases hpq with
        | measure ha => exact ⟨_, ha, rfl⟩
      cases os with
      | nil => simp [countMeasures] at hlen
      | cons m os =>
      have hbound := stepErrD_measure (n := n) (K := K) hF (uG := A.u) t (idx := idx) hP hQ
      have hγ := collapseErrD_nonneg hF n K idx.length
      have hb0 : 0 ≤ totalProb n (branchOf n (.measure idx :: steps) (m :: os) w) := totalProb_nonneg n _
      set R := (steps.map (stepErrD A.u u t n K)).prod
      set S := stepErrD A.u u t n K (.measure idx)
      have hS1 : 1 ≤ S := one_le_stepErrD hF A t n K _
      have hX0 : 0 ≤ P * Q ^ 2 * S * R - 1 := by
        have h1 : 1 ≤ P * Q ^ 2 * S := by nlinarith
        nlinarith
      by_cases hpos : m < 2 ^ idx.length ∧ 0 < outcomeProb n idx (vals v) m
      · obtain ⟨hm, hpos⟩ := hpos
        have hvm : (v.map FC.val).length = 2 ^ n := by simpa using hv
        obtain ⟨box, hb1, hb2⟩ := boxes_upper hF hi hK hvm 0 0 hm
        rw [vals_map] at hb1
        have hTQ := h.total
        have hpT := outcome_le_total (n := n) idx m (vals v)
        obtain ⟨hv1, -⟩ := choose_near (K := K) (n := n) hF hQ h.pos hTQ hpos.le hpT
        set vol := outcomeProb n idx (vals v) m + (2 * K * selectErr u n (totalProb n (vals v)) + 2 * drawErr u n * totalProb n (vals v))
          with hvol
        have hvol0 : 0 ≤ vol := by
          have h1 := selectErr_nonneg hF n h.pos.le
          have h2 := drawErr_nonneg hF.nonneg hF.lt_one n
          have h3 := h.pos
          have h4 : (0 : ℝ) ≤ K := Nat.cast_nonneg K
          positivity
        have hD : 0 ≤ chooseErrD u n K Q := (abs_nonneg _).trans hv1
        have hγ1 := collapse_lt hF t hPQ hPr hsmall
        have hsmall' : P * ((1 + collapseErrD u n K idx.length) ^ 2 + chooseErrD u n K Q) * ((1 + collapseErrD u n K idx.length) ^ 2) ^ 2 * R - 1
            ≤ P * Q ^ 2 * S * R - 1 := by
          have := mul_le_mul_of_nonneg_right hbound (by linarith : 0 ≤ R)
          linarith
        have hX0' := collapse_err0 (n := n) (K := K) (k := idx.length) hF hP hD hPr
        set p : Nat → ℝ := fun s => reportedF F idx n K size (v.map FC.val) s m with hp
        have hrel : ∀ s < K, Rel (factor u ^ (2 ^ (n - idx.length) + 1 + K)) (p s) (outcomeProb n idx (vals v) m) := by
          intro s hs
          have := rel_reportedF (F := F) hF hi (v := v.map FC.val) (K := K) (N := size) (by omega) hs hm
          rwa [vals_map] at this
        have hlen' : os.length = countMeasures steps := by simpa [countMeasures] using hlen
        have hih : ∀ s < K, a * vol * (circuitLaw os.length (distDrawsFor F n K size calls (collapsedF F idx n v m (p s)) os)).toReal
            ≤ totalProb n (branchOf n (.measure idx :: steps) (m :: os) w) + (P * Q ^ 2 * S * R - 1) * (3 + (P * Q ^ 2 * S * R - 1)) := by
          intro s hs
          have h1 := ih hok' hlen' (collapsedF_length (F := F) idx v m (p s)) (track_measure hF h hpos (hrel s hs) hγ1 hvol0 hv1)
            (by linarith)
          refine h1.trans (add_le_add le_rfl (err_mono hX0' hsmall'))
        have hK0 : 0 < K := by
          rcases Nat.eq_zero_or_pos K with rfl | h
          · have := Nat.two_pow_pos n
            omega
          · exact h
        obtain ⟨s₀, hs₀, hmax⟩ := Finset.exists_max_image (range K)
          (fun s => circuitLaw os.length (distDrawsFor F n K size calls (collapsedF F idx n v m (p s)) os)) ⟨0, mem_range.2 hK0⟩
        refine le_trans ?_ (hih s₀ (mem_range.1 hs₀))
        rw [mul_assoc]
        refine mul_le_mul_of_nonneg_left ?_ h.a0
        rw [← ENNReal.toReal_ofReal hvol0, ← ENNReal.toReal_mul]
        refine ENNReal.toReal_mono (ENNReal.mul_ne_top ENNReal.ofReal_ne_top (measure_ne_top _ _)) ?_
        set M := circuitLaw os.length (distDrawsFor F n K size calls (collapsedF F idx n v m (p s₀)) os)
        set E : Nat → Set (Fin os.length → JobDraw → ℝ) := fun s => distDrawsFor F n K size calls (collapsedF F idx n v m (p s)) os with hE
        have hsub : circuitLaw (os.length + 1) (distDrawsFor F n K size (.measure idx arena :: calls) v (m :: os))
            ≤ circuitLaw (os.length + 1) (⋃ s ∈ range K, {x : Fin (os.length + 1) → JobDraw → ℝ | x 0 ∈ box s ∧
              (Fin.tail x : Fin os.length → JobDraw → ℝ) ∈ E s}) := by
          apply measure_mono_ae
          filter_upwards [circuitLaw_inside os.length] with x hx
          rintro ⟨v', hr⟩
          have e : measureDraws (k := (m :: os).length) x = _ := measureDraws_succ (k := os.length) x
          rw [e] at hr
          obtain ⟨m', os', p', r1, -, r3, -, -, r6⟩ := run_measure hF hi hK hv ha (inside_draws hx) hr
          simp only [List.cons.injEq] at r1
          obtain ⟨rfl, rfl⟩ := r1
          obtain ⟨s, hs, hbox, rfl⟩ := hb2 (x 0) p' hx r3
          refine Set.mem_biUnion (mem_range.2 hs) ⟨hbox, ?_⟩
          exact ⟨v', r6⟩
        calc circuitLaw (os.length + 1) (distDrawsFor F n K size (.measure idx arena :: calls) v (m :: os))
            ≤ _ := hsub
          _ ≤ ∑ s ∈ range K, circuitLaw (os.length + 1) {x : Fin (os.length + 1) → JobDraw → ℝ | x 0 ∈ box s ∧
              (Fin.tail x : Fin os.length → JobDraw → ℝ) ∈ E s} := measure_biUnion_finset_le _ _
          _ = ∑ s ∈ range K, jobLaw (box s) * circuitLaw os.length (E s) := by
              apply Finset.sum_congr rfl
              intro s _
              exact circuitLaw_succ _ _ _
          _ ≤ ∑ s ∈ range K, jobLaw (box s) * M := Finset.sum_le_sum fun s hs => mul_le_mul_right (hmax s hs) _
          _ = (∑ s ∈ range K, jobLaw (box s)) * M := by rw [Finset.sum_mul]
          _ ≤ ENNReal.ofReal vol * M := mul_le_mul_left hb1 _
      · have hnull : circuitLaw (os.length + 1) (distDrawsFor F n K size (.measure idx arena :: calls) v (m :: os)) = 0 := by
          refine measure_mono_null ?_ (ae_iff.1 (circuitLaw_inside os.length))
          rintro x ⟨v', hr⟩ hx
          have e : measureDraws (k := (m :: os).length) x = _ := measureDraws_succ (k := os.length) x
          rw [e] at hr
          obtain ⟨m', os', p', r1, r2, -, r4, -, -⟩ := run_measure hF hi hK hv ha (inside_draws hx) hr
          simp only [List.cons.injEq] at r1
          obtain ⟨rfl, rfl⟩ := r1
          exact hpos ⟨r2, r4⟩
        have e : circuitLaw (m :: os).length (distDrawsFor F n K size (.measure idx arena :: calls) v (m :: os)) = 0 := hnull
        rw [e, ENNReal.toReal_zero, mul_zero]
        have := mul_nonneg hX0 (by linarith : 0 ≤ 3 + (P * Q ^ 2 * S * R - 1))
        linarith

theorem lower_main (hF : Accurate F u) {calls : List (DCall A)} {steps : List QStep}
    (hp : List.Forall₂ (DPerforms A t n K size) calls steps) (hok : ∀ q ∈ steps, StepOK n q) (hsize : 0 < size) (hK : K * size = 2 ^ n)
    {os : List Nat} (hlen : os.length = countMeasures steps) {v : List (FC A)} (hv : v.length = 2 ^ n) {s P Q a : ℝ} {w : Nat → ℂ}
    (h : Track n s (vals v) w P Q a) (hsmall : P * Q ^ 2 * (steps.map (stepErrD A.u u t n K)).prod - 1 < 1) :
    totalProb n (branchOf n steps os w)
      - (P * Q ^ 2 * (steps.map (stepErrD A.u u t n K)).prod - 1) * (3 + (P * Q ^ 2 * (steps.map (stepErrD A.u u t n K)).prod - 1))
      ≤ a * (circuitLaw os.length (distDrawsFor F n K size calls v os ∪ distRejected F n K size calls v os)).toReal := by
  induction hp generalizing os v s P Q a w with
  | nil =>
    cases os with
    | cons m os => simp [countMeasures] at hlen
    | nil =>
    have h1 := (abs_le.1 (track_end h)).1
    have e : distDrawsFor F n K size [] v [] ∪ distRejected F n K size [] v [] = Set.univ := by
      apply Set.eq_univ_of_forall
      intro x
      exact Or.inl ⟨v, rfl⟩
    simp only [List.map_nil, List.prod_nil, mul_one, branchOf]
    rw [e, measure_univ, ENNReal.toReal_one, mul_one]
    linarith
  | @cons call q calls steps hpq hrest ih =>
    have hq := hok q (by simp)
    have hok' : ∀ q ∈ steps, StepOK n q := fun q hq => hok q (by simp [hq])
    rw [List.map_cons, List.prod_cons, ← mul_assoc] at hsmall ⊢
    have hPr := one_le_stepProdD hF A t n K steps
    have hP := h.close.one_le
    have hQ := h.oneQ
    have hPQ : 1 ≤ P * Q ^ 2 := by nlinarith [one_le_pow₀ hQ (n := 2)]
    by_cases hm : ∀ idx, q ≠ .measure idx
    · obtain ⟨v', ε, k1, k2, k3, k4, k5⟩ := dunit_next (F := F) (u := u) hq hm hpq hsize hK hv calls
      rw [k3] at hsmall ⊢
      have hε : ε < 1 := by
        have h1 := factor_lt_two hPQ hPr (by positivity) hsmall
        by_contra hc
        have : (2 : ℝ) ^ 6 ≤ (1 + ε) ^ 6 := pow_le_pow_left₀ (by norm_num) (by linarith) 6
        linarith
      have e : P * (1 + ε) ^ 2 * (Q * (1 + ε) ^ 2) ^ 2 = P * Q ^ 2 * (1 + ε) ^ 6 := by ring
      have h2 := ih hok' (hlen.trans (branchOf_unit (n := n) hm steps os w).2) k1 (track_unit (iso_step hq hm) h k2 hε k5)
        (by rw [e]; exact hsmall)
      rw [e] at h2
      rw [(branchOf_unit hm steps os w).1]
      refine h2.trans (le_of_eq ?_)
      unfold distDrawsFor distRejected
      simp only [k4]
    · have hm : ∃ idx, q = .measure idx := by
        by_contra h
        exact hm fun idx he => h ⟨idx, he⟩
      obtain ⟨idx, rfl⟩ := hm
      have hi : IdxOK n idx := hq
      obtain ⟨arena, ha, rfl⟩ : ∃ arena, (∀ i < K, (arena i).length = size) ∧ call = .measure idx arena := by
        cases hpq with
        | measure ha => exact ⟨_, ha, rfl⟩
      cases os with
      | nil => simp [countMeasures] at hlen
      | cons m os =>
      have hbound := stepErrD_measure (n := n) (K := K) hF (uG := A.u) t (idx := idx) hP hQ
      set R := (steps.map (stepErrD A.u u t n K)).prod
      set S := stepErrD A.u u t n K (.measure idx)
      have hS1 : 1 ≤ S := one_le_stepErrD hF A t n K _
      have hXP : P - 1 ≤ P * Q ^ 2 * S * R - 1 := by
        have h1 : P ≤ P * Q ^ 2 := by nlinarith [one_le_pow₀ hQ (n := 2)]
        have h2 : P * Q ^ 2 ≤ P * Q ^ 2 * S := by nlinarith
        nlinarith
      by_cases hpos : 0 < outcomeProb n idx (vals v) m
      · have hm : m < 2 ^ idx.length := by
          by_contra hc
          rw [outcomeProb_out hi _ hc] at hpos
          exact lt_irrefl _ hpos
        have hvm : (v.map FC.val).length = 2 ^ n := by simpa using hv
        obtain ⟨box, hb0, hbd, hb1, hb2⟩ := boxes_lower hF hi hK hvm 0 0 hm
        rw [vals_map] at hb1
        have hTQ := h.total
        have hpT := outcome_le_total (n := n) idx m (vals v)
        obtain ⟨-, hv1⟩ := choose_near (K := K) (n := n) hF hQ h.pos hTQ hpos.le hpT
        set δ := 2 * K * selectErr u n (totalProb n (vals v)) + 2 * drawErr u n * totalProb n (vals v) + |totalProb n (vals v) - 1|
        set vol := max 0 (outcomeProb n idx (vals v) m - δ) with hvol
        have hvol0 : 0 ≤ vol := le_max_left _ _
        have hb1' : ENNReal.ofReal vol ≤ ∑ s ∈ range K, jobLaw (box s) := by
          rcases le_total 0 (outcomeProb n idx (vals v) m - δ) with hc | hc
          · rw [hvol, max_eq_right hc]
            exact hb1
          · rw [hvol, max_eq_left hc, ENNReal.ofReal_zero]
            exact zero_le
        have hD : 0 ≤ chooseErrD u n K Q := (abs_nonneg _).trans hv1
        have hγ1 := collapse_lt hF t hPQ hPr hsmall
        have hsmall' : P * ((1 + collapseErrD u n K idx.length) ^ 2 + chooseErrD u n K Q) * ((1 + collapseErrD u n K idx.length) ^ 2) ^ 2 * R - 1
            ≤ P * Q ^ 2 * S * R - 1 := by
          have := mul_le_mul_of_nonneg_right hbound (by linarith : 0 ≤ R)
          linarith
        have hX0' := collapse_err0 (n := n) (K := K) (k := idx.length) hF hP hD hPr
        set p : Nat → ℝ := fun s => reportedF F idx n K size (v.map FC.val) s m with hp
        have hrel : ∀ s < K, Rel (factor u ^ (2 ^ (n - idx.length) + 1 + K)) (p s) (outcomeProb n idx (vals v) m) := by
          intro s hs
          have := rel_reportedF (F := F) hF hi (v := v.map FC.val) (K := K) (N := size) (by omega) hs hm
          rwa [vals_map] at this
        have hlen' : os.length = countMeasures steps := by simpa [countMeasures] using hlen
        set W : Nat → Set (Fin os.length → JobDraw → ℝ) := fun s => {y | 0 < p s ∧ p s ≤ 1 →
          y ∈ distDrawsFor F n K size calls (collapsedF F idx n v m (p s)) os ∪
            distRejected F n K size calls (collapsedF F idx n v m (p s)) os} with hW
        have hih : ∀ s < K, totalProb n (branchOf n (.measure idx :: steps) (m :: os) w)
            - (P * Q ^ 2 * S * R - 1) * (3 + (P * Q ^ 2 * S * R - 1)) ≤ a * vol * (circuitLaw os.length (W s)).toReal := by
          intro s hs
          have h1 := ih hok' hlen' (collapsedF_length (F := F) idx v m (p s)) (track_measure hF h hpos (hrel s hs) hγ1 hvol0 hv1)
            (by linarith)
          have h2 : (circuitLaw os.length (distDrawsFor F n K size calls (collapsedF F idx n v m (p s)) os ∪
              distRejected F n K size calls (collapsedF F idx n v m (p s)) os)).toReal ≤ (circuitLaw os.length (W s)).toReal :=
            ENNReal.toReal_mono (measure_ne_top _ _) (measure_mono fun y hy _ => hy)
          have h3 := mul_le_mul_of_nonneg_left h2 (mul_nonneg h.a0 hvol0)
          have h4 := err_mono hX0' hsmall'
          have e : branchOf n (.measure idx :: steps) (m :: os) w = branchOf n steps os (project n idx m w) := rfl
          rw [e]
          linarith
        have hK0 : 0 < K := by
          rcases Nat.eq_zero_or_pos K with rfl | h
          · have := Nat.two_pow_pos n
            omega
          · exact h
        obtain ⟨s₀, hs₀, hmin⟩ := Finset.exists_min_image (range K) (fun s => circuitLaw os.length (W s)) ⟨0, mem_range.2 hK0⟩
        refine (hih s₀ (mem_range.1 hs₀)).trans ?_
        rw [mul_assoc]
        refine mul_le_mul_of_nonneg_left ?_ h.a0
        rw [← ENNReal.toReal_ofReal hvol0, ← ENNReal.toReal_mul]
        refine ENNReal.toReal_mono (measure_ne_top _ _) ?_
        set M := circuitLaw os.length (W s₀)
        refine le_trans ?_ (circuitLaw_sum os.length hb0 hbd (S := W) ?_)
        · calc ENNReal.ofReal vol * M ≤ (∑ s ∈ range K, jobLaw (box s)) * M := mul_le_mul_left hb1' _
            _ = ∑ s ∈ range K, jobLaw (box s) * M := by rw [Finset.sum_mul]
            _ ≤ ∑ s ∈ range K, jobLaw (box s) * circuitLaw os.length (W s) :=
              Finset.sum_le_sum fun s hs => mul_le_mul_right (hmin s hs) _
        · intro s hs x hx hbox htail
          obtain ⟨-, hc⟩ := hb2 s (mem_range.1 hs) (x 0) hbox hx
          have e : measureDraws (k := (m :: os).length) x = _ := measureDraws_succ (k := os.length) x
          have hr := distRunF_measure (xs := measureDraws (Fin.tail x : Fin os.length → JobDraw → ℝ))
            (x := (x 0 (.inl 0), fun w => x 0 (.inr ((w, w), 0)))) hi hK hv ha hm hc calls
          by_cases hpp : 0 < p s ∧ p s ≤ 1
          · rw [if_pos hpp] at hr
            rcases htail hpp with ⟨v', h1⟩ | ⟨os', h1, h2, h3⟩
            · left
              refine ⟨v', ?_⟩
              rw [e, hr, h1]
            · right
              refine ⟨m :: os', List.cons_prefix_cons.2 ⟨rfl, h1⟩, by simp, ?_⟩
              rw [e, hr, h3]
          · rw [if_neg hpp] at hr
            right
            exact ⟨[m], List.cons_prefix_cons.2 ⟨rfl, List.nil_prefix⟩, by simp, by rw [e, hr]⟩
      · have h0 : outcomeProb n idx (vals v) m = 0 := le_antisymm (not_lt.1 hpos) (outcomeProb_nonneg _ _ _ _)
        have h1 := track_none h h0 hok' os
        have e : branchOf n (.measure idx :: steps) (m :: os) w = branchOf n steps os (project n idx m w) := rfl
        rw [e]
        have h2 := mul_nonneg h.a0 (ENNReal.toReal_nonneg (a := circuitLaw (m :: os).length
          (distDrawsFor F n K size (.measure idx arena :: calls) v (m :: os) ∪ distRejected F n K size (.measure idx arena :: calls) v (m :: os))))
        have h3 : 0 ≤ P - 1 := by linarith
        nlinarith

theorem track_start {v : Nat → ℂ} {q : ℝ} (hT : 0 < totalProb n v) (hq : |totalProb n v - 1| ≤ q) :
    Track n (1 / dist2 n v 0) v (fun c => ((1 / dist2 n v 0 : ℝ) : ℂ) * v c) 1 (1 + q) 1 := by
  have hN := norm_pos hT
  have e : (1 / dist2 n v 0) ^ 2 * totalProb n v = 1 := by
    rw [totalProb_dist]
    field_simp
  have hq0 := (abs_nonneg _).trans hq
  refine ⟨close_start hT, by linarith, hT, by linarith, zero_le_one, le_rfl, ?_, e.le⟩
  rw [e]
  simp

theorem branchProb_bounds {steps : List QStep} (hok : ∀ q ∈ steps, StepOK n q) (os : List Nat) {v : Nat → ℂ} (hT : 0 < totalProb n v) :
    0 ≤ branchProb n steps os v ∧ branchProb n steps os v ≤ 1 := by
  unfold branchProb
  refine ⟨div_nonneg (totalProb_nonneg n _) hT.le, ?_⟩
  rw [div_le_one hT, totalProb_dist, totalProb_dist]
  exact pow_le_pow_left₀ (dist2_nonneg _ _ _) (branchOf_norm hok os _) 2

/-- C115 (probabilities, upper bound): gates, inverse gates and measurements on `K` diagonal workers in floating point.  The job succeeds
and the measurements give the outcomes `os` at most with the probability of Born's rule, up to an explicit error. -/
theorem C115_upper_partial (hF : Accurate F u) {calls : List (DCall A)} {steps : List QStep}
    (hp : List.Forall₂ (DPerforms A t n K size) calls steps) (hok : ∀ q ∈ steps, StepOK n q) (hsize : 0 < size) (hK : K * size = 2 ^ n)
    {v : List (FC A)} (hv : v.length = 2 ^ n) {q : ℝ} (hT : 0 < totalProb n (vals v)) (hq : |totalProb n (vals v) - 1| ≤ q)
    {os : List Nat} (hlen : os.length = countMeasures steps) :
    (circuitLaw os.length (distDrawsFor F n K size calls v os)).toReal ≤ branchProb n steps os (vals v)
      + circuitErrD A.u u t n K q steps * (3 + circuitErrD A.u u t n K q steps) := by
  unfold circuitErrD
  by_cases hsmall : 1 * (1 + q) ^ 2 * (steps.map (stepErrD A.u u t n K)).prod - 1 < 1
  · have := upper_main hF hp hok hsize hK hlen hv (track_start hT hq) hsmall
    rwa [branch_start hok os hT, one_mul, one_mul] at this
  · rw [one_mul] at hsmall
    have h1 : (circuitLaw os.length (distDrawsFor F n K size calls v os)).toReal ≤ 1 := by
      simpa using ENNReal.toReal_mono ENNReal.one_ne_top
        (prob_le_one (μ := circuitLaw os.length) (s := distDrawsFor F n K size calls v os))
    have h2 := (branchProb_bounds hok os hT).1
    nlinarith

/-- C115 (probabilities, lower bound): the job goes through the outcomes `os`, or through the first of them until the workers reject the
probability of one (C114), at least with the probability of Born's rule up to an explicit error. -/
theorem C115_lower_partial (hF : Accurate F u) {calls : List (DCall A)} {steps : List QStep}
    (hp : List.Forall₂ (DPerforms A t n K size) calls steps) (hok : ∀ q ∈ steps, StepOK n q) (hsize : 0 < size) (hK : K * size = 2 ^ n)
    {v : List (FC A)} (hv : v.length = 2 ^ n) {q : ℝ} (hT : 0 < totalProb n (vals v)) (hq : |totalProb n (vals v) - 1| ≤ q)
    {os : List Nat} (hlen : os.length = countMeasures steps) :
    branchProb n steps os (vals v) - circuitErrD A.u u t n K q steps * (3 + circuitErrD A.u u t n K q steps)
      ≤ (circuitLaw os.length (distDrawsFor F n K size calls v os ∪ distRejected F n K size calls v os)).toReal := by
  unfold circuitErrD
  by_cases hsmall : 1 * (1 + q) ^ 2 * (steps.map (stepErrD A.u u t n K)).prod - 1 < 1
  · have := lower_main hF hp hok hsize hK hlen hv (track_start hT hq) hsmall
    rwa [branch_start hok os hT, one_mul, one_mul] at this
  · rw [one_mul] at hsmall
    have h1 := ENNReal.toReal_nonneg (a := circuitLaw os.length (distDrawsFor F n K size calls v os ∪ distRejected F n K size calls v os))
    have h2 := (branchProb_bounds hok os hT).2
    nlinarith

theorem Close.mono {s P P' : ℝ} {v w : Nat → ℂ} (h : Close n s v w P) (hP : P ≤ P') : Close n s v w P' :=
  ⟨h.nonneg, h.one_le.trans hP, h.dist.trans (by linarith), h.norm⟩

theorem dstate_main (hF : Accurate F u) {calls : List (DCall A)} {steps : List QStep}
    (hp : List.Forall₂ (DPerforms A t n K size) calls steps) (hok : ∀ q ∈ steps, StepOK n q) (hsize : 0 < size) (hK : K * size = 2 ^ n)
    {v v' : List (FC A)} (hv : v.length = 2 ^ n) {s P : ℝ} {w : Nat → ℂ} (hc : Close n s (vals v) w P) (hs : 0 < s)
    {xs : List (ℝ × (Nat → ℝ))} (hx : ∀ x ∈ xs, (0 ≤ x.1 ∧ x.1 ≤ 1) ∧ ∀ i, 0 ≤ x.2 i ∧ x.2 i ≤ 1) {os : List Nat}
    (hr : distRunF F n K size calls xs v = (os, .ok v')) :
    os.length = countMeasures steps ∧ v'.length = 2 ^ n ∧ ∃ s' : ℝ, 0 < s' ∧
      Close n s' (vals v') (branchOf n steps os w) (P * (steps.map (stepErrD A.u u t n K)).prod) := by
  induction hp generalizing os v s P w xs with
  | nil =>
    simp only [distRunF, Prod.mk.injEq, Except.ok.injEq] at hr
    obtain ⟨rfl, rfl⟩ := hr
    exact ⟨rfl, hv, s, hs, by simpa [branchOf] using hc⟩
  | @cons call q calls steps hpq hrest ih =>
    have hq := hok q (by simp)
    have hok' : ∀ q ∈ steps, StepOK n q := fun q hq => hok q (by simp [hq])
    have hP := hc.one_le
    rw [List.map_cons, List.prod_cons, ← mul_assoc]
    by_cases hm : ∀ idx, q ≠ .measure idx
    · obtain ⟨v1, ε, k1, k2, k3, k4, k5⟩ := dunit_next (F := F) (u := u) hq hm hpq hsize hK hv calls
      rw [k4] at hr
      rw [k3, (branchOf_unit hm steps os w).1, (branchOf_unit (n := n) hm steps os w).2]
      refine ih hok' k1 ((close_unit (iso_step hq hm) hc k2 k5).mono ?_) hs hx hr
      exact mul_le_mul_of_nonneg_left (pow_le_pow_right₀ (by linarith) (by norm_num)) (by linarith)
    · have hm : ∃ idx, q = .measure idx := by
        by_contra h
        exact hm fun idx he => h ⟨idx, he⟩
      obtain ⟨idx, rfl⟩ := hm
      obtain ⟨arena, ha, rfl⟩ : ∃ arena, (∀ i < K, (arena i).length = size) ∧ call = .measure idx arena := by
        cases hpq with
        | measure ha => exact ⟨_, ha, rfl⟩
      have e : distRunF F n K size (.measure idx arena :: calls) xs v
          = distRunF F n K size (.measure idx arena :: calls) (xs.headD (0, fun _ => 0) :: xs.tail) v := by
        rw [distRunF, distRunF]
        rfl
      rw [e] at hr
      have hx0 : (0 ≤ (xs.headD (0, fun _ => 0)).1 ∧ (xs.headD (0, fun _ => 0)).1 ≤ 1) ∧
          ∀ i, 0 ≤ (xs.headD (0, fun _ => 0)).2 i ∧ (xs.headD (0, fun _ => 0)).2 i ≤ 1 := by
        cases xs with
        | nil => exact ⟨⟨le_rfl, zero_le_one⟩, fun _ => ⟨le_rfl, zero_le_one⟩⟩
        | cons x xs => exact hx x (by simp)
      obtain ⟨m, os', p, rfl, hm, -, hpos, hrel, hr'⟩ := run_measure hF hq hK hv ha hx0 hr
      obtain ⟨j1, -, -⟩ := collapsed_close (K := K) hF hc hpos hrel
      have hγ := collapseErrD_nonneg hF n K idx.length
      have h2 : 1 + collapseErrD u n K idx.length ≤ stepErrD A.u u t n K (.measure idx) := by
        have h3 := stepErrD_measure (n := n) (K := K) hF (uG := A.u) t (idx := idx) (le_refl 1) (le_refl 1)
        rw [one_mul, one_pow, one_mul, one_mul] at h3
        refine le_trans ?_ h3
        have h4 : 1 ≤ ((1 + collapseErrD u n K idx.length) ^ 2) ^ 2 := one_le_pow₀ (one_le_pow₀ (by linarith))
        have h5 : 0 ≤ chooseErrD u n K 1 := (abs_nonneg _).trans
          (choose_near (K := K) (n := n) hF (Q := 1) (T := 1) (q := 0) le_rfl one_pos (by simp) le_rfl zero_le_one).1
        nlinarith
      have hPS := mul_le_mul_of_nonneg_left h2 (by linarith : 0 ≤ P)
      have hc' : Close n (s * √(outcomeProb n idx (vals v) m)) (vals (collapsedF F idx n v m p)) (project n idx m w)
          (P * stepErrD A.u u t n K (.measure idx)) := by
        refine ⟨mul_nonneg hc.nonneg (Real.sqrt_nonneg _), by nlinarith, j1.trans (by linarith), ?_⟩
        rw [dist2_zero_project]
        refine (Real.sqrt_le_sqrt (outcome_le_total _ _ _)).trans ?_
        rw [totalProb_dist, Real.sqrt_sq (dist2_nonneg _ _ _)]
        exact hc.norm
      obtain ⟨r1, r2, r3⟩ := ih hok' (collapsedF_length idx v m p) hc' (mul_pos hs (Real.sqrt_pos.2 hpos))
        (fun x hx' => hx x (List.mem_of_mem_tail hx')) hr'
      exact ⟨by simp [countMeasures, r1], r2, r3⟩

/-- C115 (states): after a job that succeeds with random numbers in `[0, 1]` the state is, up to normalisation, that of the branch of the
outcomes; the error is relative to the square root of the probability of the branch. -/
theorem C115_state_partial (hF : Accurate F u) {calls : List (DCall A)} {steps : List QStep}
    (hp : List.Forall₂ (DPerforms A t n K size) calls steps) (hok : ∀ q ∈ steps, StepOK n q) (hsize : 0 < size) (hK : K * size = 2 ^ n)
    {v v' : List (FC A)} (hv : v.length = 2 ^ n) (hT : 0 < totalProb n (vals v)) {xs : List (ℝ × (Nat → ℝ))}
    (hx : ∀ x ∈ xs, (0 ≤ x.1 ∧ x.1 ≤ 1) ∧ ∀ i, 0 ≤ x.2 i ∧ x.2 i ≤ 1) {os : List Nat}
    (hr : distRunF F n K size calls xs v = (os, .ok v')) :
    os.length = countMeasures steps ∧ v'.length = 2 ^ n ∧
      (0 < branchProb n steps os (vals v) →
        dist2 n (fun c => ((1 / √(totalProb n (vals v')) : ℝ) : ℂ) * vals v' c)
            (fun c => ((1 / √(totalProb n (branchOf n steps os (vals v))) : ℝ) : ℂ) * branchOf n steps os (vals v) c)
          ≤ 2 * circuitErrD A.u u t n K 0 steps / √(branchProb n steps os (vals v))) := by
  have hN := norm_pos hT
  obtain ⟨h1, h2, s, hs, h3⟩ := dstate_main (t := t) hF hp hok hsize hK hv (close_start hT) (by positivity) hx hr
  refine ⟨h1, h2, fun hpos => ?_⟩
  have e1 : ∀ v, √(totalProb n v) = dist2 n v 0 := fun v => by rw [totalProb_dist, Real.sqrt_sq (dist2_nonneg _ _ _)]
  have hbs := branch_start hok os hT
  set w := branchOf n steps os fun c => ((1 / dist2 n (vals v) 0 : ℝ) : ℂ) * vals v c with hw
  rw [← hbs] at hpos ⊢
  have h4 := normalised_dist hs h3.dist (norm_pos hpos)
  rw [e1, e1, e1]
  have e2 : circuitErrD A.u u t n K 0 steps = 1 * (steps.map (stepErrD A.u u t n K)).prod - 1 := by
    unfold circuitErrD
    rw [add_zero, one_pow]
  rw [e2]
  refine le_trans (le_of_eq ?_) h4
  apply dist2_congr fun _ _ => rfl
  intro r hr
  have hsc := branchOf_scale hok os (1 / dist2 n (vals v) 0) (x := fun c => ((1 / dist2 n (vals v) 0 : ℝ) : ℂ) * vals v c)
    (v := vals v) fun _ _ => rfl
  have hsn : dist2 n w 0 = 1 / dist2 n (vals v) 0 * dist2 n (branchOf n steps os (vals v)) 0 := by
    rw [← dist2_scale_zero (by positivity)]
    exact dist2_congr hsc fun _ _ => rfl
  have hwpos := norm_pos hpos
  rw [hsn] at hwpos
  have hy : 0 < dist2 n (branchOf n steps os (vals v)) 0 := pos_of_mul_pos_right hwpos (by positivity)
  have hwr : w r = _ := hsc r hr
  rw [hsn, hwr, ← mul_assoc, ← Complex.ofReal_mul]
  congr 2
  field_simp

/-! ## Double precision -/

variable {D : Double} [D.Ideal]

/-- Every step in double precision on at most 20 qubits and 16 diagonal workers. -/
theorem stepErrD_double {n : Nat} (hn : n ≤ 20) (hK : K ≤ 2 ^ 4) {q : QStep}
    (hw : ∀ g back gs, q = .gate g back gs → gs.flatten.length ≤ 3) :
    stepErrD (binary64 D).u (1 / 2 ^ 50) 8 n K q ≤ 1 + 1 / 2 ^ 20 := by
  have hu := (binary64 D).u_nonneg
  have hu4 := (binary64_u (D := D)).le
  cases q with
  | func =>
    unfold stepErrD
    norm_num
  | gate g back gs =>
    have h3 := hw g back gs rfl
    have h1 : gateErrD (binary64 D).u 8 gs.flatten.length K ≤ 1 / 2 ^ 42 := by
      unfold gateErrD
      set e := (8 + 1) * (gs.flatten.length + 1) + 1 + 2 ^ gs.flatten.length + (K - 1) with he
      have hle : e ≤ 60 := by
        have := Nat.pow_le_pow_right (show 0 < 2 by omega) h3
        omega
      have hle' : (e : ℝ) ≤ 60 := by exact_mod_cast hle
      have hp := pow_bound hu (k := e) (by
        norm_num at hu4 ⊢
        nlinarith)
      have hs : √((2 : ℝ) ^ gs.flatten.length) ≤ 3 := by
        rw [Real.sqrt_le_left (by norm_num)]
        have : (2 : ℝ) ^ gs.flatten.length ≤ 2 ^ 3 := pow_le_pow_right₀ (by norm_num) h3
        norm_num at this ⊢
        linarith
      have hs0 := Real.sqrt_nonneg ((2 : ℝ) ^ gs.flatten.length)
      refine (mul_le_mul (by linarith : _ ≤ 2 * ((e : ℝ) * (binary64 D).u)) hs hs0 (by positivity)).trans ?_
      norm_num at hu4 ⊢
      nlinarith
    have h0 := gateErrD_nonneg' (binary64 D) 8 gs.flatten.length K
    unfold stepErrD
    refine (pow_le_pow_left₀ (by linarith) (by linarith : 1 + gateErrD (binary64 D).u 8 gs.flatten.length K ≤ 1 + 1 / 2 ^ 42) 6).trans ?_
    norm_num
  | measure idx =>
    simp only [stepErrD, drawErr, collapseErrD]
    obtain ⟨N, hN⟩ : ∃ N, N = 2 ^ (n - idx.length) + 4 + K := ⟨_, rfl⟩
    obtain ⟨L, hL⟩ : ∃ L, L = 2 ^ (n + 1) + 2 := ⟨_, rfl⟩
    obtain ⟨M, hM⟩ : ∃ M, M = 2 ^ n + 1 := ⟨_, rfl⟩
    rw [← hN, ← hL, ← hM]
    have hN' : (N : ℝ) ≤ 1048600 := by
      have := Nat.pow_le_pow_right (show 0 < 2 by omega) (show n - idx.length ≤ 20 by omega)
      have h : N ≤ 1048600 := by omega
      exact_mod_cast h
    have hL' : (L : ℝ) ≤ 2097154 := by
      have := Nat.pow_le_pow_right (show 0 < 2 by omega) (show n + 1 ≤ 21 by omega)
      have h : L ≤ 2097154 := by omega
      exact_mod_cast h
    have hM' : (M : ℝ) ≤ 1048577 := by
      have := Nat.pow_le_pow_right (show 0 < 2 by omega) hn
      have h : M ≤ 1048577 := by omega
      exact_mod_cast h
    have hK' : (K : ℝ) ≤ 16 := by exact_mod_cast hK
    have hK0 : (0 : ℝ) ≤ K := Nat.cast_nonneg K
    have h1 := factor_pow_double hN' (by norm_num)
    have h2 := factor_pow_double hL' (by norm_num)
    have h3 := factor_pow_double hM' (by norm_num)
    have h0 := one_le_pow₀ (one_le_factor (u := 1 / 2 ^ 50) (by positivity) (by norm_num)) (n := N)
    have h0' := one_le_pow₀ (one_le_factor (u := 1 / 2 ^ 50) (by positivity) (by norm_num)) (n := M)
    have h0'' := one_le_pow₀ (one_le_factor (u := 1 / 2 ^ 50) (by positivity) (by norm_num)) (n := L)
    set x := factor (1 / 2 ^ 50) ^ N
    set y := factor (1 / 2 ^ 50) ^ L
    set z := factor (1 / 2 ^ 50) ^ M
    have e1 : 1 + (x - 1) = x := by ring
    rw [e1]
    have hx : x ≤ 1 + 1 / 2 ^ 27 := by
      norm_num at h1 ⊢
      linarith
    have hy : y - 1 ≤ 1 / 2 ^ 26 := by
      norm_num at h2 ⊢
      linarith
    have hz : z - 1 ≤ 1 / 2 ^ 27 := by
      norm_num at h3 ⊢
      linarith
    have h4 : x ^ 2 ≤ (1 + 1 / 2 ^ 27) ^ 2 := pow_le_pow_left₀ (by linarith) hx 2
    have h5 : x ^ 4 ≤ (1 + 1 / 2 ^ 27) ^ 4 := pow_le_pow_left₀ (by linarith) hx 4
    have h6 : 4 * (K : ℝ) * (z - 1) ≤ 4 * 16 * (1 / 2 ^ 27) := mul_le_mul (by linarith) hz (by linarith) (by norm_num)
    have h7 : x ^ 2 + 4 * K * (z - 1) + 2 * (2 * (y - 1)) ≤ (1 + 1 / 2 ^ 27) ^ 2 + 4 * 16 * (1 / 2 ^ 27) + 2 * (2 * (1 / 2 ^ 26)) := by linarith
    refine (mul_le_mul h7 h5 (by positivity) (by positivity)).trans ?_
    norm_num

theorem circuitErrD_double {n : Nat} (hn : n ≤ 20) (hK : K ≤ 2 ^ 4) {steps : List QStep} (hN : steps.length ≤ 2 ^ 8) {q : ℝ} (hq0 : 0 ≤ q)
    (hq : q ≤ 1 / 2 ^ 20) (hw : ∀ g back gs, .gate g back gs ∈ steps → gs.flatten.length ≤ 3) :
    0 ≤ circuitErrD (binary64 D).u (1 / 2 ^ 50) 8 n K q steps ∧ circuitErrD (binary64 D).u (1 / 2 ^ 50) 8 n K q steps ≤ 1 / 2 ^ 10 := by
  have h0 := one_le_stepProdD double_accurate (binary64 D) 8 n K steps
  have h1 : (steps.map (stepErrD (binary64 D).u (1 / 2 ^ 50) 8 n K)).prod ≤ (1 + 1 / 2 ^ 20) ^ steps.length := by
    clear hN h0
    induction steps with
    | nil => simp
    | cons q rest ih =>
      rw [List.map_cons, List.prod_cons, List.length_cons, pow_succ, mul_comm]
      have h1 := ih fun g back gs h => hw g back gs (by simp [h])
      have h2 := stepErrD_double (D := D) hn hK (q := q) fun g back gs h => hw g back gs (by simp [h])
      have h3 := one_le_stepErrD double_accurate (binary64 D) 8 n K q
      have h4 := one_le_stepProdD double_accurate (binary64 D) 8 n K rest
      have h5 : (0 : ℝ) ≤ (1 + 1 / 2 ^ 20) ^ rest.length := pow_nonneg (by norm_num) _
      exact mul_le_mul h1 h2 (by linarith) h5
  have hN' : (steps.length : ℝ) * (1 / 2 ^ 20) ≤ 1 / 2 ^ 12 := by
    have : (steps.length : ℝ) ≤ 2 ^ 8 := by exact_mod_cast hN
    calc (steps.length : ℝ) * (1 / 2 ^ 20) ≤ 2 ^ 8 * (1 / 2 ^ 20) := by gcongr
      _ = 1 / 2 ^ 12 := by norm_num
  have h2 := pow_bound (u := 1 / 2 ^ 20) (by positivity) (k := steps.length) (hN'.trans (by norm_num))
  have h3 : (2 : ℝ) * (1 / 2 ^ 12) = 1 / 2 ^ 11 := by norm_num
  unfold circuitErrD
  set R := (steps.map (stepErrD (binary64 D).u (1 / 2 ^ 50) 8 n K)).prod
  have h4 : 1 ≤ (1 + q) ^ 2 := one_le_pow₀ (by linarith)
  have h5 : (1 + q) ^ 2 ≤ (1 + 1 / 2 ^ 20) ^ 2 := pow_le_pow_left₀ (by linarith) (by linarith) 2
  have h6 : R ≤ 1 + 1 / 2 ^ 11 := by linarith
  refine ⟨by nlinarith, ?_⟩
  have := mul_le_mul h5 h6 (by linarith) (by positivity)
  norm_num at this ⊢
  linarith

/-- C115: in double precision, at most 20 qubits, 16 diagonal workers and 256 gates and measurements, every gate on at most three qubits
and with matrix entries right up to 8 roundings, and a state whose squared norm is 1 up to `2 ^ -20`: the job gives the outcomes `os` at
most with the probability of Born's rule plus `2 ^ -8`, and with rejected probabilities counted, at least with it minus `2 ^ -8`. -/
theorem C115_double_partial {n : Nat} (hn : n ≤ 20) (hK16 : K ≤ 2 ^ 4) (hF : Accurate F (1 / 2 ^ 50)) {calls : List (DCall (binary64 D))}
    {steps : List QStep} (hp : List.Forall₂ (DPerforms (binary64 D) 8 n K size) calls steps) (hok : ∀ q ∈ steps, StepOK n q)
    (hsize : 0 < size) (hK : K * size = 2 ^ n) (hN : steps.length ≤ 2 ^ 8)
    (hw : ∀ g back gs, .gate g back gs ∈ steps → gs.flatten.length ≤ 3) {v : List (FC (binary64 D))} (hv : v.length = 2 ^ n)
    (hT : |totalProb n (vals v) - 1| ≤ 1 / 2 ^ 20) {os : List Nat} (hlen : os.length = countMeasures steps) :
    (circuitLaw os.length (distDrawsFor F n K size calls v os)).toReal ≤ branchProb n steps os (vals v) + 1 / 2 ^ 8 ∧
      branchProb n steps os (vals v) - 1 / 2 ^ 8
        ≤ (circuitLaw os.length (distDrawsFor F n K size calls v os ∪ distRejected F n K size calls v os)).toReal := by
  have hpos : 0 < totalProb n (vals v) := by
    have := (abs_le.1 hT).1
    norm_num at this ⊢
    linarith
  have h1 := C115_upper_partial (t := 8) hF hp hok hsize hK hv hpos hT hlen
  have h2 := C115_lower_partial (t := 8) hF hp hok hsize hK hv hpos hT hlen
  obtain ⟨h3, h4⟩ := circuitErrD_double (D := D) hn hK16 hN (q := 1 / 2 ^ 20) (by positivity) le_rfl hw
  set x := circuitErrD (binary64 D).u (1 / 2 ^ 50) 8 n K (1 / 2 ^ 20) steps
  have h5 : x * (3 + x) ≤ 1 / 2 ^ 8 := by
    refine (mul_le_mul h4 (by linarith : 3 + x ≤ 3 + 1 / 2 ^ 10) (by linarith) (by positivity)).trans ?_
    norm_num
  exact ⟨by linarith, by linarith⟩

/-! ## Jobs that fail -/

/-- C115 is false in full: the job of C114 that measures a certain outcome fails with probability 1. -/
theorem C115_rejected {A : Arith} {arena : Nat → List ℂ} (ha : ∀ i < 2, (arena i).length = 2) :
    branchProb 2 [.measure [0]] [0] (vals (coinV.map (FC.mk (A := A)))) = 1 ∧
      ∀ m, circuitLaw 1 (distDrawsFor FOps.double 2 2 2 [.measure [0] arena] (coinV.map (FC.mk (A := A))) [m]) = 0 := by
  constructor
  · rw [vals_mk]
    have h1 := coin_total
    have h2 := coin_prob 0
    rw [if_pos rfl] at h2
    unfold branchProb
    change totalProb 2 (project 2 [0] 0 fun c => coinV.getD c 0) / totalProb 2 (fun c => coinV.getD c 0) = 1
    rw [totalProb_project, h2, h1]
    have hc : (0 : ℝ) < 2 * (coin * coin) := by
      obtain ⟨-, h, -⟩ := coin_sqrt
      linarith
    exact div_self hc.ne'
  · intro m
    refine measure_mono_null ?_ (ae_iff.1 (circuitLaw_inside 0))
    rintro x ⟨v', hr⟩ hx
    have e : measureDraws (k := ([m] : List Nat).length) x = _ := measureDraws_succ (k := 0) x
    have ev : (coinV.map (FC.mk (A := A))).map FC.val = coinV := by
      rw [List.map_map]
      exact List.map_id' coinV
    rw [e, distRunF] at hr
    simp only [List.headD_cons, List.tail_cons] at hr
    rw [ev, C114_rejected ha ⟨(hx _).1.le, (hx _).2⟩ fun i => ⟨(hx _).1.le, (hx _).2⟩] at hr
    split at hr <;> simp at hr

/-! ## A concrete job -/

theorem dperforms_rounded (q : QStep) (hq : StepOK n q) (hf : ∀ reg1 reg2 f, q ≠ .func reg1 reg2 f) (ht : 1 ≤ t) :
    ∃ call, DPerforms (binary64 D) t n K size call q := by
  cases q with
  | measure idx => exact ⟨.measure idx fun _ => List.replicate size 0, .measure fun _ _ => by simp⟩
  | func reg1 reg2 f => exact absurd rfl (hf _ _ _)
  | gate g back gs =>
    obtain ⟨hfit, hgs, hsw⟩ := hq
    obtain ⟨mats, h⟩ := gm_exists g gs hfit hgs
    have hm : ∃ mats, g.feedMats back gs = .ok mats := by
      cases back with
      | false => exact ⟨mats, by simp [Gate.feedMats, h.ok]⟩
      | true =>
        obtain ⟨dm, hd, -⟩ := feedMats_dagger hfit hgs h (hsw rfl)
        exact ⟨dm, hd⟩
    obtain ⟨ms, hm⟩ := hm
    refine ⟨.kron (ms.map fun (km : Key × Mat ℂ) => (km.1, roundMat (binary64 D) (fl64 D) km.2)) (fun _ _ => 0)
      (fun _ _ => List.replicate size 0) (fun _ _ => List.range size) (fun j => (List.range K).erase j), .gate hm ?_ (fun _ _ => .refl _)
      (fun _ _ => by simp) fun j hj => (List.perm_cons_erase (List.mem_range.2 hj)).symm⟩
    clear hm
    induction ms with
    | nil => exact .nil
    | cons km mats ih => exact .cons ⟨rfl, roundMat_near ht fl64_err km.2⟩ ih

theorem dperforms_all {steps : List QStep} (hok : ∀ q ∈ steps, StepOK n q) (hf : ∀ q ∈ steps, ∀ reg1 reg2 f, q ≠ .func reg1 reg2 f)
    (ht : 1 ≤ t) : ∃ calls, List.Forall₂ (DPerforms (binary64 D) t n K size) calls steps := by
  induction steps with
  | nil => exact ⟨[], .nil⟩
  | cons q rest ih =>
    obtain ⟨c, h1⟩ := dperforms_rounded (D := D) (K := K) (size := size) q (hok q (by simp)) (hf q (by simp)) ht
    obtain ⟨cs, h2⟩ := ih (fun q hq => hok q (by simp [hq])) fun q hq => hf q (by simp [hq])
    exact ⟨c :: cs, .cons h1 h2⟩

-- a Bell pair on two diagonal workers, measured, undone and measured again: every pair of outcomes
example (D : Double) [D.Ideal] : ∃ calls, List.Forall₂ (DPerforms (binary64 D) 8 2 2 2) calls bellSteps ∧
    ∀ m m' : Nat, (circuitLaw 2 (distDrawsFor FOps.double 2 2 2 calls [1, 0, 0, 0] [m, m'])).toReal
        ≤ branchProb 2 bellSteps [m, m'] (vals ([1, 0, 0, 0] : List (FC (binary64 D)))) + 1 / 2 ^ 8 ∧
      branchProb 2 bellSteps [m, m'] (vals ([1, 0, 0, 0] : List (FC (binary64 D)))) - 1 / 2 ^ 8
        ≤ (circuitLaw 2 (distDrawsFor FOps.double 2 2 2 calls [1, 0, 0, 0] [m, m'] ∪
          distRejected FOps.double 2 2 2 calls [1, 0, 0, 0] [m, m'])).toReal := by
  obtain ⟨calls, hp⟩ := dperforms_all (D := D) (K := 2) (size := 2) (t := 8) bellSteps_ok (by
    intro q hq
    simp only [bellSteps, List.mem_cons, List.not_mem_nil, or_false] at hq
    rcases hq with rfl | rfl | rfl | rfl | rfl | rfl <;> simp) (by norm_num)
  have hw : ∀ g back gs, .gate g back gs ∈ bellSteps → gs.flatten.length ≤ 3 := by
    intro g back gs h
    simp only [bellSteps, List.mem_cons, QStep.gate.injEq, List.not_mem_nil, or_false, reduceCtorEq, false_or] at h
    rcases h with ⟨_, _, rfl⟩ | ⟨_, _, rfl⟩ | ⟨_, _, rfl⟩ | ⟨_, _, rfl⟩ <;> simp
  have hT : totalProb 2 (vals ([1, 0, 0, 0] : List (FC (binary64 D)))) = 1 := bell_start (D := D) [] 2
  refine ⟨calls, hp, fun m m' => ?_⟩
  exact C115_double_partial (by norm_num) (by norm_num) double_accurate hp bellSteps_ok (by norm_num) (by norm_num) (by simp [bellSteps]) hw
    rfl (by rw [hT]; norm_num) (os := [m, m']) rfl

-- a job that succeeds, and the state it leaves
example (D : Double) [D.Ideal] : ∃ m v', distRunF FOps.double 2 2 2 [.measure [1] fun _ => [0, 0]] [(1 / 2, fun _ => 1 / 2)]
      (flat4.map (FC.mk (A := binary64 D))) = ([m], .ok v') ∧
    dist2 2 (fun c => ((1 / √(totalProb 2 (vals v')) : ℝ) : ℂ) * vals v' c)
        (fun c => ((1 / √(totalProb 2 (project 2 [1] m fun c => flat4.getD c 0)) : ℝ) : ℂ) * project 2 [1] m (fun c => flat4.getD c 0) c)
      ≤ 2 * (1 / 2 ^ 10) / √(1 / 2) := by
  obtain ⟨m, p, out, h, -⟩ := flat4_measure
  have hm := (C114_collapse double_accurate flat4_ok rfl rfl (fun _ _ => rfl) (by norm_num) (by norm_num) (fun _ => by norm_num) h).1
  have ev : (flat4.map (FC.mk (A := binary64 D))).map FC.val = flat4 := by
    rw [List.map_map]
    exact List.map_id' flat4
  have hr : distRunF FOps.double 2 2 2 [.measure [1] fun _ => [0, 0]] [(1 / 2, fun _ => 1 / 2)] (flat4.map (FC.mk (A := binary64 D)))
      = ([m], .ok (out.map FC.mk)) := by
    rcases distChooseF_spec double_accurate flat4_ok (K := 2) (N := 2) (v := flat4) rfl rfl (r := 1 / 2) (by norm_num) (by norm_num)
      (draw := fun _ => 1 / 2) (fun _ => by norm_num) with ⟨h1, -⟩ | ⟨s, -, m', hm', p', h1, -⟩
    · unfold distMeasureF at h
      rw [h1] at h
      cases h
    · rw [distRunF]
      simp only [List.headD_cons, List.tail_cons]
      rw [ev, h1, h]
      rw [distMeasureF_eq flat4_ok rfl rfl (fun _ _ => rfl) hm' h1] at h
      split at h
      · simp only [Except.ok.injEq, Prod.mk.injEq] at h
        rw [h.1]
        rfl
      · cases h
  refine ⟨m, _, hr, ?_⟩
  have hok : ∀ q ∈ [QStep.measure [1]], StepOK 2 q := by
    intro q hq
    rw [List.mem_singleton] at hq
    subst hq
    exact flat4_ok
  have hT : totalProb 2 (vals (flat4.map (FC.mk (A := binary64 D)))) = 1 := by rw [vals_mk]; exact flat4_total
  have hst := (C115_state_partial (A := binary64 D) (t := 8) (n := 2) (K := 2) (size := 2) double_accurate (.cons (.measure fun _ _ => rfl) .nil) hok (by norm_num) (by norm_num) rfl
    (by rw [hT]; exact one_pos) (by
      intro x hx
      rw [List.mem_singleton] at hx
      subst hx
      norm_num) hr).2.2
  have hb : branchProb 2 [.measure [1]] [m] (vals (flat4.map (FC.mk (A := binary64 D)))) = 1 / 2 := by
    unfold branchProb
    rw [hT, vals_mk]
    change totalProb 2 (project 2 [1] m fun c => flat4.getD c 0) / 1 = 1 / 2
    rw [totalProb_project, flat4_prob (by simpa using hm)]
    norm_num
  rw [hb, vals_mk flat4] at hst
  refine (hst (by norm_num)).trans ?_
  have := (circuitErrD_double (D := D) (n := 2) (K := 2) (by norm_num) (by norm_num) (steps := [.measure [1]]) (by norm_num) (q := 0) le_rfl
    (by positivity) (by simp)).2
  gcongr

end QIP.Props
