import Verif.Lemmas.FDistCircuitRanged
import Verif.Props.FDistCircuit

/-!
# C115 with underflow and overflow
-/

namespace QIP.Props

open QIP Spec Finset MeasureTheory

variable {A : Arith} {F : FOps} {u eta big low : ℝ} {t n K size : Nat}

/-- A run whose first request is a measurement. -/
theorem run_measure_ranged (hF : Ranged F u eta big) {idx : List Nat} (hi : IdxOK n idx) (hK : K * size = 2 ^ n) {v : List (FC A)}
    (hv : v.length = 2 ^ n) (hroom : RoomD u eta big n K (totalProb n (vals v))) {arena : Nat → List ℂ}
    (ha : ∀ i < K, (arena i).length = size) {x : ℝ × (Nat → ℝ)}
    {xs : List (ℝ × (Nat → ℝ))} (hx : (0 ≤ x.1 ∧ x.1 ≤ 1) ∧ ∀ i, 0 ≤ x.2 i ∧ x.2 i ≤ 1) {calls : List (DCall A)} {os : List Nat}
    {v' : List (FC A)} (hr : distRunF F n K size (.measure idx arena :: calls) (x :: xs) v = (os, .ok v')) :
    ∃ m os' s, os = m :: os' ∧ m < 2 ^ idx.length ∧ s < K ∧
      distChooseF F idx n K size (v.map FC.val) x.1 x.2 = .ok (m, reportedF F idx n K size (v.map FC.val) s m) ∧
      distRunF F n K size calls xs (collapsedF F idx n v m (reportedF F idx n K size (v.map FC.val) s m)) = (os', .ok v') := by
  rcases distChooseF_near hF hi hK (v := v.map FC.val) (by simpa using hv) (by rw [vals_map]; exact hroom) hx.1.1 hx.1.2 hx.2 with
    ⟨h1, -⟩ | ⟨s, hs, m, hm, h1, -⟩
  · rw [distRunF] at hr
    simp only [List.headD_cons, List.tail_cons] at hr
    rw [h1] at hr
    simp at hr
  · rw [distRunF_measure hi hK hv ha hm h1] at hr
    split at hr
    · simp only [Prod.mk.injEq] at hr
      exact ⟨m, _, s, hr.1.symm, hm, hs, h1, Prod.ext rfl hr.2⟩
    · simp at hr

theorem collapse_lt_ranged (hF : Ranged F u eta big) (hl : LowOKD u eta big low n K) {uG etaG B R : ℝ} (t : Nat) {idx : List Nat}
    (hB : 1 ≤ B) (hR : 1 ≤ R) (h : B * stepErrDR uG etaG u eta low t n K (.measure idx) * R - 1 ≤ 1 / 8) :
    collapseErrDR u eta low n K idx.length < 1 := by
  have hγ := collapseErrDR_nonneg hF hl idx.length
  have h2 := (stepErrDR_ge hF hl (uG := uG) (etaG := etaG) t (idx := idx)).2
  have h1 := factor_lt_two hB hR ((sq_nonneg _).trans h2) (by linarith)
  nlinarith

theorem choose_err0 {γ P D R : ℝ} (hγ : 0 ≤ γ) (hP : 1 ≤ P) (hD : 0 ≤ D) (hR : 1 ≤ R) :
    0 ≤ P * ((1 + γ) ^ 2 + D) * ((1 + γ) ^ 2) ^ 2 * R - 1 := by
  have h1 : 1 ≤ (1 + γ) ^ 2 := one_le_pow₀ (by linarith)
  have h2 : 1 ≤ ((1 + γ) ^ 2) ^ 2 := one_le_pow₀ h1
  have h3 : 1 ≤ P * ((1 + γ) ^ 2 + D) := by nlinarith
  have h4 := one_le_mul_of_one_le_of_one_le h3 h2
  have h5 := one_le_mul_of_one_le_of_one_le h4 hR
  linarith

theorem workers_pos (hK : K * size = 2 ^ n) : 0 < K := (workers_le hK).1

variable [A.Ranged] [AddRanged A]

theorem upper_main_ranged (hF : Ranged F u eta big) (hl : LowOKD u eta big low n K) {calls : List (DCall A)} {steps : List QStep}
    (hp : List.Forall₂ (DPerforms A t n K size) calls steps) (hok : ∀ q ∈ steps, StepOK n q) (hrg : ∀ q ∈ steps, StepRangeD A t K q)
    (hsize : 0 < size) (hK : K * size = 2 ^ n)
    {os : List Nat} (hlen : os.length = countMeasures steps) {v : List (FC A)} (hv : v.length = 2 ^ n) {s P Q a : ℝ} {w : Nat → ℂ}
    (h : Track n s (vals v) w P Q a) (hsmall : P * Q ^ 2 * (steps.map (stepErrDR A.u A.eta u eta low t n K)).prod - 1 ≤ 1 / 8) :
    a * (circuitLaw os.length (distDrawsFor F n K size calls v os)).toReal ≤ totalProb n (branchOf n steps os w)
      + (P * Q ^ 2 * (steps.map (stepErrDR A.u A.eta u eta low t n K)).prod - 1)
        * (3 + (P * Q ^ 2 * (steps.map (stepErrDR A.u A.eta u eta low t n K)).prod - 1)) := by
  induction hp generalizing os v s P Q a w with
  | nil =>
    have h1 := (abs_le.1 (track_end h)).2
    have h2 : (circuitLaw os.length (distDrawsFor F n K size [] v os)).toReal ≤ 1 := by
      have := prob_le_one (μ := circuitLaw os.length) (s := distDrawsFor F n K size [] v os)
      simpa using ENNReal.toReal_mono ENNReal.one_ne_top this
    have h3 := h.a0
    simp only [List.map_nil, List.prod_nil, mul_one, branchOf]
    have h4 := mul_le_mul_of_nonneg_left h2 h3
    linarith
  | @cons call q calls steps hpq hrest ih =>
    have hq := hok q (by simp)
    have hok' : ∀ q ∈ steps, StepOK n q := fun q hq => hok q (by simp [hq])
    have hrg' : ∀ q ∈ steps, StepRangeD A t K q := fun q hq => hrg q (by simp [hq])
    obtain ⟨hT1, hT2⟩ := h.bounds (one_le_stepProdDR hF hl A t (q :: steps)) hsmall
    rw [List.map_cons, List.prod_cons, ← mul_assoc] at hsmall ⊢
    have hPr := one_le_stepProdDR hF hl A t steps
    have hP := h.close.one_le
    have hQ := h.oneQ
    have hPQ : 1 ≤ P * Q ^ 2 := by nlinarith [one_le_pow₀ hQ (n := 2)]
    by_cases hm : ∀ idx, q ≠ .measure idx
    · obtain ⟨d1, d2⟩ := dist_of_total hT1 hT2
      obtain ⟨v', ε, k1, k2, k3, k4, k5⟩ := dunit_next_ranged (F := F) (u := u) (eta := eta) (low := low) hq (hrg q (by simp)) hm hpq hsize hK
        hv d1 d2 calls
      rw [k3] at hsmall ⊢
      have hε : ε < 1 := by
        have h1 := factor_lt_two hPQ hPr (by positivity) (by linarith : P * Q ^ 2 * (1 + ε) ^ 6 * _ - 1 < 1)
        by_contra hc
        have : (2 : ℝ) ^ 6 ≤ (1 + ε) ^ 6 := pow_le_pow_left₀ (by norm_num) (by linarith) 6
        linarith
      have e : P * (1 + ε) ^ 2 * (Q * (1 + ε) ^ 2) ^ 2 = P * Q ^ 2 * (1 + ε) ^ 6 := by ring
      have h2 := ih hok' hrg' (hlen.trans (branchOf_unit (n := n) hm steps os w).2) k1 (track_unit (iso_step hq hm) h k2 hε k5)
        (by rw [e]; exact hsmall)
      rw [e] at h2
      rw [(branchOf_unit hm steps os w).1]
      refine le_trans (le_of_eq ?_) h2
      unfold distDrawsFor
      simp only [k4]
    · have hm : ∃ idx, q = .measure idx := by
        by_contra h
        exact hm fun idx he => h ⟨idx, he⟩
      obtain ⟨idx, rfl⟩ := hm
      have hi : IdxOK n idx := hq
      obtain ⟨arena, ha, rfl⟩ : ∃ arena, (∀ i < K, (arena i).length = size) ∧ call = .measure idx arena := by
        cases hpq with
        | measure ha => exact ⟨_, ha, rfl⟩
      cases os with
      | nil => simp [countMeasures] at hlen
      | cons m os =>
      have hbound := stepErrDR_measure hF hl (uG := A.u) (etaG := A.eta) t (idx := idx) hP hQ
      have hγ := collapseErrDR_nonneg hF hl idx.length
      have hb0 : 0 ≤ totalProb n (branchOf n (.measure idx :: steps) (m :: os) w) := totalProb_nonneg n _
      have hroom := roomD_mono hF hl.room (show totalProb n (vals v) ≤ 2 by linarith)
      have hlowc : ∀ {vol : ℝ}, outcomeProb n idx (vals v) m ≤ low → 0 ≤ vol → vol ≤ outcomeProb n idx (vals v) m
          + (2 * K * (selectErrR u eta n K (totalProb n (vals v)) + distTiny u eta n K) + 2 * drawErr u n * totalProb n (vals v)) →
          a * vol ≤ _ := fun hq hv0 hv => low_chosen hF hl (uG := A.u) (etaG := A.eta) t (idx := idx) hP hQ h.total h.pos h.a0 h.aP hq hv0 hv
      have hS1 : 1 ≤ stepErrDR A.u A.eta u eta low t n K (.measure idx) := one_le_stepErrDR hF hl A t _
      have hγ1 := collapse_lt_ranged hF hl t hPQ hPr hsmall
      set R := (steps.map (stepErrDR A.u A.eta u eta low t n K)).prod
      set S := stepErrDR A.u A.eta u eta low t n K (.measure idx)
      have hXS : P * Q ^ 2 * S - 1 ≤ P * Q ^ 2 * S * R - 1 := by
        have : P * Q ^ 2 * S ≤ P * Q ^ 2 * S * R := le_mul_of_one_le_right (by positivity) hPr
        linarith
      have hX0 : 0 ≤ P * Q ^ 2 * S * R - 1 := by
        have h1 : 1 ≤ P * Q ^ 2 * S := by nlinarith
        nlinarith
      by_cases hm : m < 2 ^ idx.length
      · have hvm : (v.map FC.val).length = 2 ^ n := by simpa using hv
        obtain ⟨box, hb1, hb2⟩ := boxes_upper_ranged hF hi hK hvm (by rw [vals_map]; exact hroom) 0 0 hm
        rw [vals_map] at hb1
        have hTQ := h.total
        have hq0 := outcomeProb_nonneg n idx (vals v) m
        have hpT := outcome_le_total (n := n) idx m (vals v)
        obtain ⟨hv1, -⟩ := choose_near_ranged (K := K) (n := n) hF hQ h.pos hTQ hq0 hpT
        set vol := outcomeProb n idx (vals v) m + (2 * K * (selectErrR u eta n K (totalProb n (vals v)) + distTiny u eta n K)
          + 2 * drawErr u n * totalProb n (vals v)) with hvol
        have hvol0 : 0 ≤ vol := by
          have h1 := selectErrR_nonneg hF n K h.pos.le
          have h2 := drawErr_nonneg hF.nonneg hF.lt_one n
          have h3 := h.pos
          have h4 : (0 : ℝ) ≤ K := Nat.cast_nonneg K
          have h5 := distTiny_nonneg hF (n := n) (K := K)
          positivity
        have hD : 0 ≤ chooseErrDR u eta n K Q := (abs_nonneg _).trans hv1
        set p : Nat → ℝ := fun s => reportedF F idx n K size (v.map FC.val) s m with hp
        have hlen' : os.length = countMeasures steps := by simpa [countMeasures] using hlen
        have hK0 := workers_pos hK
        set E : Nat → Set (Fin os.length → JobDraw → ℝ) := fun s => distDrawsFor F n K size calls (collapsedF F idx n v m (p s)) os with hE
        obtain ⟨s₀, hs₀, hmax⟩ := Finset.exists_max_image (range K) (fun s => circuitLaw os.length (E s)) ⟨0, mem_range.2 hK0⟩
        have hsub : circuitLaw (os.length + 1) (distDrawsFor F n K size (.measure idx arena :: calls) v (m :: os))
            ≤ circuitLaw (os.length + 1) (⋃ s ∈ range K, {x : Fin (os.length + 1) → JobDraw → ℝ | x 0 ∈ box s ∧
              (Fin.tail x : Fin os.length → JobDraw → ℝ) ∈ E s}) := by
          apply measure_mono_ae
          filter_upwards [circuitLaw_inside os.length] with x hx
          rintro ⟨v', hr⟩
          have e : measureDraws (k := (m :: os).length) x = _ := measureDraws_succ (k := os.length) x
          rw [e] at hr
          obtain ⟨m', os', s', r1, -, -, r3, r6⟩ := run_measure_ranged hF hi hK hv hroom ha (inside_draws hx) hr
          simp only [List.cons.injEq] at r1
          obtain ⟨rfl, rfl⟩ := r1
          obtain ⟨s, hs, hbox, hps⟩ := hb2 (x 0) _ hx r3
          refine Set.mem_biUnion (mem_range.2 hs) ⟨hbox, v', ?_⟩
          rw [hps] at r6
          exact r6
        have hmass : circuitLaw (os.length + 1) (distDrawsFor F n K size (.measure idx arena :: calls) v (m :: os))
            ≤ ENNReal.ofReal vol * circuitLaw os.length (E s₀) :=
          calc circuitLaw (os.length + 1) (distDrawsFor F n K size (.measure idx arena :: calls) v (m :: os))
              ≤ _ := hsub
            _ ≤ ∑ s ∈ range K, circuitLaw (os.length + 1) {x : Fin (os.length + 1) → JobDraw → ℝ | x 0 ∈ box s ∧
                (Fin.tail x : Fin os.length → JobDraw → ℝ) ∈ E s} := measure_biUnion_finset_le _ _
            _ = ∑ s ∈ range K, jobLaw (box s) * circuitLaw os.length (E s) := by
                apply Finset.sum_congr rfl
                intro s _
                exact circuitLaw_succ _ _ _
            _ ≤ ∑ s ∈ range K, jobLaw (box s) * circuitLaw os.length (E s₀) := Finset.sum_le_sum fun s hs => mul_le_mul_right (hmax s hs) _
            _ = (∑ s ∈ range K, jobLaw (box s)) * circuitLaw os.length (E s₀) := by rw [Finset.sum_mul]
            _ ≤ ENNReal.ofReal vol * circuitLaw os.length (E s₀) := mul_le_mul_left hb1 _
        have hmass' : (circuitLaw (m :: os).length (distDrawsFor F n K size (.measure idx arena :: calls) v (m :: os))).toReal
            ≤ vol * (circuitLaw os.length (E s₀)).toReal := by
          have := ENNReal.toReal_mono (ENNReal.mul_ne_top ENNReal.ofReal_ne_top (measure_ne_top _ _)) hmass
          rwa [ENNReal.toReal_mul, ENNReal.toReal_ofReal hvol0] at this
        have hE1 : (circuitLaw os.length (E s₀)).toReal ≤ 1 := by
          simpa using ENNReal.toReal_mono ENNReal.one_ne_top (prob_le_one (μ := circuitLaw os.length) (s := E s₀))
        have hm0 := mul_le_mul_of_nonneg_left hmass' h.a0
        refine hm0.trans ?_
        rcases lt_or_ge low (outcomeProb n idx (vals v) m) with hlow | hlow
        · have hsmall' : P * ((1 + collapseErrDR u eta low n K idx.length) ^ 2 + chooseErrDR u eta n K Q)
              * ((1 + collapseErrDR u eta low n K idx.length) ^ 2) ^ 2 * R - 1 ≤ P * Q ^ 2 * S * R - 1 := by
            have := mul_le_mul_of_nonneg_right hbound (by linarith : 0 ≤ R)
            linarith
          have hX0' := choose_err0 hγ hP hD hPr
          have hcol := collapsed_ranged hF hl hi hK hv (by linarith) (mem_range.1 hs₀) hm hlow hγ1.le
          have h1 := ih hok' hrg' hlen' (collapsedF_length (F := F) idx v m (p s₀))
            (track_collapse h hγ hγ1 (hl.pos.trans hlow) hcol hvol0 hv1) (by linarith)
          rw [← mul_assoc]
          exact h1.trans (add_le_add le_rfl (err_mono hX0' hsmall'))
        · have h1 := hlowc hlow hvol0 le_rfl
          have h2 : a * (vol * (circuitLaw os.length (E s₀)).toReal) ≤ a * vol :=
            mul_le_mul_of_nonneg_left (mul_le_of_le_one_right hvol0 hE1) h.a0
          have h3 : P * Q ^ 2 * S * R - 1 ≤ (P * Q ^ 2 * S * R - 1) * (3 + (P * Q ^ 2 * S * R - 1)) := le_mul_of_one_le_right hX0 (by linarith)
          linarith
      · have hnull : circuitLaw (os.length + 1) (distDrawsFor F n K size (.measure idx arena :: calls) v (m :: os)) = 0 := by
          refine measure_mono_null ?_ (ae_iff.1 (circuitLaw_inside os.length))
          rintro x ⟨v', hr⟩ hx
          have e : measureDraws (k := (m :: os).length) x = _ := measureDraws_succ (k := os.length) x
          rw [e] at hr
          obtain ⟨m', os', s', r1, r2, -, -, -⟩ := run_measure_ranged hF hi hK hv hroom ha (inside_draws hx) hr
          simp only [List.cons.injEq] at r1
          obtain ⟨rfl, rfl⟩ := r1
          exact hm r2
        have e : circuitLaw (m :: os).length (distDrawsFor F n K size (.measure idx arena :: calls) v (m :: os)) = 0 := hnull
        rw [e, ENNReal.toReal_zero, mul_zero]
        have := mul_nonneg hX0 (by linarith : 0 ≤ 3 + (P * Q ^ 2 * S * R - 1))
        linarith

theorem lower_main_ranged (hF : Ranged F u eta big) (hl : LowOKD u eta big low n K) {calls : List (DCall A)} {steps : List QStep}
    (hp : List.Forall₂ (DPerforms A t n K size) calls steps) (hok : ∀ q ∈ steps, StepOK n q) (hrg : ∀ q ∈ steps, StepRangeD A t K q)
    (hsize : 0 < size) (hK : K * size = 2 ^ n)
    {os : List Nat} (hlen : os.length = countMeasures steps) {v : List (FC A)} (hv : v.length = 2 ^ n) {s P Q a : ℝ} {w : Nat → ℂ}
    (h : Track n s (vals v) w P Q a) (hsmall : P * Q ^ 2 * (steps.map (stepErrDR A.u A.eta u eta low t n K)).prod - 1 ≤ 1 / 8) :
    totalProb n (branchOf n steps os w)
      - (P * Q ^ 2 * (steps.map (stepErrDR A.u A.eta u eta low t n K)).prod - 1)
        * (3 + (P * Q ^ 2 * (steps.map (stepErrDR A.u A.eta u eta low t n K)).prod - 1))
      ≤ a * (circuitLaw os.length (distDrawsFor F n K size calls v os ∪ distRejected F n K size calls v os)).toReal := by
  induction hp generalizing os v s P Q a w with
  | nil =>
    cases os with
    | cons m os => simp [countMeasures] at hlen
    | nil =>
    have h1 := (abs_le.1 (track_end h)).1
    have e : distDrawsFor F n K size [] v [] ∪ distRejected F n K size [] v [] = Set.univ := by
      apply Set.eq_univ_of_forall
      intro x
      exact Or.inl ⟨v, rfl⟩
    simp only [List.map_nil, List.prod_nil, mul_one, branchOf]
    rw [e, measure_univ, ENNReal.toReal_one, mul_one]
    linarith
  | @cons call q calls steps hpq hrest ih =>
    have hq := hok q (by simp)
    have hok' : ∀ q ∈ steps, StepOK n q := fun q hq => hok q (by simp [hq])
    have hrg' : ∀ q ∈ steps, StepRangeD A t K q := fun q hq => hrg q (by simp [hq])
    obtain ⟨hT1, hT2⟩ := h.bounds (one_le_stepProdDR hF hl A t (q :: steps)) hsmall
    rw [List.map_cons, List.prod_cons, ← mul_assoc] at hsmall ⊢
    have hPr := one_le_stepProdDR hF hl A t steps
    have hP := h.close.one_le
    have hQ := h.oneQ
    have hPQ : 1 ≤ P * Q ^ 2 := by nlinarith [one_le_pow₀ hQ (n := 2)]
    by_cases hm : ∀ idx, q ≠ .measure idx
    · obtain ⟨d1, d2⟩ := dist_of_total hT1 hT2
      obtain ⟨v', ε, k1, k2, k3, k4, k5⟩ := dunit_next_ranged (F := F) (u := u) (eta := eta) (low := low) hq (hrg q (by simp)) hm hpq hsize hK
        hv d1 d2 calls
      rw [k3] at hsmall ⊢
      have hε : ε < 1 := by
        have h1 := factor_lt_two hPQ hPr (by positivity) (by linarith : P * Q ^ 2 * (1 + ε) ^ 6 * _ - 1 < 1)
        by_contra hc
        have : (2 : ℝ) ^ 6 ≤ (1 + ε) ^ 6 := pow_le_pow_left₀ (by norm_num) (by linarith) 6
        linarith
      have e : P * (1 + ε) ^ 2 * (Q * (1 + ε) ^ 2) ^ 2 = P * Q ^ 2 * (1 + ε) ^ 6 := by ring
      have h2 := ih hok' hrg' (hlen.trans (branchOf_unit (n := n) hm steps os w).2) k1 (track_unit (iso_step hq hm) h k2 hε k5)
        (by rw [e]; exact hsmall)
      rw [e] at h2
      rw [(branchOf_unit hm steps os w).1]
      refine h2.trans (le_of_eq ?_)
      unfold distDrawsFor distRejected
      simp only [k4]
    · have hm : ∃ idx, q = .measure idx := by
        by_contra h
        exact hm fun idx he => h ⟨idx, he⟩
      obtain ⟨idx, rfl⟩ := hm
      have hi : IdxOK n idx := hq
      obtain ⟨arena, ha, rfl⟩ : ∃ arena, (∀ i < K, (arena i).length = size) ∧ call = .measure idx arena := by
        cases hpq with
        | measure ha => exact ⟨_, ha, rfl⟩
      cases os with
      | nil => simp [countMeasures] at hlen
      | cons m os =>
      have hbound := stepErrDR_measure hF hl (uG := A.u) (etaG := A.eta) t (idx := idx) hP hQ
      have hγ := collapseErrDR_nonneg hF hl idx.length
      have hroom := roomD_mono hF hl.room (show totalProb n (vals v) ≤ 2 by linarith)
      have hlowb : ∀ {y : ℝ}, y ≤ 2 * P * √low + (P - 1) → y ≤ _ := fun hy =>
        low_branch hF hl (uG := A.u) (etaG := A.eta) t (idx := idx) hP hQ hy
      have hS1 : 1 ≤ stepErrDR A.u A.eta u eta low t n K (.measure idx) := one_le_stepErrDR hF hl A t _
      have hγ1 := collapse_lt_ranged hF hl t hPQ hPr hsmall
      set R := (steps.map (stepErrDR A.u A.eta u eta low t n K)).prod
      set S := stepErrDR A.u A.eta u eta low t n K (.measure idx)
      have hXS : P * Q ^ 2 * S - 1 ≤ P * Q ^ 2 * S * R - 1 := by
        have : P * Q ^ 2 * S ≤ P * Q ^ 2 * S * R := le_mul_of_one_le_right (by positivity) hPr
        linarith
      rcases lt_or_ge low (outcomeProb n idx (vals v) m) with hlow | hlow
      · have hpos := hl.pos.trans hlow
        have hm : m < 2 ^ idx.length := by
          by_contra hc
          rw [outcomeProb_out hi _ hc] at hpos
          exact lt_irrefl _ hpos
        have hvm : (v.map FC.val).length = 2 ^ n := by simpa using hv
        obtain ⟨box, hb0, hbd, hb1, hb2⟩ := boxes_lower_ranged hF hi hK hvm (by rw [vals_map]; exact hroom) 0 0 hm
        rw [vals_map] at hb1
        have hTQ := h.total
        have hpT := outcome_le_total (n := n) idx m (vals v)
        obtain ⟨-, hv1⟩ := choose_near_ranged (K := K) (n := n) hF hQ h.pos hTQ hpos.le hpT
        set δ := 2 * K * (selectErrR u eta n K (totalProb n (vals v)) + distTiny u eta n K) + 2 * drawErr u n * totalProb n (vals v)
          + |totalProb n (vals v) - 1|
        set vol := max 0 (outcomeProb n idx (vals v) m - δ) with hvol
        have hvol0 : 0 ≤ vol := le_max_left _ _
        have hb1' : ENNReal.ofReal vol ≤ ∑ s ∈ range K, jobLaw (box s) := by
          rcases le_total 0 (outcomeProb n idx (vals v) m - δ) with hc | hc
          · rw [hvol, max_eq_right hc]
            exact hb1
          · rw [hvol, max_eq_left hc, ENNReal.ofReal_zero]
            exact zero_le
        have hD : 0 ≤ chooseErrDR u eta n K Q := (abs_nonneg _).trans hv1
        have hsmall' : P * ((1 + collapseErrDR u eta low n K idx.length) ^ 2 + chooseErrDR u eta n K Q)
            * ((1 + collapseErrDR u eta low n K idx.length) ^ 2) ^ 2 * R - 1 ≤ P * Q ^ 2 * S * R - 1 := by
          have := mul_le_mul_of_nonneg_right hbound (by linarith : 0 ≤ R)
          linarith
        have hX0' := choose_err0 hγ hP hD hPr
        set p : Nat → ℝ := fun s => reportedF F idx n K size (v.map FC.val) s m with hp
        have hlen' : os.length = countMeasures steps := by simpa [countMeasures] using hlen
        set W : Nat → Set (Fin os.length → JobDraw → ℝ) := fun s => {y | 0 < p s ∧ p s ≤ 1 →
          y ∈ distDrawsFor F n K size calls (collapsedF F idx n v m (p s)) os ∪
            distRejected F n K size calls (collapsedF F idx n v m (p s)) os} with hW
        have hih : ∀ s < K, totalProb n (branchOf n (.measure idx :: steps) (m :: os) w)
            - (P * Q ^ 2 * S * R - 1) * (3 + (P * Q ^ 2 * S * R - 1)) ≤ a * vol * (circuitLaw os.length (W s)).toReal := by
          intro s hs
          have hcol := collapsed_ranged hF hl hi hK hv (by linarith) hs hm hlow hγ1.le
          have h1 := ih hok' hrg' hlen' (collapsedF_length (F := F) idx v m (p s))
            (track_collapse h hγ hγ1 hpos hcol hvol0 hv1) (by linarith)
          have h2 : (circuitLaw os.length (distDrawsFor F n K size calls (collapsedF F idx n v m (p s)) os ∪
              distRejected F n K size calls (collapsedF F idx n v m (p s)) os)).toReal ≤ (circuitLaw os.length (W s)).toReal :=
            ENNReal.toReal_mono (measure_ne_top _ _) (measure_mono fun y hy _ => hy)
          have h3 := mul_le_mul_of_nonneg_left h2 (mul_nonneg h.a0 hvol0)
          have h4 := err_mono hX0' hsmall'
          have e : branchOf n (.measure idx :: steps) (m :: os) w = branchOf n steps os (project n idx m w) := rfl
          rw [e]
          linarith
        have hK0 := workers_pos hK
        obtain ⟨s₀, hs₀, hmin⟩ := Finset.exists_min_image (range K) (fun s => circuitLaw os.length (W s)) ⟨0, mem_range.2 hK0⟩
        refine (hih s₀ (mem_range.1 hs₀)).trans ?_
        rw [mul_assoc]
        refine mul_le_mul_of_nonneg_left ?_ h.a0
        rw [← ENNReal.toReal_ofReal hvol0, ← ENNReal.toReal_mul]
        refine ENNReal.toReal_mono (measure_ne_top _ _) ?_
        set M := circuitLaw os.length (W s₀)
        refine le_trans ?_ (circuitLaw_sum os.length hb0 hbd (S := W) ?_)
        · calc ENNReal.ofReal vol * M ≤ (∑ s ∈ range K, jobLaw (box s)) * M := mul_le_mul_left hb1' _
            _ = ∑ s ∈ range K, jobLaw (box s) * M := by rw [Finset.sum_mul]
            _ ≤ ∑ s ∈ range K, jobLaw (box s) * circuitLaw os.length (W s) :=
              Finset.sum_le_sum fun s hs => mul_le_mul_right (hmin s hs) _
        · intro s hs x hx hbox htail
          obtain ⟨-, -, hc⟩ := hb2 s (mem_range.1 hs) (x 0) hbox hx
          have e : measureDraws (k := (m :: os).length) x = _ := measureDraws_succ (k := os.length) x
          have hr := distRunF_measure (xs := measureDraws (Fin.tail x : Fin os.length → JobDraw → ℝ))
            (x := (x 0 (.inl 0), fun w => x 0 (.inr ((w, w), 0)))) hi hK hv ha hm hc calls
          by_cases hpp : 0 < p s ∧ p s ≤ 1
          · rw [if_pos hpp] at hr
            rcases htail hpp with ⟨v', h1⟩ | ⟨os', h1, h2, h3⟩
            · left
              refine ⟨v', ?_⟩
              rw [e, hr, h1]
            · right
              refine ⟨m :: os', List.cons_prefix_cons.2 ⟨rfl, h1⟩, by simp, ?_⟩
              rw [e, hr, h3]
          · rw [if_neg hpp] at hr
            right
            exact ⟨[m], List.cons_prefix_cons.2 ⟨rfl, List.nil_prefix⟩, by simp, by rw [e, hr]⟩
      · have h1 := (branchOf_norm (n := n) hok' os (project n idx m w)).trans (low_outcome h.close hT1 hlow)
        have h2 := hlowb h1
        have h0 := dist2_nonneg n (branchOf n steps os (project n idx m w)) 0
        have e : branchOf n (.measure idx :: steps) (m :: os) w = branchOf n steps os (project n idx m w) := rfl
        rw [e, totalProb_dist]
        have h3 := mul_nonneg h.a0 (ENNReal.toReal_nonneg (a := circuitLaw (m :: os).length
          (distDrawsFor F n K size (.measure idx arena :: calls) v (m :: os) ∪ distRejected F n K size (.measure idx arena :: calls) v (m :: os))))
        have h4 := h2.trans hXS
        have h5 := pow_le_pow_left₀ h0 h4 2
        nlinarith

/-- C115 with underflow and overflow (probabilities, upper bound): gates, inverse gates and measurements on `K` diagonal workers in floating
point.  The job succeeds and the measurements give the outcomes `os` at most with the probability of Born's rule, up to an explicit
error.  Missing: the uninitialised accumulators (C27) are taken as 0. -/
theorem C115_ranged_upper_partial (hF : Ranged F u eta big) (hl : LowOKD u eta big low n K) {calls : List (DCall A)} {steps : List QStep}
    (hp : List.Forall₂ (DPerforms A t n K size) calls steps) (hok : ∀ q ∈ steps, StepOK n q) (hrg : ∀ q ∈ steps, StepRangeD A t K q)
    (hsize : 0 < size) (hK : K * size = 2 ^ n) {v : List (FC A)} (hv : v.length = 2 ^ n) {q : ℝ} (hT : 0 < totalProb n (vals v))
    (hq : |totalProb n (vals v) - 1| ≤ q) (hsmall : circuitErrDR A.u A.eta u eta low t n K q steps ≤ 1 / 8)
    {os : List Nat} (hlen : os.length = countMeasures steps) :
    (circuitLaw os.length (distDrawsFor F n K size calls v os)).toReal ≤ branchProb n steps os (vals v)
      + circuitErrDR A.u A.eta u eta low t n K q steps * (3 + circuitErrDR A.u A.eta u eta low t n K q steps) := by
  unfold circuitErrDR at hsmall ⊢
  have := upper_main_ranged hF hl hp hok hrg hsize hK hlen hv (track_start hT hq) (by rw [one_mul]; exact hsmall)
  rwa [branch_start hok os hT, one_mul, one_mul] at this

/-- C115 with underflow and overflow (probabilities, lower bound): the job goes through the outcomes `os`, or through the first of them
until the workers reject the probability of one (C114), at least with the probability of Born's rule up to an explicit error.  Missing: the
uninitialised accumulators (C27) are taken as 0. -/
theorem C115_ranged_lower_partial (hF : Ranged F u eta big) (hl : LowOKD u eta big low n K) {calls : List (DCall A)} {steps : List QStep}
    (hp : List.Forall₂ (DPerforms A t n K size) calls steps) (hok : ∀ q ∈ steps, StepOK n q) (hrg : ∀ q ∈ steps, StepRangeD A t K q)
    (hsize : 0 < size) (hK : K * size = 2 ^ n) {v : List (FC A)} (hv : v.length = 2 ^ n) {q : ℝ} (hT : 0 < totalProb n (vals v))
    (hq : |totalProb n (vals v) - 1| ≤ q) (hsmall : circuitErrDR A.u A.eta u eta low t n K q steps ≤ 1 / 8)
    {os : List Nat} (hlen : os.length = countMeasures steps) :
    branchProb n steps os (vals v) - circuitErrDR A.u A.eta u eta low t n K q steps * (3 + circuitErrDR A.u A.eta u eta low t n K q steps)
      ≤ (circuitLaw os.length (distDrawsFor F n K size calls v os ∪ distRejected F n K size calls v os)).toReal := by
  unfold circuitErrDR at hsmall ⊢
  have := lower_main_ranged hF hl hp hok hrg hsize hK hlen hv (track_start hT hq) (by rw [one_mul]; exact hsmall)
  rwa [branch_start hok os hT, one_mul, one_mul] at this

theorem dstate_main_ranged (hF : Ranged F u eta big) (hl : LowOKD u eta big low n K) {calls : List (DCall A)} {steps : List QStep}
    (hp : List.Forall₂ (DPerforms A t n K size) calls steps) (hok : ∀ q ∈ steps, StepOK n q) (hrg : ∀ q ∈ steps, StepRangeD A t K q)
    (hsize : 0 < size) (hK : K * size = 2 ^ n) {v v' : List (FC A)} (hv : v.length = 2 ^ n) {s P Q a : ℝ} {w : Nat → ℂ}
    (h : Track n s (vals v) w P Q a) (hs : 0 < s) (hsmall : P * Q ^ 2 * (steps.map (stepErrDR A.u A.eta u eta low t n K)).prod - 1 ≤ 1 / 8)
    {xs : List (ℝ × (Nat → ℝ))} (hx : ∀ x ∈ xs, (0 ≤ x.1 ∧ x.1 ≤ 1) ∧ ∀ i, 0 ≤ x.2 i ∧ x.2 i ≤ 1) {os : List Nat}
    (hr : distRunF F n K size calls xs v = (os, .ok v')) :
    (∃ s' : ℝ, 0 < s' ∧ Close n s' (vals v') (branchOf n steps os w) (P * Q ^ 2 * (steps.map (stepErrDR A.u A.eta u eta low t n K)).prod)) ∨
      dist2 n (branchOf n steps os w) 0 ≤ P * Q ^ 2 * (steps.map (stepErrDR A.u A.eta u eta low t n K)).prod - 1 := by
  induction hp generalizing os v s P Q a w xs with
  | nil =>
    simp only [distRunF, Prod.mk.injEq, Except.ok.injEq] at hr
    obtain ⟨rfl, rfl⟩ := hr
    have hP := h.close.one_le
    have hQ := one_le_pow₀ h.oneQ (n := 2)
    refine .inl ⟨s, hs, ?_⟩
    simp only [List.map_nil, List.prod_nil, mul_one, branchOf]
    exact h.close.mono (by nlinarith)
  | @cons call q calls steps hpq hrest ih =>
    have hq := hok q (by simp)
    have hok' : ∀ q ∈ steps, StepOK n q := fun q hq => hok q (by simp [hq])
    have hrg' : ∀ q ∈ steps, StepRangeD A t K q := fun q hq => hrg q (by simp [hq])
    obtain ⟨hT1, hT2⟩ := h.bounds (one_le_stepProdDR hF hl A t (q :: steps)) hsmall
    rw [List.map_cons, List.prod_cons, ← mul_assoc] at hsmall ⊢
    have hPr := one_le_stepProdDR hF hl A t steps
    have hP := h.close.one_le
    have hQ := h.oneQ
    have hPQ : 1 ≤ P * Q ^ 2 := by nlinarith [one_le_pow₀ hQ (n := 2)]
    by_cases hm : ∀ idx, q ≠ .measure idx
    · obtain ⟨d1, d2⟩ := dist_of_total hT1 hT2
      obtain ⟨v1, ε, k1, k2, k3, k4, k5⟩ := dunit_next_ranged (F := F) (u := u) (eta := eta) (low := low) hq (hrg q (by simp)) hm hpq hsize hK
        hv d1 d2 calls
      rw [k4] at hr
      rw [k3] at hsmall ⊢
      have hε : ε < 1 := by
        have h1 := factor_lt_two hPQ hPr (by positivity) (by linarith : P * Q ^ 2 * (1 + ε) ^ 6 * _ - 1 < 1)
        by_contra hc
        have : (2 : ℝ) ^ 6 ≤ (1 + ε) ^ 6 := pow_le_pow_left₀ (by norm_num) (by linarith) 6
        linarith
      have e : P * (1 + ε) ^ 2 * (Q * (1 + ε) ^ 2) ^ 2 = P * Q ^ 2 * (1 + ε) ^ 6 := by ring
      have h2 := ih hok' hrg' k1 (track_unit (iso_step hq hm) h k2 hε k5) hs (by rw [e]; exact hsmall) hx hr
      rw [e] at h2
      rw [(branchOf_unit hm steps os w).1]
      exact h2
    · have hm : ∃ idx, q = .measure idx := by
        by_contra h
        exact hm fun idx he => h ⟨idx, he⟩
      obtain ⟨idx, rfl⟩ := hm
      have hi : IdxOK n idx := hq
      obtain ⟨arena, ha, rfl⟩ : ∃ arena, (∀ i < K, (arena i).length = size) ∧ call = .measure idx arena := by
        cases hpq with
        | measure ha => exact ⟨_, ha, rfl⟩
      have e : distRunF F n K size (.measure idx arena :: calls) xs v
          = distRunF F n K size (.measure idx arena :: calls) (xs.headD (0, fun _ => 0) :: xs.tail) v := by
        rw [distRunF, distRunF]
        rfl
      rw [e] at hr
      have hx0 : (0 ≤ (xs.headD (0, fun _ => 0)).1 ∧ (xs.headD (0, fun _ => 0)).1 ≤ 1) ∧
          ∀ i, 0 ≤ (xs.headD (0, fun _ => 0)).2 i ∧ (xs.headD (0, fun _ => 0)).2 i ≤ 1 := by
        cases xs with
        | nil => exact ⟨⟨le_rfl, zero_le_one⟩, fun _ => ⟨le_rfl, zero_le_one⟩⟩
        | cons x xs => exact hx x (by simp)
      have hroom := roomD_mono hF hl.room (show totalProb n (vals v) ≤ 2 by linarith)
      obtain ⟨m, os', s₀, rfl, hm, hs₀, -, hr'⟩ := run_measure_ranged hF hi hK hv hroom ha hx0 hr
      have hbound := stepErrDR_measure hF hl (uG := A.u) (etaG := A.eta) t (idx := idx) hP hQ
      have hγ := collapseErrDR_nonneg hF hl idx.length
      have hlowb : ∀ {y : ℝ}, y ≤ 2 * P * √low + (P - 1) → y ≤ _ := fun hy =>
        low_branch hF hl (uG := A.u) (etaG := A.eta) t (idx := idx) hP hQ hy
      have hγ1 := collapse_lt_ranged hF hl t hPQ hPr hsmall
      have hD : 0 ≤ chooseErrDR u eta n K Q := (abs_nonneg _).trans
        (choose_near_ranged (K := K) (n := n) hF hQ h.pos h.total (outcomeProb_nonneg n idx (vals v) m) (outcome_le_total idx m (vals v))).1
      have hS1 : 1 ≤ stepErrDR A.u A.eta u eta low t n K (.measure idx) := one_le_stepErrDR hF hl A t _
      set R := (steps.map (stepErrDR A.u A.eta u eta low t n K)).prod
      set S := stepErrDR A.u A.eta u eta low t n K (.measure idx)
      have eb : branchOf n (.measure idx :: steps) (m :: os') w = branchOf n steps os' (project n idx m w) := rfl
      rw [eb]
      rcases lt_or_ge low (outcomeProb n idx (vals v) m) with hlow | hlow
      · have hpos := hl.pos.trans hlow
        set γ := collapseErrDR u eta low n K idx.length
        have hle : P * ((1 + γ) ^ 2 + 0) * ((1 + γ) ^ 2) ^ 2 * R ≤ P * Q ^ 2 * S * R := by
          refine mul_le_mul_of_nonneg_right (le_trans ?_ hbound) (by linarith)
          exact mul_le_mul_of_nonneg_right (mul_le_mul_of_nonneg_left (by linarith) (by linarith)) (by positivity)
        have hcol := collapsed_ranged hF hl hi hK hv (by linarith) hs₀ hm hlow hγ1.le
        rcases ih hok' hrg' (collapsedF_length idx v m _)
          (track_collapse h hγ hγ1 hpos hcol (div_nonneg hpos.le h.pos.le) (D := 0) (by rw [sub_self, abs_zero]))
          (mul_pos hs (Real.sqrt_pos.2 hpos)) (by linarith) (fun x hx' => hx x (List.mem_of_mem_tail hx')) hr' with ⟨s', hs', hc'⟩ | hsm
        · exact .inl ⟨s', hs', hc'.mono hle⟩
        · exact .inr (by linarith)
      · right
        have h1 := (branchOf_norm (n := n) hok' os' (project n idx m w)).trans (low_outcome h.close hT1 hlow)
        have h2 := hlowb h1
        have h3 : P * Q ^ 2 * S ≤ P * Q ^ 2 * S * R := le_mul_of_one_le_right (by positivity) hPr
        linarith

/-- C115 with underflow and overflow (states): after a job that succeeds with random numbers in `[0, 1]` the state is, up to normalisation,
that of the branch of the outcomes; the error is relative to the square root of the probability of the branch.  Missing: the uninitialised
accumulators (C27) are taken as 0. -/
theorem C115_ranged_state_partial (hF : Ranged F u eta big) (hl : LowOKD u eta big low n K) {calls : List (DCall A)} {steps : List QStep}
    (hp : List.Forall₂ (DPerforms A t n K size) calls steps) (hok : ∀ q ∈ steps, StepOK n q) (hrg : ∀ q ∈ steps, StepRangeD A t K q)
    (hsize : 0 < size) (hK : K * size = 2 ^ n) {v v' : List (FC A)} (hv : v.length = 2 ^ n) {q : ℝ} (hT : 0 < totalProb n (vals v))
    (hq : |totalProb n (vals v) - 1| ≤ q) (hsmall : circuitErrDR A.u A.eta u eta low t n K q steps ≤ 1 / 8)
    {xs : List (ℝ × (Nat → ℝ))} (hx : ∀ x ∈ xs, (0 ≤ x.1 ∧ x.1 ≤ 1) ∧ ∀ i, 0 ≤ x.2 i ∧ x.2 i ≤ 1) {os : List Nat}
    (hr : distRunF F n K size calls xs v = (os, .ok v')) (hpos : 0 < branchProb n steps os (vals v)) :
    dist2 n (fun c => ((1 / √(totalProb n (vals v')) : ℝ) : ℂ) * vals v' c)
        (fun c => ((1 / √(totalProb n (branchOf n steps os (vals v))) : ℝ) : ℂ) * branchOf n steps os (vals v) c)
      ≤ 2 * circuitErrDR A.u A.eta u eta low t n K q steps / √(branchProb n steps os (vals v)) := by
  have hN := norm_pos hT
  unfold circuitErrDR at hsmall ⊢
  have hm := dstate_main_ranged hF hl hp hok hrg hsize hK hv (track_start hT hq) (by positivity) (by rw [one_mul]; exact hsmall) hx hr
  rw [one_mul] at hm
  have hbs := branch_start hok os hT
  have e1 : ∀ v, √(totalProb n v) = dist2 n v 0 := fun v => by rw [totalProb_dist, Real.sqrt_sq (dist2_nonneg _ _ _)]
  set w := branchOf n steps os fun c => ((1 / dist2 n (vals v) 0 : ℝ) : ℂ) * vals v c with hw
  rcases hm with ⟨s, hs, h3⟩ | h3
  · rw [← hbs] at hpos ⊢
    have h4 := normalised_dist hs h3.dist (norm_pos hpos)
    rw [e1, e1, e1]
    refine le_trans (le_of_eq ?_) h4
    apply dist2_congr fun _ _ => rfl
    intro r hr
    have hsc := branchOf_scale hok os (1 / dist2 n (vals v) 0) (x := fun c => ((1 / dist2 n (vals v) 0 : ℝ) : ℂ) * vals v c)
      (v := vals v) fun _ _ => rfl
    have hsn : dist2 n w 0 = 1 / dist2 n (vals v) 0 * dist2 n (branchOf n steps os (vals v)) 0 := by
      rw [← dist2_scale_zero (by positivity)]
      exact dist2_congr hsc fun _ _ => rfl
    have hwpos := norm_pos hpos
    rw [hsn] at hwpos
    have hy : 0 < dist2 n (branchOf n steps os (vals v)) 0 := pos_of_mul_pos_right hwpos (by positivity)
    have hwr : w r = _ := hsc r hr
    rw [hsn, hwr, ← mul_assoc, ← Complex.ofReal_mul]
    congr 2
    field_simp
  · -- the branch is unlikely: the bound is at least 2
    have h5 := dist2_triangle n (fun c => ((1 / √(totalProb n (vals v')) : ℝ) : ℂ) * vals v' c) 0
      (fun c => ((1 / √(totalProb n (branchOf n steps os (vals v))) : ℝ) : ℂ) * branchOf n steps os (vals v) c)
    rw [dist2_comm 0] at h5
    have h6 := normalised_le (n := n) (vals v')
    have h7 := normalised_le (n := n) (branchOf n steps os (vals v))
    have h8 : √(branchProb n steps os (vals v)) ≤ (1 + q) ^ 2 * (steps.map (stepErrDR A.u A.eta u eta low t n K)).prod - 1 := by
      rw [← hbs, e1]
      exact h3
    refine (show _ ≤ (2 : ℝ) by linarith).trans ?_
    rw [le_div_iff₀ (Real.sqrt_pos.2 hpos)]
    linarith

/-! ## Double precision -/

omit [A.Ranged] [AddRanged A]

variable {D : Double}

theorem lowOKD_binary64 (hn : n ≤ 20) (hK : K ≤ 2 ^ 8) :
    LowOKD (8 * (1 / 2 ^ 53)) (8 * (1 / 2 ^ 1022)) (2 ^ 1023 / 4) (1 / 2 ^ 200) n K := by
  have h := lowOK_binary64 hn
  have h9 : (1 : ℝ) / 2 ^ 800 < 1 / 2 ^ 200 := one_div_lt_one_div_of_lt (by positivity) (pow_lt_pow_right₀ (by norm_num) (by norm_num))
  exact ⟨h.pos, h.le_one, (binary64_distTiny hn hK).trans_lt h9, h.above, binary64_roomD hn hK le_rfl, h.small⟩

theorem collapseD_binary64 {k : Nat} (hn : n ≤ 20) (hK : K ≤ 2 ^ 4) :
    collapseErrDR (8 * (1 / 2 ^ 53)) (8 * (1 / 2 ^ 1022)) (1 / 2 ^ 200) n K k ≤ 1 / 2 ^ 26 := by
  have hη : (1 : ℝ) / 2 ^ 1022 ≤ 1 / 2 ^ 60 := one_div_le_one_div_of_le (by positivity) (pow_le_pow_right₀ (by norm_num) (by norm_num))
  have hη0 : (0 : ℝ) ≤ 1 / 2 ^ 1022 := by positivity
  obtain ⟨L, hL⟩ : ∃ L, L = 2 ^ (n - k) + 4 + K := ⟨_, rfl⟩
  have hL' : (L : ℝ) ≤ 1048600 := by
    have := Nat.pow_le_pow_right (show 0 < 2 by omega) (show n - k ≤ 20 by omega)
    have h : L ≤ 1048600 := by omega
    exact_mod_cast h
  have h1 := factor_pow_49 hL' (by norm_num) (x := 8 * (1 / 2 ^ 53) + 4 * (8 * (1 / 2 ^ 1022))) (by positivity) (by
    norm_num at hη ⊢
    linarith)
  have hd : distTiny (8 * (1 / 2 ^ 53)) (8 * (1 / 2 ^ 1022)) n K / (1 / 2 ^ 200) ≤ 1 / 2 ^ 49 := by
    rw [div_le_iff₀ (by positivity)]
    refine (binary64_distTiny hn (by omega)).trans ?_
    rw [div_mul_div_comm, one_mul, ← pow_add]
    exact one_div_le_one_div_of_le (by positivity) (pow_le_pow_right₀ (by norm_num) (by norm_num))
  have hd0 := div_nonneg (distTiny_nonneg binary64_ranged (n := n) (K := K)) (show (0 : ℝ) ≤ 1 / 2 ^ 200 by positivity)
  have h2 := factor_pow_49 (K := 1) (B := 1) (by norm_num) (by norm_num) hd0 hd
  rw [pow_one] at h2
  have h3 : √((2 : ℝ) ^ n) ≤ 2 ^ 10 := by
    rw [Real.sqrt_le_left (by positivity), ← pow_mul]
    exact pow_le_pow_right₀ (by norm_num) (by omega)
  have h4 : √((2 : ℝ) ^ n) * (8 * (1 / 2 ^ 1022)) ≤ 2 ^ 10 * (8 * (1 / 2 ^ 60)) :=
    mul_le_mul h3 (by linarith) (by positivity) (by positivity)
  have h0 := one_le_factor hd0 (lt_of_le_of_lt hd (by norm_num))
  unfold collapseErrDR
  rw [← hL]
  generalize factor (8 * (1 / 2 ^ 53) + 4 * (8 * (1 / 2 ^ 1022))) ^ L = x at *
  generalize factor (distTiny (8 * (1 / 2 ^ 53)) (8 * (1 / 2 ^ 1022)) n K / (1 / 2 ^ 200)) = y at *
  generalize √((2 : ℝ) ^ n) * (8 * (1 / 2 ^ 1022)) = z at *
  have h5 : x * y ≤ (1 + 4 * 1048600 / 2 ^ 49) * (1 + 4 * 1 / 2 ^ 49) := mul_le_mul (by linarith) (by linarith) (by linarith) (by positivity)
  norm_num at h4 h5 ⊢
  linarith

/-- Every step in double precision on at most 20 qubits and 16 diagonal workers, with underflow and overflow. -/
theorem stepErrDR_binary64 (hn : n ≤ 20) (hK : K ≤ 2 ^ 4) {q : QStep} (hw : ∀ g back gs, q = .gate g back gs → gs.flatten.length ≤ 3) :
    stepErrDR (binary64 D).u (binary64 D).eta (8 * (1 / 2 ^ 53)) (8 * (1 / 2 ^ 1022)) (1 / 2 ^ 200) 8 n K q ≤ 1 + 1 / 2 ^ 20 := by
  cases q with
  | func =>
    unfold stepErrDR
    norm_num
  | gate g back gs =>
    have h1 := gateErrD_binary64 (D := D) (K := K) (hw g back gs rfl) (by omega)
    have h2 := gateTinyD_binary64 (D := D) (n := n) (K := K) (by omega) (hw g back gs rfl) (by omega)
    have h5 : (1 : ℝ) / 2 ^ 500 ≤ 1 / 2 ^ 60 := one_div_le_one_div_of_le (by positivity) (pow_le_pow_right₀ (by norm_num) (by norm_num))
    have h3 := gateErrD_nonneg' (binary64 D) 8 gs.flatten.length K
    have h4 := gateTinyD_nonneg (binary64 D).eta_nonneg n gs.flatten.length K
    unfold stepErrDR
    refine (pow_le_pow_left₀ (by linarith) (by linarith :
      1 + (gateErrD (binary64 D).u 8 gs.flatten.length K + 2 * gateTinyD (binary64 D).eta n gs.flatten.length K)
        ≤ 1 + (2270 / 2 ^ 53 + 2 * (1 / 2 ^ 60))) 6).trans ?_
    norm_num
  | measure idx =>
    have h1 := collapseD_binary64 (k := idx.length) hn hK
    have h2 := draw_binary64 hn
    have h3 := binary64_distTiny (n := n) (K := K) hn (by omega)
    have h9 : (1 : ℝ) / 2 ^ 800 ≤ 1 / 2 ^ 60 := one_div_le_one_div_of_le (by positivity) (pow_le_pow_right₀ (by norm_num) (by norm_num))
    have h4 : √((1 : ℝ) / 2 ^ 200) ≤ 1 / 2 ^ 60 := by
      rw [Real.sqrt_le_left (by positivity), div_pow, one_pow, ← pow_mul]
      exact one_div_le_one_div_of_le (by positivity) (pow_le_pow_right₀ (by norm_num) (by norm_num))
    have h0 := collapseErrDR_nonneg binary64_ranged (lowOKD_binary64 (K := K) hn (by omega)) idx.length
    have ht0 := distTiny_nonneg binary64_ranged (n := n) (K := K)
    have hd0 := drawErr_nonneg binary64_ranged.nonneg binary64_ranged.lt_one n
    have hs0 := Real.sqrt_nonneg ((1 : ℝ) / 2 ^ 200)
    have hK' : (K : ℝ) ≤ 16 := by exact_mod_cast hK
    have hK0 : (0 : ℝ) ≤ K := Nat.cast_nonneg K
    obtain ⟨M, hM⟩ : ∃ M, M = 2 ^ n + 1 := ⟨_, rfl⟩
    have hM' : (M : ℝ) ≤ 1048577 := by
      have := Nat.pow_le_pow_right (show 0 < 2 by omega) hn
      have h : M ≤ 1048577 := by omega
      exact_mod_cast h
    have h6 := factor_pow_49 hM' (by norm_num) (x := 8 * (1 / 2 ^ 53)) (by positivity) (by norm_num)
    have h6' := one_le_pow₀ (one_le_factor binary64_ranged.nonneg binary64_ranged.lt_one) (n := M)
    have h3' := h3.trans h9
    simp only [stepErrDR]
    rw [← hM]
    generalize factor (8 * (1 / 2 ^ 53)) ^ M = z at *
    generalize collapseErrDR (8 * (1 / 2 ^ 53)) (8 * (1 / 2 ^ 1022)) (1 / 2 ^ 200) n K idx.length = γ at *
    generalize drawErr (8 * (1 / 2 ^ 53)) n = y at *
    generalize distTiny (8 * (1 / 2 ^ 53)) (8 * (1 / 2 ^ 1022)) n K = τ at *
    generalize √((1 : ℝ) / 2 ^ 200) = r at *
    clear h3 h9
    have j1 : (1 + γ) ^ 2 ≤ (1 + 1 / 2 ^ 26) ^ 2 := pow_le_pow_left₀ (by linarith) (by linarith) 2
    have j2 : (1 + γ) ^ 4 ≤ (1 + 1 / 2 ^ 26) ^ 4 := pow_le_pow_left₀ (by linarith) (by linarith) 4
    have j3 : 4 * (K : ℝ) * (z - 1) ≤ 4 * 16 * (4 * 1048577 / 2 ^ 49) := mul_le_mul (by linarith) h6 (by linarith) (by norm_num)
    have j4 : 4 * (K : ℝ) * τ ≤ 4 * 16 * (1 / 2 ^ 60) := mul_le_mul (by linarith) h3' ht0 (by norm_num)
    have j5 : (1 + γ) ^ 2 + (4 * K * (z - 1) + 4 * K * τ + 2 * y) + 4 * r
        ≤ (1 + 1 / 2 ^ 26) ^ 2 + (4 * 16 * (4 * 1048577 / 2 ^ 49) + 4 * 16 * (1 / 2 ^ 60) + 2 * (1 / 2 ^ 25)) + 4 * (1 / 2 ^ 60) := by linarith
    refine (mul_le_mul j5 j2 (by positivity) (by positivity)).trans ?_
    norm_num

theorem circuitErrDR_binary64 (hn : n ≤ 20) (hK : K ≤ 2 ^ 4) {steps : List QStep} (hN : steps.length ≤ 2 ^ 8) {q : ℝ} (hq0 : 0 ≤ q)
    (hq : q ≤ 1 / 2 ^ 20) (hw : ∀ g back gs, .gate g back gs ∈ steps → gs.flatten.length ≤ 3) :
    0 ≤ circuitErrDR (binary64 D).u (binary64 D).eta (8 * (1 / 2 ^ 53)) (8 * (1 / 2 ^ 1022)) (1 / 2 ^ 200) 8 n K q steps ∧
      circuitErrDR (binary64 D).u (binary64 D).eta (8 * (1 / 2 ^ 53)) (8 * (1 / 2 ^ 1022)) (1 / 2 ^ 200) 8 n K q steps ≤ 1 / 2 ^ 10 := by
  have hl := lowOKD_binary64 (K := K) hn (by omega)
  have h0 := one_le_stepProdDR binary64_ranged hl (binary64 D) 8 steps
  have h1 : (steps.map (stepErrDR (binary64 D).u (binary64 D).eta (8 * (1 / 2 ^ 53)) (8 * (1 / 2 ^ 1022)) (1 / 2 ^ 200) 8 n K)).prod
      ≤ (1 + 1 / 2 ^ 20) ^ steps.length := by
    clear hN h0
    induction steps with
    | nil => simp
    | cons q rest ih =>
      rw [List.map_cons, List.prod_cons, List.length_cons, pow_succ, mul_comm]
      have h1 := ih fun g back gs h => hw g back gs (by simp [h])
      have h2 := stepErrDR_binary64 (D := D) hn hK (q := q) fun g back gs h => hw g back gs (by simp [h])
      have h3 := one_le_stepErrDR binary64_ranged hl (binary64 D) 8 q
      have h4 := one_le_stepProdDR binary64_ranged hl (binary64 D) 8 rest
      have h5 : (0 : ℝ) ≤ (1 + 1 / 2 ^ 20) ^ rest.length := pow_nonneg (by norm_num) _
      exact mul_le_mul h1 h2 (by linarith) h5
  have hN' : (steps.length : ℝ) * (1 / 2 ^ 20) ≤ 1 / 2 ^ 12 := by
    have : (steps.length : ℝ) ≤ 2 ^ 8 := by exact_mod_cast hN
    calc (steps.length : ℝ) * (1 / 2 ^ 20) ≤ 2 ^ 8 * (1 / 2 ^ 20) := by gcongr
      _ = 1 / 2 ^ 12 := by norm_num
  have h2 := pow_bound (u := 1 / 2 ^ 20) (by positivity) (k := steps.length) (hN'.trans (by norm_num))
  have h3 : (2 : ℝ) * (1 / 2 ^ 12) = 1 / 2 ^ 11 := by norm_num
  unfold circuitErrDR
  set R := (steps.map (stepErrDR (binary64 D).u (binary64 D).eta (8 * (1 / 2 ^ 53)) (8 * (1 / 2 ^ 1022)) (1 / 2 ^ 200) 8 n K)).prod
  have h4 : 1 ≤ (1 + q) ^ 2 := one_le_pow₀ (by linarith)
  have h5 : (1 + q) ^ 2 ≤ (1 + 1 / 2 ^ 20) ^ 2 := pow_le_pow_left₀ (by linarith) (by linarith) 2
  have h6 : R ≤ 1 + 1 / 2 ^ 11 := by linarith
  refine ⟨by nlinarith, ?_⟩
  have := mul_le_mul h5 h6 (by linarith) (by positivity)
  norm_num at this ⊢
  linarith

theorem stepRangeD_binary64 (hK : K ≤ 2 ^ 4) {steps : List QStep} (hw : ∀ g back gs, .gate g back gs ∈ steps → gs.flatten.length ≤ 3) :
    ∀ q ∈ steps, StepRangeD (binary64 D) 8 K q := by
  intro q hq
  cases q with
  | gate g back gs => exact inRangeD_binary64 (hw g back gs hq) (by omega)
  | func => trivial
  | measure => trivial

/-- C115: in double precision with underflow and overflow, at most 20 qubits, 16 diagonal workers and 256 gates and measurements, every gate
on at most three qubits and with matrix entries right up to 8 roundings, and a state whose squared norm is 1 up to `2 ^ -20`: the job gives
the outcomes `os` at most with the probability of Born's rule plus `2 ^ -8`, and with rejected probabilities counted, at least with it minus
`2 ^ -8`.  After a job that succeeds the state is that of the branch of its outcomes up to `2 ^ -9` over the square root of its
probability.  Missing: the uninitialised accumulators (C27) are taken as 0. -/
theorem C115_binary64_partial [D.Ranged] (hn : n ≤ 20) (hK16 : K ≤ 2 ^ 4) (hF : Ranged F (8 * (1 / 2 ^ 53)) (8 * (1 / 2 ^ 1022)) (2 ^ 1023 / 4))
    {calls : List (DCall (binary64 D))} {steps : List QStep} (hp : List.Forall₂ (DPerforms (binary64 D) 8 n K size) calls steps)
    (hok : ∀ q ∈ steps, StepOK n q) (hsize : 0 < size) (hK : K * size = 2 ^ n) (hN : steps.length ≤ 2 ^ 8)
    (hw : ∀ g back gs, .gate g back gs ∈ steps → gs.flatten.length ≤ 3) {v : List (FC (binary64 D))} (hv : v.length = 2 ^ n)
    (hT : |totalProb n (vals v) - 1| ≤ 1 / 2 ^ 20) :
    (∀ os : List Nat, os.length = countMeasures steps →
      (circuitLaw os.length (distDrawsFor F n K size calls v os)).toReal ≤ branchProb n steps os (vals v) + 1 / 2 ^ 8 ∧
        branchProb n steps os (vals v) - 1 / 2 ^ 8
          ≤ (circuitLaw os.length (distDrawsFor F n K size calls v os ∪ distRejected F n K size calls v os)).toReal) ∧
      ∀ xs : List (ℝ × (Nat → ℝ)), (∀ x ∈ xs, (0 ≤ x.1 ∧ x.1 ≤ 1) ∧ ∀ i, 0 ≤ x.2 i ∧ x.2 i ≤ 1) → ∀ os v',
        distRunF F n K size calls xs v = (os, .ok v') → 0 < branchProb n steps os (vals v) →
        dist2 n (fun c => ((1 / √(totalProb n (vals v')) : ℝ) : ℂ) * vals v' c)
            (fun c => ((1 / √(totalProb n (branchOf n steps os (vals v))) : ℝ) : ℂ) * branchOf n steps os (vals v) c)
          ≤ 1 / 2 ^ 9 / √(branchProb n steps os (vals v)) := by
  have hpos : 0 < totalProb n (vals v) := by
    have := (abs_le.1 hT).1
    norm_num at this ⊢
    linarith
  have hl := lowOKD_binary64 (K := K) hn (by omega)
  have hrg := stepRangeD_binary64 (D := D) hK16 hw
  obtain ⟨h3, h4⟩ := circuitErrDR_binary64 (D := D) hn hK16 hN (q := 1 / 2 ^ 20) (by positivity) le_rfl hw
  have h8 := h4.trans (show (1 : ℝ) / 2 ^ 10 ≤ 1 / 8 by norm_num)
  have h1 := fun os hlen => C115_ranged_upper_partial (t := 8) hF hl hp hok hrg hsize hK hv hpos hT h8 (os := os) hlen
  have h2 := fun os hlen => C115_ranged_lower_partial (t := 8) hF hl hp hok hrg hsize hK hv hpos hT h8 (os := os) hlen
  have h6 := fun xs hx os v' hr hb => C115_ranged_state_partial (t := 8) (xs := xs) (v' := v') hF hl hp hok hrg hsize hK hv hpos hT h8 hx (os := os) hr hb
  generalize circuitErrDR (binary64 D).u (binary64 D).eta (8 * (1 / 2 ^ 53)) (8 * (1 / 2 ^ 1022)) (1 / 2 ^ 200) 8 n K (1 / 2 ^ 20) steps = x at *
  have h5 : x * (3 + x) ≤ 1 / 2 ^ 8 := by
    refine (mul_le_mul h4 (by linarith : 3 + x ≤ 3 + 1 / 2 ^ 10) (by linarith) (by positivity)).trans ?_
    norm_num
  refine ⟨fun os hlen => ⟨(h1 os hlen).trans (by linarith), le_trans (by linarith) (h2 os hlen)⟩, fun xs hx os v' hr hb => ?_⟩
  refine (h6 xs hx os v' hr hb).trans (div_le_div_of_nonneg_right ?_ (Real.sqrt_nonneg _))
  norm_num at h4 ⊢
  linarith

/-! ## A concrete job -/

/-- Every step can be performed on the workers in double precision with underflow and overflow, with the matrices of the gates rounded. -/
theorem dperforms_ranged [D.Ranged] {steps : List QStep} (hok : ∀ q ∈ steps, StepOK n q) (hf : ∀ q ∈ steps, ∀ reg1 reg2 f, q ≠ .func reg1 reg2 f)
    (ht : 1 ≤ t) : ∃ calls, List.Forall₂ (DPerforms (binary64 D) t n K size) calls steps := by
  induction steps with
  | nil => exact ⟨[], .nil⟩
  | cons q rest ih =>
    obtain ⟨cs, h2⟩ := ih (fun q hq => hok q (by simp [hq])) fun q hq => hf q (by simp [hq])
    have hq := hok q (by simp)
    have hfq := hf q (by simp)
    have : ∃ c, DPerforms (binary64 D) t n K size c q := by
      cases q with
      | measure idx => exact ⟨.measure idx fun _ => List.replicate size 0, .measure fun _ _ => by simp⟩
      | func reg1 reg2 f => exact absurd rfl (hfq _ _ _)
      | gate g back gs =>
        obtain ⟨hfit, hgs, hsw⟩ := hq
        obtain ⟨mats, h⟩ := gm_exists g gs hfit hgs
        have hm : ∃ mats, g.feedMats back gs = .ok mats := by
          cases back with
          | false => exact ⟨mats, by simp [Gate.feedMats, h.ok]⟩
          | true =>
            obtain ⟨dm, hd, -⟩ := feedMats_dagger hfit hgs h (hsw rfl)
            exact ⟨dm, hd⟩
        obtain ⟨ms, hm⟩ := hm
        refine ⟨.kron (ms.map fun (km : Key × Mat ℂ) => (km.1, roundMat (binary64 D) (fl64 D) km.2)) (fun _ _ => 0)
          (fun _ _ => List.replicate size 0) (fun _ _ => List.range size) (fun j => (List.range K).erase j), .gate hm ?_ (fun _ _ => .refl _)
          (fun _ _ => by simp) fun j hj => (List.perm_cons_erase (List.mem_range.2 hj)).symm⟩
        have hst := feedMats_stored hm
        clear hm
        induction ms with
        | nil => exact .nil
        | cons km mats ih =>
          exact .cons ⟨rfl, roundMat_stored ht fl64_ranged km.2 (hst km (by simp))⟩ (ih fun km hkm => hst km (by simp [hkm]))
    obtain ⟨c, h1⟩ := this
    exact ⟨c :: cs, .cons h1 h2⟩

-- a Bell pair on two diagonal workers, measured, undone and measured again: every pair of outcomes
example (D : Double) [D.Ranged] : ∃ calls, List.Forall₂ (DPerforms (binary64 D) 8 2 2 2) calls bellSteps ∧
    ∀ m m' : Nat, (circuitLaw 2 (distDrawsFor (FOps.ofRounding round64 fun a L => L.foldl (fun s x => round64 (s + x)) a) 2 2 2 calls
          [1, 0, 0, 0] [m, m'])).toReal
        ≤ branchProb 2 bellSteps [m, m'] (vals ([1, 0, 0, 0] : List (FC (binary64 D)))) + 1 / 2 ^ 8 ∧
      branchProb 2 bellSteps [m, m'] (vals ([1, 0, 0, 0] : List (FC (binary64 D)))) - 1 / 2 ^ 8
        ≤ (circuitLaw 2 (distDrawsFor (FOps.ofRounding round64 fun a L => L.foldl (fun s x => round64 (s + x)) a) 2 2 2 calls [1, 0, 0, 0] [m, m'] ∪
          distRejected (FOps.ofRounding round64 fun a L => L.foldl (fun s x => round64 (s + x)) a) 2 2 2 calls [1, 0, 0, 0] [m, m'])).toReal := by
  obtain ⟨calls, hp⟩ := dperforms_ranged (D := D) (K := 2) (size := 2) (t := 8) bellSteps_ok (by
    intro q hq
    simp only [bellSteps, List.mem_cons, List.not_mem_nil, or_false] at hq
    rcases hq with rfl | rfl | rfl | rfl | rfl | rfl <;> simp) (by norm_num)
  have hw : ∀ g back gs, .gate g back gs ∈ bellSteps → gs.flatten.length ≤ 3 := by
    intro g back gs h
    simp only [bellSteps, List.mem_cons, QStep.gate.injEq, List.not_mem_nil, or_false, reduceCtorEq, false_or] at h
    rcases h with ⟨_, _, rfl⟩ | ⟨_, _, rfl⟩ | ⟨_, _, rfl⟩ | ⟨_, _, rfl⟩ <;> simp
  have h0 : (0 : FC (binary64 D)).val = 0 := rfl
  have h1 : (1 : FC (binary64 D)).val = 1 := rfl
  have hT : totalProb 2 (vals ([1, 0, 0, 0] : List (FC (binary64 D)))) = 1 := by
    simp [totalProb, vals, Finset.sum_range_succ, h0, h1]
  refine ⟨calls, hp, fun m m' => ?_⟩
  exact (C115_binary64_partial (by norm_num) (by norm_num) binary64_ranged hp bellSteps_ok (by norm_num) (by norm_num) (by simp [bellSteps]) hw
    rfl (by rw [hT]; norm_num)).1 [m, m'] rfl

end QIP.Props
