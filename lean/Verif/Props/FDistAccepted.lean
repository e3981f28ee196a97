import Verif.Props.FDistCircuit
import Verif.Props.FDistJob

/-!
# C115: jobs in which no outcome is nearly certain

If no outcome is nearly certain, then no probability is rejected (up to an improbable set of random numbers), and the bounds of C115 hold
without the rejected probabilities.
-/

namespace QIP.Props

open QIP Spec Finset MeasureTheory

variable {A : Arith} {F : FOps} {u : ℝ} {t n K size : Nat}

theorem acceptErr_ge (δ X : ℝ) : X * (3 + X) ≤ acceptErr δ X := by
  unfold acceptErr
  linarith [sq_nonneg (10 * X / δ)]

theorem acceptErr_ge' (δ : ℝ) {X : ℝ} (h : 0 ≤ X) : (10 * X / δ) ^ 2 ≤ acceptErr δ X := by
  unfold acceptErr
  have : 0 ≤ X * (3 + X) := by positivity
  linarith

theorem acceptErr_mono (δ : ℝ) {X Y : ℝ} (h0 : 0 ≤ X) (h : X ≤ Y) : acceptErr δ X ≤ acceptErr δ Y := by
  unfold acceptErr
  refine add_le_add (err_mono h0 h) ?_
  rw [div_pow, div_pow]
  gcongr

theorem undecided_unit {δ : ℝ} {q : QStep} (hm : ∀ idx, q ≠ .measure idx) {rest : List QStep} {os : List Nat} {v : Nat → ℂ} :
    Undecided δ n (q :: rest) os v ↔ Undecided δ n rest os (stepApply n q v) := by
  cases q with
  | measure idx => exact absurd rfl (hm idx)
  | gate g back gs => exact Iff.rfl
  | func reg1 reg2 f => exact Iff.rfl

theorem undecided_scale {δ : ℝ} {steps : List QStep} (hok : ∀ q ∈ steps, StepOK n q) (os : List Nat) (a : ℝ) {x v : Nat → ℂ}
    (h : ∀ r < 2 ^ n, x r = a * v r) (hu : Undecided δ n steps os v) : Undecided δ n steps os x := by
  induction steps generalizing os x v with
  | nil => trivial
  | cons q rest ih =>
    have hok' : ∀ q ∈ rest, StepOK n q := fun q hq => hok q (by simp [hq])
    by_cases hm : ∀ idx, q ≠ .measure idx
    · rw [undecided_unit hm] at hu ⊢
      refine ih hok' os ?_ hu
      have := branchOf_scale (steps := [q]) (n := n) (fun q' hq' => hok q' (by simp at hq'; simp [hq'])) os a h
      intro r hr
      have h1 := this r hr
      rwa [(branchOf_unit hm [] os x).1, (branchOf_unit hm [] os v).1] at h1
    · have hm : ∃ idx, q = .measure idx := by
        by_contra h
        exact hm fun idx he => h ⟨idx, he⟩
      obtain ⟨idx, rfl⟩ := hm
      obtain ⟨h1, h2⟩ := hu
      refine ⟨?_, ih hok' os.tail (v := project n idx (os.headD 0) v) ?_ h2⟩
      · rw [outcomeProb_scale h, totalProb_scale h]
        have := mul_le_mul_of_nonneg_left h1 (sq_nonneg a)
        linarith
      · intro r hr
        unfold project
        split
        · exact h r hr
        · simp

theorem collapse_le (hF : Accurate F u) {uG : ℝ} (t : Nat) {idx : List Nat} :
    (1 + collapseErrD u n K idx.length) ^ 2 ≤ stepErrD uG u t n K (.measure idx) := by
  have hγ := collapseErrD_nonneg hF n K idx.length
  have h3 := stepErrD_measure (n := n) (K := K) hF (uG := uG) t (idx := idx) (le_refl 1) (le_refl 1)
  rw [one_mul, one_pow, one_mul, one_mul] at h3
  refine le_trans ?_ h3
  have h4 : 1 ≤ ((1 + collapseErrD u n K idx.length) ^ 2) ^ 2 := one_le_pow₀ (one_le_pow₀ (by linarith))
  have h5 : 0 ≤ chooseErrD u n K 1 := (abs_nonneg _).trans
    (choose_near (K := K) (n := n) hF (Q := 1) (T := 1) (q := 0) le_rfl one_pos (by simp) le_rfl zero_le_one).1
  have h6 := sq_nonneg (1 + collapseErrD u n K idx.length)
  nlinarith

theorem reject_norm {s X δ b c : ℝ} (hs : 0 ≤ s) (hX0 : 0 ≤ X) (hδ0 : 0 < δ) (hδ1 : δ ≤ 1) (hX : X ≤ δ / 8)
    (h1 : s * (1 - X) ≤ b + X) (h2 : b ≤ (1 - δ / 2) * c) (h3 : c ≤ s * (1 + X) + X) : c ≤ 10 * X / δ := by
  have h4 : b ≤ (1 - δ / 2) * (s * (1 + X) + X) := h2.trans (mul_le_mul_of_nonneg_left h3 (by linarith))
  have h5 : s * (δ / 4) ≤ 2 * X := by
    have h6 : (1 - δ / 2) * (s * (1 + X) + X) ≤ s * (1 - δ / 2 + X) + X := by
      have : 0 ≤ δ / 2 * (s * X) := by positivity
      have : 0 ≤ δ / 2 * X := by positivity
      nlinarith
    have h7 : s * X ≤ s * (δ / 8) := mul_le_mul_of_nonneg_left hX hs
    nlinarith
  rw [le_div_iff₀ hδ0]
  have h8 : s * X * δ ≤ X := by
    have : s * δ ≤ 8 * X := by linarith
    have : s * δ * X ≤ 1 * X := mul_le_mul_of_nonneg_right (by linarith) hX0
    linarith
  have h9 : X * δ ≤ X := by nlinarith
  have h10 := mul_le_mul_of_nonneg_right h3 hδ0.le
  nlinarith

/-- If the workers reject a probability although the outcome is not nearly certain, then the branch is improbable. -/
theorem reject_small (hF : Accurate F u) {idx : List Nat} {m : Nat} {s P Q a X δ p : ℝ} {v w : Nat → ℂ} (h : Track n s v w P Q a)
    (hδ0 : 0 < δ) (hδ1 : δ ≤ 1) (hund : outcomeProb n idx w m ≤ (1 - δ) * totalProb n w)
    (hrel : Rel (factor u ^ (2 ^ (n - idx.length) + 1 + K)) p (outcomeProb n idx v m)) (hp : 1 < p)
    (hγ : collapseErrD u n K idx.length ≤ X) (hQ : Q ≤ 1 + X) (hP : P - 1 ≤ X) {rest : List QStep} (hok : ∀ q ∈ rest, StepOK n q)
    (os : List Nat) : totalProb n (branchOf n rest os (project n idx m w)) ≤ (10 * X / δ) ^ 2 := by
  have hc := h.close
  have hX0 : 0 ≤ X := by linarith [hc.one_le]
  have hle : totalProb n (branchOf n rest os (project n idx m w)) ≤ dist2 n w 0 ^ 2 := by
    rw [totalProb_dist]
    refine pow_le_pow_left₀ (dist2_nonneg _ _ _) ((branchOf_norm hok os _).trans ?_) 2
    rw [dist2_zero_project]
    refine (Real.sqrt_le_sqrt (outcome_le_total _ _ _)).trans ?_
    rw [totalProb_dist, Real.sqrt_sq (dist2_nonneg _ _ _)]
  refine hle.trans (pow_le_pow_left₀ (dist2_nonneg _ _ _) ?_ 2)
  by_cases hX : X ≤ δ / 8
  swap
  · refine hc.norm.trans ?_
    rw [le_div_iff₀ hδ0]
    linarith
  set q := outcomeProb n idx v m with hq
  have hq0 : 0 ≤ q := outcomeProb_nonneg _ _ _ _
  -- the computed probability of the outcome is close to 1
  have hf : factor u ^ (2 ^ (n - idx.length) + 1 + K) ≤ 1 + X := by
    unfold collapseErrD at hγ
    have h1 := pow_le_pow_right₀ (by simpa using hF.bpow 1) (show 2 ^ (n - idx.length) + 1 + K ≤ 2 ^ (n - idx.length) + 4 + K by omega)
    linarith
  have hqX : 1 - X ≤ √q := by
    have h1 := hrel.2
    have h2 := mul_le_mul_of_nonneg_left hf hq0
    rw [Real.le_sqrt' (by linarith)]
    have h3 : 1 < q * (1 + X) := by linarith
    by_contra hcon
    push Not at hcon
    have h4 : q * (1 + X) < (1 - X) ^ 2 * (1 + X) := mul_lt_mul_of_pos_right hcon (by linarith)
    have h5 : 0 ≤ X * X * (1 - X) := mul_nonneg (mul_nonneg hX0 hX0) (by linarith)
    nlinarith
  have hb : √(outcomeProb n idx w m) ≤ (1 - δ / 2) * dist2 n w 0 := by
    rw [Real.sqrt_le_iff]
    refine ⟨mul_nonneg (by linarith) (dist2_nonneg _ _ _), hund.trans ?_⟩
    rw [totalProb_dist, mul_pow]
    refine mul_le_mul_of_nonneg_right ?_ (sq_nonneg _)
    nlinarith [sq_nonneg δ]
  have h1 := dist2_triangle n (project n idx m fun c => s * v c) (project n idx m w) 0
  have h2 := (dist2_project (n := n) idx m (fun c => s * v c) w).trans hc.dist
  rw [dist2_zero_project idx m w, project_scale, dist2_scale_zero hc.nonneg, dist2_zero_project] at h1
  rw [project_scale] at h2
  have h3 := dist2_triangle n w (fun c => s * v c) 0
  rw [dist2_comm w (fun c => s * v c), dist2_scale_zero hc.nonneg] at h3
  have h4 := hc.dist
  have hT : dist2 n v 0 ≤ 1 + X := by
    have h5 := (abs_le.1 h.total).2
    rw [totalProb_dist] at h5
    have := dist2_nonneg n v 0
    nlinarith
  refine reject_norm hc.nonneg hX0 hδ0 hδ1 hX (b := √(outcomeProb n idx w m)) ?_ hb ?_
  · have := mul_le_mul_of_nonneg_left hqX hc.nonneg
    linarith
  · have := mul_le_mul_of_nonneg_left hT hc.nonneg
    linarith

variable [A.Ideal]

theorem accept_main (hF : Accurate F u) {calls : List (DCall A)} {steps : List QStep}
    (hp : List.Forall₂ (DPerforms A t n K size) calls steps) (hok : ∀ q ∈ steps, StepOK n q) (hsize : 0 < size) (hK : K * size = 2 ^ n)
    {os : List Nat} (hlen : os.length = countMeasures steps) {v : List (FC A)} (hv : v.length = 2 ^ n) {s P Q a : ℝ} {w : Nat → ℂ}
    {δ : ℝ} (hδ0 : 0 < δ) (hδ1 : δ ≤ 1) (hund : Undecided δ n steps os w)
    (h : Track n s (vals v) w P Q a) (hsmall : P * Q ^ 2 * (steps.map (stepErrD A.u u t n K)).prod - 1 < 1) :
    totalProb n (branchOf n steps os w) - acceptErr δ (P * Q ^ 2 * (steps.map (stepErrD A.u u t n K)).prod - 1)
      ≤ a * (circuitLaw os.length (distDrawsFor F n K size calls v os)).toReal := by
  induction hp generalizing os v s P Q a w with
  | nil =>
    cases os with
    | cons m os => simp [countMeasures] at hlen
    | nil =>
    have h1 := (abs_le.1 (track_end h)).1
    have e : distDrawsFor F n K size [] v [] = Set.univ := by
      apply Set.eq_univ_of_forall
      intro x
      exact ⟨v, rfl⟩
    simp only [List.map_nil, List.prod_nil, mul_one, branchOf]
    rw [e, measure_univ, ENNReal.toReal_one, mul_one]
    have h2 := acceptErr_ge δ (P * Q ^ 2 - 1)
    linarith
  | @cons call q calls steps hpq hrest ih =>
    have hq := hok q (by simp)
    have hok' : ∀ q ∈ steps, StepOK n q := fun q hq => hok q (by simp [hq])
    rw [List.map_cons, List.prod_cons, ← mul_assoc] at hsmall ⊢
    have hPr := one_le_stepProdD hF A t n K steps
    have hP := h.close.one_le
    have hQ := h.oneQ
    have hPQ : 1 ≤ P * Q ^ 2 := by nlinarith [one_le_pow₀ hQ (n := 2)]
    by_cases hm : ∀ idx, q ≠ .measure idx
    · obtain ⟨v', ε, k1, k2, k3, k4, k5⟩ := dunit_next (F := F) (u := u) hq hm hpq hsize hK hv calls
      rw [k3] at hsmall ⊢
      have hε : ε < 1 := by
        have h1 := factor_lt_two hPQ hPr (by positivity) hsmall
        by_contra hc
        have : (2 : ℝ) ^ 6 ≤ (1 + ε) ^ 6 := pow_le_pow_left₀ (by norm_num) (by linarith) 6
        linarith
      have e : P * (1 + ε) ^ 2 * (Q * (1 + ε) ^ 2) ^ 2 = P * Q ^ 2 * (1 + ε) ^ 6 := by ring
      have h2 := ih hok' (hlen.trans (branchOf_unit (n := n) hm steps os w).2) k1 ((undecided_unit hm).1 hund) (track_unit (iso_step hq hm) h k2 hε k5)
        (by rw [e]; exact hsmall)
      rw [e] at h2
      rw [(branchOf_unit hm steps os w).1]
      refine h2.trans (le_of_eq ?_)
      unfold distDrawsFor
      simp only [k4]
    · have hm : ∃ idx, q = .measure idx := by
        by_contra h
        exact hm fun idx he => h ⟨idx, he⟩
      obtain ⟨idx, rfl⟩ := hm
      have hi : IdxOK n idx := hq
      obtain ⟨arena, ha, rfl⟩ : ∃ arena, (∀ i < K, (arena i).length = size) ∧ call = .measure idx arena := by
        cases hpq with
        | measure ha => exact ⟨_, ha, rfl⟩
      cases os with
      | nil => simp [countMeasures] at hlen
      | cons m os =>
      have hbound := stepErrD_measure (n := n) (K := K) hF (uG := A.u) t (idx := idx) hP hQ
      set R := (steps.map (stepErrD A.u u t n K)).prod
      set S := stepErrD A.u u t n K (.measure idx)
      have hS1 : 1 ≤ S := one_le_stepErrD hF A t n K _
      have hXP : P - 1 ≤ P * Q ^ 2 * S * R - 1 := by
        have h1 : P ≤ P * Q ^ 2 := by nlinarith [one_le_pow₀ hQ (n := 2)]
        have h2 : P * Q ^ 2 ≤ P * Q ^ 2 * S := by nlinarith
        nlinarith
      have hγ := collapseErrD_nonneg hF n K idx.length
      have hQX : Q ≤ 1 + (P * Q ^ 2 * S * R - 1) := by
        have h1 : Q ≤ P * Q ^ 2 := by nlinarith
        have h2 : P * Q ^ 2 ≤ P * Q ^ 2 * S := by nlinarith
        nlinarith
      have hγX : collapseErrD u n K idx.length ≤ P * Q ^ 2 * S * R - 1 := by
        have h0 := collapse_le (n := n) (K := K) hF (uG := A.u) t (idx := idx)
        have h2 : S ≤ P * Q ^ 2 * S := by nlinarith
        have h3 : P * Q ^ 2 * S ≤ P * Q ^ 2 * S * R := by nlinarith
        nlinarith
      obtain ⟨hund1, hund2⟩ : outcomeProb n idx w m ≤ (1 - δ) * totalProb n w ∧ Undecided δ n steps os (project n idx m w) := hund
      by_cases hpos : 0 < outcomeProb n idx (vals v) m
      · have hm : m < 2 ^ idx.length := by
          by_contra hc
          rw [outcomeProb_out hi _ hc] at hpos
          exact lt_irrefl _ hpos
        have hvm : (v.map FC.val).length = 2 ^ n := by simpa using hv
        obtain ⟨box, hb0, hbd, hb1, hb2⟩ := boxes_lower hF hi hK hvm 0 0 hm
        rw [vals_map] at hb1
        have hTQ := h.total
        have hpT := outcome_le_total (n := n) idx m (vals v)
        obtain ⟨-, hv1⟩ := choose_near (K := K) (n := n) hF hQ h.pos hTQ hpos.le hpT
        set ρ := 2 * K * selectErr u n (totalProb n (vals v)) + 2 * drawErr u n * totalProb n (vals v) + |totalProb n (vals v) - 1|
        set vol := max 0 (outcomeProb n idx (vals v) m - ρ) with hvol
        have hvol0 : 0 ≤ vol := le_max_left _ _
        have hb1' : ENNReal.ofReal vol ≤ ∑ s ∈ range K, jobLaw (box s) := by
          rcases le_total 0 (outcomeProb n idx (vals v) m - ρ) with hc | hc
          · rw [hvol, max_eq_right hc]
            exact hb1
          · rw [hvol, max_eq_left hc, ENNReal.ofReal_zero]
            exact zero_le
        have hD : 0 ≤ chooseErrD u n K Q := (abs_nonneg _).trans hv1
        have hγ1 := collapse_lt hF t hPQ hPr hsmall
        have hsmall' : P * ((1 + collapseErrD u n K idx.length) ^ 2 + chooseErrD u n K Q) * ((1 + collapseErrD u n K idx.length) ^ 2) ^ 2 * R - 1
            ≤ P * Q ^ 2 * S * R - 1 := by
          have := mul_le_mul_of_nonneg_right hbound (by linarith : 0 ≤ R)
          linarith
        have hX0' := collapse_err0 (n := n) (K := K) (k := idx.length) hF hP hD hPr
        set p : Nat → ℝ := fun s => reportedF F idx n K size (v.map FC.val) s m with hp
        have hrel : ∀ s < K, Rel (factor u ^ (2 ^ (n - idx.length) + 1 + K)) (p s) (outcomeProb n idx (vals v) m) := by
          intro s hs
          have := rel_reportedF (F := F) hF hi (v := v.map FC.val) (K := K) (N := size) (by omega) hs hm
          rwa [vals_map] at this
        have hlen' : os.length = countMeasures steps := by simpa [countMeasures] using hlen
        by_cases hacc : ∀ s < K, p s ≤ 1
        swap
        · push Not at hacc
          obtain ⟨s', hs', hp1⟩ := hacc
          have e : branchOf n (.measure idx :: steps) (m :: os) w = branchOf n steps os (project n idx m w) := rfl
          have h1 := reject_small hF h hδ0 hδ1 hund1 (hrel s' hs') hp1 hγX hQX hXP hok' os
          rw [e]
          have h2 := mul_nonneg h.a0 (ENNReal.toReal_nonneg (a := circuitLaw (m :: os).length
            (distDrawsFor F n K size (.measure idx arena :: calls) v (m :: os))))
          have h3 := acceptErr_ge' δ ((by linarith : 0 ≤ P - 1).trans hXP)
          linarith
        set W : Nat → Set (Fin os.length → JobDraw → ℝ) := fun s =>
          distDrawsFor F n K size calls (collapsedF F idx n v m (p s)) os with hW
        have hih : ∀ s < K, totalProb n (branchOf n (.measure idx :: steps) (m :: os) w)
            - acceptErr δ (P * Q ^ 2 * S * R - 1) ≤ a * vol * (circuitLaw os.length (W s)).toReal := by
          intro s hs
          have h1 := ih hok' hlen' (collapsedF_length (F := F) idx v m (p s)) hund2 (track_measure hF h hpos (hrel s hs) hγ1 hvol0 hv1)
            (by linarith)
          have h4 := acceptErr_mono δ hX0' hsmall'
          have e : branchOf n (.measure idx :: steps) (m :: os) w = branchOf n steps os (project n idx m w) := rfl
          rw [e]
          linarith
        have hK0 : 0 < K := by
          rcases Nat.eq_zero_or_pos K with rfl | h
          · have := Nat.two_pow_pos n
            omega
          · exact h
        obtain ⟨s₀, hs₀, hmin⟩ := Finset.exists_min_image (range K) (fun s => circuitLaw os.length (W s)) ⟨0, mem_range.2 hK0⟩
        refine (hih s₀ (mem_range.1 hs₀)).trans ?_
        rw [mul_assoc]
        refine mul_le_mul_of_nonneg_left ?_ h.a0
        rw [← ENNReal.toReal_ofReal hvol0, ← ENNReal.toReal_mul]
        refine ENNReal.toReal_mono (measure_ne_top _ _) ?_
        set M := circuitLaw os.length (W s₀)
        refine le_trans ?_ (circuitLaw_sum os.length hb0 hbd (S := W) ?_)
        · calc ENNReal.ofReal vol * M ≤ (∑ s ∈ range K, jobLaw (box s)) * M := mul_le_mul_left hb1' _
            _ = ∑ s ∈ range K, jobLaw (box s) * M := by rw [Finset.sum_mul]
            _ ≤ ∑ s ∈ range K, jobLaw (box s) * circuitLaw os.length (W s) :=
              Finset.sum_le_sum fun s hs => mul_le_mul_right (hmin s hs) _
        · intro s hs x hx hbox htail
          obtain ⟨-, hc⟩ := hb2 s (mem_range.1 hs) (x 0) hbox hx
          have e : measureDraws (k := (m :: os).length) x = _ := measureDraws_succ (k := os.length) x
          have hr := distRunF_measure (xs := measureDraws (Fin.tail x : Fin os.length → JobDraw → ℝ))
            (x := (x 0 (.inl 0), fun w => x 0 (.inr ((w, w), 0)))) hi hK hv ha hm hc calls
          have hpp : 0 < p s ∧ p s ≤ 1 := ⟨rel_pos (hF.bpow _) hpos (hrel s (mem_range.1 hs)), hacc s (mem_range.1 hs)⟩
          rw [if_pos hpp] at hr
          obtain ⟨v', h1⟩ := htail
          refine ⟨v', ?_⟩
          rw [e, hr, h1]
      · have h0 : outcomeProb n idx (vals v) m = 0 := le_antisymm (not_lt.1 hpos) (outcomeProb_nonneg _ _ _ _)
        have h1 := track_none h h0 hok' os
        have e : branchOf n (.measure idx :: steps) (m :: os) w = branchOf n steps os (project n idx m w) := rfl
        rw [e]
        have h2 := mul_nonneg h.a0 (ENNReal.toReal_nonneg (a := circuitLaw (m :: os).length
          (distDrawsFor F n K size (.measure idx arena :: calls) v (m :: os))))
        have h3 : 0 ≤ P - 1 := by linarith
        have h4 := acceptErr_ge δ (P * Q ^ 2 * S * R - 1)
        nlinarith

/-- C115 (probabilities, no outcome nearly certain): if on the way of the outcomes `os` no outcome has more than the probability `1 - δ`
given those before, then the job succeeds with the outcomes `os` with the probability of Born's rule, up to an explicit error. -/
theorem C115_undecided (hF : Accurate F u) {calls : List (DCall A)} {steps : List QStep}
    (hp : List.Forall₂ (DPerforms A t n K size) calls steps) (hok : ∀ q ∈ steps, StepOK n q) (hsize : 0 < size) (hK : K * size = 2 ^ n)
    {v : List (FC A)} (hv : v.length = 2 ^ n) {q : ℝ} (hT : 0 < totalProb n (vals v)) (hq : |totalProb n (vals v) - 1| ≤ q)
    {os : List Nat} (hlen : os.length = countMeasures steps) {δ : ℝ} (hδ0 : 0 < δ) (hδ1 : δ ≤ 1)
    (hund : Undecided δ n steps os (vals v)) :
    |(circuitLaw os.length (distDrawsFor F n K size calls v os)).toReal - branchProb n steps os (vals v)|
      ≤ acceptErr δ (circuitErrD A.u u t n K q steps) := by
  have hup := C115_upper_partial (t := t) hF hp hok hsize hK hv hT hq hlen
  have hge := acceptErr_ge δ (circuitErrD A.u u t n K q steps)
  refine abs_le.2 ⟨?_, by linarith⟩
  suffices h : branchProb n steps os (vals v) - acceptErr δ (circuitErrD A.u u t n K q steps)
      ≤ (circuitLaw os.length (distDrawsFor F n K size calls v os)).toReal by linarith
  clear hup
  unfold circuitErrD at hge ⊢
  by_cases hsmall : 1 * (1 + q) ^ 2 * (steps.map (stepErrD A.u u t n K)).prod - 1 < 1
  · have := accept_main hF hp hok hsize hK hlen hv hδ0 hδ1 (undecided_scale hok os _ (fun _ _ => rfl) hund) (track_start hT hq) hsmall
    rwa [branch_start hok os hT, one_mul, one_mul] at this
  · rw [one_mul] at hsmall
    have h1 := ENNReal.toReal_nonneg (a := circuitLaw os.length (distDrawsFor F n K size calls v os))
    have h2 := (branchProb_bounds hok os hT).2
    nlinarith

/-- C115 in double precision, no outcome with more than the probability 3/4 given those before: with at most 20 qubits, 16 diagonal workers
and 256 gates and measurements, every gate on at most three qubits and with matrix entries right up to 8 roundings, and a state whose
squared norm is 1 up to `2 ^ -20`, the job succeeds with the outcomes `os` with the probability of Born's rule up to `2 ^ -7`. -/
theorem C115_undecided_double {D : Double} [D.Ideal] {n : Nat} (hn : n ≤ 20) (hK16 : K ≤ 2 ^ 4) (hF : Accurate F (1 / 2 ^ 50))
    {calls : List (DCall (binary64 D))}
    {steps : List QStep} (hp : List.Forall₂ (DPerforms (binary64 D) 8 n K size) calls steps) (hok : ∀ q ∈ steps, StepOK n q)
    (hsize : 0 < size) (hK : K * size = 2 ^ n) (hN : steps.length ≤ 2 ^ 8)
    (hw : ∀ g back gs, .gate g back gs ∈ steps → gs.flatten.length ≤ 3) {v : List (FC (binary64 D))} (hv : v.length = 2 ^ n)
    (hT : |totalProb n (vals v) - 1| ≤ 1 / 2 ^ 20) {os : List Nat} (hlen : os.length = countMeasures steps)
    (hund : Undecided (1 / 4) n steps os (vals v)) :
    |(circuitLaw os.length (distDrawsFor F n K size calls v os)).toReal - branchProb n steps os (vals v)| ≤ 1 / 2 ^ 7 := by
  have hpos : 0 < totalProb n (vals v) := by
    have := (abs_le.1 hT).1
    norm_num at this ⊢
    linarith
  refine (C115_undecided (t := 8) hF hp hok hsize hK hv hpos hT hlen (by norm_num) (by norm_num) hund).trans ?_
  obtain ⟨h3, h4⟩ := circuitErrD_double (D := D) hn hK16 hN (q := 1 / 2 ^ 20) (by positivity) le_rfl hw
  refine (acceptErr_mono _ h3 h4).trans ?_
  unfold acceptErr
  norm_num

variable {C M : Nat} {prm : Wid → FNet.WParam} {ws : List Wid} {v : List (FC A)} {st : Wid → Wid → Nat}

/-- C115 for the processes: if no outcome on the way of `os` is nearly certain, then the job ends with the outcomes `os` with the
probability of Born's rule, up to an explicit error. -/
theorem C115_network_undecided (hF : Accurate F u) (hg : FNet.GridOK prm K size C M ws) (hops : ∀ w, (prm w).ops = F)
    (hsched : ∀ w c, ((prm w).sched c).Perm (List.range size)) {reqs : List (FNet.Req A)} {steps : List QStep}
    (hreq : List.Forall₂ (AsksFor A t) reqs steps) (hok : ∀ q ∈ steps, StepOK n q) {pm : FNet.MProg A}
    {c : Cfg Pid (FNet.NMsg A) (FNet.NLoc A)} (hD : DistributedF K size n v C M st pm c)
    (hfresh : ∀ i < K, ∀ j < K, received c (i, j) = 0) {q : ℝ} (hT : 0 < totalProb n (vals v)) (hq : |totalProb n (vals v) - 1| ≤ q)
    {os : List Nat} (hlen : os.length = countMeasures steps) {δ : ℝ} (hδ0 : 0 < δ) (hδ1 : δ ≤ 1)
    (hund : Undecided δ n steps os (vals v)) :
    |(circuitLaw os.length (jobDrawsFor F prm ws reqs c os)).toReal - branchProb n steps os (vals v)|
      ≤ acceptErr δ (circuitErrD A.u u t n K q steps) := by
  rw [jobDrawsFor_runs hg hops hsched hreq hok hD hfresh hlen]
  exact C115_undecided hF (performs_calls (n := n) hg hsched hreq fun _ => 0) hok hg.posN hD.cover hD.size hT hq hlen hδ0 hδ1 hund

theorem flat4_bits (c : Nat) (hc : c < 4) : subIndex 2 (inOrder 2 [1]) c = c % 2 ∧ subIndex 2 (inOrder 2 [0]) c = c / 2 := by
  interval_cases c <;> decide

-- the flat state, both qubits measured one after the other
theorem flat4_undecided (m m' : Nat) : Undecided (1 / 4) 2 [.measure [1], .measure [0]] [m, m'] fun c => flat4.getD c 0 := by
  have h1 : ∀ m, outcomeProb 2 [1] (fun c => flat4.getD c 0) m = if m < 2 then 1 / 2 else 0 := by
    intro m
    split
    · exact flat4_prob (by assumption)
    · rename_i h
      exact outcomeProb_out flat4_ok _ h
  refine ⟨?_, ?_, trivial⟩
  · rw [flat4_total]
    change outcomeProb 2 [1] _ m ≤ _
    rw [h1]
    split <;> norm_num
  · change outcomeProb 2 [0] (project 2 [1] m _) m' ≤ _ * totalProb 2 (project 2 [1] m _)
    rw [totalProb_project, h1]
    unfold outcomeProb project
    rw [Finset.sum_filter]
    simp only [show 2 ^ 2 = 4 from rfl, Finset.sum_range_succ, Finset.sum_range_zero, flat4_bits 0 (by omega), flat4_bits 1 (by omega),
      flat4_bits 2 (by omega), flat4_bits 3 (by omega)]
    rcases lt_or_ge m 2 with h | h
    · have h3 : m = 0 ∨ m = 1 := by omega
      rcases lt_or_ge m' 2 with h' | h'
      · have h4 : m' = 0 ∨ m' = 1 := by omega
        rcases h3 with rfl | rfl <;> rcases h4 with rfl | rfl <;> norm_num [flat4, Complex.normSq_apply]
      · have h4 : (0 : Nat) ≠ m' := by omega
        have h5 : (1 : Nat) ≠ m' := by omega
        rcases h3 with rfl | rfl <;> norm_num [h4, h5]
    · have h4 : (0 : Nat) ≠ m := by omega
      have h5 : (1 : Nat) ≠ m := by omega
      have h6 : ¬ m < 2 := by omega
      norm_num [h4, h5, h6]

-- all pairs of outcomes
example (D : Double) [D.Ideal] (m m' : Nat) :
    |(circuitLaw 2 (distDrawsFor FOps.double 2 2 2 [.measure [1] fun _ => [0, 0], .measure [0] fun _ => [0, 0]]
        (flat4.map (FC.mk (A := binary64 D))) [m, m'])).toReal
      - branchProb 2 [.measure [1], .measure [0]] [m, m'] fun c => flat4.getD c 0| ≤ 1 / 2 ^ 7 := by
  have hT : totalProb 2 (vals (flat4.map (FC.mk (A := binary64 D)))) = 1 := by rw [vals_mk]; exact flat4_total
  have h := C115_undecided_double (D := D) (n := 2) (K := 2) (size := 2) (F := FOps.double) (by norm_num) (by norm_num) double_accurate
    (calls := [.measure [1] fun _ => [0, 0], .measure [0] fun _ => [0, 0]]) (steps := [.measure [1], .measure [0]])
    (.cons (.measure fun _ _ => rfl) (.cons (.measure fun _ _ => rfl) .nil)) (by
      intro q hq
      simp only [List.mem_cons, List.not_mem_nil, or_false] at hq
      rcases hq with rfl | rfl
      · exact flat4_ok
      · exact ⟨by decide, by decide⟩) (by norm_num) (by norm_num) (by norm_num) (by simp) (v := flat4.map FC.mk) rfl
    (by rw [hT]; norm_num) (os := [m, m']) rfl (by rw [vals_mk]; exact flat4_undecided m m')
  rwa [vals_mk] at h

noncomputable def flatSt (A : Arith) : Wid → FNet.WSt A := fun w =>
  if w.1 < 2 ∧ w.2 < 2 then ⟨⟨2, [.mk (1 / 2), .mk (1 / 2)], [0, 0]⟩, .idle, 0⟩ else ⟨⟨0, [], []⟩, .closed, 0⟩

theorem flatReady {A : Arith} : FNet.GridReady 2 2 2 (flat4.map (FC.mk (A := A))) (flatSt A) := by
  refine ⟨?_, ?_⟩
  · intro i hi j hj
    simp only [flatSt, hi, hj, and_self, if_true, true_and]
    rcases (show i = 0 ∨ i = 1 by omega) with rfl | rfl <;> simp [rangeOf, flat4]
  · intro w hw
    simp only [flatSt, if_neg hw]

-- the same on four processes
open C113 in
example (D : Double) [D.Ideal] (m m' : Nat) : ∃ c : Cfg Pid (FNet.NMsg (binary64 D)) (FNet.NLoc (binary64 D)),
    |(circuitLaw 2 (jobDrawsFor FOps.double netPrm [(0, 0), (0, 1), (1, 0), (1, 1)] [.measure [1], .measure [0]] c [m, m'])).toReal
      - branchProb 2 [.measure [1], .measure [0]] [m, m'] fun c => flat4.getD c 0|
      ≤ acceptErr (1 / 4) (circuitErrD (binary64 D).u (1 / 2 ^ 50) 8 2 2 0 [.measure [1], .measure [0]]) := by
  have hT : totalProb 2 (vals (flat4.map (FC.mk (A := binary64 D)))) = 1 := by rw [vals_mk]; exact flat4_total
  have h := C115_network_undecided (A := binary64 D) (t := 8) (n := 2) (v := flat4.map FC.mk) (u := 1 / 2 ^ 50) double_accurate netOK (fun _ => rfl)
    (fun _ _ => by simpa [netPrm, List.range_succ] using List.Perm.swap 0 1 [])
    (reqs := [.measure [1], .measure [0]]) (steps := [.measure [1], .measure [0]]) (.cons .measure (.cons .measure .nil)) (by
      intro q hq
      simp only [List.mem_cons, List.not_mem_nil, or_false] at hq
      rcases hq with rfl | rfl
      · exact flat4_ok
      · exact ⟨by decide, by decide⟩)
    (DistributedF.of_ready (st := fun _ _ => 0) (by norm_num) rfl flatReady ⟨fun _ _ _ => rfl, fun _ _ _ => rfl⟩ (.done [] none))
    (by
      intro i hi j hj
      simp only [received, FNet.netCfg, flatSt, hi, hj, and_self, if_true]) (by rw [hT]; exact one_pos) (q := 0) (by rw [hT]; norm_num)
    (os := [m, m']) rfl (δ := 1 / 4) (by norm_num) (by norm_num) (by rw [vals_mk]; exact flat4_undecided m m')
  rw [vals_mk] at h
  exact ⟨_, h⟩

end QIP.Props
