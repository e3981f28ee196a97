import Verif.Spec.DistBorn
import Verif.Lemmas.DistRun
import Verif.Props.DistRun

/-! # Draws of the manager and the workers, and outcomes of the measurements of a distributed run -/

namespace QIP

open Spec Heap Finset MeasureTheory Props

instance uniform_prob : IsProbabilityMeasure (volume.restrict (Set.Ico (0 : ℝ) 1)) := ⟨by simp⟩

instance jobLaw_prob : IsProbabilityMeasure jobLaw := by
  unfold jobLaw
  infer_instance

theorem jobLaw_box {F : Finset JobDraw} {t : JobDraw → Set ℝ} (ht : ∀ i ∈ F, MeasurableSet (t i)) :
    jobLaw (Set.pi F t) = ∏ i ∈ F, volume.restrict (Set.Ico (0 : ℝ) 1) (t i) := Measure.infinitePi_pi _ ht

theorem uniform_Ioc {a b : ℝ} (ha : 0 ≤ a) (hb : b ≤ 1) :
    volume.restrict (Set.Ico (0 : ℝ) 1) (Set.Ioc a b) = ENNReal.ofReal (b - a) := by
  rw [Measure.restrict_congr_set Ico_ae_eq_Ioc, Measure.restrict_apply measurableSet_Ioc, Set.Ioc_inter_Ioc,
    max_eq_left ha, min_eq_left hb, Real.volume_Ioc]

/-- Almost all draws are strictly between 0 and 1. -/
theorem jobLaw_inside : ∀ᵐ ω ∂jobLaw, ∀ i, 0 < ω i ∧ ω i < 1 := by
  rw [ae_all_iff]
  intro i
  have h := (measurePreserving_eval_infinitePi (fun _ : JobDraw => volume.restrict (Set.Ico (0 : ℝ) 1)) i).quasiMeasurePreserving
  have h1 : ∀ᵐ x ∂(volume.restrict (Set.Ico (0 : ℝ) 1)), 0 < x ∧ x < 1 := by
    rw [Measure.restrict_congr_set Ioo_ae_eq_Ico.symm]
    exact ae_restrict_mem measurableSet_Ioo
  exact h.ae h1

section cells
variable {n N K : Nat} {idx : List Nat} {v : List ℂ}

/-- The draws with which a measurement reports `m`: `r` of the manager, and `u s` of the worker `(s, s)`. -/
def Cell (n N K : Nat) (idx : List Nat) (v : List ℂ) (m : Nat) (r : ℝ) (u : Nat → ℝ) : Prop :=
  ∃ s < K, (before n N v s < r ∧ r ≤ before n N v (s + 1)) ∧
    cumProb n idx (sl N v s) m < u s * totalProb n (sl N v s) ∧ u s * totalProb n (sl N v s) ≤ cumProb n idx (sl N v s) (m + 1)

theorem cell_pos (hKN : K * N = 2 ^ n) (hv : v.length = 2 ^ n) {m : Nat} {r : ℝ} {u : Nat → ℝ}
    (h : Cell n N K idx v m r u) : 0 < outcomeProb n idx (fun c => v.getD c 0) m := by
  obtain ⟨s, hs, -, h1, h2⟩ := h
  refine lt_of_lt_of_le ?_ (outcome_part_le hKN hv hs m)
  rw [cumProb_succ] at h2
  linarith

theorem before_unique {r : ℝ} {s s' : Nat} (h : before n N v s < r ∧ r ≤ before n N v (s + 1))
    (h' : before n N v s' < r ∧ r ≤ before n N v (s' + 1)) : s = s' := by
  rcases lt_trichotomy s s' with hs | hs | hs
  · exact absurd (before_mono n N v (show s + 1 ≤ s' from hs)) (by linarith [h.2, h'.1])
  · exact hs
  · exact absurd (before_mono n N v (show s' + 1 ≤ s from hs)) (by linarith [h'.2, h.1])

theorem cell_unique {m m' : Nat} {r : ℝ} {u : Nat → ℝ} (h : Cell n N K idx v m r u) (h' : Cell n N K idx v m' r u) :
    m = m' := by
  obtain ⟨s, -, a, b1, b2⟩ := h
  obtain ⟨s', -, a', b1', b2'⟩ := h'
  obtain rfl := before_unique a a'
  rcases lt_trichotomy m m' with hs | hs | hs
  · exact absurd (cumProb_mono n idx (sl N v s) (show m + 1 ≤ m' from hs)) (by linarith)
  · exact hs
  · exact absurd (cumProb_mono n idx (sl N v s) (show m' + 1 ≤ m from hs)) (by linarith)

/-- Probability of a worker and its draws. -/
theorem cell_weight (hIdx : IdxOK n idx) (hKN : K * N = 2 ^ n) (hv : v.length = 2 ^ n)
    (hT : totalProb n (fun c => v.getD c 0) = 1) {m : Nat} (hm : m < 2 ^ idx.length) {s : Nat} (hs : s < K) :
    volume.restrict (Set.Ico (0 : ℝ) 1) (Set.Ioc (before n N v s) (before n N v (s + 1))) *
      volume.restrict (Set.Ico (0 : ℝ) 1) {u | cumProb n idx (sl N v s) m < u * totalProb n (sl N v s) ∧
        u * totalProb n (sl N v s) ≤ cumProb n idx (sl N v s) (m + 1)} = ENNReal.ofReal (outcomeProb n idx (sl N v s) m) := by
  have hvK : v.length = K * N := by omega
  have hbK : before n N v K = 1 := by rw [← hT]; exact sum_parts_total hvK
  have hb0 : 0 ≤ before n N v s := by
    have := before_mono n N v (Nat.zero_le s)
    simpa [before] using this
  have hb1 : before n N v (s + 1) ≤ 1 := by rw [← hbK]; exact before_mono n N v hs
  rw [uniform_Ioc hb0 hb1, before_succ, ← area hIdx hm (before n N v s)]
  rcases (totalProb_nonneg n (sl N v s)).lt_or_eq with h | h
  · congr 1
    have e : {u | cumProb n idx (sl N v s) m < u * totalProb n (sl N v s) ∧
        u * totalProb n (sl N v s) ≤ cumProb n idx (sl N v s) (m + 1)}
        = Set.Ioc (cumProb n idx (sl N v s) m / totalProb n (sl N v s))
          (cumProb n idx (sl N v s) (m + 1) / totalProb n (sl N v s)) := by
      ext u
      simp only [Set.mem_ofPred_eq, Set.mem_Ioc, div_lt_iff₀ h, le_div_iff₀ h]
    rw [e, uniform_Ioc (div_nonneg (cum_nonneg _ _) h.le)
      (by rw [div_le_one h]; exact cum_le_total hIdx hm)]
  · rw [← h]
    simp

theorem collapsed_getD {m : Nat} {p : ℝ} {r : Nat} (hr : r < 2 ^ n) :
    (collapsedVec n idx v m p).getD r 0 = ((√(1 / p) : ℝ) : ℂ) * project n idx m (fun c => v.getD c 0) r := by
  unfold collapsedVec
  rw [List.getD_eq_getElem _ _ (by simpa using hr)]
  simp only [List.getElem_map, List.getElem_range, collapsed, project]
  split
  · ring
  · simp

theorem collapsed_total {m : Nat} (hp : 0 < outcomeProb n idx (fun c => v.getD c 0) m) :
    totalProb n (fun c => (collapsedVec n idx v m (outcomeProb n idx (fun c => v.getD c 0) m)).getD c 0) = 1 := by
  rw [totalProb_scale fun r hr => collapsed_getD hr, totalProb_project, Real.sq_sqrt (by positivity)]
  field_simp

end cells

/-! ## All measurements -/

/-- What matters of a node. -/
inductive BStep where
  | skip
  | gate (mats : List (Key × Mat ℂ))
  | meas (idx : List Nat) (m : Nat)

/-- The draws with which every measurement reports its outcome: `T` and `j` count the operations of the workers and the manager
so far. -/
def Cells (n N K : Nat) (ω : JobDraw → ℝ) : List BStep → List ℂ → Nat → Nat → Prop
  | [], _, _, _ => True
  | .skip :: L, v, T, j => Cells n N K ω L v T j
  | .gate mats :: L, v, T, j => Cells n N K ω L (kronVec n mats v) (T + 2) (j + 1)
  | .meas idx m :: L, v, T, j => Cell n N K idx v m (ω (.inl j)) (fun s => ω (.inr ((s, s), T + 1))) ∧
      Cells n N K ω L (collapsedVec n idx v m (outcomeProb n idx (fun c => v.getD c 0) m)) (T + 4) (j + 1)

/-- The probability that every measurement reports its outcome. -/
noncomputable def weight (n : Nat) : List BStep → List ℂ → ℝ
  | [], _ => 1
  | .skip :: L, v => weight n L v
  | .gate mats :: L, v => weight n L (kronVec n mats v)
  | .meas idx m :: L, v => outcomeProb n idx (fun c => v.getD c 0) m *
      weight n L (collapsedVec n idx v m (outcomeProb n idx (fun c => v.getD c 0) m))

def BStepOK (n : Nat) : BStep → Prop
  | .skip => True
  | .gate mats => ∀ v, totalProb n (kronApply n (opsOf mats) v) = totalProb n v
  | .meas idx _ => IdxOK n idx

/-- Draws of earlier operations. -/
def Old (T j : Nat) : JobDraw → Prop
  | .inl a => a < j
  | .inr wc => wc.2 < T

theorem Old.mono {T T' j j' : Nat} (hT : T ≤ T') (hj : j ≤ j') {i : JobDraw} (h : Old T j i) : Old T' j' i := by
  rcases i with a | wc <;> simp only [Old] at * <;> omega

theorem weight_nonneg (n : Nat) (L : List BStep) (v : List ℂ) : 0 ≤ weight n L v := by
  induction L generalizing v with
  | nil => simp [weight]
  | cons b L ih =>
    cases b with
    | skip => exact ih v
    | gate mats => exact ih _
    | meas idx m => exact mul_nonneg (outcomeProb_nonneg _ _ _ _) (ih _)

theorem cell_measurable (n N K : Nat) (idx : List Nat) (v : List ℂ) (m T j : Nat) :
    MeasurableSet {ω : JobDraw → ℝ | Cell n N K idx v m (ω (.inl j)) (fun s => ω (.inr ((s, s), T + 1)))} := by
  have : {ω : JobDraw → ℝ | Cell n N K idx v m (ω (.inl j)) (fun s => ω (.inr ((s, s), T + 1)))}
      = ⋃ s ∈ Finset.range K, {ω : JobDraw → ℝ | (before n N v s < ω (.inl j) ∧ ω (.inl j) ≤ before n N v (s + 1)) ∧
        cumProb n idx (sl N v s) m < ω (.inr ((s, s), T + 1)) * totalProb n (sl N v s) ∧
        ω (.inr ((s, s), T + 1)) * totalProb n (sl N v s) ≤ cumProb n idx (sl N v s) (m + 1)} := by
    ext ω
    simp only [Cell, Set.mem_ofPred_eq, Set.mem_iUnion, Finset.mem_range, exists_prop]
  rw [this]
  apply Finset.measurableSet_biUnion
  intro s _
  have m1 : Measurable fun ω : JobDraw → ℝ => ω (.inl j) := measurable_pi_apply _
  have m2 : Measurable fun ω : JobDraw → ℝ => ω (.inr ((s, s), T + 1)) * totalProb n (sl N v s) :=
    (measurable_pi_apply _).mul_const _
  exact ((measurableSet_lt measurable_const m1).inter (measurableSet_le m1 measurable_const)).inter
    ((measurableSet_lt measurable_const m2).inter (measurableSet_le m2 measurable_const))

theorem cells_measurable (n N K : Nat) (L : List BStep) (v : List ℂ) (T j : Nat) :
    MeasurableSet {ω | Cells n N K ω L v T j} := by
  induction L generalizing v T j with
  | nil => simp [Cells]
  | cons b L ih =>
    cases b with
    | skip => exact ih v T j
    | gate mats => exact ih _ _ _
    | meas idx m => exact (cell_measurable n N K idx v m T j).inter (ih _ _ _)

/-- An outcome of positive probability is one of the measured qubits. -/
theorem outcome_lt {n : Nat} {idx : List Nat} (hi : IdxOK n idx) {v : Nat → ℂ} {m : Nat} (hp : 0 < outcomeProb n idx v m) :
    m < 2 ^ idx.length := by
  by_contra hm
  have h0 : outcomeProb n idx v m = 0 := by
    unfold outcomeProb
    apply Finset.sum_eq_zero
    intro c hc
    rw [Finset.mem_filter] at hc
    exfalso
    apply hm
    rw [← hc.2]
    refine (subIndex_lt _ _ _).trans_le (le_of_eq ?_)
    rw [show (inOrder n idx).length = idx.length from hi.length_inOrder]
  rw [h0] at hp
  exact lt_irrefl _ hp

open Classical in
theorem cells_prob {n N K : Nat} (hKN : K * N = 2 ^ n) (L : List BStep) (hL : ∀ b ∈ L, BStepOK n b) (v : List ℂ)
    (hv : v.length = 2 ^ n) (hT : totalProb n (fun c => v.getD c 0) = 1) (T j : Nat) (F : Finset JobDraw)
    (t : JobDraw → Set ℝ) (hF : ∀ i ∈ F, Old T j i) (ht : ∀ i ∈ F, MeasurableSet (t i)) :
    jobLaw ({ω | Cells n N K ω L v T j} ∩ Set.pi F t)
      = ENNReal.ofReal (weight n L v) * ∏ i ∈ F, volume.restrict (Set.Ico (0 : ℝ) 1) (t i) := by
  induction L generalizing v T j F t with
  | nil =>
    simp only [Cells, weight, Set.ofPred_true, Set.univ_inter, ENNReal.ofReal_one, one_mul]
    exact jobLaw_box ht
  | cons b L ih =>
    have hb := hL b (by simp)
    have hL' : ∀ b ∈ L, BStepOK n b := fun b h => hL b (by simp [h])
    cases b with
    | skip => exact ih hL' v hv hT T j F t hF ht
    | gate mats =>
      refine ih hL' _ (by simp [kronVec]) ?_ _ _ F t (fun i hi => (hF i hi).mono (by omega) (by omega)) ht
      rw [← hT, ← hb fun c => v.getD c 0]
      apply totalProb_congr
      intro r hr
      simp [kronVec, hr]
    | meas idx m =>
      have hIdx : IdxOK n idx := hb
      rcases (outcomeProb_nonneg n idx (fun c => v.getD c 0) m).lt_or_eq with hp | hp
      · have hm := outcome_lt hIdx hp
        have hvK : v.length = K * N := by omega
        -- one worker
        set v' := collapsedVec n idx v m (outcomeProb n idx (fun c => v.getD c 0) m) with hv'
        let F' : Nat → Finset JobDraw := fun s => insert (.inl j) (insert (.inr ((s, s), T + 1)) F)
        let t' : Nat → JobDraw → Set ℝ := fun s => Function.update (Function.update t (.inr ((s, s), T + 1))
          {u | cumProb n idx (sl N v s) m < u * totalProb n (sl N v s) ∧
            u * totalProb n (sl N v s) ≤ cumProb n idx (sl N v s) (m + 1)}) (.inl j)
            (Set.Ioc (before n N v s) (before n N v (s + 1)))
        have n1 : (.inl j : JobDraw) ∉ F := fun h => by have := hF _ h; simp [Old] at this
        have n2 : ∀ s, (.inr ((s, s), T + 1) : JobDraw) ∉ F := fun s h => by have := hF _ h; simp [Old] at this
        have n3 : ∀ s, (.inl j : JobDraw) ∉ insert (.inr ((s, s), T + 1) : JobDraw) F := fun s h => by
          simp [n1] at h
        have tl : ∀ s, t' s (.inl j) = Set.Ioc (before n N v s) (before n N v (s + 1)) := fun s => by simp [t']
        have tr : ∀ s, t' s (.inr ((s, s), T + 1)) = {u | cumProb n idx (sl N v s) m < u * totalProb n (sl N v s) ∧
            u * totalProb n (sl N v s) ≤ cumProb n idx (sl N v s) (m + 1)} := fun s => by simp [t']
        have tF : ∀ s, ∀ i ∈ F, t' s i = t i := by
          intro s i hi
          have h1 : i ≠ .inl j := fun e => n1 (e ▸ hi)
          have h2 : i ≠ .inr ((s, s), T + 1) := fun e => n2 s (e ▸ hi)
          simp only [t']
          rw [Function.update_of_ne h1, Function.update_of_ne h2]
        have hms : ∀ s, MeasurableSet {u : ℝ | cumProb n idx (sl N v s) m < u * totalProb n (sl N v s) ∧
            u * totalProb n (sl N v s) ≤ cumProb n idx (sl N v s) (m + 1)} := by
          intro s
          have m2 : Measurable fun u : ℝ => u * totalProb n (sl N v s) := measurable_id.mul_const _
          exact (measurableSet_lt measurable_const m2).inter (measurableSet_le m2 measurable_const)
        have mt' : ∀ s, ∀ i ∈ F' s, MeasurableSet (t' s i) := by
          intro s i hi
          rcases Finset.mem_insert.1 hi with rfl | hi
          · rw [tl]; exact measurableSet_Ioc
          rcases Finset.mem_insert.1 hi with rfl | hi
          · rw [tr]; exact hms s
          · rw [tF s i hi]; exact ht i hi
        have hset : {ω | Cells n N K ω (.meas idx m :: L) v T j} ∩ Set.pi F t
            = ⋃ s ∈ Finset.range K, ({ω | Cells n N K ω L v' (T + 4) (j + 1)} ∩ Set.pi (F' s) (t' s)) := by
          ext ω
          simp only [Set.mem_inter_iff, Set.mem_ofPred_eq, Cells, Cell, Set.mem_iUnion, Finset.mem_range, Set.mem_pi,
            Finset.mem_coe]
          constructor
          · rintro ⟨⟨⟨s, hs, h1, h2⟩, h3⟩, h4⟩
            refine ⟨s, hs, h3, ?_⟩
            intro i hi
            rcases Finset.mem_insert.1 hi with rfl | hi
            · rw [tl]; exact h1
            rcases Finset.mem_insert.1 hi with rfl | hi
            · rw [tr]; exact h2
            · rw [tF s i hi]; exact h4 i hi
          · rintro ⟨s, hs, h3, h4⟩
            have h1 := h4 (.inl j) (by simp [F'])
            have h2 := h4 (.inr ((s, s), T + 1)) (by simp [F'])
            rw [tl] at h1
            rw [tr] at h2
            refine ⟨⟨⟨s, hs, h1, h2⟩, h3⟩, fun i hi => ?_⟩
            rw [← tF s i hi]
            exact h4 i (by simp [F', hi])
        have hdisj : Set.PairwiseDisjoint (↑(Finset.range K)) fun s =>
            ({ω | Cells n N K ω L v' (T + 4) (j + 1)} ∩ Set.pi (F' s) (t' s)) := by
          intro s _ s' _ hss
          rw [Function.onFun, Set.disjoint_left]
          rintro ω ⟨-, h1⟩ ⟨-, h2⟩
          have h1 := h1 (.inl j) (by simp [F'])
          have h2 := h2 (.inl j) (by simp [F'])
          rw [tl] at h1 h2
          exact hss (before_unique h1 h2)
        rw [hset, measure_biUnion_finset hdisj fun s _ => (cells_measurable n N K L v' _ _).inter
          (MeasurableSet.pi (Finset.countable_toSet _) (mt' s))]
        have hterm : ∀ s ∈ Finset.range K, jobLaw ({ω | Cells n N K ω L v' (T + 4) (j + 1)} ∩ Set.pi (F' s) (t' s))
            = ENNReal.ofReal (outcomeProb n idx (sl N v s) m) * (ENNReal.ofReal (weight n L v') *
              ∏ i ∈ F, volume.restrict (Set.Ico (0 : ℝ) 1) (t i)) := by
          intro s hs
          rw [ih hL' v' (by simp [hv', collapsedVec]) (collapsed_total hp) (T + 4) (j + 1) (F' s) (t' s) (by
            intro i hi
            rcases Finset.mem_insert.1 hi with rfl | hi
            · simp [Old]
            rcases Finset.mem_insert.1 hi with rfl | hi
            · simp [Old]
            · exact (hF i hi).mono (by omega) (by omega)) (mt' s)]
          rw [Finset.prod_insert (n3 s), Finset.prod_insert (n2 s), tl, tr,
            Finset.prod_congr rfl fun i hi => by rw [tF s i hi], ← cell_weight hIdx hKN hv hT hm (Finset.mem_range.1 hs)]
          ring
        rw [Finset.sum_congr rfl hterm, ← Finset.sum_mul, ← ENNReal.ofReal_sum_of_nonneg fun _ _ => outcomeProb_nonneg _ _ _ _]
        have hsum : ∑ s ∈ Finset.range K, outcomeProb n idx (sl N v s) m = outcomeProb n idx (fun c => v.getD c 0) m := by
          rw [← sum_parts_outcome idx m hvK]
          rfl
        rw [hsum, ← mul_assoc, ← ENNReal.ofReal_mul (outcomeProb_nonneg _ _ _ _)]
        rfl
      · have h1 : {ω | Cells n N K ω (.meas idx m :: L) v T j} = ∅ := by
          rw [Set.eq_empty_iff_forall_notMem]
          rintro ω ⟨h1, -⟩
          exact absurd (cell_pos hKN hv h1) (by rw [← hp]; simp)
        rw [h1, Set.empty_inter, measure_empty]
        unfold weight
        rw [← hp]
        simp

/-- The probability of all outcomes. -/
theorem cells_law {n N K : Nat} (hKN : K * N = 2 ^ n) (L : List BStep) (hL : ∀ b ∈ L, BStepOK n b) (v : List ℂ)
    (hv : v.length = 2 ^ n) (hT : totalProb n (fun c => v.getD c 0) = 1) :
    jobLaw {ω | Cells n N K ω L v 0 0} = ENNReal.ofReal (weight n L v) := by
  have := cells_prob hKN L hL v hv hT 0 0 ∅ (fun _ => Set.univ) (by simp) (by simp)
  simpa using this

end QIP
