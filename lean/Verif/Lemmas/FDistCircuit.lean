import Verif.Lemmas.FDist
import Verif.Lemmas.FCircuit
import Verif.Props.FCircuit
import Verif.Props.FDistMeasure
import Verif.Spec.FDistCircuit

/-! # Circuits on several workers in rounded arithmetic -/

namespace QIP.Props

open QIP Spec Finset MeasureTheory

variable {A : Arith} {F : FOps} {u : ℝ} {t n K size : Nat}

/-- `gate_dist` for a gate run backwards. -/
theorem gate_dist_back [A.Ideal] (run : Nat → Nat → Nat) {g : Gate} {gs : List (List Nat)} (hf : Fits g gs) (hgs : GroupsOK n gs)
    (hsw : hasSwap g = false) {mats : List (Key × Mat ℂ)} {matsF : List (Key × Mat (FC A))} (hm : g.feedMats true gs = .ok mats)
    (hF : List.Forall₂ (fun (a : Key × Mat (FC A)) (b : Key × Mat ℂ) => a.1 = b.1 ∧ MatNear t a.2 b.2) matsF mats)
    (hsize : 0 < size) (hK : K * size = 2 ^ n) {v : List (FC A)}
    (hv : v.length = K * size) {arena : Nat → Nat → List (FC A)} (hout : ∀ i j, (arena i j).length = size) {sched : Nat → Nat → List Nat}
    (hs : ∀ i j, (sched i j).Perm (List.range size)) {order : Nat → List Nat} (ho : ∀ j < K, (j :: order j).Perm (List.range K)) :
    ∃ w, distKronF run matsF n K size v arena sched order = .ok w ∧ w.length = K * size ∧
      dist2 n (fun c => (w.getD c 0).val) (adjApply n g gs fun c => (v.getD c 0).val)
        ≤ gateErrD A.u t gs.flatten.length K * dist2 n (fun c => (v.getD c 0).val) 0 := by
  obtain ⟨ms, hgm⟩ := gm_exists g gs hf hgs
  obtain ⟨dm, d1, d2, d3, d4, d5⟩ := feedMats_dagger hf hgs hgm hsw
  rw [d1] at hm
  injection hm with hm
  subst hm
  have hmem : ∀ km ∈ dm, ∃ km' ∈ ms, km.1 = km'.1 := by
    intro km hkm
    have : km.1 ∈ ms.map (·.1) := by
      rw [← d2]
      exact List.mem_map_of_mem hkm
    obtain ⟨km', h1, h2⟩ := List.mem_map.1 this
    exact ⟨km', h1, h2.symm⟩
  have hlen : dm.length = ms.length := by simpa using congrArg List.length d2
  refine mats_dist run hgs.2 ?_ ?_ ?_ d3 ?_ d4 (hlen ▸ makemats_length hf hgs hgm.ok) ?_ (adjOps_uni d5 hgm.uni hgm.uni').2 hF hsize hK hv
    hout hs ho
  · intro h
    rw [h] at hlen
    exact hgm.ne (List.length_eq_zero_iff.1 hlen.symm)
  · intro km hkm km' hkm'
    obtain ⟨a, ha, e⟩ := hmem km hkm
    obtain ⟨b, hb, e'⟩ := hmem km' hkm'
    rw [e, e']
    exact hgm.len a ha b hb
  · have e : (dm.map fun km => km.1.qubits) = (dm.map (·.1)).map Key.qubits := by simp
    have e' : (ms.map fun km => km.1.qubits) = (ms.map (·.1)).map Key.qubits := by simp
    rw [e, d2, ← e']
    exact hgm.keys
  · intro km hkm
    obtain ⟨a, ha, e⟩ := hmem km hkm
    rw [e]
    exact hgm.sub a ha
  · intro w r hr
    rw [opMat_apply d5 w hr, adjApply_eq hgm w hr]

theorem gateErrD_nonneg' (A : Arith) (t w K : Nat) : 0 ≤ gateErrD A.u t w K := by
  unfold gateErrD
  have := one_le_pow₀ (by linarith [A.u_nonneg] : 1 ≤ 1 + A.u) (n := (t + 1) * (w + 1) + 1 + 2 ^ w + (K - 1))
  exact mul_nonneg (by linarith) (Real.sqrt_nonneg _)

theorem collapseErrD_nonneg (hF : Accurate F u) (n K k : Nat) : 0 ≤ collapseErrD u n K k := by
  unfold collapseErrD
  have := hF.bpow (2 ^ (n - k) + 4 + K)
  linarith

/-- A request that is not a measurement. -/
theorem dunit_next [A.Ideal] {q : QStep} (hs : StepOK n q) (hm : ∀ idx, q ≠ .measure idx) {call : DCall A}
    (hp : DPerforms A t n K size call q) (hsize : 0 < size) (hK : K * size = 2 ^ n) {v : List (FC A)} (hv : v.length = 2 ^ n)
    (rest : List (DCall A)) :
    ∃ v' : List (FC A), ∃ ε : ℝ, v'.length = 2 ^ n ∧ 0 ≤ ε ∧ stepErrD A.u u t n K q = (1 + ε) ^ 6 ∧
      (∀ xs, distRunF F n K size (call :: rest) xs v = distRunF F n K size rest xs v') ∧
      dist2 n (vals v') (stepApply n q (vals v)) ≤ ε * dist2 n (vals v) 0 := by
  cases hp with
  | measure => exact absurd rfl (hm _)
  | @gate g back gs mats matsF run arena sched order h1 h2 h3 h4 h5 =>
    obtain ⟨hf, hgs, hsw⟩ := hs
    have key : ∃ w, distKronF run matsF n K size v arena sched order = .ok w ∧ w.length = K * size ∧
        dist2 n (vals w) (stepApply n (.gate g back gs) (vals v)) ≤ gateErrD A.u t gs.flatten.length K * dist2 n (vals v) 0 := by
      cases back with
      | false => exact gate_dist run hf hgs h1 h2 hsize hK (by omega) h4 h3 h5
      | true => exact gate_dist_back run hf hgs (hsw rfl) h1 h2 hsize hK (by omega) h4 h3 h5
    obtain ⟨w, k1, k2, k3⟩ := key
    refine ⟨w, _, by omega, gateErrD_nonneg' A _ _ _, rfl, ?_, k3⟩
    intro xs
    rw [distRunF, k1]

/-- The state after a measurement with outcome `m` for which the probability `p` has been reported. -/
noncomputable def collapsedF (F : FOps) (idx : List Nat) (n : Nat) (v : List (FC A)) (m : Nat) (p : ℝ) : List (FC A) :=
  ((List.range (2 ^ n)).map fun i => if subIndex n (inOrder n idx) i = m
    then F.scale ((v.map FC.val).getD i 0) (F.sqrt (F.div 1 p)) else 0).map FC.mk

theorem vals_map (v : List (FC A)) : (fun c => (v.map FC.val).getD c 0) = vals v := by
  funext c
  unfold vals
  rw [List.getD_eq_getElem?_getD, List.getD_eq_getElem?_getD, List.getElem?_map]
  cases v[c]? <;> rfl

theorem vals_mk (l : List ℂ) : vals (A := A) (l.map FC.mk) = fun c => l.getD c 0 := by
  funext c
  unfold vals
  rw [List.getD_eq_getElem?_getD, List.getD_eq_getElem?_getD, List.getElem?_map]
  cases l[c]? <;> rfl

theorem collapsedF_length (idx : List Nat) (v : List (FC A)) (m : Nat) (p : ℝ) : (collapsedF F idx n v m p).length = 2 ^ n := by
  simp [collapsedF]

theorem collapsed_close (hF : Accurate F u) {idx : List Nat} {v : List (FC A)} {m : Nat} {p s P : ℝ} {w : Nat → ℂ}
    (hc : Close n s (vals v) w P) (hq : 0 < outcomeProb n idx (vals v) m)
    (hrel : Rel (factor u ^ (2 ^ (n - idx.length) + 1 + K)) p (outcomeProb n idx (vals v) m)) :
    dist2 n (fun c => ((s * √(outcomeProb n idx (vals v) m) : ℝ) : ℂ) * vals (collapsedF F idx n v m p) c) (project n idx m w)
        ≤ P * (1 + collapseErrD u n K idx.length) - 1 ∧
      |totalProb n (vals (collapsedF F idx n v m p)) - 1| ≤ (1 + collapseErrD u n K idx.length) ^ 2 - 1 ∧
      (collapseErrD u n K idx.length < 1 → 0 < totalProb n (vals (collapsedF F idx n v m p))) := by
  refine close_measure hc (collapseErrD_nonneg hF n K _) hq ?_
  have e := vals_map v
  have := collapse_dist (v := v.map FC.val) hF (by rw [e]; exact hq) (by rw [e]; exact hrel)
  rw [e] at this
  unfold collapsedF
  rw [vals_mk]
  refine (le_of_eq ?_).trans (this.trans (le_of_eq ?_))
  · refine dist2_congr (fun _ _ => rfl) fun r _ => ?_
    rw [show (v.map FC.val).getD r 0 = vals v r from congrFun e r]
  · unfold collapseErrD
    rw [show 2 ^ (n - idx.length) + 1 + K + 3 = 2 ^ (n - idx.length) + 4 + K by omega]

/-- A measurement that has chosen `m`. -/
theorem distRunF_measure {idx : List Nat} (hi : IdxOK n idx) (hK : K * size = 2 ^ n) {v : List (FC A)} (hv : v.length = 2 ^ n)
    {arena : Nat → List ℂ} (ha : ∀ i < K, (arena i).length = size) {x : ℝ × (Nat → ℝ)} {xs : List (ℝ × (Nat → ℝ))} {m : Nat}
    (hm : m < 2 ^ idx.length) {p : ℝ} (hc : distChooseF F idx n K size (v.map FC.val) x.1 x.2 = .ok (m, p)) (rest : List (DCall A)) :
    distRunF F n K size (.measure idx arena :: rest) (x :: xs) v
      = if 0 < p ∧ p ≤ 1 then (m :: (distRunF F n K size rest xs (collapsedF F idx n v m p)).1,
          (distRunF F n K size rest xs (collapsedF F idx n v m p)).2)
        else ([m], .error .valueError) := by
  rw [distRunF]
  simp only [List.headD_cons, List.tail_cons]
  rw [hc]
  simp only
  rw [distMeasureF_eq hi hK (by simpa using hv) ha hm hc]
  by_cases h : 0 < p ∧ p ≤ 1
  · simp only [if_pos h]
    rfl
  · simp only [if_neg h]

/-! ## The law of several measurements -/

theorem circuitLaw_succ (k : Nat) (B : Set (JobDraw → ℝ)) (E : Set (Fin k → JobDraw → ℝ)) :
    circuitLaw (k + 1) {x : Fin (k + 1) → JobDraw → ℝ | x 0 ∈ B ∧ (Fin.tail x : Fin k → JobDraw → ℝ) ∈ E} = jobLaw B * circuitLaw k E := by
  have h := (measurePreserving_piFinSuccAbove (fun _ : Fin (k + 1) => jobLaw) 0).measure_preimage_equiv (B ×ˢ E)
  rw [Measure.prod_prod] at h
  rw [← show Measure.pi (fun j : Fin k => (fun _ : Fin (k + 1) => jobLaw) (Fin.succAbove 0 j)) = circuitLaw k from rfl, ← h]
  rfl

instance (k : Nat) : IsProbabilityMeasure (circuitLaw k) := by
  unfold circuitLaw
  infer_instance

theorem circuitLaw_inside (k : Nat) : ∀ᵐ x ∂circuitLaw (k + 1), ∀ i, 0 < x 0 i ∧ x 0 i < 1 := by
  have h : jobLaw {ω | ¬ ∀ i, 0 < ω i ∧ ω i < 1} = 0 := ae_iff.1 jobLaw_inside
  rw [ae_iff]
  have := circuitLaw_succ k {ω | ¬ ∀ i, 0 < ω i ∧ ω i < 1} Set.univ
  rw [h, zero_mul] at this
  refine measure_mono_null ?_ this
  intro x hx
  exact ⟨hx, trivial⟩

/-- Disjoint sets of random numbers of the first measurement. -/
theorem circuitLaw_sum (k : Nat) {ι : Finset Nat} {box : Nat → Set (JobDraw → ℝ)} (hb : ∀ s, MeasurableSet (box s))
    (hd : Set.PairwiseDisjoint (↑ι) box) {S : Nat → Set (Fin k → JobDraw → ℝ)} {E : Set (Fin (k + 1) → JobDraw → ℝ)}
    (h : ∀ s ∈ ι, ∀ x : Fin (k + 1) → JobDraw → ℝ, (∀ i, 0 < x 0 i ∧ x 0 i < 1) → x 0 ∈ box s →
      (Fin.tail x : Fin k → JobDraw → ℝ) ∈ S s → x ∈ E) :
    ∑ s ∈ ι, jobLaw (box s) * circuitLaw k (S s) ≤ circuitLaw (k + 1) E := by
  set Z : Nat → Set (Fin (k + 1) → JobDraw → ℝ) := fun s => (fun x => x 0) ⁻¹' box s with hZ
  have hZm : ∀ s, MeasurableSet (Z s) := fun s => (measurable_pi_apply (0 : Fin (k + 1))) (hb s)
  have hZd : Set.PairwiseDisjoint (↑ι) Z := fun s hs s' hs' hne => (hd hs hs' hne).preimage _
  have h1 : ∀ s ∈ ι, jobLaw (box s) * circuitLaw k (S s) ≤ (circuitLaw (k + 1)).restrict E (Z s) := by
    intro s hs
    rw [Measure.restrict_apply (hZm s), ← circuitLaw_succ]
    apply measure_mono_ae
    filter_upwards [circuitLaw_inside k] with x hx
    rintro ⟨h2, h3⟩
    exact ⟨h2, h s hs x hx h2 h3⟩
  refine (Finset.sum_le_sum h1).trans ?_
  rw [← measure_biUnion_finset hZd fun s _ => hZm s]
  refine (measure_mono (Set.subset_univ _)).trans ?_
  rw [Measure.restrict_apply_univ]

theorem measureDraws_succ {k : Nat} (x : Fin (k + 1) → JobDraw → ℝ) :
    measureDraws x = (x 0 (.inl 0), fun w => x 0 (.inr ((w, w), 0))) :: measureDraws (Fin.tail x) := by
  unfold measureDraws
  rw [List.ofFn_succ]
  rfl

/-- Probabilities: one more measurement. -/
theorem prob_measureD {s P a T p vol T' γ D : ℝ} (hP : 1 ≤ P) (ha0 : 0 ≤ a) (ha1 : a ≤ P) (hT : 0 < T) (hp0 : 0 ≤ p)
    (hpT : p ≤ T) (h : |s ^ 2 * T - a| ≤ P - 1) (hsT : s ^ 2 * T ≤ P) (hv : |vol - p / T| ≤ D)
    (hT' : |T' - 1| ≤ (1 + γ) ^ 2 - 1) :
    |(s * √p) ^ 2 * T' - a * vol| ≤ P * ((1 + γ) ^ 2 + D) - 1 := by
  rw [mul_pow, Real.sq_sqrt hp0]
  have hD : 0 ≤ D := (abs_nonneg _).trans hv
  have hr0 : 0 ≤ p / T := by positivity
  have hr1 : p / T ≤ 1 := (div_le_one hT).2 hpT
  have e : s ^ 2 * p = s ^ 2 * T * (p / T) := by field_simp
  have hsp0 : 0 ≤ s ^ 2 * p := by positivity
  have hsp : s ^ 2 * p ≤ P := by
    rw [e]
    have : 0 ≤ s ^ 2 * T := by positivity
    nlinarith
  have h1 : |s ^ 2 * p * (T' - 1)| ≤ P * ((1 + γ) ^ 2 - 1) := by
    rw [abs_mul, abs_of_nonneg hsp0]
    exact mul_le_mul hsp hT' (abs_nonneg _) (by linarith)
  have h2 : |(s ^ 2 * T - a) * (p / T)| ≤ P - 1 := by
    rw [abs_mul, abs_of_nonneg hr0]
    have := abs_nonneg (s ^ 2 * T - a)
    nlinarith
  have h3 : |a * (p / T - vol)| ≤ P * D := by
    rw [abs_mul, abs_of_nonneg ha0, abs_sub_comm]
    exact mul_le_mul ha1 hv (abs_nonneg _) (by linarith)
  have e2 : s ^ 2 * p * T' - a * vol = s ^ 2 * p * (T' - 1) + ((s ^ 2 * T - a) * (p / T) + a * (p / T - vol)) := by
    rw [e]
    ring
  rw [e2]
  refine (abs_add_le _ _).trans ?_
  have h4 := abs_add_le ((s ^ 2 * T - a) * (p / T)) (a * (p / T - vol))
  nlinarith

/-! ## The invariant -/

/-- The computed state `v` belongs to the exact one `w`; its squared norm is 1 up to `Q - 1`, and `a` is the probability of the outcomes
so far. -/
structure Track (n : Nat) (s : ℝ) (v w : Nat → ℂ) (P Q a : ℝ) : Prop where
  close : Close n s v w P
  oneQ : 1 ≤ Q
  pos : 0 < totalProb n v
  total : |totalProb n v - 1| ≤ Q - 1
  a0 : 0 ≤ a
  aP : a ≤ P
  prob : |s ^ 2 * totalProb n v - a| ≤ P - 1
  sT : s ^ 2 * totalProb n v ≤ P

theorem track_unit {T : (Nat → ℂ) → Nat → ℂ} (hT : Iso n T) {s P Q a ε : ℝ} {v v' w : Nat → ℂ} (h : Track n s v w P Q a) (hε : 0 ≤ ε)
    (hε1 : ε < 1) (hv : dist2 n v' (T v) ≤ ε * dist2 n v 0) : Track n s v' (T w) (P * (1 + ε) ^ 2) (Q * (1 + ε) ^ 2) a := by
  obtain ⟨t1, t2⟩ := total_unit hT hε hv
  have hP := h.close.one_le
  have hQ := h.oneQ
  have hx : 0 ≤ (1 + ε) ^ 2 - 1 := by nlinarith
  have h1 := abs_le.1 h.total
  have h2 := abs_le.1 h.prob
  have h3 := abs_le.1 t1
  have h4 : ((1 + ε) ^ 2 - 1) * totalProb n v ≤ ((1 + ε) ^ 2 - 1) * Q := mul_le_mul_of_nonneg_left (by linarith) hx
  have h5 : s ^ 2 * (((1 + ε) ^ 2 - 1) * totalProb n v) ≤ ((1 + ε) ^ 2 - 1) * P := by
    have := mul_le_mul_of_nonneg_left h.sT hx
    nlinarith
  have h6 := mul_le_mul_of_nonneg_left h3.1 (sq_nonneg s)
  have h7 := mul_le_mul_of_nonneg_left h3.2 (sq_nonneg s)
  have h8 := h.aP
  have h9 := h.sT
  refine ⟨close_unit hT h.close hε hv, by nlinarith, t2 hε1 h.pos, ?_, h.a0, by nlinarith, ?_, by nlinarith⟩
  · rw [abs_le]
    constructor <;> nlinarith
  · rw [abs_le]
    constructor <;> nlinarith

theorem track_measure (hF : Accurate F u) {idx : List Nat} {v : List (FC A)} {m : Nat} {p s P Q a vol D : ℝ} {w : Nat → ℂ}
    (h : Track n s (vals v) w P Q a) (hq : 0 < outcomeProb n idx (vals v) m)
    (hrel : Rel (factor u ^ (2 ^ (n - idx.length) + 1 + K)) p (outcomeProb n idx (vals v) m)) (hγ1 : collapseErrD u n K idx.length < 1)
    (hv0 : 0 ≤ vol) (hv : |vol - outcomeProb n idx (vals v) m / totalProb n (vals v)| ≤ D) :
    Track n (s * √(outcomeProb n idx (vals v) m)) (vals (collapsedF F idx n v m p)) (project n idx m w)
      (P * ((1 + collapseErrD u n K idx.length) ^ 2 + D)) ((1 + collapseErrD u n K idx.length) ^ 2) (a * vol) := by
  obtain ⟨j1, j2, j3⟩ := collapsed_close (K := K) hF h.close hq hrel
  have hγ := collapseErrD_nonneg hF n K idx.length
  have hP := h.close.one_le
  have hD : 0 ≤ D := (abs_nonneg _).trans hv
  have hpT := outcome_le_total (n := n) idx m (vals v)
  have hr1 : outcomeProb n idx (vals v) m / totalProb n (vals v) ≤ 1 := (div_le_one h.pos).2 hpT
  have hpm := prob_measureD hP h.a0 h.aP h.pos (outcomeProb_nonneg _ _ _ _) hpT h.prob h.sT hv j2
  have ha := h.aP
  set γ := collapseErrD u n K idx.length
  set T' := totalProb n (vals (collapsedF F idx n v m p))
  have hg1 : 1 ≤ (1 + γ) ^ 2 := by nlinarith
  refine ⟨⟨mul_nonneg h.close.nonneg (Real.sqrt_nonneg _), by nlinarith, ?_, ?_⟩, hg1, j3 hγ1, j2, mul_nonneg h.a0 hv0, ?_, hpm, ?_⟩
  · refine j1.trans ?_
    have : 1 + γ ≤ (1 + γ) ^ 2 + D := by nlinarith
    nlinarith
  · rw [dist2_zero_project]
    refine (Real.sqrt_le_sqrt (outcome_le_total _ _ _)).trans ?_
    rw [totalProb_dist, Real.sqrt_sq (dist2_nonneg _ _ _)]
    exact h.close.norm
  · have h1 := (abs_le.1 hv).2
    exact mul_le_mul ha (by linarith) hv0 (by linarith)
  · rw [mul_pow, Real.sq_sqrt (outcomeProb_nonneg _ _ _ _)]
    have h1 : s ^ 2 * outcomeProb n idx (vals v) m ≤ P := (mul_le_mul_of_nonneg_left hpT (sq_nonneg s)).trans h.sT
    have h2 := (abs_le.1 j2).2
    have h3 : T' ≤ (1 + γ) ^ 2 + D := by linarith
    have h4 : 0 ≤ T' := totalProb_nonneg n _
    exact mul_le_mul h1 h3 h4 (by linarith)

/-- The error of the chosen outcome of a measurement, if the squared norm is 1 up to `Q - 1`. -/
noncomputable def chooseErrD (u : ℝ) (n K : Nat) (Q : ℝ) : ℝ :=
  2 * K * (factor u ^ (2 ^ n + 1) - 1) * (1 + Q) + 2 * drawErr u n * Q + 2 * (Q - 1)

theorem stepErrD_measure (hF : Accurate F u) {uG P Q : ℝ} (t : Nat) {idx : List Nat} (hP : 1 ≤ P) (hQ : 1 ≤ Q) :
    P * ((1 + collapseErrD u n K idx.length) ^ 2 + chooseErrD u n K Q) * ((1 + collapseErrD u n K idx.length) ^ 2) ^ 2
      ≤ P * Q ^ 2 * stepErrD uG u t n K (.measure idx) := by
  have hγ := collapseErrD_nonneg hF n K idx.length
  have hd := drawErr_nonneg hF.nonneg hF.lt_one n
  have hf : 0 ≤ factor u ^ (2 ^ n + 1) - 1 := by have := hF.bpow (2 ^ n + 1); linarith
  unfold stepErrD chooseErrD
  set γ := collapseErrD u n K idx.length
  set d := drawErr u n
  set f := factor u ^ (2 ^ n + 1) - 1
  have hKf : 0 ≤ K * f := mul_nonneg (Nat.cast_nonneg _) hf
  have hQ2 : Q ≤ Q ^ 2 := by nlinarith
  have hg : 1 ≤ (1 + γ) ^ 2 := by nlinarith
  have h1 : (1 + γ) ^ 2 + (2 * K * f * (1 + Q) + 2 * d * Q + 2 * (Q - 1)) ≤ Q ^ 2 * ((1 + γ) ^ 2 + 4 * K * f + 2 * d) := by
    have e1 : 2 * K * f * (1 + Q) ≤ Q ^ 2 * (4 * K * f) := by nlinarith
    have e2 : 2 * d * Q ≤ Q ^ 2 * (2 * d) := by nlinarith
    have e3 : 2 * (Q - 1) ≤ (Q ^ 2 - 1) * (1 + γ) ^ 2 := by nlinarith
    linarith
  have h2 := mul_le_mul_of_nonneg_left h1 (by linarith : 0 ≤ P)
  have h3 := mul_le_mul_of_nonneg_right h2 (by positivity : 0 ≤ ((1 + γ) ^ 2) ^ 2)
  refine h3.trans (le_of_eq ?_)
  ring

theorem one_le_stepErrD (hF : Accurate F u) (A : Arith) (t n K : Nat) (q : QStep) : 1 ≤ stepErrD A.u u t n K q := by
  cases q with
  | gate g back gs =>
    have := gateErrD_nonneg' A t gs.flatten.length K
    unfold stepErrD
    exact one_le_pow₀ (by linarith)
  | func => exact le_rfl
  | measure idx =>
    have h1 := stepErrD_measure (n := n) (K := K) hF (uG := A.u) t (idx := idx) (le_refl 1) (le_refl 1)
    have hγ := collapseErrD_nonneg hF n K idx.length
    have hd := drawErr_nonneg hF.nonneg hF.lt_one n
    have hf : 0 ≤ factor u ^ (2 ^ n + 1) - 1 := by have := hF.bpow (2 ^ n + 1); linarith
    have hKf : 0 ≤ K * (factor u ^ (2 ^ n + 1) - 1) := mul_nonneg (Nat.cast_nonneg _) hf
    unfold stepErrD
    have h2 : 1 ≤ (1 + collapseErrD u n K idx.length) ^ 4 := one_le_pow₀ (by linarith)
    have h3 : 1 ≤ (1 + collapseErrD u n K idx.length) ^ 2 := one_le_pow₀ (by linarith)
    nlinarith

theorem one_le_stepProdD (hF : Accurate F u) (A : Arith) (t n K : Nat) (steps : List QStep) :
    1 ≤ (steps.map (stepErrD A.u u t n K)).prod := by
  induction steps with
  | nil => simp
  | cons q rest ih =>
    rw [List.map_cons, List.prod_cons]
    nlinarith [one_le_stepErrD hF A t n K q]

/-- The chosen outcome and Born's rule for a state whose squared norm is not quite 1. -/
theorem choose_near (hF : Accurate F u) {Q T q : ℝ} (hQ : 1 ≤ Q) (hT : 0 < T) (hTQ : |T - 1| ≤ Q - 1) (hq0 : 0 ≤ q) (hqT : q ≤ T) :
    |q + (2 * K * selectErr u n T + 2 * drawErr u n * T) - q / T| ≤ chooseErrD u n K Q ∧
      |max 0 (q - (2 * K * selectErr u n T + 2 * drawErr u n * T + |T - 1|)) - q / T| ≤ chooseErrD u n K Q := by
  have hd := drawErr_nonneg hF.nonneg hF.lt_one n
  have hf : 0 ≤ factor u ^ (2 ^ n + 1) - 1 := by have := hF.bpow (2 ^ n + 1); linarith
  have hKf : 0 ≤ K * (factor u ^ (2 ^ n + 1) - 1) := mul_nonneg (Nat.cast_nonneg _) hf
  have hTQ' := abs_le.1 hTQ
  have hr0 : 0 ≤ q / T := by positivity
  have hr1 : q / T ≤ 1 := (div_le_one hT).2 hqT
  have e : q - q / T = q / T * (T - 1) := by field_simp
  have h1 : |q - q / T| ≤ Q - 1 := by
    rw [e, abs_mul, abs_of_nonneg hr0]
    have := abs_nonneg (T - 1)
    nlinarith
  have h1' := abs_le.1 h1
  unfold chooseErrD selectErr
  set d := drawErr u n
  set f := factor u ^ (2 ^ n + 1) - 1
  have h2 : 2 * K * (f * (1 + T)) ≤ 2 * K * f * (1 + Q) := by nlinarith
  have h3 : 2 * d * T ≤ 2 * d * Q := by nlinarith
  have h4 : 0 ≤ 2 * K * (f * (1 + T)) := by nlinarith
  have h5 : 0 ≤ 2 * d * T := by positivity
  have h6 := abs_nonneg (T - 1)
  constructor
  · rw [abs_le]
    constructor <;> linarith
  · rw [abs_le]
    constructor
    · have := le_max_right 0 (q - (2 * K * (f * (1 + T)) + 2 * d * T + |T - 1|))
      linarith
    · have : max 0 (q - (2 * K * (f * (1 + T)) + 2 * d * T + |T - 1|)) ≤ q / T + (Q - 1) := max_le (by linarith) (by linarith)
      linarith

/-- An outcome that the measured indices cannot give. -/
theorem outcomeProb_out {idx : List Nat} (hi : IdxOK n idx) (v : Nat → ℂ) {m : Nat} (hm : ¬ m < 2 ^ idx.length) :
    outcomeProb n idx v m = 0 := by
  unfold outcomeProb
  apply Finset.sum_eq_zero
  intro c hc
  rw [Finset.mem_filter] at hc
  exfalso
  apply hm
  rw [← hc.2]
  refine (subIndex_lt _ _ _).trans_le (le_of_eq ?_)
  rw [show (inOrder n idx).length = idx.length from hi.length_inOrder]

/-- At the end. -/
theorem track_end {s P Q a : ℝ} {v w : Nat → ℂ} (h : Track n s v w P Q a) :
    |a - totalProb n w| ≤ (P * Q ^ 2 - 1) * (3 + (P * Q ^ 2 - 1)) := by
  have hc := h.close
  have ha := h.prob
  have hQ := h.oneQ
  have hP := hc.one_le
  rw [totalProb_dist w]
  rw [totalProb_dist, ← mul_pow, ← dist2_scale_zero hc.nonneg] at ha
  have h1 := dist2_triangle n (fun c => s * v c) w 0
  have h2 := dist2_triangle n w (fun c => s * v c) 0
  rw [dist2_comm w (fun c => s * v c)] at h2
  have h3 := hc.dist
  have h4 := hc.norm
  have h5 := dist2_nonneg n w 0
  have h6 := dist2_nonneg n (fun c => s * v c) 0
  have h7 := abs_le.1 ha
  set x := dist2 n (fun c => s * v c) 0
  set y := dist2 n w 0
  have h8 : x ≤ y + (P - 1) := by linarith
  have h9 : y ≤ x + (P - 1) := by linarith
  have hX : P - 1 ≤ P * Q ^ 2 - 1 := by nlinarith [one_le_pow₀ hQ (n := 2)]
  have h10 : |a - y ^ 2| ≤ (P - 1) * (3 + (P - 1)) := by
    rw [abs_le]
    constructor <;> nlinarith
  refine h10.trans ?_
  exact mul_le_mul hX (by linarith) (by linarith) (by linarith)

/-- A branch that the computed state excludes is improbable. -/
theorem track_none {idx : List Nat} {m : Nat} {s P Q a : ℝ} {v w : Nat → ℂ} (h : Track n s v w P Q a) (h0 : outcomeProb n idx v m = 0)
    {rest : List QStep} (hok : ∀ q ∈ rest, StepOK n q) (os : List Nat) : totalProb n (branchOf n rest os (project n idx m w)) ≤ (P - 1) ^ 2 := by
  have hc := h.close
  rw [totalProb_dist]
  refine pow_le_pow_left₀ (dist2_nonneg _ _ _) ((branchOf_norm hok os _).trans ?_) 2
  have h1 : dist2 n (project n idx m v) 0 = 0 := by rw [dist2_zero_project, h0, Real.sqrt_zero]
  have h2 : dist2 n (project n idx m fun c => s * v c) 0 = 0 := by
    rw [project_scale, dist2_scale_zero hc.nonneg, h1, mul_zero]
  have h3 := dist2_triangle n (project n idx m w) (project n idx m fun c => s * v c) 0
  rw [h2, dist2_comm (project n idx m w) (project n idx m fun c => s * v c)] at h3
  have h4 := (dist2_project (n := n) idx m (fun c => s * v c) w).trans hc.dist
  linarith

end QIP.Props
