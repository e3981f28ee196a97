import Verif.Lemmas.FDistCircuit
import Verif.Lemmas.FDistRanged
import Verif.Lemmas.FCircuitRanged
import Verif.Props.FDist
import Verif.Props.FCircuitRanged
import Verif.Props.FDistMeasureRanged
import Verif.Spec.FDistCircuitRanged

/-! # Circuits on several workers in rounded arithmetic, with underflow and overflow -/

namespace QIP.Props

open QIP Spec Finset MeasureTheory

variable {A : Arith} {F : FOps} {u eta big low : ℝ} {t n K size : Nat}

/-- `gate_dist_ranged` for a gate run backwards. -/
theorem gate_dist_ranged_back [A.Ranged] [AddRanged A] (run : Nat → Nat → Nat) {g : Gate} {gs : List (List Nat)} (hf : Fits g gs)
    (hgs : GroupsOK n gs) (hsw : hasSwap g = false) {mats : List (Key × Mat ℂ)} {matsF : List (Key × Mat (FC A))}
    (hm : g.feedMats true gs = .ok mats)
    (hF : List.Forall₂ (fun (a : Key × Mat (FC A)) (b : Key × Mat ℂ) => a.1 = b.1 ∧ MatNear t a.2 b.2) matsF mats)
    (hin : InRangeD A t gs.flatten.length K) (hsize : 0 < size) (hK : K * size = 2 ^ n) {v : List (FC A)}
    (hv : v.length = K * size) (hB : dist2 n (fun c => (v.getD c 0).val) 0 ≤ 2)
    {arena : Nat → Nat → List (FC A)} (hout : ∀ i j, (arena i j).length = size) {sched : Nat → Nat → List Nat}
    (hs : ∀ i j, (sched i j).Perm (List.range size)) {order : Nat → List Nat} (ho : ∀ j < K, (j :: order j).Perm (List.range K)) :
    ∃ w, distKronF run matsF n K size v arena sched order = .ok w ∧ w.length = K * size ∧
      dist2 n (fun c => (w.getD c 0).val) (adjApply n g gs fun c => (v.getD c 0).val)
        ≤ gateErrD A.u t gs.flatten.length K * dist2 n (fun c => (v.getD c 0).val) 0 + gateTinyD A.eta n gs.flatten.length K := by
  obtain ⟨ms, hgm⟩ := gm_exists g gs hf hgs
  have hst := feedMats_stored hm
  obtain ⟨dm, d1, d2, d3, d4, d5⟩ := feedMats_dagger hf hgs hgm hsw
  rw [d1] at hm
  injection hm with hm
  subst hm
  have hmem : ∀ km ∈ dm, ∃ km' ∈ ms, km.1 = km'.1 := by
    intro km hkm
    have : km.1 ∈ ms.map (·.1) := by
      rw [← d2]
      exact List.mem_map_of_mem hkm
    obtain ⟨km', h1, h2⟩ := List.mem_map.1 this
    exact ⟨km', h1, h2.symm⟩
  have hlen : dm.length = ms.length := by simpa using congrArg List.length d2
  have hsmall : SmallEntries (normed dm) := by
    intro gm hgm'
    obtain ⟨km, hkm, rfl⟩ := List.mem_map.1 hgm'
    exact stored_small (hst km hkm)
  refine mats_dist_ranged run hgs.2 ?_ ?_ ?_ d3 ?_ d4 (hlen ▸ makemats_length hf hgs hgm.ok) ?_ (adjOps_uni d5 hgm.uni hgm.uni').2 hsmall hF
    hin hsize hK hv hB hout hs ho
  · intro h
    rw [h] at hlen
    exact hgm.ne (List.length_eq_zero_iff.1 hlen.symm)
  · intro km hkm km' hkm'
    obtain ⟨a, ha, e⟩ := hmem km hkm
    obtain ⟨b, hb, e'⟩ := hmem km' hkm'
    rw [e, e']
    exact hgm.len a ha b hb
  · have e : (dm.map fun km => km.1.qubits) = (dm.map (·.1)).map Key.qubits := by simp
    have e' : (ms.map fun km => km.1.qubits) = (ms.map (·.1)).map Key.qubits := by simp
    rw [e, d2, ← e']
    exact hgm.keys
  · intro km hkm
    obtain ⟨a, ha, e⟩ := hmem km hkm
    rw [e]
    exact hgm.sub a ha
  · intro w r hr
    rw [opMat_apply d5 w hr, adjApply_eq hgm w hr]

/-- A request that is not a measurement. -/
theorem dunit_next_ranged [A.Ranged] [AddRanged A] {q : QStep} (hs : StepOK n q) (hr : StepRangeD A t K q) (hm : ∀ idx, q ≠ .measure idx)
    {call : DCall A} (hp : DPerforms A t n K size call q) (hsize : 0 < size) (hK : K * size = 2 ^ n) {v : List (FC A)}
    (hv : v.length = 2 ^ n) (h1 : 1 / 2 ≤ dist2 n (vals v) 0) (h2 : dist2 n (vals v) 0 ≤ 2) (rest : List (DCall A)) :
    ∃ v' : List (FC A), ∃ ε : ℝ, v'.length = 2 ^ n ∧ 0 ≤ ε ∧ stepErrDR A.u A.eta u eta low t n K q = (1 + ε) ^ 6 ∧
      (∀ xs, distRunF F n K size (call :: rest) xs v = distRunF F n K size rest xs v') ∧
      dist2 n (vals v') (stepApply n q (vals v)) ≤ ε * dist2 n (vals v) 0 := by
  cases hp with
  | measure => exact absurd rfl (hm _)
  | @gate g back gs mats matsF run arena sched order g1 g2 g3 g4 g5 =>
    obtain ⟨hf, hgs, hsw⟩ := hs
    have hτ := gateTinyD_nonneg A.eta_nonneg n gs.flatten.length K
    have hE := gateErrD_nonneg' A t gs.flatten.length K
    have key : ∃ w, distKronF run matsF n K size v arena sched order = .ok w ∧ w.length = K * size ∧
        dist2 n (vals w) (stepApply n (.gate g back gs) (vals v))
          ≤ gateErrD A.u t gs.flatten.length K * dist2 n (vals v) 0 + gateTinyD A.eta n gs.flatten.length K := by
      cases back with
      | false => exact gate_dist_ranged run hf hgs g1 g2 hr hsize hK (by omega) h2 g4 g3 g5
      | true => exact gate_dist_ranged_back run hf hgs (hsw rfl) g1 g2 hr hsize hK (by omega) h2 g4 g3 g5
    obtain ⟨w, k1, k2, k3⟩ := key
    refine ⟨w, _, by omega, by linarith, rfl, ?_, k3.trans (by nlinarith)⟩
    intro xs
    rw [distRunF, k1]

/-! ## The invariant -/

theorem track_collapse {idx : List Nat} {v v' : Nat → ℂ} {m : Nat} {s P Q a vol D γ : ℝ} {w : Nat → ℂ}
    (h : Track n s v w P Q a) (hγ : 0 ≤ γ) (hγ1 : γ < 1) (hq : 0 < outcomeProb n idx v m)
    (hcol : dist2 n v' (fun i => if subIndex n (inOrder n idx) i = m then v i / ((√(outcomeProb n idx v m) : ℝ) : ℂ) else 0) ≤ γ)
    (hv0 : 0 ≤ vol) (hv : |vol - outcomeProb n idx v m / totalProb n v| ≤ D) :
    Track n (s * √(outcomeProb n idx v m)) v' (project n idx m w) (P * ((1 + γ) ^ 2 + D)) ((1 + γ) ^ 2) (a * vol) := by
  obtain ⟨j1, j2, j3⟩ := close_measure h.close hγ hq hcol
  have hP := h.close.one_le
  have hD : 0 ≤ D := (abs_nonneg _).trans hv
  have hpT := outcome_le_total (n := n) idx m v
  have hr1 : outcomeProb n idx v m / totalProb n v ≤ 1 := (div_le_one h.pos).2 hpT
  have hpm := prob_measureD hP h.a0 h.aP h.pos (outcomeProb_nonneg _ _ _ _) hpT h.prob h.sT hv j2
  have ha := h.aP
  set T' := totalProb n v'
  have hg1 : 1 ≤ (1 + γ) ^ 2 := by nlinarith
  refine ⟨⟨mul_nonneg h.close.nonneg (Real.sqrt_nonneg _), by nlinarith, ?_, ?_⟩, hg1, j3 hγ1, j2, mul_nonneg h.a0 hv0, ?_, hpm, ?_⟩
  · refine j1.trans ?_
    have : 1 + γ ≤ (1 + γ) ^ 2 + D := by nlinarith
    nlinarith
  · rw [dist2_zero_project]
    refine (Real.sqrt_le_sqrt (outcome_le_total _ _ _)).trans ?_
    rw [totalProb_dist, Real.sqrt_sq (dist2_nonneg _ _ _)]
    exact h.close.norm
  · have h1 := (abs_le.1 hv).2
    exact mul_le_mul ha (by linarith) hv0 (by linarith)
  · rw [mul_pow, Real.sq_sqrt (outcomeProb_nonneg _ _ _ _)]
    have h1 : s ^ 2 * outcomeProb n idx v m ≤ P := (mul_le_mul_of_nonneg_left hpT (sq_nonneg s)).trans h.sT
    have h2 := (abs_le.1 j2).2
    have h3 : T' ≤ (1 + γ) ^ 2 + D := by linarith
    have h4 : 0 ≤ T' := totalProb_nonneg n _
    exact mul_le_mul h1 h3 h4 (by linarith)

/-- The norm of the computed state, as long as the errors are small. -/
theorem Track.bounds {s P Q a R : ℝ} {v w : Nat → ℂ} (h : Track n s v w P Q a) (hR : 1 ≤ R) (hs : P * Q ^ 2 * R - 1 ≤ 1 / 8) :
    1 / 2 ≤ totalProb n v ∧ totalProb n v ≤ 3 / 2 := by
  have hP := h.close.one_le
  have hQ := h.oneQ
  have h1 : Q ≤ Q ^ 2 := by nlinarith
  have h2 : Q ≤ P * Q ^ 2 := by nlinarith
  have h3 : P * Q ^ 2 ≤ P * Q ^ 2 * R := le_mul_of_one_le_right (by positivity) hR
  have h4 := abs_le.1 h.total
  constructor <;> linarith

/-- What is required of the arithmetic of the measurements and of the probability `low`: small enough an accuracy, and enough room above
and below. -/
structure LowOKD (u eta big low : ℝ) (n K : Nat) : Prop where
  pos : 0 < low
  le_one : low ≤ 1
  tiny : distTiny u eta n K < low
  above : 8 / low ≤ big
  room : RoomD u eta big n K 2
  small : u + 4 * eta < 1

theorem roomD_mono (hF : Ranged F u eta big) {T T' : ℝ} (h : RoomD u eta big n K T') (hT : T ≤ T') : RoomD u eta big n K T := by
  unfold RoomD at h ⊢
  refine le_trans (mul_le_mul_of_nonneg_right (by linarith) ?_) h
  linarith [hF.bpow (2 ^ (n + 1) + 2)]

theorem collapseErrDR_nonneg (hF : Ranged F u eta big) (hl : LowOKD u eta big low n K) (k : Nat) : 0 ≤ collapseErrDR u eta low n K k := by
  unfold collapseErrDR
  have h0 := hF.eta_nonneg
  have h1 := one_le_pow₀ (one_le_factor (by linarith [hF.nonneg] : 0 ≤ u + 4 * eta) hl.small) (n := 2 ^ (n - k) + 4 + K)
  have h2 := one_le_factor (div_nonneg (distTiny_nonneg hF) hl.pos.le) ((div_lt_one hl.pos).2 hl.tiny)
  have h3 := mul_nonneg (Real.sqrt_nonneg (2 ^ n)) h0
  nlinarith

/-- The state after a measurement whose outcome has a probability above `low`. -/
theorem collapsed_ranged (hF : Ranged F u eta big) (hl : LowOKD u eta big low n K) {idx : List Nat} (hi : IdxOK n idx)
    (hK : K * size = 2 ^ n) {v : List (FC A)} (hv : v.length = 2 ^ n) (hT2 : totalProb n (vals v) ≤ 2) {s m : Nat} (hs : s < K)
    (hm : m < 2 ^ idx.length) (hq : low < outcomeProb n idx (vals v) m) (hγ1 : collapseErrDR u eta low n K idx.length ≤ 1) :
    dist2 n (vals (collapsedF F idx n v m (reportedF F idx n K size (v.map FC.val) s m)))
      (fun i => if subIndex n (inOrder n idx) i = m then vals v i / ((√(outcomeProb n idx (vals v) m) : ℝ) : ℂ) else 0)
      ≤ collapseErrDR u eta low n K idx.length := by
  have e := vals_map v
  have hroom := roomD_mono hF hl.room hT2
  have hq0 := hl.pos.trans hq
  have hrel := rel_reported_ranged hF hi hK (v := v.map FC.val) (by simpa using hv) (by rw [e]; exact hroom) hs hm
    (by rw [e]; exact hl.tiny.trans hq)
  rw [e] at hrel
  have ht0 := distTiny_nonneg hF (n := n) (K := K)
  have hfm : factor (distTiny u eta n K / outcomeProb n idx (vals v) m) ≤ factor (distTiny u eta n K / low) :=
    factor_mono (div_le_div_of_nonneg_left ht0 hl.pos hq.le) ((div_lt_one hl.pos).2 hl.tiny)
  have hf1 := one_le_pow₀ (one_le_factor (by linarith [hF.nonneg, hF.eta_nonneg] : 0 ≤ u + 4 * eta) hl.small)
    (n := 2 ^ (n - idx.length) + 4 + K)
  have hfm2 := mul_le_mul_of_nonneg_left hfm (by linarith : 0 ≤ factor (u + 4 * eta) ^ (2 ^ (n - idx.length) + 4 + K))
  have hse := mul_nonneg (Real.sqrt_nonneg (2 ^ n)) hF.eta_nonneg
  have ek : 2 ^ (n - idx.length) + 4 + K = 2 ^ (n - idx.length) + 1 + K + 3 := by omega
  have hρ0 := div_nonneg ht0 hq0.le
  have hρ1 := (div_lt_one hq0).2 (hl.tiny.trans hq)
  have := collapse_ranged (n := n) (vec := v.map FC.val) (k := 2 ^ (n - idx.length) + 1 + K) hF (by rw [e]; exact hT2)
    (by rw [e]; exact hq0) hρ0 hρ1 (by rw [e]; exact (div_le_div_of_nonneg_left (by norm_num) hl.pos hq.le).trans hl.above) hl.small
    (by
      rw [← ek]
      unfold collapseErrDR at hγ1
      linarith)
    (by rw [e]; exact hrel)
  rw [e, ← ek] at this
  unfold collapsedF
  rw [vals_mk]
  refine (le_of_eq ?_).trans (this.trans ?_)
  · refine dist2_congr (fun _ _ => rfl) fun r _ => ?_
    rw [show (v.map FC.val).getD r 0 = vals v r from congrFun e r]
  · unfold collapseErrDR
    linarith

/-- The error of the chosen outcome of a measurement, if the squared norm is 1 up to `Q - 1`. -/
noncomputable def chooseErrDR (u eta : ℝ) (n K : Nat) (Q : ℝ) : ℝ :=
  2 * K * (factor u ^ (2 ^ n + 1) - 1) * (1 + Q) + 4 * K * distTiny u eta n K + 2 * drawErr u n * Q + 2 * (Q - 1)

theorem stepErrDR_measure (hF : Ranged F u eta big) (hl : LowOKD u eta big low n K) {uG etaG P Q : ℝ} (t : Nat) {idx : List Nat}
    (hP : 1 ≤ P) (hQ : 1 ≤ Q) :
    P * ((1 + collapseErrDR u eta low n K idx.length) ^ 2 + chooseErrDR u eta n K Q) * ((1 + collapseErrDR u eta low n K idx.length) ^ 2) ^ 2
      ≤ P * Q ^ 2 * stepErrDR uG etaG u eta low t n K (.measure idx) := by
  have hγ := collapseErrDR_nonneg hF hl idx.length
  have hd := drawErr_nonneg hF.nonneg hF.lt_one n
  have hτ := distTiny_nonneg hF (n := n) (K := K)
  have hs := Real.sqrt_nonneg low
  have hf : 0 ≤ factor u ^ (2 ^ n + 1) - 1 := by have := hF.bpow (2 ^ n + 1); linarith
  unfold stepErrDR chooseErrDR
  set γ := collapseErrDR u eta low n K idx.length
  set d := drawErr u n
  set f := factor u ^ (2 ^ n + 1) - 1
  set τ := distTiny u eta n K
  have hKf : 0 ≤ K * f := mul_nonneg (Nat.cast_nonneg _) hf
  have hKt : 0 ≤ K * τ := mul_nonneg (Nat.cast_nonneg _) hτ
  have hQ2 : Q ≤ Q ^ 2 := by nlinarith
  have hQ1 : 1 ≤ Q ^ 2 := by linarith
  have hg : 1 ≤ (1 + γ) ^ 2 := by nlinarith
  have h1 : (1 + γ) ^ 2 + (2 * K * f * (1 + Q) + 4 * K * τ + 2 * d * Q + 2 * (Q - 1))
      ≤ Q ^ 2 * ((1 + γ) ^ 2 + (4 * K * f + 4 * K * τ + 2 * d) + 4 * √low) := by
    have e1 : 2 * K * f * (1 + Q) ≤ Q ^ 2 * (4 * K * f) := by nlinarith
    have e2 : 2 * d * Q ≤ Q ^ 2 * (2 * d) := by nlinarith
    have e3 : 2 * (Q - 1) ≤ (Q ^ 2 - 1) * (1 + γ) ^ 2 := by nlinarith
    have e4 : 4 * K * τ ≤ Q ^ 2 * (4 * K * τ) := by nlinarith
    have e5 : 0 ≤ Q ^ 2 * (4 * √low) := by positivity
    linarith
  have h2 := mul_le_mul_of_nonneg_left h1 (by linarith : 0 ≤ P)
  have h3 := mul_le_mul_of_nonneg_right h2 (by positivity : 0 ≤ ((1 + γ) ^ 2) ^ 2)
  refine h3.trans (le_of_eq ?_)
  ring

/-- Lower bounds for the factor of a measurement. -/
theorem stepErrDR_ge (hF : Ranged F u eta big) (hl : LowOKD u eta big low n K) {uG etaG : ℝ} (t : Nat) {idx : List Nat} :
    1 + (4 * K * (factor u ^ (2 ^ n + 1) - 1) + 4 * K * distTiny u eta n K + 2 * drawErr u n) + 4 * √low
        ≤ stepErrDR uG etaG u eta low t n K (.measure idx) ∧
      (1 + collapseErrDR u eta low n K idx.length) ^ 2 ≤ stepErrDR uG etaG u eta low t n K (.measure idx) := by
  have hγ := collapseErrDR_nonneg hF hl idx.length
  have hd := drawErr_nonneg hF.nonneg hF.lt_one n
  have hτ := distTiny_nonneg hF (n := n) (K := K)
  have hs := Real.sqrt_nonneg low
  have hf : 0 ≤ factor u ^ (2 ^ n + 1) - 1 := by have := hF.bpow (2 ^ n + 1); linarith
  unfold stepErrDR
  set γ := collapseErrDR u eta low n K idx.length
  set d := drawErr u n
  set f := factor u ^ (2 ^ n + 1) - 1
  set τ := distTiny u eta n K
  have hKf : 0 ≤ 4 * K * f := by positivity
  have hKt : 0 ≤ 4 * K * τ := by positivity
  have h2 : 1 ≤ (1 + γ) ^ 4 := one_le_pow₀ (by linarith)
  have h3 : 1 ≤ (1 + γ) ^ 2 := one_le_pow₀ (by linarith)
  have h4 : (1 + γ) ^ 2 + (4 * K * f + 4 * K * τ + 2 * d) + 4 * √low
      ≤ ((1 + γ) ^ 2 + (4 * K * f + 4 * K * τ + 2 * d) + 4 * √low) * (1 + γ) ^ 4 := le_mul_of_one_le_right (by positivity) h2
  exact ⟨by linarith, by linarith⟩

theorem one_le_stepErrDR (hF : Ranged F u eta big) (hl : LowOKD u eta big low n K) (A : Arith) (t : Nat) (q : QStep) :
    1 ≤ stepErrDR A.u A.eta u eta low t n K q := by
  cases q with
  | gate g back gs =>
    have h1 := gateErrD_nonneg' A t gs.flatten.length K
    have h2 := gateTinyD_nonneg A.eta_nonneg n gs.flatten.length K
    unfold stepErrDR
    exact one_le_pow₀ (by linarith)
  | func => exact le_rfl
  | measure idx =>
    refine le_trans ?_ (stepErrDR_ge hF hl t).2
    exact one_le_pow₀ (by linarith [collapseErrDR_nonneg hF hl idx.length])

theorem one_le_stepProdDR (hF : Ranged F u eta big) (hl : LowOKD u eta big low n K) (A : Arith) (t : Nat) (steps : List QStep) :
    1 ≤ (steps.map (stepErrDR A.u A.eta u eta low t n K)).prod := by
  induction steps with
  | nil => simp
  | cons q rest ih =>
    rw [List.map_cons, List.prod_cons]
    nlinarith [one_le_stepErrDR hF hl A t q]

/-- The chosen outcome and Born's rule for a state whose squared norm is not quite 1. -/
theorem choose_near_ranged (hF : Ranged F u eta big) {Q T q : ℝ} (hQ : 1 ≤ Q) (hT : 0 < T) (hTQ : |T - 1| ≤ Q - 1) (hq0 : 0 ≤ q)
    (hqT : q ≤ T) :
    |q + (2 * K * (selectErrR u eta n K T + distTiny u eta n K) + 2 * drawErr u n * T) - q / T| ≤ chooseErrDR u eta n K Q ∧
      |max 0 (q - (2 * K * (selectErrR u eta n K T + distTiny u eta n K) + 2 * drawErr u n * T + |T - 1|)) - q / T|
        ≤ chooseErrDR u eta n K Q := by
  have hd := drawErr_nonneg hF.nonneg hF.lt_one n
  have hτ := distTiny_nonneg hF (n := n) (K := K)
  have hf : 0 ≤ factor u ^ (2 ^ n + 1) - 1 := by have := hF.bpow (2 ^ n + 1); linarith
  have hKf : 0 ≤ K * (factor u ^ (2 ^ n + 1) - 1) := mul_nonneg (Nat.cast_nonneg _) hf
  have hKt : 0 ≤ K * distTiny u eta n K := mul_nonneg (Nat.cast_nonneg _) hτ
  have hTQ' := abs_le.1 hTQ
  have hr0 : 0 ≤ q / T := by positivity
  have hr1 : q / T ≤ 1 := (div_le_one hT).2 hqT
  have e : q - q / T = q / T * (T - 1) := by field_simp
  have h1 : |q - q / T| ≤ Q - 1 := by
    rw [e, abs_mul, abs_of_nonneg hr0]
    have := abs_nonneg (T - 1)
    nlinarith
  have h1' := abs_le.1 h1
  unfold chooseErrDR selectErrR selectErr
  set d := drawErr u n
  set f := factor u ^ (2 ^ n + 1) - 1
  set τ := distTiny u eta n K
  have ex : 2 * K * (f * (1 + T) + τ + τ) = 2 * K * (f * (1 + T)) + 4 * K * τ := by ring
  rw [ex]
  have h2 : 2 * K * (f * (1 + T)) ≤ 2 * K * f * (1 + Q) := by nlinarith
  have h3 : 2 * d * T ≤ 2 * d * Q := by nlinarith
  have h4 : 0 ≤ 2 * K * (f * (1 + T)) := by nlinarith
  have h5 : 0 ≤ 2 * d * T := by positivity
  have h6 := abs_nonneg (T - 1)
  constructor
  · rw [abs_le]
    constructor <;> linarith
  · rw [abs_le]
    constructor
    · have := le_max_right 0 (q - (2 * K * (f * (1 + T)) + 4 * K * τ + 2 * d * T + |T - 1|))
      linarith
    · have : max 0 (q - (2 * K * (f * (1 + T)) + 4 * K * τ + 2 * d * T + |T - 1|)) ≤ q / T + (Q - 1) := max_le (by linarith) (by linarith)
      linarith

/-- An outcome with a probability of at most `low` is seldom chosen. -/
theorem low_chosen (hF : Ranged F u eta big) (hl : LowOKD u eta big low n K) {uG etaG P Q T q a vol : ℝ} (t : Nat) {idx : List Nat}
    (hP : 1 ≤ P) (hQ : 1 ≤ Q) (hTQ : |T - 1| ≤ Q - 1) (hT : 0 < T) (ha0 : 0 ≤ a) (haP : a ≤ P) (hq : q ≤ low) (hv0 : 0 ≤ vol)
    (hv : vol ≤ q + (2 * K * (selectErrR u eta n K T + distTiny u eta n K) + 2 * drawErr u n * T)) :
    a * vol ≤ P * Q ^ 2 * stepErrDR uG etaG u eta low t n K (.measure idx) - 1 := by
  have hd := drawErr_nonneg hF.nonneg hF.lt_one n
  have hτ := distTiny_nonneg hF (n := n) (K := K)
  have hf : 0 ≤ factor u ^ (2 ^ n + 1) - 1 := by have := hF.bpow (2 ^ n + 1); linarith
  have hTQ' := abs_le.1 hTQ
  have hge := (stepErrDR_ge hF hl (uG := uG) (etaG := etaG) t (idx := idx)).1
  have hs := Real.sqrt_nonneg low
  have hl2 := self_le_sqrt hl.pos.le hl.le_one
  unfold selectErrR selectErr at hv
  set d := drawErr u n
  set f := factor u ^ (2 ^ n + 1) - 1
  set τ := distTiny u eta n K
  set S := stepErrDR uG etaG u eta low t n K (.measure idx)
  have hKf : 0 ≤ K * f := mul_nonneg (Nat.cast_nonneg _) hf
  have hKt : 0 ≤ K * τ := mul_nonneg (Nat.cast_nonneg _) hτ
  have hQ2 : Q ≤ Q ^ 2 := by nlinarith
  have hQ1 : 1 ≤ Q ^ 2 := by linarith
  have ex : 2 * K * (f * (1 + T) + τ + τ) = 2 * (K * f) * (1 + T) + 4 * (K * τ) := by ring
  rw [ex] at hv
  have h2 : 2 * (K * f) * (1 + T) ≤ Q ^ 2 * (4 * (K * f)) := by nlinarith
  have h3 : 2 * d * T ≤ Q ^ 2 * (2 * d) := by nlinarith
  have h4 : 4 * (K * τ) ≤ Q ^ 2 * (4 * (K * τ)) := by nlinarith
  have h5 : low ≤ Q ^ 2 * (4 * √low) := by nlinarith
  have h6 : vol ≤ Q ^ 2 * (S - 1) := by
    have : Q ^ 2 * (4 * (K * f) + 4 * (K * τ) + 2 * d + 4 * √low) ≤ Q ^ 2 * (S - 1) :=
      mul_le_mul_of_nonneg_left (by linarith) (by positivity)
    linarith
  have h7 := mul_le_mul haP h6 hv0 (by linarith)
  have h8 : 1 ≤ P * Q ^ 2 := by nlinarith
  linarith

theorem low_branch (hF : Ranged F u eta big) (hl : LowOKD u eta big low n K) {uG etaG P Q y : ℝ} (t : Nat) {idx : List Nat}
    (hP : 1 ≤ P) (hQ : 1 ≤ Q) (hy : y ≤ 2 * P * √low + (P - 1)) :
    y ≤ P * Q ^ 2 * stepErrDR uG etaG u eta low t n K (.measure idx) - 1 := by
  have hd := drawErr_nonneg hF.nonneg hF.lt_one n
  have hτ := distTiny_nonneg hF (n := n) (K := K)
  have hf : 0 ≤ factor u ^ (2 ^ n + 1) - 1 := by have := hF.bpow (2 ^ n + 1); linarith
  have hge := (stepErrDR_ge hF hl (uG := uG) (etaG := etaG) t (idx := idx)).1
  have hs := Real.sqrt_nonneg low
  set S := stepErrDR uG etaG u eta low t n K (.measure idx)
  have hKf : 0 ≤ 4 * K * (factor u ^ (2 ^ n + 1) - 1) := by positivity
  have hKt : 0 ≤ 4 * K * distTiny u eta n K := by positivity
  have h1 : 1 + 4 * √low ≤ S := by linarith
  have h2 : P * (1 + 4 * √low) ≤ P * S := mul_le_mul_of_nonneg_left h1 (by linarith)
  have h3 : P * S ≤ P * Q ^ 2 * S := by
    have : P ≤ P * Q ^ 2 := le_mul_of_one_le_right (by linarith) (one_le_pow₀ hQ)
    exact mul_le_mul_of_nonneg_right this (by linarith)
  nlinarith

end QIP.Props
