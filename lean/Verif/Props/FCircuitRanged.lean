import Verif.Lemmas.FCircuitRanged
import Verif.Props.FCircuit
import Verif.Props.FRanged

/-!
# C97: circuits with measurements in floating point, with underflow and overflow
-/

namespace QIP.Props

open QIP Spec Finset

variable {A : Arith} {F : FOps} {u eta big low : ℝ} {t n : Nat}

/-- What is required of the arithmetic of the measurements and of the probability `low`: small enough an accuracy, and enough room above
and below. -/
structure LowOK (u eta big low : ℝ) (n : Nat) : Prop where
  pos : 0 < low
  le_one : low ≤ 1
  tiny : drawTiny u eta n < low
  above : 8 / low ≤ big
  room : RoomR u eta big n 2
  small : u + 4 * eta < 1

theorem roomR_mono (hF : Ranged F u eta big) {P P' : ℝ} (h : RoomR u eta big n P') (hP : P ≤ P') : RoomR u eta big n P := by
  unfold RoomR at h ⊢
  refine le_trans (mul_le_mul_of_nonneg_right (by linarith) ?_) h
  linarith [hF.bpow (2 ^ (n + 1) + 2)]

/-! ## Measurements -/

theorem born_at_ranged (hF : Ranged F u eta big) (hl : LowOK u eta big low n) {idx : List Nat} (hi : IdxOK n idx) {b : FState A}
    (hb : b.Full n) (hT : 1 / 2 ≤ totalProb n (ampsOf b)) (hT2 : totalProb n (ampsOf b) ≤ 2) (m : Nat) :
    |(MeasureTheory.volume (drawsAt F idx b m)).toReal - outcomeProb n idx (ampsOf b) m / totalProb n (ampsOf b)|
      ≤ 2 * (drawErr u n + 2 * drawTiny u eta n) := by
  have ea : (fun c => (b.state.map FC.val).getD c 0) = ampsOf b := funext (ampsOf_map b)
  have hroom := roomR_mono hF hl.room hT2
  have hd := drawTiny_nonneg hF n
  by_cases hm : m < 2 ^ idx.length
  · rw [drawsAt_eq idx hb]
    have := C95_ranged_born_partial hF hi (vec := b.state.map FC.val) (out := b.arena.map FC.val) (by simp [hb.state]) (by simp [hb.arena])
      (by rw [ea]; linarith) (by rw [ea]; exact hroom) hm
    rw [ea] at this
    refine this.trans ?_
    have h1 : drawTiny u eta n / totalProb n (ampsOf b) ≤ 2 * drawTiny u eta n := by
      rw [div_le_iff₀ (by linarith)]
      nlinarith
    linarith
  · have h1 : drawsAt F idx b m = ∅ := by
      rw [drawsAt_eq idx hb]
      ext x
      simp only [Set.mem_empty_iff_false, iff_false]
      rintro ⟨h0, h1, p, out', hr⟩
      exact hm (C95_ranged_never hF hi (by simp [hb.state]) (by simp [hb.arena]) (by rw [ea]; exact hroom) h0 h1.le hr).1
    have h2 : outcomeProb n idx (ampsOf b) m = 0 := by
      unfold outcomeProb
      apply Finset.sum_eq_zero
      intro c hc
      rw [Finset.mem_filter] at hc
      exfalso
      apply hm
      rw [← hc.2]
      refine (subIndex_lt _ _ _).trans_le (le_of_eq ?_)
      rw [show (inOrder n idx).length = idx.length from hi.length_inOrder]
    rw [h1, h2]
    simp only [MeasureTheory.measure_empty, ENNReal.toReal_zero, zero_div, sub_zero, abs_zero]
    have := drawErr_nonneg hF.nonneg hF.lt_one n
    linarith

theorem collapseErrR_nonneg (hF : Ranged F u eta big) (hl : LowOK u eta big low n) (k : Nat) : 0 ≤ collapseErrR u eta low n k := by
  unfold collapseErrR
  have h0 := hF.eta_nonneg
  have h1 := one_le_pow₀ (one_le_factor (by linarith [hF.nonneg] : 0 ≤ u + 4 * eta) hl.small) (n := 2 ^ (n - k) + 4)
  have h2 := one_le_factor (div_nonneg (drawTiny_nonneg hF n) hl.pos.le) ((div_lt_one hl.pos).2 hl.tiny)
  have h3 := mul_nonneg (Real.sqrt_nonneg (2 ^ n)) h0
  nlinarith

/-- The backend after a measurement whose outcome has a probability above `low`. -/
theorem measure_next_ranged (hF : Ranged F u eta big) (hl : LowOK u eta big low n) {idx : List Nat} (hi : IdxOK n idx) {b : FState A}
    (hb : b.Full n) (hT2 : totalProb n (ampsOf b) ≤ 2) {m : Nat} (hq : low < outcomeProb n idx (ampsOf b) m)
    (hγ1 : collapseErrR u eta low n idx.length ≤ 1) :
    ∃ b' : FState A, b'.Full n ∧ (∀ x ∈ drawsAt F idx b m, ∃ p, b.measure F idx x = .ok (m, p, b')) ∧
      dist2 n (ampsOf b') (fun i => if subIndex n (inOrder n idx) i = m
        then ampsOf b i / ((√(outcomeProb n idx (ampsOf b) m) : ℝ) : ℂ) else 0) ≤ collapseErrR u eta low n idx.length := by
  have ea : (fun c => (b.state.map FC.val).getD c 0) = ampsOf b := funext (ampsOf_map b)
  have hroom := roomR_mono hF hl.room hT2
  have hγ := collapseErrR_nonneg hF hl idx.length
  by_cases hne : (drawsAt F idx b m).Nonempty
  · obtain ⟨x, hx⟩ := hne
    have hx' := hx
    rw [drawsAt_eq idx hb] at hx'
    obtain ⟨h0, h1, p, out', hr⟩ := hx'
    have hfm : factor (drawTiny u eta n / outcomeProb n idx (ampsOf b) m) ≤ factor (drawTiny u eta n / low) :=
      factor_mono (div_le_div_of_nonneg_left (drawTiny_nonneg hF n) hl.pos hq.le) ((div_lt_one hl.pos).2 hl.tiny)
    have hf1 := one_le_pow₀ (one_le_factor (by linarith [hF.nonneg, hF.eta_nonneg] : 0 ≤ u + 4 * eta) hl.small)
      (n := 2 ^ (n - idx.length) + 4)
    have hfm2 := mul_le_mul_of_nonneg_left hfm (by linarith : 0 ≤ factor (u + 4 * eta) ^ (2 ^ (n - idx.length) + 4))
    have hse := mul_nonneg (Real.sqrt_nonneg (2 ^ n)) hF.eta_nonneg
    have hq0 := hl.pos.trans hq
    obtain ⟨-, c4, c5⟩ := C95_ranged_collapse hF hi (by simp [hb.state]) (by simp [hb.arena]) (by rw [ea]; exact hroom) h0 h1.le hr
      (by rw [ea]; exact hT2) (by rw [ea]; exact hl.tiny.trans hq)
      (by rw [ea]; exact (div_le_div_of_nonneg_left (by norm_num) hl.pos hq.le).trans hl.above) hl.small
      (by
        rw [ea]
        unfold collapseErrR at hγ1
        linarith)
    refine ⟨⟨n, out'.map FC.mk, b.state⟩, ⟨rfl, by simp [c4], hb.state⟩, ?_, ?_⟩
    · intro y hy
      rw [drawsAt_eq idx hb] at hy
      obtain ⟨y0, y1, q, out2, hy⟩ := hy
      have key : out2 = out' := by
        obtain ⟨-, -, e1, -, e2⟩ := C95_ranged_never hF hi (by simp [hb.state]) (by simp [hb.arena]) (by rw [ea]; exact hroom) h0 h1.le hr
        obtain ⟨-, -, e3, -, e4⟩ := C95_ranged_never hF hi (by simp [hb.state]) (by simp [hb.arena]) (by rw [ea]; exact hroom) y0 y1.le hy
        rw [e2, e4, e1, e3]
      refine ⟨q, ?_⟩
      unfold FState.measure
      rw [hb.size, hy, key]
      rfl
    · rw [ampsOf_mk]
      simp only [ampsOf_map, ea] at c5
      refine c5.trans ?_
      unfold collapseErrR
      linarith
  · refine ⟨⟨n, ((List.range (2 ^ n)).map fun i => if subIndex n (inOrder n idx) i = m
          then ampsOf b i / ((√(outcomeProb n idx (ampsOf b) m) : ℝ) : ℂ) else 0).map FC.mk, b.state⟩,
        ⟨rfl, by simp, hb.state⟩, fun x hx => absurd ⟨x, hx⟩ hne, ?_⟩
    rw [ampsOf_mk]
    refine le_trans (le_of_eq ?_) hγ
    unfold dist2
    rw [Finset.sum_eq_zero, Real.sqrt_zero]
    intro r hr
    dsimp only
    rw [getD_map_range _ (mem_range.1 hr), sub_self, norm_zero]
    norm_num

/-! ## The draws of a circuit that begins with a measurement -/

theorem draws_sub (idx : List Nat) (calls : List (FCall A)) (b : FState A) (m : Nat) (os : List Nat) :
    drawsFor F (.measure idx :: calls) b (m :: os) ⊆
      {x : Fin (os.length + 1) → ℝ | x 0 ∈ drawsAt F idx b m ∧ (Fin.tail x : Fin os.length → ℝ) ∈ Set.pi Set.univ fun _ => Set.Ico (0 : ℝ) 1} := by
  rintro x ⟨h1, b2, h2⟩
  have e1 : List.ofFn x = x 0 :: List.ofFn (Fin.tail x : Fin os.length → ℝ) := List.ofFn_succ
  rw [e1, floatRun, List.headD_cons, List.tail_cons] at h2
  rcases hme : b.measure F idx (x 0) with e | ⟨m', p, b3⟩
  · rw [hme] at h2
    simp [bind, Except.bind] at h2
  rw [hme] at h2
  simp only [bind, Except.bind] at h2
  rcases hfr : floatRun F calls (List.ofFn (Fin.tail x : Fin os.length → ℝ)) b3 with e | ⟨ms, b4⟩
  · rw [hfr] at h2
    simp at h2
  rw [hfr] at h2
  simp only [pure, Except.pure, Except.ok.injEq, Prod.mk.injEq, List.cons.injEq] at h2
  obtain ⟨⟨rfl, rfl⟩, rfl⟩ := h2
  exact ⟨⟨(h1 0).1, (h1 0).2, p, b3, hme⟩, fun i _ => h1 (Fin.succ i)⟩

theorem draws_cons {idx : List Nat} (calls : List (FCall A)) {b b' : FState A} {m : Nat}
    (hnext : ∀ x ∈ drawsAt F idx b m, ∃ p, b.measure F idx x = .ok (m, p, b')) (os : List Nat) :
    drawsFor F (.measure idx :: calls) b (m :: os) =
      {x : Fin (os.length + 1) → ℝ | x 0 ∈ drawsAt F idx b m ∧ (Fin.tail x : Fin os.length → ℝ) ∈ drawsFor F calls b' os} := by
  ext x
  have e1 : List.ofFn x = x 0 :: List.ofFn (Fin.tail x : Fin os.length → ℝ) := List.ofFn_succ
  constructor
  · intro hx
    obtain ⟨hx0, hxt⟩ := draws_sub idx calls b m os hx
    obtain ⟨h1, b2, h2⟩ := hx
    refine ⟨hx0, fun i => h1 (Fin.succ i), ?_⟩
    obtain ⟨p', hp'⟩ := hnext _ hx0
    rw [e1, floatRun, List.headD_cons, List.tail_cons, hp'] at h2
    simp only [bind, Except.bind] at h2
    rcases hfr : floatRun F calls (List.ofFn (Fin.tail x : Fin os.length → ℝ)) b' with e | ⟨ms, b4⟩
    · rw [hfr] at h2
      simp at h2
    rw [hfr] at h2
    simp only [pure, Except.pure, Except.ok.injEq, Prod.mk.injEq, List.cons.injEq] at h2
    obtain ⟨⟨-, rfl⟩, -⟩ := h2
    exact ⟨b4, rfl⟩
  · rintro ⟨h1, h2, b4, h3⟩
    obtain ⟨p', hp'⟩ := hnext _ h1
    refine ⟨fun i => ?_, b4, ?_⟩
    · exact Fin.cases (motive := fun i : Fin (os.length + 1) => 0 ≤ x i ∧ x i < 1) ⟨h1.1, h1.2.1⟩ h2 i
    · rw [e1, floatRun, List.headD_cons, List.tail_cons, hp']
      simp only [bind, Except.bind]
      rw [h3]
      rfl

theorem volume_cons {k : Nat} (S : Set ℝ) (D : Set (Fin k → ℝ)) :
    MeasureTheory.volume {x : Fin (k + 1) → ℝ | x 0 ∈ S ∧ Fin.tail x ∈ D} = MeasureTheory.volume S * MeasureTheory.volume D := by
  have h := MeasureTheory.volume_preserving_piFinSuccAbove (fun _ : Fin (k + 1) => ℝ) 0
  have e : {x : Fin (k + 1) → ℝ | x 0 ∈ S ∧ Fin.tail x ∈ D} = (MeasurableEquiv.piFinSuccAbove (fun _ : Fin (k + 1) => ℝ) 0) ⁻¹' (S ×ˢ D) := by
    ext x
    simp only [Set.mem_preimage, Set.mem_prod]
    rfl
  rw [e, h.measure_preimage_equiv, MeasureTheory.Measure.volume_eq_prod, MeasureTheory.Measure.prod_prod]

theorem volume_box (k : Nat) : MeasureTheory.volume (Set.pi Set.univ fun _ : Fin k => Set.Ico (0 : ℝ) 1) = 1 := by
  rw [MeasureTheory.volume_pi_pi]
  simp

theorem draws_le_one (calls : List (FCall A)) (b : FState A) (os : List Nat) :
    (MeasureTheory.volume (drawsFor F calls b os)).toReal ≤ 1 := by
  have hsub : drawsFor F calls b os ⊆ Set.pi Set.univ fun _ => Set.Ico 0 1 := by
    rintro x ⟨hx, -⟩ i -
    exact hx i
  have := MeasureTheory.measure_mono (μ := MeasureTheory.volume) hsub
  rw [volume_box] at this
  simpa using ENNReal.toReal_mono ENNReal.one_ne_top this

theorem drawsAt_finite (idx : List Nat) (b : FState A) (m : Nat) : MeasureTheory.volume (drawsAt F idx b m) ≠ ⊤ := by
  have h1 : MeasureTheory.volume (drawsAt F idx b m) ≤ MeasureTheory.volume (Set.Ico (0 : ℝ) 1) :=
    MeasureTheory.measure_mono fun x hx => ⟨hx.1, hx.2.1⟩
  rw [Real.volume_Ico] at h1
  exact ne_top_of_le_ne_top ENNReal.ofReal_ne_top h1

/-! ## Circuits -/

theorem one_le_stepErrR (hF : Ranged F u eta big) (hl : LowOK u eta big low n) (t : Nat) (q : QStep) :
    1 ≤ stepErrR A.u A.eta u eta low t n q := by
  cases q with
  | gate g back gs =>
    have h1 := gateErr_nonneg A.u_nonneg t gs.flatten.length
    have h2 := gateTiny_nonneg A.eta_nonneg n gs.flatten.length
    unfold stepErrR
    nlinarith
  | func => exact le_rfl
  | measure idx =>
    have h1 := collapseErrR_nonneg hF hl idx.length
    have h2 := drawErr_nonneg hF.nonneg hF.lt_one n
    have h3 := drawTiny_nonneg hF n
    have h4 := Real.sqrt_nonneg low
    unfold stepErrR
    nlinarith

theorem one_le_stepProdR (hF : Ranged F u eta big) (hl : LowOK u eta big low n) (t : Nat) (steps : List QStep) :
    1 ≤ (steps.map (stepErrR A.u A.eta u eta low t n)).prod := by
  induction steps with
  | nil => simp
  | cons q rest ih =>
    rw [List.map_cons, List.prod_cons]
    nlinarith [one_le_stepErrR (A := A) hF hl t q]

/-- The gates of the circuit are in the range of the arithmetic. -/
def StepRange (A : Arith) (t : Nat) : QStep → Prop
  | .gate _ _ gs => InRange A t gs.flatten.length
  | _ => True

/-- A call that is not a measurement. -/
theorem unit_next_ranged [A.Ranged] {q : QStep} (hs : StepOK n q) (hr : StepRange A t q) (hm : ∀ idx, q ≠ .measure idx) {call : FCall A}
    (hp : Performs A t n call q) {b : FState A} (hb : b.Full n) (h1 : 1 / 2 ≤ dist2 n (ampsOf b) 0) (h2 : dist2 n (ampsOf b) 0 ≤ 2) :
    ∃ b' : FState A, ∃ ε : ℝ, b'.Full n ∧ 0 ≤ ε ∧ stepErrR A.u A.eta u eta low t n q = (1 + ε) ^ 2 ∧
      (∀ rest xs, floatRun F (call :: rest) xs b = floatRun F rest xs b') ∧
      dist2 n (ampsOf b') (stepApply n q (ampsOf b)) ≤ ε * dist2 n (ampsOf b) 0 := by
  cases hp with
  | measure => exact absurd rfl (hm _)
  | @gate g back gs _ _ _ _ h1' h2' h3' =>
    obtain ⟨b', k1, k2, k3⟩ := kron_step_ranged hs hr (.gate h1' h2' h3') hb h1 h2
    refine ⟨b', _, k2, ?_, rfl, ?_, k3⟩
    · have h1 := gateErr_nonneg A.u_nonneg t gs.flatten.length
      have h2 := gateTiny_nonneg A.eta_nonneg n gs.flatten.length
      linarith
    intro rest xs
    rw [floatRun, k1]
    rfl
  | func ho =>
    obtain ⟨b', k1, k2, k3⟩ := func_step hs ho hb
    refine ⟨b', 0, k2, le_rfl, by simp [stepErrR], ?_, by rw [k3, zero_mul]⟩
    intro rest xs
    rw [floatRun, k1]
    rfl

/-- The computed norm stays near 1. -/
def NormNear (P T : ℝ) : Prop := |T - 1| ≤ 1 / 4 + 5 / 4 * (P - 1)

theorem NormNear.bounds {P R T : ℝ} (h : NormNear P T) (hP : 1 ≤ P) (hR : 1 ≤ R) (hPR : P * R - 1 ≤ 1 / 8) : 1 / 2 ≤ T ∧ T ≤ 3 / 2 := by
  have h1 : P ≤ P * R := le_mul_of_one_le_right (by linarith) hR
  have := abs_le.1 h
  constructor <;> linarith

theorem NormNear.unit {P T T' X : ℝ} (h : NormNear P T) (hX : 1 ≤ X) (hT' : |T' - T| ≤ (X - 1) * T) : NormNear (P * X) T' := by
  unfold NormNear at h ⊢
  have h1 := abs_le.1 h
  have h2 := abs_add_le (T' - T) (T - 1)
  rw [show T' - T + (T - 1) = T' - 1 by ring] at h2
  have h3 : (X - 1) * T ≤ (X - 1) * (5 / 4 + 5 / 4 * (P - 1)) := mul_le_mul_of_nonneg_left (by linarith) (by linarith)
  nlinarith

theorem dist_of_total {v : Nat → ℂ} (h1 : 1 / 2 ≤ totalProb n v) (h2 : totalProb n v ≤ 3 / 2) : 1 / 2 ≤ dist2 n v 0 ∧ dist2 n v 0 ≤ 2 := by
  rw [totalProb_dist] at h1 h2
  have := dist2_nonneg n v 0
  constructor <;> nlinarith

/-- An outcome with a probability of at most `low` in the computed state is unlikely in the exact one. -/
theorem low_outcome {idx : List Nat} {m : Nat} {s P : ℝ} {v w : Nat → ℂ} (hc : Close n s v w P) (hT : 1 / 2 ≤ totalProb n v)
    (hq : outcomeProb n idx v m ≤ low) : dist2 n (project n idx m w) 0 ≤ 2 * P * √low + (P - 1) := by
  have hs := hc.nonneg
  have h1 := dist2_triangle n (project n idx m w) (project n idx m fun c => s * v c) 0
  have h2 := (dist2_project (n := n) idx m (fun c => s * v c) w).trans hc.dist
  rw [dist2_comm] at h2
  have h3 : dist2 n (project n idx m fun c => s * v c) 0 = s * √(outcomeProb n idx v m) := by
    rw [project_scale, dist2_scale_zero hs, dist2_zero_project]
  have h4 : √(outcomeProb n idx v m) ≤ √low := Real.sqrt_le_sqrt hq
  have h5 : 1 / 2 ≤ dist2 n v 0 := by
    rw [totalProb_dist] at hT
    have := dist2_nonneg n v 0
    nlinarith
  have h6 := hc.scaled_norm
  have h7 : s ≤ 2 * P := by nlinarith
  have h8 := mul_le_mul h7 h4 (Real.sqrt_nonneg _) (by linarith [hc.one_le])
  linarith

theorem low_bound {a vol d x P E y low : ℝ} (ha0 : 0 ≤ a) (ha1 : a ≤ 1) (hv0 : 0 ≤ vol) (hv : vol ≤ 2 * low + 2 * d) (hl : low ≤ x)
    (hE : P * (1 + 2 * d + 4 * x) ≤ E) (hP : 1 ≤ P) (hd : 0 ≤ d) (hx : 0 ≤ x) (hy0 : 0 ≤ y) (hy : y ≤ 2 * P * x + (P - 1)) :
    |a * vol - y ^ 2| ≤ (E - 1) * (3 + (E - 1)) := by
  have hPd : d ≤ P * d := le_mul_of_one_le_left hd hP
  have hPx : x ≤ P * x := le_mul_of_one_le_left hx hP
  have h0 : a * vol ≤ vol := mul_le_of_le_one_left hv0 ha1
  have hE' : P + 2 * (P * d) + 4 * (P * x) ≤ E := by linarith
  have h1 : a * vol ≤ 3 * (E - 1) := by linarith
  have h2 : y ≤ E - 1 := by linarith
  have h3 : 0 ≤ a * vol := mul_nonneg ha0 hv0
  have h4 : y ^ 2 ≤ (E - 1) ^ 2 := pow_le_pow_left₀ hy0 h2 2
  have h5 : 0 ≤ E - 1 := by linarith
  rw [abs_le]
  constructor <;> nlinarith

theorem err_ge {P R γ d x : ℝ} (hP : 1 ≤ P) (hR : 1 ≤ R) (hγ : 0 ≤ γ) (hd : 0 ≤ d) (hx : 0 ≤ x) :
    P * (1 + 2 * d + 4 * x) ≤ P * ((1 + γ) ^ 2 + 2 * d + 4 * x) * R := by
  have h1 : P * (1 + 2 * d + 4 * x) ≤ P * ((1 + γ) ^ 2 + 2 * d + 4 * x) := by
    apply mul_le_mul_of_nonneg_left _ (by linarith)
    nlinarith
  exact h1.trans (le_mul_of_one_le_right (by positivity) hR)

theorem err_ge' {P γ d x : ℝ} (hP : 1 ≤ P) (hγ : 0 ≤ γ) (hd : 0 ≤ d) (hx : 0 ≤ x) :
    1 ≤ P * ((1 + γ) ^ 2 + 2 * d + 4 * x) ∧ P * (1 + γ) - 1 ≤ P * ((1 + γ) ^ 2 + 2 * d + 4 * x) - 1 := by
  have h1 : 1 + γ ≤ (1 + γ) ^ 2 + 2 * d + 4 * x := by nlinarith
  have h2 := mul_le_mul_of_nonneg_left h1 (by linarith : 0 ≤ P)
  constructor <;> nlinarith

theorem norm_measure {P γ d x T : ℝ} (hP : 1 ≤ P) (hγ : 0 ≤ γ) (hd : 0 ≤ d) (hx : 0 ≤ x) (h : |T - 1| ≤ (1 + γ) ^ 2 - 1) :
    NormNear (P * ((1 + γ) ^ 2 + 2 * d + 4 * x)) T := by
  unfold NormNear
  have h1 : (1 + γ) ^ 2 + 2 * d + 4 * x ≤ P * ((1 + γ) ^ 2 + 2 * d + 4 * x) := le_mul_of_one_le_left (by positivity) hP
  have h2 : 0 ≤ γ ^ 2 := sq_nonneg γ
  linarith

theorem prob_unit {s P a T T' ε : ℝ} (hε : 0 ≤ ε) (ha1 : a ≤ 1) (ha : |s ^ 2 * T - a| ≤ P - 1) (hT : |T' - T| ≤ ((1 + ε) ^ 2 - 1) * T) :
    |s ^ 2 * T' - a| ≤ P * (1 + ε) ^ 2 - 1 := by
  have h1 : |s ^ 2 * (T' - T)| ≤ P * ((1 + ε) ^ 2 - 1) := by
    rw [abs_mul, abs_of_nonneg (sq_nonneg s)]
    have h3 : s ^ 2 * T ≤ P := by linarith [(abs_le.1 ha).2]
    have h4 := mul_le_mul_of_nonneg_left hT (sq_nonneg s)
    have h5 : 0 ≤ (1 + ε) ^ 2 - 1 := by nlinarith
    nlinarith
  have e : s ^ 2 * T' - a = s ^ 2 * (T' - T) + (s ^ 2 * T - a) := by ring
  rw [e]
  refine (abs_add_le _ _).trans ?_
  linarith

theorem end_bound {s P a : ℝ} {v w : Nat → ℂ} (hc : Close n s v w P) (ha : |dist2 n (fun c => s * v c) 0 ^ 2 - a| ≤ P - 1) :
    |a - dist2 n w 0 ^ 2| ≤ (P - 1) * (3 + (P - 1)) := by
  have h1 := dist2_triangle n (fun c => s * v c) w 0
  have h2 := dist2_triangle n w (fun c => s * v c) 0
  rw [dist2_comm w (fun c => s * v c)] at h2
  have h3 := hc.dist
  have h4 := hc.norm
  have h5 := dist2_nonneg n w 0
  have h6 := dist2_nonneg n (fun c => s * v c) 0
  have h7 := abs_le.1 ha
  have hP := hc.one_le
  set x := dist2 n (fun c => s * v c) 0
  set y := dist2 n w 0
  have h8 : x ≤ y + (P - 1) := by linarith
  have h9 : y ≤ x + (P - 1) := by linarith
  rw [abs_le]
  constructor <;> nlinarith

theorem self_le_sqrt {x : ℝ} (h0 : 0 ≤ x) (h1 : x ≤ 1) : x ≤ √x := by
  have h2 := Real.sq_sqrt h0
  have h3 : √x ≤ 1 := Real.sqrt_le_one.2 h1
  nlinarith [Real.sqrt_nonneg x]

theorem joint_main_ranged [A.Ranged] (hF : Ranged F u eta big) (hl : LowOK u eta big low n) {calls : List (FCall A)} {steps : List QStep}
    (hp : List.Forall₂ (Performs A t n) calls steps) (hok : ∀ q ∈ steps, StepOK n q) (hr : ∀ q ∈ steps, StepRange A t q) {os : List Nat}
    (hlen : os.length = countMeasures steps) {b : FState A} (hb : b.Full n) {s P a : ℝ} {w : Nat → ℂ} (hc : Close n s (ampsOf b) w P)
    (hN : NormNear P (totalProb n (ampsOf b))) (ha0 : 0 ≤ a) (ha1 : a ≤ 1) (ha : |s ^ 2 * totalProb n (ampsOf b) - a| ≤ P - 1)
    (hsmall : P * (steps.map (stepErrR A.u A.eta u eta low t n)).prod - 1 ≤ 1 / 8) :
    |a * (MeasureTheory.volume (drawsFor F calls b os)).toReal - totalProb n (branchOf n steps os w)|
      ≤ (P * (steps.map (stepErrR A.u A.eta u eta low t n)).prod - 1) * (3 + (P * (steps.map (stepErrR A.u A.eta u eta low t n)).prod - 1)) := by
  induction hp generalizing os b s P a w with
  | nil =>
    cases os with
    | cons m os => simp [countMeasures] at hlen
    | nil =>
    have hv : MeasureTheory.volume (drawsFor F ([] : List (FCall A)) b []) = 1 := by
      have e : drawsFor F ([] : List (FCall A)) b [] = Set.pi Set.univ fun _ => Set.Ico (0 : ℝ) 1 := by
        ext x
        simp only [drawsFor, floatRun, Set.mem_ofPred_eq, Set.mem_univ_pi]
        simp
      rw [e, volume_box]
    simp only [List.map_nil, List.prod_nil, mul_one, branchOf]
    rw [hv, ENNReal.toReal_one, mul_one, totalProb_dist]
    rw [totalProb_dist, ← mul_pow, ← dist2_scale_zero hc.nonneg] at ha
    exact end_bound hc ha
  | @cons call q calls steps hpq hrest ih =>
    have hq := hok q (by simp)
    have hok' : ∀ q ∈ steps, StepOK n q := fun q hq => hok q (by simp [hq])
    have hr' : ∀ q ∈ steps, StepRange A t q := fun q hq => hr q (by simp [hq])
    have hX := one_le_stepErrR (A := A) hF hl t q
    have hPr := one_le_stepProdR (A := A) hF hl t steps
    have hb' := hN.bounds hc.one_le (one_le_stepProdR (A := A) hF hl t (q :: steps)) hsmall
    rw [List.map_cons, List.prod_cons, ← mul_assoc] at hsmall ⊢
    by_cases hm : ∀ idx, q ≠ .measure idx
    · obtain ⟨d1, d2⟩ := dist_of_total hb'.1 hb'.2
      obtain ⟨b', ε, k1, k2, k3, k4, k5⟩ := unit_next_ranged (F := F) (u := u) (eta := eta) (low := low) hq (hr q (by simp)) hm hpq hb d1 d2
      have hiso := iso_step hq hm
      obtain ⟨t1, t2⟩ := total_unit hiso k2 k5
      rw [k3] at hsmall hX ⊢
      have hc' := close_unit hiso hc k2 k5
      have := ih hok' hr' (hlen.trans (branchOf_unit (n := n) hm steps os w).2) k1 hc' (hN.unit hX t1) ha0 ha1
        (prob_unit k2 ha1 ha t1) hsmall
      have e : drawsFor F (call :: calls) b os = drawsFor F calls b' os := by
        unfold drawsFor
        simp only [k4]
      rw [(branchOf_unit hm steps os w).1, e]
      exact this
    · have hm : ∃ idx, q = .measure idx := by
        by_contra h
        exact hm fun idx he => h ⟨idx, he⟩
      obtain ⟨idx, rfl⟩ := hm
      cases hpq
      cases os with
      | nil => simp [countMeasures] at hlen
      | cons m os =>
      have hγ := collapseErrR_nonneg hF hl idx.length
      have hd1 := drawErr_nonneg hF.nonneg hF.lt_one n
      have hd2 := drawTiny_nonneg hF n
      have hP := hc.one_le
      have hs4 := Real.sqrt_nonneg low
      have hpT := outcome_le_total (n := n) idx m (ampsOf b)
      have hborn := born_at_ranged hF hl hq hb hb'.1 (by linarith [hb'.2]) m
      have hvol0 : 0 ≤ (MeasureTheory.volume (drawsAt F idx b m)).toReal := ENNReal.toReal_nonneg
      have hvol1 : (MeasureTheory.volume (drawsAt F idx b m)).toReal ≤ 1 := volume_le_one fun x hx => ⟨hx.1, hx.2.1⟩
      have hd0 : 0 ≤ drawErr u n + 2 * drawTiny u eta n := by linarith
      have est : stepErrR A.u A.eta u eta low t n (.measure idx) = (1 + collapseErrR u eta low n idx.length) ^ 2
          + 2 * (drawErr u n + 2 * drawTiny u eta n) + 4 * √low := rfl
      rw [est] at hsmall hX ⊢
      generalize hγe : collapseErrR u eta low n idx.length = γ at *
      generalize hde : drawErr u n + 2 * drawTiny u eta n = d at *
      simp only [branchOf, List.headD_cons, List.tail_cons]
      rcases lt_or_ge low (outcomeProb n idx (ampsOf b) m) with hq' | hq'
      · have hγ1 : γ ≤ 1 := by
          have h1 := factor_lt_two (P := P) (X := (1 + γ) ^ 2 + 2 * d + 4 * √low) hP hPr (by positivity) (by linarith)
          nlinarith
        obtain ⟨b', k1, k2, k3⟩ := measure_next_ranged hF hl hq hb (by linarith [hb'.2]) hq' (by rw [hγe]; exact hγ1)
        rw [hγe] at k3
        obtain ⟨j1, j2, j3⟩ := close_measure hc hγ (hl.pos.trans hq') k3
        have hpm := prob_measure hP ha0 ha1 (by linarith [hb'.1]) (outcomeProb_nonneg _ _ _ _) hpT ha hborn hγ j2 hd0
        have hc' : Close n (s * √(outcomeProb n idx (ampsOf b) m)) (ampsOf b') (project n idx m w)
            (P * ((1 + γ) ^ 2 + 2 * d + 4 * √low)) := by
          refine ⟨mul_nonneg hc.nonneg (Real.sqrt_nonneg _), (err_ge' hP hγ hd0 hs4).1, j1.trans (err_ge' hP hγ hd0 hs4).2, ?_⟩
          · rw [dist2_zero_project]
            refine (Real.sqrt_le_sqrt (outcome_le_total _ _ _)).trans ?_
            rw [totalProb_dist, Real.sqrt_sq (dist2_nonneg _ _ _)]
            exact hc.norm
        have hN' : NormNear (P * ((1 + γ) ^ 2 + 2 * d + 4 * √low)) (totalProb n (ampsOf b')) := by
          exact norm_measure hP hγ hd0 hs4 j2
        have := ih hok' hr' (os := os) (by simpa [countMeasures] using hlen) k1 hc' hN' (mul_nonneg ha0 hvol0)
          (by nlinarith) (hpm.trans (by nlinarith)) hsmall
        have e : (MeasureTheory.volume (drawsFor F (.measure idx :: calls) b (m :: os))).toReal
            = (MeasureTheory.volume (drawsAt F idx b m)).toReal * (MeasureTheory.volume (drawsFor F calls b' os)).toReal := by
          rw [draws_cons calls k2 os]
          rw [← ENNReal.toReal_mul, ← volume_cons]
        rw [e, ← mul_assoc]
        exact this
      · -- an unlikely outcome
        have hlow := low_outcome hc hb'.1 hq'
        have hbn := (branchOf_norm (n := n) hok' os (project n idx m w)).trans hlow
        have hbn0 := dist2_nonneg n (branchOf n steps os (project n idx m w)) 0
        rw [totalProb_dist]
        have hvol : (MeasureTheory.volume (drawsFor F (.measure idx :: calls) b (m :: os))).toReal
            ≤ (MeasureTheory.volume (drawsAt F idx b m)).toReal := by
          have h1 := MeasureTheory.measure_mono (μ := MeasureTheory.volume) (draws_sub (F := F) idx calls b m os)
          rw [volume_cons, volume_box, mul_one] at h1
          exact ENNReal.toReal_mono (drawsAt_finite idx b m) h1
        have hvol0' : 0 ≤ (MeasureTheory.volume (drawsFor F (.measure idx :: calls) b (m :: os))).toReal := ENNReal.toReal_nonneg
        have hqT : outcomeProb n idx (ampsOf b) m / totalProb n (ampsOf b) ≤ 2 * low := by
          rw [div_le_iff₀ (by linarith [hb'.1])]
          have h1 := mul_le_mul_of_nonneg_left hb'.1 hl.pos.le
          linarith
        have hl2 := self_le_sqrt hl.pos.le hl.le_one
        have hb2 := (abs_le.1 hborn).2
        have hE := err_ge hP hPr hγ hd0 hs4
        generalize P * ((1 + γ) ^ 2 + 2 * d + 4 * √low) * (steps.map (stepErrR A.u A.eta u eta low t n)).prod = E at hE hsmall ⊢
        exact low_bound ha0 ha1 hvol0' (by linarith) hl2 hE hP hd0 hs4 hbn0 hbn

/-- C97 (probabilities, with underflow and overflow): a circuit of gates, inverse gates, oracles and measurements in floating point, from a
state whose norm is near 1.  The draws with which the measurements give the outcomes `os` have the probability of Born's rule up to an
explicit error. -/
theorem C97_ranged_joint_partial [A.Ranged] (hF : Ranged F u eta big) (hl : LowOK u eta big low n) {calls : List (FCall A)}
    {steps : List QStep} (hp : List.Forall₂ (Performs A t n) calls steps) (hok : ∀ q ∈ steps, StepOK n q)
    (hr : ∀ q ∈ steps, StepRange A t q) (hsmall : circuitErrR A.u A.eta u eta low t n steps ≤ 1 / 8) {b : FState A} (hb : b.Full n)
    (hT : |totalProb n (ampsOf b) - 1| ≤ 1 / 4) {os : List Nat} (hlen : os.length = countMeasures steps) :
    |(MeasureTheory.volume (drawsFor F calls b os)).toReal - branchProb n steps os (ampsOf b)|
      ≤ circuitErrR A.u A.eta u eta low t n steps * (3 + circuitErrR A.u A.eta u eta low t n steps) := by
  have hT0 : 0 < totalProb n (ampsOf b) := by linarith [(abs_le.1 hT).1]
  have hN := norm_pos hT0
  have := joint_main_ranged hF hl hp hok hr hlen hb (close_start hT0) (by unfold NormNear; linarith) zero_le_one le_rfl (by
      rw [totalProb_dist]
      rw [show (1 / dist2 n (ampsOf b) 0) ^ 2 * dist2 n (ampsOf b) 0 ^ 2 - 1 = 0 by field_simp; ring]
      simp) (by rw [one_mul]; exact hsmall)
  rw [branch_start hok os hT0, one_mul, one_mul] at this
  exact this

theorem state_main_ranged [A.Ranged] (hF : Ranged F u eta big) (hl : LowOK u eta big low n) {calls : List (FCall A)} {steps : List QStep}
    (hp : List.Forall₂ (Performs A t n) calls steps) (hok : ∀ q ∈ steps, StepOK n q) (hr : ∀ q ∈ steps, StepRange A t q)
    {b b' : FState A} (hb : b.Full n) {s P : ℝ} {w : Nat → ℂ} (hc : Close n s (ampsOf b) w P) (hs : 0 < s)
    (hN : NormNear P (totalProb n (ampsOf b))) (hsmall : P * (steps.map (stepErrR A.u A.eta u eta low t n)).prod - 1 ≤ 1 / 8)
    {xs : List ℝ} (hx : ∀ x ∈ xs, 0 ≤ x ∧ x < 1) {os : List Nat} (hrun : floatRun F calls xs b = .ok (os, b')) :
    (∃ s' : ℝ, 0 < s' ∧ Close n s' (ampsOf b') (branchOf n steps os w) (P * (steps.map (stepErrR A.u A.eta u eta low t n)).prod)) ∨
      dist2 n (branchOf n steps os w) 0 ≤ P * (steps.map (stepErrR A.u A.eta u eta low t n)).prod - 1 := by
  induction hp generalizing os b s P w xs with
  | nil =>
    simp only [floatRun, Except.ok.injEq, Prod.mk.injEq] at hrun
    obtain ⟨rfl, rfl⟩ := hrun
    exact .inl ⟨s, hs, by simpa [branchOf] using hc⟩
  | @cons call q calls steps hpq hrest ih =>
    have hq := hok q (by simp)
    have hok' : ∀ q ∈ steps, StepOK n q := fun q hq => hok q (by simp [hq])
    have hr' : ∀ q ∈ steps, StepRange A t q := fun q hq => hr q (by simp [hq])
    have hX := one_le_stepErrR (A := A) hF hl t q
    have hPr := one_le_stepProdR (A := A) hF hl t steps
    have hb' := hN.bounds hc.one_le (one_le_stepProdR (A := A) hF hl t (q :: steps)) hsmall
    rw [List.map_cons, List.prod_cons, ← mul_assoc] at hsmall ⊢
    by_cases hm : ∀ idx, q ≠ .measure idx
    · obtain ⟨d1, d2⟩ := dist_of_total hb'.1 hb'.2
      obtain ⟨b1, ε, k1, k2, k3, k4, k5⟩ := unit_next_ranged (F := F) (u := u) (eta := eta) (low := low) hq (hr q (by simp)) hm hpq hb d1 d2
      have hiso := iso_step hq hm
      rw [k4] at hrun
      rw [k3] at hsmall hX
      rw [k3, (branchOf_unit hm steps os w).1]
      exact ih hok' hr' k1 (close_unit hiso hc k2 k5) hs (hN.unit hX (total_unit hiso k2 k5).1) hsmall hx hrun
    · have hm : ∃ idx, q = .measure idx := by
        by_contra h
        exact hm fun idx he => h ⟨idx, he⟩
      obtain ⟨idx, rfl⟩ := hm
      cases hpq
      have hx0 : 0 ≤ xs.headD 0 ∧ xs.headD 0 < 1 := by
        cases xs with
        | nil => exact ⟨le_rfl, one_pos⟩
        | cons x xs => exact hx x (by simp)
      rw [floatRun] at hrun
      rcases hme : b.measure F idx (xs.headD 0) with e | ⟨m, p, b1⟩
      · rw [hme] at hrun
        simp [bind, Except.bind] at hrun
      rw [hme] at hrun
      simp only [bind, Except.bind] at hrun
      rcases hfr : floatRun F calls xs.tail b1 with e | ⟨ms, b4⟩
      · rw [hfr] at hrun
        simp at hrun
      rw [hfr] at hrun
      simp only [pure, Except.pure, Except.ok.injEq, Prod.mk.injEq] at hrun
      obtain ⟨rfl, rfl⟩ := hrun
      have hγ := collapseErrR_nonneg hF hl idx.length
      have hd1 := drawErr_nonneg hF.nonneg hF.lt_one n
      have hd2 := drawTiny_nonneg hF n
      have hP := hc.one_le
      have hs4 := Real.sqrt_nonneg low
      have hd0 : 0 ≤ drawErr u n + 2 * drawTiny u eta n := by linarith
      have est : stepErrR A.u A.eta u eta low t n (.measure idx) = (1 + collapseErrR u eta low n idx.length) ^ 2
          + 2 * (drawErr u n + 2 * drawTiny u eta n) + 4 * √low := rfl
      rw [est] at hsmall hX ⊢
      generalize hγe : collapseErrR u eta low n idx.length = γ at *
      generalize hde : drawErr u n + 2 * drawTiny u eta n = d at *
      simp only [branchOf, List.headD_cons, List.tail_cons]
      rcases lt_or_ge low (outcomeProb n idx (ampsOf b) m) with hq' | hq'
      · have hγ1 : γ ≤ 1 := by
          have h1 := factor_lt_two (P := P) (X := (1 + γ) ^ 2 + 2 * d + 4 * √low) hP hPr (by positivity) (by linarith)
          nlinarith
        obtain ⟨b2, k1, k2, k3⟩ := measure_next_ranged hF hl hq hb (by linarith [hb'.2]) hq' (by rw [hγe]; exact hγ1)
        rw [hγe] at k3
        have hmem : xs.headD 0 ∈ drawsAt F idx b m := ⟨hx0.1, hx0.2, p, b1, hme⟩
        obtain ⟨p', hp'⟩ := k2 _ hmem
        rw [hme] at hp'
        simp only [Except.ok.injEq, Prod.mk.injEq] at hp'
        obtain ⟨-, -, rfl⟩ := hp'
        obtain ⟨j1, j2, j3⟩ := close_measure hc hγ (hl.pos.trans hq') k3
        have hc' : Close n (s * √(outcomeProb n idx (ampsOf b) m)) (ampsOf b1) (project n idx m w)
            (P * ((1 + γ) ^ 2 + 2 * d + 4 * √low)) := by
          refine ⟨mul_nonneg hc.nonneg (Real.sqrt_nonneg _), (err_ge' hP hγ hd0 hs4).1, j1.trans (err_ge' hP hγ hd0 hs4).2, ?_⟩
          · rw [dist2_zero_project]
            refine (Real.sqrt_le_sqrt (outcome_le_total _ _ _)).trans ?_
            rw [totalProb_dist, Real.sqrt_sq (dist2_nonneg _ _ _)]
            exact hc.norm
        have hN' : NormNear (P * ((1 + γ) ^ 2 + 2 * d + 4 * √low)) (totalProb n (ampsOf b1)) := by
          exact norm_measure hP hγ hd0 hs4 j2
        exact ih hok' hr' k1 hc' (mul_pos hs (Real.sqrt_pos.2 (hl.pos.trans hq'))) hN' hsmall
          (fun x hx' => hx x (List.mem_of_mem_tail hx')) hfr
      · right
        have hlow := low_outcome hc hb'.1 hq'
        refine (branchOf_norm (n := n) hok' ms (project n idx m w)).trans (hlow.trans ?_)
        have hE := err_ge hP hPr hγ hd0 hs4
        have hPd : d ≤ P * d := le_mul_of_one_le_left hd0 hP
        have hPs : √low ≤ P * √low := le_mul_of_one_le_left hs4 hP
        nlinarith

theorem normalised_le (v : Nat → ℂ) : dist2 n (fun c => ((1 / √(totalProb n v) : ℝ) : ℂ) * v c) 0 ≤ 1 := by
  have e1 : √(totalProb n v) = dist2 n v 0 := by rw [totalProb_dist, Real.sqrt_sq (dist2_nonneg _ _ _)]
  rw [e1, dist2_scale_zero (one_div_nonneg.2 (dist2_nonneg _ _ _)), one_div]
  exact inv_mul_le_one

theorem branchProb_dist {steps : List QStep} (os : List Nat) (v : Nat → ℂ) :
    √(branchProb n steps os v) = dist2 n (branchOf n steps os v) 0 / dist2 n v 0 := by
  unfold branchProb
  rw [totalProb_dist, totalProb_dist, ← div_pow, Real.sqrt_sq (div_nonneg (dist2_nonneg _ _ _) (dist2_nonneg _ _ _))]

/-- C97 (states, with underflow and overflow): after a run with draws in `[0, 1)` the state is, up to normalisation, that of the branch of
the outcomes; the error is relative to the square root of the probability of the branch. -/
theorem C97_ranged_state_partial [A.Ranged] (hF : Ranged F u eta big) (hl : LowOK u eta big low n) {calls : List (FCall A)}
    {steps : List QStep} (hp : List.Forall₂ (Performs A t n) calls steps) (hok : ∀ q ∈ steps, StepOK n q)
    (hr : ∀ q ∈ steps, StepRange A t q) (hsmall : circuitErrR A.u A.eta u eta low t n steps ≤ 1 / 8) {b b' : FState A} (hb : b.Full n)
    (hT : |totalProb n (ampsOf b) - 1| ≤ 1 / 4) {xs : List ℝ} (hx : ∀ x ∈ xs, 0 ≤ x ∧ x < 1) {os : List Nat}
    (hrun : floatRun F calls xs b = .ok (os, b')) (hpos : 0 < branchProb n steps os (ampsOf b)) :
    dist2 n (fun c => ((1 / √(totalProb n (ampsOf b')) : ℝ) : ℂ) * ampsOf b' c)
        (fun c => ((1 / √(totalProb n (branchOf n steps os (ampsOf b))) : ℝ) : ℂ) * branchOf n steps os (ampsOf b) c)
      ≤ 2 * circuitErrR A.u A.eta u eta low t n steps / √(branchProb n steps os (ampsOf b)) := by
  have hT0 : 0 < totalProb n (ampsOf b) := by linarith [(abs_le.1 hT).1]
  have hN := norm_pos hT0
  have hm := state_main_ranged hF hl hp hok hr hb (close_start hT0) (by positivity) (by unfold NormNear; linarith)
    (by rw [one_mul]; exact hsmall) hx hrun
  rw [one_mul] at hm
  have hbs := branch_start hok os hT0
  have e1 : ∀ v, √(totalProb n v) = dist2 n v 0 := fun v => by rw [totalProb_dist, Real.sqrt_sq (dist2_nonneg _ _ _)]
  set w := branchOf n steps os fun c => ((1 / dist2 n (ampsOf b) 0 : ℝ) : ℂ) * ampsOf b c with hw
  rcases hm with ⟨s, hs, h3⟩ | h3
  · rw [← hbs] at hpos ⊢
    have h4 := normalised_dist hs h3.dist (norm_pos hpos)
    rw [e1, e1, e1]
    refine le_trans (le_of_eq ?_) h4
    apply dist2_congr fun _ _ => rfl
    intro r hr
    have hsc := branchOf_scale hok os (1 / dist2 n (ampsOf b) 0) (x := fun c => ((1 / dist2 n (ampsOf b) 0 : ℝ) : ℂ) * ampsOf b c)
      (v := ampsOf b) fun _ _ => rfl
    have hsn : dist2 n w 0 = 1 / dist2 n (ampsOf b) 0 * dist2 n (branchOf n steps os (ampsOf b)) 0 := by
      rw [← dist2_scale_zero (by positivity)]
      exact dist2_congr hsc fun _ _ => rfl
    have hwpos := norm_pos hpos
    rw [hsn] at hwpos
    have hy : 0 < dist2 n (branchOf n steps os (ampsOf b)) 0 := pos_of_mul_pos_right hwpos (by positivity)
    have hwr : w r = _ := hsc r hr
    rw [hsn, hwr, ← mul_assoc, ← Complex.ofReal_mul]
    congr 2
    field_simp
  · -- the branch is unlikely: the bound is at least 2
    have h5 := dist2_triangle n (fun c => ((1 / √(totalProb n (ampsOf b')) : ℝ) : ℂ) * ampsOf b' c) 0
      (fun c => ((1 / √(totalProb n (branchOf n steps os (ampsOf b))) : ℝ) : ℂ) * branchOf n steps os (ampsOf b) c)
    rw [dist2_comm 0] at h5
    have h6 := normalised_le (n := n) (ampsOf b')
    have h7 := normalised_le (n := n) (branchOf n steps os (ampsOf b))
    have h8 : √(branchProb n steps os (ampsOf b)) ≤ circuitErrR A.u A.eta u eta low t n steps := by
      rw [← hbs, e1]
      exact h3
    have h9 : 2 ≤ 2 * circuitErrR A.u A.eta u eta low t n steps / √(branchProb n steps os (ampsOf b)) := by
      rw [le_div_iff₀ (Real.sqrt_pos.2 hpos)]
      linarith
    linarith

theorem succeeds_main_ranged [A.Ranged] (hF : Ranged F u eta big) (hl : LowOK u eta big low n) {calls : List (FCall A)} {steps : List QStep}
    (hp : List.Forall₂ (Performs A t n) calls steps) (hok : ∀ q ∈ steps, StepOK n q) (hr : ∀ q ∈ steps, StepRange A t q)
    {b : FState A} (hb : b.Full n) {s P : ℝ} {w : Nat → ℂ} (hc : Close n s (ampsOf b) w P)
    (hN : NormNear P (totalProb n (ampsOf b))) (hsmall : P * (steps.map (stepErrR A.u A.eta u eta low t n)).prod - 1 ≤ 1 / 8)
    {xs : List ℝ} (hlen : xs.length = countMeasures steps)
    (hx : ∀ x ∈ xs, 2 * drawTiny u eta n < x ∧ x < 1 - drawErr u n - 2 * drawTiny u eta n) :
    (∃ os b', floatRun F calls xs b = .ok (os, b')) ∨
      ∃ k os b', floatRun F (calls.take k) xs b = .ok (os, b') ∧
        dist2 n (branchOf n (steps.take k) os w) 0 ≤ P * (steps.map (stepErrR A.u A.eta u eta low t n)).prod - 1 := by
  induction hp generalizing b s P w xs with
  | nil => exact .inl ⟨[], b, rfl⟩
  | @cons call q calls steps hpq hrest ih =>
    have hq := hok q (by simp)
    have hok' : ∀ q ∈ steps, StepOK n q := fun q hq => hok q (by simp [hq])
    have hr' : ∀ q ∈ steps, StepRange A t q := fun q hq => hr q (by simp [hq])
    have hX := one_le_stepErrR (A := A) hF hl t q
    have hPr := one_le_stepProdR (A := A) hF hl t steps
    have hb' := hN.bounds hc.one_le (one_le_stepProdR (A := A) hF hl t (q :: steps)) hsmall
    rw [List.map_cons, List.prod_cons, ← mul_assoc] at hsmall ⊢
    by_cases hm : ∀ idx, q ≠ .measure idx
    · obtain ⟨d1, d2⟩ := dist_of_total hb'.1 hb'.2
      obtain ⟨b1, ε, k1, k2, k3, k4, k5⟩ := unit_next_ranged (F := F) (u := u) (eta := eta) (low := low) hq (hr q (by simp)) hm hpq hb d1 d2
      have hiso := iso_step hq hm
      rw [k3] at hsmall hX
      rw [k3]
      rcases ih hok' hr' k1 (close_unit hiso hc k2 k5) (hN.unit hX (total_unit hiso k2 k5).1) hsmall
        (hlen.trans (branchOf_unit (n := n) hm steps [] 0).2) hx with ⟨os, b', h⟩ | ⟨k, os, b', h1, h2⟩
      · exact .inl ⟨os, b', by rw [k4]; exact h⟩
      · refine .inr ⟨k + 1, os, b', ?_, ?_⟩
        · rw [List.take_succ_cons, k4]
          exact h1
        · rw [List.take_succ_cons, (branchOf_unit hm _ os w).1]
          exact h2
    · have hm : ∃ idx, q = .measure idx := by
        by_contra h
        exact hm fun idx he => h ⟨idx, he⟩
      obtain ⟨idx, rfl⟩ := hm
      cases hpq
      cases xs with
      | nil => simp [countMeasures] at hlen
      | cons x xs =>
      have ea : (fun c => (b.state.map FC.val).getD c 0) = ampsOf b := funext (ampsOf_map b)
      obtain ⟨hx0, hx1⟩ := hx x (by simp)
      have hd1 := drawErr_nonneg hF.nonneg hF.lt_one n
      have hd2 := drawTiny_nonneg hF n
      have hroom := roomR_mono hF hl.room (show totalProb n (ampsOf b) ≤ 2 by linarith [hb'.2])
      obtain ⟨m, p, out', h1, -, -⟩ := C95_ranged_possible_partial hF hq (vec := b.state.map FC.val) (out := b.arena.map FC.val)
        (by simp [hb.state]) (by simp [hb.arena]) (by rw [ea]; exact hroom) (x := x) (by rw [ea]; nlinarith [hb'.1])
        (by rw [ea]; nlinarith [hb'.1])
      have hmem : x ∈ drawsAt F idx b m := by
        rw [drawsAt_eq idx hb]
        exact ⟨by linarith, by linarith, p, out', h1⟩
      have hγ := collapseErrR_nonneg hF hl idx.length
      have hP := hc.one_le
      have hs4 := Real.sqrt_nonneg low
      have hd0 : 0 ≤ drawErr u n + 2 * drawTiny u eta n := by linarith
      have est : stepErrR A.u A.eta u eta low t n (.measure idx) = (1 + collapseErrR u eta low n idx.length) ^ 2
          + 2 * (drawErr u n + 2 * drawTiny u eta n) + 4 * √low := rfl
      rw [est] at hsmall hX ⊢
      generalize hγe : collapseErrR u eta low n idx.length = γ at *
      generalize hde : drawErr u n + 2 * drawTiny u eta n = d at *
      rcases lt_or_ge low (outcomeProb n idx (ampsOf b) m) with hq' | hq'
      · have hγ1 : γ ≤ 1 := by
          have h1 := factor_lt_two (P := P) (X := (1 + γ) ^ 2 + 2 * d + 4 * √low) hP hPr (by positivity) (by linarith)
          nlinarith
        obtain ⟨b1, k1, k2, k3⟩ := measure_next_ranged hF hl hq hb (by linarith [hb'.2]) hq' (by rw [hγe]; exact hγ1)
        rw [hγe] at k3
        obtain ⟨p', hp'⟩ := k2 _ hmem
        obtain ⟨j1, j2, j3⟩ := close_measure hc hγ (hl.pos.trans hq') k3
        have hc' : Close n (s * √(outcomeProb n idx (ampsOf b) m)) (ampsOf b1) (project n idx m w)
            (P * ((1 + γ) ^ 2 + 2 * d + 4 * √low)) := by
          refine ⟨mul_nonneg hc.nonneg (Real.sqrt_nonneg _), (err_ge' hP hγ hd0 hs4).1, j1.trans (err_ge' hP hγ hd0 hs4).2, ?_⟩
          rw [dist2_zero_project]
          refine (Real.sqrt_le_sqrt (outcome_le_total _ _ _)).trans ?_
          rw [totalProb_dist, Real.sqrt_sq (dist2_nonneg _ _ _)]
          exact hc.norm
        rcases ih hok' hr' k1 hc' (norm_measure hP hγ hd0 hs4 j2) hsmall (xs := xs) (by simpa [countMeasures] using hlen)
          (fun y hy => hx y (by simp [hy])) with ⟨os, b2, h⟩ | ⟨k, os, b2, h1, h2⟩
        · refine .inl ⟨m :: os, b2, ?_⟩
          rw [floatRun, List.headD_cons, hp', List.tail_cons]
          simp only [bind, Except.bind]
          rw [h]
          rfl
        · refine .inr ⟨k + 1, m :: os, b2, ?_, ?_⟩
          · rw [List.take_succ_cons, floatRun, List.headD_cons, hp', List.tail_cons]
            simp only [bind, Except.bind]
            rw [h1]
            rfl
          · rw [List.take_succ_cons]
            exact h2
      · obtain ⟨-, -, p', b1, hp'⟩ := hmem
        refine .inr ⟨1, [m], b1, ?_, ?_⟩
        · rw [List.take_succ_cons, List.take_zero, floatRun, List.headD_cons, hp', List.tail_cons]
          rfl
        · have hlow := low_outcome hc hb'.1 hq'
          rw [List.take_succ_cons, List.take_zero]
          refine hlow.trans ?_
          have hE := err_ge hP hPr hγ hd0 hs4
          have hPd : d ≤ P * d := le_mul_of_one_le_left hd0 hP
          have hPs : √low ≤ P * √low := le_mul_of_one_le_left hs4 hP
          linarith

/-- C97 (success, with underflow and overflow): with draws that are not too close to 0 or 1 every measurement gives an outcome, unless the
outcomes of a part of the circuit had a tiny probability. -/
theorem C97_ranged_succeeds_partial [A.Ranged] (hF : Ranged F u eta big) (hl : LowOK u eta big low n) {calls : List (FCall A)}
    {steps : List QStep} (hp : List.Forall₂ (Performs A t n) calls steps) (hok : ∀ q ∈ steps, StepOK n q)
    (hr : ∀ q ∈ steps, StepRange A t q) (hsmall : circuitErrR A.u A.eta u eta low t n steps ≤ 1 / 8) {b : FState A} (hb : b.Full n)
    (hT : |totalProb n (ampsOf b) - 1| ≤ 1 / 4) {xs : List ℝ} (hlen : xs.length = countMeasures steps)
    (hx : ∀ x ∈ xs, 2 * drawTiny u eta n < x ∧ x < 1 - drawErr u n - 2 * drawTiny u eta n) :
    (∃ os b', floatRun F calls xs b = .ok (os, b')) ∨
      ∃ k os b', floatRun F (calls.take k) xs b = .ok (os, b') ∧
        branchProb n (steps.take k) os (ampsOf b) ≤ circuitErrR A.u A.eta u eta low t n steps ^ 2 := by
  have hT0 : 0 < totalProb n (ampsOf b) := by linarith [(abs_le.1 hT).1]
  have hN := norm_pos hT0
  rcases succeeds_main_ranged hF hl hp hok hr hb (close_start hT0) (by unfold NormNear; linarith) (by rw [one_mul]; exact hsmall) hlen hx
    with h | ⟨k, os, b', h1, h2⟩
  · exact .inl h
  · refine .inr ⟨k, os, b', h1, ?_⟩
    rw [one_mul] at h2
    rw [← branch_start (fun q hq => hok q (List.mem_of_mem_take hq)) os hT0, totalProb_dist]
    exact pow_le_pow_left₀ (dist2_nonneg _ _ _) h2 2

/-! ## Double precision -/

variable {D : Double}

theorem lowOK_binary64 (hn : n ≤ 20) : LowOK (8 * (1 / 2 ^ 53)) (8 * (1 / 2 ^ 1022)) (2 ^ 1023 / 4) (1 / 2 ^ 200) n := by
  have hη : (1 : ℝ) / 2 ^ 1022 ≤ 1 / 2 ^ 60 := one_div_le_one_div_of_le (by positivity) (pow_le_pow_right₀ (by norm_num) (by norm_num))
  have h9 : (1 : ℝ) / 2 ^ 900 < 1 / 2 ^ 200 := one_div_lt_one_div_of_lt (by positivity) (pow_lt_pow_right₀ (by norm_num) (by norm_num))
  refine ⟨by positivity, ?_, (C95_binary64_tiny (by omega)).1.trans_lt h9, ?_, binary64_room (by omega) le_rfl, ?_⟩
  · rw [div_le_one (by positivity)]
    exact one_le_pow₀ (by norm_num)
  · have h1 : (2 : ℝ) ^ 205 ≤ 2 ^ 1023 := pow_le_pow_right₀ (by norm_num) (by norm_num)
    have h2 : (2 : ℝ) ^ 205 = 32 * 2 ^ 200 := by rw [show (205 : Nat) = 5 + 200 by norm_num, pow_add]; norm_num
    rw [div_div_eq_mul_div, div_one, le_div_iff₀ (by norm_num)]
    refine le_trans (le_of_eq ?_) h1
    rw [h2]
    ring
  · norm_num at hη ⊢
    linarith

theorem factor_pow_49 {K : Nat} {B : ℝ} (hK : (K : ℝ) ≤ B) (hB : B ≤ 2 ^ 30) {x : ℝ} (hx0 : 0 ≤ x) (hx : x ≤ 1 / 2 ^ 49) :
    factor x ^ K - 1 ≤ 4 * B / 2 ^ 49 := by
  have hf : factor x ≤ 1 + 2 * (1 / 2 ^ 49) := by
    refine (factor_mono hx (by norm_num)).trans ?_
    unfold factor
    rw [div_le_iff₀ (by norm_num)]
    norm_num
  have hf0 : (0 : ℝ) ≤ factor x := le_trans zero_le_one (one_le_factor hx0 (lt_of_le_of_lt hx (by norm_num)))
  have h1 := pow_le_pow_left₀ hf0 hf K
  have h2 := pow_bound (u := 2 * (1 / 2 ^ 49)) (by positivity) (k := K) (by
    norm_num at hB ⊢
    linarith)
  norm_num at h1 h2 ⊢
  linarith

theorem collapse_binary64 {k : Nat} (hn : n ≤ 20) :
    collapseErrR (8 * (1 / 2 ^ 53)) (8 * (1 / 2 ^ 1022)) (1 / 2 ^ 200) n k ≤ 1 / 2 ^ 26 := by
  have hη : (1 : ℝ) / 2 ^ 1022 ≤ 1 / 2 ^ 60 := one_div_le_one_div_of_le (by positivity) (pow_le_pow_right₀ (by norm_num) (by norm_num))
  have hη0 : (0 : ℝ) ≤ 1 / 2 ^ 1022 := by positivity
  obtain ⟨K, hK⟩ : ∃ K, K = 2 ^ (n - k) + 4 := ⟨_, rfl⟩
  have hK' : (K : ℝ) ≤ 1048580 := by
    have := Nat.pow_le_pow_right (show 0 < 2 by omega) (show n - k ≤ 20 by omega)
    have h : K ≤ 1048580 := by omega
    exact_mod_cast h
  have h1 := factor_pow_49 hK' (by norm_num) (x := 8 * (1 / 2 ^ 53) + 4 * (8 * (1 / 2 ^ 1022))) (by positivity) (by
    norm_num at hη ⊢
    linarith)
  have hd : drawTiny (8 * (1 / 2 ^ 53)) (8 * (1 / 2 ^ 1022)) n / (1 / 2 ^ 200) ≤ 1 / 2 ^ 49 := by
    rw [div_le_iff₀ (by positivity)]
    refine (C95_binary64_tiny (by omega)).1.trans ?_
    rw [div_mul_div_comm, one_mul, ← pow_add]
    exact one_div_le_one_div_of_le (by positivity) (pow_le_pow_right₀ (by norm_num) (by norm_num))
  have hd0 := div_nonneg (drawTiny_nonneg binary64_ranged n) (show (0 : ℝ) ≤ 1 / 2 ^ 200 by positivity)
  have h2 := factor_pow_49 (K := 1) (B := 1) (by norm_num) (by norm_num) hd0 hd
  rw [pow_one] at h2
  have h3 : √((2 : ℝ) ^ n) ≤ 2 ^ 10 := by
    rw [Real.sqrt_le_left (by positivity), ← pow_mul]
    exact pow_le_pow_right₀ (by norm_num) (by omega)
  have h4 : √((2 : ℝ) ^ n) * (8 * (1 / 2 ^ 1022)) ≤ 2 ^ 10 * (8 * (1 / 2 ^ 60)) :=
    mul_le_mul h3 (by linarith) (by positivity) (by positivity)
  have h0 := one_le_factor hd0 (lt_of_le_of_lt hd (by norm_num))
  unfold collapseErrR
  rw [← hK]
  generalize factor (8 * (1 / 2 ^ 53) + 4 * (8 * (1 / 2 ^ 1022))) ^ K = x at *
  generalize factor (drawTiny (8 * (1 / 2 ^ 53)) (8 * (1 / 2 ^ 1022)) n / (1 / 2 ^ 200)) = y at *
  generalize √((2 : ℝ) ^ n) * (8 * (1 / 2 ^ 1022)) = z at *
  have h5 : x * y ≤ (1 + 4 * 1048580 / 2 ^ 49) * (1 + 4 * 1 / 2 ^ 49) := mul_le_mul (by linarith) (by linarith) (by linarith) (by positivity)
  norm_num at h4 h5 ⊢
  linarith

theorem draw_binary64 (hn : n ≤ 20) : drawErr (8 * (1 / 2 ^ 53)) n ≤ 1 / 2 ^ 25 := by
  unfold drawErr
  obtain ⟨L, hL⟩ : ∃ L, L = 2 ^ (n + 1) + 2 := ⟨_, rfl⟩
  rw [← hL]
  have hL' : (L : ℝ) ≤ 2097154 := by
    have := Nat.pow_le_pow_right (show 0 < 2 by omega) (show n + 1 ≤ 21 by omega)
    have h : L ≤ 2097154 := by omega
    exact_mod_cast h
  have e : (8 * (1 / 2 ^ 53) : ℝ) = 1 / 2 ^ 50 := by norm_num
  rw [e]
  have h2 := factor_pow_double hL' (by norm_num)
  norm_num at h2 ⊢
  linarith

/-- Every step in double precision on at most 20 qubits, with underflow and overflow. -/
theorem stepErrR_binary64 (hn : n ≤ 20) {q : QStep} (hw : ∀ g back gs, q = .gate g back gs → gs.flatten.length ≤ 3) :
    stepErrR (binary64 D).u (binary64 D).eta (8 * (1 / 2 ^ 53)) (8 * (1 / 2 ^ 1022)) (1 / 2 ^ 200) 8 n q ≤ 1 + 1 / 2 ^ 23 := by
  cases q with
  | func =>
    unfold stepErrR
    norm_num
  | gate g back gs =>
    have h1 := (gateErr_mono (binary64 D).u_nonneg (le_refl 8) (hw g back gs rfl)).trans gateErr_binary64
    have h2 := gateTiny_binary64 (D := D) (n := n) (by omega) (hw g back gs rfl)
    have h5 : (1 : ℝ) / 2 ^ 500 ≤ 1 / 2 ^ 60 := one_div_le_one_div_of_le (by positivity) (pow_le_pow_right₀ (by norm_num) (by norm_num))
    have h3 := gateErr_nonneg (binary64 D).u_nonneg 8 gs.flatten.length
    have h4 := gateTiny_nonneg (binary64 D).eta_nonneg n gs.flatten.length
    unfold stepErrR
    refine (pow_le_pow_left₀ (by linarith) (by linarith :
      1 + (gateErr (binary64 D).u 8 gs.flatten.length + 2 * gateTiny (binary64 D).eta n gs.flatten.length) ≤ 1 + (950 / 2 ^ 53 + 2 * (1 / 2 ^ 60))) 2).trans ?_
    norm_num
  | measure idx =>
    have h1 := collapse_binary64 (k := idx.length) hn
    have h2 := draw_binary64 hn
    have h3 := (C95_binary64_tiny (n := n) (by omega)).1
    have h9 : (1 : ℝ) / 2 ^ 900 ≤ 1 / 2 ^ 60 := one_div_le_one_div_of_le (by positivity) (pow_le_pow_right₀ (by norm_num) (by norm_num))
    have h4 : √((1 : ℝ) / 2 ^ 200) ≤ 1 / 2 ^ 60 := by
      rw [Real.sqrt_le_left (by positivity), div_pow, one_pow, ← pow_mul]
      exact one_div_le_one_div_of_le (by positivity) (pow_le_pow_right₀ (by norm_num) (by norm_num))
    have h0 := collapseErrR_nonneg binary64_ranged (lowOK_binary64 hn) idx.length
    unfold stepErrR
    have h5 : (1 + collapseErrR (8 * (1 / 2 ^ 53)) (8 * (1 / 2 ^ 1022)) (1 / 2 ^ 200) n idx.length) ^ 2 ≤ (1 + 1 / 2 ^ 26) ^ 2 :=
      pow_le_pow_left₀ (by linarith) (by linarith) 2
    refine (add_le_add (add_le_add h5 le_rfl) le_rfl).trans ?_
    generalize drawErr (8 * (1 / 2 ^ 53)) n = y at *
    generalize drawTiny (8 * (1 / 2 ^ 53)) (8 * (1 / 2 ^ 1022)) n = z at *
    generalize √((1 : ℝ) / 2 ^ 200) = r at *
    have h3' := h3.trans h9
    clear h3 h9 h1 h0 h5
    norm_num at h2 h3' h4 ⊢
    linarith

theorem circuitErrR_binary64 (hn : n ≤ 20) {steps : List QStep} (hN : steps.length ≤ 2 ^ 12)
    (hw : ∀ g back gs, .gate g back gs ∈ steps → gs.flatten.length ≤ 3) :
    circuitErrR (binary64 D).u (binary64 D).eta (8 * (1 / 2 ^ 53)) (8 * (1 / 2 ^ 1022)) (1 / 2 ^ 200) 8 n steps ≤ 1 / 2 ^ 10 := by
  have hl := lowOK_binary64 hn
  have h1 : (steps.map (stepErrR (binary64 D).u (binary64 D).eta (8 * (1 / 2 ^ 53)) (8 * (1 / 2 ^ 1022)) (1 / 2 ^ 200) 8 n)).prod
      ≤ (1 + 1 / 2 ^ 23) ^ steps.length := by
    clear hN
    induction steps with
    | nil => simp
    | cons q rest ih =>
      rw [List.map_cons, List.prod_cons, List.length_cons, pow_succ, mul_comm]
      have h1 := ih fun g back gs h => hw g back gs (by simp [h])
      have h2 := stepErrR_binary64 (D := D) hn (q := q) fun g back gs h => hw g back gs (by simp [h])
      have h3 := one_le_stepErrR (A := binary64 D) binary64_ranged hl 8 q
      have h4 := one_le_stepProdR (A := binary64 D) binary64_ranged hl 8 rest
      have h5 : (0 : ℝ) ≤ (1 + 1 / 2 ^ 23) ^ rest.length := pow_nonneg (by norm_num) _
      exact mul_le_mul h1 h2 (by linarith) h5
  have hN' : (steps.length : ℝ) * (1 / 2 ^ 23) ≤ 1 / 2 ^ 11 := by
    have : (steps.length : ℝ) ≤ 2 ^ 12 := by exact_mod_cast hN
    calc (steps.length : ℝ) * (1 / 2 ^ 23) ≤ 2 ^ 12 * (1 / 2 ^ 23) := by gcongr
      _ = 1 / 2 ^ 11 := by norm_num
  have h2 := pow_bound (u := 1 / 2 ^ 23) (by positivity) (k := steps.length) (hN'.trans (by norm_num))
  have h3 : (2 : ℝ) * (1 / 2 ^ 11) = 1 / 2 ^ 10 := by norm_num
  unfold circuitErrR
  linarith

theorem stepRange_binary64 {steps : List QStep} (hw : ∀ g back gs, .gate g back gs ∈ steps → gs.flatten.length ≤ 3) :
    ∀ q ∈ steps, StepRange (binary64 D) 8 q := by
  intro q hq
  cases q with
  | gate g back gs => exact inRange_binary64 (hw g back gs hq)
  | func => trivial
  | measure => trivial

/-- C97: in double precision with underflow and overflow, circuits with at most 20 qubits and 4096 gates, inverse gates, oracles and
measurements, every gate on at most three qubits and with matrix entries right up to 8 roundings, from a state of norm 1: every combination
of outcomes has the probability of Born's rule up to `2 ^ -8`. -/
theorem C97_binary64_partial [D.Ranged] (hn : n ≤ 20) (hF : Ranged F (8 * (1 / 2 ^ 53)) (8 * (1 / 2 ^ 1022)) (2 ^ 1023 / 4))
    {calls : List (FCall (binary64 D))} {steps : List QStep} (hp : List.Forall₂ (Performs (binary64 D) 8 n) calls steps)
    (hok : ∀ q ∈ steps, StepOK n q) (hN : steps.length ≤ 2 ^ 12) (hw : ∀ g back gs, .gate g back gs ∈ steps → gs.flatten.length ≤ 3)
    {b : FState (binary64 D)} (hb : b.Full n) (hT : |totalProb n (ampsOf b) - 1| ≤ 1 / 4) {os : List Nat}
    (hlen : os.length = countMeasures steps) :
    |(MeasureTheory.volume (drawsFor F calls b os)).toReal - branchProb n steps os (ampsOf b)| ≤ 1 / 2 ^ 8 := by
  have h2 := circuitErrR_binary64 (D := D) hn hN hw
  have h1 := C97_ranged_joint_partial hF (lowOK_binary64 hn) hp hok (stepRange_binary64 hw) (h2.trans (by norm_num)) hb hT hlen
  have h3 : 0 ≤ circuitErrR (binary64 D).u (binary64 D).eta (8 * (1 / 2 ^ 53)) (8 * (1 / 2 ^ 1022)) (1 / 2 ^ 200) 8 n steps := by
    have := one_le_stepProdR (A := binary64 D) hF (lowOK_binary64 hn) 8 steps
    unfold circuitErrR
    linarith
  generalize circuitErrR (binary64 D).u (binary64 D).eta (8 * (1 / 2 ^ 53)) (8 * (1 / 2 ^ 1022)) (1 / 2 ^ 200) 8 n steps = x at *
  refine h1.trans ((mul_le_mul h2 (by linarith : 3 + x ≤ 3 + 1 / 2 ^ 10) (by linarith) (by positivity)).trans ?_)
  norm_num

/-- Every step can be performed in double precision with underflow and overflow, with the matrices of the gates rounded. -/
theorem performs_ranged [D.Ranged] {steps : List QStep} (hok : ∀ q ∈ steps, StepOK n q) (ht : 1 ≤ t) :
    ∃ calls, List.Forall₂ (Performs (binary64 D) t n) calls steps := by
  induction steps with
  | nil => exact ⟨[], .nil⟩
  | cons q rest ih =>
    obtain ⟨cs, h2⟩ := ih fun q hq => hok q (by simp [hq])
    have hq := hok q (by simp)
    have : ∃ c, Performs (binary64 D) t n c q := by
      cases q with
      | measure idx => exact ⟨_, .measure⟩
      | func reg1 reg2 f => exact ⟨.func reg1 reg2 f (faCounters n reg1 reg2) fun _ => 0, .func (.refl _)⟩
      | gate g back gs =>
        obtain ⟨hf, hgs, hsw⟩ := hq
        obtain ⟨mats, h⟩ := gm_exists g gs hf hgs
        have hm : ∃ mats, g.feedMats back gs = .ok mats := by
          cases back with
          | false => exact ⟨mats, by simp [Gate.feedMats, h.ok]⟩
          | true =>
            obtain ⟨dm, hd, -⟩ := feedMats_dagger hf hgs h (hsw rfl)
            exact ⟨dm, hd⟩
        obtain ⟨ms, hm⟩ := hm
        refine ⟨.kron (ms.map fun (km : Key × Mat ℂ) => (km.1, roundMat (binary64 D) (fl64 D) km.2)) (List.range (2 ^ n)) 0, .gate hm ?_ (.refl _)⟩
        have hst := feedMats_stored hm
        clear hm
        induction ms with
        | nil => exact .nil
        | cons km mats ih =>
          exact .cons ⟨rfl, roundMat_stored ht fl64_ranged km.2 (hst km (by simp))⟩ (ih fun km hkm => hst km (by simp [hkm]))
    obtain ⟨c, h1⟩ := this
    exact ⟨c :: cs, .cons h1 h2⟩

-- the circuit with a Bell pair: every pair of outcomes has its probability up to 2 ^ -8
example (D : Double) [D.Ranged] : ∃ calls, List.Forall₂ (Performs (binary64 D) 8 2) calls bellSteps ∧
    ∀ m m' : Nat, |(MeasureTheory.volume (drawsFor (FOps.ofRounding round64 fun a L => L.foldl (fun s x => round64 (s + x)) a) calls
        ⟨2, [1, 0, 0, 0], [0, 0, 0, 0]⟩ [m, m'])).toReal
      - branchProb 2 bellSteps [m, m'] (ampsOf (⟨2, [1, 0, 0, 0], [0, 0, 0, 0]⟩ : FState (binary64 D)))| ≤ 1 / 2 ^ 8 := by
  obtain ⟨calls, hp⟩ := performs_ranged (D := D) (t := 8) bellSteps_ok (by norm_num)
  have hw : ∀ g back gs, .gate g back gs ∈ bellSteps → gs.flatten.length ≤ 3 := by
    intro g back gs h
    simp only [bellSteps, List.mem_cons, QStep.gate.injEq, List.not_mem_nil, or_false, reduceCtorEq, false_or] at h
    rcases h with ⟨_, _, rfl⟩ | ⟨_, _, rfl⟩ | ⟨_, _, rfl⟩ | ⟨_, _, rfl⟩ <;> simp
  have h0 : (0 : FC (binary64 D)).val = 0 := rfl
  have h1 : (1 : FC (binary64 D)).val = 1 := rfl
  have hT : totalProb 2 (ampsOf (⟨2, [1, 0, 0, 0], [0, 0, 0, 0]⟩ : FState (binary64 D))) = 1 := by
    simp [totalProb, ampsOf, Finset.sum_range_succ, h0, h1]
  exact ⟨calls, hp, fun m m' => C97_binary64_partial (by norm_num) binary64_ranged hp bellSteps_ok (by simp [bellSteps]) hw
    ⟨rfl, rfl, rfl⟩ (by rw [hT]; norm_num) rfl⟩

-- every run of it with draws between 1/4 and 3/4 succeeds, unless the outcomes so far have a probability of at most 2 ^ -20
example (D : Double) [D.Ranged] : ∃ calls, List.Forall₂ (Performs (binary64 D) 8 2) calls bellSteps ∧
    ∀ x y : ℝ, 1 / 4 ≤ x → x ≤ 3 / 4 → 1 / 4 ≤ y → y ≤ 3 / 4 →
      (∃ os b', floatRun (FOps.ofRounding round64 fun a L => L.foldl (fun s x => round64 (s + x)) a) calls [x, y]
        ⟨2, [1, 0, 0, 0], [0, 0, 0, 0]⟩ = .ok (os, b')) ∨
      ∃ k os b', floatRun (FOps.ofRounding round64 fun a L => L.foldl (fun s x => round64 (s + x)) a) (calls.take k) [x, y]
        ⟨2, [1, 0, 0, 0], [0, 0, 0, 0]⟩ = .ok (os, b') ∧
        branchProb 2 (bellSteps.take k) os (ampsOf (⟨2, [1, 0, 0, 0], [0, 0, 0, 0]⟩ : FState (binary64 D))) ≤ (1 / 2 ^ 10) ^ 2 := by
  obtain ⟨calls, hp⟩ := performs_ranged (D := D) (t := 8) bellSteps_ok (by norm_num)
  have hw : ∀ g back gs, .gate g back gs ∈ bellSteps → gs.flatten.length ≤ 3 := by
    intro g back gs h
    simp only [bellSteps, List.mem_cons, QStep.gate.injEq, List.not_mem_nil, or_false, reduceCtorEq, false_or] at h
    rcases h with ⟨_, _, rfl⟩ | ⟨_, _, rfl⟩ | ⟨_, _, rfl⟩ | ⟨_, _, rfl⟩ <;> simp
  have h0 : (0 : FC (binary64 D)).val = 0 := rfl
  have h1 : (1 : FC (binary64 D)).val = 1 := rfl
  have hT : totalProb 2 (ampsOf (⟨2, [1, 0, 0, 0], [0, 0, 0, 0]⟩ : FState (binary64 D))) = 1 := by
    simp [totalProb, ampsOf, Finset.sum_range_succ, h0, h1]
  refine ⟨calls, hp, fun x y x0 x1 y0 y1 => ?_⟩
  have h2 := circuitErrR_binary64 (D := D) (n := 2) (by norm_num) (show bellSteps.length ≤ 2 ^ 12 by simp [bellSteps]) hw
  have hF := binary64_ranged
  have hd := draw_binary64 (n := 2) (by norm_num)
  have hd1 := drawErr_nonneg hF.nonneg hF.lt_one 2
  have hd2 := drawTiny_nonneg hF 2
  have hd3 := (C95_binary64_tiny (n := 2) (by norm_num)).1
  have hd' : drawErr (8 * (1 / 2 ^ 53)) 2 + 2 * drawTiny (8 * (1 / 2 ^ 53)) (8 * (1 / 2 ^ 1022)) 2 ≤ 3 / 16 := by
    have h9 : (1 : ℝ) / 2 ^ 900 ≤ 1 / 2 ^ 4 := one_div_le_one_div_of_le (by positivity) (pow_le_pow_right₀ (by norm_num) (by norm_num))
    have h8 : (1 : ℝ) / 2 ^ 25 ≤ 1 / 16 := by norm_num
    linarith
  rcases C97_ranged_succeeds_partial hF (lowOK_binary64 (n := 2) (by norm_num)) hp bellSteps_ok (stepRange_binary64 hw)
    (h2.trans (by norm_num)) (b := ⟨2, [1, 0, 0, 0], [0, 0, 0, 0]⟩) ⟨rfl, rfl, rfl⟩ (by rw [hT]; norm_num) (xs := [x, y]) rfl
    (by
      intro z hz
      simp only [List.mem_cons, List.not_mem_nil, or_false] at hz
      rcases hz with rfl | rfl <;> constructor <;> linarith) with h | ⟨k, os, b', h3, h4⟩
  · exact .inl h
  · refine .inr ⟨k, os, b', h3, h4.trans (pow_le_pow_left₀ ?_ h2 2)⟩
    have := one_le_stepProdR (A := binary64 D) hF (lowOK_binary64 (n := 2) (by norm_num)) 8 bellSteps
    unfold circuitErrR
    linarith

end QIP.Props
