import Verif.Lemmas.FCircuit
import Verif.Props.FMeasure

/-!
# C97: circuits with measurements in floating point
-/

namespace QIP.Props

open QIP Spec Finset

variable {A : Arith} [A.Ideal] {F : FOps} {u : ℝ} {t n : Nat}

/-! ## Distances -/

theorem dist2_congr {a b a' b' : Nat → ℂ} (h : ∀ r < 2 ^ n, a r = a' r) (h' : ∀ r < 2 ^ n, b r = b' r) :
    dist2 n a b = dist2 n a' b' := by
  unfold dist2
  congr 1
  apply Finset.sum_congr rfl
  intro r hr
  rw [h r (mem_range.1 hr), h' r (mem_range.1 hr)]

theorem dist2_scale {s : ℝ} (hs : 0 ≤ s) (v w : Nat → ℂ) :
    dist2 n (fun c => s * v c) (fun c => s * w c) = s * dist2 n v w := by
  unfold dist2
  rw [← Real.sqrt_sq hs, ← Real.sqrt_mul (by positivity), Finset.mul_sum]
  congr 1
  apply Finset.sum_congr rfl
  intro r _
  rw [Real.sqrt_sq hs, ← mul_sub, norm_mul, mul_pow, Complex.norm_real, Real.norm_eq_abs, sq_abs]

theorem dist2_scale_zero {s : ℝ} (hs : 0 ≤ s) (v : Nat → ℂ) : dist2 n (fun c => s * v c) 0 = s * dist2 n v 0 := by
  rw [← dist2_scale hs]
  exact dist2_congr (fun _ _ => rfl) (fun _ _ => by simp)

theorem dist2_project (idx : List Nat) (m : Nat) (v w : Nat → ℂ) :
    dist2 n (project n idx m v) (project n idx m w) ≤ dist2 n v w := by
  unfold dist2
  apply Real.sqrt_le_sqrt
  apply Finset.sum_le_sum
  intro c _
  unfold project
  split
  · exact le_rfl
  · rw [sub_self, norm_zero, zero_pow two_ne_zero]
    positivity

theorem project_scale (idx : List Nat) (m : Nat) (s : ℝ) (v : Nat → ℂ) :
    project n idx m (fun c => s * v c) = fun c => s * project n idx m v c := by
  funext c
  unfold project
  split <;> simp

theorem dist2_zero_project (idx : List Nat) (m : Nat) (v : Nat → ℂ) :
    dist2 n (project n idx m v) 0 = √(outcomeProb n idx v m) := by
  have h := totalProb_project n idx m v
  rw [totalProb_dist] at h
  rw [← h, Real.sqrt_sq (dist2_nonneg _ _ _)]

theorem outcome_le_total (idx : List Nat) (m : Nat) (v : Nat → ℂ) : outcomeProb n idx v m ≤ totalProb n v := by
  unfold outcomeProb totalProb
  exact Finset.sum_le_sum_of_subset_of_nonneg (Finset.filter_subset _ _) fun _ _ _ => Complex.normSq_nonneg _

theorem iso_norm {T : (Nat → ℂ) → Nat → ℂ} (hT : Iso n T) (v : Nat → ℂ) : dist2 n (T v) 0 = dist2 n v 0 := by
  have h0 : ∀ r < 2 ^ n, T 0 r = 0 := by
    intro r hr
    have := hT.scale 0 0 r hr
    have e : (fun c => ((0 : ℝ) : ℂ) * (0 : Nat → ℂ) c) = 0 := by
      funext c
      simp
    rw [e] at this
    rw [this]
    simp
  rw [← hT.dist v 0]
  exact dist2_congr (fun _ _ => rfl) (fun r hr => by rw [h0 r hr]; rfl)

/-! ## One step -/

/-- The scaled computed state is close to the exact one, and so is the probability computed so far. -/
structure Close (n : Nat) (s : ℝ) (v w : Nat → ℂ) (P : ℝ) : Prop where
  nonneg : 0 ≤ s
  one_le : 1 ≤ P
  dist : dist2 n (fun c => s * v c) w ≤ P - 1
  norm : dist2 n w 0 ≤ 1

theorem Close.scaled_norm {s P : ℝ} {v w : Nat → ℂ} (h : Close n s v w P) : s * dist2 n v 0 ≤ P := by
  rw [← dist2_scale_zero h.nonneg]
  have := dist2_triangle n (fun c => s * v c) w 0
  linarith [h.dist, h.norm]

theorem sq_diff {x y ε : ℝ} (hx : 0 ≤ x) (hy : 0 ≤ y) (hε : 0 ≤ ε) (h1 : x ≤ y + ε * y) (h2 : y ≤ x + ε * y) :
    |x ^ 2 - y ^ 2| ≤ ((1 + ε) ^ 2 - 1) * y ^ 2 := by
  have hy2 : 0 ≤ y * y := mul_nonneg hy hy
  have hεy : 0 ≤ ε * y := mul_nonneg hε hy
  rw [abs_le]
  constructor
  · by_cases hc : ε ≤ 1
    · have : (1 - ε) * y ≤ x := by linarith
      have h0 : 0 ≤ (1 - ε) * y := mul_nonneg (by linarith) hy
      nlinarith [mul_nonneg hεy hεy]
    · have : 1 ≤ ε := by linarith
      have h3 : y * y ≤ ε * (y * y) := by nlinarith
      nlinarith [sq_nonneg x, mul_nonneg hεy hεy]
  · nlinarith [mul_nonneg hεy hεy]

theorem close_unit {T : (Nat → ℂ) → Nat → ℂ} (hT : Iso n T) {s P ε : ℝ} {v v' w : Nat → ℂ} (h : Close n s v w P) (hε : 0 ≤ ε)
    (hv : dist2 n v' (T v) ≤ ε * dist2 n v 0) : Close n s v' (T w) (P * (1 + ε) ^ 2) := by
  have hs := h.nonneg
  have hP := h.one_le
  refine ⟨hs, ?_, ?_, by rw [iso_norm hT]; exact h.norm⟩
  · nlinarith [sq_nonneg ε]
  · have h1 : dist2 n (fun c => s * v' c) (fun c => s * T v c) ≤ s * (ε * dist2 n v 0) := by
      rw [dist2_scale hs]
      exact mul_le_mul_of_nonneg_left hv hs
    have h2 : dist2 n (fun c => s * T v c) (T w) ≤ P - 1 := by
      refine le_trans (le_of_eq ?_) h.dist
      rw [← hT.dist (fun c => s * v c) w]
      exact dist2_congr (fun r hr => (hT.scale s v r hr).symm) fun _ _ => rfl
    have h3 := dist2_triangle n (fun c => s * v' c) (fun c => s * T v c) (T w)
    have h4 := mul_le_mul_of_nonneg_left h.scaled_norm hε
    nlinarith [sq_nonneg ε, mul_nonneg hε (by linarith : 0 ≤ P)]

/-- The computed norm after a step that is not a measurement. -/
theorem total_unit {T : (Nat → ℂ) → Nat → ℂ} (hT : Iso n T) {ε : ℝ} {v v' : Nat → ℂ} (hε : 0 ≤ ε)
    (hv : dist2 n v' (T v) ≤ ε * dist2 n v 0) :
    |totalProb n v' - totalProb n v| ≤ ((1 + ε) ^ 2 - 1) * totalProb n v ∧
      (ε < 1 → 0 < totalProb n v → 0 < totalProb n v') := by
  rw [totalProb_dist, totalProb_dist]
  have h1 := dist2_triangle n v' (T v) 0
  have h2 := dist2_triangle n (T v) v' 0
  rw [dist2_comm (T v) v'] at h2
  rw [iso_norm hT] at h1 h2
  refine ⟨sq_diff (dist2_nonneg _ _ _) (dist2_nonneg _ _ _) hε (by linarith) (by linarith), fun h3 h4 => ?_⟩
  have h5 : 0 < dist2 n v 0 := by
    rcases (dist2_nonneg n v 0).lt_or_eq with h | h
    · exact h
    · rw [← h] at h4; norm_num at h4
  have : 0 < dist2 n v' 0 := by nlinarith
  positivity

theorem close_measure {idx : List Nat} {m : Nat} {s P γ : ℝ} {v v' w : Nat → ℂ} (h : Close n s v w P) (hγ : 0 ≤ γ)
    (hp : 0 < outcomeProb n idx v m)
    (hv : dist2 n v' (fun i => if subIndex n (inOrder n idx) i = m then v i / ((√(outcomeProb n idx v m) : ℝ) : ℂ) else 0) ≤ γ) :
    dist2 n (fun c => ((s * √(outcomeProb n idx v m) : ℝ) : ℂ) * v' c) (project n idx m w) ≤ P * (1 + γ) - 1 ∧
      |totalProb n v' - 1| ≤ (1 + γ) ^ 2 - 1 ∧ (γ < 1 → 0 < totalProb n v') := by
  have hs := h.nonneg
  have hP := h.one_le
  set p := outcomeProb n idx v m with hpdef
  have hsq : 0 < √p := Real.sqrt_pos.2 hp
  set v1 : Nat → ℂ := fun i => if subIndex n (inOrder n idx) i = m then v i / ((√p : ℝ) : ℂ) else 0 with hv1
  have e : (fun c => ((s * √p : ℝ) : ℂ) * v1 c) = project n idx m (fun c => s * v c) := by
    funext c
    simp only [hv1, project]
    split
    · have : ((√p : ℝ) : ℂ) ≠ 0 := by exact_mod_cast hsq.ne'
      push_cast
      field_simp
    · simp
  have e1 : (fun c => ((√p : ℝ) : ℂ) * v1 c) = project n idx m v := by
    funext c
    simp only [hv1, project]
    split
    · have : ((√p : ℝ) : ℂ) ≠ 0 := by exact_mod_cast hsq.ne'
      field_simp
    · simp
  have hn1 : dist2 n v1 0 = 1 := by
    have := dist2_scale_zero (n := n) hsq.le v1
    rw [e1, dist2_zero_project, ← hpdef] at this
    field_simp at this
    exact this.symm
  refine ⟨?_, ?_, ?_⟩
  · have h1 : dist2 n (fun c => ((s * √p : ℝ) : ℂ) * v' c) (fun c => ((s * √p : ℝ) : ℂ) * v1 c) ≤ s * √p * γ := by
      rw [dist2_scale (by positivity)]
      exact mul_le_mul_of_nonneg_left hv (by positivity)
    have h2 : dist2 n (fun c => ((s * √p : ℝ) : ℂ) * v1 c) (project n idx m w) ≤ P - 1 := by
      rw [e]
      exact (dist2_project _ _ _ _).trans h.dist
    have h3 := dist2_triangle n (fun c => ((s * √p : ℝ) : ℂ) * v' c) (fun c => ((s * √p : ℝ) : ℂ) * v1 c) (project n idx m w)
    have h4 : √p ≤ dist2 n v 0 := by
      rw [hpdef, ← Real.sqrt_sq (dist2_nonneg n v 0), ← totalProb_dist]
      exact Real.sqrt_le_sqrt (outcome_le_total _ _ _)
    have h5 : s * √p ≤ P := (mul_le_mul_of_nonneg_left h4 hs).trans h.scaled_norm
    have h6 := mul_le_mul_of_nonneg_right h5 hγ
    linarith
  · rw [totalProb_dist]
    have h1 := dist2_triangle n v' v1 0
    have h2 := dist2_triangle n v1 v' 0
    rw [dist2_comm v1 v'] at h2
    rw [hn1] at h1 h2
    have := sq_diff (x := dist2 n v' 0) (y := 1) (dist2_nonneg _ _ _) zero_le_one hγ (by linarith) (by linarith)
    simpa using this
  · intro hγ1
    have h2 := dist2_triangle n v1 v' 0
    rw [dist2_comm v1 v', hn1] at h2
    rw [totalProb_dist]
    have : 0 < dist2 n v' 0 := by linarith
    positivity

/-! ## Measurements -/

theorem getD_map_range (f : Nat → ℂ) {N r : Nat} (hr : r < N) : ((List.range N).map f).getD r 0 = f r := by
  simp [hr]

omit [A.Ideal] in
theorem ampsOf_map (b : FState A) (c : Nat) : (b.state.map FC.val).getD c 0 = ampsOf b c := by
  unfold ampsOf
  rw [List.getD_eq_getElem?_getD, List.getD_eq_getElem?_getD, List.getElem?_map]
  cases b.state[c]? <;> rfl

omit [A.Ideal] in
theorem ampsOf_mk (n : Nat) (l : List ℂ) (a : List (FC A)) : ampsOf (⟨n, l.map FC.mk, a⟩ : FState A) = fun c => l.getD c 0 := by
  funext c
  unfold ampsOf
  rw [List.getD_eq_getElem?_getD, List.getD_eq_getElem?_getD, List.getElem?_map]
  cases l[c]? <;> rfl

/-- The draws with which a measurement of the backend gives `m`. -/
def drawsAt (F : FOps) (idx : List Nat) (b : FState A) (m : Nat) : Set ℝ :=
  {x | 0 ≤ x ∧ x < 1 ∧ ∃ p b', b.measure F idx x = .ok (m, p, b')}

omit [A.Ideal] in
theorem drawsAt_eq (idx : List Nat) {b : FState A} (hb : b.Full n) (m : Nat) :
    drawsAt F idx b m = drawsGivingF F idx n (b.state.map FC.val) (b.arena.map FC.val) m := by
  ext x
  unfold drawsAt drawsGivingF FState.measure
  rw [hb.size]
  simp only [Set.mem_ofPred_eq]
  refine and_congr_right fun _ => and_congr_right fun _ => ?_
  rcases measureF F idx n (b.state.map FC.val) (b.arena.map FC.val) 0 0 none none x 0 with e | ⟨m', p, out⟩
  · simp [bind, Except.bind]
  · simp [bind, Except.bind, pure, Except.pure]

theorem born_at (hF : Accurate F u) {idx : List Nat} (hi : IdxOK n idx) {b : FState A} (hb : b.Full n)
    (hT : 0 < totalProb n (ampsOf b)) (m : Nat) :
    |(MeasureTheory.volume (drawsAt F idx b m)).toReal - outcomeProb n idx (ampsOf b) m / totalProb n (ampsOf b)|
      ≤ 2 * drawErr u n := by
  have ea : (fun c => (b.state.map FC.val).getD c 0) = ampsOf b := funext (ampsOf_map b)
  by_cases hm : m < 2 ^ idx.length
  · rw [drawsAt_eq idx hb]
    have := C95_born_partial hF hi (vec := b.state.map FC.val) (out := b.arena.map FC.val) (by simp [hb.state]) (by simp [hb.arena])
      (by rw [ea]; exact hT) hm
    rwa [ea] at this
  · have h1 : drawsAt F idx b m = ∅ := by
      rw [drawsAt_eq idx hb]
      ext x
      simp only [Set.mem_empty_iff_false, iff_false]
      rintro ⟨h0, h1, p, out', hr⟩
      exact hm (C95_collapse hF hi (by simp [hb.state]) (by simp [hb.arena]) h0 h1.le hr).1
    have h2 : outcomeProb n idx (ampsOf b) m = 0 := by
      unfold outcomeProb
      apply Finset.sum_eq_zero
      intro c hc
      rw [Finset.mem_filter] at hc
      exfalso
      apply hm
      rw [← hc.2]
      refine (subIndex_lt _ _ _).trans_le (le_of_eq ?_)
      rw [show (inOrder n idx).length = idx.length from hi.length_inOrder]
    rw [h1, h2]
    simp only [MeasureTheory.measure_empty, ENNReal.toReal_zero, zero_div, sub_zero, abs_zero]
    have := drawErr_nonneg hF.nonneg hF.lt_one n
    linarith

/-- The error of the state after a measurement of `k` qubits. -/
noncomputable def collapseErr (u : ℝ) (n k : Nat) : ℝ := factor u ^ (2 ^ (n - k) + 4) - 1

theorem collapseErr_nonneg (hF : Accurate F u) (n k : Nat) : 0 ≤ collapseErr u n k := by
  unfold collapseErr
  have := one_le_pow₀ (one_le_factor hF.nonneg hF.lt_one) (n := 2 ^ (n - k) + 4)
  linarith

/-- The backend after a measurement depends on the draw only through the outcome.  (For an outcome no draw gives, any state will do.) -/
theorem measure_next (hF : Accurate F u) {idx : List Nat} (hi : IdxOK n idx) {b : FState A} (hb : b.Full n) (m : Nat) :
    ∃ b' : FState A, b'.Full n ∧ (∀ x ∈ drawsAt F idx b m, ∃ p, b.measure F idx x = .ok (m, p, b')) ∧
      ((drawsAt F idx b m).Nonempty → 0 < outcomeProb n idx (ampsOf b) m) ∧
      ∀ {s P : ℝ} {w : Nat → ℂ}, Close n s (ampsOf b) w P →
        dist2 n (fun c => ((s * √(outcomeProb n idx (ampsOf b) m) : ℝ) : ℂ) * ampsOf b' c) (project n idx m w)
            ≤ P * (1 + collapseErr u n idx.length) - 1 ∧
          |totalProb n (ampsOf b') - 1| ≤ (1 + collapseErr u n idx.length) ^ 2 - 1 ∧
          (collapseErr u n idx.length < 1 → 0 < totalProb n (ampsOf b')) := by
  have ea : (fun c => (b.state.map FC.val).getD c 0) = ampsOf b := funext (ampsOf_map b)
  have hγ := collapseErr_nonneg hF n idx.length
  by_cases hne : (drawsAt F idx b m).Nonempty
  · obtain ⟨x, hx⟩ := hne
    have hx' := hx
    rw [drawsAt_eq idx hb] at hx'
    obtain ⟨h0, h1, p, out', hr⟩ := hx'
    obtain ⟨c1, c2, c3, c4, c5⟩ := C95_collapse hF hi (by simp [hb.state]) (by simp [hb.arena]) h0 h1.le hr
    rw [ea] at c2
    refine ⟨⟨n, out'.map FC.mk, b.state⟩, ⟨rfl, by simp [c4], hb.state⟩, ?_, fun _ => c2, ?_⟩
    · intro y hy
      rw [drawsAt_eq idx hb] at hy
      obtain ⟨y0, y1, q, out2, hy⟩ := hy
      -- the same result
      have key : out2 = out' := by
        obtain ⟨m1, _, _, _, _, h6⟩ := measureF_spec hF hi (vec := b.state.map FC.val) (out := b.arena.map FC.val)
          (by simp [hb.state]) (by simp [hb.arena]) h0 h1.le
        obtain ⟨m2, _, _, _, _, h6'⟩ := measureF_spec hF hi (vec := b.state.map FC.val) (out := b.arena.map FC.val)
          (by simp [hb.state]) (by simp [hb.arena]) y0 y1.le
        rw [hr] at h6
        rw [hy] at h6'
        split at h6
        · cases h6
        split at h6'
        · cases h6'
        simp only [Except.ok.injEq, Prod.mk.injEq] at h6 h6'
        obtain ⟨rfl, -, rfl⟩ := h6
        obtain ⟨rfl, -, rfl⟩ := h6'
        rfl
      refine ⟨q, ?_⟩
      unfold FState.measure
      rw [hb.size, hy, key]
      rfl
    · intro s P w h
      refine close_measure h hγ c2 ?_
      rw [ampsOf_mk]
      have c6 := c5
      simp only [ampsOf_map] at c6
      exact c6
  · have hS : drawsAt F idx b m = ∅ := Set.not_nonempty_iff_eq_empty.1 hne
    by_cases hp : 0 < outcomeProb n idx (ampsOf b) m
    · refine ⟨⟨n, ((List.range (2 ^ n)).map fun i => if subIndex n (inOrder n idx) i = m
          then ampsOf b i / ((√(outcomeProb n idx (ampsOf b) m) : ℝ) : ℂ) else 0).map FC.mk, b.state⟩,
        ⟨rfl, by simp, hb.state⟩, fun x hx => absurd ⟨x, hx⟩ hne, fun h => absurd h hne, ?_⟩
      intro s P w h
      refine close_measure h hγ hp ?_
      rw [ampsOf_mk]
      refine le_trans (le_of_eq ?_) hγ
      unfold dist2
      rw [Finset.sum_eq_zero, Real.sqrt_zero]
      intro r hr
      dsimp only
      rw [getD_map_range _ (mem_range.1 hr), sub_self, norm_zero]
      norm_num
    · have hp0 : outcomeProb n idx (ampsOf b) m = 0 := le_antisymm (not_lt.1 hp) (outcomeProb_nonneg _ _ _ _)
      refine ⟨⟨n, ((List.range (2 ^ n)).map fun i => if i = 0 then (1 : ℂ) else 0).map FC.mk, b.state⟩,
        ⟨rfl, by simp, hb.state⟩, fun x hx => absurd ⟨x, hx⟩ hne, fun h => absurd h hne, ?_⟩
      intro s P w h
      have ht : totalProb n (fun c => ((List.range (2 ^ n)).map fun i => if i = 0 then (1 : ℂ) else 0).getD c 0) = 1 := by
        unfold totalProb
        rw [Finset.sum_eq_single 0]
        · dsimp only
          rw [getD_map_range _ (Nat.two_pow_pos n)]
          simp
        · intro c hc hne
          dsimp only
          rw [getD_map_range _ (mem_range.1 hc), if_neg hne]
          simp
        · intro hc
          exact absurd (mem_range.2 (Nat.two_pow_pos n)) hc
      rw [ampsOf_mk, ht]
      refine ⟨?_, ?_, fun _ => one_pos⟩
      · rw [hp0, Real.sqrt_zero, mul_zero]
        have h1 : dist2 n (project n idx m (ampsOf b)) 0 = 0 := by rw [dist2_zero_project, hp0, Real.sqrt_zero]
        have h2 : dist2 n (project n idx m fun c => s * ampsOf b c) 0 = 0 := by
          rw [project_scale, dist2_scale_zero h.nonneg, h1, mul_zero]
        have h3 := dist2_triangle n 0 (project n idx m fun c => s * ampsOf b c) (project n idx m w)
        rw [dist2_comm 0 (project n idx m fun c => s * ampsOf b c), h2] at h3
        have h4 := (dist2_project (n := n) idx m (fun c => s * ampsOf b c) w).trans h.dist
        have h5 := h.one_le
        have e : dist2 n (fun c => (((0 : ℝ) : ℂ)) * (fun c => ((List.range (2 ^ n)).map fun i => if i = 0 then (1 : ℂ) else 0).getD c 0) c)
            (project n idx m w) = dist2 n 0 (project n idx m w) := dist2_congr (fun _ _ => by simp) fun _ _ => rfl
        rw [e]
        nlinarith
      · rw [sub_self, abs_zero]
        nlinarith

/-! ## Circuits -/

theorem one_le_stepErr (hF : Accurate F u) (t n : Nat) (q : QStep) : 1 ≤ stepErr A.u u t n q := by
  cases q with
  | gate g back gs =>
    have := gateErr_nonneg A.u_nonneg t gs.flatten.length
    unfold stepErr
    nlinarith
  | func => exact le_rfl
  | measure idx =>
    have h1 := collapseErr_nonneg hF n idx.length
    have h2 := drawErr_nonneg hF.nonneg hF.lt_one n
    unfold collapseErr at h1
    unfold stepErr
    nlinarith

theorem one_le_stepProd (hF : Accurate F u) (t n : Nat) (steps : List QStep) : 1 ≤ (steps.map (stepErr A.u u t n)).prod := by
  induction steps with
  | nil => simp
  | cons q rest ih =>
    rw [List.map_cons, List.prod_cons]
    nlinarith [one_le_stepErr (A := A) hF t n q]

/-- A call that is not a measurement. -/
theorem unit_next (hs : StepOK n q) (hm : ∀ idx, q ≠ .measure idx) {call : FCall A} (hp : Performs A t n call q) {b : FState A}
    (hb : b.Full n) (rest : List (FCall A)) :
    ∃ b' : FState A, ∃ ε : ℝ, b'.Full n ∧ 0 ≤ ε ∧ stepErr A.u u t n q = (1 + ε) ^ 2 ∧
      (∀ xs, floatRun F (call :: rest) xs b = floatRun F rest xs b') ∧
      dist2 n (ampsOf b') (stepApply n q (ampsOf b)) ≤ ε * dist2 n (ampsOf b) 0 := by
  cases hp with
  | measure => exact absurd rfl (hm _)
  | gate h1 h2 h3 =>
    obtain ⟨b', k1, k2, k3⟩ := kron_step hs (.gate h1 h2 h3) hb
    refine ⟨b', _, k2, gateErr_nonneg A.u_nonneg _ _, rfl, ?_, k3⟩
    intro xs
    rw [floatRun, k1]
    rfl
  | func ho =>
    obtain ⟨b', k1, k2, k3⟩ := func_step hs ho hb
    refine ⟨b', 0, k2, le_rfl, by simp [stepErr], ?_, by rw [k3, zero_mul]⟩
    intro xs
    rw [floatRun, k1]
    rfl

theorem branchOf_unit {q : QStep} (hm : ∀ idx, q ≠ .measure idx) (rest : List QStep) (os : List Nat) (v : Nat → ℂ) :
    branchOf n (q :: rest) os v = branchOf n rest os (stepApply n q v) ∧ countMeasures (q :: rest) = countMeasures rest := by
  cases q with
  | measure idx => exact absurd rfl (hm idx)
  | gate g back gs => exact ⟨rfl, rfl⟩
  | func reg1 reg2 f => exact ⟨rfl, rfl⟩

theorem volume_le_one {S : Set ℝ} (h : ∀ x ∈ S, 0 ≤ x ∧ x < 1) : (MeasureTheory.volume S).toReal ≤ 1 := by
  have h1 : MeasureTheory.volume S ≤ ENNReal.ofReal (1 - 0) := by
    rw [← Real.volume_Ico]
    exact MeasureTheory.measure_mono h
  have := ENNReal.toReal_le_of_le_ofReal (by norm_num) h1
  linarith

/-- Probabilities: one more measurement. -/
theorem prob_measure {s P a T p vol T' γ d : ℝ} (hP : 1 ≤ P) (ha0 : 0 ≤ a) (ha1 : a ≤ 1) (hT : 0 < T) (hp0 : 0 ≤ p)
    (hpT : p ≤ T) (h : |s ^ 2 * T - a| ≤ P - 1) (hv : |vol - p / T| ≤ 2 * d) (hγ : 0 ≤ γ)
    (hT' : |T' - 1| ≤ (1 + γ) ^ 2 - 1) (hd : 0 ≤ d) :
    |(s * √p) ^ 2 * T' - a * vol| ≤ P * ((1 + γ) ^ 2 + 2 * d) - 1 := by
  rw [mul_pow, Real.sq_sqrt hp0]
  have hr0 : 0 ≤ p / T := by positivity
  have hr1 : p / T ≤ 1 := (div_le_one hT).2 hpT
  have hsT : s ^ 2 * T ≤ P := by
    have := (abs_le.1 h).2
    linarith
  have e : s ^ 2 * p = s ^ 2 * T * (p / T) := by field_simp
  have hsp0 : 0 ≤ s ^ 2 * p := by positivity
  have hsp : s ^ 2 * p ≤ P := by
    rw [e]
    have : 0 ≤ s ^ 2 * T := by positivity
    nlinarith
  have h1 : |s ^ 2 * p * (T' - 1)| ≤ P * ((1 + γ) ^ 2 - 1) := by
    rw [abs_mul, abs_of_nonneg hsp0]
    exact mul_le_mul hsp hT' (abs_nonneg _) (by linarith)
  have h2 : |(s ^ 2 * T - a) * (p / T)| ≤ P - 1 := by
    rw [abs_mul, abs_of_nonneg hr0]
    have := abs_nonneg (s ^ 2 * T - a)
    nlinarith
  have h3 : |a * (p / T - vol)| ≤ 2 * d := by
    rw [abs_mul, abs_of_nonneg ha0, abs_sub_comm]
    have := abs_nonneg (vol - p / T)
    nlinarith
  have e2 : s ^ 2 * p * T' - a * vol = s ^ 2 * p * (T' - 1) + ((s ^ 2 * T - a) * (p / T) + a * (p / T - vol)) := by
    rw [e]
    ring
  rw [e2]
  refine (abs_add_le _ _).trans ?_
  have h4 := abs_add_le ((s ^ 2 * T - a) * (p / T)) (a * (p / T - vol))
  nlinarith

theorem factor_lt_two {P X R : ℝ} (hP : 1 ≤ P) (hR : 1 ≤ R) (hX : 0 ≤ X) (h : P * X * R - 1 < 1) : X < 2 := by
  have h1 : X ≤ P * X := le_mul_of_one_le_left hX hP
  have h2 : P * X ≤ P * X * R := le_mul_of_one_le_right (by linarith) hR
  linarith

theorem joint_main (hF : Accurate F u) {calls : List (FCall A)} {steps : List QStep} (hp : List.Forall₂ (Performs A t n) calls steps)
    (hok : ∀ q ∈ steps, StepOK n q) {os : List Nat} (hlen : os.length = countMeasures steps) {b : FState A} (hb : b.Full n)
    (hT : 0 < totalProb n (ampsOf b)) {s P a : ℝ} {w : Nat → ℂ} (hc : Close n s (ampsOf b) w P) (ha0 : 0 ≤ a) (ha1 : a ≤ 1)
    (ha : |s ^ 2 * totalProb n (ampsOf b) - a| ≤ P - 1) (hsmall : P * (steps.map (stepErr A.u u t n)).prod - 1 < 1) :
    ∃ V : Fin os.length → Set ℝ, drawsFor F calls b os = Set.pi Set.univ V ∧
      |a * ∏ i, (MeasureTheory.volume (V i)).toReal - totalProb n (branchOf n steps os w)|
        ≤ (P * (steps.map (stepErr A.u u t n)).prod - 1) * (3 + (P * (steps.map (stepErr A.u u t n)).prod - 1)) := by
  induction hp generalizing os b s P a w with
  | nil =>
    cases os with
    | cons m os => simp [countMeasures] at hlen
    | nil =>
    refine ⟨fun _ => Set.univ, ?_, ?_⟩
    · ext x
      simp only [drawsFor, floatRun, Set.mem_ofPred_eq, Set.pi_univ, Set.mem_univ, iff_true]
      simp
    · simp only [List.map_nil, List.prod_nil, mul_one, branchOf]
      have e : ∏ i : Fin ([] : List Nat).length, (MeasureTheory.volume (Set.univ : Set ℝ)).toReal = 1 := by
        apply Finset.prod_eq_one
        intro i _
        exact i.elim0
      rw [e, mul_one, totalProb_dist]
      rw [totalProb_dist, ← mul_pow, ← dist2_scale_zero hc.nonneg] at ha
      have h1 := dist2_triangle n (fun c => s * ampsOf b c) w 0
      have h2 := dist2_triangle n w (fun c => s * ampsOf b c) 0
      rw [dist2_comm w (fun c => s * ampsOf b c)] at h2
      have h3 := hc.dist
      have h4 := hc.norm
      have h5 := dist2_nonneg n w 0
      have h6 := dist2_nonneg n (fun c => s * ampsOf b c) 0
      have h7 := abs_le.1 ha
      have hP := hc.one_le
      set x := dist2 n (fun c => s * ampsOf b c) 0
      set y := dist2 n w 0
      have h8 : x ≤ y + (P - 1) := by linarith
      have h9 : y ≤ x + (P - 1) := by linarith
      rw [abs_le]
      constructor <;> nlinarith
  | @cons call q calls steps hpq hrest ih =>
    have hq := hok q (by simp)
    have hok' : ∀ q ∈ steps, StepOK n q := fun q hq => hok q (by simp [hq])
    rw [List.map_cons, List.prod_cons, ← mul_assoc] at hsmall ⊢
    have hPr := one_le_stepProd (A := A) hF t n steps
    by_cases hm : ∀ idx, q ≠ .measure idx
    · obtain ⟨b', ε, k1, k2, k3, k4, k5⟩ := unit_next (F := F) (u := u) hq hm hpq hb calls
      have hiso := iso_step hq hm
      obtain ⟨t1, t2⟩ := total_unit hiso k2 k5
      rw [k3] at hsmall ⊢
      have hc' := close_unit hiso hc k2 k5
      have hε : ε < 1 := by
        have h1 := factor_lt_two hc.one_le hPr (by positivity) hsmall
        nlinarith
      obtain ⟨V, hV, hb2⟩ := ih hok' (hlen.trans (branchOf_unit (n := n) hm steps os w).2) k1 (t2 hε hT) hc' ha0 ha1
        (by
          have h1 : |s ^ 2 * (totalProb n (ampsOf b') - totalProb n (ampsOf b))| ≤ P * ((1 + ε) ^ 2 - 1) := by
            rw [abs_mul, abs_of_nonneg (sq_nonneg s)]
            have h3 : s ^ 2 * totalProb n (ampsOf b) ≤ P := by linarith [(abs_le.1 ha).2]
            have h4 := mul_le_mul_of_nonneg_left t1 (sq_nonneg s)
            have h5 : 0 ≤ (1 + ε) ^ 2 - 1 := by nlinarith
            nlinarith
          have e : s ^ 2 * totalProb n (ampsOf b') - a = s ^ 2 * (totalProb n (ampsOf b') - totalProb n (ampsOf b))
              + (s ^ 2 * totalProb n (ampsOf b) - a) := by ring
          rw [e]
          refine (abs_add_le _ _).trans ?_
          linarith) hsmall
      refine ⟨V, ?_, ?_⟩
      · rw [← hV]
        unfold drawsFor
        simp only [k4]
      · rw [(branchOf_unit hm steps os w).1]
        exact hb2
    · have hm : ∃ idx, q = .measure idx := by
        by_contra h
        exact hm fun idx he => h ⟨idx, he⟩
      obtain ⟨idx, rfl⟩ := hm
      cases hpq
      cases os with
      | nil => simp [countMeasures] at hlen
      | cons m os =>
      obtain ⟨b', k1, k2, k3, k4⟩ := measure_next hF hq hb m
      obtain ⟨j1, j2, j3⟩ := k4 hc
      have hγ := collapseErr_nonneg hF n idx.length
      have hd := drawErr_nonneg hF.nonneg hF.lt_one n
      have hP := hc.one_le
      have est : stepErr A.u u t n (.measure idx) = (1 + collapseErr u n idx.length) ^ 2 + 2 * drawErr u n := by
        unfold stepErr collapseErr
        ring
      have hvol0 : 0 ≤ (MeasureTheory.volume (drawsAt F idx b m)).toReal := ENNReal.toReal_nonneg
      have hvol1 : (MeasureTheory.volume (drawsAt F idx b m)).toReal ≤ 1 := volume_le_one fun x hx => ⟨hx.1, hx.2.1⟩
      have hpT := outcome_le_total (n := n) idx m (ampsOf b)
      have hpm := prob_measure hP ha0 ha1 hT (outcomeProb_nonneg _ _ _ _) hpT ha (born_at hF hq hb hT m) hγ j2 hd
      have hγ1 : collapseErr u n idx.length < 1 := by
        rw [est] at hsmall
        have h1 := factor_lt_two hP hPr (by positivity) hsmall
        nlinarith
      rw [est] at hsmall ⊢
      have hc' : Close n (s * √(outcomeProb n idx (ampsOf b) m)) (ampsOf b') (project n idx m w)
          (P * ((1 + collapseErr u n idx.length) ^ 2 + 2 * drawErr u n)) := by
        refine ⟨mul_nonneg hc.nonneg (Real.sqrt_nonneg _), by nlinarith, ?_, ?_⟩
        · refine j1.trans ?_
          have : (1 + collapseErr u n idx.length) ≤ (1 + collapseErr u n idx.length) ^ 2 + 2 * drawErr u n := by nlinarith
          nlinarith
        · rw [dist2_zero_project]
          refine (Real.sqrt_le_sqrt (outcome_le_total _ _ _)).trans ?_
          rw [totalProb_dist, Real.sqrt_sq (dist2_nonneg _ _ _)]
          exact hc.norm
      obtain ⟨V, hV, hb2⟩ := ih hok' (os := os) (by simpa [countMeasures] using hlen) k1 (j3 hγ1) hc' (mul_nonneg ha0 hvol0)
        (by nlinarith) hpm hsmall
      refine ⟨Fin.cons (drawsAt F idx b m) V, ?_, ?_⟩
      · ext x
        rw [Set.mem_univ_pi]
        have e0 : (∀ i, x i ∈ (Fin.cons (drawsAt F idx b m) V : Fin (os.length + 1) → Set ℝ) i)
            ↔ x 0 ∈ drawsAt F idx b m ∧ (Fin.tail x : Fin os.length → ℝ) ∈ Set.pi Set.univ V := by
          rw [Set.mem_univ_pi]
          constructor
          · intro h
            exact ⟨h 0, fun i => h i.succ⟩
          · rintro ⟨h1, h2⟩ i
            refine Fin.cases ?_ (fun i => ?_) i
            · exact h1
            · exact h2 i
        rw [show (∀ i : Fin (m :: os).length, x i ∈ (Fin.cons (drawsAt F idx b m) V : Fin (os.length + 1) → Set ℝ) i)
            ↔ _ from e0, ← hV]
        have e1 : List.ofFn x = x 0 :: List.ofFn (Fin.tail x : Fin os.length → ℝ) := List.ofFn_succ
        unfold drawsFor
        simp only [Set.mem_ofPred_eq, e1, floatRun, List.headD_cons, List.tail_cons]
        constructor
        · rintro ⟨h1, b2, h2⟩
          rcases hme : b.measure F idx (x 0) with e | ⟨m', p, b3⟩
          · rw [hme] at h2
            simp [bind, Except.bind] at h2
          · rw [hme] at h2
            simp only [bind, Except.bind] at h2
            rcases hfr : floatRun F calls (List.ofFn (Fin.tail x : Fin os.length → ℝ)) b3 with e | ⟨ms, b4⟩
            · rw [hfr] at h2
              simp at h2
            · rw [hfr] at h2
              simp only [pure, Except.pure, Except.ok.injEq, Prod.mk.injEq, List.cons.injEq] at h2
              obtain ⟨⟨rfl, rfl⟩, rfl⟩ := h2
              have hx0 : x 0 ∈ drawsAt F idx b m' := ⟨(h1 0).1, (h1 0).2, p, b3, hme⟩
              obtain ⟨p', hp'⟩ := k2 _ hx0
              rw [hme] at hp'
              simp only [Except.ok.injEq, Prod.mk.injEq] at hp'
              rw [hp'.2.2] at hfr
              exact ⟨hx0, fun i => h1 i.succ, _, hfr⟩
        · rintro ⟨h1, h2, b4, h3⟩
          obtain ⟨p', hp'⟩ := k2 _ h1
          refine ⟨fun i => ?_, b4, ?_⟩
          · exact Fin.cases (motive := fun i : Fin (os.length + 1) => 0 ≤ x i ∧ x i < 1) ⟨h1.1, h1.2.1⟩ h2 i
          · rw [hp']
            simp only [bind, Except.bind]
            rw [h3]
            rfl
      · change |a * (∏ i : Fin (os.length + 1), (MeasureTheory.volume ((Fin.cons (drawsAt F idx b m) V : Fin (os.length + 1) → Set ℝ) i)).toReal)
            - _| ≤ _
        rw [Fin.prod_univ_succ]
        simp only [Fin.cons_zero, Fin.cons_succ]
        rw [← mul_assoc]
        exact hb2

theorem dist2_zero_iff {a b : Nat → ℂ} : dist2 n a b = 0 ↔ ∀ r < 2 ^ n, a r = b r := by
  unfold dist2
  rw [Real.sqrt_eq_zero (Finset.sum_nonneg fun _ _ => by positivity), Finset.sum_eq_zero_iff_of_nonneg fun _ _ => by positivity]
  constructor
  · intro h r hr
    have := h r (mem_range.2 hr)
    rwa [sq_eq_zero_iff, norm_eq_zero, sub_eq_zero] at this
  · intro h r hr
    rw [h r (mem_range.1 hr), sub_self, norm_zero]
    norm_num

theorem branchOf_scale {steps : List QStep} (hok : ∀ q ∈ steps, StepOK n q) (os : List Nat) (a : ℝ) {x v : Nat → ℂ}
    (h : ∀ r < 2 ^ n, x r = a * v r) : ∀ r < 2 ^ n, branchOf n steps os x r = a * branchOf n steps os v r := by
  induction steps generalizing os x v with
  | nil => exact h
  | cons q rest ih =>
    have hok' : ∀ q ∈ rest, StepOK n q := fun q hq => hok q (by simp [hq])
    by_cases hm : ∀ idx, q ≠ .measure idx
    · rw [(branchOf_unit hm rest os x).1, (branchOf_unit hm rest os v).1]
      apply ih hok'
      intro r hr
      have hiso := iso_step (hok q (by simp)) hm
      rw [← hiso.scale a v r hr]
      exact dist2_zero_iff.1 ((hiso.dist _ _).trans (dist2_zero_iff.2 h)) r hr
    · have hm : ∃ idx, q = .measure idx := by
        by_contra h
        exact hm fun idx he => h ⟨idx, he⟩
      obtain ⟨idx, rfl⟩ := hm
      simp only [branchOf]
      apply ih hok'
      intro r hr
      unfold project
      split
      · exact h r hr
      · simp

theorem branchOf_norm {steps : List QStep} (hok : ∀ q ∈ steps, StepOK n q) (os : List Nat) (v : Nat → ℂ) :
    dist2 n (branchOf n steps os v) 0 ≤ dist2 n v 0 := by
  induction steps generalizing os v with
  | nil => exact le_rfl
  | cons q rest ih =>
    have hok' : ∀ q ∈ rest, StepOK n q := fun q hq => hok q (by simp [hq])
    by_cases hm : ∀ idx, q ≠ .measure idx
    · rw [(branchOf_unit hm rest os v).1]
      refine (ih hok' _ _).trans ?_
      rw [iso_norm (iso_step (hok q (by simp)) hm)]
    · have hm : ∃ idx, q = .measure idx := by
        by_contra h
        exact hm fun idx he => h ⟨idx, he⟩
      obtain ⟨idx, rfl⟩ := hm
      refine (ih hok' _ _).trans ?_
      rw [dist2_zero_project, ← Real.sqrt_sq (dist2_nonneg n v 0), ← totalProb_dist]
      exact Real.sqrt_le_sqrt (outcome_le_total _ _ _)

theorem norm_pos {v : Nat → ℂ} (hT : 0 < totalProb n v) : 0 < dist2 n v 0 := by
  rw [totalProb_dist] at hT
  rcases (dist2_nonneg n v 0).lt_or_eq with h | h
  · exact h
  · rw [← h] at hT; norm_num at hT

theorem close_start {v : Nat → ℂ} (hT : 0 < totalProb n v) :
    Close n (1 / dist2 n v 0) v (fun c => ((1 / dist2 n v 0 : ℝ) : ℂ) * v c) 1 := by
  have hN := norm_pos hT
  refine ⟨by positivity, le_rfl, ?_, ?_⟩
  · rw [dist2_zero_iff.2 fun _ _ => rfl]
    norm_num
  · rw [dist2_scale_zero (by positivity)]
    exact le_of_eq (by field_simp)

theorem branch_start {steps : List QStep} (hok : ∀ q ∈ steps, StepOK n q) (os : List Nat) {v : Nat → ℂ} (hT : 0 < totalProb n v) :
    totalProb n (branchOf n steps os fun c => ((1 / dist2 n v 0 : ℝ) : ℂ) * v c) = branchProb n steps os v := by
  rw [totalProb_scale (branchOf_scale hok os (1 / dist2 n v 0) fun _ _ => rfl)]
  unfold branchProb
  rw [totalProb_dist v]
  field_simp

/-- C97 (probabilities): a circuit of gates, inverse gates, oracles and measurements in floating point.  The draws with which the
measurements give the outcomes `os` have the probability of Born's rule up to an explicit error. -/
theorem C97_joint_partial (hF : Accurate F u) {calls : List (FCall A)} {steps : List QStep} (hp : List.Forall₂ (Performs A t n) calls steps)
    (hok : ∀ q ∈ steps, StepOK n q) {b : FState A} (hb : b.Full n) (hT : 0 < totalProb n (ampsOf b)) {os : List Nat}
    (hlen : os.length = countMeasures steps) :
    |(MeasureTheory.volume (drawsFor F calls b os)).toReal - branchProb n steps os (ampsOf b)|
      ≤ circuitErr A.u u t n steps * (3 + circuitErr A.u u t n steps) := by
  have hN := norm_pos hT
  have hPr := one_le_stepProd (A := A) hF t n steps
  unfold circuitErr
  by_cases hsmall : 1 * (steps.map (stepErr A.u u t n)).prod - 1 < 1
  · obtain ⟨V, h1, h2⟩ := joint_main hF hp hok hlen hb hT (close_start hT) zero_le_one le_rfl (by
      rw [totalProb_dist]
      rw [show (1 / dist2 n (ampsOf b) 0) ^ 2 * dist2 n (ampsOf b) 0 ^ 2 - 1 = 0 by field_simp; ring]
      simp) hsmall
    rw [branch_start hok os hT, one_mul, one_mul] at h2
    rw [h1, MeasureTheory.volume_pi_pi, ENNReal.toReal_prod]
    exact h2
  · rw [one_mul] at hsmall
    have h1 : (MeasureTheory.volume (drawsFor F calls b os)).toReal ≤ 1 := by
      have hsub : drawsFor F calls b os ⊆ Set.pi Set.univ fun _ => Set.Ico 0 1 := by
        rintro x ⟨hx, -⟩ i -
        exact hx i
      have := MeasureTheory.measure_mono (μ := MeasureTheory.volume) hsub
      rw [MeasureTheory.volume_pi_pi] at this
      simp only [Real.volume_Ico, sub_zero, ENNReal.ofReal_one, Finset.prod_const_one] at this
      simpa using ENNReal.toReal_mono ENNReal.one_ne_top this
    have h2 : branchProb n steps os (ampsOf b) ≤ 1 := by
      unfold branchProb
      rw [div_le_one hT, totalProb_dist, totalProb_dist]
      exact pow_le_pow_left₀ (dist2_nonneg _ _ _) (branchOf_norm hok os _) 2
    have h3 : 0 ≤ branchProb n steps os (ampsOf b) := by
      unfold branchProb
      rw [totalProb_dist, totalProb_dist]
      positivity
    have h4 : 0 ≤ (MeasureTheory.volume (drawsFor F calls b os)).toReal := ENNReal.toReal_nonneg
    rw [abs_le]
    constructor <;> nlinarith

theorem state_main (hF : Accurate F u) {calls : List (FCall A)} {steps : List QStep} (hp : List.Forall₂ (Performs A t n) calls steps)
    (hok : ∀ q ∈ steps, StepOK n q) {b b' : FState A} (hb : b.Full n) {s P : ℝ} {w : Nat → ℂ} (hc : Close n s (ampsOf b) w P)
    (hs : 0 < s) {xs : List ℝ} (hx : ∀ x ∈ xs, 0 ≤ x ∧ x < 1) {os : List Nat} (hr : floatRun F calls xs b = .ok (os, b')) :
    os.length = countMeasures steps ∧ b'.Full n ∧ ∃ s' : ℝ, 0 < s' ∧
      Close n s' (ampsOf b') (branchOf n steps os w) (P * (steps.map (stepErr A.u u t n)).prod) := by
  induction hp generalizing os b s P w xs with
  | nil =>
    simp only [floatRun, Except.ok.injEq, Prod.mk.injEq] at hr
    obtain ⟨rfl, rfl⟩ := hr
    exact ⟨rfl, hb, s, hs, by simpa [branchOf] using hc⟩
  | @cons call q calls steps hpq hrest ih =>
    have hq := hok q (by simp)
    have hok' : ∀ q ∈ steps, StepOK n q := fun q hq => hok q (by simp [hq])
    rw [List.map_cons, List.prod_cons, ← mul_assoc]
    by_cases hm : ∀ idx, q ≠ .measure idx
    · obtain ⟨b1, ε, k1, k2, k3, k4, k5⟩ := unit_next (F := F) (u := u) hq hm hpq hb calls
      rw [k4] at hr
      rw [k3, (branchOf_unit hm steps os w).1, (branchOf_unit (n := n) hm steps os w).2]
      exact ih hok' k1 (close_unit (iso_step hq hm) hc k2 k5) hs hx hr
    · have hm : ∃ idx, q = .measure idx := by
        by_contra h
        exact hm fun idx he => h ⟨idx, he⟩
      obtain ⟨idx, rfl⟩ := hm
      cases hpq
      have hx0 : 0 ≤ xs.headD 0 ∧ xs.headD 0 < 1 := by
        cases xs with
        | nil => exact ⟨le_rfl, one_pos⟩
        | cons x xs => exact hx x (by simp)
      rw [floatRun] at hr
      rcases hme : b.measure F idx (xs.headD 0) with e | ⟨m, p, b1⟩
      · rw [hme] at hr
        simp [bind, Except.bind] at hr
      rw [hme] at hr
      simp only [bind, Except.bind] at hr
      rcases hfr : floatRun F calls xs.tail b1 with e | ⟨ms, b4⟩
      · rw [hfr] at hr
        simp at hr
      rw [hfr] at hr
      simp only [pure, Except.pure, Except.ok.injEq, Prod.mk.injEq] at hr
      obtain ⟨rfl, rfl⟩ := hr
      obtain ⟨b2, k1, k2, k3, k4⟩ := measure_next hF hq hb m
      have hmem : xs.headD 0 ∈ drawsAt F idx b m := ⟨hx0.1, hx0.2, p, b1, hme⟩
      obtain ⟨p', hp'⟩ := k2 _ hmem
      rw [hme] at hp'
      simp only [Except.ok.injEq, Prod.mk.injEq] at hp'
      obtain ⟨-, -, rfl⟩ := hp'
      have hpos := k3 ⟨_, hmem⟩
      obtain ⟨j1, j2, j3⟩ := k4 hc
      have hγ := collapseErr_nonneg hF n idx.length
      have hd := drawErr_nonneg hF.nonneg hF.lt_one n
      have hP := hc.one_le
      have est : stepErr A.u u t n (.measure idx) = (1 + collapseErr u n idx.length) ^ 2 + 2 * drawErr u n := by
        unfold stepErr collapseErr
        ring
      rw [est]
      have hc' : Close n (s * √(outcomeProb n idx (ampsOf b) m)) (ampsOf b1) (project n idx m w)
          (P * ((1 + collapseErr u n idx.length) ^ 2 + 2 * drawErr u n)) := by
        refine ⟨mul_nonneg hc.nonneg (Real.sqrt_nonneg _), by nlinarith, ?_, ?_⟩
        · refine j1.trans ?_
          have : (1 + collapseErr u n idx.length) ≤ (1 + collapseErr u n idx.length) ^ 2 + 2 * drawErr u n := by nlinarith
          nlinarith
        · rw [dist2_zero_project]
          refine (Real.sqrt_le_sqrt (outcome_le_total _ _ _)).trans ?_
          rw [totalProb_dist, Real.sqrt_sq (dist2_nonneg _ _ _)]
          exact hc.norm
      obtain ⟨r1, r2, r3⟩ := ih hok' k1 hc' (mul_pos hs (Real.sqrt_pos.2 hpos)) (fun x hx' => hx x (List.mem_of_mem_tail hx')) hfr
      exact ⟨by simp [countMeasures, r1], r2, r3⟩

theorem normalised_dist {s d : ℝ} (hs : 0 < s) {v w : Nat → ℂ} (h : dist2 n (fun c => s * v c) w ≤ d) (hw : 0 < dist2 n w 0) :
    dist2 n (fun c => ((1 / dist2 n v 0 : ℝ) : ℂ) * v c) (fun c => ((1 / dist2 n w 0 : ℝ) : ℂ) * w c) ≤ 2 * d / dist2 n w 0 := by
  set y := dist2 n w 0
  have hd : 0 ≤ d := (dist2_nonneg _ _ _).trans h
  have h2 : dist2 n (fun c => ((1 / y * s : ℝ) : ℂ) * v c) (fun c => ((1 / y : ℝ) : ℂ) * w c) ≤ d / y := by
    have := dist2_scale (n := n) (s := 1 / y) (by positivity) (fun c => s * v c) w
    have e : dist2 n (fun c => ((1 / y * s : ℝ) : ℂ) * v c) (fun c => ((1 / y : ℝ) : ℂ) * w c)
        = dist2 n (fun c => ((1 / y : ℝ) : ℂ) * (s * v c)) (fun c => ((1 / y : ℝ) : ℂ) * w c) :=
      dist2_congr (fun _ _ => by push_cast; ring) fun _ _ => rfl
    rw [e, this, div_eq_inv_mul, div_eq_inv_mul, mul_one]
    exact mul_le_mul_of_nonneg_left h (by positivity)
  rcases (dist2_nonneg n v 0).lt_or_eq with hx | hx
  · set x := dist2 n v 0
    have h1 : dist2 n (fun c => ((1 / x : ℝ) : ℂ) * v c) (fun c => ((1 / y * s : ℝ) : ℂ) * v c) ≤ d / y := by
      have e : dist2 n (fun c => ((1 / x : ℝ) : ℂ) * v c) (fun c => ((1 / y * s : ℝ) : ℂ) * v c) = |1 / x - 1 / y * s| * x := by
        have e1 : dist2 n (fun c => ((1 / x : ℝ) : ℂ) * v c) (fun c => ((1 / y * s : ℝ) : ℂ) * v c)
            = dist2 n (fun c => ((|1 / x - 1 / y * s| : ℝ) : ℂ) * v c) 0 := by
          unfold dist2
          congr 1
          apply Finset.sum_congr rfl
          intro r _
          rw [← sub_mul, Pi.zero_apply, sub_zero, norm_mul, norm_mul, ← Complex.ofReal_sub, Complex.norm_real, Complex.norm_real,
            Real.norm_eq_abs, Real.norm_eq_abs, abs_abs]
        rw [e1, dist2_scale_zero (abs_nonneg _)]
      have h3 := dist2_triangle n (fun c => s * v c) w 0
      have h4 := dist2_triangle n w (fun c => s * v c) 0
      rw [dist2_comm w (fun c => s * v c)] at h4
      rw [dist2_scale_zero hs.le] at h3 h4
      rw [e]
      have e2 : |1 / x - 1 / y * s| * x = |y - s * x| / y := by
        rw [← abs_of_pos hx, ← abs_of_pos hw, ← abs_mul, ← abs_div, abs_of_pos hx, abs_of_pos hw]
        congr 1
        field_simp
      rw [e2]
      gcongr
      rw [abs_le]
      constructor <;> linarith
    have h5 := dist2_triangle n (fun c => ((1 / x : ℝ) : ℂ) * v c) (fun c => ((1 / y * s : ℝ) : ℂ) * v c) (fun c => ((1 / y : ℝ) : ℂ) * w c)
    have e3 : 2 * d / y = d / y + d / y := by ring
    linarith
  · have e : dist2 n (fun c => ((1 / dist2 n v 0 : ℝ) : ℂ) * v c) (fun c => ((1 / y : ℝ) : ℂ) * w c)
        = dist2 n (fun c => ((1 / y * s : ℝ) : ℂ) * v c) (fun c => ((1 / y : ℝ) : ℂ) * w c) := by
      apply dist2_congr _ fun _ _ => rfl
      intro r hr
      have := dist2_zero_iff.1 hx.symm r hr
      rw [this]
      simp
    rw [e]
    refine h2.trans ?_
    gcongr
    linarith

/-- C97 (states): after a run with draws in `[0, 1)` the state is, up to normalisation, that of the branch of the outcomes; the error
is relative to the square root of the probability of the branch. -/
theorem C97_state_partial (hF : Accurate F u) {calls : List (FCall A)} {steps : List QStep} (hp : List.Forall₂ (Performs A t n) calls steps)
    (hok : ∀ q ∈ steps, StepOK n q) {b b' : FState A} (hb : b.Full n) (hT : 0 < totalProb n (ampsOf b)) {xs : List ℝ}
    (hx : ∀ x ∈ xs, 0 ≤ x ∧ x < 1) {os : List Nat} (hr : floatRun F calls xs b = .ok (os, b')) :
    os.length = countMeasures steps ∧ b'.n = n ∧ b'.state.length = 2 ^ n ∧ b'.arena.length = 2 ^ n ∧
      (0 < branchProb n steps os (ampsOf b) →
        dist2 n (fun c => ((1 / √(totalProb n (ampsOf b')) : ℝ) : ℂ) * ampsOf b' c)
            (fun c => ((1 / √(totalProb n (branchOf n steps os (ampsOf b))) : ℝ) : ℂ) * branchOf n steps os (ampsOf b) c)
          ≤ 2 * circuitErr A.u u t n steps / √(branchProb n steps os (ampsOf b))) := by
  have hN := norm_pos hT
  obtain ⟨h1, h2, s, hs, h3⟩ := state_main (t := t) hF hp hok hb (close_start hT) (by positivity) hx hr
  refine ⟨h1, h2.size, h2.state, h2.arena, fun hpos => ?_⟩
  rw [one_mul] at h3
  have e1 : ∀ v, √(totalProb n v) = dist2 n v 0 := fun v => by rw [totalProb_dist, Real.sqrt_sq (dist2_nonneg _ _ _)]
  have hbs := branch_start hok os hT
  set w := branchOf n steps os fun c => ((1 / dist2 n (ampsOf b) 0 : ℝ) : ℂ) * ampsOf b c with hw
  rw [← hbs] at hpos ⊢
  have h4 := normalised_dist hs h3.dist (norm_pos hpos)
  rw [e1, e1, e1]
  refine le_trans (le_of_eq ?_) h4
  apply dist2_congr fun _ _ => rfl
  intro r hr
  have hsc := branchOf_scale hok os (1 / dist2 n (ampsOf b) 0) (x := fun c => ((1 / dist2 n (ampsOf b) 0 : ℝ) : ℂ) * ampsOf b c)
    (v := ampsOf b) fun _ _ => rfl
  have hsn : dist2 n w 0 = 1 / dist2 n (ampsOf b) 0 * dist2 n (branchOf n steps os (ampsOf b)) 0 := by
    rw [← dist2_scale_zero (by positivity)]
    exact dist2_congr hsc fun _ _ => rfl
  have hwpos := norm_pos hpos
  rw [hsn] at hwpos
  have hy : 0 < dist2 n (branchOf n steps os (ampsOf b)) 0 := pos_of_mul_pos_right hwpos (by positivity)
  have hwr : w r = _ := hsc r hr
  rw [hsn, hwr, ← mul_assoc, ← Complex.ofReal_mul]
  congr 2
  field_simp

/-- C97 (success): with draws that are neither 0 nor within `drawErr` of 1, every measurement gives an outcome. -/
theorem C97_succeeds_partial (hF : Accurate F u) {calls : List (FCall A)} {steps : List QStep}
    (hp : List.Forall₂ (Performs A t n) calls steps) (hok : ∀ q ∈ steps, StepOK n q) (hsmall : circuitErr A.u u t n steps < 1)
    {b : FState A} (hb : b.Full n) (hT : 0 < totalProb n (ampsOf b)) {xs : List ℝ} (hl : xs.length = countMeasures steps)
    (hx : ∀ x ∈ xs, 0 < x ∧ x ≤ 1 - drawErr u n ∧ x < 1) : ∃ os b', floatRun F calls xs b = .ok (os, b') := by
  unfold circuitErr at hsmall
  induction hp generalizing b xs with
  | nil => exact ⟨[], b, rfl⟩
  | @cons call q calls steps hpq hrest ih =>
    have hq := hok q (by simp)
    have hok' : ∀ q ∈ steps, StepOK n q := fun q hq => hok q (by simp [hq])
    rw [List.map_cons, List.prod_cons] at hsmall
    have hPr := one_le_stepProd (A := A) hF t n steps
    have hq1 := one_le_stepErr (A := A) hF t n q
    have hsm : stepErr A.u u t n q < 2 := by nlinarith
    have hsm' : (steps.map (stepErr A.u u t n)).prod - 1 < 1 := by nlinarith
    by_cases hm : ∀ idx, q ≠ .measure idx
    · obtain ⟨b1, ε, k1, k2, k3, k4, k5⟩ := unit_next (F := F) (u := u) hq hm hpq hb calls
      rw [k4]
      rw [k3] at hsm
      exact ih hok' hsm' k1 ((total_unit (iso_step hq hm) k2 k5).2 (by nlinarith) hT)
        (hl.trans (branchOf_unit (n := n) hm steps [] 0).2) hx
    · have hm : ∃ idx, q = .measure idx := by
        by_contra h
        exact hm fun idx he => h ⟨idx, he⟩
      obtain ⟨idx, rfl⟩ := hm
      cases hpq
      cases xs with
      | nil => simp [countMeasures] at hl
      | cons x xs =>
      have ea : (fun c => (b.state.map FC.val).getD c 0) = ampsOf b := funext (ampsOf_map b)
      obtain ⟨hx0, hx1, hx2⟩ := hx x (by simp)
      obtain ⟨m, p, out', h1, h2, h3⟩ := C95_possible_partial hF hq (vec := b.state.map FC.val) (out := b.arena.map FC.val)
        (by simp [hb.state]) (by simp [hb.arena]) (by rw [ea]; exact hT) hx0 hx1
      have hmem : x ∈ drawsAt F idx b m := by
        rw [drawsAt_eq idx hb]
        exact ⟨hx0.le, hx2, p, out', h1⟩
      obtain ⟨b1, k1, k2, k3, k4⟩ := measure_next hF hq hb m
      obtain ⟨p', hp'⟩ := k2 x hmem
      have hγ := collapseErr_nonneg hF n idx.length
      have hd := drawErr_nonneg hF.nonneg hF.lt_one n
      have est : stepErr A.u u t n (.measure idx) = (1 + collapseErr u n idx.length) ^ 2 + 2 * drawErr u n := by
        unfold stepErr collapseErr
        ring
      rw [est] at hsm
      obtain ⟨os, b2, hr⟩ := ih hok' hsm' k1 ((k4 (close_start hT)).2.2 (by nlinarith)) (xs := xs) (by simpa [countMeasures] using hl)
        (fun y hy => hx y (by simp [hy]))
      refine ⟨m :: os, b2, ?_⟩
      rw [floatRun, List.headD_cons, hp', List.tail_cons]
      simp only [bind, Except.bind]
      rw [hr]
      rfl

/-! ## Double precision -/

variable {D : Double} [D.Ideal]

theorem factor_pow_double {K : Nat} {B : ℝ} (hK : (K : ℝ) ≤ B) (hB : B ≤ 2 ^ 30) :
    factor (1 / 2 ^ 50) ^ K - 1 ≤ 4 * B / 2 ^ 50 := by
  have hf : factor (1 / 2 ^ 50) ≤ 1 + 2 * (1 / 2 ^ 50) := by
    unfold factor
    rw [div_le_iff₀ (by norm_num)]
    norm_num
  have hf0 : (0 : ℝ) ≤ factor (1 / 2 ^ 50) := by
    unfold factor
    norm_num
  have h1 := pow_le_pow_left₀ hf0 hf K
  have h2 := pow_bound (u := 2 * (1 / 2 ^ 50)) (by positivity) (k := K) (by
    norm_num at hB ⊢
    linarith)
  norm_num at h1 h2 ⊢
  linarith

/-- Every step in double precision on at most 20 qubits. -/
theorem stepErr_double {n : Nat} (hn : n ≤ 20) {q : QStep} (hw : ∀ g back gs, q = .gate g back gs → gs.flatten.length ≤ 3) :
    stepErr (binary64 D).u (1 / 2 ^ 50) 8 n q ≤ 1 + 1 / 2 ^ 24 := by
  have hu := (binary64 D).u_nonneg
  have hu4 := (binary64_u (D := D)).le
  cases q with
  | func =>
    unfold stepErr
    norm_num
  | gate g back gs =>
    have hg : gateErr (binary64 D).u 8 3 ≤ 1 / 2 ^ 43 := by
      unfold gateErr
      have hp := pow_bound hu (k := (8 + 1) * (3 + 1) + 1 + 2 ^ 3) (by
        norm_num at hu4 ⊢
        linarith)
      have hs : √((2 : ℝ) ^ 3) ≤ 3 := by
        rw [Real.sqrt_le_left (by norm_num)]
        norm_num
      have hs0 := Real.sqrt_nonneg ((2 : ℝ) ^ 3)
      have hp0 := one_le_pow₀ (by linarith : 1 ≤ 1 + (binary64 D).u) (n := (8 + 1) * (3 + 1) + 1 + 2 ^ 3)
      refine (mul_le_mul (by linarith : _ ≤ 2 * (((8 + 1) * (3 + 1) + 1 + 2 ^ 3 : Nat) * (binary64 D).u)) hs hs0 (by positivity)).trans ?_
      norm_num at hu4 ⊢
      linarith
    have h1 := (gateErr_mono hu (le_refl 8) (hw g back gs rfl)).trans hg
    have h0 := gateErr_nonneg hu 8 gs.flatten.length
    unfold stepErr
    refine (pow_le_pow_left₀ (by linarith) (by linarith : 1 + gateErr (binary64 D).u 8 gs.flatten.length ≤ 1 + 1 / 2 ^ 43) 2).trans ?_
    norm_num
  | measure idx =>
    simp only [stepErr, drawErr]
    obtain ⟨K, hK⟩ : ∃ K, K = 2 ^ (n - idx.length) + 4 := ⟨_, rfl⟩
    obtain ⟨L, hL⟩ : ∃ L, L = 2 ^ (n + 1) + 2 := ⟨_, rfl⟩
    rw [← hK, ← hL]
    have hK' : (K : ℝ) ≤ 1048580 := by
      have := Nat.pow_le_pow_right (show 0 < 2 by omega) (show n - idx.length ≤ 20 by omega)
      have h : K ≤ 1048580 := by omega
      exact_mod_cast h
    have hL' : (L : ℝ) ≤ 2097154 := by
      have := Nat.pow_le_pow_right (show 0 < 2 by omega) (show n + 1 ≤ 21 by omega)
      have h : L ≤ 2097154 := by omega
      exact_mod_cast h
    have h1 := factor_pow_double hK' (by norm_num)
    have h2 := factor_pow_double hL' (by norm_num)
    have h0 := one_le_pow₀ (one_le_factor (u := 1 / 2 ^ 50) (by positivity) (by norm_num)) (n := K)
    set x := factor (1 / 2 ^ 50) ^ K
    set y := factor (1 / 2 ^ 50) ^ L
    have h3 : x ^ 2 ≤ (1 + 4 * 1048580 / 2 ^ 50) ^ 2 := pow_le_pow_left₀ (by linarith) (by linarith) 2
    norm_num at h2 h3 ⊢
    linarith

theorem circuitErr_double {n : Nat} (hn : n ≤ 20) {steps : List QStep} (hN : steps.length ≤ 2 ^ 12)
    (hw : ∀ g back gs, .gate g back gs ∈ steps → gs.flatten.length ≤ 3) :
    circuitErr (binary64 D).u (1 / 2 ^ 50) 8 n steps ≤ 1 / 2 ^ 11 := by
  have h1 : (steps.map (stepErr (binary64 D).u (1 / 2 ^ 50) 8 n)).prod ≤ (1 + 1 / 2 ^ 24) ^ steps.length := by
    clear hN
    induction steps with
    | nil => simp
    | cons q rest ih =>
      rw [List.map_cons, List.prod_cons, List.length_cons, pow_succ, mul_comm]
      have h1 := ih fun g back gs h => hw g back gs (by simp [h])
      have h2 := stepErr_double (D := D) hn (q := q) fun g back gs h => hw g back gs (by simp [h])
      have h3 := one_le_stepErr (A := binary64 D) double_accurate 8 n q
      have h4 := one_le_stepProd (A := binary64 D) double_accurate 8 n rest
      have h5 : (0 : ℝ) ≤ (1 + 1 / 2 ^ 24) ^ rest.length := pow_nonneg (by norm_num) _
      exact mul_le_mul h1 h2 (by linarith) h5
  have hN' : (steps.length : ℝ) * (1 / 2 ^ 24) ≤ 1 / 2 ^ 12 := by
    have : (steps.length : ℝ) ≤ 2 ^ 12 := by exact_mod_cast hN
    calc (steps.length : ℝ) * (1 / 2 ^ 24) ≤ 2 ^ 12 * (1 / 2 ^ 24) := by gcongr
      _ = 1 / 2 ^ 12 := by norm_num
  have h2 := pow_bound (u := 1 / 2 ^ 24) (by positivity) (k := steps.length) (hN'.trans (by norm_num))
  have h3 : (2 : ℝ) * (1 / 2 ^ 12) = 1 / 2 ^ 11 := by norm_num
  unfold circuitErr
  linarith

/-- C97: in double precision (sums in any order, any rounding to 53 bits; for measurements: `C95_rounding`), circuits with at most 20 qubits and 4096 gates, oracles and measurements, every gate on at most three
qubits and with matrix entries right up to 8 roundings: every combination of outcomes has the probability of Born's rule up to `2 ^ -9`. -/
theorem C97_double_partial {n : Nat} (hn : n ≤ 20) (hF : Accurate F (1 / 2 ^ 50)) {calls : List (FCall (binary64 D))} {steps : List QStep}
    (hp : List.Forall₂ (Performs (binary64 D) 8 n) calls steps) (hok : ∀ q ∈ steps, StepOK n q) (hN : steps.length ≤ 2 ^ 12)
    (hw : ∀ g back gs, .gate g back gs ∈ steps → gs.flatten.length ≤ 3) {b : FState (binary64 D)} (hb : b.Full n)
    (hT : 0 < totalProb n (ampsOf b)) {os : List Nat} (hlen : os.length = countMeasures steps) :
    |(MeasureTheory.volume (drawsFor F calls b os)).toReal - branchProb n steps os (ampsOf b)| ≤ 1 / 2 ^ 9 := by
  have h1 := C97_joint_partial hF hp hok hb hT hlen
  have h2 := circuitErr_double (D := D) hn hN hw
  have h3 : 0 ≤ circuitErr (binary64 D).u (1 / 2 ^ 50) 8 n steps := by
    have := one_le_stepProd (A := binary64 D) double_accurate 8 n steps
    unfold circuitErr
    linarith
  set x := circuitErr (binary64 D).u (1 / 2 ^ 50) 8 n steps
  refine h1.trans ((mul_le_mul h2 (by linarith : 3 + x ≤ 3 + 1 / 2 ^ 11) (by linarith) (by positivity)).trans ?_)
  norm_num

/-! ## A concrete run -/

/-- Every step can be performed in double precision, with the matrices of the gates rounded. -/
theorem performs_rounded (q : QStep) (hq : StepOK n q) (ht : 1 ≤ t) : ∃ call, Performs (binary64 D) t n call q := by
  cases q with
  | measure idx => exact ⟨_, .measure⟩
  | func reg1 reg2 f => exact ⟨.func reg1 reg2 f (faCounters n reg1 reg2) fun _ => 0, .func (.refl _)⟩
  | gate g back gs =>
    obtain ⟨hf, hgs, hsw⟩ := hq
    obtain ⟨mats, h⟩ := gm_exists g gs hf hgs
    have hm : ∃ mats, g.feedMats back gs = .ok mats := by
      cases back with
      | false => exact ⟨mats, by simp [Gate.feedMats, h.ok]⟩
      | true =>
        obtain ⟨dm, hd, -⟩ := feedMats_dagger hf hgs h (hsw rfl)
        exact ⟨dm, hd⟩
    obtain ⟨ms, hm⟩ := hm
    refine ⟨.kron (ms.map fun (km : Key × Mat ℂ) => (km.1, roundMat (binary64 D) (fl64 D) km.2)) (List.range (2 ^ n)) 0, .gate hm ?_ (.refl _)⟩
    clear hm
    induction ms with
    | nil => exact .nil
    | cons km mats ih => exact .cons ⟨rfl, roundMat_near ht fl64_err km.2⟩ ih

theorem performs_all {steps : List QStep} (hok : ∀ q ∈ steps, StepOK n q) (ht : 1 ≤ t) :
    ∃ calls, List.Forall₂ (Performs (binary64 D) t n) calls steps := by
  induction steps with
  | nil => exact ⟨[], .nil⟩
  | cons q rest ih =>
    obtain ⟨c, h1⟩ := performs_rounded (D := D) q (hok q (by simp)) ht
    obtain ⟨cs, h2⟩ := ih fun q hq => hok q (by simp [hq])
    exact ⟨c :: cs, .cons h1 h2⟩

/-- Measure one qubit of a Bell pair, undo the gates, measure both. -/
def bellSteps : List QStep :=
  [.gate .h false [[0]], .gate (.c .x) false [[0], [1]], .measure [0], .gate (.c .x) true [[0], [1]], .gate .h true [[0]], .measure [1, 0]]

theorem bellSteps_ok : ∀ q ∈ bellSteps, StepOK 2 q := by
  have h1 : Fits .h [[0]] ∧ GroupsOK 2 [[0]] := ⟨by simp [Fits], by constructor <;> simp⟩
  have h2 : Fits (.c .x) [[0], [1]] ∧ GroupsOK 2 [[0], [1]] := ⟨⟨0, [[1]], rfl, by simp [Fits]⟩, by constructor <;> simp⟩
  intro q hq
  simp only [bellSteps, List.mem_cons, List.not_mem_nil, or_false] at hq
  rcases hq with rfl | rfl | rfl | rfl | rfl | rfl
  · exact ⟨h1.1, h1.2, by simp⟩
  · exact ⟨h2.1, h2.2, by simp⟩
  · exact ⟨by simp, by simp⟩
  · exact ⟨h2.1, h2.2, by simp [hasSwap]⟩
  · exact ⟨h1.1, h1.2, by simp [hasSwap]⟩
  · exact ⟨by simp, by simp⟩

theorem bell_start (a : List (FC (binary64 D))) (n : Nat) : totalProb 2 (ampsOf (⟨n, [1, 0, 0, 0], a⟩ : FState (binary64 D))) = 1 := by
  have h0 : (0 : FC (binary64 D)).val = 0 := rfl
  have h1 : (1 : FC (binary64 D)).val = 1 := rfl
  simp [totalProb, ampsOf, Finset.sum_range_succ, h0, h1]

-- every pair of outcomes has its probability up to 2 ^ -9, and draws of 1/2 lead through the circuit
example (D : Double) [D.Ideal] : ∃ calls, List.Forall₂ (Performs (binary64 D) 8 2) calls bellSteps ∧
    (∀ m m' : Nat, |(MeasureTheory.volume (drawsFor FOps.double calls ⟨2, [1, 0, 0, 0], [0, 0, 0, 0]⟩ [m, m'])).toReal
      - branchProb 2 bellSteps [m, m'] (ampsOf (⟨2, [1, 0, 0, 0], [0, 0, 0, 0]⟩ : FState (binary64 D)))| ≤ 1 / 2 ^ 9) ∧
    ∃ os b', floatRun FOps.double calls [1 / 2, 1 / 2] ⟨2, [1, 0, 0, 0], [0, 0, 0, 0]⟩ = .ok (os, b') := by
  obtain ⟨calls, hp⟩ := performs_all (D := D) (t := 8) bellSteps_ok (by norm_num)
  have hw : ∀ g back gs, .gate g back gs ∈ bellSteps → gs.flatten.length ≤ 3 := by
    intro g back gs h
    simp only [bellSteps, List.mem_cons, QStep.gate.injEq, List.not_mem_nil, or_false, reduceCtorEq, false_or] at h
    rcases h with ⟨_, _, rfl⟩ | ⟨_, _, rfl⟩ | ⟨_, _, rfl⟩ | ⟨_, _, rfl⟩ <;> simp
  have hT := bell_start (D := D) [0, 0, 0, 0] 2
  refine ⟨calls, hp, fun m m' => ?_, ?_⟩
  · exact C97_double_partial (by norm_num) double_accurate hp bellSteps_ok (by simp [bellSteps]) hw ⟨rfl, rfl, rfl⟩ (by rw [hT]; exact one_pos) rfl
  · have h1 := circuitErr_double (D := D) (n := 2) (by norm_num) (steps := bellSteps) (by simp [bellSteps]) hw
    have h2 := C95_double (n := 2) (by norm_num)
    refine C97_succeeds_partial double_accurate hp bellSteps_ok (lt_of_le_of_lt h1 (by norm_num)) ⟨rfl, rfl, rfl⟩
      (by rw [hT]; exact one_pos) rfl ?_
    intro x hx
    simp only [List.mem_cons, List.not_mem_nil, or_false, or_self] at hx
    subst hx
    norm_num at h2 ⊢
    linarith

end QIP.Props
