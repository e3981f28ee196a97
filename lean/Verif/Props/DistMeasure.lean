import Mathlib.MeasureTheory.Measure.Lebesgue.Basic
import Verif.Lemmas.MeasureNet
import Verif.Props.Distributed

/-!
# C65: measurement of a distributed state
-/

namespace QIP.Props

open QIP QIP.Spec

variable {prm : Wid → WParam} {K N C M n : Nat} {ws : List Wid} {st : Wid → Wid → Nat} {v : List ℂ} {f : Wid → WSt}
  {indices : List Nat}

theorem local_measure {arena : List ℂ} (ha : arena.length = 2 ^ n) (hv : v.length = 2 ^ n) (hIdx : IdxOK n indices) {m : Nat}
    (hm : m < 2 ^ indices.length) (hp : 0 < outcomeProb n indices (fun c => v.getD c 0) m) (u g : ℝ) :
    BState.measure ⟨n, v, arena⟩ indices (some (m : Int)) none 0 0 u g
      = (.ok (m, outcomeProb n indices (fun c => v.getD c 0) m),
        ⟨n, collapsedVec n indices v m (outcomeProb n indices (fun c => v.getD c 0) m), v⟩) := by
  have hs := softMeasure_forced hIdx v 0 hm u g
  rw [sliceAt_zero'] at hs
  have hc := chooseOutcome_soft indices n v 0 (some m) (by simpa using hm) u g hs
  rw [if_neg hp.ne'] at hc
  exact BState.measure_ok (b := ⟨n, v, arena⟩) ⟨hv, ha⟩ hIdx hm hc

/-- Everything about a measurement. -/
theorem measure_result (hg : GridOK prm K N C M ws) (hIdx : IdxOK n indices) (hKN : K * N = 2 ^ n) (hv : v.length = 2 ^ n)
    (hgarb : ∀ w c, (prm w).garbage c = 0)
    (hT : Spec.totalProb n (fun c => v.getD c 0) = 1) {r : ℝ} (hr : r ≤ 1) (hR : GridReady K N n v f) (hst : StOK st) :
    ∃ s < K, ∃ m < 2 ^ indices.length, ∃ k, k = (f (s, s)).cnt + 1 ∧
      (∀ j < s, ((List.range (j + 1)).map fun i => Spec.totalProb n (sl N v i)).sum < r) ∧
      r ≤ ((List.range (s + 1)).map fun i => Spec.totalProb n (sl N v i)).sum ∧
      (∀ j < m, cumProb n indices (sl N v s) (j + 1) < (prm (s, s)).draw k * Spec.totalProb n (sl N v s)) ∧
      (m + 1 = 2 ^ indices.length ∨ (prm (s, s)).draw k * Spec.totalProb n (sl N v s) ≤ cumProb n indices (sl N v s) (m + 1)) ∧
      (0 < outcomeProb n indices (fun c => v.getD c 0) m →
        ∃ f', GridReady K N n (collapsedVec n indices v m (outcomeProb n indices (fun c => v.getD c 0) m)) f' ∧
          (∀ i < K, (f' (i, i)).cnt = (f (i, i)).cnt + 4) ∧ AlwaysEnds (netAct prm) (netCfg (sendMeasure indices r ws) f (nbuf C M st noMsg noMsg))
            (netCfg (.done (.ok (some (m, outcomeProb n indices (fun c => v.getD c 0) m)))) f'
              (nbuf C M (scatterSt st K (leftover N C M)) noMsg noMsg))) ∧
      (outcomeProb n indices (fun c => v.getD c 0) m = 0 →
        ∃ f' k, (∀ i < K, (f' (i, i)).pc = .crashed) ∧
          AlwaysEnds (netAct prm) (netCfg (sendMeasure indices r ws) f (nbuf C M st noMsg noMsg))
            (netCfg (.recv (0, 0) k) f' (nbuf C M st noMsg noMsg))) := by
  obtain ⟨s, hs, m, hm, k, hk, h1, h2, h3, h4, f1, hR1, ht1, hrun⟩ := choose_runs (prm := prm) (st := st) hg hIdx hKN hv hgarb hR
    (r := r) (by rw [hT]; exact hr)
  refine ⟨s, hs, m, hm, k, hk, h1, h2, h3, h4, ?_, ?_⟩
  · intro hp
    have hp1 : outcomeProb n indices (fun c => v.getD c 0) m ≤ 1 := by
      rw [← hT, ← hIdx.sum_outcomeProb]
      exact Finset.single_le_sum (f := fun j => outcomeProb n indices (fun c => v.getD c 0) j)
        (fun j _ => outcomeProb_nonneg _ _ _ _) (Finset.mem_range.2 hm)
    obtain ⟨f2, hR2, ht2, hrun2⟩ := collapse_runs (prm := prm) hg hIdx hKN hv hR1 hst hm ⟨hp, hp1⟩
    exact ⟨f2, hR2, fun i hi => by rw [ht2 i hi, ht1 i hi], (hrun.trans hrun2).alwaysEnds hR2.stuck⟩
  · intro hp
    obtain ⟨f2, k, h5, h6, h7⟩ := collapse_deadlock (prm := prm) (st := st) hg hIdx hR1 (m := m)
      (p := outcomeProb n indices (fun c => v.getD c 0) m) (by rw [hp]; simp)
    exact ⟨f2, k, h5, (hrun.trans h7).alwaysEnds h6⟩

theorem cum_lt_pos {w : Nat → ℂ} (hIdx : IdxOK n indices) {m : Nat} (hm : m < 2 ^ indices.length) {u : ℝ} (h0 : 0 < u) (h1 : u < 1)
    (hT : 0 < Spec.totalProb n w) (hlo : ∀ j < m, cumProb n indices w (j + 1) < u * Spec.totalProb n w)
    (hhi : m + 1 = 2 ^ indices.length ∨ u * Spec.totalProb n w ≤ cumProb n indices w (m + 1)) :
    0 < outcomeProb n indices w m := by
  rcases (outcomeProb_nonneg n indices w m).lt_or_eq with hp | hp
  · exact hp
  · exfalso
    have e := cumProb_succ n indices w m
    rw [← hp, add_zero] at e
    have hu : 0 < u * Spec.totalProb n w := by positivity
    have hu' : u * Spec.totalProb n w < Spec.totalProb n w := by nlinarith
    have hcm : cumProb n indices w m < u * Spec.totalProb n w := by
      cases m with
      | zero => simpa [cumProb] using hu
      | succ j => exact hlo j (by omega)
    rcases hhi with hh | hh
    · rw [hh, cumProb_top hIdx] at e
      linarith
    · linarith

theorem outcome_part_le (hKN : K * N = 2 ^ n) (hv : v.length = 2 ^ n) {s : Nat} (hs : s < K) (m : Nat) :
    outcomeProb n indices (sl N v s) m ≤ outcomeProb n indices (fun c => v.getD c 0) m := by
  rw [← sum_parts_outcome indices m (show v.length = K * N by omega)]
  exact List.single_le_sum (by
    intro x hx
    obtain ⟨i, -, rfl⟩ := List.mem_map.1 hx
    exact outcomeProb_nonneg _ _ _ _) _ (List.mem_map.2 ⟨s, List.mem_range.2 hs, rfl⟩)

/-- Probability of the ranges before `j`. -/
noncomputable def before (n N : Nat) (v : List ℂ) (j : Nat) : ℝ :=
  ((List.range j).map fun i => Spec.totalProb n (sl N v i)).sum

theorem before_succ (n N : Nat) (v : List ℂ) (j : Nat) :
    before n N v (j + 1) = before n N v j + Spec.totalProb n (sl N v j) := by
  simp [before, List.range_succ]

theorem before_mono (n N : Nat) (v : List ℂ) {a b : Nat} (h : a ≤ b) : before n N v a ≤ before n N v b := by
  induction b, h using Nat.le_induction with
  | base => exact le_rfl
  | succ b _ ih => rw [before_succ]; linarith [totalProb_nonneg n (sl N v b)]

/-- C65 (partial: accumulators 0 and draws not 0, see C23 and C24; connections arrived, see C64): whatever the schedule,
a measurement of a distributed normalised state ends; it reports an outcome `m` that is possible, with its probability in
the whole state, and every worker has its range of the state that the local backend has after measuring `m`. -/
theorem C65_measure_partial (hg : GridOK prm K N C M ws) (hIdx : IdxOK n indices)
    (hgarb : ∀ w c, (prm w).garbage c = 0) (hu : ∀ i c, 0 < (prm (i, i)).draw c ∧ (prm (i, i)).draw c < 1)
    (hT : Spec.totalProb n (fun c => v.getD c 0) = 1) {r : ℝ} (hr : 0 < r ∧ r < 1)
    {c : Cfg Pid NMsg NLoc} (hD : Distributed K N n v C M st (sendMeasure indices r ws) c) {arena : List ℂ}
    (ha : arena.length = 2 ^ n) (u' g' : ℝ) :
    ∃ m p b' c' st', m < 2 ^ indices.length ∧ p = outcomeProb n indices (fun c => v.getD c 0) m ∧ 0 < p ∧
      AlwaysEnds (netAct prm) c c' ∧ Distributed K N n b'.state C M st' (.done (.ok (some (m, p)))) c' ∧
      BState.measure ⟨n, v, arena⟩ indices (some (m : Int)) none 0 0 u' g' = (.ok (m, p), b') := by
  obtain ⟨f, rfl, hR, hst⟩ := hD.cfg
  obtain ⟨s, hs, m, hm, k, -, h1, h2, h3, h4, h5, -⟩ := measure_result (prm := prm) hg hIdx hD.cover hD.size hgarb hT hr.2.le
    hR hst
  have hTs : 0 < Spec.totalProb n (sl N v s) := by
    have e := before_succ n N v s
    have hb : before n N v s < r := by
      cases s with
      | zero => simpa [before] using hr.1
      | succ j => exact h1 j (by omega)
    have : r ≤ before n N v (s + 1) := h2
    linarith
  have hp : 0 < outcomeProb n indices (fun c => v.getD c 0) m :=
    (cum_lt_pos hIdx hm (hu s k).1 (hu s k).2 hTs h3 h4).trans_le (outcome_part_le hD.cover hD.size hs m)
  obtain ⟨f', hR', -, he⟩ := h5 hp
  exact ⟨m, _, _, _, _, hm, rfl, hp, he, Distributed.of_ready hD.cover (by simp [collapsedVec]) hR' (stOK_scatter hst _ _) _,
    local_measure ha hD.size hIdx hm hp u' g'⟩

/-- All workers draw `u`. -/
def withDraw (prm : Wid → WParam) (u : ℝ) : Wid → WParam := fun w => { prm w with draw := fun _ => u }

theorem GridOK.withDraw (hg : GridOK prm K N C M ws) (u : ℝ) : GridOK (withDraw prm u) K N C M ws :=
  ⟨hg.posK, hg.posN, hg.posC, hg.posM, hg.size, hg.chunk, hg.inflight, hg.nodup, hg.mem, hg.regs_nodup, hg.regs⟩

/-- The pairs of draws (of the manager, and of the worker it selects) for which the outcome `m` is reported. -/
def distDraws (prm : Wid → WParam) (indices : List Nat) (ws : List Wid) (c : MProg → Cfg Pid NMsg NLoc) (m : Nat) :
    Set (ℝ × ℝ) :=
  {x | (0 ≤ x.1 ∧ x.1 < 1) ∧ (0 ≤ x.2 ∧ x.2 < 1) ∧ ∃ c' p,
    AlwaysEnds (netAct (withDraw prm x.2)) (c (sendMeasure indices x.1 ws)) c' ∧
      c'.loc none = .mgr (.done (.ok (some (m, p))))}

theorem AlwaysEnds.det {c c1 c2 : Cfg Pid NMsg NLoc} (h1 : AlwaysEnds (netAct prm) c c1)
    (h2 : AlwaysEnds (netAct prm) c c2) : c2 = c1 := by
  obtain ⟨t, ht, -⟩ := h2.2.choose_spec [] c rfl
  exact h1.unique ⟨t, ht⟩ h2.1

/-- The outcome for given draws. -/
theorem draws_result (hg : GridOK prm K N C M ws) (hIdx : IdxOK n indices)
    (hgarb : ∀ w c, (prm w).garbage c = 0) (hT : Spec.totalProb n (fun c => v.getD c 0) = 1)
    {c : MProg → Cfg Pid NMsg NLoc} (hD : ∀ pm, Distributed K N n v C M st pm (c pm)) {r u : ℝ} (hr : 0 ≤ r ∧ r < 1)
    (hu : 0 ≤ u ∧ u < 1) :
    ∃ s < K, ∃ m < 2 ^ indices.length, (∀ j < s, before n N v (j + 1) < r) ∧ r ≤ before n N v (s + 1) ∧
      (∀ j < m, cumProb n indices (sl N v s) (j + 1) < u * Spec.totalProb n (sl N v s)) ∧
      (m + 1 = 2 ^ indices.length ∨ u * Spec.totalProb n (sl N v s) ≤ cumProb n indices (sl N v s) (m + 1)) ∧
      ∀ m', (r, u) ∈ distDraws prm indices ws c m' ↔ m' = m ∧ 0 < outcomeProb n indices (fun c => v.getD c 0) m := by
  obtain ⟨f, hf, hR, hst⟩ := (hD (sendMeasure indices r ws)).cfg
  obtain ⟨s, hs, m, hm, k, -, h1, h2, h3, h4, h5, h6⟩ := measure_result (prm := withDraw prm u) (GridOK.withDraw hg u) hIdx
    (hD (.done (.ok none))).cover (hD (.done (.ok none))).size hgarb hT hr.2.le hR hst
  refine ⟨s, hs, m, hm, h1, h2, h3, h4, fun m' => ?_⟩
  rw [← hf] at h5 h6
  constructor
  · rintro ⟨-, -, c', p, he, hc'⟩
    rcases (outcomeProb_nonneg n indices (fun c => v.getD c 0) m).lt_or_eq with hp | hp
    · obtain ⟨f', -, -, he'⟩ := h5 hp
      rw [AlwaysEnds.det he' he] at hc'
      simp only [netCfg, NLoc.mgr.injEq, MProg.done.injEq, Except.ok.injEq, Option.some.injEq, Prod.mk.injEq] at hc'
      exact ⟨hc'.1.symm, hp⟩
    · obtain ⟨f', k, -, he'⟩ := h6 hp.symm
      rw [AlwaysEnds.det he' he] at hc'
      simp [netCfg] at hc'
  · rintro ⟨rfl, hp⟩
    obtain ⟨f', -, -, he'⟩ := h5 hp
    exact ⟨hr, hu, _, _, he', rfl⟩

theorem cum_nonneg (w : Nat → ℂ) (m : Nat) : 0 ≤ cumProb n indices w m :=
  Finset.sum_nonneg fun _ _ => outcomeProb_nonneg _ _ _ _

theorem cum_le_total {w : Nat → ℂ} (hIdx : IdxOK n indices) {m : Nat} (hm : m ≤ 2 ^ indices.length) :
    cumProb n indices w m ≤ Spec.totalProb n w := by
  rw [← cumProb_top hIdx]; exact cumProb_mono _ _ _ hm

open MeasureTheory in
theorem area (hIdx : IdxOK n indices) {m : Nat} (hm : m < 2 ^ indices.length) (a : ℝ) (w : Nat → ℂ) :
    ENNReal.ofReal (a + Spec.totalProb n w - a)
      * ENNReal.ofReal (cumProb n indices w (m + 1) / Spec.totalProb n w - cumProb n indices w m / Spec.totalProb n w)
      = ENNReal.ofReal (outcomeProb n indices w m) := by
  have h0 := totalProb_nonneg n w
  rw [← ENNReal.ofReal_mul (by linarith)]
  congr 1
  rw [cumProb_succ]
  rcases h0.lt_or_eq with h | h
  · field_simp
    ring
  · have h1 := cum_le_total (w := w) hIdx (show m + 1 ≤ 2 ^ indices.length from hm)
    rw [cumProb_succ] at h1
    have h2 := cum_nonneg (n := n) (indices := indices) w m
    have h3 := outcomeProb_nonneg n indices w m
    have : outcomeProb n indices w m = 0 := by linarith
    rw [this, ← h]
    simp

open MeasureTheory in
/-- C65 (partial, as above): the outcome `m` is reported with its probability in the whole state: the set of pairs of draws
for which it is reported has this measure. -/
theorem C65_born_partial (hg : GridOK prm K N C M ws) (hIdx : IdxOK n indices)
    (hgarb : ∀ w c, (prm w).garbage c = 0) (hT : Spec.totalProb n (fun c => v.getD c 0) = 1)
    {c : MProg → Cfg Pid NMsg NLoc} (hD : ∀ pm, Distributed K N n v C M st pm (c pm)) {m : Nat}
    (hm : m < 2 ^ indices.length) :
    volume (distDraws prm indices ws c m) = ENNReal.ofReal (outcomeProb n indices (fun c => v.getD c 0) m) := by
  have hKN := (hD (.done (.ok none))).cover
  have hv := (hD (.done (.ok none))).size
  have hvK : v.length = K * N := by omega
  have hbK : before n N v K = 1 := by rw [← hT]; exact sum_parts_total hvK
  have hsum : ENNReal.ofReal (outcomeProb n indices (fun c => v.getD c 0) m)
      = ∑ s ∈ Finset.range K, ENNReal.ofReal (outcomeProb n indices (sl N v s) m) := by
    rw [← ENNReal.ofReal_sum_of_nonneg (fun _ _ => outcomeProb_nonneg _ _ _ _), ← sum_parts_outcome indices m hvK]
    rfl
  let c0 : Nat → ℝ := fun s => cumProb n indices (sl N v s) m / Spec.totalProb n (sl N v s)
  let c1 : Nat → ℝ := fun s => cumProb n indices (sl N v s) (m + 1) / Spec.totalProb n (sl N v s)
  rw [hsum]
  apply le_antisymm
  · -- not more
    have hsub : distDraws prm indices ws c m ⊆ ({0} ×ˢ Set.univ : Set (ℝ × ℝ)) ∪
        ⋃ s ∈ Finset.range K, Set.Icc (before n N v s) (before n N v (s + 1)) ×ˢ Set.Icc (c0 s) (c1 s) := by
      rintro ⟨r, u⟩ hx
      have hr := hx.1
      have hu := hx.2.1
      simp only at hr hu
      obtain ⟨s, hs, m', hm', h1, h2, h3, h4, h5⟩ := draws_result hg hIdx hgarb hT hD hr hu
      obtain ⟨rfl, hp⟩ := (h5 m).1 hx
      rcases hr.1.lt_or_eq with hr0 | hr0
      · right
        have hb : before n N v s < r := by
          cases s with
          | zero => simpa [before] using hr0
          | succ j => exact h1 j (by omega)
        have hTs : 0 < Spec.totalProb n (sl N v s) := by
          have e := before_succ n N v s
          linarith
        simp only [Set.mem_iUnion, Finset.mem_range, Set.mem_prod, Set.mem_Icc, exists_prop]
        refine ⟨s, hs, ⟨hb.le, h2⟩, ?_, ?_⟩
        · rw [div_le_iff₀ hTs]
          cases m with
          | zero => simp only [cumProb, Finset.range_zero, Finset.sum_empty]; exact mul_nonneg hu.1 hTs.le
          | succ j => exact (h3 j (by omega)).le
        · rw [le_div_iff₀ hTs]
          rcases h4 with e | e
          · rw [e, cumProb_top hIdx]
            nlinarith
          · exact e
      · left
        simp [← hr0]
    refine (measure_mono hsub).trans ((measure_union_le _ _).trans ?_)
    have hz : volume ({0} ×ˢ Set.univ : Set (ℝ × ℝ)) = 0 := by
      rw [Measure.volume_eq_prod, Measure.prod_prod]
      simp
    rw [hz, zero_add]
    refine (measure_biUnion_finset_le _ _).trans (Finset.sum_le_sum fun s hs => ?_)
    rw [Measure.volume_eq_prod, Measure.prod_prod, Real.volume_Icc, Real.volume_Icc, before_succ]
    exact (area hIdx hm _ _).le
  · -- not less
    have hsub : (⋃ s ∈ Finset.range K, Set.Ioo (before n N v s) (before n N v (s + 1)) ×ˢ Set.Ioo (c0 s) (c1 s))
        ⊆ distDraws prm indices ws c m := by
      rintro ⟨r, u⟩ hx
      simp only [Set.mem_iUnion, Finset.mem_range, Set.mem_prod, Set.mem_Ioo, exists_prop] at hx
      obtain ⟨s, hs, ⟨hr1, hr2⟩, hu1, hu2⟩ := hx
      have hTs : 0 < Spec.totalProb n (sl N v s) := by
        have e := before_succ n N v s
        linarith
      rw [div_lt_iff₀ hTs] at hu1
      rw [lt_div_iff₀ hTs] at hu2
      have hb0 : 0 ≤ before n N v s := by
        have := before_mono n N v (Nat.zero_le s)
        simpa [before] using this
      have hb1 : before n N v (s + 1) ≤ 1 := by rw [← hbK]; exact before_mono n N v hs
      have hc0 := cum_nonneg (n := n) (indices := indices) (sl N v s) m
      have hc1 := cum_le_total (w := sl N v s) hIdx (show m + 1 ≤ 2 ^ indices.length from hm)
      have hu0 : 0 < u := by
        by_contra hn
        have : u * Spec.totalProb n (sl N v s) ≤ 0 := mul_nonpos_of_nonpos_of_nonneg (by linarith) hTs.le
        linarith
      have hu1' : u < 1 := by
        by_contra hn
        have : Spec.totalProb n (sl N v s) ≤ u * Spec.totalProb n (sl N v s) :=
          le_mul_of_one_le_left hTs.le (by linarith)
        linarith
      obtain ⟨s', hs', m', hm', h1, h2, h3, h4, h5⟩ := draws_result hg hIdx hgarb hT hD (r := r) (u := u)
        ⟨by linarith, by linarith⟩ ⟨hu0.le, hu1'⟩
      have es : s' = s := by
        rcases lt_trichotomy s' s with hlt | e | hgt
        · have := before_mono n N v (show s' + 1 ≤ s by omega)
          linarith
        · exact e
        · have := h1 s hgt
          linarith
      subst es
      have em : m' = m := by
        rcases lt_trichotomy m' m with hlt | e | hgt
        · rcases h4 with h4 | h4
          · omega
          · have := cumProb_mono n indices (sl N v s') (show m' + 1 ≤ m by omega)
            linarith
        · exact e
        · have := h3 m hgt
          linarith
      subst em
      refine (h5 m').2 ⟨rfl, ?_⟩
      exact (cum_lt_pos hIdx hm hu0 hu1' hTs h3 h4).trans_le (outcome_part_le hKN hv hs m')
    refine le_trans ?_ (measure_mono hsub)
    rw [measure_biUnion_finset]
    · refine Finset.sum_le_sum fun s hs => ?_
      rw [Measure.volume_eq_prod, Measure.prod_prod, Real.volume_Ioo, Real.volume_Ioo, before_succ]
      exact (area hIdx hm _ _).ge
    · intro s _ s' _ hne
      rw [Function.onFun, Set.disjoint_left]
      rintro ⟨r, u⟩ h1 h2
      simp only [Set.mem_prod, Set.mem_Ioo] at h1 h2
      rcases Nat.lt_or_gt_of_ne hne with hlt | hgt
      · have := before_mono n N v (show s + 1 ≤ s' by omega)
        linarith [h1.1.2, h2.1.1]
      · have := before_mono n N v (show s' + 1 ≤ s by omega)
        linarith [h1.1.1, h2.1.2]
    · intro s _
      exact measurableSet_Ioo.prod measurableSet_Ioo

/-- C65 (negation of the full property): the draws of the manager and the workers may be 0.  If the outcome 0 is impossible
and all workers draw 0, every diagonal worker dies with ValueError, and the manager waits forever for their reports. -/
theorem C65_draw_zero_deadlock (hg : GridOK prm K N C M ws) (hIdx : IdxOK n indices)
    (hgarb : ∀ w c, (prm w).garbage c = 0) (hdraw : ∀ i c, (prm (i, i)).draw c = 0)
    (hT : Spec.totalProb n (fun c => v.getD c 0) = 1)
    (hz : outcomeProb n indices (fun c => v.getD c 0) 0 = 0) {r : ℝ} (hr : r ≤ 1)
    {c : Cfg Pid NMsg NLoc} (hD : Distributed K N n v C M st (sendMeasure indices r ws) c) :
    ∃ c' k, AlwaysEnds (netAct prm) c c' ∧ c'.loc none = .mgr (.recv (0, 0) k) ∧
      ∀ i < K, ∃ s, c'.loc (some (i, i)) = .wkr s ∧ s.pc = .crashed := by
  obtain ⟨f, rfl, hR, hst⟩ := hD.cfg
  obtain ⟨s, hs, m, hm, k, -, h1, h2, h3, h4, -, h5⟩ := measure_result (prm := prm) hg hIdx hD.cover hD.size hgarb
    hT hr hR hst
  rw [hdraw] at h3 h4
  have em : m = 0 := by
    by_contra hne
    have := h3 0 (by omega)
    rw [zero_mul] at this
    have h6 := cum_nonneg (n := n) (indices := indices) (sl N v s) (0 + 1)
    linarith
  subst em
  obtain ⟨f', k, h6, h7⟩ := h5 hz
  exact ⟨_, k, h7, rfl, fun i hi => ⟨_, rfl, h6 i hi⟩⟩

/-! ## The grid of four workers with the state `(3/5) |00> + (4/5) |11>` -/

noncomputable def bellV : List ℂ := [3 / 5, 0, 0, 4 / 5]

noncomputable def bellSt : Wid → WSt := fun w =>
  if w.1 < 2 ∧ w.2 < 2 then ⟨⟨2, if w.1 = 0 then [3 / 5, 0] else [0, 4 / 5], [0, 0]⟩, .idle, 0⟩
  else ⟨⟨0, [], []⟩, .closed, 0⟩

theorem bellReady : GridReady 2 2 2 bellV bellSt := by
  constructor
  · intro i hi j hj
    simp only [bellSt, hi, hj, and_self, if_true, true_and]
    rcases (show i = 0 ∨ i = 1 by omega) with rfl | rfl <;> simp [part, bellV]
  · intro w hw
    simp only [bellSt, if_neg hw]

theorem bellStart (pm : MProg) : Distributed 2 2 2 bellV 1 2 (fun _ _ => 0) pm
    (netCfg pm bellSt (nbuf 1 2 (fun _ _ => 0) noMsg noMsg)) :=
  Distributed.of_ready (by norm_num) (by norm_num [bellV]) bellReady ⟨fun _ _ _ => rfl, fun _ _ _ => rfl⟩ pm

theorem bell_norm : Spec.totalProb 2 (fun c => bellV.getD c 0) = 1 := by
  simp only [Spec.totalProb, bellV]
  norm_num [Finset.sum_range_succ, Complex.normSq_apply, List.getD]

theorem bell_prob : outcomeProb 2 [1] (fun c => bellV.getD c 0) 1 = 16 / 25 := by
  have e : (Finset.range (2 ^ 2)).filter (fun c => subIndex 2 (inOrder 2 [1]) c = 1) = {1, 3} := by decide
  unfold outcomeProb
  rw [e]
  simp only [bellV]
  norm_num [Complex.normSq_apply, List.getD]

open MeasureTheory in
example : volume (distDraws gridPrm [1] [(0, 0), (0, 1), (1, 0), (1, 1)]
    (fun pm => netCfg pm bellSt (nbuf 1 2 (fun _ _ => 0) noMsg noMsg)) 1) = ENNReal.ofReal (16 / 25) := by
  rw [← bell_prob]
  exact C65_born_partial gridOK (by constructor <;> simp) (fun _ _ => rfl) bell_norm bellStart (by norm_num)

/-- The state `|1> (3/5 |0> + 4/5 |1>)`: outcome 0 of qubit 0 is impossible. -/
noncomputable def oneSt : Wid → WSt := fun w =>
  if w.1 < 2 ∧ w.2 < 2 then ⟨⟨2, if w.1 = 0 then [0, 0] else [3 / 5, 4 / 5], [0, 0]⟩, .idle, 0⟩
  else ⟨⟨0, [], []⟩, .closed, 0⟩

theorem oneReady : GridReady 2 2 2 [0, 0, 3 / 5, 4 / 5] oneSt := by
  constructor
  · intro i hi j hj
    simp only [oneSt, hi, hj, and_self, if_true, true_and]
    rcases (show i = 0 ∨ i = 1 by omega) with rfl | rfl <;> simp [part]
  · intro w hw
    simp only [oneSt, if_neg hw]

example : ∃ c' k, AlwaysEnds (netAct gridPrm) (netCfg (sendMeasure [0] (1 / 2) [(0, 0), (0, 1), (1, 0), (1, 1)]) oneSt
    (nbuf 1 2 (fun _ _ => 0) noMsg noMsg)) c' ∧ c'.loc none = .mgr (.recv (0, 0) k) := by
  have e : (Finset.range (2 ^ 2)).filter (fun c => subIndex 2 (inOrder 2 [0]) c = 0) = {0, 1} := by decide
  obtain ⟨c', k, h1, h2, -⟩ := C65_draw_zero_deadlock (prm := gridPrm) gridOK (n := 2) (v := [0, 0, 3 / 5, 4 / 5])
    (indices := [0]) (by constructor <;> simp) (fun _ _ => rfl) (fun _ _ => rfl)
    (by
      simp only [Spec.totalProb]
      norm_num [Finset.sum_range_succ, Complex.normSq_apply, List.getD])
    (by unfold outcomeProb; rw [e]; norm_num [Complex.normSq_apply, List.getD])
    (r := 1 / 2) (by norm_num)
    (Distributed.of_ready (by norm_num) (by norm_num) oneReady (st := fun _ _ => 0) ⟨fun _ _ _ => rfl, fun _ _ _ => rfl⟩ _)
  exact ⟨c', k, h1, h2⟩

end QIP.Props
