import Verif.Lemmas.Local
import Verif.Lemmas.RunInit
import Verif.Props.RunMore
import Verif.Spec.Born

/-! # Draws and outcomes of the measurements of a run -/

namespace QIP

open Spec Heap Finset

theorem mem_measures {h : Heap} {args : List Nat} {x : Nat} :
    x ∈ measures h args ↔ x ∈ needed h args ∧ h.kind x = .measure := by
  unfold measures
  rw [List.mem_toFinset, List.mem_filter]
  apply and_congr_right
  intro _
  rcases h.kind x <;> simp

/-! ## Scaling -/

theorem outcomeProb_scale {n : Nat} {idx : List Nat} {v w : Nat → ℂ} {a : ℝ} (hv : ∀ r < 2 ^ n, v r = a * w r) (m : Nat) :
    outcomeProb n idx v m = a ^ 2 * outcomeProb n idx w m := by
  unfold outcomeProb
  rw [Finset.mul_sum]
  apply Finset.sum_congr rfl
  intro c hc
  rw [hv c (mem_range.1 (mem_filter.1 hc).1), Complex.normSq_mul, Complex.normSq_ofReal, sq]

theorem cumProb_scale {n : Nat} {idx : List Nat} {v w : Nat → ℂ} {a : ℝ} (hv : ∀ r < 2 ^ n, v r = a * w r) (m : Nat) :
    cumProb n idx v m = a ^ 2 * cumProb n idx w m := by
  unfold cumProb
  rw [Finset.mul_sum]
  exact Finset.sum_congr rfl fun j _ => outcomeProb_scale hv j

theorem totalProb_scale {n : Nat} {v w : Nat → ℂ} {a : ℝ} (hv : ∀ r < 2 ^ n, v r = a * w r) :
    totalProb n v = a ^ 2 * totalProb n w := by
  unfold totalProb
  rw [Finset.mul_sum]
  apply Finset.sum_congr rfl
  intro c hc
  rw [hv c (mem_range.1 hc), Complex.normSq_mul, Complex.normSq_ofReal, sq]

theorem totalProb_project (n : Nat) (idx : List Nat) (m : Nat) (v : Nat → ℂ) :
    totalProb n (project n idx m v) = outcomeProb n idx v m := by
  unfold totalProb outcomeProb project
  rw [Finset.sum_filter]
  apply Finset.sum_congr rfl
  intro c _
  split <;> simp

theorem Local.scale {n : Nat} {S : List Nat} {T : (Nat → ℂ) → Nat → ℂ} (h : Local n S T) {v w : Nat → ℂ} {a : ℝ}
    (hv : ∀ r < 2 ^ n, v r = a * w r) {r : Nat} (hr : r < 2 ^ n) : T v r = a * T w r := by
  obtain ⟨E, hE, -⟩ := h
  rw [hE v r hr, hE w r hr, Finset.mul_sum]
  apply Finset.sum_congr rfl
  intro c hc
  rw [hv c (mem_range.1 hc)]
  ring

theorem norm2_total {n : Nat} {l : List ℂ} (hl : l.length = 2 ^ n) :
    totalProb n (fun c => l.getD c 0) = norm2 l := by
  unfold totalProb norm2
  rw [← hl]
  clear hl
  induction l with
  | nil => simp
  | cons a s ih =>
    rw [List.map_cons, List.sum_cons, ← ih, List.length_cons, Finset.sum_range_succ']
    simp [add_comm]

/-! ## The intervals of draws -/

open Classical in
/-- The draws of the measurement `x` that give the outcome `o x`, if earlier measurements gave their outcomes too: between
the two numbers. -/
noncomputable def bounds (n : Nat) (h : Heap) (args : List Nat) (o : Nat → Nat) : List Nat → (Nat → ℂ) → Nat → ℝ × ℝ
  | [], _, _ => (0, 0)
  | y :: L, w, x =>
    if h.kind y = .measure ∧ x = y then
      (cumProb n (groups h args y).flatten w (o y) / totalProb n w,
        cumProb n (groups h args y).flatten w (o y + 1) / totalProb n w)
    else bounds n h args o L (branchStep n h args o w y) x

/-! ## One measurement -/

section
variable {h : Heap} {V : Nat → Prop} {args : List Nat}

theorem measure_idx (c : Ctx h V args) {x : Nat} (hx : Reach h args x) (hok : NodeOK h args x) :
    IdxOK (width h args) (groups h args x).flatten := ⟨hok.distinct, fun _ hq => c.groups_lt hx hq⟩

/-- A successful measurement: the draw lies in the interval of the outcome. -/
theorem measure_draw (c : Ctx h V args) {x : Nat} (hx : Reach h args x) (hok : NodeOK h args x)
    (hk : h.kind x = .measure) {orc : Nat → Oracle} (hg : (orc x).garbage = 0) {st st' : Feeder}
    (hst : FeederOK h args st) {w : Nat → ℂ} {a : ℝ} (ha : 0 < a) (hw : ∀ r < 2 ^ width h args, st.state.amp r = a * w r)
    (hT : 0 < totalProb (width h args) w) {own : List Nat} (hu0 : 0 ≤ (orc x).u) (hu1 : (orc x).u < 1)
    (hf : nodeFeed h orc st (groups h args x) own x = .ok st') :
    ∃ m p, st'.classic = st.classic ++ [(x, .bits m p)] ∧
      cumProb (width h args) (groups h args x).flatten w m / totalProb (width h args) w ≤ (orc x).u ∧
      (orc x).u ≤ cumProb (width h args) (groups h args x).flatten w (m + 1) / totalProb (width h args) w ∧
      m < 2 ^ (groups h args x).flatten.length ∧ 0 < outcomeProb (width h args) (groups h args x).flatten w m ∧
      ∃ a' : ℝ, 0 < a' ∧ ∀ r < 2 ^ width h args, st'.state.amp r
        = a' * project (width h args) (groups h args x).flatten m w r := by
  have hidx := measure_idx c hx hok
  have hidx' : IdxOK st.state.n (groups h args x).flatten := by rw [hst.n]; exact hidx
  have ha2 : (a ^ 2 : ℝ) ≠ 0 := by positivity
  have hT' : 0 < totalProb st.state.n st.state.amp := by
    rw [hst.n, totalProb_scale hw]; positivity
  unfold nodeFeed at hf
  rw [hk] at hf
  simp only at hf
  rcases hr : st.state.measure (groups h args x).flatten none none 0 0 (orc x).u (orc x).garbage with ⟨r, b'⟩
  rw [hr] at hf
  rcases r with e | ⟨m, p⟩
  · cases hf
  · cases hf
    obtain ⟨m1, m2, m3, -⟩ := Props.measure_success hst.full hidx' hr
    obtain ⟨-, -, c3, -, -⟩ := Props.C25_collapse_partial hst.full hidx' hr
    have hmem : (orc x).u ∈ Props.drawsGiving st.state (groups h args x).flatten 0 m :=
      ⟨hu0, hu1, p, by rw [← hg, hr]⟩
    obtain ⟨d1, d2⟩ := Props.drawsGiving_subset hst.full hidx' hT' m hmem
    rw [hst.n, cumProb_scale hw, totalProb_scale hw, mul_div_mul_left _ _ ha2] at d1 d2
    rw [hst.n, outcomeProb_scale hw] at m2
    have hp : 0 < outcomeProb (width h args) (groups h args x).flatten w m := by
      rw [m2] at m3
      exact pos_of_mul_pos_right m3 (by positivity)
    refine ⟨m, p, rfl, d1, d2, m1, hp, a / √p, div_pos ha (Real.sqrt_pos.2 m3), ?_⟩
    intro r hr
    rw [hst.n] at c3
    rw [c3 r hr, hw r hr]
    unfold project
    push_cast
    split
    · ring
    · simp

/-- A draw inside the interval of an outcome gives that outcome. -/
theorem draw_measure (c : Ctx h V args) {x : Nat} (hx : Reach h args x) (hok : NodeOK h args x)
    (hk : h.kind x = .measure) {orc : Nat → Oracle} (hg : (orc x).garbage = 0) {st : Feeder}
    (hst : FeederOK h args st) {w : Nat → ℂ} {a : ℝ} (ha : 0 < a) (hw : ∀ r < 2 ^ width h args, st.state.amp r = a * w r)
    (hT : 0 < totalProb (width h args) w) (own : List Nat) {m : Nat} (hm : m < 2 ^ (groups h args x).flatten.length)
    (h1 : cumProb (width h args) (groups h args x).flatten w m / totalProb (width h args) w < (orc x).u)
    (h2 : (orc x).u < cumProb (width h args) (groups h args x).flatten w (m + 1) / totalProb (width h args) w) :
    0 ≤ (orc x).u ∧ (orc x).u < 1 ∧ ∃ st' p, nodeFeed h orc st (groups h args x) own x = .ok st' ∧
      st'.classic = st.classic ++ [(x, .bits m p)] := by
  have hidx := measure_idx c hx hok
  have hidx' : IdxOK st.state.n (groups h args x).flatten := by rw [hst.n]; exact hidx
  have ha2 : (a ^ 2 : ℝ) ≠ 0 := by positivity
  have hT' : 0 < totalProb st.state.n st.state.amp := by
    rw [hst.n, totalProb_scale hw]; positivity
  have hmem : (orc x).u ∈ Props.drawsGiving st.state (groups h args x).flatten 0 m := by
    apply Props.subset_drawsGiving hst.full hidx' hT' hm
    rw [hst.n, cumProb_scale hw, cumProb_scale hw, totalProb_scale hw, mul_div_mul_left _ _ ha2, mul_div_mul_left _ _ ha2]
    exact ⟨h1, h2⟩
  obtain ⟨u0, u1, p, hp⟩ := hmem
  rw [← hg] at hp
  refine ⟨u0, u1, ?_⟩
  rcases hr : st.state.measure (groups h args x).flatten none none 0 0 (orc x).u (orc x).garbage with ⟨r, b'⟩
  rw [hr] at hp
  simp only at hp
  subst hp
  unfold nodeFeed
  rw [hk]
  simp only [hr, bind, Except.bind]
  exact ⟨_, p, rfl, rfl⟩

/-- A node that is no measurement. -/
theorem other_step (c : Ctx h V args) {x : Nat} (hx : Reach h args x) (hok : NodeOK h args x)
    (hm : NoMeasure h args x) {orc : Nat → Oracle} (ho : OracleOK h args orc) {st : Feeder}
    (hst : FeederOK h args st) {w : Nat → ℂ} {a : ℝ} (hw : ∀ r < 2 ^ width h args, st.state.amp r = a * w r)
    (own : List Nat) : ∃ st' cl, nodeFeed h orc st (groups h args x) own x = .ok st' ∧ FeederOK h args st' ∧
      st'.classic = st.classic ++ [(x, cl)] ∧ (∀ r < 2 ^ width h args, st'.state.amp r = a * nodeApply (width h args) h args x w r) ∧
      totalProb (width h args) st'.state.amp = totalProb (width h args) st.state.amp := by
  obtain ⟨s1, s2⟩ := nodeFeed_spec c hx hok ho hst own
  obtain ⟨st', hf⟩ := s1 hm
  obtain ⟨k1, cl, k2, k3, k4⟩ := s2 st' hf
  refine ⟨st', cl, hf, k1, k2, ?_, ?_⟩
  · intro r hr
    rw [← (local_node c hx hok).scale hw hr]
    unfold StepSpec at k3
    rcases hk : h.kind x with _ | is | ⟨g, d⟩ | f | _ | k <;> rw [hk] at k3 <;> simp only at k3
    · exact k3.1 r hr
    · exact k3.1 r hr
    · exact k3.1 r hr
    · exact k3.1 r hr
    · exact absurd hk hm.1
    · rw [k3.1 r hr]
      unfold nodeApply
      rw [hk]
  · have := k4 hm
    have e1 := norm2_total (n := width h args) (l := st'.state.state) (by rw [← k1.n]; exact k1.full.state)
    have e2 := norm2_total (n := width h args) (l := st.state.state) (by rw [← hst.n]; exact hst.full.state)
    unfold BState.amp
    rw [e1, e2, this]

/-! ## All nodes -/

theorem branch_scale (c : Ctx h V args) (o : Nat → Nat) (L : List Nat) (hL : ∀ x ∈ L, Reach h args x ∧ NodeOK h args x)
    {v w : Nat → ℂ} {a : ℝ} (hv : ∀ r < 2 ^ width h args, v r = a * w r) {r : Nat} (hr : r < 2 ^ width h args) :
    branch (width h args) h args o L v r = a * branch (width h args) h args o L w r := by
  induction L generalizing v w with
  | nil => exact hv r hr
  | cons x L ih =>
    have hx := hL x (by simp)
    unfold branch
    rw [List.foldl_cons, List.foldl_cons]
    refine ih (fun y hy => hL y (by simp [hy])) ?_
    intro r hr
    have hn := (local_node c hx.1 hx.2).scale hv hr
    unfold branchStep
    rcases hk : h.kind x with _ | is | ⟨g, d⟩ | f | _ | k <;> simp only
    · exact hn
    · exact hn
    · exact hn
    · exact hn
    · unfold project
      split
      · exact hv r hr
      · simp
    · exact hn

theorem total_node (c : Ctx h V args) {x : Nat} (hx : Reach h args x) (hok : NodeOK h args x)
    (hm : NoMeasure h args x) (w : Nat → ℂ) :
    totalProb (width h args) (nodeApply (width h args) h args x w) = totalProb (width h args) w := by
  have ho : OracleOK h args fun y => ⟨List.range (2 ^ width h args),
      (faCounters (width h args) ((groups h args y).getD 0 []) ((groups h args y).getD 1 [])), fun _ => 0, 0, 0⟩ :=
    fun _ => ⟨.refl _, .refl _⟩
  have hst : FeederOK h args ⟨⟨width h args, (List.range (2 ^ width h args)).map w,
      List.replicate (2 ^ width h args) 0⟩, fun _ => none, []⟩ :=
    ⟨rfl, ⟨by simp, by simp⟩, fun _ _ _ _ _ _ h => by cases h⟩
  have hw : ∀ r < 2 ^ width h args, BState.amp ⟨width h args, (List.range (2 ^ width h args)).map w,
      List.replicate (2 ^ width h args) 0⟩ r = ((1 : ℝ) : ℂ) * w r := by
    intro r hr
    rw [amp_map w hr]; simp
  obtain ⟨st', cl, -, -, -, k4, k5⟩ := other_step c hx hok hm ho hst (a := 1) (w := w) hw []
  rw [totalProb_scale k4, totalProb_scale hw] at k5
  simpa using k5

theorem branchStep_other {x : Nat} (hm : h.kind x ≠ .measure) (n : Nat) (o : Nat → Nat) (w : Nat → ℂ) :
    branchStep n h args o w x = nodeApply n h args x w := by
  unfold branchStep
  rcases hk : h.kind x with _ | is | ⟨g, d⟩ | f | _ | k <;> simp only
  exact absurd hk hm

theorem branchStep_measure {x : Nat} (hm : h.kind x = .measure) (n : Nat) (o : Nat → Nat) (w : Nat → ℂ) :
    branchStep n h args o w x = project n (groups h args x).flatten (o x) w := by
  unfold branchStep
  rw [hm]

/-- The nodes of a list are usable. -/
def Usable (h : Heap) (args L : List Nat) : Prop :=
  ∀ x ∈ L, Reach h args x ∧ NodeOK h args x ∧ (h.kind x = .measure ∨ NoMeasure h args x)

theorem bounds_head {y : Nat} (hk : h.kind y = .measure) (n : Nat) (o : Nat → Nat) (L : List Nat) (w : Nat → ℂ) :
    bounds n h args o (y :: L) w y = (cumProb n (groups h args y).flatten w (o y) / totalProb n w,
        cumProb n (groups h args y).flatten w (o y + 1) / totalProb n w) := by
  rw [bounds.eq_2, if_pos ⟨hk, rfl⟩]

theorem bounds_tail {x y : Nat} (hxy : h.kind y ≠ .measure ∨ x ≠ y) (n : Nat) (o : Nat → Nat) (L : List Nat) (w : Nat → ℂ) :
    bounds n h args o (y :: L) w x = bounds n h args o L (branchStep n h args o w y) x := by
  rw [bounds.eq_2, if_neg (by tauto)]

theorem fold_draws (c : Ctx h V args) (o : Nat → Nat) {orc : Nat → Oracle} (ho : OracleOK h args orc)
    (hg : ∀ x, (orc x).garbage = 0) (L : List Nat) (hnd : L.Nodup) (hL : Usable h args L)
    (hu : ∀ x ∈ L, h.kind x = .measure → 0 ≤ (orc x).u ∧ (orc x).u < 1) {st st' : Feeder} (hst : FeederOK h args st)
    {w : Nat → ℂ} {a : ℝ} (ha : 0 < a) (hw : ∀ r < 2 ^ width h args, st.state.amp r = a * w r)
    (hT : 0 < totalProb (width h args) w)
    (hnew : ∀ x ∈ L, ∀ cl, (x, cl) ∉ st.classic)
    (hf : L.foldlM (fun a x => nodeFeed h orc a (groups h args x) (wires h args x) x) st = .ok st')
    (hout : ∀ x ∈ L, h.kind x = .measure → ∃ p, (x, Classic.bits (o x) p) ∈ st'.classic) :
    (∀ x ∈ L, h.kind x = .measure → (bounds (width h args) h args o L w x).1 ≤ (orc x).u ∧
      (orc x).u ≤ (bounds (width h args) h args o L w x).2) ∧
    0 < totalProb (width h args) (branch (width h args) h args o L w) ∧
    ∃ a' : ℝ, 0 < a' ∧ ∀ r < 2 ^ width h args, st'.state.amp r = a' * branch (width h args) h args o L w r := by
  induction L generalizing st w a with
  | nil => cases hf; exact ⟨by simp, hT, a, ha, hw⟩
  | cons y L ih =>
    obtain ⟨hy, hok, hcase⟩ := hL y (by simp)
    obtain ⟨hyL, hnd'⟩ := List.nodup_cons.1 hnd
    rw [List.foldlM_cons] at hf
    rcases h1 : nodeFeed h orc st (groups h args y) (wires h args y) y with e | s1
    · rw [h1] at hf; cases hf
    · rw [h1] at hf
      simp only [bind, Except.bind] at hf
      have hst1 := ((nodeFeed_spec c hy hok ho hst (wires h args y)).2 s1 h1).1
      have hL' : Usable h args L := fun x hx => hL x (by simp [hx])
      have hu' : ∀ x ∈ L, h.kind x = .measure → 0 ≤ (orc x).u ∧ (orc x).u < 1 := fun x hx => hu x (by simp [hx])
      have hout' : ∀ x ∈ L, h.kind x = .measure → ∃ p, (x, Classic.bits (o x) p) ∈ st'.classic :=
        fun x hx => hout x (by simp [hx])
      have hcl : ∃ cl, s1.classic = st.classic ++ [(y, cl)] := by
        obtain ⟨⟨cl, e, -⟩, -⟩ := Props.nodeFeed_classic h1
        exact ⟨cl, e⟩
      have hnew1 : ∀ x ∈ L, ∀ cl, (x, cl) ∉ s1.classic := by
        obtain ⟨cl1, e⟩ := hcl
        intro x hx cl hmem
        rw [e, List.mem_append, List.mem_singleton] at hmem
        rcases hmem with hmem | hmem
        · exact hnew x (by simp [hx]) cl hmem
        · cases hmem; exact hyL hx
      rcases hcase with hk | hm
      · obtain ⟨m, p, e1, d1, d2, m1, m2, a', ha', hw'⟩ := measure_draw c hy hok hk (hg y) hst ha hw hT
          (hu y (by simp) hk).1 (hu y (by simp) hk).2 h1
        have hmo : m = o y := by
          obtain ⟨p', hp'⟩ := hout y (by simp) hk
          obtain ⟨cs, f1, f2, -⟩ := Props.feedAll_classic L hf
          rw [f1, e1, List.mem_append, List.mem_append, List.mem_singleton] at hp'
          rcases hp' with (hp' | hp') | hp'
          · exact absurd hp' (hnew y (by simp) _)
          · simp only [Prod.mk.injEq, Classic.bits.injEq, true_and] at hp'
            exact hp'.1.symm
          · exact absurd (f2 ▸ List.mem_map_of_mem hp') hyL
        subst hmo
        obtain ⟨i1, i2, i3⟩ := ih hnd' hL' hu' hst1 ha' hw' (by rw [totalProb_project]; exact m2) hnew1 hf hout'
        rw [← branchStep_measure hk] at i1 i2 i3
        refine ⟨?_, i2, i3⟩
        intro x hx hkx
        by_cases hxy : x = y
        · subst hxy
          rw [bounds_head hk]
          exact ⟨d1, d2⟩
        · rw [bounds_tail (Or.inr hxy)]
          exact i1 x ((List.mem_cons.1 hx).resolve_left hxy) hkx
      · obtain ⟨s1', cl, f1, f2, f3, f4, f5⟩ := other_step c hy hok hm ho hst hw (wires h args y)
        rw [h1] at f1
        cases f1
        obtain ⟨i1, i2, i3⟩ := ih hnd' hL' hu' hst1 ha f4 (by rw [total_node c hy hok hm]; exact hT) hnew1 hf hout'
        rw [← branchStep_other hm.1 _ o] at i1 i2 i3
        refine ⟨?_, i2, i3⟩
        intro x hx hkx
        rw [bounds_tail (Or.inl hm.1)]
        have hxy : x ≠ y := by rintro rfl; exact hm.1 hkx
        exact i1 x ((List.mem_cons.1 hx).resolve_left hxy) hkx

theorem draws_fold (c : Ctx h V args) (o : Nat → Nat) {orc : Nat → Oracle} (ho : OracleOK h args orc)
    (hg : ∀ x, (orc x).garbage = 0) (L : List Nat) (hnd : L.Nodup) (hL : Usable h args L)
    (hlt : ∀ x ∈ L, h.kind x = .measure → o x < 2 ^ (groups h args x).flatten.length) {st : Feeder}
    (hst : FeederOK h args st)
    {w : Nat → ℂ} {a : ℝ} (ha : 0 < a) (hw : ∀ r < 2 ^ width h args, st.state.amp r = a * w r)
    (hT : 0 < totalProb (width h args) w)
    (hb : ∀ x ∈ L, h.kind x = .measure → (bounds (width h args) h args o L w x).1 < (orc x).u ∧
      (orc x).u < (bounds (width h args) h args o L w x).2) :
    (∀ x ∈ L, h.kind x = .measure → 0 ≤ (orc x).u ∧ (orc x).u < 1) ∧
    ∃ st', L.foldlM (fun a x => nodeFeed h orc a (groups h args x) (wires h args x) x) st = .ok st' ∧
      ∀ x ∈ L, h.kind x = .measure → ∃ p, (x, Classic.bits (o x) p) ∈ st'.classic := by
  induction L generalizing st w a with
  | nil => exact ⟨by simp, st, rfl, by simp⟩
  | cons y L ih =>
    obtain ⟨hy, hok, hcase⟩ := hL y (by simp)
    obtain ⟨hyL, hnd'⟩ := List.nodup_cons.1 hnd
    have hL' : Usable h args L := fun x hx => hL x (by simp [hx])
    have hlt' : ∀ x ∈ L, h.kind x = .measure → o x < 2 ^ (groups h args x).flatten.length :=
      fun x hx => hlt x (by simp [hx])
    rw [List.foldlM_cons]
    rcases hcase with hk | hm
    · have hby := hb y (by simp) hk
      rw [bounds_head hk] at hby
      obtain ⟨u0, u1, s1, p, f1, f2⟩ := draw_measure c hy hok hk (hg y) hst ha hw hT (wires h args y)
        (hlt y (by simp) hk) hby.1 hby.2
      obtain ⟨m, p', e1, d1, d2, m1, m2, a', ha', hw'⟩ := measure_draw c hy hok hk (hg y) hst ha hw hT u0 u1 f1
      rw [f2] at e1
      have e1 := (List.append_cancel_left e1)
      simp only [List.cons.injEq, Prod.mk.injEq, Classic.bits.injEq, true_and, and_true] at e1
      obtain ⟨rfl, rfl⟩ := e1
      have hst1 := ((nodeFeed_spec c hy hok ho hst (wires h args y)).2 s1 f1).1
      obtain ⟨i0, st', i1, i2⟩ := ih hnd' hL' hlt' hst1 ha' hw' (by rw [totalProb_project]; exact m2) (by
        intro x hx hkx
        have hxy : x ≠ y := by rintro rfl; exact hyL hx
        have := hb x (by simp [hx]) hkx
        rw [bounds_tail (Or.inr hxy), branchStep_measure hk] at this
        exact this)
      rw [f1]
      refine ⟨?_, st', i1, ?_⟩
      · intro x hx hkx
        rcases List.mem_cons.1 hx with rfl | hx
        · exact ⟨u0, u1⟩
        · exact i0 x hx hkx
      · intro x hx hkx
        rcases List.mem_cons.1 hx with rfl | hx
        · obtain ⟨cs, g1, -⟩ := Props.feedAll_classic L i1
          exact ⟨p, by rw [g1, f2]; simp⟩
        · exact i2 x hx hkx
    · obtain ⟨s1, cl, f1, f2, f3, f4, f5⟩ := other_step c hy hok hm ho hst hw (wires h args y)
      obtain ⟨i0, st', i1, i2⟩ := ih hnd' hL' hlt' f2 ha f4 (by rw [total_node c hy hok hm]; exact hT) (by
        intro x hx hkx
        have := hb x (by simp [hx]) hkx
        rw [bounds_tail (Or.inl hm.1), branchStep_other hm.1] at this
        exact this)
      rw [f1]
      refine ⟨?_, st', i1, ?_⟩
      · intro x hx hkx
        rcases List.mem_cons.1 hx with rfl | hx
        · exact absurd hkx hm.1
        · exact i0 x hx hkx
      · intro x hx hkx
        rcases List.mem_cons.1 hx with rfl | hx
        · exact absurd hkx hm.1
        · exact i2 x hx hkx

theorem bounds_le (o : Nat → Nat) (L : List Nat) (n : Nat) (w : Nat → ℂ) (x : Nat) :
    (bounds n h args o L w x).1 ≤ (bounds n h args o L w x).2 := by
  classical
  induction L generalizing w with
  | nil => exact le_rfl
  | cons y L ih =>
    rw [bounds.eq_2]
    split
    · exact div_le_div_of_nonneg_right (cumProb_mono _ _ _ (by omega)) (totalProb_nonneg _ _)
    · exact ih _

/-- With draws strictly between 0 and 1 nothing fails. -/
theorem fold_succeeds (c : Ctx h V args) {orc : Nat → Oracle} (ho : OracleOK h args orc)
    (hg : ∀ x, (orc x).garbage = 0) (L : List Nat) (hL : Usable h args L)
    (hu : ∀ x ∈ L, h.kind x = .measure → 0 < (orc x).u ∧ (orc x).u < 1) {st : Feeder} (hst : FeederOK h args st)
    (hT : 0 < totalProb (width h args) st.state.amp) :
    ∃ st', L.foldlM (fun a x => nodeFeed h orc a (groups h args x) (wires h args x) x) st = .ok st' := by
  induction L generalizing st with
  | nil => exact ⟨st, rfl⟩
  | cons y L ih =>
    obtain ⟨hy, hok, hcase⟩ := hL y (by simp)
    have hL' : Usable h args L := fun x hx => hL x (by simp [hx])
    have hu' : ∀ x ∈ L, h.kind x = .measure → 0 < (orc x).u ∧ (orc x).u < 1 := fun x hx => hu x (by simp [hx])
    rw [List.foldlM_cons]
    rcases hcase with hk | hm
    · have hidx : IdxOK st.state.n (groups h args y).flatten := by rw [hst.n]; exact measure_idx c hy hok
      obtain ⟨m, p, h1, -⟩ := Props.C24_possible_partial hst.full hidx (by rw [hst.n]; exact hT) (hu y (by simp) hk).1
        (hu y (by simp) hk).2
      rw [← hg y] at h1
      rcases hr : st.state.measure (groups h args y).flatten none none 0 0 (orc y).u (orc y).garbage with ⟨r, b'⟩
      rw [hr] at h1
      simp only at h1
      subst h1
      obtain ⟨-, -, -, c4, -⟩ := Props.C25_collapse_partial hst.full hidx hr
      have hf : nodeFeed h orc st (groups h args y) (wires h args y) y = .ok ⟨b', st.ms, st.classic ++ [(y, .bits m p)]⟩ := by
        unfold nodeFeed
        rw [hk]
        simp only [hr, bind, Except.bind]
      have hst1 := ((nodeFeed_spec c hy hok ho hst (wires h args y)).2 _ hf).1
      have hn : b'.n = width h args := hst1.n
      rw [hf]
      exact ih hL' hu' hst1 (by rw [hn] at c4; rw [c4]; exact one_pos)
    · obtain ⟨s1, cl, f1, f2, f3, f4, f5⟩ := other_step c hy hok hm ho hst (a := 1) (w := st.state.amp) (by simp) (wires h args y)
      rw [f1]
      exact ih hL' hu' f2 (by rw [f5]; exact hT)

/-- The norm stays 1. -/
theorem fold_total (c : Ctx h V args) {orc : Nat → Oracle} (ho : OracleOK h args orc)
    (L : List Nat) (hL : Usable h args L) {st st' : Feeder} (hst : FeederOK h args st)
    (hT : totalProb (width h args) st.state.amp = 1)
    (hf : L.foldlM (fun a x => nodeFeed h orc a (groups h args x) (wires h args x) x) st = .ok st') :
    totalProb (width h args) st'.state.amp = 1 := by
  induction L generalizing st with
  | nil => cases hf; exact hT
  | cons y L ih =>
    obtain ⟨hy, hok, hcase⟩ := hL y (by simp)
    have hL' : Usable h args L := fun x hx => hL x (by simp [hx])
    rw [List.foldlM_cons] at hf
    rcases h1 : nodeFeed h orc st (groups h args y) (wires h args y) y with e | s1
    · rw [h1] at hf; cases hf
    · rw [h1] at hf
      simp only [bind, Except.bind] at hf
      have hst1 := ((nodeFeed_spec c hy hok ho hst (wires h args y)).2 s1 h1).1
      refine ih hL' hst1 ?_ hf
      rcases hcase with hk | hm
      · have hidx : IdxOK st.state.n (groups h args y).flatten := by rw [hst.n]; exact measure_idx c hy hok
        have h2 := h1
        unfold nodeFeed at h2
        rw [hk] at h2
        simp only at h2
        rcases hr : st.state.measure (groups h args y).flatten none none 0 0 (orc y).u (orc y).garbage with ⟨r, b'⟩
        rw [hr] at h2
        rcases r with e | ⟨m, p⟩
        · cases h2
        · cases h2
          obtain ⟨-, -, -, c4, -⟩ := Props.C25_collapse_partial hst.full hidx hr
          have hn : b'.n = width h args := hst1.n
          rw [hn] at c4
          exact c4
      · obtain ⟨s1', cl, f1, f2, f3, f4, f5⟩ := other_step c hy hok hm ho hst (a := 1) (w := st.state.amp) (by simp) (wires h args y)
        rw [h1] at f1
        cases f1
        rw [f5, hT]

open Classical in
/-- The lengths of the intervals multiply to the joint probability. -/
theorem bounds_prod (c : Ctx h V args) (o : Nat → Nat) (L : List Nat) (hnd : L.Nodup) (hL : Usable h args L)
    {w : Nat → ℂ} (hT : 0 < totalProb (width h args) w) :
    ((L.filter fun x => h.kind x = .measure).map fun x => (bounds (width h args) h args o L w x).2
      - (bounds (width h args) h args o L w x).1).prod
      = totalProb (width h args) (branch (width h args) h args o L w) / totalProb (width h args) w := by
  induction L generalizing w with
  | nil => simp [branch, div_self hT.ne']
  | cons y L ih =>
    obtain ⟨hy, hok, hcase⟩ := hL y (by simp)
    obtain ⟨hyL, hnd'⟩ := List.nodup_cons.1 hnd
    have hL' : Usable h args L := fun x hx => hL x (by simp [hx])
    have hb : branch (width h args) h args o (y :: L) w
        = branch (width h args) h args o L (branchStep (width h args) h args o w y) := rfl
    rw [hb]
    rcases hcase with hk | hm
    · rw [List.filter_cons_of_pos (by simpa using hk), List.map_cons, List.prod_cons, bounds_head hk]
      have htail : (L.filter fun x => h.kind x = .measure).map (fun x => (bounds (width h args) h args o (y :: L) w x).2
          - (bounds (width h args) h args o (y :: L) w x).1) = (L.filter fun x => h.kind x = .measure).map fun x =>
          (bounds (width h args) h args o L (branchStep (width h args) h args o w y) x).2
          - (bounds (width h args) h args o L (branchStep (width h args) h args o w y) x).1 := by
        apply List.map_congr_left
        intro x hx
        rw [bounds_tail (Or.inr (by rintro rfl; exact hyL (List.mem_filter.1 hx).1))]
      rw [htail]
      simp only
      rw [← sub_div, cumProb_succ, add_sub_cancel_left]
      have hp : totalProb (width h args) (branchStep (width h args) h args o w y)
          = outcomeProb (width h args) (groups h args y).flatten w (o y) := by
        rw [branchStep_measure hk, totalProb_project]
      by_cases hz : outcomeProb (width h args) (groups h args y).flatten w (o y) = 0
      · rw [hz, zero_div, zero_mul]
        rw [hz] at hp
        have h0 : ∀ r < 2 ^ width h args, branchStep (width h args) h args o w y r = ((0 : ℝ) : ℂ) * 0 := by
          intro r hr
          unfold totalProb at hp
          rw [Finset.sum_eq_zero_iff_of_nonneg fun _ _ => Complex.normSq_nonneg _] at hp
          rw [Complex.normSq_eq_zero.1 (hp r (mem_range.2 hr))]
          simp
        rw [totalProb_scale fun r hr => branch_scale c o L (fun x hx => ⟨(hL' x hx).1, (hL' x hx).2.1⟩) (w := fun _ => 0) h0 hr]
        simp
      · have hpos : 0 < totalProb (width h args) (branchStep (width h args) h args o w y) := by
          rw [hp]; exact lt_of_le_of_ne (outcomeProb_nonneg _ _ _ _) (Ne.symm hz)
        rw [ih hnd' hL' hpos, hp]
        field_simp
    · rw [List.filter_cons_of_neg (by simpa using hm.1)]
      have htail : (L.filter fun x => h.kind x = .measure).map (fun x => (bounds (width h args) h args o (y :: L) w x).2
          - (bounds (width h args) h args o (y :: L) w x).1) = (L.filter fun x => h.kind x = .measure).map fun x =>
          (bounds (width h args) h args o L (branchStep (width h args) h args o w y) x).2
          - (bounds (width h args) h args o L (branchStep (width h args) h args o w y) x).1 := by
        apply List.map_congr_left
        intro x hx
        rw [bounds_tail (Or.inl hm.1)]
      have htot : totalProb (width h args) (branchStep (width h args) h args o w y) = totalProb (width h args) w := by
        rw [branchStep_other hm.1, total_node c hy hok hm]
      rw [htail, ih hnd' hL' (by rw [htot]; exact hT), htot]

end

end QIP
