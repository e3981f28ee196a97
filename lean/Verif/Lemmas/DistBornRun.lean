import Verif.Lemmas.DistBorn

/-! # The events of `Lemmas/DistBorn` are those of a distributed run -/

namespace QIP

open Spec Heap Props

section steps
variable {n K N C M T : Nat} {v : List ℂ} {st : Wid → Wid → Nat} {ws : List Wid} {prm : Wid → WParam} {pm : MProg}
  {c : Cfg Pid NMsg NLoc}

/-- All workers on the diagonal have had `T` operations. -/
def Counted (K T : Nat) (c : Cfg Pid NMsg NLoc) : Prop := ∀ i < K, ∃ s, c.loc (some (i, i)) = .wkr s ∧ s.cnt = T

theorem Counted.net (h : Counted K T c) {pm : MProg} {f : Wid → WSt} {buf} (e : startOp c pm = netCfg pm f buf) {i : Nat}
    (hi : i < K) : (f (i, i)).cnt = T := by
  obtain ⟨s, h1, h2⟩ := h i hi
  have h3 : (startOp c pm).loc (some (i, i)) = .wkr s := by simp [startOp, h1]
  rw [e] at h3
  have h4 : NLoc.wkr (f (i, i)) = .wkr s := h3
  injection h4 with h4
  rw [h4, h2]

theorem kron_counted (hn : n ≤ 30) (hg : GridOK prm K N C M ws) (hsched : ∀ w c, ((prm w).sched c).Perm (List.range N))
    {mats : List (Key × Mat ℂ)} (hop : OpOK n (.kron mats)) (hD : Distributed K N n v C M st pm c) (hC : Counted K T c) (r : ℝ) :
    ∃ pm' c' st', opProg ws r (.kron mats) = .ok pm' ∧ norm2 (kronVec n mats v) = norm2 v ∧
      AlwaysEnds (netAct prm) (startOp c pm') c' ∧ Distributed K N n (kronVec n mats v) C M st' (.done (.ok none)) c' ∧
      Counted K (T + 2) c' := by
  obtain ⟨pb, hpb, hmb⟩ := mats_wire hn hop
  obtain ⟨hk, -, hu⟩ := hop
  obtain ⟨f, hf, hR, hst⟩ := (hD.start (sendKronprod mats ws)).cfg
  obtain ⟨f', h1, h2, h3⟩ := kron_runs (prm := prm) hg hD.cover hD.size hR hst (mats := mats)
    ⟨hk.keys, hk.shapes, hk.range, hk.wf, by rw [hD.size]; omega, by simp⟩ hk.nonempty hk.sameSize hsched (.done (.ok none))
  refine ⟨sendKronprod mats ws, _, _, ?_, ?_, ?_, Distributed.of_ready hD.cover (by simp [kronVec]) h2
    (stOK_scatter (stOK_gather hst K (leftover N C M)) K (leftover N C M)) _, ?_⟩
  · simp only [opProg, hpb, hmb, bind, Except.bind]
  · rw [← norm2_total hD.size, ← hu, ← norm2_total (n := n) (by simp [kronVec])]
    apply totalProb_congr
    intro r hr
    simp [kronVec, hr]
  · rw [hf]
    exact h1.alwaysEnds h2.stuck
  · intro i hi
    exact ⟨f' (i, i), rfl, by rw [h3 i hi, hC.net hf hi]⟩

theorem measure_counted (hn : n ≤ 30) (hg : GridOK prm K N C M ws) (hgarb : ∀ w c, (prm w).garbage c = 0)
    (hu : ∀ i c, 0 < (prm (i, i)).draw c ∧ (prm (i, i)).draw c < 1) {idx : List Nat} (hIdx : IdxOK n idx)
    (hT : norm2 v = 1) (hD : Distributed K N n v C M st pm c) (hC : Counted K T c) {r : ℝ} (hr : 0 < r ∧ r < 1) :
    ∃ (pm' : MProg) (m : Nat) (c' : Cfg Pid NMsg NLoc) (st' : Wid → Wid → Nat), opProg ws r (.measure idx none) = .ok pm' ∧
      Cell n N K idx v m r (fun s => (prm (s, s)).draw (T + 1)) ∧
      norm2 (collapsedVec n idx v m (outcomeProb n idx (fun c => v.getD c 0) m)) = 1 ∧
      AlwaysEnds (netAct prm) (startOp c pm') c' ∧
      Distributed K N n (collapsedVec n idx v m (outcomeProb n idx (fun c => v.getD c 0) m)) C M st'
        (.done (.ok (some (m, outcomeProb n idx (fun c => v.getD c 0) m)))) c' ∧ Counted K (T + 4) c' := by
  have hT' : Spec.totalProb n (fun c => v.getD c 0) = 1 := by rw [norm2_total hD.size, hT]
  obtain ⟨f, hf, hR, hst⟩ := (hD.start (sendMeasure idx r ws)).cfg
  obtain ⟨s, hs, m, hm, k, hk, h1, h2, h3, h4, h5, -⟩ := measure_result (prm := prm) hg hIdx hD.cover hD.size hgarb hT' hr.2.le
    hR hst
  rw [hC.net hf hs] at hk
  subst hk
  have hb : before n N v s < r := by
    cases s with
    | zero => simpa [before] using hr.1
    | succ j => exact h1 j (by omega)
  have hb' : r ≤ before n N v (s + 1) := h2
  have hTs : 0 < Spec.totalProb n (sl N v s) := by
    have e := before_succ n N v s
    linarith
  have hp : 0 < outcomeProb n idx (fun c => v.getD c 0) m :=
    (cum_lt_pos hIdx hm (hu s _).1 (hu s _).2 hTs h3 h4).trans_le (outcome_part_le hD.cover hD.size hs m)
  obtain ⟨f', hR', ht, he⟩ := h5 hp
  refine ⟨sendMeasure idx r ws, m, _, _, ?_, ⟨s, hs, ⟨hb, hb'⟩, ?_, ?_⟩, ?_, by rw [hf]; exact he,
    Distributed.of_ready hD.cover (by simp [collapsedVec]) hR' (stOK_scatter hst K (leftover N C M)) _, ?_⟩
  · have : ∀ i ∈ idx, i < 2 ^ 31 := fun i hi => by have := hIdx.lt i hi; omega
    simp only [opProg, C58_indices this, bind, Except.bind]
  · cases m with
    | zero =>
      have := mul_pos (hu s (T + 1)).1 hTs
      simpa [cumProb] using this
    | succ j => exact h3 j (by omega)
  · rcases h4 with h4 | h4
    · rw [h4, cumProb_top hIdx]
      have := (hu s (T + 1)).2
      nlinarith
    · exact h4
  · rw [← norm2_total (n := n) (by simp [collapsedVec]), collapsed_total hp]
  · intro i hi
    exact ⟨f' (i, i), rfl, by rw [ht i hi, hC.net hf hi]⟩

end steps

/-! ## Nodes -/

/-- The step of a node. -/
noncomputable def toStep (h : Heap) (args : List Nat) (o : Nat → Nat) (x : Nat) : BStep :=
  match h.kind x with
  | .gate g d =>
    match g.feedMats d (groups h args x) with
    | .ok m => .gate m
    | .error _ => .skip
  | .measure => .meas (groups h args x).flatten (o x)
  | _ => .skip

section
variable {h : Heap} {V : Nat → Prop} {args : List Nat}

theorem gate_mats (c : Ctx h V args) (hn : width h args ≤ 30) {x : Nat} (hx : Reach h args x) (hok : NodeOK h args x)
    (hdn : DistNode h x) {g : Gate} {d : Bool} (hk : h.kind x = .gate g d) :
    ∃ m, g.feedMats d (groups h args x) = .ok m ∧ OpOK (width h args) (.kron m) := by
  obtain ⟨hin, hdag⟩ := hok.gate g d hk
  have hkd := c.kind x (c.vis hx)
  unfold KindOK at hkd
  rw [hk] at hkd
  have hfits : Fits g (groups h args x) := fits_of_fitsN g _ (by rw [c.len_groups hx]; exact (hkd.2 hin).2)
  have hgs : GroupsOK (width h args) (groups h args x) := ⟨hok.distinct, fun q hq => c.groups_lt hx hq⟩
  have htup : tupleGate g = true := by
    unfold DistNode at hdn
    rw [hk] at hdn
    rcases hdn with ⟨k, rfl⟩ | ⟨g', rfl⟩ <;> rfl
  exact opOK_gate hn htup hfits hgs hdag

theorem toStep_ok (c : Ctx h V args) (hn : width h args ≤ 30) {x : Nat} (hx : Reach h args x) (hok : NodeOK h args x)
    (hdn : DistNode h x) {o : Nat → Nat} :
    BStepOK (width h args) (toStep h args o x) := by
  unfold toStep
  rcases hk : h.kind x with _ | is | ⟨g, d⟩ | f | _ | k <;> simp only [BStepOK]
  · obtain ⟨m, hm, hop⟩ := gate_mats c hn hx hok hdn hk
    rw [hm]
    exact hop.2.2
  · exact measure_idx c hx hok

/-- A gate, as the distributed backend computes it. -/
theorem gate_amp (c : Ctx h V args) (hn : width h args ≤ 30) {x : Nat} (hx : Reach h args x) (hok : NodeOK h args x)
    {g : Gate} {d : Bool} (hk : h.kind x = .gate g d) {m : List (Key × Mat ℂ)}
    (hm : g.feedMats d (groups h args x) = .ok m) (hop : OpOK (width h args) (.kron m)) {v : List ℂ}
    (hv : v.length = 2 ^ width h args) {w : Nat → ℂ} {a : ℝ} (hw : ∀ r < 2 ^ width h args, v.getD r 0 = a * w r) {r : Nat}
    (hr : r < 2 ^ width h args) : (kronVec (width h args) m v).getD r 0 = a * nodeApply (width h args) h args x w r := by
  let orc : Nat → Oracle := fun y => ⟨List.range (2 ^ width h args),
      (faCounters (width h args) ((groups h args y).getD 0 []) ((groups h args y).getD 1 [])), fun _ => 0, 0, 0⟩
  have ho : OracleOK h args orc := fun _ => ⟨.refl _, .refl _⟩
  have hst : FeederOK h args ⟨⟨width h args, v, List.replicate (2 ^ width h args) 0⟩, fun _ => none, []⟩ :=
    ⟨rfl, ⟨hv, by simp⟩, fun _ _ _ _ _ _ h => by cases h⟩
  obtain ⟨st', cl, h1, -, -, h4, -⟩ := other_step c hx hok (orc := orc) ⟨by simp [hk], by simp [hk]⟩ ho hst (a := a) (w := w) hw []
  have hkr : BState.kronselectDot ⟨width h args, v, List.replicate (2 ^ width h args) 0⟩ m 0 0 (orc x).sched
      = (.ok (), ⟨width h args, kronVec (width h args) m v, v⟩) := by
    obtain ⟨hk, -, -⟩ := hop
    exact part_local_kron (by simp) ⟨hk.keys, hk.shapes, hk.range, hk.wf, by rw [hv]; omega, by simp⟩
      ⟨by simp [orc], hk.nonempty, hk.sameSize⟩
  unfold nodeFeed at h1
  simp only [hk, opMats, hm, bind, Except.bind] at h1
  rw [hkr] at h1
  injection h1 with h1
  rw [← h4 r hr, ← h1]
  rfl

/-- The weight of the steps is Born's rule. -/
theorem weight_branch (c : Ctx h V args) (hn : width h args ≤ 30) (o : Nat → Nat) (L : List Nat)
    (hL : ∀ x ∈ L, Reach h args x ∧ NodeOK h args x ∧ DistNode h x) {v : List ℂ} (hv : v.length = 2 ^ width h args)
    (hT : totalProb (width h args) (fun c => v.getD c 0) = 1)
    {w : Nat → ℂ} {a : ℝ} (hw : ∀ r < 2 ^ width h args, v.getD r 0 = a * w r) :
    totalProb (width h args) (branch (width h args) h args o L w)
      = totalProb (width h args) w * weight (width h args) (L.map (toStep h args o)) v := by
  induction L generalizing v w a with
  | nil => simp [branch, weight]
  | cons x L ih =>
    obtain ⟨hx, hok, hdn⟩ := hL x (by simp)
    have hL' : ∀ y ∈ L, Reach h args y ∧ NodeOK h args y ∧ DistNode h y := fun y hy => hL y (by simp [hy])
    have hbr : branch (width h args) h args o (x :: L) w
        = branch (width h args) h args o L (branchStep (width h args) h args o w x) := rfl
    rw [hbr, List.map_cons]
    have idle : h.kind x = .qubit ∨ (∃ is, h.kind x = .split is) →
        totalProb (width h args) (branch (width h args) h args o L (branchStep (width h args) h args o w x))
          = totalProb (width h args) w * weight (width h args) (toStep h args o x :: L.map (toStep h args o)) v := by
      intro hk
      have e1 : toStep h args o x = .skip := by
        unfold toStep
        rcases hk with e | ⟨is, e⟩ <;> rw [e]
      have e2 : branchStep (width h args) h args o w x = w := by
        unfold branchStep nodeApply
        rcases hk with e | ⟨is, e⟩ <;> rw [e]
      rw [e1, e2]
      exact ih hL' hv hT hw
    rcases hk : h.kind x with _ | is | ⟨g, d⟩ | f | _ | k
    · exact idle (.inl hk)
    · exact idle (.inr ⟨is, hk⟩)
    · obtain ⟨m, hm, hop⟩ := gate_mats c hn hx hok hdn hk
      have e1 : toStep h args o x = .gate m := by
        unfold toStep
        rw [hk]
        simp only [hm]
      rw [branchStep_other (by simp [hk]), e1]
      rw [ih hL' (v := kronVec (width h args) m v) (by simp [kronVec]) ?_ fun r hr => gate_amp c hn hx hok hk hm hop hv hw hr,
        total_node c hx hok ⟨by simp [hk], by simp [hk]⟩]
      · rfl
      · rw [← hT, ← hop.2.2 fun c => v.getD c 0]
        apply totalProb_congr
        intro r hr
        simp [kronVec, hr]
    · unfold DistNode at hdn
      rw [hk] at hdn
      exact hdn.elim
    · have e1 : toStep h args o x = .meas (groups h args x).flatten (o x) := by
        unfold toStep
        rw [hk]
      rw [branchStep_measure hk, e1]
      have hp' := outcomeProb_scale (idx := (groups h args x).flatten) hw (o x)
      have hT' := totalProb_scale hw
      rw [hT] at hT'
      simp only [weight]
      rcases (outcomeProb_nonneg (width h args) (groups h args x).flatten (fun c => v.getD c 0) (o x)).lt_or_eq with hp | hp
      · rw [ih hL' (v := collapsedVec (width h args) (groups h args x).flatten v (o x)
            (outcomeProb (width h args) (groups h args x).flatten (fun c => v.getD c 0) (o x))) (by simp [collapsedVec])
          (collapsed_total hp) (w := project (width h args) (groups h args x).flatten (o x) w)
          (a := √(1 / outcomeProb (width h args) (groups h args x).flatten (fun c => v.getD c 0) (o x)) * a) ?_,
          totalProb_project, ← mul_assoc]
        · congr 1
          rw [hp', ← mul_assoc, mul_comm (totalProb _ _), ← hT', one_mul]
        · intro r hr
          rw [collapsed_getD hr]
          unfold project
          split
          · change _ * v.getD r 0 = _
            rw [hw r hr]
            push_cast
            ring
          · simp
      · rw [← hp, zero_mul, mul_zero]
        have ha : a ^ 2 ≠ 0 := by
          intro e
          rw [e] at hT'
          simp at hT'
        rw [← hp] at hp'
        have h0 : totalProb (width h args) (project (width h args) (groups h args x).flatten (o x) w) = 0 := by
          rw [totalProb_project]
          rcases mul_eq_zero.1 hp'.symm with e | e
          · exact absurd e ha
          · exact e
        have hz : ∀ r < 2 ^ width h args, project (width h args) (groups h args x).flatten (o x) w r
            = ((0 : ℝ) : ℂ) * (fun _ => 0 : Nat → ℂ) r := by
          intro r hr
          have := (Finset.sum_eq_zero_iff_of_nonneg fun _ _ => Complex.normSq_nonneg _).1 h0 r (Finset.mem_range.2 hr)
          rw [Complex.normSq_eq_zero.1 this]
          simp
        rw [totalProb_scale fun r hr => branch_scale c o L (fun y hy => ⟨(hL' y hy).1, (hL' y hy).2.1⟩) hz hr]
        simp
    · unfold DistNode at hdn
      rw [hk] at hdn
      exact hdn.elim

/-! ## The run -/

/-- What a step adds to the requests. -/
theorem distFeed_sent {st st' : DFeeder} {gs : List (List Nat)} {own : List Nat} {y : Nat}
    (hr : distFeed h st gs own y = .ok st') : ∃ suf, st'.sent = st.sent ++ suf := by
  have hask : ∀ {st : DFeeder} {q : DReq} {p : Reply × DFeeder}, ask st q = .ok p → p.2.sent = st.sent ++ [q] := by
    intro st q p h
    unfold ask at h
    split at h
    · cases h
    · cases h
    · injection h with h
      subst h
      rfl
  unfold distFeed at hr
  rcases hk : h.kind y with _ | is | ⟨g, d⟩ | f | _ | k
  · simp only [hk] at hr
    injection hr with hr
    subst hr
    exact ⟨[], by simp⟩
  · simp only [hk] at hr
    injection hr with hr
    subst hr
    exact ⟨[], by simp⟩
  · simp only [hk, bind, Except.bind] at hr
    split at hr
    · cases hr
    split at hr
    · cases hr
    split at hr
    · cases hr
    · next p hp =>
      injection hr with hr
      subst hr
      exact ⟨_, hask hp⟩
  · simp [hk] at hr
  · simp only [hk, bind, Except.bind] at hr
    split at hr
    · cases hr
    split at hr
    · cases hr
    · next p hp =>
      split at hr
      · injection hr with hr
        subst hr
        exact ⟨_, hask hp⟩
      · cases hr
  · simp only [hk, bind, Except.bind] at hr
    split at hr
    · cases hr
    split at hr
    · cases hr
    · next p hp =>
      split at hr
      · injection hr with hr
        subst hr
        exact ⟨_, hask hp⟩
      · cases hr

theorem distFold_sent {L : List Nat} {st acc : DFeeder}
    (hr : L.foldlM (fun a x => distFeed h a (groups h args x) (wires h args x) x) st = .ok acc) :
    ∃ suf, acc.sent = st.sent ++ suf := by
  refine foldlM_inv (P := fun a : DFeeder => ∃ suf, a.sent = st.sent ++ suf) ?_ L ⟨[], by simp⟩ hr
  rintro a y a' ⟨suf, ha⟩ hs
  obtain ⟨suf', h'⟩ := distFeed_sent hs
  exact ⟨suf ++ suf', by rw [h', ha]; simp⟩

theorem distFold_classic {L : List Nat} {st acc : DFeeder}
    (hr : L.foldlM (fun a x => distFeed h a (groups h args x) (wires h args x) x) st = .ok acc) :
    ∃ cs, acc.classic = st.classic ++ cs ∧ cs.map (·.1) = L := by
  induction L generalizing st with
  | nil => cases hr; exact ⟨[], by simp, rfl⟩
  | cons x L ih =>
    rw [List.foldlM_cons] at hr
    rcases h1 : distFeed h st (groups h args x) (wires h args x) x with e | s
    · rw [h1] at hr; cases hr
    · rw [h1] at hr
      simp only [bind, Except.bind] at hr
      obtain ⟨⟨c, e1, -⟩, -⟩ := distFeed_step h1
      obtain ⟨cs, i1, i2⟩ := ih hr
      exact ⟨(x, c) :: cs, by rw [i1, e1]; simp, by simp [i2]⟩

theorem managed_cons (ω : JobDraw → ℝ) (op : JobOp) (ops : List JobOp) (j : Nat) :
    managed ω (op :: ops) j = (op, ω (.inl j)) :: managed ω ops (j + 1) := by
  simp [managed, List.zipIdx_cons]

/-- From the given feeder and job, the run succeeds and every measurement reports its outcome. -/
def RunReports (h : Heap) (args : List Nat) (prm : Wid → WParam) (ws : List Wid) (ω : JobDraw → ℝ) (o : Nat → Nat) (L : List Nat)
    (ms : MsTable) (cl : List (Nat × Classic)) (sent : List DReq) (j : Nat) (cf : Cfg Pid NMsg NLoc) : Prop :=
  ∃ (ops : List JobOp) (results : List (Option (Nat × ℝ))) (acc : DFeeder) (cf' : Cfg Pid NMsg NLoc),
    L.foldlM (fun a x => distFeed h a (groups h args x) (wires h args x) x) ⟨ms, cl, sent, results.map asReply⟩ = .ok acc ∧
    acc.sent = sent ++ ops.map .op ∧ JobRuns (drawnBy prm ω) ws (managed ω ops j) cf results cf' ∧
    ∀ x ∈ L, h.kind x = .measure → ∃ p, (x, Classic.bits (o x) p) ∈ acc.classic

theorem reports_iff (c : Ctx h V args) (hn : width h args ≤ 30) {prm : Wid → WParam} {C M K N : Nat} {ws : List Wid}
    {ω : JobDraw → ℝ} (hg : GridOK (drawnBy prm ω) K N C M ws) (hsched : ∀ w c, ((prm w).sched c).Perm (List.range N))
    (hgarb : ∀ w c, (prm w).garbage c = 0) (hω : ∀ i, 0 < ω i ∧ ω i < 1) {o : Nat → Nat} (L : List Nat) (hnd : L.Nodup)
    (hL : ∀ x ∈ L, Reach h args x ∧ NodeOK h args x ∧ DistNode h x) {ms : MsTable} (hms : CacheOK h args ms)
    {cl : List (Nat × Classic)} (hcl : ∀ x ∈ L, ∀ y, (x, y) ∉ cl) {sent : List DReq} {v : List ℂ} {T j : Nat}
    {st : Wid → Wid → Nat} {pm : MProg} {cf : Cfg Pid NMsg NLoc} (hT : norm2 v = 1)
    (hD : Distributed K N (width h args) v C M st pm cf) (hC : Counted K T cf) :
    RunReports h args prm ws ω o L ms cl sent j cf ↔ Cells (width h args) N K ω (L.map (toStep h args o)) v T j := by
  induction L generalizing ms cl sent v T j st pm cf with
  | nil =>
    refine ⟨fun _ => trivial, fun _ => ⟨[], [], ⟨ms, cl, sent, []⟩, cf, rfl, by simp, ?_, by simp⟩⟩
    exact .nil cf
  | cons x L ih =>
    obtain ⟨hx, hok, hdn⟩ := hL x (by simp)
    have hL' : ∀ y ∈ L, Reach h args y ∧ NodeOK h args y ∧ DistNode h y := fun y hy => hL y (by simp [hy])
    have hxL : x ∉ L := (List.nodup_cons.1 hnd).1
    have hnd' := (List.nodup_cons.1 hnd).2
    have hcl' : ∀ cx, ∀ y ∈ L, ∀ z, (y, z) ∉ cl ++ [(x, cx)] := by
      intro cx y hy z hz
      rcases List.mem_append.1 hz with hz | hz
      · exact hcl y (by simp [hy]) z hz
      · simp only [List.mem_singleton, Prod.mk.injEq] at hz
        exact hxL (hz.1 ▸ hy)
    rw [List.map_cons]
    have idle : h.kind x = .qubit ∨ (∃ is, h.kind x = .split is) → (RunReports h args prm ws ω o (x :: L) ms cl sent j cf ↔
        Cells (width h args) N K ω (toStep h args o x :: L.map (toStep h args o)) v T j) := by
      intro hk
      have e1 : toStep h args o x = .skip := by
        unfold toStep
        rcases hk with e | ⟨is, e⟩ <;> rw [e]
      have e2 : ∀ (st : DFeeder) gs own, distFeed h st gs own x = .ok { st with classic := st.classic ++ [(x, .zero)] } := by
        intro st gs own
        unfold distFeed
        rcases hk with e | ⟨is, e⟩ <;> rw [e]
      have hnm : h.kind x ≠ .measure := by
        rcases hk with e | ⟨is, e⟩ <;> simp [e]
      rw [e1]
      show _ ↔ Cells (width h args) N K ω (L.map (toStep h args o)) v T j
      rw [← ih hnd' hL' hms (hcl' .zero) (sent := sent) hT hD hC]
      unfold RunReports
      simp only [List.foldlM_cons, e2, bind, Except.bind, List.forall_mem_cons, hnm, false_imp_iff, true_and]
    rcases hk : h.kind x with _ | is | ⟨g, d⟩ | f | _ | k
    · exact idle (.inl hk)
    · exact idle (.inr ⟨is, hk⟩)
    · -- a gate
      obtain ⟨m, hm, hop⟩ := gate_mats c hn hx hok hdn hk
      obtain ⟨pb, hpb, -⟩ := mats_wire hn hop
      have hmm : opMats (ms x) g d (groups h args x) = .ok m := by
        unfold opMats
        rcases hms' : ms x with _ | m'
        · exact hm
        · have := hms x g d hx hk m' hms'
          rw [hm] at this
          exact this.symm
      have e1 : toStep h args o x = .gate m := by
        unfold toStep
        rw [hk]
        simp only [hm]
      obtain ⟨pm1, cf1, st1, k1, k2, k3, k4, k5⟩ := kron_counted (prm := drawnBy prm ω) (pm := pm) hn hg hsched hop hD hC (ω (.inl j))
      have hms1 : CacheOK h args fun y => if y = x then some m else ms y := by
        intro y g' d' hy hky m' hm'
        simp only at hm'
        split at hm'
        · next e =>
          subst e
          rw [hk] at hky
          cases hky
          cases hm'
          exact hm
        · exact hms y g' d' hy hky m' hm'
      have hstep : ∀ res rest, distFeed h ⟨ms, cl, sent, asReply res :: rest⟩ (groups h args x) (wires h args x) x
          = .ok ⟨fun y => if y = x then some m else ms y, cl ++ [(x, .zero)], sent ++ [.op (.kron m)], rest⟩ := by
        intro res rest
        unfold distFeed
        rcases res with _ | ⟨a, b⟩ <;> simp only [hk, hmm, hpb, bind, Except.bind, asReply, ask]
      rw [e1]
      show _ ↔ Cells (width h args) N K ω (L.map (toStep h args o)) (kronVec (width h args) m v) (T + 2) (j + 1)
      rw [← ih hnd' hL' hms1 (hcl' .zero) (sent := sent ++ [.op (.kron m)]) (k2.trans hT) k4 k5]
      constructor
      · rintro ⟨ops, results, acc, cf', h1, h2, h3, h4⟩
        rw [List.foldlM_cons] at h1
        rcases results with _ | ⟨res, results⟩
        · exfalso
          simp only [distFeed, hk, hmm, hpb, bind, Except.bind, List.map_nil, ask] at h1
          cases h1
        rw [List.map_cons, hstep] at h1
        simp only [bind, Except.bind] at h1
        obtain ⟨suf, hs⟩ := distFold_sent h1
        rw [h2] at hs
        simp only [List.append_assoc, List.append_cancel_left_eq] at hs
        rcases ops with _ | ⟨op, ops⟩
        · simp at hs
        simp only [List.map_cons, List.cons_append, List.nil_append, List.cons.injEq, DReq.op.injEq] at hs
        obtain ⟨rfl, -⟩ := hs
        rw [managed_cons] at h3
        rcases h3 with _ | ⟨q1, q2, q3, q4⟩
        rw [k1] at q1
        injection q1 with q1
        subst q1
        obtain rfl := AlwaysEnds.det k3 q2
        exact ⟨ops, results, acc, cf', h1, by rw [h2]; simp, q4, fun y hy => h4 y (by simp [hy])⟩
      · rintro ⟨ops, results, acc, cf', h1, h2, h3, h4⟩
        refine ⟨.kron m :: ops, none :: results, acc, cf', ?_, by rw [h2]; simp, ?_, ?_⟩
        · rw [List.foldlM_cons, List.map_cons, hstep]
          exact h1
        · rw [managed_cons]
          exact .cons k1 k3 k4.manager h3
        · intro y hy hky
          rcases List.mem_cons.1 hy with rfl | hy
          · rw [hk] at hky; cases hky
          · exact h4 y hy hky
    · unfold DistNode at hdn
      rw [hk] at hdn
      exact hdn.elim
    · -- a measurement
      have hidx : IdxOK (width h args) (groups h args x).flatten := measure_idx c hx hok
      have e1 : toStep h args o x = .meas (groups h args x).flatten (o x) := by
        unfold toStep
        rw [hk]
      obtain ⟨pm1, m, cf1, st1, k1, k2, k3, k4, k5, k6⟩ := measure_counted (prm := drawnBy prm ω) (pm := pm) (r := ω (.inl j)) hn hg hgarb
        (fun i c => hω _) hidx hT hD hC (hω _)
      have hpb : indicesToPb (.tup (groups h args x).flatten) = .ok (groups h args x).flatten :=
        C58_indices fun i hi => by have := hidx.lt i hi; omega
      have hstep : ∀ a b rest, distFeed h ⟨ms, cl, sent, asReply (some (a, b)) :: rest⟩ (groups h args x) (wires h args x) x
          = .ok ⟨ms, cl ++ [(x, .bits a b)], sent ++ [.op (.measure (groups h args x).flatten none)], rest⟩ := by
        intro a b rest
        unfold distFeed
        simp only [hk, hpb, bind, Except.bind, asReply, ask]
      have hout : ∀ {p : ℝ} {rest acc}, L.foldlM (fun a x => distFeed h a (groups h args x) (wires h args x) x)
          ⟨ms, cl ++ [(x, .bits m p)], sent ++ [.op (.measure (groups h args x).flatten none)], rest⟩ = .ok acc →
          ((∃ p, (x, Classic.bits (o x) p) ∈ acc.classic) ↔ o x = m) := by
        intro p rest acc hf
        obtain ⟨cs, c1, c2⟩ := distFold_classic hf
        rw [c1]
        constructor
        · rintro ⟨p', hp'⟩
          rcases List.mem_append.1 hp' with hp' | hp'
          · rcases List.mem_append.1 hp' with hp' | hp'
            · exact absurd hp' (hcl x (by simp) _)
            · simp only [List.mem_singleton, Prod.mk.injEq, Classic.bits.injEq, true_and] at hp'
              exact hp'.1
          · exact absurd (c2 ▸ List.mem_map_of_mem hp') hxL
        · intro e
          exact ⟨p, by rw [e]; simp⟩
      rw [e1]
      show _ ↔ Cell (width h args) N K (groups h args x).flatten v (o x) (ω (.inl j)) (fun s => ω (.inr ((s, s), T + 1))) ∧
        Cells (width h args) N K ω (L.map (toStep h args o)) (collapsedVec (width h args) (groups h args x).flatten v (o x)
          (outcomeProb (width h args) (groups h args x).flatten (fun c => v.getD c 0) (o x))) (T + 4) (j + 1)
      have hcell : Cell (width h args) N K (groups h args x).flatten v (o x) (ω (.inl j)) (fun s => ω (.inr ((s, s), T + 1))) ↔
          o x = m := ⟨fun h => cell_unique h k2, fun e => by rw [e]; exact k2⟩
      rw [hcell]
      have ih' := ih hnd' hL' hms (hcl' (.bits m (outcomeProb (width h args) (groups h args x).flatten (fun c => v.getD c 0) m)))
        (sent := sent ++ [.op (.measure (groups h args x).flatten none)]) (j := j + 1) k3 k5 k6
      constructor
      · rintro ⟨ops, results, acc, cf', h1, h2, h3, h4⟩
        rw [List.foldlM_cons] at h1
        rcases results with _ | ⟨res, results⟩
        · exfalso
          simp only [distFeed, hk, hpb, bind, Except.bind, List.map_nil, ask] at h1
          cases h1
        rcases ops with _ | ⟨op, ops⟩
        · cases h3
        rw [managed_cons] at h3
        rcases h3 with _ | ⟨q1, q2, q3, q4⟩
        have hop : op = .measure (groups h args x).flatten none := by
          rcases res with _ | ⟨a, b⟩
          · exfalso
            simp only [distFeed, hk, hpb, bind, Except.bind, List.map_cons, asReply, ask] at h1
            cases h1
          · rw [List.map_cons, hstep] at h1
            simp only [bind, Except.bind] at h1
            obtain ⟨suf, hs⟩ := distFold_sent h1
            rw [h2] at hs
            simp only [List.append_assoc, List.append_cancel_left_eq, List.map_cons, List.cons_append, List.nil_append,
              List.cons.injEq, DReq.op.injEq] at hs
            exact hs.1
        subst hop
        rw [k1] at q1
        injection q1 with q1
        subst q1
        obtain rfl := AlwaysEnds.det k4 q2
        have hres := k5.manager
        rw [q3] at hres
        simp only [NLoc.mgr.injEq, MProg.done.injEq, Except.ok.injEq] at hres
        subst hres
        rw [List.map_cons, hstep] at h1
        simp only [bind, Except.bind] at h1
        have hom := (hout h1).1 (h4 x (by simp) hk)
        refine ⟨hom, ?_⟩
        rw [hom]
        exact ih'.1 ⟨ops, results, acc, cf', h1, by rw [h2]; simp, q4, fun y hy => h4 y (by simp [hy])⟩
      · rintro ⟨hom, hcells⟩
        rw [hom] at hcells
        obtain ⟨ops, results, acc, cf', h1, h2, h3, h4⟩ := ih'.2 hcells
        refine ⟨.measure (groups h args x).flatten none :: ops, some (m, outcomeProb (width h args) (groups h args x).flatten
          (fun c => v.getD c 0) m) :: results, acc, cf', ?_, by rw [h2]; simp, ?_, ?_⟩
        · rw [List.foldlM_cons, List.map_cons, hstep]
          exact h1
        · rw [managed_cons]
          exact .cons k1 k4 k5.manager h3
        · intro y hy hky
          rcases List.mem_cons.1 hy with rfl | hy
          · exact (hout h1).2 hom
          · exact h4 y hy hky
    · unfold DistNode at hdn
      rw [hk] at hdn
      exact hdn.elim

end

end QIP
