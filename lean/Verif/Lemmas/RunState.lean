import Mathlib.Algebra.BigOperators.Group.List.Basic
import Verif.Lemmas.Wires
import Verif.Props.Backend
import Verif.Props.FuncApply
import Verif.Props.Gates
import Verif.Props.Measure
import Verif.Props.Probs

/-! # What `run` does to the state -/

namespace QIP

open Spec Heap Finset

/-! ## Feeding one node -/

theorem fits_of_fitsN (g : Gate) (gs : List (List Nat)) (h : FitsN g (gs.map List.length)) : Fits g gs := by
  have simple : ∀ gs : List (List Nat), (gs.map List.length).sum ≠ 0 → gs.flatten ≠ [] := by
    intro gs h e
    apply h
    rw [← List.length_flatten, e]
    rfl
  induction g generalizing gs with
  | swap k =>
    unfold FitsN at h
    rcases gs with _ | ⟨a, _ | ⟨b, _ | ⟨e, t⟩⟩⟩
    · simp at h
    · simp at h
    · simp only [List.map_cons, List.map_nil, List.cons.injEq, and_true] at h
      exact ⟨a, b, rfl, h.1, h.2⟩
    · simp at h
  | c op ih =>
    obtain ⟨rest, h1, h2⟩ := h
    match gs, h1 with
    | g :: gs', h1 =>
      simp only [List.map_cons, List.cons.injEq] at h1
      obtain ⟨q, rfl⟩ := List.length_eq_one_iff.1 h1.1
      rw [← h1.2] at h2
      exact ⟨q, gs', rfl, ih gs' h2⟩
  | _ => exact simple gs h

theorem adjApply_eq {n : Nat} {g : Gate} {gs : List (List Nat)} {mats : List (Key × Mat ℂ)} (h : GM n g gs mats)
    (v : Nat → ℂ) {r : Nat} (hr : r < 2 ^ n) : kronApply n (adjOps (opsOf mats)) v r = adjApply n g gs v r := by
  unfold kronApply adjApply
  apply Finset.sum_congr rfl
  intro c hc
  have hc' := mem_range.1 hc
  congr 1
  rw [← h.sem _ _ hc']
  have h1 : kronApply n (opsOf mats) (fun k => if k = r then 1 else 0) c = kronEntry n (opsOf mats) c r := by
    unfold kronApply
    simp [hr]
  rw [h1]
  have := congrFun (congrFun (opMat_adjOps n (opsOf mats)) ⟨r, hr⟩) ⟨c, hc'⟩
  simpa [opMat] using this

/-- Cached matrices belong to the index groups of this run. -/
def CacheOK (h : Heap) (args : List Nat) (ms : MsTable) : Prop :=
  ∀ x g d, Reach h args x → h.kind x = .gate g d → ∀ m, ms x = some m → g.feedMats d (groups h args x) = .ok m

/-- Thread schedules run every iteration once. -/
def OracleOK (h : Heap) (args : List Nat) (orc : Nat → Oracle) : Prop :=
  ∀ x, (orc x).sched.Perm (List.range (2 ^ width h args)) ∧
    (orc x).faOrder.Perm (faCounters (width h args) ((groups h args x).getD 0 []) ((groups h args x).getD 1 []))

/-- Invariant of the accumulator. -/
structure FeederOK (h : Heap) (args : List Nat) (st : Feeder) : Prop where
  n : st.state.n = width h args
  full : st.state.Full
  cache : CacheOK h args st.ms

theorem gate_feed {h : Heap} {V : Nat → Prop} {args : List Nat} (c : Ctx h V args) {x : Nat} (hx : Reach h args x)
    (hok : NodeOK h args x) {g : Gate} {d : Bool} (hk : h.kind x = .gate g d) :
    ∃ m, g.feedMats d (groups h args x) = .ok m ∧ ∀ (b : BState) (sched : List Nat), b.n = width h args → b.Full →
      sched.Perm (List.range (2 ^ b.n)) → ∃ out, b.kronselectDot m 0 0 sched = (.ok (), ⟨b.n, out, b.state⟩) ∧
        out.length = 2 ^ b.n ∧ norm2 out = norm2 b.state ∧
        ∀ r < 2 ^ b.n, out.getD r 0 = nodeApply (width h args) h args x b.amp r := by
  obtain ⟨hin, hdag⟩ := hok.gate g d hk
  have hkd := c.kind x (c.vis hx)
  unfold KindOK at hkd
  rw [hk] at hkd
  have hfits : Fits g (groups h args x) := fits_of_fitsN g _ (by rw [c.len_groups hx]; exact (hkd.2 hin).2)
  have hgs : GroupsOK (width h args) (groups h args x) := ⟨hok.distinct, fun q hq => c.groups_lt hx hq⟩
  obtain ⟨mats, gm⟩ := gm_exists (n := width h args) g _ hfits hgs
  have key : ∀ (m : List (Key × Mat ℂ)) (ops : List (List Nat × (Nat → Nat → ℂ))),
      g.feedMats d (groups h args x) = .ok m →
      (∀ (b : BState) (sched : List Nat), b.n = width h args → b.Full → sched.Perm (List.range (2 ^ b.n)) →
        g.apply d (groups h args x) b.n b.state b.arena (.cython sched) = .ok (act b.n ops b.state)) →
      opMat (width h args) (adjOps ops) * opMat (width h args) ops = 1 →
      (∀ v r, r < 2 ^ width h args → kronApply (width h args) ops v r = nodeApply (width h args) h args x v r) →
      ∃ m, g.feedMats d (groups h args x) = .ok m ∧ ∀ (b : BState) (sched : List Nat), b.n = width h args → b.Full →
      sched.Perm (List.range (2 ^ b.n)) → ∃ out, b.kronselectDot m 0 0 sched = (.ok (), ⟨b.n, out, b.state⟩) ∧
        out.length = 2 ^ b.n ∧ norm2 out = norm2 b.state ∧
        ∀ r < 2 ^ b.n, out.getD r 0 = nodeApply (width h args) h args x b.amp r := by
    intro m ops hm happ huni hsem
    refine ⟨m, hm, ?_⟩
    intro b sched hb hfull hs
    have h1 := happ b sched hb hfull hs
    unfold Gate.apply at h1
    rw [hm] at h1
    simp only [bind, Except.bind] at h1
    refine ⟨act b.n ops b.state, ?_, length_act _ _ _, ?_, ?_⟩
    · unfold BState.kronselectDot
      rw [h1]
    · rw [hb]
      exact norm2_act huni b.state (by rw [← hb]; exact hfull.state)
    · intro r hr
      rw [getD_act ops b.state hr]
      rw [hb] at hr ⊢
      exact hsem _ r hr
  cases d with
  | false =>
    refine key mats (opsOf mats) ?_ ?_ gm.uni ?_
    · unfold Gate.feedMats
      simp [gm.ok, bind, Except.bind, pure, Except.pure]
    · intro b sched hb hfull hs
      rw [hb] at hs ⊢
      exact gate_apply_eq hgs gm (by rw [← hb]; exact hfull.state) (by rw [← hb]; exact hfull.arena) hs
    · intro v r hr
      rw [gm.sem v r hr]
      unfold nodeApply
      rw [hk]
  | true =>
    obtain ⟨dm, e1, -, -, -, e5⟩ := feedMats_dagger hfits hgs gm (hdag rfl)
    refine key dm (adjOps (opsOf mats)) e1 ?_ ?_ ?_
    · intro b sched hb hfull hs
      rw [hb] at hs ⊢
      exact gate_apply_dagger_eq hfits hgs gm (hdag rfl) (by rw [← hb]; exact hfull.state)
        (by rw [← hb]; exact hfull.arena) hs
    · have : adjOps (adjOps (opsOf mats)) = opsOf mats := by
        simp [adjOps, List.map_map, Function.comp_def]
      rw [this]
      exact gm.uni'
    · intro v r hr
      rw [adjApply_eq gm v hr]
      unfold nodeApply
      rw [hk]

theorem fop_feed {h : Heap} {V : Nat → Prop} {args : List Nat} (c : Ctx h V args) {x : Nat} (hx : Reach h args x)
    (hok : NodeOK h args x) {f : Nat → Except PyErr Int} (hk : h.kind x = .fop f) (state arena : List ℂ)
    (hs : state.length = 2 ^ width h args) (ha : arena.length = 2 ^ width h args) (order : List (Nat × Nat × Nat))
    (hord : order.Perm (faCounters (width h args) ((groups h args x).getD 0 []) ((groups h args x).getD 1 [])))
    (garb : Nat → Nat) :
    ∃ out, backendFuncApply ((groups h args x).getD 0 []) ((groups h args x).getD 1 []) f (width h args) state arena
        order garb = .ok out ∧ out.length = 2 ^ width h args ∧ norm2 out = norm2 state ∧
      ∀ r < 2 ^ width h args, out.getD r 0 = nodeApply (width h args) h args x (fun i => state.getD i 0) r := by
  obtain ⟨h30, hret, hby⟩ := hok.fop f hk
  have hkd := c.kind x (c.vis hx)
  unfold KindOK at hkd
  rw [hk] at hkd
  have hlen := hkd.2.1
  obtain ⟨p, q, hpq⟩ : ∃ p q, h.inputs x = [p, q] := by
    match hi : h.inputs x, hlen with
    | [p, q], _ => exact ⟨p, q, rfl⟩
  have hg : groups h args x = [wires h args p, wires h args q] := by simp [groups, hpq]
  have hflat : (groups h args x).flatten = wires h args p ++ wires h args q := by simp [hg]
  have hlt : ∀ k ∈ (groups h args x).flatten, k < width h args := fun k hk => c.groups_lt hx hk
  have hdist := hok.distinct
  rw [hflat] at hby hlt hdist
  rw [hg] at hret hby hord ⊢
  simp only [List.getD_cons_zero, List.getD_cons_succ] at hret hby hord ⊢
  have hregs : RegsOK (width h args) (wires h args p) (wires h args q) := ⟨hdist, hlt, h30⟩
  have hf : Returns (wires h args p) f (fval f) := by
    intro i hi
    obtain ⟨y, e, h1, h2⟩ := hret i hi
    unfold fval
    rw [e]
    exact ⟨rfl, h1, h2⟩
  have hbl : (Props.bystanders (width h args) (wires h args p) (wires h args q)).length
      = width h args - (wires h args p ++ wires h args q).length := by
    rw [← Props.faOther_eq]
    simpa using hregs.length_other
  rw [List.length_append] at hby hbl
  obtain ⟨out, o1, o2, o3⟩ := Props.C17_func_apply_partial hregs (by omega) hf state arena hs ha true order hord garb
  have hpre : ∀ r < 2 ^ width h args, out.getD r 0
      = state.getD (oraclePre (width h args) (wires h args p) (wires h args q) (fval f) r) 0 := by
    intro r hr
    obtain ⟨d, ⟨hd, hd2, hd3⟩, -⟩ := o3 r hr
    rw [List.getD_eq_getElem?_getD, hd3, (oraclePre_iff hregs (fval f) hd).1 hd2, List.getD_eq_getElem?_getD]
  refine ⟨out, o1, o2, ?_, ?_⟩
  · have inv := fun r hr => Props.oraclePre_involution hregs (fval f) (r := r) hr
    have conv : ∀ l : List ℂ, l.length = 2 ^ width h args →
        norm2 l = ∑ i ∈ range (2 ^ width h args), Complex.normSq (l.getD i 0) := by
      intro l hl
      unfold norm2
      rw [← sum_map_range]
      congr 1
      apply List.ext_getElem
      · simp [hl]
      · intro i h1 h2
        simp only [List.length_map] at h1
        simp [h1]
    rw [conv out o2, conv state hs]
    apply Finset.sum_bij' (fun i _ => oraclePre (width h args) (wires h args p) (wires h args q) (fval f) i)
      (fun i _ => oraclePre (width h args) (wires h args p) (wires h args q) (fval f) i)
    · intro i _; exact mem_range.2 (spread_lt _ _ _ _)
    · intro i _; exact mem_range.2 (spread_lt _ _ _ _)
    · intro i hi; exact inv i (mem_range.1 hi)
    · intro i hi; exact inv i (mem_range.1 hi)
    · intro i hi; rw [hpre i (mem_range.1 hi)]
  · intro r hr
    rw [hpre r hr]
    unfold nodeApply
    rw [hk]
    simp only [hg, List.getD_cons_zero, List.getD_cons_succ]
    have hsing : (range (2 ^ width h args)).filter (fun c =>
        OraclePre (width h args) (wires h args p) (wires h args q) (fval f) r c)
        = {oraclePre (width h args) (wires h args p) (wires h args q) (fval f) r} := by
      ext i
      simp only [mem_filter, mem_range, mem_singleton]
      constructor
      · rintro ⟨h1, h2⟩; exact (oraclePre_iff hregs (fval f) h1).1 h2
      · rintro rfl
        exact ⟨spread_lt _ _ _ _, (oraclePre_iff hregs (fval f) (spread_lt _ _ _ _)).2 rfl⟩
    rw [hsing, Finset.sum_singleton]

/-- Feeding one node does what the specification says. -/
theorem nodeFeed_spec {h : Heap} {V : Nat → Prop} {args : List Nat} (c : Ctx h V args) {x : Nat} (hx : Reach h args x)
    (hok : NodeOK h args x) {orc : Nat → Oracle} (ho : OracleOK h args orc) {st : Feeder} (hst : FeederOK h args st)
    (own : List Nat) :
    (NoMeasure h args x → ∃ st', nodeFeed h orc st (groups h args x) own x = .ok st') ∧
    ∀ st', nodeFeed h orc st (groups h args x) own x = .ok st' → FeederOK h args st' ∧
      ∃ cl, st'.classic = st.classic ++ [(x, cl)] ∧ StepSpec (width h args) h args x st.state.amp st'.state.amp cl ∧
        (NoMeasure h args x → norm2 st'.state.state = norm2 st.state.state) := by
  have hb := hst.n
  have hidx : IdxOK st.state.n (groups h args x).flatten := by
    rw [hb]
    exact ⟨hok.distinct, fun q hq => c.groups_lt hx hq⟩
  unfold nodeFeed
  rcases hk : h.kind x with _ | is | ⟨g, d⟩ | f | _ | k
  · refine ⟨fun _ => ⟨_, rfl⟩, ?_⟩
    rintro st' ⟨rfl⟩
    refine ⟨⟨hst.n, hst.full, hst.cache⟩, .zero, rfl, ?_, fun _ => rfl⟩
    simp [StepSpec, hk, nodeApply]
  · refine ⟨fun _ => ⟨_, rfl⟩, ?_⟩
    rintro st' ⟨rfl⟩
    refine ⟨⟨hst.n, hst.full, hst.cache⟩, .zero, rfl, ?_, fun _ => rfl⟩
    simp [StepSpec, hk, nodeApply]
  · obtain ⟨m, hm, hap⟩ := gate_feed c hx hok hk
    have hmm : opMats (st.ms x) g d (groups h args x) = .ok m := by
      unfold opMats
      rcases hms : st.ms x with _ | m'
      · exact hm
      · have := hst.cache x g d hx hk m' hms
        rw [hm] at this
        exact this.symm
    obtain ⟨out, h1, h2, h3, h4⟩ := hap st.state (orc x).sched hb hst.full (by rw [hb]; exact (ho x).1)
    simp only [hmm, h1, bind, Except.bind]
    refine ⟨fun _ => ⟨_, rfl⟩, ?_⟩
    rintro st' ⟨rfl⟩
    refine ⟨⟨hst.n, ⟨h2, hst.full.state⟩, ?_⟩, .zero, rfl, ?_, fun _ => h3⟩
    · intro y g' d' hy hky m' hm'
      simp only at hm'
      split at hm'
      · next e =>
        subst e
        rw [hk] at hky
        cases hky
        cases hm'
        exact hm
      · exact hst.cache y g' d' hy hky m' hm'
    · unfold StepSpec
      simp only [hk]
      refine ⟨?_, trivial⟩
      intro r hr
      rw [hb] at h4
      exact h4 r hr
  · obtain ⟨out, h1, h2, h3, h4⟩ := fop_feed c hx hok hk st.state.state st.state.arena (by rw [← hb]; exact hst.full.state)
      (by rw [← hb]; exact hst.full.arena) (orc x).faOrder (ho x).2 (orc x).faGarb
    rw [← hb] at h1 h2
    simp only [h1, bind, Except.bind]
    refine ⟨fun _ => ⟨_, rfl⟩, ?_⟩
    rintro st' ⟨rfl⟩
    refine ⟨⟨hst.n, ⟨h2, hst.full.state⟩, hst.cache⟩, .zero, rfl, ?_, fun _ => h3⟩
    unfold StepSpec
    simp only [hk]
    exact ⟨h4, trivial⟩
  · refine ⟨fun hn => absurd hk hn.1, ?_⟩
    rcases hr : st.state.measure (groups h args x).flatten none none 0 0 (orc x).u (orc x).garbage with ⟨r, b'⟩
    rcases r with e | ⟨m, p⟩
    · simp [bind, Except.bind]
    · simp only [bind, Except.bind]
      rintro st' ⟨rfl⟩
      obtain ⟨m1, m2, m3, rfl⟩ := Props.measure_success hst.full hidx hr
      obtain ⟨c1, c2, c3, -, -⟩ := Props.C25_collapse_partial hst.full hidx hr
      refine ⟨⟨hst.n, c2, hst.cache⟩, .bits m p, rfl, ?_, fun hn => absurd hk hn.1⟩
      unfold StepSpec
      simp only [hk]
      simp only [hb] at m2 c3 ⊢
      exact ⟨m, p, rfl, m1, m2, m3, c3⟩
  · have hlt : ∀ q ∈ (groups h args x).flatten, q < st.state.n := hidx.lt
    unfold BState.measureProbabilities
    dsimp only
    by_cases hk0 : k = 0
    · subst hk0
      obtain ⟨ps, p1, p2, p3, -⟩ := Props.C20_marginals hlt st.state.state hst.full.state
      simp only [if_true, p1, bind, Except.bind, pure, Except.pure]
      refine ⟨fun _ => ⟨_, rfl⟩, ?_⟩
      rintro st' ⟨rfl⟩
      refine ⟨⟨hst.n, hst.full, hst.cache⟩, .probs ps, rfl, ?_, fun _ => rfl⟩
      unfold StepSpec
      rw [hb] at p3
      simp only [hk, if_true]
      exact ⟨fun _ _ => trivial, ps, rfl, p2, p3⟩
    · rw [if_neg hk0]
      by_cases hneg : k < 0
      · rw [if_pos hneg]
        simp only [bind, Except.bind]
        refine ⟨fun hn => ?_, fun _ h => by cases h⟩
        rcases hn.2 k hk with e | e
        · exact absurd e hk0
        · have : (0 : Int) < 2 ^ (groups h args x).flatten.length := by positivity
          omega
      · rw [if_neg hneg]
        have hcast : (2 ^ (groups h args x).flatten.length ≤ k.toNat) ↔
            (2 : Int) ^ (groups h args x).flatten.length ≤ k := by
          rw [← Int.ofNat_le, Int.toNat_of_nonneg (by omega)]
          push_cast
          rfl
        by_cases hbig : 2 ^ (groups h args x).flatten.length ≤ k.toNat
        · obtain ⟨ms, ps, p1, p2, p3, p4⟩ := Props.C21_top_k_partial hidx k.toNat hbig st.state.state hst.full.state
          simp only [p1, bind, Except.bind, pure, Except.pure]
          refine ⟨fun _ => ⟨_, rfl⟩, ?_⟩
          rintro st' ⟨rfl⟩
          refine ⟨⟨hst.n, hst.full, hst.cache⟩, .top ms ps, rfl, ?_, fun _ => rfl⟩
          unfold StepSpec
          simp only [hk, hk0, if_false]
          rw [hb] at p3
          exact ⟨fun _ _ => trivial, ms, ps, rfl, p2, p3, p4⟩
        · rw [Props.C21_out_of_bounds hidx k.toNat (by omega) st.state.state hst.full.state]
          simp only [bind, Except.bind]
          refine ⟨fun hn => ?_, fun _ h => by cases h⟩
          rcases hn.2 k hk with e | e
          · exact absurd e hk0
          · exact absurd (hcast.2 e) hbig

/-- Feeding a list of nodes. -/
theorem feedAll_spec {h : Heap} {V : Nat → Prop} {args : List Nat} (c : Ctx h V args)
    {orc : Nat → Oracle} (ho : OracleOK h args orc) (L : List Nat) (hL : ∀ x ∈ L, Reach h args x ∧ NodeOK h args x)
    {st : Feeder} (hst : FeederOK h args st) :
    ((∀ x ∈ L, NoMeasure h args x) → ∃ st',
      L.foldlM (fun a x => nodeFeed h orc a (groups h args x) (wires h args x) x) st = .ok st') ∧
    ∀ st', L.foldlM (fun a x => nodeFeed h orc a (groups h args x) (wires h args x) x) st = .ok st' →
      FeederOK h args st' ∧ ∃ cs, st'.classic = st.classic ++ cs ∧
        Steps (width h args) h args L st.state.amp st'.state.amp cs ∧
        ((∀ x ∈ L, NoMeasure h args x) → norm2 st'.state.state = norm2 st.state.state) := by
  induction L generalizing st with
  | nil =>
    refine ⟨fun _ => ⟨st, rfl⟩, ?_⟩
    rintro st' ⟨rfl⟩
    exact ⟨hst, [], by simp, .nil fun _ _ => rfl, fun _ => rfl⟩
  | cons x L ih =>
    have hx := hL x (by simp)
    obtain ⟨s1, s2⟩ := nodeFeed_spec c hx.1 hx.2 ho hst (wires h args x)
    rw [List.foldlM_cons]
    rcases hf : nodeFeed h orc st (groups h args x) (wires h args x) x with e | st1
    · simp only [bind, Except.bind]
      refine ⟨fun hn => ?_, fun _ h => by cases h⟩
      obtain ⟨st', he⟩ := s1 (hn x (by simp))
      rw [hf] at he
      cases he
    · simp only [bind, Except.bind]
      obtain ⟨k1, cl, k2, k3, k4⟩ := s2 st1 hf
      obtain ⟨i1, i2⟩ := ih (fun y hy => hL y (by simp [hy])) k1
      refine ⟨fun hn => i1 fun y hy => hn y (by simp [hy]), ?_⟩
      intro st' hst'
      obtain ⟨j1, cs, j2, j3, j4⟩ := i2 st' hst'
      refine ⟨j1, (x, cl) :: cs, ?_, .cons k3 j3, fun hn => ?_⟩
      · rw [j2, k2]; simp
      · rw [j4 fun y hy => hn y (by simp [hy]), k4 (hn x (by simp))]

end QIP
