import Verif.Spec.DistRun
import Verif.Lemmas.RunInit
import Verif.Props.Job

/-! # Runs on the distributed backend: the requests of the client against the job -/

namespace QIP

open Spec Heap Props

/-- `distRun` as a whole. -/
theorem distRun_spec {h : Heap} {V : Nat → Prop} {args : List Nat} {feed : List (List Nat × List ℂ)} (c : Ctx h V args)
    (hf : FeedOK h args feed)
    (hdef : ∀ q ∈ leaves h args, q ∉ (feed.map (·.1)).flatten → DefaultOK h q)
    (pick : List Nat → Nat) (shuffle : List Nat → List Nat) (hsh : ∀ l, (shuffle l).Perm l) :
    ∃ deps, deps.Nodup ∧ deps.Perm (leaves h args) ∧ ∀ (ms : MsTable) (strict : Bool) (handle : Option String)
      (replies : List Reply), (strict = true → ∀ q ∈ leaves h args, q ∈ (feed.map (·.1)).flatten) →
      distRun h ms args (feed.map asFeed) strict none pick shuffle handle replies = (do
        let setup ← setupStates (width h args) ((allFeed h feed deps).map fun kv => (kv.1.map (wires h args)).flatten)
          (((allFeed h feed deps).map (·.2)).map .vec)
        match handle with
        | none => .error .exception
        | some hd =>
          let acc ← (needed h args).foldlM (fun a x => distFeed h a (groups h args x) (wires h args x) x)
            ⟨ms, [], [], replies⟩
          .ok ⟨hd, acc.classic, acc.ms, width h args, setup, acc.sent⟩) := by
  obtain ⟨deps, seen, e1, d1, d2, d3, d4⟩ := getDeps_spec h pick args (fun x hx => c.wf.vlt x (c.vargs x hx))
    (fun x hx => c.ilt hx)
  have hsd : (shuffle deps).Nodup := (hsh deps).nodup_iff.2 d1
  have hsl := sortQid_deps c.wf c.vargs hsd (fun x => ((hsh deps).mem_iff).trans (d4 x))
  have hperm : (shuffle deps).Perm (leaves h args) := by
    rw [← hsl]
    exact (List.mergeSort_perm _ _).symm
  have hdef' : ∀ q ∈ shuffle deps, q ∉ (feed.map (·.1)).flatten → DefaultOK h q :=
    fun q hq => hdef q (hperm.mem_iff.1 hq)
  refine ⟨shuffle deps, hsd, hperm, ?_⟩
  intro ms strict handle replies hst
  unfold distRun
  have hfed : ((feed.map asFeed).map (·.1)).flatten = (feed.map (·.1)).flatten := by
    simp [asFeed, List.map_map, Function.comp_def]
  have hall : feed.map asFeed ++ (shuffle deps).flatMap (defaultFeed h (feed.map (·.1)).flatten)
      = (allFeed h feed (shuffle deps)).map asFeed := by
    unfold allFeed
    rw [List.map_append, List.map_flatMap]
    congr 2
    funext q
    exact defaultFeed_eq h _ q
  simp only [e1, bind, Except.bind, hfed, hsl]
  rw [if_neg (by
    rintro ⟨h1, q, hq, hq'⟩
    exact hq' (hst h1 q hq))]
  simp only [hall]
  have hmap : ((allFeed h feed (shuffle deps)).map asFeed).mapM (fun f => do
      let gs ← f.1.mapM (lookup (blocks h (leaves h args) 0))
      pure gs.flatten : List Nat × InitState → Except PyErr (List Nat))
      = .ok (((allFeed h feed (shuffle deps)).map asFeed).map fun f => (f.1.map (wires h args)).flatten) := by
    apply mapM_ok
    intro f hfm
    obtain ⟨kv, hkv, rfl⟩ := List.mem_map.1 hfm
    have : kv.1.mapM (lookup (blocks h (leaves h args) 0)) = .ok (kv.1.map (wires h args)) := by
      apply mapM_lookup
      intro q hq
      have hq' : q ∈ leaves h args := by
        rcases (mem_keys hdef').1 (List.mem_flatten.2 ⟨_, List.mem_map.2 ⟨kv, hkv, rfl⟩, hq⟩) with h1 | h1
        · exact hf.mem q h1
        · exact hperm.mem_iff.1 h1.1
      rw [blocks_asc h _ (leaves_asc h args) 0 hq', wires_leaf ((mem_leaves c.wf c.vargs).1 hq').2, Nat.zero_add]
      rfl
    simp only [asFeed]
    rw [this]
    rfl
  simp only [bind, Except.bind] at hmap
  simp only [pure, Except.pure] at hmap ⊢
  rw [hmap]
  simp only [stateArg]
  have hst2 : ((allFeed h feed (shuffle deps)).map asFeed).map (·.2) = ((allFeed h feed (shuffle deps)).map (·.2)).map .vec := by
    simp [asFeed, List.map_map, Function.comp_def]
  have hg2 : (((allFeed h feed (shuffle deps)).map asFeed).map fun f => (f.1.map (wires h args)).flatten)
      = (allFeed h feed (shuffle deps)).map fun kv => (kv.1.map (wires h args)).flatten := by
    simp [asFeed, List.map_map, Function.comp_def]
  rw [hst2, hg2]
  unfold width
  cases setupStates _ _ _ with
  | error e => rfl
  | ok setup =>
    cases handle with
    | none => rfl
    | some hd =>
      simp only
      rw [runGraph_spec c.wf c.kind c.vargs c.size c.split d3 d2 rfl]

/-- The vectors are usable for a distributed job. -/
theorem allFeed_ok {h : Heap} {V : Nat → Prop} {args : List Nat} {feed : List (List Nat × List ℂ)} {deps : List Nat}
    (c : Ctx h V args) (hf : FeedOK h args feed) (hnd : deps.Nodup) (hperm : deps.Perm (leaves h args))
    (hdef : ∀ q ∈ leaves h args, q ∉ (feed.map (·.1)).flatten → DefaultOK h q) (hsome : SomeFed h args feed) :
    FedOK (width h args) ((allFeed h feed deps).map fun kv => (kv.1.map (wires h args)).flatten)
      ((allFeed h feed deps).map (·.2)) := by
  have hdef' : ∀ q ∈ deps, q ∉ (feed.map (·.1)).flatten → DefaultOK h q := fun q hq => hdef q (hperm.mem_iff.1 hq)
  have hkl : ∀ q ∈ ((allFeed h feed deps).map (·.1)).flatten, q ∈ leaves h args := by
    intro q hq
    rcases (mem_keys hdef').1 hq with h1 | h1
    · exact hf.mem q h1
    · exact hperm.mem_iff.1 h1.1
  have hkl' := fun q hq => (mem_leaves c.wf c.vargs).1 (hkl q hq)
  refine ⟨?_, ?_, ?_, by simp, ?_⟩
  · intro e
    have e : allFeed h feed deps = [] := List.map_eq_nil_iff.1 e
    unfold allFeed at e
    rw [List.append_eq_nil_iff, List.flatMap_eq_nil_iff] at e
    rcases hsome with h1 | ⟨q, hq, h1⟩
    · exact h1 e.1
    · have h2 := e.2 q (hperm.mem_iff.2 hq)
      have hne : q ∉ (feed.map (·.1)).flatten := by simp [e.1]
      have hd := hdef q hq hne
      unfold defaultVec at h2
      unfold DefaultOK at hd
      rw [if_neg hne] at h2
      rcases hdq : h.default q with _ | d
      · rw [hdq] at h1; exact h1
      · rw [hdq] at h1 h2 hd
        cases d with
        | int k =>
          simp only at h1 h2 hd
          rw [if_pos ⟨h1, hd.2⟩] at h2
          cases h2
        | list l => cases h2
        | array l => cases h2
  · rw [flatten_groups]
    apply Ctx.nodup_flatten_of (nodup_keys hf.nodup hnd hdef')
    · intro q hq
      rw [wires_leaf (hkl' q hq).2]
      exact List.Nodup.map (fun a b h => Nat.add_left_cancel h) List.nodup_range
    · intro x hx y hy hne k hk hk'
      exact hne (c.leaf_unique (hkl' x hx).1 (hkl' y hy).1 (hkl' x hx).2 (hkl' y hy).2 hk hk')
  · rw [flatten_groups]
    intro k hk
    obtain ⟨_, hl, hk'⟩ := List.mem_flatten.1 hk
    obtain ⟨q, hq, rfl⟩ := List.mem_map.1 hl
    exact c.lt_width (hkl' q hq).1 hk'
  · rw [List.zip_map']
    intro gv hgv
    obtain ⟨kv, hkv, rfl⟩ := List.mem_map.1 hgv
    simp only
    rw [size_allFeed hf hdef' kv hkv, List.length_flatten, List.map_map]
    congr 1
    congr 1
    apply List.map_congr_left
    intro q hq
    exact (c.len (hkl' q (List.mem_flatten.2 ⟨_, List.mem_map.2 ⟨kv, hkv, rfl⟩, hq⟩)).1).symm

/-- A possible outcome is reported for some draw. -/
theorem draw_exists {b : BState} (hb : b.Full) {indices : List Nat} (h : IdxOK b.n indices)
    (hT : 0 < Spec.totalProb b.n b.amp) {m : Nat} {p u0 g0 : ℝ} {b' : BState}
    (hr : b.measure indices (some (m : Int)) none 0 0 u0 g0 = (.ok (m, p), b')) :
    ∃ u, 0 < u ∧ u < 1 ∧ b.measure indices none none 0 0 u 0 = (.ok (m, p), b') := by
  obtain ⟨h1, h2, h3, h4⟩ := measure_success hb h hr
  have hlt : cumProb b.n indices b.amp m / Spec.totalProb b.n b.amp
      < cumProb b.n indices b.amp (m + 1) / Spec.totalProb b.n b.amp := by
    apply div_lt_div_of_pos_right _ hT
    rw [cumProb_succ, ← h2]
    linarith
  obtain ⟨u, hu⟩ := exists_between hlt
  obtain ⟨u0, u1, p', hp'⟩ := subset_drawsGiving hb h hT h1 (show u ∈ Set.Ioo _ _ from hu)
  have hpos : 0 < u := by
    refine lt_of_le_of_lt ?_ hu.1
    exact div_nonneg (Finset.sum_nonneg fun _ _ => outcomeProb_nonneg _ _ _ _) hT.le
  rcases hm : b.measure indices none none 0 0 u 0 with ⟨r, b''⟩
  rw [hm] at hp'
  simp only at hp'
  subst hp'
  obtain ⟨-, e2, -, e4⟩ := measure_success hb h hm
  rw [← h2] at e2
  subst e2
  exact ⟨u, hpos, u1, by rw [hm, e4, h4]⟩

/-- The draws of nodes that are not fed do not matter. -/
theorem feed_draws {h : Heap} {args : List Nat} {orc : Nat → Oracle} {us us' : Nat → ℝ} (L : List Nat)
    (hus : ∀ x ∈ L, us x = us' x) (st : Feeder) :
    L.foldlM (fun a x => nodeFeed h (drawing orc us) a (groups h args x) (wires h args x) x) st
      = L.foldlM (fun a x => nodeFeed h (drawing orc us') a (groups h args x) (wires h args x) x) st := by
  induction L generalizing st with
  | nil => rfl
  | cons x L ih =>
    rw [List.foldlM_cons, List.foldlM_cons]
    have : nodeFeed h (drawing orc us) st (groups h args x) (wires h args x) x
        = nodeFeed h (drawing orc us') st (groups h args x) (wires h args x) x := by
      have : drawing orc us x = drawing orc us' x := by
        unfold drawing
        rw [hus x (by simp)]
      unfold nodeFeed
      rw [this]
    rw [this]
    apply bind_congr
    intro a
    exact ih (fun y hy => hus y (by simp [hy])) a

section
variable {h : Heap} {V : Nat → Prop} {args : List Nat} {prm : Wid → WParam} {C M K N : Nat} {ws : List Wid}

/-- The nodes `L`, fed to the distributed backend in state `v`, and to the local backend with suitable draws. -/
def FedJob (h : Heap) (args : List Nat) (prm : Wid → WParam) (C M K N : Nat) (ws : List Wid) (orc : Nat → Oracle)
    (L : List Nat) (rs : List ℝ) (ms : MsTable) (v arena : List ℂ) (cf : Cfg Pid NMsg NLoc) : Prop :=
  ∃ (ops : List JobOp) (results : List (Option (Nat × ℝ))) (cl' : List (Nat × Classic)) (ms' : MsTable) (b' : BState)
      (cf' : Cfg Pid NMsg NLoc) (pm' : MProg) (st' : Wid → Wid → Nat) (us : Nat → ℝ),
    ops.length ≤ L.length ∧ (∀ x, 0 < us x ∧ us x < 1) ∧ JobRuns prm ws (ops.zip rs) cf results cf' ∧
    (∀ cl sent tail, L.foldlM (fun a x => distFeed h a (groups h args x) (wires h args x) x)
      ⟨ms, cl, sent, results.map asReply ++ tail⟩ = .ok ⟨ms', cl ++ cl', sent ++ ops.map .op, tail⟩) ∧
    (∀ cl, L.foldlM (fun a x => nodeFeed h (drawing orc us) a (groups h args x) (wires h args x) x)
      ⟨⟨width h args, v, arena⟩, ms, cl⟩ = .ok ⟨b', ms', cl ++ cl'⟩) ∧
    Distributed K N (width h args) b'.state C M st' pm' cf'

theorem dist_steps (c : Ctx h V args) (hn : width h args ≤ 30) (hg : GridOK prm K N C M ws)
    (hsched : ∀ w c, ((prm w).sched c).Perm (List.range N)) (hgarb : ∀ w c, (prm w).garbage c = 0)
    (hu : ∀ i c, 0 < (prm (i, i)).draw c ∧ (prm (i, i)).draw c < 1) {orc : Nat → Oracle}
    (ho : ∀ x, (orc x).sched.Perm (List.range (2 ^ width h args))) (L : List Nat) (hnd : L.Nodup)
    (hL : ∀ x ∈ L, Reach h args x ∧ NodeOK h args x ∧ DistNode h x) {rs : List ℝ} (hlen : L.length ≤ rs.length)
    (hrs : ∀ r ∈ rs, 0 < r ∧ r < 1) {ms : MsTable} (hms : CacheOK h args ms) {v : List ℂ} {st : Wid → Wid → Nat} {pm : MProg}
    {cf : Cfg Pid NMsg NLoc} (hT : norm2 v = 1) (hD : Distributed K N (width h args) v C M st pm cf) {arena : List ℂ}
    (ha : arena.length = 2 ^ width h args) :
    FedJob h args prm C M K N ws orc L rs ms v arena cf := by
  induction L generalizing ms v st pm cf arena rs with
  | nil =>
    exact ⟨[], [], [], ms, ⟨width h args, v, arena⟩, cf, pm, st, fun _ => 1 / 2, by simp, fun _ => by norm_num, .nil cf,
      fun cl sent tail => by simp [pure, Except.pure], fun cl => by simp [pure, Except.pure], hD⟩
  | cons x L ih =>
    obtain ⟨hx, hok, hdn⟩ := hL x (by simp)
    have hL' : ∀ y ∈ L, Reach h args y ∧ NodeOK h args y ∧ DistNode h y := fun y hy => hL y (by simp [hy])
    have hxL : x ∉ L := (List.nodup_cons.1 hnd).1
    have hnd' := (List.nodup_cons.1 hnd).2
    simp only [List.length_cons] at hlen
    -- nodes without an operation
    have idle : h.kind x = .qubit ∨ (∃ is, h.kind x = .split is) →
        FedJob h args prm C M K N ws orc (x :: L) rs ms v arena cf := by
      intro hk
      have e1 : ∀ (st : DFeeder) gs own, distFeed h st gs own x = .ok { st with classic := st.classic ++ [(x, .zero)] } := by
        intro st gs own
        unfold distFeed
        rcases hk with e | ⟨is, e⟩ <;> rw [e]
      have e2 : ∀ orc (st : Feeder) gs own, nodeFeed h orc st gs own x
          = .ok { st with classic := st.classic ++ [(x, .zero)] } := by
        intro orc st gs own
        unfold nodeFeed
        rcases hk with e | ⟨is, e⟩ <;> rw [e]
      obtain ⟨ops, results, cl', ms', b', cf', pm', st', us, i1, i2, i3, i4, i5, i6⟩ := ih hnd' hL' (rs := rs) (by omega) hrs hms
        hT hD ha
      refine ⟨ops, results, (x, .zero) :: cl', ms', b', cf', pm', st', us, by simp; omega, i2, i3, ?_, ?_, i6⟩
      · intro cl sent tail
        rw [List.foldlM_cons, e1]
        simp only [bind, Except.bind]
        rw [i4]
        simp
      · intro cl
        rw [List.foldlM_cons, e2]
        simp only [bind, Except.bind]
        rw [i5]
        simp
    rcases hk : h.kind x with _ | is | ⟨g, d⟩ | f | _ | k
    · exact idle (.inl hk)
    · exact idle (.inr ⟨is, hk⟩)
    · -- a gate
      rcases rs with _ | ⟨r, rs⟩
      · simp at hlen
      obtain ⟨hin, hdag⟩ := hok.gate g d hk
      have hkd := c.kind x (c.vis hx)
      unfold KindOK at hkd
      rw [hk] at hkd
      have hfits : Fits g (groups h args x) := fits_of_fitsN g _ (by rw [c.len_groups hx]; exact (hkd.2 hin).2)
      have hgs : GroupsOK (width h args) (groups h args x) := ⟨hok.distinct, fun q hq => c.groups_lt hx hq⟩
      have htup : tupleGate g = true := by
        unfold DistNode at hdn
        rw [hk] at hdn
        rcases hdn with ⟨k, rfl⟩ | ⟨g', rfl⟩ <;> rfl
      obtain ⟨m, hm, hop⟩ := opOK_gate hn htup hfits hgs hdag
      obtain ⟨pb, hpb, -⟩ := mats_wire hn hop
      have hmm : opMats (ms x) g d (groups h args x) = .ok m := by
        unfold opMats
        rcases hms' : ms x with _ | m'
        · exact hm
        · have := hms x g d hx hk m' hms'
          rw [hm] at this
          exact this.symm
      obtain ⟨pm1, v1, cf1, st1, k1, k2, k3, k4, k5⟩ := kron_step (prm := prm) (pm := pm) hn hg hsched hop hD ha r
      have hms1 : CacheOK h args fun y => if y = x then some m else ms y := by
        intro y g' d' hy hky m' hm'
        simp only at hm'
        split at hm'
        · next e =>
          subst e
          rw [hk] at hky
          cases hky
          cases hm'
          exact hm
        · exact hms y g' d' hy hky m' hm'
      obtain ⟨ops, results, cl', ms', b', cf', pm', st', us, i1, i2, i3, i4, i5, i6⟩ := ih hnd' hL' (rs := rs)
        (by simpa using hlen) (fun r hr => hrs r (by simp [hr])) hms1 (k3.trans hT) k5 hD.size
      refine ⟨.kron m :: ops, none :: results, (x, .zero) :: cl', ms', b', cf', pm', st', us, by simpa using i1, i2,
        .cons k1 k4 k5.manager i3, ?_, ?_, i6⟩
      · intro cl sent tail
        rw [List.foldlM_cons]
        have : distFeed h ⟨ms, cl, sent, (none :: results).map asReply ++ tail⟩ (groups h args x) (wires h args x) x
            = .ok ⟨fun y => if y = x then some m else ms y, cl ++ [(x, .zero)], sent ++ [.op (.kron m)],
              results.map asReply ++ tail⟩ := by
          unfold distFeed
          simp only [hk, hmm, hpb, bind, Except.bind, List.map_cons, asReply, List.cons_append, ask]
        rw [this]
        simp only [bind, Except.bind]
        rw [i4]
        simp
      · intro cl
        rw [List.foldlM_cons]
        have : nodeFeed h (drawing orc us) ⟨⟨width h args, v, arena⟩, ms, cl⟩ (groups h args x) (wires h args x) x
            = .ok ⟨⟨width h args, v1, v⟩, fun y => if y = x then some m else ms y, cl ++ [(x, .zero)]⟩ := by
          unfold nodeFeed
          simp only [hk, hmm, bind, Except.bind]
          rw [k2 _ (by simpa [drawing] using ho x)]
        rw [this]
        simp only [bind, Except.bind]
        rw [i5]
        simp
    · unfold DistNode at hdn
      rw [hk] at hdn
      exact hdn.elim
    · -- a measurement
      rcases rs with _ | ⟨r, rs⟩
      · simp at hlen
      have hidx : IdxOK (width h args) (groups h args x).flatten := ⟨hok.distinct, fun q hq => c.groups_lt hx hq⟩
      obtain ⟨pm1, m, p, v1, cf1, st1, k1, k2, k3, k4, k5⟩ := measure_step (prm := prm) (pm := pm) (req := none) hn hg hgarb hu
        (indices := (groups h args x).flatten) hidx hT hD ha (hrs r (by simp))
      obtain ⟨ops, results, cl', ms', b', cf', pm', st', us, i1, i2, i3, i4, i5, i6⟩ := ih hnd' hL' (rs := rs)
        (by simpa using hlen) (fun r hr => hrs r (by simp [hr])) hms k3 k5 hD.size
      obtain ⟨u, hu0, hu1, hmeas⟩ := draw_exists (b := ⟨width h args, v, arena⟩) ⟨hD.size, ha⟩ hidx
        (by
          have : Spec.totalProb (width h args) (fun c => v.getD c 0) = 1 := by rw [norm2_total hD.size, hT]
          show 0 < Spec.totalProb (width h args) (fun c => v.getD c 0)
          rw [this]
          norm_num) (k2 0 0)
      refine ⟨.measure (groups h args x).flatten none :: ops, some (m, p) :: results, (x, .bits m p) :: cl', ms', b', cf', pm',
        st', fun y => if y = x then u else us y, by simpa using i1, ?_, .cons k1 k4 k5.manager i3, ?_, ?_, i6⟩
      · intro y
        show 0 < (if y = x then u else us y) ∧ (if y = x then u else us y) < 1
        split
        · exact ⟨hu0, hu1⟩
        · exact i2 y
      · intro cl sent tail
        rw [List.foldlM_cons]
        have hpb : indicesToPb (.tup (groups h args x).flatten) = .ok (groups h args x).flatten :=
          C58_indices fun i hi => by have := hidx.lt i hi; omega
        have : distFeed h ⟨ms, cl, sent, (some (m, p) :: results).map asReply ++ tail⟩ (groups h args x) (wires h args x) x
            = .ok ⟨ms, cl ++ [(x, .bits m p)], sent ++ [.op (.measure (groups h args x).flatten none)],
              results.map asReply ++ tail⟩ := by
          unfold distFeed
          simp only [hk, hpb, bind, Except.bind, List.map_cons, asReply, List.cons_append, ask]
        rw [this]
        simp only [bind, Except.bind]
        rw [i4]
        simp
      · intro cl
        rw [List.foldlM_cons]
        have : nodeFeed h (drawing orc fun y => if y = x then u else us y) ⟨⟨width h args, v, arena⟩, ms, cl⟩ (groups h args x)
            (wires h args x) x = .ok ⟨⟨width h args, v1, v⟩, ms, cl ++ [(x, .bits m p)]⟩ := by
          unfold nodeFeed
          simp only [hk, drawing, if_true, hmeas, bind, Except.bind]
        rw [this]
        simp only [bind, Except.bind]
        rw [feed_draws (us' := us) L (by
          intro y hy
          exact if_neg (by rintro rfl; exact hxL hy)), i5]
        simp
    · unfold DistNode at hdn
      rw [hk] at hdn
      exact hdn.elim

end

end QIP
