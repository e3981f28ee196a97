import Verif.Lemmas.FeedTwice
import Verif.Props.RunMore
import Verif.Props.Continue

/-!
# Feeds that do not fit: C120
-/

namespace QIP.Props

open QIP Spec Heap

/-- **C120**: feeding anything but a vector, or a vector with too few entries for the qubits it is fed to, makes `run` raise
IndexError or TypeError, the latter only if something that is no vector is fed.  So does a default vector with too few
entries, of a qubit that is not fed. -/
theorem C120_short {h : Heap} {env args : List Nat} (c : Circuit h env args) (ms : MsTable)
    {feed : List (List Nat × InitState)} (hmem : ∀ q ∈ (feed.map (·.1)).flatten, q ∈ leaves h args)
    (hbad : (∃ kv ∈ feed, ¬ FeedFits (kv.1.map h.n).sum kv.2) ∨
      ∃ q ∈ leaves h args, q ∉ (feed.map (·.1)).flatten ∧ ShortDefault h q)
    {e : Env} (he : ∀ l, (e.shuffle l).Perm l) :
    ∃ err, run h ms args feed false none e.pick e.shuffle e.orc e.arena = .error err ∧
      (err = .indexError ∨ err = .typeError ∧ ∃ kv ∈ feed, ∃ k, kv.2 = .int k) := by
  obtain ⟨V, c⟩ := c.ctx
  obtain ⟨deps, hdp, hr⟩ := run_pre c e.pick e.shuffle he
  have hf : ∃ f ∈ withDefaults h feed deps, ¬ FeedFits (f.1.map h.n).sum f.2 := by
    rcases hbad with ⟨kv, hkv, hb⟩ | ⟨q, hq, hnf, l, hd, hl⟩
    · exact ⟨kv, List.mem_append_left _ hkv, hb⟩
    · refine ⟨([q], .vec l), List.mem_append_right _ (List.mem_flatMap.2 ⟨q, hdp.mem_iff.2 hq, ?_⟩), ?_⟩
      · unfold defaultFeed
        rw [if_neg hnf]
        rcases hd with hd | hd <;> rw [hd] <;> simp
      · simp only [FeedFits, List.map_cons, List.map_nil, List.sum_cons, List.sum_nil, Nat.add_zero]
        omega
  obtain ⟨f, hf, hb⟩ := hf
  obtain ⟨err, h1, h2⟩ := runPre_unfit c hmem hdp hf hb e.arena
  refine ⟨err, ?_, h2⟩
  rw [hr, h1]
  rfl

/-- Two entries for a register of two qubits. -/
example : ∃ err, run demo (fun _ => none) [5] [([0], .vec [1, 0])] false none demoEnv.pick demoEnv.shuffle demoEnv.orc
    demoEnv.arena = .error err ∧ (err = .indexError ∨ err = .typeError ∧ ∃ kv ∈ [([0], InitState.vec [1, 0])], ∃ k, kv.2 = .int k) :=
  C120_short demo_circuit _ (by simp [demo_leaves]) (Or.inl ⟨_, List.mem_singleton.2 rfl, by simp [FeedFits, demo_n.1]⟩)
    demoEnv_ok.shuffle

/-- **C120**: entries of fed vectors beyond the size of the qubits are never read: `run` does the same without them. -/
theorem C120_long {h : Heap} {env args : List Nat} (c : Circuit h env args) (ms : MsTable)
    (feed : List (List Nat × InitState)) {e : Env} (he : ∀ l, (e.shuffle l).Perm l) :
    run h ms args feed false none e.pick e.shuffle e.orc e.arena
      = run h ms args (cutFeed h feed) false none e.pick e.shuffle e.orc e.arena := by
  by_cases hmem : ∀ q ∈ (feed.map (·.1)).flatten, q ∈ leaves h args
  · obtain ⟨V, c⟩ := c.ctx
    obtain ⟨deps, hdp, hr⟩ := run_pre c e.pick e.shuffle he
    rw [hr, hr, runPre_cut c hmem hdp]
  · push Not at hmem
    obtain ⟨q, hq, hl⟩ := hmem
    rw [C83_inner_false c ms hq hl none he, C83_inner_false c ms (by rw [keys_cutFeed]; exact hq) hl none he]

/-- **C120** (partial: circuits as in C35): `run` succeeds exactly if only inputs of the circuit are fed, only vectors are
fed, and all of them and the default vectors of the other inputs are long enough.  Longer vectors are accepted as well (see
`C120_long_false`), and so are qubits fed twice (see `C120_twice_false`). -/
theorem C120_accepts_partial {h : Heap} {env args : List Nat} (c : Circuit h env args)
    (hok : ∀ x, Reach h args x → NodeOK h args x) (hm : ∀ x, Reach h args x → NoMeasure h args x)
    (feed : List (List Nat × InitState)) {e : Env} (he : EnvOK h args e) :
    (∃ r, run h (fun _ => none) args feed false none e.pick e.shuffle e.orc e.arena = .ok r) ↔
      (∀ q ∈ (feed.map (·.1)).flatten, q ∈ leaves h args) ∧ (∀ kv ∈ feed, FeedFits (kv.1.map h.n).sum kv.2) ∧
        ∀ q ∈ leaves h args, q ∉ (feed.map (·.1)).flatten → ¬ ShortDefault h q := by
  constructor
  · rintro ⟨r, hr⟩
    have hmem : ∀ q ∈ (feed.map (·.1)).flatten, q ∈ leaves h args := by
      intro q hq
      by_contra hl
      rw [C83_inner_false c _ hq hl none he.shuffle] at hr
      cases hr
    have hno := fun hbad => C120_short c (fun _ => none) hmem hbad he.shuffle
    rw [hr] at hno
    refine ⟨hmem, fun kv hkv => ?_, fun q hq hnf hs => ?_⟩
    · by_contra hb
      obtain ⟨err, h1, -⟩ := hno (Or.inl ⟨kv, hkv, hb⟩)
      cases h1
    · obtain ⟨err, h1, -⟩ := hno (Or.inr ⟨q, hq, hnf, hs⟩)
      cases h1
  · rintro ⟨hmem, hfit, hdef⟩
    obtain ⟨V, c⟩ := c.ctx
    obtain ⟨deps, hdp, hr⟩ := run_pre c e.pick e.shuffle he.shuffle
    obtain ⟨st, h1, h2⟩ := runPre_fits c hmem hdp (by
      intro f hf
      rcases List.mem_append.1 hf with h3 | h3
      · exact hfit f h3
      · obtain ⟨q, hq, hfq⟩ := List.mem_flatMap.1 h3
        unfold defaultFeed at hfq
        split at hfq
        · simp at hfq
        · rename_i hnf
          have hs := hdef q (hdp.mem_iff.1 hq) hnf
          unfold ShortDefault at hs
          push Not at hs
          split at hfq
          · simp at hfq
          · split at hfq
            · rw [List.mem_singleton.1 hfq]; simp [FeedFits]
            · simp at hfq
          · rename_i l hd
            rw [List.mem_singleton.1 hfq]
            simpa [FeedFits] using hs l (Or.inl hd)
          · rename_i l hd
            rw [List.mem_singleton.1 hfq]
            simpa [FeedFits] using hs l (Or.inr hd)) e.arena
    have hL : ∀ x ∈ needed h args, Reach h args x ∧ NodeOK h args x := by
      intro x hx
      have := (mem_needed c.wf c.vargs).1 hx
      exact ⟨this, hok x this⟩
    obtain ⟨k1, -⟩ := feedAll_spec c (oracleOK he) (needed h args) hL (st := ⟨⟨width h args, st, e.arena⟩, fun _ => none, []⟩)
      ⟨rfl, ⟨h2, he.arena⟩, cache_fresh h args⟩
    obtain ⟨st', hst⟩ := k1 fun x hx => hm x (hL x hx).1
    rw [hr, h1]
    exact ⟨_, by simp only [bind, Except.bind] at hst ⊢; rw [hst]⟩

/-- An int in place of a vector; a vector that fits. -/
example : (¬ ∃ r, run demo (fun _ => none) [5] [([0], .int 2)] false none demoEnv.pick demoEnv.shuffle demoEnv.orc demoEnv.arena = .ok r) ∧
    ∃ r, run demo (fun _ => none) [5] [([0], .vec [0, 0, 1, 0])] false none demoEnv.pick demoEnv.shuffle demoEnv.orc demoEnv.arena
      = .ok r := by
  constructor
  · rw [C120_accepts_partial demo_circuit demo_ok demo_nomeasure _ demoEnv_ok]
    simp [FeedFits]
  · rw [C120_accepts_partial demo_circuit demo_ok demo_nomeasure _ demoEnv_ok]
    have : demo.default 1 = some (.int 1) := rfl
    simp [FeedFits, demo_leaves, demo_n.1, ShortDefault, this]

/-! ## What is accepted although it does not fit -/

/-- **C120 is false of the code**: a vector with more entries than the qubit has values is accepted, and the entries that
do not fit are dropped.  A qubit fed the vector of a larger register can so end up in no state at all. -/
theorem C120_long_false {h : Heap} {env : List Nat} {q : Nat} (c : Circuit h env [q]) (hl : h.inputs q = [])
    (hk : h.kind q = .qubit) (extra : List ℂ) {e : Env} (he : EnvOK h [q] e) :
    ∃ cl ms', run h (fun _ => none) [q] [([q], .vec (List.replicate (2 ^ h.n q) 0 ++ extra))] false none e.pick e.shuffle
      e.orc e.arena = .ok (List.replicate (2 ^ h.n q) 0, cl, ms') := by
  have c' := c
  obtain ⟨V, cx⟩ := c.ctx
  have hleaf : q ∈ leaves h [q] := (mem_leaves cx.wf cx.vargs).2 ⟨.arg (by simp), hl⟩
  have hre : ∀ x, Reach h [q] x → x = q := by
    intro x hx
    induction hx with
    | arg hx => simpa using hx
    | input _ h1 ih => subst ih; rw [hl] at h1; simp at h1
  have hw : width h [q] = h.n q := by
    have : leaves h [q] = [q] := by
      refine asc_ext (leaves_asc h [q]) (by simp) ?_
      intro x
      rw [mem_leaves cx.wf cx.vargs]
      constructor
      · rintro ⟨hx, -⟩; simp [hre x hx]
      · intro hx; rw [List.mem_singleton.1 hx]; exact ⟨.arg (by simp), hl⟩
    simp [width, this]
  rw [C120_long c _ _ he.shuffle]
  have hcut : cutFeed h [([q], .vec (List.replicate (2 ^ h.n q) 0 ++ extra))]
      = ([([q], List.replicate (2 ^ h.n q) 0)] : List (List Nat × List ℂ)).map asFeed := by
    simp [cutFeed, cut, asFeed, List.take_append]
  rw [hcut]
  obtain ⟨out, cl, ms', h1, h2, h3⟩ := C43_inputs_only c' (by simp [hl, hk])
    (feed := [([q], List.replicate (2 ^ h.n q) 0)]) ⟨by simp, by simpa using hleaf, by simp⟩ (by
      intro x hx hx'
      have := hre x ((mem_leaves cx.wf cx.vargs).1 hx).1
      simp [this] at hx') he
  refine ⟨cl, ms', ?_⟩
  rw [h1]
  congr 2
  apply List.ext_getElem?
  intro r
  by_cases hr : r < 2 ^ width h [q]
  · rw [h3 r hr, List.getElem?_replicate, if_pos (by rwa [← hw])]
    congr 1
    have hz : ∀ k : Nat, (List.replicate (2 ^ h.n q) (0 : ℂ)).getD k 0 = 0 := by
      intro k
      rw [List.getD_eq_getElem?_getD, List.getElem?_replicate]
      split <;> rfl
    rw [List.map_cons, List.prod_cons, hz, zero_mul, zero_mul]
  · rw [List.getElem?_eq_none (by omega), List.getElem?_eq_none (by rw [List.length_replicate, ← hw]; omega)]

/-- **C120 is false of the code**: a qubit may be fed twice.  Of the first vector, that for both qubits, only the entries
with the qubit fed again set are used, whatever the second vector says. -/
theorem C120_twice_false {h : Heap} {env : List Nat} {a b : Nat} (c : Circuit h env [a, b]) (hab : a < b)
    (ha : h.inputs a = [] ∧ h.kind a = .qubit ∧ h.n a = 1) (hb : h.inputs b = [] ∧ h.kind b = .qubit ∧ h.n b = 1)
    (v0 v1 v2 v3 w0 w1 : ℂ) {e : Env} (he : ∀ l, (e.shuffle l).Perm l) :
    ∃ cl ms', run h (fun _ => none) [a, b] [([a, b], .vec [v0, v1, v2, v3]), ([a], .vec [w0, w1])] false none e.pick e.shuffle
      e.orc e.arena = .ok ([v2 * w0, v3 * w0, v2 * w1, v3 * w1], cl, ms') := by
  obtain ⟨V, c⟩ := c.ctx
  obtain ⟨deps, hdp, hr⟩ := run_pre c e.pick e.shuffle he
  have hre : ∀ x, Reach h [a, b] x ↔ x = a ∨ x = b := by
    intro x
    constructor
    · intro hx
      induction hx with
      | arg hx => simpa using hx
      | input _ h1 ih => rcases ih with rfl | rfl <;> simp_all
    · intro hx; exact .arg (by simpa using hx)
  have hne : needed h [a, b] = [a, b] := by
    refine asc_ext (needed_asc h [a, b]) (by simp [hab]) ?_
    intro x
    rw [mem_needed c.wf c.vargs, hre]
    simp
  have hle : leaves h [a, b] = [a, b] := by
    unfold leaves
    rw [hne]
    simp [isLeaf, ha.1, hb.1]
  have hw : width h [a, b] = 2 := by simp [width, hle, ha.2.2, hb.2.2]
  have hwa : wires h [a, b] a = [0] := by
    rw [wires_leaf ha.1, ha.2.2]
    simp [offset, hle, Nat.not_lt.2 hab.le]
  have hwb : wires h [a, b] b = [1] := by
    rw [wires_leaf hb.1, hb.2.2]
    simp [offset, hle, hab, ha.2.2]
  have hmem : ∀ q ∈ (([([a, b], .vec [v0, v1, v2, v3]), ([a], .vec [w0, w1])] : List (List Nat × InitState)).map (·.1)).flatten,
      q ∈ leaves h [a, b] := by
    rw [hle]
    simp
  have hpre := runPre_any c hmem hdp e.arena
  have hwd : withDefaults h [([a, b], .vec [v0, v1, v2, v3]), ([a], .vec [w0, w1])] deps
      = [([a, b], .vec [v0, v1, v2, v3]), ([a], .vec [w0, w1])] := by
    unfold withDefaults
    have : ∀ q ∈ deps, defaultFeed h (([([a, b], .vec [v0, v1, v2, v3]), ([a], .vec [w0, w1])] :
        List (List Nat × InitState)).map (·.1)).flatten q = [] := by
      intro q hq
      have := hmem
      have hq' : q ∈ [a, b] := by rw [← hle]; exact hdp.mem_iff.1 hq
      unfold defaultFeed
      rw [if_pos]
      simp only [List.map_cons, List.map_nil, List.flatten_cons, List.mem_append]
      exact Or.inl hq'
    rw [List.flatMap_eq_nil_iff.2 this, List.append_nil]
  have hgen : genEditIndices [[0, 1], [0]] 2
      = .ok [(0, [0, 0]), (2, [0, 1]), (1, [1, 0]), (3, [1, 1]), (0, [2, 0]), (2, [2, 1]), (1, [3, 0]), (3, [3, 1])] := by
    rfl
  have hms : makeState 2 [[0, 1], [0]] [.vec [v0, v1, v2, v3], .vec [w0, w1]] 0 (2 ^ 2) e.arena
      = .ok ⟨2, [v2 * w0, v3 * w0, v2 * w1, v3 * w1], e.arena⟩ := by
    unfold makeState
    rw [hgen]
    simp [editStep, feedProduct, feedGet, bind, Except.bind, pure, Except.pure, List.zipIdx_cons, List.replicate_succ]
  rw [hwd, hw] at hpre
  simp only [List.map_cons, List.map_nil, hwa, hwb, List.flatten_cons, List.flatten_nil, List.append_nil, List.cons_append,
    List.nil_append] at hpre
  rw [hr, hpre, hms, hne]
  simp [nodeFeed, ha.2.1, hb.2.1, bind, Except.bind, pure, Except.pure]

/-- **C120**, what happens with any feed of vectors that are long enough, qubits fed more than once included (partial: circuits
as in C35): the run starts from the product of entries of the vectors, where a vector is read as if the qubits that are fed
again later were 1, and of the defaults of the other inputs. -/
theorem C120_repeated_partial {h : Heap} {env args : List Nat} (c : Circuit h env args)
    (hok : ∀ x, Reach h args x → NodeOK h args x) (hm : ∀ x, Reach h args x → NoMeasure h args x)
    {feed : List (List Nat × List ℂ)} (hmem : ∀ q ∈ (feed.map (·.1)).flatten, q ∈ leaves h args)
    (hfit : ∀ kv ∈ feed, 2 ^ (kv.1.map h.n).sum ≤ kv.2.length)
    (hdef : ∀ q ∈ leaves h args, q ∉ (feed.map (·.1)).flatten → DefaultOK h q) {e : Env} (he : EnvOK h args e) :
    ∃ out cl ms', run h (fun _ => none) args (feed.map asFeed) false none e.pick e.shuffle e.orc e.arena
        = .ok (out, cl, ms') ∧ out.length = 2 ^ width h args ∧
      ∀ r < 2 ^ width h args, out[r]? = some (applyAll (width h args) h args (needed h args) (startRepeat h args feed) r) := by
  obtain ⟨V, c⟩ := c.ctx
  obtain ⟨deps, hdp, hr⟩ := run_pre c e.pick e.shuffle he.shuffle
  have hkeys : (feed.map asFeed).map (·.1) = feed.map (·.1) := by simp [asFeed, List.map_map, Function.comp_def]
  have hwd : withDefaults h (feed.map asFeed) deps = (allFeed h feed deps).map asFeed := by
    unfold withDefaults allFeed
    rw [hkeys, List.map_append, List.map_flatMap]
    congr 2
    funext q
    exact defaultFeed_eq h _ q
  have hmem' : ∀ q ∈ ((feed.map asFeed).map (·.1)).flatten, q ∈ leaves h args := by rw [hkeys]; exact hmem
  have hlt := withDefaults_lt c hmem' hdp
  have hpre := runPre_any c hmem' hdp e.arena
  have hleaf : ∀ kv ∈ allFeed h feed deps, ∀ q ∈ kv.1, q ∈ leaves h args := by
    intro kv hkv
    exact withDefaults_leaf hmem' hdp (f := asFeed kv) (by rw [hwd]; exact List.mem_map.2 ⟨kv, hkv, rfl⟩)
  obtain ⟨hsize, hamp⟩ := repeatAmp_allFeed c hmem hdp hdef
  rw [hwd] at hpre hlt
  have hgs : (((allFeed h feed deps).map asFeed).map fun f => (f.1.map (wires h args)).flatten)
      = (allFeed h feed deps).map fun kv => (kv.1.map (wires h args)).flatten := by
    simp [asFeed, List.map_map, Function.comp_def]
  have hvs : ((allFeed h feed deps).map asFeed).map (·.2) = ((allFeed h feed deps).map (·.2)).map .vec := by
    simp [asFeed, List.map_map, Function.comp_def]
  rw [hgs] at hlt
  rw [hgs, hvs] at hpre
  have hstart : runPre h args (feed.map asFeed) false none deps e.arena
      = .ok ⟨width h args, (List.range (2 ^ width h args)).map (startRepeat h args feed), e.arena⟩ := by
    rw [hpre]
    by_cases hne : allFeed h feed deps = []
    · rw [hne] at hamp ⊢
      rw [List.map_nil, List.map_nil, List.map_nil, makeState_empty _ (by positivity)]
      congr 2
      apply List.ext_getElem?
      intro r
      by_cases hr : r < 2 ^ width h args
      · have h1 := initAmp_empty hr
        rw [List.getElem?_map, List.getElem?_range hr, Option.map_some]
        have h2 : startRepeat h args feed r = initAmp (width h args) [] [] r := by
          rw [← hamp r]
          simp [initAmp, repeatAmp]
        rw [h2, h1, List.getElem?_set]
        by_cases h0 : r = 0
        · simp [h0]
        · simp [h0, Ne.symm h0, hr]
      · rw [List.getElem?_eq_none (by simp; omega), List.getElem?_eq_none (by simp; omega)]
    · rw [makeState_repeat (vecs := (allFeed h feed deps).map (·.2)) (by simpa using hne) hlt ⟨rfl, by simp, ?_⟩]
      · congr 2
        apply List.map_congr_left
        intro r _
        rw [List.zip_map', hamp r]
      · rw [List.zip_map']
        intro gv hgv
        obtain ⟨kv, hkv, rfl⟩ := List.mem_map.1 hgv
        simp only
        rw [group_length c (hleaf kv hkv)]
        rcases List.mem_append.1 hkv with h1 | h1
        · exact hfit kv h1
        · exact (hsize kv h1).ge
  have hL : ∀ x ∈ needed h args, Reach h args x ∧ NodeOK h args x := by
    intro x hx
    have := (mem_needed c.wf c.vargs).1 hx
    exact ⟨this, hok x this⟩
  obtain ⟨k1, k2⟩ := feedAll_spec c (oracleOK he) (needed h args) hL
    (st := ⟨⟨width h args, (List.range (2 ^ width h args)).map (startRepeat h args feed), e.arena⟩, fun _ => none, []⟩)
    ⟨rfl, ⟨by simp, he.arena⟩, cache_fresh h args⟩
  obtain ⟨st', hst⟩ := k1 fun x hx => hm x (hL x hx).1
  obtain ⟨o1, cs, -, o2, -⟩ := k2 st' hst
  have hlen : st'.state.state.length = 2 ^ width h args := by rw [← o1.n]; exact o1.full.1
  refine ⟨st'.state.state, st'.classic, st'.ms, ?_, hlen, ?_⟩
  · rw [hr, hstart]
    simp only [bind, Except.bind] at hst ⊢
    rw [hst]
  · intro r hr'
    have h3 := steps_applyAll c hL (fun x hx => (hm x (hL x hx).1).1) o2 r hr'
    rw [applyAll_congr c _ hL (w := startRepeat h args feed) ?_ hr'] at h3
    · rw [← h3]
      simp only [BState.amp]
      rw [List.getElem?_eq_getElem (by omega), List.getD_eq_getElem _ _ (by omega)]
    · intro r hr
      simp [BState.amp, hr]

/-! ## Two qubits -/

/-- `a, b = Qubit(), Qubit()`. -/
noncomputable def twoCmds : List Cmd := [.qubit [] none none, .qubit [] none none]

noncomputable def two : Heap := (runCmds twoCmds (empty, [])).1

theorem two_built : Built two [0, 1] := by
  refine built_runCmds twoCmds _ Built.start ?_
  simp [twoCmds, cmdsOK, Cmd.args]

theorem two_facts : (two.inputs 0 = [] ∧ two.kind 0 = .qubit ∧ two.n 0 = 1) ∧
    two.inputs 1 = [] ∧ two.kind 1 = .qubit ∧ two.n 1 = 1 := ⟨⟨rfl, rfl, rfl⟩, rfl, rfl, rfl⟩

theorem two_circuit {args : List Nat} (ha : ∀ x ∈ args, x = 0 ∨ x = 1) : Circuit two [0, 1] args := by
  obtain ⟨⟨i0, k0, n0⟩, i1, k1, n1⟩ := two_facts
  have hre : ∀ x, Reach two args x → x = 0 ∨ x = 1 := by
    intro x hx
    induction hx with
    | arg hx => exact ha _ hx
    | input _ h1 ih => rcases ih with rfl | rfl <;> simp_all
  refine ⟨two_built, fun x hx => by simpa using ha x hx, ?_, ?_⟩
  · intro x hx
    rcases hre x hx with rfl | rfl <;> simp [SizeOK, *]
  · intro x hx is hk
    rcases hre x hx with rfl | rfl <;> simp [*] at hk

/-- Both qubits fed as 0, the first one twice: the result is the zero vector. -/
example : ∃ cl ms', run two (fun _ => none) [0, 1] [([0, 1], .vec [1, 0, 0, 0]), ([0], .vec [1, 0])] false none demoEnv.pick
    demoEnv.shuffle demoEnv.orc demoEnv.arena = .ok ([0, 0, 0, 0], cl, ms') := by
  have := C120_twice_false (two_circuit (args := [0, 1]) (by simp)) (by norm_num) two_facts.1 two_facts.2 1 0 0 0 1 0
    demoEnv_ok.shuffle
  simpa using this

/-- One qubit listed twice in a key of the feed: only the second half of the vector is used. -/
example : ∃ e : Env, ∃ out cl ms', run two (fun _ => none) [0] [([0, 0], .vec [1, 2, 3, 4])] false none e.pick
    e.shuffle e.orc e.arena = .ok (out, cl, ms') ∧ out[0]? = some 3 ∧ out[1]? = some 4 := by
  obtain ⟨⟨i0, k0, n0⟩, -⟩ := two_facts
  have c := two_circuit (args := [0]) (by simp)
  obtain ⟨V, cx⟩ := c.ctx
  have hre : ∀ x, Reach two [0] x → x = 0 := by
    intro x hx
    induction hx with
    | arg hx => simpa using hx
    | input _ h1 ih => subst ih; rw [i0] at h1; simp at h1
  have hne : needed two [0] = [0] :=
    needed_known cx (by simp) fun x => ⟨fun hx => by simp [hre x hx], fun hx => .arg hx⟩
  have hle : leaves two [0] = [0] := by
    unfold leaves
    rw [hne]
    simp [isLeaf, i0]
  have hw : width two [0] = 1 := by simp [width, hle, n0]
  have hwi : wires two [0] 0 = [0] := by
    rw [wires_leaf i0, n0]
    simp [offset, hle]
  have he : EnvOK two [0] ⟨fun _ => 0, id, fun x => ⟨List.range (2 ^ width two [0]),
      faCounters (width two [0]) ((groups two [0] x).getD 0 []) ((groups two [0] x).getD 1 []), fun _ => 0, 0, 0⟩,
      List.replicate (2 ^ width two [0]) 0⟩ :=
    ⟨fun _ => List.Perm.refl _, fun _ => List.Perm.refl _, fun _ => List.Perm.refl _, by simp⟩
  obtain ⟨out, cl, ms', h1, -, h3⟩ := C120_repeated_partial c
    (fun x hx => by
      rw [hre x hx]
      exact ⟨by simp [groups, i0], fun g d hk => by simp [k0] at hk, fun f hk => by simp [k0] at hk⟩)
    (fun x hx => by
      rw [hre x hx]
      exact ⟨by simp [k0], fun k hk => by simp [k0] at hk⟩)
    (feed := [([0, 0], [1, 2, 3, 4])]) (by simp [hle]) (by simp [n0]) (by simp [hle]) he
  refine ⟨_, out, cl, ms', h1, ?_, ?_⟩
  · rw [h3 0 (by simp), hne]
    simp [applyAll, nodeApply, k0, startRepeat, hle, hw, hwi, repeatAmp, lastBits, bitsVal, qbit]
  · rw [h3 1 (by simp [hw]), hne]
    simp [applyAll, nodeApply, k0, startRepeat, hle, hw, hwi, repeatAmp, lastBits, bitsVal, qbit]

/-- A qubit fed the value 2 of a register of two. -/
example : ∃ e : Env, EnvOK two [0] e ∧ ∃ cl ms', run two (fun _ => none) [0] [([0], .vec [0, 0, 1, 0])] false none e.pick
    e.shuffle e.orc e.arena = .ok ([0, 0], cl, ms') := by
  have he : EnvOK two [0] ⟨fun _ => 0, id, fun x => ⟨List.range (2 ^ width two [0]),
      faCounters (width two [0]) ((groups two [0] x).getD 0 []) ((groups two [0] x).getD 1 []), fun _ => 0, 0, 0⟩,
      List.replicate (2 ^ width two [0]) 0⟩ :=
    ⟨fun _ => List.Perm.refl _, fun _ => List.Perm.refl _, fun _ => List.Perm.refl _, by simp⟩
  refine ⟨_, he, ?_⟩
  have := C120_long_false (two_circuit (args := [0]) (by simp)) two_facts.1.1 two_facts.1.2.1 [1, 0] he
  rw [two_facts.1.2.2] at this
  simpa [List.replicate_succ] using this

end QIP.Props
