import Verif.Props.Job
import Verif.Props.DistReduce
import Verif.Props.Probs
import Verif.Props.Top

/-!
# C89: the distribution of a measurement, on the distributed backend
-/

namespace QIP.Props

open QIP QIP.Spec

variable {n K N C M : Nat} {prm : Wid → WParam} {ws : List Wid} {st : Wid → Wid → Nat} {v : List ℂ} {indices : List Nat}
  {pm : MProg} {c : Cfg Pid NMsg NLoc}

theorem probsProg_ok (hn : n ≤ 31) (hIdx : IdxOK n indices) {topK : Int} (hk : -2 ^ 31 ≤ topK ∧ topK ≤ 2048)
    (h0 : topK = 0 → indices.length ≤ 11) :
    probsProg ws indices topK = .ok (sendMeasureTop indices (if topK = 0 then 2 ^ indices.length else topK) ws) := by
  have hi : ∀ i ∈ indices, i < 2 ^ 31 := fun i hi => by have := hIdx.lt i hi; omega
  have hle : (if topK = 0 then 2 ^ indices.length else topK) ≤ 2048 ∧
      -2 ^ 31 ≤ (if topK = 0 then 2 ^ indices.length else topK) := by
    split
    · next h =>
      have : (2 : Int) ^ indices.length ≤ 2 ^ 11 := by
        exact_mod_cast Nat.pow_le_pow_right (by norm_num) (h0 h)
      have : (0 : Int) < 2 ^ indices.length := by positivity
      constructor <;> linarith
    · exact ⟨hk.2, hk.1⟩
  unfold probsProg
  simp only [C58_indices hi, bind, Except.bind]
  rw [if_neg (by push Not; exact ⟨hle.2, by linarith [hle.1]⟩)]
  rw [if_neg (by unfold maxTopK; linarith [hle.1])]

/-- C89 (partial: a job on one worker, at most eleven measured qubits, all outcomes asked for (C21)): whatever the schedule,
every outcome is returned once, with its probability in the state of the job and no error, in decreasing order of probability.
The state does not change. -/
theorem C89_one_worker_partial (hn : n ≤ 31) (hg : GridOK prm 1 N C M ws) (hIdx : IdxOK n indices) {topK : Int}
    (hk : topK = 0 ∧ indices.length ≤ 11 ∨ 2 ^ indices.length ≤ topK ∧ topK ≤ 2048)
    (hD : Distributed 1 N n v C M st pm c) :
    ∃ pm' items c', probsProg ws indices topK = .ok pm' ∧ AlwaysEnds (netAct prm) (startOp c pm') c' ∧
      Distributed 1 N n v C M st (.doneTop (.ok items)) c' ∧
      (items.map fun t => (t.1, t.2.1)).Perm ((List.range (2 ^ indices.length)).map fun m =>
        (m, outcomeProb n indices (fun c => v.getD c 0) m)) ∧
      (items.Pairwise fun a b => b.2.1 ≤ a.2.1) ∧ ∀ t ∈ items, t.2.2 = 0 := by
  have hpos : (0 : Int) < 2 ^ indices.length := by positivity
  set k : Int := if topK = 0 then 2 ^ indices.length else topK with hkdef
  have hk1 : 2 ^ indices.length ≤ k := by
    rw [hkdef]
    rcases hk with ⟨rfl, -⟩ | ⟨h, -⟩
    · simp
    · split
      · exact le_rfl
      · exact h
  have hk2 : 2 ^ indices.length ≤ k.toNat := by
    have : ((2 ^ indices.length : Nat) : Int) ≤ k := by exact_mod_cast hk1
    omega
  have hD' := hD.start (sendMeasureTop indices k ws)
  obtain ⟨f, hf, hR, hst⟩ := hD'.cfg
  have hN : N = 2 ^ n := by rw [← hD.cover, Nat.one_mul]
  have hpart : part N v 0 = v := by
    unfold part
    simp [hN, ← hD.size]
  obtain ⟨-, e1, e2, -⟩ := hR.grid 0 (by norm_num) 0 (by norm_num)
  rw [hpart] at e2
  obtain ⟨ms, ps, t1, t2, t3, t4⟩ := C21_top_k_partial hIdx k.toNat hk2 v hD.size
  have hhandle : handleOp (prm (0, 0)) (0, 0) (f (0, 0)) (.top indices k) = ((f (0, 0)).b, .reply (.tops (ms.zip ps))) := by
    simp only [handleOp, BState.measureProbabilities, e1, e2]
    rw [if_neg (by omega : k ≠ 0), if_neg (by omega : ¬ k < 0), t1]
    rfl
  obtain ⟨f', hrun, hc, -⟩ := query_runs (prm := prm) (C := C) (M := M) (st := st) (f := f) (o := .top indices k)
    (l := [(0, 0)]) (by simp) (fun confs => .doneTop (measureTop k.toNat (confs.map NMsg.items)))
    (by simp only [List.mem_singleton, forall_eq]; exact (hR.grid 0 (by norm_num) 0 (by norm_num)).1)
    (m := fun _ => .tops (ms.zip ps)) (by simpa using hhandle)
  have hR' := hR.congr hc
  simp only [List.map_cons, List.map_nil, NMsg.items] at hrun
  -- the report
  have hfst : ((ms.zip ps).map Prod.fst).Perm (List.range (2 ^ indices.length)) := by
    have := t3.map Prod.fst
    rwa [List.map_map, show (Prod.fst ∘ fun m => (m, outcomeProb n indices (fun c => v.getD c 0) m)) = id from rfl,
      List.map_id] at this
  have hmax : MaxOutcome (ms.zip ps) (2 ^ indices.length - 1) := by
    have hp : 0 < 2 ^ indices.length := by positivity
    constructor
    · exact ⟨_, t3.mem_iff.2 (List.mem_map.2 ⟨2 ^ indices.length - 1, List.mem_range.2 (by omega), rfl⟩)⟩
    · rintro i ⟨p, h⟩
      have := List.mem_range.1 (hfst.mem_iff.1 (List.mem_map.2 ⟨_, h, rfl⟩))
      simp only at this
      omega
  obtain ⟨mins, full, a1, a2, a3, a4, a5, a6, a7⟩ := C68_aggregate_partial (reports := [ms.zip ps]) (by simp)
    (by simp only [List.mem_singleton, forall_eq]; exact hfst.nodup_iff.2 List.nodup_range)
    (by simpa using hmax) k.toNat
  have hfull : (full.map Prod.fst).Perm (List.range (2 ^ indices.length)) := by
    rw [List.perm_ext_iff_of_nodup a4 List.nodup_range]
    intro i
    rw [a5, ← hfst.mem_iff]
    simp only [List.mem_singleton, exists_eq_left, Reports, List.mem_map, Prod.exists, exists_and_right, exists_eq_right]
  have htake : full.take k.toNat = full := by
    apply List.take_of_length_le
    have := hfull.length_eq
    simp only [List.length_map, List.length_range] at this
    omega
  rw [htake] at a3
  rw [a3] at hrun
  have hval : ∀ t ∈ full, t.2.1 = outcomeProb n indices (fun c => v.getD c 0) t.1 ∧ t.2.2 = 0 := by
    intro t ht
    obtain ⟨b1, b2⟩ := a7 t ht
    have hr := (a5 t.1).1 (List.mem_map.2 ⟨t, ht, rfl⟩)
    simp only [List.mem_singleton, exists_eq_left] at hr
    obtain ⟨mn, rfl⟩ : ∃ mn, mins = [mn] := List.length_eq_one_iff.1 (by simpa using a1.symm)
    constructor
    · rw [b1]
      unfold reportedProb
      simp only [List.map_cons, List.map_nil, List.sum_cons, List.sum_nil, add_zero]
      have hlt : t.1 < 2 ^ indices.length := List.mem_range.1 (hfull.mem_iff.1 (List.mem_map.2 ⟨t, ht, rfl⟩))
      rw [((t3.filter _).map _).sum_eq, List.filter_map, List.map_map]
      have : List.filter ((fun e : Nat × ℝ => decide (e.1 = t.1)) ∘ fun m => (m, outcomeProb n indices (fun c => v.getD c 0) m))
          (List.range (2 ^ indices.length)) = [t.1] := by
        apply List.Perm.eq_singleton
        rw [List.perm_ext_iff_of_nodup (List.nodup_range.filter _) (List.nodup_singleton _)]
        intro i
        simp only [List.mem_filter, List.mem_range, Function.comp, decide_eq_true_eq, List.mem_singleton]
        constructor
        · exact fun h => h.2
        · rintro rfl; exact ⟨hlt, rfl⟩
      rw [this]
      simp
    · rw [b2]
      simp [hiddenProb, hr]
  refine ⟨sendMeasureTop indices k ws, full, _, ?_, ?_, Distributed.of_ready hD.cover hD.size hR' hst _, ?_, a6,
    fun t ht => (hval t ht).2⟩
  · apply probsProg_ok hn hIdx
    · rcases hk with ⟨rfl, -⟩ | ⟨h, h'⟩
      · norm_num
      · exact ⟨by linarith, h'⟩
    · rcases hk with ⟨-, h⟩ | ⟨h, h'⟩
      · exact fun _ => h
      · intro h0; omega
  · rw [hf]
    refine Runs.alwaysEnds ?_ (hR'.stuck_at (Or.inr ⟨_, rfl⟩))
    unfold sendMeasureTop
    rw [diagWorkers_eq hg.nodup hg.mem]
    exact hrun
  · have : (full.map fun t => (t.1, t.2.1)) = (full.map Prod.fst).map fun m =>
        (m, outcomeProb n indices (fun c => v.getD c 0) m) := by
      rw [List.map_map]
      apply List.map_congr_left
      intro t ht
      simp only [Function.comp, (hval t ht).1]
    rw [this]
    exact hfull.map _

/-- C89 (negation of the full property): with more than one range, every diagonal worker reads amplitudes after the end of
its range, whatever is asked for; there is no result. -/
theorem C89_ranges_false (hn : n ≤ 31) (hg : GridOK prm K N C M ws) (hK : 2 ≤ K) (hIdx : IdxOK n indices) {topK : Int}
    (hk : -2 ^ 31 ≤ topK ∧ topK ≤ 2048) (h0 : topK = 0 → indices.length ≤ 11) (hD : Distributed K N n v C M st pm c) :
    ∃ pm' c' k, probsProg ws indices topK = .ok pm' ∧ AlwaysEnds (netAct prm) (startOp c pm') c' ∧
      c'.loc none = .mgr (.recv (0, 0) k) ∧
      ∀ i < K, ∃ s, c'.loc (some (i, i)) = .wkr s ∧ s.pc = .crashed := by
  have hD' := hD.start (sendMeasureTop indices (if topK = 0 then 2 ^ indices.length else topK) ws)
  obtain ⟨f, hf, hR, hst⟩ := hD'.cfg
  have hN : N < 2 ^ n := by
    rw [← hD.cover]
    have := hg.posN
    nlinarith
  obtain ⟨f', k, h1, h2, h3⟩ := ask_deadlock (prm := prm) (st := st) hg hR
    (o := .top indices (if topK = 0 then 2 ^ indices.length else topK))
    (fun confs => .doneTop (measureTop (if topK = 0 then (2 : Int) ^ indices.length else topK).toNat (confs.map NMsg.items)))
    (by
      intro i hi
      obtain ⟨-, e1, e2, -⟩ := hR.grid i hi i hi
      have hl : (part N v i).length < 2 ^ n := by
        rw [part_length (by rw [hD.size, hD.cover]) hi]
        exact hN
      have hne : (if topK = 0 then (2 : Int) ^ indices.length else topK) ≠ 0 := by
        split
        · positivity
        · assumption
      generalize (if topK = 0 then (2 : Int) ^ indices.length else topK) = k at hne ⊢
      have : ∃ e, (f (i, i)).b.measureProbabilities indices k = .error e := by
        unfold BState.measureProbabilities
        rw [if_neg hne]
        split
        · exact ⟨_, rfl⟩
        · unfold measureTopProbabilities
          rw [if_pos (Or.inr (by rw [e1, e2]; exact hl))]
          exact ⟨_, rfl⟩
      obtain ⟨e, he⟩ := this
      simp only [handleOp, he])
  refine ⟨_, netCfg (.recv (0, 0) k) f' (nbuf C M st noMsg noMsg), k, probsProg_ok hn hIdx hk h0, ?_, ?_, fun i hi => ⟨_, rfl, h1 i hi⟩⟩
  · rw [hf]
    refine Runs.alwaysEnds ?_ h2
    unfold sendMeasureTop
    rw [diagWorkers_eq hg.nodup hg.mem]
    exact h3
  · rfl

/-- C89 (negation of the full property): the distribution of twelve or more qubits is refused. -/
theorem C89_limit_false (hn : n ≤ 31) (hIdx : IdxOK n indices) (h12 : 12 ≤ indices.length) (ws : List Wid) :
    probsProg ws indices 0 = .ok (.doneTop (.error .exception)) ∨ probsProg ws indices 0 = .error .valueError := by
  have hi : ∀ i ∈ indices, i < 2 ^ 31 := fun i hi => by have := hIdx.lt i hi; omega
  have hle : (2 : Int) ^ 12 ≤ 2 ^ indices.length := by
    exact_mod_cast Nat.pow_le_pow_right (by norm_num) h12
  unfold probsProg
  simp only [C58_indices hi, bind, Except.bind, if_true]
  by_cases h : (2 : Int) ^ indices.length < 2 ^ 31
  · left
    rw [if_neg (by push Not; exact ⟨by linarith, h⟩)]
    rw [if_pos (by unfold maxTopK; linarith)]
  · right
    rw [if_pos (by rintro ⟨-, h'⟩; exact h h')]

-- one worker with `3/5 |00> + 4/5 |11>`, both qubits
example : ∃ pm' items c', probsProg [(0, 0)] [0, 1] 0 = .ok pm' ∧
    AlwaysEnds (netAct lonePrm) (startOp (netCfg (.done (.ok none)) loneSt (nbuf 1 2 (fun _ _ => 0) noMsg noMsg)) pm') c' ∧
    c'.loc none = .mgr (.doneTop (.ok items)) ∧ items.length = 4 := by
  obtain ⟨pm', items, c', h1, h2, h3, h4, -⟩ := C89_one_worker_partial (prm := lonePrm) (n := 2) (by norm_num) loneOK
    (indices := [0, 1]) (by constructor <;> simp) (Or.inl ⟨rfl, by simp⟩) (loneStart (.done (.ok none)))
  refine ⟨pm', items, c', h1, h2, h3.manager, ?_⟩
  simpa using h4.length_eq

-- the same state on four workers
example : ∃ pm' c' k, probsProg [(0, 0), (0, 1), (1, 0), (1, 1)] [1] 0 = .ok pm' ∧
    AlwaysEnds (netAct gridPrm) (startOp (netCfg (.done (.ok none)) bellSt (nbuf 1 2 (fun _ _ => 0) noMsg noMsg)) pm') c' ∧
    c'.loc none = .mgr (.recv (0, 0) k) := by
  obtain ⟨pm', c', k, h1, h2, h3, -⟩ := C89_ranges_false (prm := gridPrm) (n := 2) (by norm_num) gridOK (by norm_num)
    (indices := [1]) (by constructor <;> simp) (topK := 0) (by norm_num) (by simp) (bellStart (.done (.ok none)))
  exact ⟨pm', c', k, h1, h2, h3⟩

example : IdxOK 13 (List.range 12) ∧ 12 ≤ (List.range 12).length := ⟨⟨List.nodup_range, by simp; omega⟩, by simp⟩

end QIP.Props
