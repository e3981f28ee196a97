import Verif.Lemmas.DistBornRun

/-!
# C98: joint probabilities of the measurements of a run on the distributed backend
-/

namespace QIP.Props

open QIP QIP.Spec Heap MeasureTheory

/-- C98 (partial: something is fed (C84); swaps, controlled gates and measurements (C69, C66); connections arrived (C64);
accumulators 0 (C24)): `run` with the distributed backend on a manager with enough free workers, if the random numbers drawn
by the manager and by the workers are independent and uniform.  Whatever the schedule of the processes, the number of workers
and the size of messages, the probability that every measurement `x` reports the outcome `o x` is given by Born's rule for the
whole circuit. -/
theorem C98_joint_partial {h : Heap} {env args : List Nat} (c : Circuit h env args)
    (hok : ∀ x, Reach h args x → NodeOK h args x ∧ DistNode h x) {feed : List (List Nat × List ℂ)} (hf : FeedOK h args feed)
    (hdef : ∀ q ∈ leaves h args, q ∉ (feed.map (·.1)).flatten → DefaultOK h q) (hsome : SomeFed h args feed)
    (hn : width h args ≤ 30) (hnorm : Spec.totalProb (width h args) (startAmp h args feed) = 1) {strict : Bool}
    (hstr : strict = true → ∀ q ∈ leaves h args, q ∈ (feed.map (·.1)).flatten) {ms : MsTable} (hms : CacheOK h args ms)
    {e : Env} (he : EnvOK h args e) {workers : List Wkr} (hw : ∃ S, List.Subperm S workers ∧ Enough (width h args) S)
    (handle : String) (o : Nat → Nat) :
    ∃ setup placed rest, placeWorkers (width h args) workers = .ok (placed, rest) ∧
      (∀ p ∈ placed, ∀ arena, ∃ b, workerInit (width h args) setup p arena = .ok b) ∧
      (∀ results r, distRun h ms args (feed.map asFeed) strict none e.pick e.shuffle (some handle) results = .ok r →
        r.setup = setup) ∧
      ∀ prm C M pm cf, JobParams placed prm C M → JobStart (width h args) setup placed pm cf →
        (∀ p ∈ placed, ∀ w c, ((prm w).sched c).Perm (List.range (p.out.2 - p.out.1))) →
        (∀ w c, (prm w).garbage c = 0) →
        jobLaw (distReports h ms args feed strict e handle (placed.map Placed.wid) prm cf o)
          = ENNReal.ofReal (jointProb h args feed o) := by
  obtain ⟨V, c⟩ := c.ctx
  obtain ⟨deps, d1, d2, hrun⟩ := distRun_spec c hf hdef e.pick e.shuffle he.shuffle
  have hfed := allFeed_ok c hf d1 d2 hdef hsome
  obtain ⟨setup, placed, rest, v, s1, s2, -, s4, s5, -, K, N, s7⟩ := C84_setup_partial hn hfed hw
  refine ⟨setup, placed, rest, s2, s4, ?_, ?_⟩
  · intro results r hr
    rw [hrun _ _ _ _ hstr, s1] at hr
    simp only [bind, Except.bind] at hr
    split at hr
    · cases hr
    · injection hr with hr
      rw [← hr]
  intro prm C M pm cf hprm hstart hsched hgarb
  obtain ⟨hg, hD⟩ := s7 prm C M pm cf hprm hstart
  have hv : v = (List.range (2 ^ width h args)).map (startAmp h args feed) := by
    have h1 := s5 e.arena
    rw [makeState_allFeed c hf d1 d2 hdef e.arena] at h1
    injection h1 with h1
    exact (BState.mk.inj h1).2.1.symm
  have hamp : ∀ r < 2 ^ width h args, v.getD r 0 = ((1 : ℝ) : ℂ) * startAmp h args feed r := by
    intro r hr
    simp [hv, hr]
  have hT' : Spec.totalProb (width h args) (fun c => v.getD c 0) = 1 := by
    rw [totalProb_scale hamp, hnorm]
    norm_num
  have hT : norm2 v = 1 := by rw [← norm2_total hD.size, hT']
  have hL : ∀ x ∈ needed h args, Reach h args x ∧ NodeOK h args x ∧ DistNode h x := by
    intro x hx
    have := (mem_needed c.wf c.vargs).1 hx
    exact ⟨this, hok x this⟩
  have hnd : (needed h args).Nodup := (needed_asc h args).imp fun h => Nat.ne_of_lt h
  have hC : Counted K 0 cf := by
    intro i hi
    have : (i, i) ∈ placed.map Placed.wid := (hg.mem _).2 ⟨hi, hi⟩
    obtain ⟨p, hp, hpw⟩ := List.mem_map.1 this
    obtain ⟨arena, b, -, -, h3⟩ := hstart.workers p hp
    rw [hpw] at h3
    exact ⟨_, h3, rfl⟩
  have hev : distReports h ms args feed strict e handle (placed.map Placed.wid) prm cf o
      =ᵐ[jobLaw] {ω | Cells (width h args) N K ω ((needed h args).map (toStep h args o)) v 0 0} := by
    filter_upwards [jobLaw_inside] with ω hω
    have hg' : GridOK (drawnBy prm ω) K N C M (placed.map Placed.wid) :=
      ⟨hg.posK, hg.posN, hg.posC, hg.posM, hg.size, hg.chunk, hg.inflight, hg.nodup, hg.mem, hg.regs_nodup, hg.regs⟩
    have key := reports_iff c hn hg' (sched_grid s2 hprm hg hsched) hgarb hω (o := o) (needed h args) hnd hL hms (cl := [])
      (by simp) (sent := []) (j := 0) hT hD hC
    refine propext (Iff.trans ?_ key)
    constructor
    · rintro ⟨r, ops, results, cf', h1, h2, h3, h4⟩
      rw [hrun _ _ _ _ hstr, s1] at h1
      simp only [bind, Except.bind] at h1
      split at h1
      · cases h1
      · next acc hacc =>
        injection h1 with h1
        subst h1
        exact ⟨ops, results, acc, cf', hacc, by simpa using h2, h3, fun x hx hk => h4 x (mem_measures.2 ⟨hx, hk⟩)⟩
    · rintro ⟨ops, results, acc, cf', h1, h2, h3, h4⟩
      refine ⟨⟨handle, acc.classic, acc.ms, width h args, setup, acc.sent⟩, ops, results, cf', ?_, by simpa using h2, h3,
        fun x hx => h4 x (mem_measures.1 hx).1 (mem_measures.1 hx).2⟩
      rw [hrun _ _ _ _ hstr, s1]
      simp only [bind, Except.bind, h1]
  rw [measure_congr hev, cells_law hD.cover _ ?_ v hD.size hT']
  · congr 1
    have := weight_branch c hn o (needed h args) hL hD.size hT' hamp
    rw [hnorm, one_mul] at this
    unfold jointProb
    rw [this, hnorm, div_one]
  · intro b hb
    obtain ⟨x, hx, rfl⟩ := List.mem_map.1 hb
    obtain ⟨h1, h2, h3⟩ := hL x hx
    exact toStep_ok c hn h1 h2 h3

/-! ## Example -/

theorem xors_joint : jointProb xors [4] [([0], [3 / 5, 4 / 5])] (fun _ => 2) = 16 / 25 := by
  obtain ⟨i0, i1, i3, i4, k0, k1, k3, k4, n0, n1, n3, n4, d0, d1⟩ := xors_facts
  obtain ⟨e1, w2, w3, g0, g1, g3, g4, w0, w1⟩ := xors_wires
  unfold jointProb
  rw [xors_total, div_one, e1, w3]
  unfold totalProb branch
  have hp : ∀ (v : Nat → ℂ) (r : Nat), r < 4 → project 2 [0, 1] 2 v r = if r = 2 then v r else 0 := by
    intro v r hr
    unfold project
    have h1 : r = 0 ∨ r = 1 ∨ r = 2 ∨ r = 3 := by omega
    rcases h1 with rfl | rfl | rfl | rfl
    · rw [show subIndex 2 (inOrder 2 [0, 1]) 0 = 0 by decide]
    · rw [show subIndex 2 (inOrder 2 [0, 1]) 1 = 1 by decide]
    · rw [show subIndex 2 (inOrder 2 [0, 1]) 2 = 2 by decide]
    · rw [show subIndex 2 (inOrder 2 [0, 1]) 3 = 3 by decide]
  have hs : startAmp xors [4] [([0], [3 / 5, 4 / 5])] 3 = 4 / 5 := by
    simp [startAmp, w2, w3, w0, w1, startVec, d1, n1, subIndex, qbit, bitsVal]
    rw [show Nat.testBit 3 1 = true by decide]
    simp
  have hc : ∀ v : Nat → ℂ, gateApply 2 (.c .not) [[0], [1]] v 2 = v 3 := by
    intro v
    have hf : (Finset.range 4).filter (fun c => AgreeOff 2 [1] 2 c) = {2, 3} := by decide
    have q1 : qbit 2 2 1 = false := by decide
    have q2 : qbit 2 3 1 = true := by decide
    have q3 : qbit 2 2 0 = true := by decide
    simp [gateApply, apply1, hf, gateU, q1, q2, q3]
  simp only [List.foldl_cons, List.foldl_nil, branchStep, k0, k1, k3, k4, nodeApply, g3, g4, List.flatten_cons,
    List.flatten_nil, List.append_nil]
  rw [show (2 : Nat) ^ 2 = 4 by norm_num]
  simp [Finset.sum_range_succ, hp, hc, hs]
  norm_num

/-- The example of C92 on five workers: the measurement of `a` and `a XOR 1` reports 1 and 0 with probability 16/25. -/
example : ∃ (placed : List Placed) (prm : Wid → WParam) (cf : Cfg Pid NMsg NLoc) (e : Env),
    jobLaw (distReports xors (fun _ => none) [4] [([0], [3 / 5, 4 / 5])] false e "job" (placed.map Placed.wid) prm cf
      fun _ => 2) = ENNReal.ofReal (16 / 25) := by
  obtain ⟨i0, i1, i3, i4, k0, k1, k3, k4, n0, n1, n3, n4, d0, d1⟩ := xors_facts
  obtain ⟨w1, w2, w3, g0, g1, g3, g4, -⟩ := xors_wires
  have he : EnvOK xors [4] ⟨fun _ => 0, id, fun x => ⟨List.range (2 ^ width xors [4]),
    (faCounters (width xors [4]) ((groups xors [4] x).getD 0 []) ((groups xors [4] x).getD 1 [])), fun _ => 0, 0, 0⟩,
    List.replicate (2 ^ width xors [4]) 0⟩ := ⟨fun _ => .refl _, fun _ => .refl _, fun _ => .refl _, by simp⟩
  obtain ⟨setup, placed, rest, s1, s2, -, s3⟩ := C98_joint_partial xors_circuit xors_ok (feed := [([0], [3 / 5, 4 / 5])])
    ⟨by simp, by simp [w2], by simp [n0]⟩ (by
      intro q hq _
      rw [w2] at hq
      unfold DefaultOK
      simp only [List.mem_cons, List.not_mem_nil, or_false] at hq
      rcases hq with rfl | rfl <;> simp [d0, d1, n1]) (.inl (by simp)) (by rw [w3]; norm_num) xors_total (strict := false)
    (by simp) (ms := fun _ => none) (fun _ _ _ _ _ m hm => by cases hm) he (workers := fiveWorkers) (by rw [w3]; exact five_enough) "job"
    (fun _ => 2)
  obtain ⟨prm, c, h1, h2, h3, h4, -⟩ := job_exists s1 s2 (.done (.ok none))
  exact ⟨placed, prm, c, _, by rw [s3 prm 1 2 _ c h1 h2 h3 h4, xors_joint]⟩

end QIP.Props
