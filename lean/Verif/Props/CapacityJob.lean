import Verif.Props.Capacity
import Verif.Props.Jobs

/-!
# Whole jobs, with measurements, whose sockets hold a bounded number of messages (C112)
-/

namespace QIP.Props

open QIP QIP.Spec

/-- As `JobRuns`, with bounded sockets. -/
inductive JobRunsB (prm : Wid → WParam) (cap : Pid × Pid → Option Nat) (ws : List Wid) :
    List (JobOp × ℝ) → Cfg Pid NMsg NLoc → List (Option (Nat × ℝ)) → Cfg Pid NMsg NLoc → Prop
  | nil (c) : JobRunsB prm cap ws [] c [] c
  | cons {op r pm res ops results c c1 c2} (hop : opProg ws r op = .ok pm)
      (hrun : RunsB (netAct prm) cap (startOp c pm) c1) (hres : c1.loc none = .mgr (.done (.ok res)))
      (hrest : JobRunsB prm cap ws ops c1 results c2) : JobRunsB prm cap ws ((op, r) :: ops) c (res :: results) c2

variable {prm : Wid → WParam} {K N C M n : Nat} {ws : List Wid} {st : Wid → Wid → Nat} {v : List ℂ} {f : Wid → WSt}
  {cap : Pid × Pid → Option Nat} {pm : MProg} {c : Cfg Pid NMsg NLoc}

/-! ## The operations -/

theorem stepB_room {P' M' S' : Type} [DecidableEq P'] {act : P' → S' → Act P' M' S'} {cap : P' × P' → Option Nat} {p : P'}
    {c d : Cfg P' M' S'} (h : stepB act cap p c = some d) (q : P') :
    (d.buf (p, q)).length ≤ (c.buf (p, q)).length ∨ hasRoom (cap (p, q)) (d.buf (p, q)).length = true := by
  unfold stepB at h
  rcases ha : act p (c.loc p) with _ | ⟨q', m, s⟩ | ⟨q', k⟩ <;> rw [ha] at h <;> simp only at h
  · cases h
  · split at h
    · next hr =>
      injection h with h
      subst h
      by_cases hq : q = q'
      · subst hq
        right
        simpa using hr
      · left
        have : (p, q) ≠ (p, q') := by simpa using hq
        simp only [Function.update_of_ne this]
        exact Nat.le_refl _
    · cases h
  · rcases hb : c.buf (q', p) with _ | ⟨m, rest⟩ <;> rw [hb] at h <;> simp only at h
    · cases h
    injection h with h
    subst h
    left
    by_cases hq : (p, q) = (q', p)
    · rw [hq, hb]
      simp
    · simp only [Function.update_of_ne hq]
      exact Nat.le_refl _

theorem lift_runsB {rs : List (Option (Nat × ℝ))} {todo : List MProg} {c d : Cfg Pid NMsg NLoc}
    (h : RunsB (netAct prm) cap c d) : RunsB (jobAct prm) cap (liftCfg rs todo c) (liftCfg rs todo d) := by
  obtain ⟨t, ht⟩ := h
  induction t generalizing c with
  | nil =>
    simp only [execB, Option.some.injEq] at ht
    subst ht
    exact RunsB.refl _
  | cons p t ih =>
    rw [execB] at ht
    rcases hs : stepB (netAct prm) cap p c with _ | c1 <;> rw [hs] at ht <;> simp only at ht
    · cases ht
    exact (RunsB.single (stepB_of_room (lift_step (stepB_stepP hs)) fun q => stepB_room hs q)).trans (ih ht)

theorem job_runsB {ops : List (JobOp × ℝ)} {c c' : Cfg Pid NMsg NLoc} {results : List (Option (Nat × ℝ))}
    (h : JobRunsB prm cap ws ops c results c') {progs : List MProg}
    (hp : ops.mapM (fun o => opProg ws o.2 o.1) = .ok progs) (rs : List (Option (Nat × ℝ))) :
    RunsB (jobAct prm) cap
      (match progs with
        | [] => endCfg rs c
        | p :: todo => liftCfg rs todo (startOp c p)) (endCfg (rs ++ results) c') := by
  induction h generalizing progs rs with
  | nil c =>
    cases hp
    rw [List.append_nil]
    exact RunsB.refl _
  | @cons op r pm res ops results c c1 c2 hop hrun hres hrest ih =>
    rw [List.mapM_cons] at hp
    simp only [hop, bind, Except.bind, pure, Except.pure] at hp
    rcases hq : ops.mapM (fun o => opProg ws o.2 o.1) with e | todo
    · rw [hq] at hp; cases hp
    rw [hq] at hp
    injection hp with hp
    subst hp
    refine (lift_runsB hrun).trans ?_
    have := ih hq (rs ++ [res])
    rw [List.append_assoc] at this
    refine Eq.mp ?_ this
    congr 1
    cases todo with
    | nil =>
      refine cfg_ext ?_ rfl
      funext y
      rcases y with _ | y
      · simp [liftCfg, endCfg, hres, settle]
      · simp [liftCfg, endCfg]
    | cons q todo =>
      refine cfg_ext ?_ rfl
      funext y
      rcases y with _ | y
      · simp [liftCfg, startOp, hres, settle]
      · simp [liftCfg, startOp]

theorem kron_stepB (hpos : ∀ e, hasRoom (cap e) 1 = true) (hn : n ≤ 30) (hg : GridOK prm K N C M ws)
    (hsched : ∀ w c, ((prm w).sched c).Perm (List.range N)) {mats : List (Key × Mat ℂ)} (hop : OpOK n (.kron mats))
    (hD : Distributed K N n v C M st pm c) (r : ℝ)
    (hcg : ∀ i j, i < K → j < K → i ≠ j → hasRoom (cap (some (j, j), some (i, j))) (st (j, j) (i, j) + leftover N C M) = true)
    (hcs : ∀ i j, i < K → j < K → i ≠ j → hasRoom (cap (some (i, j), some (i, i))) (st (i, j) (i, i) + leftover N C M) = true) :
    ∃ pm' v' c' pm'', opProg ws r (.kron mats) = .ok pm' ∧ RunsB (netAct prm) cap (startOp c pm') c' ∧ Stuck (netAct prm) c' ∧
      Distributed K N n v' C M (afterSyncs K (leftover N C M) st 1) pm'' c' := by
  obtain ⟨pb, hpb, hmb⟩ := mats_wire hn hop
  obtain ⟨hk, -, hu⟩ := hop
  obtain ⟨f, hf, hR, hst⟩ := (hD.start (kronOps ws [mats])).cfg
  obtain ⟨b', f', hb, hl, hR', hst', hrun⟩ := ops_runB (prm := prm) (cap := cap) (ops := [mats]) hpos hg hsched
    (by
      intro mats' hmem
      rw [List.mem_singleton.1 hmem]
      exact hk)
    (arena := List.replicate (2 ^ n) 0) (by simp) (scheds := fun _ => List.range (2 ^ n)) (fun _ => List.Perm.refl _)
    hD.cover hD.size hR hst (by simpa using hcg) (by simpa using hcs)
  rw [← hf] at hrun
  refine ⟨sendKronprod mats ws, _, _, _, ?_, hrun, hR'.stuck, Distributed.of_ready hD.cover hl hR' hst' _⟩
  simp only [opProg, hpb, hmb, bind, Except.bind]

theorem measure_stepB (hpos : ∀ e, hasRoom (cap e) 1 = true) {indices : List Nat} {req : Option Int} (hn : n ≤ 30)
    (hg : GridOK prm K N C M ws) (hgarb : ∀ w c, (prm w).garbage c = 0)
    (hu : ∀ i c, 0 < (prm (i, i)).draw c ∧ (prm (i, i)).draw c < 1) (hop : OpOK n (.measure indices req))
    (hT : norm2 v = 1) (hD : Distributed K N n v C M st pm c) {r : ℝ} (hr : 0 < r ∧ r < 1)
    (hcs : ∀ i j, i < K → j < K → i ≠ j → hasRoom (cap (some (i, j), some (i, i))) (st (i, j) (i, i) + leftover N C M) = true) :
    ∃ pm' v' c' pm'', opProg ws r (.measure indices req) = .ok pm' ∧ RunsB (netAct prm) cap (startOp c pm') c' ∧
      Stuck (netAct prm) c' ∧
      Distributed K N n v' C M (scatterSt st K (leftover N C M)) pm'' c' := by
  have hIdx : IdxOK n indices := hop
  have hT' : Spec.totalProb n (fun c => v.getD c 0) = 1 := by rw [norm2_total hD.size, hT]
  obtain ⟨f, hf, hR, hst⟩ := (hD.start (sendMeasure indices r ws)).cfg
  obtain ⟨s, hs, m, hm, k, hk, h1, h2, h3, h4, f1, hR1, -, hrun⟩ := choose_runsB (prm := prm) (cap := cap) (st := st) hpos hg
    hIdx hD.cover hD.size hgarb hR (r := r) (by rw [hT']; exact hr.2.le)
  have hTs : 0 < Spec.totalProb n (sl N v s) := by
    have e := before_succ n N v s
    have hb : before n N v s < r := by
      cases s with
      | zero => simpa [before] using hr.1
      | succ j => exact h1 j (by omega)
    have : r ≤ before n N v (s + 1) := h2
    linarith
  have hp : 0 < outcomeProb n indices (fun c => v.getD c 0) m :=
    (cum_lt_pos hIdx hm (hu s k).1 (hu s k).2 hTs h3 h4).trans_le (outcome_part_le hD.cover hD.size hs m)
  have hp1 : outcomeProb n indices (fun c => v.getD c 0) m ≤ 1 := by
    rw [← hT', ← hIdx.sum_outcomeProb]
    exact Finset.single_le_sum (f := fun j => outcomeProb n indices (fun c => v.getD c 0) j)
      (fun j _ => outcomeProb_nonneg _ _ _ _) (Finset.mem_range.2 hm)
  obtain ⟨f2, hR2, -, hrun2⟩ := collapse_runsB (prm := prm) (cap := cap) hpos hg hIdx hD.cover hD.size hR1 hst hcs hm ⟨hp, hp1⟩
  rw [← hf] at hrun
  refine ⟨sendMeasure indices r ws, _, _, _, ?_, hrun.trans hrun2, hR2.stuck,
    Distributed.of_ready hD.cover (by simp [collapsedVec]) hR2 (stOK_scatter hst _ _) _⟩
  have : ∀ i ∈ indices, i < 2 ^ 31 := fun i hi => by have := hIdx.lt i hi; omega
  simp only [opProg, C58_indices this, bind, Except.bind]

/-- The kron products among the operations. -/
def kronCount (ops : List (JobOp × ℝ)) : Nat :=
  ops.countP fun o => match o.1 with
    | .kron _ => true
    | .measure _ _ => false

theorem counts_kron {i j : Nat} (hi : i < K) (hj : j < K) (hij : i ≠ j) (k : Nat) :
    afterSyncs K k st 1 (j, j) (i, j) = st (j, j) (i, j) + k ∧ afterSyncs K k st 1 (i, j) (i, i) = st (i, j) (i, i) + k := by
  rw [afterSyncs_gather hi hj hij, afterSyncs_scatter hi hj hij, Nat.one_mul]
  exact ⟨rfl, rfl⟩

theorem counts_measure {i j : Nat} (hi : i < K) (hj : j < K) (hij : i ≠ j) (k : Nat) :
    scatterSt st K k (j, j) (i, j) = st (j, j) (i, j) ∧ scatterSt st K k (i, j) (i, i) = st (i, j) (i, i) + k := by
  unfold scatterSt addSt
  exact ⟨if_neg (by rintro ⟨-, -, -, h, -⟩; exact h rfl), if_pos ⟨rfl, hi, rfl, hij, hj⟩⟩

theorem Distributed.acks_unique {v' : List ℂ} {st' : Wid → Wid → Nat} {pm' : MProg} (h : Distributed K N n v C M st pm c)
    (h' : Distributed K N n v' C M st' pm' c) : st = st' := by
  funext x y
  have := congrArg List.length (h.acks x y)
  rw [h'.acks, List.length_replicate, List.length_replicate] at this
  exact this.symm

/-- Room for the acknowledgements that `a` transfers towards the diagonal and `b` transfers from the diagonal leave. -/
def RoomFor (cap : Pid × Pid → Option Nat) (K : Nat) (st : Wid → Wid → Nat) (a b : Nat) : Prop :=
  ∀ i j, i < K → j < K → i ≠ j → hasRoom (cap (some (j, j), some (i, j))) (st (j, j) (i, j) + a) = true ∧
    hasRoom (cap (some (i, j), some (i, i))) (st (i, j) (i, i) + b) = true

theorem ops_stepsB (hn : n ≤ 30) (hg : GridOK prm K N C M ws) (hsched : ∀ w c, ((prm w).sched c).Perm (List.range N))
    (hgarb : ∀ w c, (prm w).garbage c = 0) (hu : ∀ i c, 0 < (prm (i, i)).draw c ∧ (prm (i, i)).draw c < 1)
    {ops : List (JobOp × ℝ)} (hops : ∀ o ∈ ops, OpOK n o.1 ∧ 0 < o.2 ∧ o.2 < 1)
    (hT : norm2 v = 1) (hD : Distributed K N n v C M st pm c) {arena : List ℂ}
    (ha : arena.length = 2 ^ n) :
    ∃ results b' c' pm' st', JobRuns prm ws ops c results c' ∧
      LocalJob ((ops.map Prod.fst).zip results) ⟨n, v, arena⟩ b' ∧ Distributed K N n b'.state C M st' pm' c' ∧
      (∀ i j, i < K → j < K → i ≠ j → st' (j, j) (i, j) = st (j, j) (i, j) + kronCount ops * leftover N C M ∧
        st' (i, j) (i, i) = st (i, j) (i, i) + ops.length * leftover N C M) ∧
      ∀ cap, (∀ e, hasRoom (cap e) 1 = true) →
        RoomFor cap K st (kronCount ops * leftover N C M) (ops.length * leftover N C M) →
        JobRunsB prm cap ws ops c results c' := by
  induction ops generalizing v st pm c arena with
  | nil => exact ⟨[], ⟨n, v, arena⟩, c, pm, st, .nil c, .nil _, hD, by simp [kronCount], fun _ _ _ => .nil c⟩
  | cons o ops ih =>
    obtain ⟨op, r⟩ := o
    obtain ⟨h1, h2, h3⟩ := hops (op, r) (by simp)
    cases op with
    | kron mats =>
      obtain ⟨pm', v', c', st', e1, e3, e4, e5, e6⟩ := kron_step (prm := prm) (pm := pm) hn hg hsched h1 hD ha r
      have hB : ∀ cap, (∀ e, hasRoom (cap e) 1 = true) → RoomFor cap K st (leftover N C M) (leftover N C M) →
          RunsB (netAct prm) cap (startOp c pm') c' ∧ st' = afterSyncs K (leftover N C M) st 1 := by
        intro cap hpos hroom
        obtain ⟨pm2, v2, c2, pm3, j1, j2, j3, j4⟩ := kron_stepB (prm := prm) (cap := cap) hpos hn hg hsched h1 hD r
          (fun i j hi hj hij => (hroom i j hi hj hij).1) (fun i j hi hj hij => (hroom i j hi hj hij).2)
        rw [e1] at j1
        injection j1 with j1
        subst j1
        have := e5.unique j2.runs j3
        subst this
        exact ⟨j2, e6.acks_unique j4⟩
      have hst' := (hB noCap (fun _ => rfl) fun _ _ _ _ _ => ⟨rfl, rfl⟩).2
      have hk : kronCount ((.kron mats, r) :: ops) = kronCount ops + 1 := by simp [kronCount]
      have hcount := fun i j (hi : i < K) (hj : j < K) (hij : i ≠ j) =>
        counts_kron (st := st) hi hj hij (leftover N C M)
      rw [← hst'] at hcount
      obtain ⟨results, b', c2, pm2, st2, i1, i2, i3, i4, i5⟩ := ih (fun o h => hops o (by simp [h])) (e4.trans hT) e6 hD.size
      refine ⟨none :: results, b', c2, pm2, st2, .cons e1 e5 e6.manager i1, .kron e3 i2, i3, ?_, ?_⟩
      · intro i j hi hj hij
        rw [(i4 i j hi hj hij).1, (i4 i j hi hj hij).2, (hcount i j hi hj hij).1, (hcount i j hi hj hij).2, hk,
          List.length_cons, Nat.succ_mul, Nat.succ_mul]
        omega
      · intro cap hpos hroom
        rw [hk, List.length_cons, Nat.succ_mul, Nat.succ_mul] at hroom
        refine .cons e1 (hB cap hpos fun i j hi hj hij => ?_).1 e6.manager (i5 cap hpos fun i j hi hj hij => ?_)
        · exact ⟨hasRoom_mono (hroom i j hi hj hij).1 (by omega), hasRoom_mono (hroom i j hi hj hij).2 (by omega)⟩
        · rw [(hcount i j hi hj hij).1, (hcount i j hi hj hij).2]
          exact ⟨hasRoom_mono (hroom i j hi hj hij).1 (by omega), hasRoom_mono (hroom i j hi hj hij).2 (by omega)⟩
    | measure indices req =>
      obtain ⟨pm', m, p, v', c', st', e1, e2, e3, e4, e5⟩ := measure_step (prm := prm) (pm := pm) hn hg hgarb hu h1 hT hD ha
        ⟨h2, h3⟩
      have hB : ∀ cap, (∀ e, hasRoom (cap e) 1 = true) → RoomFor cap K st 0 (leftover N C M) →
          RunsB (netAct prm) cap (startOp c pm') c' ∧ st' = scatterSt st K (leftover N C M) := by
        intro cap hpos hroom
        obtain ⟨pm2, v2, c2, pm3, j1, j2, j3, j4⟩ := measure_stepB (prm := prm) (cap := cap) hpos hn hg hgarb hu h1 hT hD
          ⟨h2, h3⟩ (fun i j hi hj hij => (hroom i j hi hj hij).2)
        rw [e1] at j1
        injection j1 with j1
        subst j1
        have := e4.unique j2.runs j3
        subst this
        exact ⟨j2, e5.acks_unique j4⟩
      have hst' := (hB noCap (fun _ => rfl) fun _ _ _ _ _ => ⟨rfl, rfl⟩).2
      have hk : kronCount ((.measure indices req, r) :: ops) = kronCount ops := by simp [kronCount]
      have hcount := fun i j (hi : i < K) (hj : j < K) (hij : i ≠ j) =>
        counts_measure (st := st) hi hj hij (leftover N C M)
      rw [← hst'] at hcount
      obtain ⟨results, b', c2, pm2, st2, i1, i2, i3, i4, i5⟩ := ih (fun o h => hops o (by simp [h])) e3 e5 hD.size
      refine ⟨some (m, p) :: results, b', c2, pm2, st2, .cons e1 e4 e5.manager i1, .measure e2 i2, i3, ?_, ?_⟩
      · intro i j hi hj hij
        rw [(i4 i j hi hj hij).1, (i4 i j hi hj hij).2, (hcount i j hi hj hij).1, (hcount i j hi hj hij).2, hk,
          List.length_cons, Nat.succ_mul]
        omega
      · intro cap hpos hroom
        rw [hk, List.length_cons, Nat.succ_mul] at hroom
        refine .cons e1 (hB cap hpos fun i j hi hj hij => ?_).1 e5.manager (i5 cap hpos fun i j hi hj hij => ?_)
        · exact ⟨hasRoom_mono (hroom i j hi hj hij).1 (by omega), hasRoom_mono (hroom i j hi hj hij).2 (by omega)⟩
        · rw [(hcount i j hi hj hij).1, (hcount i j hi hj hij).2]
          exact ⟨hasRoom_mono (hroom i j hi hj hij).1 (by omega), hasRoom_mono (hroom i j hi hj hij).2 (by omega)⟩

/-! ## A finished job stays as it is -/

/-- When the manager's thread has finished, nothing more happens: all workers have reported. -/
theorem fin_final {C0 g c' : Cfg Pid NMsg JLoc} (he : AlwaysEnds (jobAct prm) C0 g)
    (hidle : ∀ w, (∃ s, g.loc (some w) = .wkr s ∧ s.pc = .idle ∧ g.buf (some w, none) = []) ∨
      jobAct prm (some w) (C0.loc (some w)) = .halt) {t : List Pid} (h : exec (jobAct prm) t C0 = some c')
    {r : List (Option (Nat × ℝ))} (hr : c'.loc none = .fin r) : c' = g := by
  obtain ⟨-, l, hl⟩ := he
  obtain ⟨t', ht', -⟩ := hl t c' h
  rcases List.eq_nil_or_concat t' with rfl | ⟨s, x, rfl⟩
  · simpa [exec] using ht'
  exfalso
  rw [List.concat_eq_append, exec_append] at ht'
  rcases hs : exec (jobAct prm) s c' with _ | c1 <;> rw [hs] at ht' <;> simp only [Option.bind] at ht'
  · cases ht'
  simp only [exec] at ht'
  rcases hx : stepP (jobAct prm) x c1 with _ | c2 <;> rw [hx] at ht' <;> simp only at ht'
  · cases ht'
  injection ht' with ht'
  subst ht'
  have hmgr : c1.loc none = .fin r := by
    rw [exec_halt (p := none) hs (by rw [hr]; rfl), hr]
  cases x with
  | none => simp [stepP, hmgr, jobAct] at hx
  | some w =>
    rcases hidle w with ⟨s2, k1, k2, k3⟩ | hhalt
    · rcases hc1 : c1.loc (some w) with _ | _ | s1
      · simp [stepP, hc1, jobAct] at hx
      · simp [stepP, hc1, jobAct] at hx
      · obtain ⟨a1, a2⟩ := workerAct_idle (prm w) w s1
        unfold stepP at hx
        rw [hc1] at hx
        simp only [jobAct] at hx
        rcases hw : workerAct (prm w) w s1 with _ | ⟨q, m, s3⟩ | ⟨q, k⟩ <;> rw [hw] at hx <;> simp only at hx
        · cases hx
        · injection hx with hx
          subst hx
          simp only [Function.update_self] at k1
          injection k1 with k1
          subst k1
          have := a1 q m s3 hw k2
          subst this
          simp at k3
        · rcases hb : c1.buf (q, some w) with _ | ⟨m, rest⟩ <;> rw [hb] at hx <;> simp only at hx
          · cases hx
          injection hx with hx
          subst hx
          simp only [Function.update_self] at k1
          injection k1 with k1
          exact a2 q k hw m (k1 ▸ k2)
    · have hall : exec (jobAct prm) (t ++ s) C0 = some c1 := by
        rw [exec_append, h]
        exact hs
      have := exec_halt (p := some w) hall hhalt
      rw [stepP, this, hhalt] at hx
      cases hx

/-! ## Whole jobs -/

variable {groups : List (List Nat)} {vecs : List (List ℂ)} {workers rest : List Wkr} {placed : List Placed}
  {states : List PbState}

/-- The sockets between the workers can hold the acknowledgements that a job with these operations never reads.  Worker
`(i, j)`, not on the diagonal, gets them from `(j, j)`, to which it sends in every kron product; and it sends them to `(i, i)`,
from which it receives in every operation. -/
def JobRoom (cap : Pid × Pid → Option Nat) (placed : List Placed) (C M : Nat) (ops : List (JobOp × ℝ)) : Prop :=
  ∀ p ∈ placed, p.inp ≠ p.out →
    hasRoom (cap (some (p.wid.2, p.wid.2), some p.wid))
      (kronCount ops * (min ((p.inp.2 - p.inp.1 + C - 1) / C) M - 1)) = true ∧
    hasRoom (cap (some p.wid, some (p.wid.1, p.wid.1)))
      (ops.length * (min ((p.inp.2 - p.inp.1 + C - 1) / C) M - 1)) = true

theorem room_grid {st0 : Wid → Wid → Nat} (hpl : placeWorkers n workers = .ok (placed, rest)) (hprm : JobParams placed prm C M)
    (hg : GridOK prm K N C M (placed.map Placed.wid)) (hst : ∀ x y, st0 x y = 0) (ops : List (JobOp × ℝ)) :
    JobRoom cap placed C M ops ↔ RoomFor cap K st0 (kronCount ops * leftover N C M) (ops.length * leftover N C M) := by
  have hsz : ∀ p ∈ placed, p.inp.2 - p.inp.1 = N := by
    intro p hp
    rw [(grid_size hpl hprm hg hp).2]
    simp only [Nat.succ_mul, Nat.add_sub_cancel_left]
  have hdiag : ∀ p ∈ placed, p.inp = p.out ↔ p.wid.1 = p.wid.2 := by
    intro p hp
    obtain ⟨k, hk, hp'⟩ := place_grid hpl
    have hN : 0 < 2 ^ k := by positivity
    obtain ⟨-, -, e1, e2⟩ := grid_wid hN hp' hp
    rw [e1, e2]
    constructor
    · intro h
      exact Nat.eq_of_mul_eq_mul_right hN (Prod.mk.inj h).1
    · intro h
      rw [h]
  constructor
  · intro h i j hi hj hij
    obtain ⟨p, hp, hw⟩ := List.mem_map.1 ((hg.mem (i, j)).2 ⟨hi, hj⟩)
    have := h p hp (fun e => hij (by have := (hdiag p hp).1 e; rwa [hw] at this))
    rw [hsz p hp, hw] at this
    rw [hst, hst, Nat.zero_add, Nat.zero_add]
    exact this
  · intro h p hp hne
    have hm := (hg.mem p.wid).1 (List.mem_map.2 ⟨p, hp, rfl⟩)
    have := h p.wid.1 p.wid.2 hm.1 hm.2 (fun e => hne ((hdiag p hp).2 e))
    rw [hst, hst, Nat.zero_add, Nat.zero_add] at this
    rw [hsz p hp]
    exact this

/-- C112 (partial as `C88_job_partial`): whole jobs of gates and measurements on any enough free workers, whose manager goes on
with the next operation as soon as it has the answers.  Every socket can hold one message.  If the sockets between workers can
also hold the acknowledgements that are never read, every schedule ends, with the results and states of the local backend.  If
not, no schedule finishes the job: every one can only end in a deadlock. -/
theorem C112_job_partial (hn : n ≤ 30) (hfed : FedOK n groups vecs)
    (hnorm : Spec.totalProb n (initAmp n groups vecs) = 1)
    (hset : setupStates n groups (vecs.map .vec) = .ok states) (hpl : placeWorkers n workers = .ok (placed, rest))
    (hprm : JobParams placed prm C M) (hstart : JobStart n states placed pm c)
    (hsched : ∀ p ∈ placed, ∀ w c, ((prm w).sched c).Perm (List.range (p.out.2 - p.out.1)))
    (hgarb : ∀ w c, (prm w).garbage c = 0) (hu : ∀ i c, 0 < (prm (i, i)).draw c ∧ (prm (i, i)).draw c < 1)
    {ops : List (JobOp × ℝ)} (hops : ∀ o ∈ ops, OpOK n o.1 ∧ 0 < o.2 ∧ o.2 < 1) {arena : List ℂ}
    (ha : arena.length = 2 ^ n) (hpos : ∀ e, hasRoom (cap e) 1 = true) :
    ∃ progs results b b', ops.mapM (fun o => opProg (placed.map Placed.wid) o.2 o.1) = .ok progs ∧
      results.length = ops.length ∧ makeState n groups (vecs.map .vec) 0 (2 ^ n) arena = .ok b ∧
      LocalJob ((ops.map Prod.fst).zip results) b b' ∧
      (JobRoom cap placed C M ops → ∃ F, AlwaysEndsB (jobAct prm) cap (jobCfg c progs) F ∧ JobDone placed results b' F) ∧
      (¬ JobRoom cap placed C M ops → ∀ t c', execB (jobAct prm) cap t (jobCfg c progs) = some c' →
        (∀ r, c'.loc none ≠ .fin r) ∧
          ∃ t' g, execB (jobAct prm) cap t' c' = some g ∧ StuckB (jobAct prm) cap g ∧ ∀ r, g.loc none ≠ .fin r) := by
  have hw : ∃ S, List.Subperm S workers ∧ Enough n S := by
    rw [← C59_draw_iff]
    unfold placeWorkers at hpl
    rcases hd : drawWorkers n workers with e | x
    · simp [hd, bind, Except.bind] at hpl
    · exact ⟨x, rfl⟩
  obtain ⟨states', placed', rest', v, s1, s2, -, -, s5, s6, K, N, s7⟩ := C84_setup_partial hn hfed hw
  rw [hset] at s1
  injection s1 with s1
  rw [hpl] at s2
  injection s2 with s2
  obtain ⟨rfl, rfl⟩ := Prod.mk.inj s2
  subst s1
  obtain ⟨hg, hD⟩ := s7 prm C M pm c hprm hstart
  have hT : norm2 v = 1 := by
    rw [← norm2_total hD.size, ← hnorm]
    exact totalProb_congr s6
  have hsched' := sched_grid hpl hprm hg hsched
  obtain ⟨results, b', c', pm', st', i1, i2, i3, i4, i5⟩ := ops_stepsB hn hg hsched' hgarb hu hops hT hD ha
  obtain ⟨progs, h5, h6⟩ := job_ends i1 (start_quiet hstart)
  have hlen : results.length = ops.length := by
    clear * - i1
    induction i1 with
    | nil => rfl
    | cons _ _ _ _ ih => simp [ih]
  have hroom := room_grid (cap := cap) (st0 := fun _ _ => 0) hpl hprm hg (fun _ _ => rfl) ops
  refine ⟨progs, results, _, b', h5, hlen, s5 arena, i2, fun hr => ?_, fun hr => ?_⟩
  · have hrun := job_runsB (i5 cap hpos (hroom.1 hr)) h5 []
    rw [List.nil_append] at hrun
    refine ⟨endCfg results c', RunsB.alwaysEnds (Eq.mp ?_ hrun) h6.1, rfl, fun p hp => ?_⟩
    · congr 1
      cases progs with
      | nil =>
        refine cfg_ext ?_ rfl
        funext y
        rcases y with _ | y <;> rfl
      | cons p todo =>
        refine cfg_ext ?_ rfl
        funext y
        rcases y with _ | y
        · simp [jobCfg, liftCfg, startOp]
        · cases hl : c.loc (some y) <;> simp [jobCfg, liftCfg, startOp, hl]
    · obtain ⟨s, j1, j2, j3⟩ := i3.ranges hpl hprm hg hp
      exact ⟨s, by simp [endCfg, j1], j2, j3⟩
  · have hbuf : ∀ e, (jobCfg c progs).buf e = [] := hstart.buffers
    have hidle : ∀ w, (∃ s, (endCfg results c').loc (some w) = .wkr s ∧ s.pc = .idle ∧
        (endCfg results c').buf (some w, none) = []) ∨ jobAct prm (some w) ((jobCfg c progs).loc (some w)) = .halt := by
      intro w
      by_cases hw : w.1 < K ∧ w.2 < K
      · obtain ⟨b, cnt, k1, -⟩ := i3.workers w.1 hw.1 w.2 hw.2
        exact Or.inl ⟨⟨b, .idle, cnt⟩, by simp only [endCfg, k1], rfl, i3.toManager w⟩
      · obtain ⟨s0, k1, k2⟩ := hD.others w hw
        right
        simp [jobCfg, k1, jobAct, workerAct, k2]
    have key : ∀ (t : List Pid) (d : Cfg Pid NMsg JLoc), execB (jobAct prm) cap t (jobCfg c progs) = some d →
        ∀ r, d.loc none ≠ .fin r := by
      intro t d h r hfin
      have e1 := fin_final h6 hidle (execB_exec h) hfin
      subst e1
      have h2 := execB_fits h (fun e => by rw [hbuf e]; exact hasRoom_mono (hpos e) (by simp))
      refine hr (hroom.2 fun i j hi hj hij => ?_)
      obtain ⟨k1, k2⟩ := i4 i j hi hj hij
      have l1 := h2 (some (j, j), some (i, j))
      have l2 := h2 (some (i, j), some (i, i))
      have b1 : (endCfg results c').buf = c'.buf := rfl
      rw [b1, i3.acks, List.length_replicate] at l1 l2
      rw [k1] at l1
      rw [k2] at l2
      exact ⟨l1, l2⟩
    intro t d h
    refine ⟨key t d h, ?_⟩
    obtain ⟨t', g, g1, g2⟩ := h6.someEnd h
    refine ⟨t', g, g1, g2, key (t ++ t') g ?_⟩
    rw [execB_append, h]
    exact g1

/-- A measurement and a swap on four workers whose transfers have two chunks: sockets for two messages are enough, sockets for
one are not. -/
example : ∃ prm c m progs results b' F, (Gate.swap 1).feedMats false [[0], [1]] = .ok m ∧
    [(JobOp.measure [0] none, (1 / 3 : ℝ)), (.kron m, 1 / 2)].mapM (fun o => opProg ((grid4 0).map Placed.wid) o.2 o.1)
      = .ok progs ∧
    AlwaysEndsB (jobAct prm) (fun _ => some 2) (jobCfg c progs) F ∧ JobDone (grid4 0) results b' F ∧
    ∀ t d, execB (jobAct prm) (fun _ => some 1) t (jobCfg c progs) = some d → ∀ r, d.loc none ≠ .fin r := by
  have p2 : placeWorkers 2 [⟨0, 1⟩, ⟨1, 1⟩, ⟨2, 1⟩, ⟨3, 1⟩] = .ok (grid4 0, []) := by
    unfold placeWorkers
    simp only [draw_four, bind, Except.bind]
    rw [grid_four 0]
    simp [grid4]
  have hw : ∃ S, List.Subperm S [⟨0, 1⟩, ⟨1, 1⟩, ⟨2, 1⟩, ⟨3, 1⟩] ∧ Enough 2 S := by
    rw [← C59_draw_iff]
    exact ⟨_, draw_four⟩
  obtain ⟨states, placed, rest, v, s1, s2, -, s4, -⟩ := C84_setup_partial (by norm_num) bell_fed hw
  rw [p2] at s2
  injection s2 with s2
  obtain ⟨rfl, rfl⟩ := Prod.mk.inj s2
  obtain ⟨prm, c, h1, h2, h3, h4, h5⟩ := job_exists p2 s4 (.done (.ok none))
  have hgr : GroupsOK 2 [[0], [1]] := ⟨by decide, by simp⟩
  obtain ⟨m, g2, o2⟩ := opOK_gate (n := 2) (by norm_num) (g := .swap 1) (d := false) rfl (by simp [Fits]) hgr (by simp)
  have hops : ∀ o ∈ [(JobOp.measure [0] none, (1 / 3 : ℝ)), (.kron m, 1 / 2)], OpOK 2 o.1 ∧ 0 < o.2 ∧ o.2 < 1 := by
    simp only [List.mem_cons, List.not_mem_nil, or_false, forall_eq_or_imp, forall_eq]
    exact ⟨⟨⟨by simp, by simp⟩, by norm_num⟩, ⟨o2, by norm_num⟩⟩
  obtain ⟨progs, results, b, b', e1, -, -, -, e5, -⟩ := C112_job_partial (cap := fun _ => some 2) (by norm_num) bell_fed
    bell_init s1 p2 h1 h2 h3 h4 h5 hops (arena := List.replicate 4 0) (by simp) (fun _ => rfl)
  obtain ⟨progs', -, -, -, k1, -, -, -, -, k6⟩ := C112_job_partial (cap := fun _ => some 1) (by norm_num) bell_fed
    bell_init s1 p2 h1 h2 h3 h4 h5 hops (arena := List.replicate 4 0) (by simp) (fun _ => rfl)
  rw [e1] at k1
  injection k1 with k1
  subst k1
  obtain ⟨F, f1, f2⟩ := e5 (by simp [JobRoom, grid4, hasRoom, kronCount])
  exact ⟨prm, c, m, progs, results, b', F, g2, e1, f1, f2, fun t d h =>
    (k6 (by simp [JobRoom, grid4, hasRoom, kronCount]) t d h).1⟩

end QIP.Props
