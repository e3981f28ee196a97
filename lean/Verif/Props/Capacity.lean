import Verif.Props.Distributed

/-!
# Sockets that hold a bounded number of messages (C112)
-/

namespace QIP.Props

open QIP QIP.Spec

variable {prm : Wid → WParam} {K N C M n : Nat} {ws : List Wid} {st : Wid → Wid → Nat} {v : List ℂ} {f : Wid → WSt}
  {cap : Pid × Pid → Option Nat}

theorem afterSyncs_scatter {i j : Nat} (hi : i < K) (hj : j < K) (hij : i ≠ j) (k m : Nat) :
    afterSyncs K k st m (i, j) (i, i) = st (i, j) (i, i) + m * k := by
  induction m generalizing st with
  | zero => simp [afterSyncs]
  | succ m ih =>
    rw [afterSyncs, ih]
    have h1 : scatterSt (gatherSt st K k) K k (i, j) (i, i) = gatherSt st K k (i, j) (i, i) + k := by
      unfold scatterSt addSt
      exact if_pos ⟨rfl, hi, rfl, hij, hj⟩
    have h2 : gatherSt st K k (i, j) (i, i) = st (i, j) (i, i) := by
      unfold gatherSt addSt
      exact if_neg (by rintro ⟨h, -⟩; exact hij h)
    rw [h1, h2, Nat.succ_mul]
    omega

theorem ops_runB (hpos : ∀ e, hasRoom (cap e) 1 = true) (hg : GridOK prm K N C M ws)
    (hsched : ∀ w c, ((prm w).sched c).Perm (List.range N)) {ops : List (List (Key × Mat ℂ))}
    (hops : ∀ mats ∈ ops, KronOpOK n mats) {arena : List ℂ} (ha : arena.length = 2 ^ n) {scheds : Nat → List Nat}
    (hsch : ∀ k, (scheds k).Perm (List.range (2 ^ n))) (hKN : K * N = 2 ^ n) (hv : v.length = 2 ^ n)
    (hR : GridReady K N n v f) (hst : StOK st)
    (hcg : ∀ i j, i < K → j < K → i ≠ j →
      hasRoom (cap (some (j, j), some (i, j))) (st (j, j) (i, j) + ops.length * leftover N C M) = true)
    (hcs : ∀ i j, i < K → j < K → i ≠ j →
      hasRoom (cap (some (i, j), some (i, i))) (st (i, j) (i, i) + ops.length * leftover N C M) = true) :
    ∃ b' f', localOps ⟨n, v, arena⟩ scheds ops = .ok b' ∧ b'.state.length = 2 ^ n ∧ GridReady K N n b'.state f' ∧
      StOK (afterSyncs K (leftover N C M) st ops.length) ∧
      RunsB (netAct prm) cap (netCfg (kronOps ws ops) f (nbuf C M st noMsg noMsg))
        (netCfg (.done (.ok none)) f' (nbuf C M (afterSyncs K (leftover N C M) st ops.length) noMsg noMsg)) := by
  induction ops generalizing v arena scheds f st with
  | nil => exact ⟨⟨n, v, arena⟩, f, rfl, hv, hR, hst, RunsB.refl _⟩
  | cons mats ops ih =>
    have hm := hops mats (by simp)
    have hcall : ∀ out : List ℂ, out.length = 2 ^ n → CallOK n mats v out 0 0 := fun out ho =>
      ⟨hm.keys, hm.shapes, hm.range, hm.wf, by omega, by omega⟩
    have hloc := part_local_kron (v := v) ha (hcall arena ha) (sched := scheds 0)
      ⟨by rw [ha]; exact hsch 0, hm.nonempty, hm.sameSize⟩
    have hle : leftover N C M ≤ (mats :: ops).length * leftover N C M := by
      rw [List.length_cons, Nat.succ_mul]
      omega
    obtain ⟨f1, h1, hR1, -⟩ := kron_runsB (prm := prm) (st := st) (cap := cap) hpos hg hKN hv hR hst
      (fun i j hi hj hij => hasRoom_mono (hcg i j hi hj hij) (by omega))
      (fun i j hi hj hij => hasRoom_mono (hcs i j hi hj hij) (by omega)) (hcall _ (by simp)) hm.nonempty
      hm.sameSize hsched (kronOps ws ops)
    obtain ⟨b', f', hb, hl, hR', hst', h2⟩ := ih (fun mats' h => hops mats' (by simp [h])) (v := kronVec n mats v)
      (arena := v) hv (scheds := fun k => scheds (k + 1)) (fun k => hsch (k + 1)) (by simp [kronVec]) hR1
      (stOK_scatter (stOK_gather hst _ _) _ _)
      (fun i j hi hj hij => hasRoom_mono (hcg i j hi hj hij) (by
        have := afterSyncs_gather (st := st) hi hj hij (leftover N C M) 1
        simp only [afterSyncs, scatterSt, gatherSt] at this
        rw [this, Nat.one_mul, List.length_cons, Nat.succ_mul]
        omega))
      (fun i j hi hj hij => hasRoom_mono (hcs i j hi hj hij) (by
        have := afterSyncs_scatter (st := st) hi hj hij (leftover N C M) 1
        simp only [afterSyncs, scatterSt, gatherSt] at this
        rw [this, Nat.one_mul, List.length_cons, Nat.succ_mul]
        omega))
    refine ⟨b', f', ?_, hl, hR', hst', h1.trans h2⟩
    simp only [localOps, hloc]
    exact hb

/-- C112: a job of any number of kron products ends under every schedule, with the state of the local backend, although
sockets hold a bounded number of messages: room for one message everywhere, and for the acknowledgements that are never
read.  Missing for the full property: capacities that do not grow with the number of operations (`C112_capacity_false`). -/
theorem C112_enough_partial (hg : GridOK prm K N C M ws) (hsched : ∀ w c, ((prm w).sched c).Perm (List.range N))
    {ops : List (List (Key × Mat ℂ))} (hops : ∀ mats ∈ ops, KronOpOK n mats) {arena : List ℂ}
    (ha : arena.length = 2 ^ n) {scheds : Nat → List Nat} (hsch : ∀ k, (scheds k).Perm (List.range (2 ^ n)))
    {c : Cfg Pid NMsg NLoc} (hD : Distributed K N n v C M st (kronOps ws ops) c)
    (hpos : ∀ e, hasRoom (cap e) 1 = true)
    (hroom : ∀ i j, i < K → j < K → i ≠ j → ∀ e ∈ [((some (j, j), some (i, j)) : Pid × Pid), (some (i, j), some (i, i))],
      hasRoom (cap e) ((c.buf e).length + ops.length * (min ((N + C - 1) / C) M - 1)) = true) :
    ∃ b' c', localOps ⟨n, v, arena⟩ scheds ops = .ok b' ∧ AlwaysEndsB (netAct prm) cap c c' ∧
      Distributed K N n b'.state C M (afterSyncs K (leftover N C M) st ops.length) (.done (.ok none)) c' := by
  obtain ⟨f, rfl, hR, hst⟩ := hD.cfg
  obtain ⟨b', f', hb, hl, hR', hst', hrun⟩ := ops_runB (prm := prm) (cap := cap) hpos hg hsched hops ha hsch hD.cover
    hD.size hR hst
    (fun i j hi hj hij => by
      have := hroom i j hi hj hij (some (j, j), some (i, j)) (by simp)
      rwa [hD.acks, List.length_replicate] at this)
    (fun i j hi hj hij => by
      have := hroom i j hi hj hij (some (i, j), some (i, i)) (by simp)
      rwa [hD.acks, List.length_replicate] at this)
  exact ⟨b', _, hb, hrun.alwaysEnds hR'.stuck, Distributed.of_ready hD.cover hl hR' hst' _⟩

/-! ## Too little room -/

theorem nextTask_ne_idle (ts : List Task) : nextTask ts ≠ .idle := by
  rcases ts with _ | ⟨_ | _, ts⟩ <;> simp [nextTask]

theorem handleOp_ne_idle (p : WParam) (w : Wid) (s : WSt) (o : WOp) : (handleOp p w s o).2 ≠ .idle := by
  cases o <;> simp only [handleOp]
  case sync => exact nextTask_ne_idle _
  all_goals first | (split <;> simp) | simp

/-- A worker waits for an operation again only after it has reported. -/
theorem workerAct_idle (p : WParam) (w : Wid) (s : WSt) :
    (∀ q m s', workerAct p w s = .send q m s' → s'.pc = .idle → q = none) ∧
      ∀ q k, workerAct p w s = .recv q k → ∀ m, (k m).pc ≠ .idle := by
  obtain ⟨b, pc, cnt⟩ := s
  cases pc with
  | idle =>
    simp only [workerAct]
    refine ⟨fun q m s' h => (by cases h), fun q k h m => ?_⟩
    injection h with h1 h2
    subst h2
    cases m <;> simp [handleOp_ne_idle]
  | reply m =>
    simp only [workerAct]
    refine ⟨fun q m s' h _ => ?_, fun q k h => (by cases h)⟩
    injection h with h1
    exact h1.symm
  | xfer cur ts =>
    cases cur with
    | sAccept q =>
      simp only [workerAct]
      refine ⟨fun q m s' h => (by cases h), fun q k h m => ?_⟩
      injection h with h1 h2
      subst h2
      cases m <;> simp only [ne_eq] <;> (try split) <;> simp [nextTask_ne_idle]
    | sLoop q last infl ch mx =>
      simp only [workerAct]
      split
      · refine ⟨fun q m s' h hi => ?_, fun q k h => (by cases h)⟩
        injection h with h1 h2 h3
        subst h3
        simp at hi
      · refine ⟨fun q m s' h => (by cases h), fun q k h m => ?_⟩
        injection h with h1 h2
        subst h2
        cases m <;> simp only [ne_eq] <;> (try split) <;> simp [nextTask_ne_idle]
    | rAccept q ow =>
      simp only [workerAct]
      refine ⟨fun q m s' h hi => ?_, fun q k h => (by cases h)⟩
      injection h with h1 h2 h3
      subst h3
      simp at hi
    | rData q ow =>
      simp only [workerAct]
      refine ⟨fun q m s' h => (by cases h), fun q k h m => ?_⟩
      injection h with h1 h2
      subst h2
      cases m <;> simp only [ne_eq] <;> (try split) <;> simp
    | rAck q ow d' =>
      simp only [workerAct]
      refine ⟨fun q m s' h hi => ?_, fun q k h => (by cases h)⟩
      injection h with h1 h2 h3
      subst h3
      split at hi
      · exact absurd hi (nextTask_ne_idle _)
      · simp at hi
  | closed => simp [workerAct]
  | crashed => simp [workerAct]

theorem step_idle {w : Wid} {c d : Cfg Pid NMsg NLoc} {s s' : WSt} (hc : c.loc (some w) = .wkr s)
    (h : stepP (netAct prm) (some w) c = some d) (hd : d.loc (some w) = .wkr s') (hi : s'.pc = .idle) :
    d.buf (some w, none) ≠ [] := by
  obtain ⟨h1, h2⟩ := workerAct_idle (prm w) w s
  unfold stepP at h
  rw [hc] at h
  simp only [netAct] at h
  rcases ha : workerAct (prm w) w s with _ | ⟨q, m, s1⟩ | ⟨q, k⟩ <;> rw [ha] at h <;> simp only at h
  · cases h
  · injection h with h
    subst h
    simp only [Function.update_self] at hd
    injection hd with hd
    subst hd
    have := h1 q m s1 ha hi
    subst this
    simp
  · exfalso
    rcases hb : c.buf (q, some w) with _ | ⟨m, rest⟩ <;> rw [hb] at h <;> simp only at h
    · cases h
    injection h with h
    subst h
    simp only [Function.update_self] at hd
    injection hd with hd
    exact h2 q k ha m (hd ▸ hi)

/-- A process that has stopped stays where it is. -/
theorem exec_halt {P' M' S' : Type} [DecidableEq P'] {act : P' → S' → Act P' M' S'} {p : P'} {t : List P'} {c d : Cfg P' M' S'}
    (h : exec act t c = some d) (hh : act p (c.loc p) = .halt) : d.loc p = c.loc p := by
  induction t generalizing c with
  | nil =>
    simp only [exec, Option.some.injEq] at h
    rw [h]
  | cons q t ih =>
    simp only [exec] at h
    rcases hs : stepP act q c with _ | c1 <;> rw [hs] at h <;> simp only at h
    · cases h
    have hpq : p ≠ q := by
      rintro rfl
      simp [stepP, hh] at hs
    have hl := stepP_loc hpq hs
    rw [ih h (by rw [hl]; exact hh), hl]

/-- When the manager has finished the job, nothing more happens. -/
theorem done_final {ops : List (List (Key × Mat ℂ))} {c c' g : Cfg Pid NMsg NLoc} {v' : List ℂ} {st' : Wid → Wid → Nat}
    {pm : MProg} (hD : Distributed K N n v C M st (kronOps ws ops) c) (he : AlwaysEnds (netAct prm) c g)
    (hD' : Distributed K N n v' C M st' pm g) {t : List Pid} (h : exec (netAct prm) t c = some c')
    {r : Except PyErr (Option (Nat × ℝ))} (hr : c'.loc none = .mgr (.done r)) : c' = g := by
  obtain ⟨-, l, hl⟩ := he
  obtain ⟨t', ht', -⟩ := hl t c' h
  rcases List.eq_nil_or_concat t' with rfl | ⟨s, x, rfl⟩
  · simpa [exec] using ht'
  exfalso
  rw [List.concat_eq_append, exec_append] at ht'
  rcases hs : exec (netAct prm) s c' with _ | c1 <;> rw [hs] at ht' <;> simp only [Option.bind] at ht'
  · cases ht'
  simp only [exec] at ht'
  rcases hx : stepP (netAct prm) x c1 with _ | c2 <;> rw [hx] at ht' <;> simp only at ht'
  · cases ht'
  injection ht' with ht'
  subst ht'
  have hmgr : c1.loc none = .mgr (.done r) := by
    rw [exec_halt (p := none) hs (by rw [hr]; rfl), hr]
  cases x with
  | none => simp [stepP, hmgr, netAct] at hx
  | some w =>
    by_cases hw : w.1 < K ∧ w.2 < K
    · obtain ⟨b, cnt, h1, -⟩ := hD'.workers w.1 hw.1 w.2 hw.2
      rcases hc1 : c1.loc (some w) with pm' | s1
      · simp [stepP, hc1, netAct] at hx
      · exact step_idle hc1 hx h1 rfl (hD'.toManager w)
    · obtain ⟨s0, h1, h2⟩ := hD.others w hw
      have hhalt : netAct prm (some w) (c.loc (some w)) = .halt := by
        rw [h1]
        simp [netAct, workerAct, h2]
      have hall : exec (netAct prm) (t ++ s) c = some c1 := by
        rw [exec_append, h]
        exact hs
      have := exec_halt (p := some w) hall hhalt
      rw [stepP, this, hhalt] at hx
      cases hx

/-- C112 (negation): if a socket cannot hold what was in it before and `min chunks max_inflight - 1` acknowledgements for
every kron product of the job, then the job never finishes: under every schedule it ends in a deadlock, in which the
manager still waits. -/
theorem C112_deadlock_false (hg : GridOK prm K N C M ws) (hsched : ∀ w c, ((prm w).sched c).Perm (List.range N))
    {ops : List (List (Key × Mat ℂ))} (hops : ∀ mats ∈ ops, KronOpOK n mats)
    {c : Cfg Pid NMsg NLoc} (hD : Distributed K N n v C M st (kronOps ws ops) c)
    (hfit : ∀ e, hasRoom (cap e) (c.buf e).length = true) {i j : Nat} (hi : i < K) (hj : j < K) (hij : i ≠ j)
    {e : Pid × Pid} (hmem : e ∈ [((some (j, j), some (i, j)) : Pid × Pid), (some (i, j), some (i, i))])
    (hfull : hasRoom (cap e) ((c.buf e).length + ops.length * (min ((N + C - 1) / C) M - 1)) = false)
    {t : List Pid} {c' : Cfg Pid NMsg NLoc} (h : execB (netAct prm) cap t c = some c') :
    (∀ r, c'.loc none ≠ .mgr (.done r)) ∧
      ∃ t' g, execB (netAct prm) cap t' c' = some g ∧ StuckB (netAct prm) cap g ∧ ∀ r, g.loc none ≠ .mgr (.done r) := by
  obtain ⟨b', f', -, he, hD'⟩ := C61_kron_partial (prm := prm) hg hsched hops (arena := List.replicate (2 ^ n) 0)
    (by simp) (scheds := fun _ => List.range (2 ^ n)) (fun _ => List.Perm.refl _) hD
  have key : ∀ (t : List Pid) (c' : Cfg Pid NMsg NLoc), execB (netAct prm) cap t c = some c' →
      ∀ r, c'.loc none ≠ .mgr (.done r) := by
    intro t c' h r hr
    have e1 := done_final hD he hD' (execB_exec h) hr
    subst e1
    have h2 := execB_fits h hfit e
    have e2 : (c'.buf e).length = (c.buf e).length + ops.length * (min ((N + C - 1) / C) M - 1) := by
      simp only [List.mem_cons, List.not_mem_nil, or_false] at hmem
      rcases hmem with rfl | rfl
      · rw [hD'.acks, hD.acks, List.length_replicate, List.length_replicate, afterSyncs_gather hi hj hij]
        rfl
      · rw [hD'.acks, hD.acks, List.length_replicate, List.length_replicate, afterSyncs_scatter hi hj hij]
        rfl
    rw [e2, hfull] at h2
    cases h2
  refine ⟨key t c' h, ?_⟩
  obtain ⟨t', g, h1, h2⟩ := he.someEnd h
  refine ⟨t', g, h1, h2, key (t ++ t') g ?_⟩
  rw [execB_append, h]
  exact h1

/-- C112: the exact condition.  With room for one message everywhere, a job of kron products finishes (under every
schedule; otherwise under none) exactly if every socket between workers can hold the acknowledgements that are never
read. -/
theorem C112_exact_partial (hg : GridOK prm K N C M ws) (hsched : ∀ w c, ((prm w).sched c).Perm (List.range N))
    {ops : List (List (Key × Mat ℂ))} (hops : ∀ mats ∈ ops, KronOpOK n mats)
    {c : Cfg Pid NMsg NLoc} (hD : Distributed K N n v C M st (kronOps ws ops) c)
    (hpos : ∀ e, hasRoom (cap e) 1 = true) (hfit : ∀ e, hasRoom (cap e) (c.buf e).length = true) :
    ((∃ g, AlwaysEndsB (netAct prm) cap c g ∧ g.loc none = .mgr (.done (.ok none))) ↔
      ∀ i j, i < K → j < K → i ≠ j → ∀ e ∈ [((some (j, j), some (i, j)) : Pid × Pid), (some (i, j), some (i, i))],
        hasRoom (cap e) ((c.buf e).length + ops.length * (min ((N + C - 1) / C) M - 1)) = true) ∧
    ((∃ g t r, execB (netAct prm) cap t c = some g ∧ g.loc none = .mgr (.done r)) ↔
      ∃ g, AlwaysEndsB (netAct prm) cap c g ∧ g.loc none = .mgr (.done (.ok none))) := by
  have h1 : (∀ i j, i < K → j < K → i ≠ j → ∀ e ∈ [((some (j, j), some (i, j)) : Pid × Pid), (some (i, j), some (i, i))],
      hasRoom (cap e) ((c.buf e).length + ops.length * (min ((N + C - 1) / C) M - 1)) = true) →
      ∃ g, AlwaysEndsB (netAct prm) cap c g ∧ g.loc none = .mgr (.done (.ok none)) := by
    intro hroom
    obtain ⟨b', g, -, he, hD'⟩ := C112_enough_partial (prm := prm) hg hsched hops (arena := List.replicate (2 ^ n) 0)
      (by simp) (scheds := fun _ => List.range (2 ^ n)) (fun _ => List.Perm.refl _) hD hpos hroom
    exact ⟨g, he, hD'.manager⟩
  have h2 : (∃ g t r, execB (netAct prm) cap t c = some g ∧ g.loc none = .mgr (.done r)) →
      ∀ i j, i < K → j < K → i ≠ j → ∀ e ∈ [((some (j, j), some (i, j)) : Pid × Pid), (some (i, j), some (i, i))],
      hasRoom (cap e) ((c.buf e).length + ops.length * (min ((N + C - 1) / C) M - 1)) = true := by
    rintro ⟨g, t, r, hx, hr⟩ i j hi hj hij e he
    by_contra hno
    exact (C112_deadlock_false (prm := prm) hg hsched hops hD hfit hi hj hij he (by simpa using hno) hx).1 r hr
  have h3 : (∃ g, AlwaysEndsB (netAct prm) cap c g ∧ g.loc none = .mgr (.done (.ok none))) →
      ∃ g t r, execB (netAct prm) cap t c = some g ∧ g.loc none = .mgr (.done r) := by
    rintro ⟨g, ⟨-, l, hl⟩, hr⟩
    obtain ⟨t, ht, -⟩ := hl [] c rfl
    exact ⟨g, t, _, ht, hr⟩
  exact ⟨⟨fun h => h2 (h3 h), h1⟩, ⟨fun h => h1 (h2 h), h3⟩⟩

/-- C112 (negation): whatever the capacities, if there are at least four workers, and transfers have at least two chunks
of which at least two may be in flight, then every job of enough kron products ends in a deadlock. -/
theorem C112_capacity_false (hg : GridOK prm K N C M ws) (hsched : ∀ w c, ((prm w).sched c).Perm (List.range N))
    (hK : 1 < K) (hN : C < N) (hM : 1 < M) (capacity : Nat) :
    ∃ L, ∀ ops : List (List (Key × Mat ℂ)), (∀ mats ∈ ops, KronOpOK n mats) → L ≤ ops.length →
      ∀ c : Cfg Pid NMsg NLoc, Distributed K N n v C M st (kronOps ws ops) c → (∀ e, (c.buf e).length ≤ capacity) →
      ∀ t c', execB (netAct prm) (fun _ => some capacity) t c = some c' →
        (∀ r, c'.loc none ≠ .mgr (.done r)) ∧ ∃ t' g, execB (netAct prm) (fun _ => some capacity) t' c' = some g ∧
          StuckB (netAct prm) (fun _ => some capacity) g ∧ ∀ r, g.loc none ≠ .mgr (.done r) := by
  refine ⟨capacity + 1, fun ops hops hL c hD hfit t c' h => ?_⟩
  refine C112_deadlock_false (prm := prm) (i := 0) (j := 1) hg hsched hops hD (fun e => by simpa [hasRoom] using hfit e)
    (by omega) hK (by omega) (e := (some (1, 1), some (0, 1))) (by simp) ?_ h
  have hch : 2 ≤ (N + C - 1) / C := by
    rw [Nat.le_div_iff_mul_le hg.posC]
    omega
  have h1 : 1 ≤ min ((N + C - 1) / C) M - 1 := by omega
  have h2 := Nat.mul_le_mul hL h1
  simp only [hasRoom, decide_eq_false_iff_not]
  omega

/-- The four workers of `gridPrm` with sockets for ten messages: eleven gates are too many, ten are not. -/
noncomputable example {t : List Pid} {c' : Cfg Pid NMsg NLoc} (h : execB (netAct gridPrm) (fun _ => some 10) t
    (netCfg (kronOps [(0, 0), (0, 1), (1, 0), (1, 1)] (List.replicate 11 gridOp)) gridSt
      (nbuf 1 2 (fun _ _ => 0) noMsg noMsg)) = some c') : c'.loc none ≠ .mgr (.done (.ok none)) :=
  (C112_deadlock_false (prm := gridPrm) (i := 0) (j := 1) gridOK
    (fun _ _ => by simpa [gridPrm, List.range_succ] using List.Perm.swap 0 1 [])
    (by
      intro mats hm
      rw [List.eq_of_mem_replicate hm]
      exact ⟨by simp [gridOp], by simp [gridOp], by simp [gridOp, Key.qubits, Mat.shape],
        by simp [gridOp, Key.qubits], by simp [gridOp, Mat.WF], by simp [gridOp]⟩) (gridStart _)
    (by rintro ⟨_ | a, _ | b⟩ <;> simp [netCfg, nbuf, noMsg, hasRoom]) (by decide) (by decide) (by decide)
    (e := (some (1, 1), some (0, 1))) (by simp) (by simp [netCfg, nbuf, hasRoom]) h).1 _

example : ∃ g, AlwaysEndsB (netAct gridPrm) (fun _ => some 10)
    (netCfg (kronOps [(0, 0), (0, 1), (1, 0), (1, 1)] (List.replicate 10 gridOp)) gridSt
      (nbuf 1 2 (fun _ _ => 0) noMsg noMsg)) g ∧ g.loc none = .mgr (.done (.ok none)) :=
  (C112_exact_partial (prm := gridPrm) gridOK
    (fun _ _ => by simpa [gridPrm, List.range_succ] using List.Perm.swap 0 1 [])
    (by
      intro mats hm
      rw [List.eq_of_mem_replicate hm]
      exact ⟨by simp [gridOp], by simp [gridOp], by simp [gridOp, Key.qubits, Mat.shape],
        by simp [gridOp, Key.qubits], by simp [gridOp, Mat.WF], by simp [gridOp]⟩) (gridStart _)
    (fun _ => rfl) (by rintro ⟨_ | a, _ | b⟩ <;> simp [netCfg, nbuf, noMsg, hasRoom])).1.2 (by
      intro i j _ _ _ e he
      simp only [List.mem_cons, List.not_mem_nil, or_false] at he
      rcases he with rfl | rfl <;> simp [netCfg, nbuf, hasRoom])

end QIP.Props
