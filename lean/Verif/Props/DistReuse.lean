import Verif.Model.Close
import Verif.Props.Job

/-!
# C102: workers that served one job serve the next
-/

namespace QIP.Props

open QIP QIP.Spec

variable {prm : Wid → WParam} {ws : List Wid}

/-! ## A worker that died -/

/-- The manager cannot report success before `w` has reported. -/
inductive Awaits (w : Wid) : MProg → Prop where
  | here (k : NMsg → MProg) : Awaits w (.recv w k)
  | recv (v : Wid) (k : NMsg → MProg) : (∀ m, Awaits w (k m)) → Awaits w (.recv v k)
  | send (v : Wid) (o : WOp) (k : MProg) : Awaits w k → Awaits w (.send v o k)
  | fails (e : PyErr) : Awaits w (.done (.error e))

theorem awaits_recvEach {w : Wid} {l : List Wid} {k : List NMsg → MProg} (h : w ∈ l ∨ ∀ ms, Awaits w (k ms)) :
    Awaits w (recvEach l k) := by
  induction l generalizing k with
  | nil => exact (h.resolve_left (by simp)) []
  | cons v l ih =>
    by_cases hv : v = w
    · subst hv; exact .here _
    · refine .recv v _ fun m => ih ?_
      rcases h with h | h
      · exact Or.inl (by simpa [Ne.symm hv] using h)
      · exact Or.inr fun ms => h _

theorem awaits_sendEach {w : Wid} {o : WOp} {l : List Wid} {k : MProg} (h : Awaits w k) : Awaits w (sendEach o l k) := by
  induction l with
  | nil => exact h
  | cons v l ih => exact .send v o _ ih

theorem awaits_map {w : Wid} {o : WOp} {l : List Wid} {k : List NMsg → MProg} (h : w ∈ l ∨ ∀ ms, Awaits w (k ms)) :
    Awaits w (mapWorkers o l k) := awaits_sendEach (awaits_recvEach h)

theorem awaits_kron {w : Wid} (hw : w ∈ ws) (mats : List (Key × Mat ℂ)) : Awaits w (sendKronprod mats ws) := awaits_map (Or.inl hw)

theorem awaits_measure {w : Wid} (hw : w ∈ ws) (indices : List Nat) (r : ℝ) : Awaits w (sendMeasure indices r ws) := by
  refine awaits_map (Or.inr fun ms => ?_)
  split
  · exact .fails _
  · exact .send _ _ _ (.recv _ _ fun m => awaits_map (Or.inr fun _ => awaits_map (Or.inr fun _ => awaits_map (Or.inl hw))))

theorem awaits_op {w : Wid} (hw : w ∈ ws) {r : ℝ} {op : JobOp} {pm : MProg} (h : opProg ws r op = .ok pm) : Awaits w pm := by
  cases op with
  | kron mats =>
    simp only [opProg, bind, Except.bind] at h
    split at h
    · cases h
    · split at h
      · cases h
      · injection h with h
        exact h ▸ awaits_kron hw _
  | measure indices m =>
    simp only [opProg, bind, Except.bind] at h
    split at h
    · cases h
    · injection h with h
      exact h ▸ awaits_measure hw _ _

/-- Worker `w` is dead and the manager needs it. -/
structure DeadAwaited (w : Wid) (c : Cfg Pid NMsg NLoc) : Prop where
  mgr : ∃ pm, c.loc none = .mgr pm ∧ Awaits w pm
  dead : ∃ s, c.loc (some w) = .wkr s ∧ s.pc = .crashed
  silent : c.buf (some w, none) = []

/-- A step of a process touches no other process. -/
theorem step_loc {c c' : Cfg Pid NMsg NLoc} {p x : Pid} (hs : stepP (netAct prm) p c = some c') (hx : x ≠ p) : c'.loc x = c.loc x := by
  unfold stepP at hs
  split at hs
  · cases hs
  · simp only [Option.some.injEq] at hs
    rw [← hs]
    exact Function.update_of_ne hx _ _
  · split at hs
    · cases hs
    · simp only [Option.some.injEq] at hs
      rw [← hs]
      exact Function.update_of_ne hx _ _

theorem DeadAwaited.step {w : Wid} {c c' : Cfg Pid NMsg NLoc} (h : DeadAwaited w c) {p : Pid}
    (hs : stepP (netAct prm) p c = some c') : DeadAwaited w c' := by
  obtain ⟨⟨pm, hm, hn⟩, ⟨s, hd, hpc⟩, hb⟩ := h
  rcases p with _ | v
  · unfold stepP at hs
    rw [hm] at hs
    cases hn with
    | here k => simp [netAct, hb] at hs
    | fails e => simp [netAct] at hs
    | send v o k hk =>
      simp only [netAct, Option.some.injEq] at hs
      subst hs
      exact ⟨⟨k, by simp, hk⟩, ⟨s, by simpa using hd, hpc⟩, by simpa using hb⟩
    | recv v k hk =>
      by_cases hv : v = w
      · subst hv; simp [netAct, hb] at hs
      · simp only [netAct] at hs
        split at hs
        · cases hs
        · rename_i m rest hm'
          simp only [Option.some.injEq] at hs
          subst hs
          exact ⟨⟨k m, by simp, hk m⟩, ⟨s, by simpa using hd, hpc⟩, by simpa [Function.update_of_ne, Ne.symm hv] using hb⟩
  · by_cases hv : v = w
    · subst hv
      simp [stepP, netAct, hd, workerAct, hpc] at hs
    · refine ⟨⟨pm, (step_loc hs (by simp)).trans hm, hn⟩, ⟨s, (step_loc hs (by simpa using Ne.symm hv)).trans hd, hpc⟩, ?_⟩
      unfold stepP at hs
      split at hs
      · cases hs
      · simp only [Option.some.injEq] at hs
        rw [← hs]
        exact (Function.update_of_ne (by simp [Ne.symm hv]) _ _).trans hb
      · split at hs
        · cases hs
        · simp only [Option.some.injEq] at hs
          rw [← hs]
          exact (Function.update_of_ne (by simp) _ _).trans hb

theorem exec_keeps {Inv : Cfg Pid NMsg NLoc → Prop}
    (hstep : ∀ c c' p, Inv c → stepP (netAct prm) p c = some c' → Inv c') {t : List Pid} {c c' : Cfg Pid NMsg NLoc} (h : Inv c)
    (he : exec (netAct prm) t c = some c') : Inv c' := by
  induction t generalizing c with
  | nil =>
    simp only [exec, Option.some.injEq] at he
    exact he ▸ h
  | cons p t ih =>
    simp only [exec] at he
    rcases hs : stepP (netAct prm) p c with _ | c1 <;> rw [hs] at he <;> simp only at he
    · cases he
    · exact ih (hstep _ _ _ h hs) he

/-- C102 (negation of the property): a worker that died in an earlier job, and was given back with the others (C101), makes every
operation of a later job fail: whatever the schedule, the manager never reports success, be it a kron product or a measurement. -/
theorem C102_dead_worker {w : Wid} (hw : w ∈ ws) {c : Cfg Pid NMsg NLoc} {s : WSt} (hd : c.loc (some w) = .wkr s)
    (hpc : s.pc = .crashed) (hsil : c.buf (some w, none) = []) {op : JobOp} {r : ℝ} {pm : MProg} (hop : opProg ws r op = .ok pm)
    {t : List Pid} {c' : Cfg Pid NMsg NLoc} (h : exec (netAct prm) t (startOp c pm) = some c') (res : Option (Nat × ℝ)) :
    c'.loc none ≠ .mgr (.done (.ok res)) := by
  have h0 : DeadAwaited w (startOp c pm) := ⟨⟨pm, by simp [startOp], awaits_op hw hop⟩, ⟨s, by simpa [startOp] using hd, hpc⟩, hsil⟩
  obtain ⟨⟨pm', e, hn⟩, -⟩ := exec_keeps (Inv := DeadAwaited w) (fun _ _ _ h hs => h.step hs) h0 h
  rw [e]
  intro he
  injection he with he
  subst he
  cases hn

/-! ## Reports that nobody read -/

/-- Messages from a worker to the manager are taken away by the manager only. -/
theorem step_report {w : Wid} {c c' : Cfg Pid NMsg NLoc} {p : Pid} (hs : stepP (netAct prm) p c = some c')
    (hp : ∀ k, p = none → c.loc none ≠ .mgr (.recv w k)) : ∃ l, c'.buf (some w, none) = c.buf (some w, none) ++ l := by
  unfold stepP at hs
  split at hs
  · cases hs
  · rename_i q m s hact
    simp only [Option.some.injEq] at hs
    subst hs
    by_cases he : (p, q) = (some w, none)
    · exact ⟨[m], by simp [he]⟩
    · exact ⟨[], by simp only; rw [Function.update_of_ne (Ne.symm he), List.append_nil]⟩
  · rename_i q k hact
    split at hs
    · cases hs
    · simp only [Option.some.injEq] at hs
      subst hs
      by_cases he : (q, p) = (some w, none)
      · obtain ⟨rfl, rfl⟩ := Prod.mk.inj he
        exfalso
        rcases hl : c.loc none with pm | s
        · rw [hl] at hact
          cases pm <;> simp only [netAct, reduceCtorEq, Act.recv.injEq, Option.some.injEq] at hact
          obtain ⟨rfl, -⟩ := hact
          exact hp _ rfl hl
        · rw [hl] at hact
          simp [netAct] at hact
      · exact ⟨[], by simp only; rw [Function.update_of_ne (Ne.symm he), List.append_nil]⟩

/-- The manager is sending `close`, or has done so, and the message `m` from `w` is the next one to read. -/
def Closing (w : Wid) (m : NMsg) (c : Cfg Pid NMsg NLoc) : Prop :=
  (∃ l, c.loc none = .mgr (sendEach .close l (.done (.ok none)))) ∧ ∃ rest, c.buf (some w, none) = m :: rest

theorem closing_step {w : Wid} {m : NMsg} {c c' : Cfg Pid NMsg NLoc} {p : Pid} (h : Closing w m c)
    (hs : stepP (netAct prm) p c = some c') : Closing w m c' := by
  obtain ⟨⟨l, hl⟩, rest, hb⟩ := h
  obtain ⟨x, hx⟩ := step_report (w := w) hs (by
    intro k _ he
    rw [hl] at he
    injection he with he
    cases l <;> simp [sendEach] at he)
  refine ⟨?_, rest ++ x, by rw [hx, hb]; rfl⟩
  rcases p with _ | v
  · unfold stepP at hs
    rw [hl] at hs
    cases l with
    | nil => simp [sendEach, netAct] at hs
    | cons v l =>
      simp only [sendEach, List.foldr_cons, netAct, Option.some.injEq] at hs
      subst hs
      exact ⟨l, by simp [sendEach]⟩
  · exact ⟨l, by rw [step_loc hs (by simp)]; exact hl⟩

theorem recvEach_append (l1 l2 : List Wid) (k : List NMsg → MProg) :
    recvEach (l1 ++ l2) k = recvEach l1 fun ms => recvEach l2 fun ms' => k (ms ++ ms') := by
  induction l1 generalizing k with
  | nil => rfl
  | cons w l1 ih => simp [recvEach, ih]

/-- C102: after a lost connection the reports of other workers stay in their sockets.  If the manager loses any worker of a job during
a kron product, there is a schedule after which, however the closing of the pool then goes, the confirmations of all workers that
come after it have not been read. -/
theorem C102_unread {K N n C M : Nat} {v : List ℂ} {st : Wid → Wid → Nat} {w0 : Wid} {before others : List Wid}
    (hg : GridOK prm K N C M (before ++ w0 :: others)) (hsched : ∀ w c, ((prm w).sched c).Perm (List.range N))
    {mats : List (Key × Mat ℂ)} (hop : KronOpOK n mats) {c : Cfg Pid NMsg NLoc}
    (hD : Distributed K N n v C M st (sendKronprod mats (before ++ w0 :: others)) c) :
    ∃ t c1 c2, exec (netAct prm) t c = some c1 ∧ LosesWorker (before ++ w0 :: others) w0 c1 c2 ∧
      ∀ t' c', exec (netAct prm) t' c2 = some c' → ∀ w ∈ others, ∃ rest, c'.buf (some w, none) = .conf :: rest := by
  obtain ⟨f, rfl, hR, hst⟩ := hD.cfg
  have hKN := hD.cover
  have hv := hD.size
  have hvK : v.length = K * N := by omega
  have hcall : CallOK n mats v (List.replicate (2 ^ n) 0) 0 0 :=
    ⟨hop.keys, hop.shapes, hop.range, hop.wf, by omega, by simp⟩
  have hidle : ∀ w ∈ before ++ w0 :: others, (f w).pc = .idle := fun w hw =>
    (hR.grid w.1 ((hg.mem w).1 hw).1 w.2 ((hg.mem w).1 hw).2).1
  have hloc : ∀ w ∈ before ++ w0 :: others, (handleOp (prm w) w (f w) (.kron mats)).2 = .reply .conf := by
    intro w hw
    obtain ⟨h1, h2⟩ := (hg.mem w).1 hw
    obtain ⟨-, e1, e2, e3⟩ := hR.grid w.1 h1 w.2 h2
    have hin : (w.1 + 1) * N ≤ K * N := Nat.mul_le_mul_right N h1
    have hout : (w.2 + 1) * N ≤ K * N := Nat.mul_le_mul_right N h2
    rw [Nat.succ_mul] at hin hout
    have hpl := part_length (R := ℂ) hvK h1
    have := kronselectDot_eq (n := n) (mats := mats) (vec := part N v w.1) (out := (f w).b.arena) (inOff := w.1 * N)
      (outOff := w.2 * N) ⟨hcall.keys, hcall.shapes, hcall.range, hcall.wf, by omega, by rw [e3]; omega⟩
      (impl := .cython ((prm w).sched (f w).cnt)) ⟨by rw [e3]; exact hsched _ _, hop.nonempty, hop.sameSize⟩
    rw [e3] at this
    unfold handleOp BState.kronselectDot
    simp only [hg.size, e1, e2]
    rw [this]
  obtain ⟨k, hk⟩ : ∃ k, sendKronprod mats (before ++ w0 :: others) =
      sendEach (.kron mats) (before ++ w0 :: others) (recvEach (before ++ w0 :: others) k) := ⟨_, rfl⟩
  rw [hk]
  obtain ⟨hnb, hno, hdis⟩ := List.nodup_append.1 hg.nodup
  have hno := (List.nodup_cons.1 hno).2
  have hdis' : ∀ w ∈ others, w ∉ before := fun w hw hb => hdis w hb w (by simp [hw]) rfl
  have h1 := sendEach_runs (prm := prm) (C := C) (M := M) (st := st) (f := f) (ops := noMsg) (cf := noMsg) (.kron mats)
    (recvEach (before ++ w0 :: others) k) hg.nodup
  simp only [noMsg, List.nil_append] at h1
  have h2 := deliver_runs (prm := prm) (C := C) (M := M) (st := st) (f := f) (cf := noMsg)
    (pm := recvEach (before ++ w0 :: others) k) (.kron mats) hg.nodup hidle
  have h3 := reply_runs (prm := prm) (C := C) (M := M) (st := st) (ops := noMsg) (cf := noMsg)
    (pm := recvEach (before ++ w0 :: others) k)
    (f := fun w => if w ∈ before ++ w0 :: others then handled prm (.kron mats) w (f w) else f w) (m := fun _ => .conf)
    (l := before) hnb (by
      intro w hw
      have hw' : w ∈ before ++ w0 :: others := by simp [hw]
      simp only [if_pos hw', handled]
      exact hloc w hw')
  obtain ⟨t, ht⟩ := (Runs.trans h1 h2).trans h3
  rw [recvEach_append before (w0 :: others) k] at ht
  simp only [noMsg, List.nil_append] at ht
  have h4 := recvEach_runs (prm := prm) (C := C) (M := M) (st := st) (ops := noMsg) (m := fun _ => .conf) (l := before)
    (f := fun w => if w ∈ before then
        ⟨(if w ∈ before ++ w0 :: others then handled prm (.kron mats) w (f w) else f w).b, .idle,
          (if w ∈ before ++ w0 :: others then handled prm (.kron mats) w (f w) else f w).cnt⟩
      else if w ∈ before ++ w0 :: others then handled prm (.kron mats) w (f w) else f w) hnb
    (fun ms => recvEach (w0 :: others) fun ms' => k (ms ++ ms'))
  have h5 := reply_runs (prm := prm) (C := C) (M := M) (st := st) (ops := noMsg) (cf := noMsg)
    (pm := recvEach (w0 :: others) fun ms' => k (before.map (fun _ => .conf) ++ ms'))
    (f := fun w => if w ∈ before then
        ⟨(if w ∈ before ++ w0 :: others then handled prm (.kron mats) w (f w) else f w).b, .idle,
          (if w ∈ before ++ w0 :: others then handled prm (.kron mats) w (f w) else f w).cnt⟩
      else if w ∈ before ++ w0 :: others then handled prm (.kron mats) w (f w) else f w) (m := fun _ => .conf) (l := others) hno (by
      intro w hw
      have hw' : w ∈ before ++ w0 :: others := by simp [hw]
      simp only [if_neg (hdis' w hw), if_pos hw', handled]
      exact hloc w hw')
  obtain ⟨t', ht'⟩ := (Runs.trans ⟨t, ht⟩ h4).trans h5
  rw [recvEach_append before (w0 :: others) k]
  refine ⟨t', _, _, ht', .lost (k := fun m => recvEach others fun ms => k (before.map (fun _ => .conf) ++ m :: ms)) rfl,
    fun t' c' he w hw => ?_⟩
  exact (exec_keeps (Inv := Closing w .conf) (fun _ _ _ h hs => closing_step h hs)
    ⟨⟨before ++ w0 :: others, by simp [startOp, closePool]⟩, [], by simp [startOp, netCfg, nbuf, hw, noMsg]⟩ he).2

/-! ## Reports of an earlier job are taken for those of the next one -/

theorem select_zero {r : ℝ} (hr : 0 < r) (k : Nat) : selectWorker (List.replicate k 0) r = none := by
  induction k with
  | zero => rfl
  | succ k ih =>
    rw [List.replicate_succ, selectWorker, sub_zero, if_neg (not_le.2 hr), ih]
    rfl

/-- The next message that the manager reads from `w` is a confirmation of an earlier job. -/
def OldConf (w : Wid) (c : Cfg Pid NMsg NLoc) : Prop := ∃ rest, c.buf (some w, none) = .conf :: rest

/-- The manager is asking the workers of `diag`, or reading old confirmations. -/
inductive ReadsOld (diag : List Wid) (k : List NMsg → MProg) (c : Cfg Pid NMsg NLoc) : Prop where
  | ask (l : List Wid) (h : c.loc none = .mgr (sendEach .totalProb l (recvEach diag k))) (hold : ∀ w ∈ diag, OldConf w c)
  | read (d1 d2 : List Wid) (hd : diag = d1 ++ d2)
      (h : c.loc none = .mgr (recvEach d2 fun ms => k (List.replicate d1.length .conf ++ ms))) (hold : ∀ w ∈ d2, OldConf w c)

theorem readsOld_recv {diag d1 d2 : List Wid} {k : List NMsg → MProg} {c c' : Cfg Pid NMsg NLoc} (hnd : diag.Nodup) {e : PyErr}
    (hk : k (List.replicate diag.length .conf) = .done (.error e)) (hd : diag = d1 ++ d2)
    (h : c.loc none = .mgr (recvEach d2 fun ms => k (List.replicate d1.length .conf ++ ms))) (hold : ∀ w ∈ d2, OldConf w c)
    (hs : stepP (netAct prm) none c = some c') : ReadsOld diag k c' := by
  cases d2 with
  | nil =>
    exfalso
    rw [List.append_nil] at hd
    subst hd
    simp only [recvEach, List.append_nil, hk] at h
    simp [stepP, h, netAct] at hs
  | cons w d2 =>
    obtain ⟨rest, hr⟩ := hold w (by simp)
    simp only [recvEach] at h
    simp only [stepP, h, netAct, hr, Option.some.injEq] at hs
    subst hs
    refine .read (d1 ++ [w]) d2 (by simp [hd]) (by simp [List.replicate_succ']) fun x hx => ?_
    obtain ⟨rest', hr'⟩ := hold x (by simp [hx])
    have hne : w ≠ x := by
      rintro rfl
      rw [hd] at hnd
      exact (List.nodup_cons.1 (List.nodup_append.1 hnd).2.1).1 hx
    exact ⟨rest', by simp only; rw [Function.update_of_ne (by simpa using hne.symm)]; exact hr'⟩

theorem readsOld_step {diag : List Wid} {k : List NMsg → MProg} {c c' : Cfg Pid NMsg NLoc} (hnd : diag.Nodup) {e : PyErr}
    (hk : k (List.replicate diag.length .conf) = .done (.error e)) (h : ReadsOld diag k c) {p : Pid}
    (hs : stepP (netAct prm) p c = some c') : ReadsOld diag k c' := by
  rcases p with _ | v
  · cases h with
    | ask l h hold =>
      cases l with
      | nil => exact readsOld_recv hnd hk (d1 := []) rfl (by simpa [sendEach] using h) hold hs
      | cons w l =>
        have h' : c.loc none = .mgr (.send w .totalProb (sendEach .totalProb l (recvEach diag k))) := h
        simp only [stepP, h', netAct, Option.some.injEq] at hs
        subst hs
        refine .ask l (by simp) fun x hx => ?_
        obtain ⟨rest, hr⟩ := hold x hx
        exact ⟨rest, by simpa using hr⟩
    | read d1 d2 hd h hold => exact readsOld_recv hnd hk hd h hold hs
  · have hkeep : ∀ w, OldConf w c → OldConf w c' := by
      rintro w ⟨rest, hr⟩
      obtain ⟨l, hl⟩ := step_report (w := w) hs (by simp)
      exact ⟨rest ++ l, by rw [hl, hr]; rfl⟩
    cases h with
    | ask l h hold => exact .ask l ((step_loc hs (by simp)).trans h) fun w hw => hkeep w (hold w hw)
    | read d1 d2 hd h hold => exact .read d1 d2 hd ((step_loc hs (by simp)).trans h) fun w hw => hkeep w (hold w hw)

theorem reads_all {d : List Wid} {k : List NMsg → MProg} {c : Cfg Pid NMsg NLoc} (hnd : d.Nodup)
    (h : c.loc none = .mgr (recvEach d k)) (hold : ∀ w ∈ d, OldConf w c) :
    ∃ t c', exec (netAct prm) t c = some c' ∧ c'.loc none = .mgr (k (List.replicate d.length .conf)) := by
  induction d generalizing k c with
  | nil => exact ⟨[], c, rfl, h⟩
  | cons w d ih =>
    obtain ⟨rest, hr⟩ := hold w (by simp)
    obtain ⟨hn1, hn2⟩ := List.nodup_cons.1 hnd
    simp only [recvEach] at h
    have hs : stepP (netAct prm) none c = some ⟨Function.update c.loc none (.mgr (recvEach d fun ms => k (.conf :: ms))),
        Function.update c.buf (some w, none) rest⟩ := by
      simp only [stepP, h, netAct, hr]
    obtain ⟨t, c', h1, h2⟩ := ih (k := fun ms => k (.conf :: ms)) (c := ⟨Function.update c.loc none
      (.mgr (recvEach d fun ms => k (.conf :: ms))), Function.update c.buf (some w, none) rest⟩) hn2 (by simp) (by
        intro x hx
        obtain ⟨rest', hr'⟩ := hold x (by simp [hx])
        have hne : x ≠ w := fun e => hn1 (e ▸ hx)
        exact ⟨rest', by simp only; rw [Function.update_of_ne (by simpa using hne)]; exact hr'⟩)
    exact ⟨none :: t, c', by simp only [exec, hs]; exact h1, h2⟩

theorem asks_all {d l : List Wid} {k : List NMsg → MProg} {c : Cfg Pid NMsg NLoc} (hnd : d.Nodup)
    (h : c.loc none = .mgr (sendEach .totalProb l (recvEach d k))) (hold : ∀ w ∈ d, OldConf w c) :
    ∃ t c', exec (netAct prm) t c = some c' ∧ c'.loc none = .mgr (k (List.replicate d.length .conf)) := by
  induction l generalizing c with
  | nil => exact reads_all hnd h hold
  | cons w l ih =>
    have h' : c.loc none = .mgr (.send w .totalProb (sendEach .totalProb l (recvEach d k))) := h
    have hs : stepP (netAct prm) none c = some ⟨Function.update c.loc none (.mgr (sendEach .totalProb l (recvEach d k))),
        Function.update c.buf (none, some w) (c.buf (none, some w) ++ [.op .totalProb])⟩ := by
      simp only [stepP, h', netAct]
    obtain ⟨t, c', h1, h2⟩ := ih (c := ⟨Function.update c.loc none (.mgr (sendEach .totalProb l (recvEach d k))),
        Function.update c.buf (none, some w) (c.buf (none, some w) ++ [.op .totalProb])⟩) (by simp) (by
        intro x hx
        obtain ⟨rest', hr'⟩ := hold x hx
        exact ⟨rest', by simpa using hr'⟩)
    exact ⟨none :: t, c', by simp only [exec, hs]; exact h1, h2⟩

/-- C102 (negation of the property): workers whose sockets hold an unread confirmation of an earlier job (`C102_unread`) make every
measurement of their next job fail, whatever the state, the schedule and the draw (except 0): the manager takes the confirmations
for the probabilities it asked for (reports are not checked for their job id), and selects no worker. -/
theorem C102_old_reports (hnd : ws.Nodup) {indices : List Nat} {r : ℝ} (hr : 0 < r) {c : Cfg Pid NMsg NLoc}
    (hc : c.loc none = .mgr (sendMeasure indices r ws)) (hold : ∀ w ∈ ws, w.1 = w.2 → ∃ rest, c.buf (some w, none) = .conf :: rest) :
    (∀ t c' res, exec (netAct prm) t c = some c' → c'.loc none = .mgr (.done res) → res = .error .attributeError) ∧
      ∃ t c', exec (netAct prm) t c = some c' ∧ c'.loc none = .mgr (.done (.error .attributeError)) := by
  have hperm : (diagWorkers ws).Perm (ws.filter fun w => w.1 = w.2) := List.mergeSort_perm _ _
  have hdn : (diagWorkers ws).Nodup := hperm.nodup_iff.2 (hnd.filter _)
  have hold' : ∀ w ∈ diagWorkers ws, OldConf w c := fun w hw => by
    have := hperm.mem_iff.1 hw
    simp only [List.mem_filter, decide_eq_true_eq] at this
    exact hold w this.1 this.2
  obtain ⟨k, hk, hke⟩ : ∃ k, sendMeasure indices r ws = sendEach .totalProb (diagWorkers ws) (recvEach (diagWorkers ws) k) ∧
      k (List.replicate (diagWorkers ws).length .conf) = .done (.error .attributeError) := by
    refine ⟨_, rfl, ?_⟩
    simp only [List.map_replicate]
    have : NMsg.prob .conf = 0 := rfl
    rw [this, select_zero hr]
  rw [hk] at hc
  constructor
  · intro t c' res he hres
    have hinv := exec_keeps (Inv := ReadsOld (diagWorkers ws) k) (fun _ _ _ h hs => readsOld_step hdn hke h hs)
      (.ask _ hc hold') he
    have hrecv : ∀ (l : List Wid) k', c'.loc none = .mgr (recvEach l k') → l = [] := by
      intro l k' h
      cases l with
      | nil => rfl
      | cons w l =>
        rw [hres] at h
        cases h
    cases hinv with
    | ask l h _ =>
      cases l with
      | nil =>
        have h0 : c'.loc none = .mgr (recvEach (diagWorkers ws) k) := h
        have e := hrecv _ _ h0
        rw [e] at h0 hke
        rw [hres] at h0
        simp only [recvEach] at h0
        have hke' : k [] = .done (.error .attributeError) := hke
        rw [hke'] at h0
        injection h0 with h0
        injection h0
      | cons w l =>
        rw [hres] at h
        cases h
    | read d1 d2 hd h _ =>
      have e := hrecv _ _ h
      subst e
      rw [List.append_nil] at hd
      rw [hres] at h
      simp only [recvEach, List.append_nil] at h
      rw [← hd, hke] at h
      injection h with h
      injection h
  · obtain ⟨t, c', h1, h2⟩ := asks_all (prm := prm) hdn hc hold'
    exact ⟨t, c', h1, by rw [h2, hke]⟩

/-! ## Jobs that end well -/

/-- The closing of the pool when all workers are idle: it ends under every schedule, all workers have left the job, and no message
between the manager and any worker is left. -/
theorem close_clean {n K N C M : Nat} {v : List ℂ} {st : Wid → Wid → Nat} {pm : MProg} {c : Cfg Pid NMsg NLoc}
    (hg : GridOK prm K N C M ws) (hD : Distributed K N n v C M st pm c) :
    ∃ c2, AlwaysEnds (netAct prm) (startOp c (closePool ws)) c2 ∧ c2.loc none = .mgr (.done (.ok none)) ∧
      (∀ w ∈ ws, ∃ s, c2.loc (some w) = .wkr s ∧ s.pc = .closed) ∧
      ∀ w, c2.buf (some w, none) = [] ∧ c2.buf (none, some w) = [] := by
  obtain ⟨f, rfl, hR, hst⟩ := hD.cfg
  have hidle : ∀ w ∈ ws, (f w).pc = .idle := fun w hw => (hR.grid w.1 ((hg.mem w).1 hw).1 w.2 ((hg.mem w).1 hw).2).1
  have e0 : startOp (netCfg pm f (nbuf C M st noMsg noMsg)) (closePool ws) = netCfg (closePool ws) f (nbuf C M st noMsg noMsg) := by
    apply cfg_ext
    · funext x
      rcases x with _ | w <;> simp [startOp, netCfg]
    · rfl
  have h1 := sendEach_runs (prm := prm) (C := C) (M := M) (st := st) (f := f) (ops := noMsg) (cf := noMsg) .close
    (.done (.ok none)) hg.nodup
  simp only [noMsg, List.nil_append] at h1
  have h2 := deliver_runs (prm := prm) (C := C) (M := M) (st := st) (f := f) (cf := noMsg) (pm := .done (.ok none)) .close
    hg.nodup hidle
  have hstuck : Stuck (netAct prm) (netCfg (.done (.ok none)) (fun w => if w ∈ ws then handled prm .close w (f w) else f w)
      (nbuf C M st noMsg noMsg)) := by
    refine stuck_of fun w => Or.inl ?_
    by_cases hw : w ∈ ws
    · simp only [if_pos hw]
      rfl
    · simp only [if_neg hw]
      exact hR.others w fun h => hw ((hg.mem w).2 h)
  refine ⟨_, e0 ▸ (Runs.trans h1 h2).alwaysEnds hstuck, rfl, fun w hw => ⟨_, rfl, ?_⟩, fun w => ⟨rfl, rfl⟩⟩
  simp only [if_pos hw]
  rfl

/-- C102 (partial: jobs as in C88, all of whose operations succeed): after such a job and the closing of the pool, which ends under
every schedule, all its workers have left the job and wait for the next one, and no message between the manager and any worker is
left. -/
theorem C102_clean_partial {n : Nat} {groups : List (List Nat)} {vecs : List (List ℂ)} {states : List PbState} {workers : List Wkr}
    {placed : List Placed} {rest : List Wkr} {C M : Nat} {pm : MProg} {c : Cfg Pid NMsg NLoc} (hn : n ≤ 30)
    (hfed : FedOK n groups vecs)
    (hnorm : Spec.totalProb n (initAmp n groups vecs) = 1)
    (hset : setupStates n groups (vecs.map .vec) = .ok states) (hpl : placeWorkers n workers = .ok (placed, rest))
    (hprm : JobParams placed prm C M) (hstart : JobStart n states placed pm c)
    (hsched : ∀ p ∈ placed, ∀ w c, ((prm w).sched c).Perm (List.range (p.out.2 - p.out.1)))
    (hgarb : ∀ w c, (prm w).garbage c = 0) (hu : ∀ i c, 0 < (prm (i, i)).draw c ∧ (prm (i, i)).draw c < 1)
    {ops : List (JobOp × ℝ)} (hops : ∀ o ∈ ops, OpOK n o.1 ∧ 0 < o.2 ∧ o.2 < 1) :
    ∃ results c1 c2, JobRuns prm (placed.map Placed.wid) ops c results c1 ∧
      AlwaysEnds (netAct prm) (startOp c1 (closePool (placed.map Placed.wid))) c2 ∧ c2.loc none = .mgr (.done (.ok none)) ∧
      (∀ p ∈ placed, ∃ s, c2.loc (some p.wid) = .wkr s ∧ s.pc = .closed) ∧
      ∀ w, c2.buf (some w, none) = [] ∧ c2.buf (none, some w) = [] := by
  have hw : ∃ S, List.Subperm S workers ∧ Enough n S := by
    rw [← C59_draw_iff]
    unfold placeWorkers at hpl
    rcases hd : drawWorkers n workers with e | x
    · simp [hd, bind, Except.bind] at hpl
    · exact ⟨x, rfl⟩
  obtain ⟨states', placed', rest', v, s1, s2, -, -, s5, s6, K, N, s7⟩ := C84_setup_partial hn hfed hw
  rw [hset] at s1
  injection s1 with s1
  rw [hpl] at s2
  injection s2 with s2
  obtain ⟨rfl, rfl⟩ := Prod.mk.inj s2
  subst s1
  obtain ⟨hg, hD⟩ := s7 prm C M pm c hprm hstart
  have hT : norm2 v = 1 := by
    rw [← norm2_total hD.size, ← hnorm]
    exact totalProb_congr s6
  have hsched' := sched_grid hpl hprm hg hsched
  obtain ⟨results, b', c', pm', st', i1, -, i3⟩ := ops_steps (arena := List.replicate (2 ^ n) 0) hn hg hsched' hgarb hu hops hT hD
    (by simp)
  obtain ⟨c2, j1, j2, j3, j4⟩ := close_clean hg i3
  exact ⟨results, c', c2, i1, j1, j2, fun p hp => j3 _ (List.mem_map.2 ⟨p, hp, rfl⟩), j4⟩

/-! ## Cases -/

/-- A job of one worker, which died in an earlier job. -/
example (r : ℝ) {t : List Pid} {c' : Cfg Pid NMsg NLoc} (h : exec (netAct gridPrm) t
    (startOp (netCfg (.done (.ok none)) (fun _ => ⟨⟨1, [1, 0], [0, 0]⟩, .crashed, 0⟩) fun _ => []) (sendMeasure [0] r [(0, 0)]))
      = some c') (res : Option (Nat × ℝ)) : c'.loc none ≠ .mgr (.done (.ok res)) :=
  C102_dead_worker (ws := [(0, 0)]) (w := (0, 0)) (by simp) rfl rfl rfl (op := .measure [0] none) (r := r)
    (by simp [opProg, indicesToPb, bind, Except.bind]) h res

/-- Four workers, the second of which is lost during a kron product. -/
example : ∃ t c1 c2, exec (netAct gridPrm) t (netCfg (sendKronprod gridOp [(0, 0), (0, 1), (1, 0), (1, 1)]) gridSt
      (nbuf 1 2 (fun _ _ => 0) noMsg noMsg)) = some c1 ∧ LosesWorker [(0, 0), (0, 1), (1, 0), (1, 1)] (0, 1) c1 c2 ∧
    ∀ t' c', exec (netAct gridPrm) t' c2 = some c' → ∃ rest, c'.buf (some (1, 1), none) = .conf :: rest := by
  obtain ⟨t, c1, c2, h1, h2, h3⟩ := C102_unread (prm := gridPrm) (before := [(0, 0)]) gridOK
    (fun _ _ => by simpa [gridPrm, List.range_succ] using List.Perm.swap 0 1 [])
    (mats := gridOp) ⟨by simp [gridOp], by simp [gridOp], by simp [gridOp, Key.qubits, Mat.shape],
      by simp [gridOp, Key.qubits], by simp [gridOp, Mat.WF], by simp [gridOp]⟩ (gridStart _)
  exact ⟨t, c1, c2, h1, h2, fun t' c' h => h3 t' c' h (1, 1) (by simp)⟩

/-- One of them is the only worker of the next job. -/
example (f : Wid → WSt) : ∃ t c', exec (netAct gridPrm) t (netCfg (sendMeasure [0] (1 / 2) [(0, 0)]) f
    fun e => if e = (some (0, 0), none) then [.conf] else []) = some c' ∧ c'.loc none = .mgr (.done (.error .attributeError)) :=
  (C102_old_reports (ws := [(0, 0)]) (by simp) (r := 1 / 2) (by norm_num) rfl (by simp [netCfg])).2

/-- A job that measures a qubit of an entangled state on four of five workers. -/
example : ∃ states placed rest prm c results c1 c2, setupStates 2 [[0, 1]] [.vec bellV] = .ok states ∧
    placeWorkers 2 fiveWorkers = .ok (placed, rest) ∧
    JobRuns prm (placed.map Placed.wid) [(.measure [1] none, 1 / 2)] c results c1 ∧
    AlwaysEnds (netAct prm) (startOp c1 (closePool (placed.map Placed.wid))) c2 ∧
    ∀ p ∈ placed, ∃ s, c2.loc (some p.wid) = .wkr s ∧ s.pc = .closed := by
  obtain ⟨states, placed, rest, v, s1, s2, -, s4, -⟩ := C84_setup_partial (by norm_num) bell_fed five_enough
  obtain ⟨prm, c, h1, h2, h3, h4, h5⟩ := job_exists s2 s4 (.done (.ok none))
  obtain ⟨results, c1, c2, i1, i2, -, i3, -⟩ := C102_clean_partial (by norm_num) bell_fed bell_init s1 s2 h1 h2 h3 h4 h5
    (ops := [(.measure [1] none, 1 / 2)]) (by
      simp only [List.mem_singleton, forall_eq]
      exact ⟨⟨by constructor <;> simp, by simp⟩, by norm_num, by norm_num⟩)
  exact ⟨states, placed, rest, prm, c, results, c1, c2, s1, s2, i1, i2, i3⟩

end QIP.Props
