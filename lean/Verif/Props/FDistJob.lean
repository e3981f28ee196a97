import Verif.Lemmas.FNetMeasure
import Verif.Props.FDistCircuit
import Verif.Props.FDistNet
import Verif.Spec.FNet

/-!
# C115: the processes
-/

namespace QIP.Props

open QIP Spec MeasureTheory

variable {A : Arith} {F : FOps} {u : ℝ} {t n K N C M : Nat} {prm : Wid → FNet.WParam} {ws : List Wid} {st : Wid → Wid → Nat}
  {v : List (FC A)} {f : Wid → FNet.WSt A}

/-- A run from `c` that ends as the result `r` of `distRunF` says; `outs` are earlier outcomes. -/
def JobRun (prm : Wid → FNet.WParam) (K N n C M : Nat) (c : Cfg Pid (FNet.NMsg A) (FNet.NLoc A)) (outs : List Nat)
    (r : List Nat × Except PyErr (List (FC A))) : Prop :=
  match r with
  | (os, .ok v') => v'.length = 2 ^ n ∧ ∃ f' st', FNet.GridReady K N n v' f' ∧ FNet.StOK st' ∧
      Runs (FNet.netAct prm) c (FNet.netCfg (.done (outs ++ os) none) f' (FNet.nbuf C M st' FNet.noMsg FNet.noMsg))
  | (os, .error .attributeError) => ∃ v' f' st', v'.length = 2 ^ n ∧ FNet.GridReady K N n v' f' ∧ FNet.StOK st' ∧
      Runs (FNet.netAct prm) c (FNet.netCfg (.done (outs ++ os) (some .attributeError)) f' (FNet.nbuf C M st' FNet.noMsg FNet.noMsg))
  | (os, .error .valueError) => os ≠ [] ∧ ∃ f' st' k, (∀ i < K, (f' (i, i)).pc = .crashed) ∧
      Stuck (FNet.netAct prm) (FNet.netCfg (.recv (0, 0) k) f' (FNet.nbuf C M st' FNet.noMsg FNet.noMsg)) ∧
      Runs (FNet.netAct prm) c (FNet.netCfg (.recv (0, 0) k) f' (FNet.nbuf C M st' FNet.noMsg FNet.noMsg))
  | _ => False

theorem JobRun.prepend {c c' : Cfg Pid (FNet.NMsg A) (FNet.NLoc A)} (h : Runs (FNet.netAct prm) c c') {outs : List Nat}
    {r : List Nat × Except PyErr (List (FC A))} (hr : JobRun prm K N n C M c' outs r) : JobRun prm K N n C M c outs r := by
  unfold JobRun at hr ⊢
  split at hr
  · obtain ⟨h1, f', st', h2, h3, h4⟩ := hr
    exact ⟨h1, f', st', h2, h3, h.trans h4⟩
  · obtain ⟨v', f', st', h1, h2, h3, h4⟩ := hr
    exact ⟨v', f', st', h1, h2, h3, h.trans h4⟩
  · obtain ⟨h1, f', st', k, h2, h3, h4⟩ := hr
    exact ⟨h1, f', st', k, h2, h3, h.trans h4⟩
  · exact hr

theorem JobRun.outcome {c : Cfg Pid (FNet.NMsg A) (FNet.NLoc A)} {outs : List Nat} {m : Nat}
    {r : List Nat × Except PyErr (List (FC A))} (hr : JobRun prm K N n C M c (outs ++ [m]) r) : JobRun prm K N n C M c outs (m :: r.1, r.2) := by
  obtain ⟨os, r⟩ := r
  unfold JobRun at hr ⊢
  simp only [List.append_assoc, List.singleton_append] at hr ⊢
  split at hr <;> rename_i heq
  · cases heq
    exact hr
  · cases heq
    exact hr
  · cases heq
    exact ⟨by simp, hr.2⟩
  · exact absurd hr id

theorem job_run (hg : FNet.GridOK prm K N C M ws) (hops : ∀ w, (prm w).ops = F)
    (hsched : ∀ w c, ((prm w).sched c).Perm (List.range N)) {reqs : List (FNet.Req A)} {steps : List QStep}
    (hreq : List.Forall₂ (AsksFor A t) reqs steps) (hok : ∀ q ∈ steps, StepOK n q) (hKN : K * N = 2 ^ n) (hv : v.length = 2 ^ n)
    (hR : FNet.GridReady K N n v f) (hst : FNet.StOK st) {cnt : Wid → Nat} (hcnt : ∀ i < K, ∀ j < K, cnt (i, j) = (f (i, j)).cnt)
    (rs : List ℝ) (outs : List Nat) :
    JobRun prm K N n C M (FNet.netCfg (FNet.jobOps F ws reqs rs outs) f (FNet.nbuf C M st FNet.noMsg FNet.noMsg)) outs
      (distRunF F n K N (callsOf prm N cnt reqs) (drawsIn prm cnt reqs rs) v) := by
  induction hreq generalizing v f st cnt rs outs with
  | nil =>
    refine ⟨hv, f, st, hR, hst, ?_⟩
    rw [List.append_nil]
    exact Runs.refl _
  | @cons req step reqs steps h1 hrest ih =>
    have hvK : v.length = K * N := by rw [hv, hKN]
    have hs := hok step (by simp)
    have hok' : ∀ q ∈ steps, StepOK n q := fun q hq => hok q (by simp [hq])
    cases h1 with
    | @gate g back gs mats matsF hm hF =>
      have key : ∃ w, distKronF (fun i j => (prm (i, j)).run (cnt (i, j))) matsF n K N v (fun _ _ => List.replicate N 0)
          (fun i j => (prm (i, j)).sched (cnt (i, j))) (FNet.orderOf prm) = .ok w ∧ w.length = K * N := by
        obtain ⟨hf, hgs, hsw⟩ := hs
        exact gate_dist_runs _ hf hgs hsw hm hF hg.posN hKN hvK (fun _ _ => by simp) (fun _ _ => hsched _ _) fun j hj => FNet.orderOf_perm hg hj
      obtain ⟨w, hw, hwl⟩ := key
      have hw' := hw
      rw [FNet.distKron_buffer (arena' := fun i j => if i < K ∧ j < K then (f (i, j)).b.arena else List.replicate N 0)
        (fun _ _ => hsched _ _) (fun _ _ => by simp) (by
          intro i j
          split
          · next hij => exact (hR.grid i hij.1 j hij.2).2.2.2
          · simp)] at hw'
      obtain ⟨f1, hr1, hR1, hc1⟩ := FNet.kron_runs hg hvK hR hst (fun i hi j hj => by rw [hcnt i hi j hj]) (fun i hi j hj => if_pos ⟨hi, hj⟩)
        (fun i hi j hj => by rw [hcnt i hi j hj]) hw' (FNet.jobOps F ws reqs rs outs)
      rw [callsOf, drawsIn, distRunF, hw]
      refine JobRun.prepend hr1 (ih hok' (by rw [hwl, hKN]) hR1 (FNet.stOK_scatter (FNet.stOK_gather hst _ _) _ _) ?_ rs outs)
      intro i hi j hj
      rw [hc1 i hi j hj, hcnt i hi j hj]
      rfl
    | @measure indices =>
      have hi : IdxOK n indices := hs
      rw [callsOf, drawsIn, distRunF]
      simp only [List.headD_cons, List.tail_cons]
      have hch := FNet.choose_runs (C := C) (M := M) (st := st) hg hops hi hR (rs.headD 0) outs (fun m => FNet.jobOps F ws reqs rs.tail (outs ++ [m]))
        (draw := fun i => (prm (i, i)).draw (cnt (i, i) + 1)) (fun i hi => by rw [hcnt i hi i hi])
      rcases hc : distChooseF F indices n K N (v.map FC.val) (rs.headD 0) (fun i => (prm (i, i)).draw (cnt (i, i) + 1)) with e | ⟨m, p⟩ <;>
        rw [hc] at hch <;> simp only at hch ⊢
      · obtain ⟨rfl, f', hR', hr⟩ := hch
        refine ⟨v, f', st, hv, hR', hst, ?_⟩
        rw [List.append_nil]
        exact hr
      · obtain ⟨hm, f', hR', hc', hr⟩ := hch
        by_cases hp : 0 < p ∧ p ≤ 1
        · obtain ⟨out, ho1, ho2⟩ := FNet.distMeasure_known hvK hi hc hm hp (arena := fun _ => List.replicate N 0) (fun _ _ => by simp)
          obtain ⟨f2, hR2, hc2, hr2⟩ := FNet.collapse_runs hg hops hi hvK hR' hst hm hp (FNet.jobOps F ws reqs rs.tail (outs ++ [m]))
          rw [ho1]
          simp only
          rw [ho2]
          refine JobRun.outcome (JobRun.prepend (hr.trans hr2) (ih hok' (by rw [FNet.collapsedAll_length, hKN]) hR2 (FNet.stOK_scatter hst _ _) ?_ _ _))
          intro i hi j hj
          rw [hc2 i hi j hj, hc' i hi j hj, hcnt i hi j hj]
          simp only [opsFor]
          split <;> rfl
        · rw [FNet.distMeasure_unknown hg.posK hc hm hp]
          obtain ⟨f2, k, h1, h2, h3⟩ := FNet.collapse_deadlock hg hR' (st := st) hm hp (FNet.jobOps F ws reqs rs.tail (outs ++ [m]))
          exact ⟨by simp, f2, st, k, h1, h2, hr.trans h3⟩

/-- How the processes end, given the result of `distRunF`: with the state distributed over the workers and the outcomes at the manager;
with an exception in the manager because no worker was selected; or with dead diagonal workers and a manager that waits for them for ever. -/
def JobEnds (K N n C M : Nat) (r : List Nat × Except PyErr (List (FC A))) (c' : Cfg Pid (FNet.NMsg A) (FNet.NLoc A)) : Prop :=
  match r with
  | (os, .ok v') => ∃ st', DistributedF K N n v' C M st' (.done os none) c'
  | (os, .error .attributeError) => ∃ v' st', DistributedF K N n v' C M st' (.done os (some .attributeError)) c'
  | (os, .error .valueError) => os ≠ [] ∧ (∃ k, c'.loc none = .mgr (.recv (0, 0) k)) ∧
      ∀ i < K, ∃ s, c'.loc (some (i, i)) = .wkr s ∧ s.pc = .crashed
  | _ => False

/-- C115 for the processes: a job of gates and measurements on a grid of workers.  Under every schedule it ends in the same
configuration, bit for bit, and this is the one that `distRunF` says, for the random numbers that manager and workers draw. -/
theorem C115_network (hg : FNet.GridOK prm K N C M ws) (hops : ∀ w, (prm w).ops = F)
    (hsched : ∀ w c, ((prm w).sched c).Perm (List.range N)) {reqs : List (FNet.Req A)} {steps : List QStep}
    (hreq : List.Forall₂ (AsksFor A t) reqs steps) (hok : ∀ q ∈ steps, StepOK n q) {rs : List ℝ}
    {c : Cfg Pid (FNet.NMsg A) (FNet.NLoc A)} (hD : DistributedF K N n v C M st (FNet.jobOps F ws reqs rs []) c)
    {cnt : Wid → Nat} (hcnt : ∀ i < K, ∀ j < K, received c (i, j) = cnt (i, j)) :
    ∃ c', AlwaysEnds (FNet.netAct prm) c c' ∧
      JobEnds K N n C M (distRunF F n K N (callsOf prm N cnt reqs) (drawsIn prm cnt reqs rs) v) c' := by
  obtain ⟨f, rfl, hR, hst⟩ := hD.cfg
  have h := job_run hg hops hsched hreq hok hD.cover hD.size hR hst (cnt := cnt) (fun i hi j hj => (hcnt i hi j hj).symm) rs []
  have hstuck : ∀ {v' : List (FC A)} {f' : Wid → FNet.WSt A} {st' : Wid → Wid → Nat} {os err}, FNet.GridReady K N n v' f' →
      Stuck (FNet.netAct prm) (FNet.netCfg (.done os err) f' (FNet.nbuf C M st' FNet.noMsg FNet.noMsg)) := by
    intro v' f' st' os err hR'
    apply FNet.stuck_of
    intro w
    by_cases hw : w.1 < K ∧ w.2 < K
    · exact Or.inr (Or.inr ⟨(hR'.grid w.1 hw.1 w.2 hw.2).1, rfl⟩)
    · exact Or.inl (hR'.others w hw)
  unfold JobRun at h
  unfold JobEnds
  split at h
  · obtain ⟨h1, f', st', h2, h3, h4⟩ := h
    exact ⟨_, h4.alwaysEnds (hstuck h2), st', DistributedF.of_ready hD.cover h1 h2 h3 _⟩
  · obtain ⟨v', f', st', h1, h2, h3, h4⟩ := h
    exact ⟨_, h4.alwaysEnds (hstuck h2), v', st', DistributedF.of_ready hD.cover h1 h2 h3 _⟩
  · obtain ⟨h1, f', st', k, h2, h3, h4⟩ := h
    exact ⟨_, h4.alwaysEnds h3, h1, ⟨k, rfl⟩, fun i hi => ⟨_, rfl, h2 i hi⟩⟩
  · exact absurd h id

theorem performs_calls (hg : FNet.GridOK prm K N C M ws) (hsched : ∀ w c, ((prm w).sched c).Perm (List.range N))
    {reqs : List (FNet.Req A)} {steps : List QStep} (hreq : List.Forall₂ (AsksFor A t) reqs steps) (cnt : Wid → Nat) :
    List.Forall₂ (DPerforms A t n K N) (callsOf prm N cnt reqs) steps := by
  induction hreq generalizing cnt with
  | nil => exact .nil
  | cons h _ ih =>
    cases h with
    | gate hm hF => exact .cons (.gate hm hF (fun _ _ => hsched _ _) (fun _ _ => by simp) fun j hj => FNet.orderOf_perm hg hj) (ih _)
    | measure => exact .cons (.measure fun _ _ => by simp) (ih _)

/-- C115 for the processes, the state: if the job ends well, then the workers have ranges of a state that is close to the exact one for
the outcomes that the client gets. -/
theorem C115_network_state_partial [A.Ideal] (hF : Accurate F u) (hg : FNet.GridOK prm K N C M ws) (hops : ∀ w, (prm w).ops = F)
    (hsched : ∀ w c, ((prm w).sched c).Perm (List.range N)) (hdraw : ∀ w c, 0 ≤ (prm w).draw c ∧ (prm w).draw c ≤ 1)
    {reqs : List (FNet.Req A)} {steps : List QStep}
    (hreq : List.Forall₂ (AsksFor A t) reqs steps) (hok : ∀ q ∈ steps, StepOK n q) {rs : List ℝ} (hrs : ∀ r ∈ rs, 0 ≤ r ∧ r ≤ 1)
    {c : Cfg Pid (FNet.NMsg A) (FNet.NLoc A)} (hD : DistributedF K N n v C M st (FNet.jobOps F ws reqs rs []) c)
    (hT : 0 < totalProb n (vals v)) :
    ∃ c', AlwaysEnds (FNet.netAct prm) c c' ∧ ∀ os, c'.loc none = .mgr (.done os none) →
      os.length = countMeasures steps ∧ ∃ v' st', DistributedF K N n v' C M st' (.done os none) c' ∧
        (0 < branchProb n steps os (vals v) →
          dist2 n (fun c => ((1 / √(totalProb n (vals v')) : ℝ) : ℂ) * vals v' c)
              (fun c => ((1 / √(totalProb n (branchOf n steps os (vals v))) : ℝ) : ℂ) * branchOf n steps os (vals v) c)
            ≤ 2 * circuitErrD A.u u t n K 0 steps / √(branchProb n steps os (vals v))) := by
  obtain ⟨c', h1, h2⟩ := C115_network hg hops hsched hreq hok hD (cnt := received c) fun _ _ _ _ => rfl
  refine ⟨c', h1, fun os hos => ?_⟩
  have hx : ∀ x ∈ drawsIn prm (received c) reqs rs, (0 ≤ x.1 ∧ x.1 ≤ 1) ∧ ∀ i, 0 ≤ x.2 i ∧ x.2 i ≤ 1 := by
    clear h2 hD hreq
    generalize received c = cnt
    induction reqs generalizing cnt rs with
    | nil => simp [drawsIn]
    | cons q reqs ih =>
      cases q with
      | kron mats => exact ih hrs _
      | measure indices =>
        intro x hx
        rw [drawsIn, List.mem_cons] at hx
        rcases hx with rfl | hx
        · refine ⟨?_, fun i => hdraw _ _⟩
          cases rs with
          | nil => simp
          | cons r rs => exact hrs r (by simp)
        · exact ih (fun r hr => hrs r (List.mem_of_mem_tail hr)) _ x hx
  generalize hr : distRunF F n K N (callsOf prm N (received c) reqs) (drawsIn prm (received c) reqs rs) v = r at h2
  unfold JobEnds at h2
  split at h2
  · rename_i os' v'
    obtain ⟨st', h2⟩ := h2
    have e : os' = os := by
      have := h2.manager
      rw [hos] at this
      injection this with this
      injection this with this
      exact this.symm
    subst e
    obtain ⟨h3, -, h5⟩ := C115_state_partial (t := t) hF (performs_calls hg hsched hreq _) hok hg.posN hD.cover hD.size hT hx hr
    exact ⟨h3, v', st', h2, h5⟩
  · obtain ⟨v', st', h2⟩ := h2
    have := h2.manager
    rw [hos] at this
    injection this with this
    injection this with _ this
    cases this
  · obtain ⟨-, ⟨k, h2⟩, -⟩ := h2
    rw [hos] at h2
    injection h2 with h2
    cases h2
  · exact absurd h2 id

/-! ### Random numbers -/

theorem callsOf_drawn (reqs0 : List (FNet.Req A)) (xs : List (ℝ × (Nat → ℝ))) (reqs : List (FNet.Req A)) (cnt : Wid → Nat) :
    callsOf (drawnWith prm reqs0 xs) N cnt reqs = callsOf prm N cnt reqs := by
  induction reqs generalizing cnt with
  | nil => rfl
  | cons q reqs ih =>
    cases q with
    | kron mats =>
      rw [callsOf, callsOf, ih]
      rfl
    | measure indices => rw [callsOf, callsOf, ih]

theorem drawsIn_drawn {reqs : List (FNet.Req A)} {steps : List QStep} (hreq : List.Forall₂ (AsksFor A t) reqs steps)
    {xs : List (ℝ × (Nat → ℝ))} (hx : xs.length = countMeasures steps) {p : Wid → FNet.WParam} {s : Nat} {cnt : Wid → Nat} (hc : ∀ i, cnt (i, i) = s)
    (hp : ∀ i c, s ≤ c → (p (i, i)).draw c = drawAt reqs s xs i c) : drawsIn p cnt reqs (xs.map Prod.fst) = xs := by
  induction hreq generalizing xs s cnt with
  | nil =>
    cases xs with
    | nil => rfl
    | cons => simp [countMeasures] at hx
  | cons h _ ih =>
    cases h with
    | gate hm hF =>
      rw [drawsIn]
      refine ih (s := s + 2) (by simpa [countMeasures] using hx) (fun i => by rw [hc]; rfl) fun i c h => ?_
      rw [hp i c (by omega), drawAt]
    | measure =>
      cases xs with
      | nil => simp [countMeasures] at hx
      | cons x xs =>
        rw [drawsIn]
        simp only [List.map_cons, List.headD_cons, List.tail_cons]
        congr 1
        · refine Prod.ext rfl (funext fun i => ?_)
          simp only [hc]
          rw [hp i _ (by omega), drawAt, if_pos rfl]
          rfl
        · refine ih (s := s + 4) (by simpa [countMeasures] using hx) (fun i => by rw [hc]; simp [opsFor]) fun i c h => ?_
          rw [hp i c (by omega), drawAt, if_neg (by omega)]
          rfl

theorem DistributedF.start {pm pm' : FNet.MProg A} {c : Cfg Pid (FNet.NMsg A) (FNet.NLoc A)} (h : DistributedF K N n v C M st pm c) :
    DistributedF K N n v C M st pm' (startJob c pm') :=
  ⟨h.size, h.cover, rfl, h.workers, h.others, h.fromManager, h.toManager, h.self, h.acks, h.direction⟩

theorem gridOK_drawn (hg : FNet.GridOK prm K N C M ws) (reqs : List (FNet.Req A)) (xs : List (ℝ × (Nat → ℝ))) :
    FNet.GridOK (drawnWith prm reqs xs) K N C M ws :=
  ⟨hg.posK, hg.posN, hg.posC, hg.posM, hg.size, hg.chunk, hg.inflight, hg.nodup, hg.mem, hg.regs_nodup, hg.regs⟩

/-- The job of the processes with the random numbers `x` gives what `distRunF` gives with them. -/
theorem C115_network_draws (hg : FNet.GridOK prm K N C M ws) (hops : ∀ w, (prm w).ops = F)
    (hsched : ∀ w c, ((prm w).sched c).Perm (List.range N)) {reqs : List (FNet.Req A)} {steps : List QStep}
    (hreq : List.Forall₂ (AsksFor A t) reqs steps) (hok : ∀ q ∈ steps, StepOK n q) {pm : FNet.MProg A}
    {c : Cfg Pid (FNet.NMsg A) (FNet.NLoc A)} (hD : DistributedF K N n v C M st pm c)
    (hfresh : ∀ i < K, ∀ j < K, received c (i, j) = 0) {k : Nat} (hk : k = countMeasures steps) (x : Fin k → JobDraw → ℝ) :
    ∃ c', JobEndsIn F prm ws reqs c x c' ∧
      JobEnds K N n C M (distRunF F n K N (callsOf prm N (fun _ => 0) reqs) (measureDraws x) v) c' := by
  obtain ⟨c', h1, h2⟩ := C115_network (gridOK_drawn hg reqs (measureDraws x)) (F := F) hops hsched hreq hok
    (hD.start (pm' := FNet.jobOps F ws reqs ((measureDraws x).map Prod.fst) [])) (cnt := fun _ => 0) hfresh
  refine ⟨c', h1, ?_⟩
  rwa [callsOf_drawn, drawsIn_drawn hreq (by simp [measureDraws, hk]) (fun _ => rfl) fun i c _ => rfl] at h2

theorem jobDrawsFor_runs (hg : FNet.GridOK prm K N C M ws) (hops : ∀ w, (prm w).ops = F)
    (hsched : ∀ w c, ((prm w).sched c).Perm (List.range N)) {reqs : List (FNet.Req A)} {steps : List QStep}
    (hreq : List.Forall₂ (AsksFor A t) reqs steps) (hok : ∀ q ∈ steps, StepOK n q) {pm : FNet.MProg A}
    {c : Cfg Pid (FNet.NMsg A) (FNet.NLoc A)} (hD : DistributedF K N n v C M st pm c)
    (hfresh : ∀ i < K, ∀ j < K, received c (i, j) = 0) {os : List Nat} (hlen : os.length = countMeasures steps) :
    jobDrawsFor F prm ws reqs c os = distDrawsFor F n K N (callsOf prm N (fun _ => 0) reqs) v os := by
  have key := C115_network_draws (F := F) hg hops hsched hreq hok hD hfresh hlen
  ext x
  obtain ⟨c', h1, h2⟩ := key x
  constructor
  · rintro ⟨c'', h3, h4⟩
    obtain ⟨tr, htr, -⟩ := h3.2.choose_spec [] _ rfl
    obtain rfl := h1.unique ⟨tr, htr⟩ h3.1
    generalize hr : distRunF F n K N (callsOf prm N (fun _ => 0) reqs) (measureDraws x) v = r at h2
    unfold JobEnds at h2
    split at h2
    · rename_i os' v'
      obtain ⟨st', h2⟩ := h2
      have := h2.manager
      rw [h4] at this
      injection this with this
      injection this with this
      exact ⟨v', by rw [hr, this]⟩
    · obtain ⟨v', st', h2⟩ := h2
      have := h2.manager
      rw [h4] at this
      injection this with this
      injection this with _ this
      cases this
    · obtain ⟨-, ⟨k, h2⟩, -⟩ := h2
      rw [h4] at h2
      injection h2 with h2
      cases h2
    · exact absurd h2 id
  · rintro ⟨v', hr⟩
    rw [hr] at h2
    obtain ⟨st', h2⟩ := h2
    exact ⟨c', h1, h2.manager⟩

/-- C115 for the processes, probabilities: bounds of the probability that the job ends with the outcomes `os`; the random numbers
with which the workers reject a probability make the job hang. -/
theorem C115_network_law_partial [A.Ideal] (hF : Accurate F u) (hg : FNet.GridOK prm K N C M ws) (hops : ∀ w, (prm w).ops = F)
    (hsched : ∀ w c, ((prm w).sched c).Perm (List.range N)) {reqs : List (FNet.Req A)} {steps : List QStep}
    (hreq : List.Forall₂ (AsksFor A t) reqs steps) (hok : ∀ q ∈ steps, StepOK n q) {pm : FNet.MProg A}
    {c : Cfg Pid (FNet.NMsg A) (FNet.NLoc A)} (hD : DistributedF K N n v C M st pm c)
    (hfresh : ∀ i < K, ∀ j < K, received c (i, j) = 0) {q : ℝ} (hT : 0 < totalProb n (vals v)) (hq : |totalProb n (vals v) - 1| ≤ q)
    {os : List Nat} (hlen : os.length = countMeasures steps) :
    ∃ hang : Set (Fin os.length → JobDraw → ℝ),
      (∀ x ∈ hang, ∃ c', JobEndsIn F prm ws reqs c x c' ∧ (∃ k, c'.loc none = .mgr (.recv (0, 0) k)) ∧
        ∀ i < K, ∃ s, c'.loc (some (i, i)) = .wkr s ∧ s.pc = .crashed) ∧
      (circuitLaw os.length (jobDrawsFor F prm ws reqs c os)).toReal ≤ branchProb n steps os (vals v)
        + circuitErrD A.u u t n K q steps * (3 + circuitErrD A.u u t n K q steps) ∧
      branchProb n steps os (vals v) - circuitErrD A.u u t n K q steps * (3 + circuitErrD A.u u t n K q steps)
        ≤ (circuitLaw os.length (jobDrawsFor F prm ws reqs c os ∪ hang)).toReal := by
  have hp := performs_calls (n := n) hg hsched hreq fun _ => 0
  have key := C115_network_draws (F := F) hg hops hsched hreq hok hD hfresh hlen
  have e := jobDrawsFor_runs (F := F) hg hops hsched hreq hok hD hfresh hlen
  refine ⟨distRejected F n K N (callsOf prm N (fun _ => 0) reqs) v os, ?_, ?_, ?_⟩
  · rintro x ⟨os', -, -, hr⟩
    obtain ⟨c', h1, h2⟩ := key x
    rw [hr] at h2
    exact ⟨c', h1, h2.2⟩
  · rw [e]
    exact C115_upper_partial hF hp hok hg.posN hD.cover hD.size hT hq hlen
  · rw [e]
    exact C115_lower_partial hF hp hok hg.posN hD.cover hD.size hT hq hlen

/-- C115 for the processes in double precision: the job ends with the outcomes `os` with the probability of Born's rule up to 1/256,
apart from random numbers with which it hangs. -/
theorem C115_network_double_partial {D : Double} [D.Ideal] {n : Nat} {v : List (FC (binary64 D))} (hn : n ≤ 20) (hK16 : K ≤ 2 ^ 4)
    (hF : Accurate F (1 / 2 ^ 50)) (hg : FNet.GridOK prm K N C M ws) (hops : ∀ w, (prm w).ops = F)
    (hsched : ∀ w c, ((prm w).sched c).Perm (List.range N)) {reqs : List (FNet.Req (binary64 D))} {steps : List QStep}
    (hreq : List.Forall₂ (AsksFor (binary64 D) 8) reqs steps) (hok : ∀ q ∈ steps, StepOK n q) (hN : steps.length ≤ 2 ^ 8)
    (hw : ∀ g back gs, .gate g back gs ∈ steps → gs.flatten.length ≤ 3) {pm : FNet.MProg (binary64 D)}
    {c : Cfg Pid (FNet.NMsg (binary64 D)) (FNet.NLoc (binary64 D))} (hD : DistributedF K N n v C M st pm c)
    (hfresh : ∀ i < K, ∀ j < K, received c (i, j) = 0) (hT : |totalProb n (vals v) - 1| ≤ 1 / 2 ^ 20)
    {os : List Nat} (hlen : os.length = countMeasures steps) :
    ∃ hang : Set (Fin os.length → JobDraw → ℝ),
      (∀ x ∈ hang, ∃ c', JobEndsIn F prm ws reqs c x c' ∧ (∃ k, c'.loc none = .mgr (.recv (0, 0) k)) ∧
        ∀ i < K, ∃ s, c'.loc (some (i, i)) = .wkr s ∧ s.pc = .crashed) ∧
      (circuitLaw os.length (jobDrawsFor F prm ws reqs c os)).toReal ≤ branchProb n steps os (vals v) + 1 / 2 ^ 8 ∧
      branchProb n steps os (vals v) - 1 / 2 ^ 8 ≤ (circuitLaw os.length (jobDrawsFor F prm ws reqs c os ∪ hang)).toReal := by
  have hpos : 0 < totalProb n (vals v) := by
    have := (abs_le.1 hT).1
    norm_num at this ⊢
    linarith
  obtain ⟨hang, h0, h1, h2⟩ := C115_network_law_partial (t := 8) hF hg hops hsched hreq hok hD hfresh hpos hT hlen
  obtain ⟨h3, h4⟩ := circuitErrD_double (D := D) hn hK16 hN (q := 1 / 2 ^ 20) (by positivity) le_rfl hw
  set x := circuitErrD (binary64 D).u (1 / 2 ^ 50) 8 n K (1 / 2 ^ 20) steps
  have h5 : x * (3 + x) ≤ 1 / 2 ^ 8 := by
    refine (mul_le_mul h4 (by linarith : 3 + x ≤ 3 + 1 / 2 ^ 10) (by linarith) (by positivity)).trans ?_
    norm_num
  exact ⟨hang, h0, by linarith, by linarith⟩

/-! ### Example: a Bell pair on four worker processes, measured, undone and measured again -/

theorem asks_rounded {D : Double} [D.Ideal] {steps : List QStep} (hok : ∀ q ∈ steps, StepOK n q)
    (hf : ∀ q ∈ steps, ∀ reg1 reg2 f, q ≠ .func reg1 reg2 f) (ht : 1 ≤ t) : ∃ reqs, List.Forall₂ (AsksFor (binary64 D) t) reqs steps := by
  induction steps with
  | nil => exact ⟨[], .nil⟩
  | cons q rest ih =>
    obtain ⟨reqs, h2⟩ := ih (fun q hq => hok q (by simp [hq])) fun q hq => hf q (by simp [hq])
    obtain ⟨call, h1⟩ := dperforms_rounded (D := D) (K := 1) (size := 1) q (hok q (by simp)) (hf q (by simp)) ht
    cases h1 with
    | gate hm hF => exact ⟨_ :: reqs, .cons (.gate hm hF) h2⟩
    | measure => exact ⟨_ :: reqs, .cons .measure h2⟩

open C113 in
example (D : Double) [D.Ideal] : ∃ reqs, List.Forall₂ (AsksFor (binary64 D) 8) reqs bellSteps ∧ ∀ m m' : Nat,
    ∃ hang : Set (Fin 2 → JobDraw → ℝ),
      (∀ x ∈ hang, ∃ c', JobEndsIn FOps.double netPrm [(0, 0), (0, 1), (1, 0), (1, 1)] reqs
        (FNet.netCfg (.done [] none) netSt (FNet.nbuf 1 2 (fun _ _ => 0) FNet.noMsg FNet.noMsg)) x c' ∧
        (∃ k, c'.loc none = .mgr (.recv (0, 0) k)) ∧ ∀ i < 2, ∃ s, c'.loc (some (i, i)) = .wkr s ∧ s.pc = .crashed) ∧
      (circuitLaw 2 (jobDrawsFor FOps.double netPrm [(0, 0), (0, 1), (1, 0), (1, 1)] reqs
        (FNet.netCfg (.done [] none) netSt (FNet.nbuf 1 2 (fun _ _ => 0) FNet.noMsg FNet.noMsg)) [m, m'])).toReal
          ≤ branchProb 2 bellSteps [m, m'] (vals ([0, 0, 1, 0] : List (FC (binary64 D)))) + 1 / 2 ^ 8 ∧
      branchProb 2 bellSteps [m, m'] (vals ([0, 0, 1, 0] : List (FC (binary64 D)))) - 1 / 2 ^ 8
        ≤ (circuitLaw 2 (jobDrawsFor FOps.double netPrm [(0, 0), (0, 1), (1, 0), (1, 1)] reqs
          (FNet.netCfg (.done [] none) netSt (FNet.nbuf 1 2 (fun _ _ => 0) FNet.noMsg FNet.noMsg)) [m, m'] ∪ hang)).toReal := by
  obtain ⟨reqs, hp⟩ := asks_rounded (D := D) (t := 8) bellSteps_ok (by
    intro q hq
    simp only [bellSteps, List.mem_cons, List.not_mem_nil, or_false] at hq
    rcases hq with rfl | rfl | rfl | rfl | rfl | rfl <;> simp) (by norm_num)
  have hw : ∀ g back gs, .gate g back gs ∈ bellSteps → gs.flatten.length ≤ 3 := by
    intro g back gs h
    simp only [bellSteps, List.mem_cons, QStep.gate.injEq, List.not_mem_nil, or_false, reduceCtorEq, false_or] at h
    rcases h with ⟨_, _, rfl⟩ | ⟨_, _, rfl⟩ | ⟨_, _, rfl⟩ | ⟨_, _, rfl⟩ <;> simp
  have h0 : (0 : FC (binary64 D)).val = 0 := rfl
  have h1 : (1 : FC (binary64 D)).val = 1 := rfl
  have hT : totalProb 2 (vals ([0, 0, 1, 0] : List (FC (binary64 D)))) = 1 := by simp [totalProb, vals, Finset.sum_range_succ, h0, h1]
  refine ⟨reqs, hp, fun m m' => ?_⟩
  exact C115_network_double_partial (n := 2) (by norm_num) (by norm_num) double_accurate netOK (fun _ => rfl)
    (fun _ _ => by simpa [netPrm, List.range_succ] using List.Perm.swap 0 1 []) hp bellSteps_ok (by simp [bellSteps]) hw
    (DistributedF.of_ready (st := fun _ _ => 0) (by norm_num) rfl netReady ⟨fun _ _ _ => rfl, fun _ _ _ => rfl⟩ _)
    (by
      intro i hi j hj
      simp only [received, FNet.netCfg, netSt, hi, hj, and_self, if_true])
    (by rw [hT]; norm_num) (os := [m, m']) rfl

-- the same job with fixed random numbers
open C113 in
example (D : Double) [D.Ideal] : ∃ reqs, List.Forall₂ (AsksFor (binary64 D) 8) reqs bellSteps ∧
    ∃ c', AlwaysEnds (FNet.netAct netPrm) (FNet.netCfg (FNet.jobOps FOps.double [(0, 0), (0, 1), (1, 0), (1, 1)] reqs [1 / 2, 1 / 4] []) netSt
        (FNet.nbuf 1 2 (fun _ _ => 0) FNet.noMsg FNet.noMsg)) c' ∧
      ∀ os, c'.loc none = .mgr (.done os none) → os.length = 2 := by
  obtain ⟨reqs, hp⟩ := asks_rounded (D := D) (t := 8) bellSteps_ok (by
    intro q hq
    simp only [bellSteps, List.mem_cons, List.not_mem_nil, or_false] at hq
    rcases hq with rfl | rfl | rfl | rfl | rfl | rfl <;> simp) (by norm_num)
  have h0 : (0 : FC (binary64 D)).val = 0 := rfl
  have h1 : (1 : FC (binary64 D)).val = 1 := rfl
  have hT : totalProb 2 (vals ([0, 0, 1, 0] : List (FC (binary64 D)))) = 1 := by simp [totalProb, vals, Finset.sum_range_succ, h0, h1]
  obtain ⟨c', h2, h3⟩ := C115_network_state_partial (n := 2) (v := [0, 0, 1, 0]) double_accurate netOK (fun _ => rfl)
    (fun _ _ => by simpa [netPrm, List.range_succ] using List.Perm.swap 0 1 []) (fun _ _ => by norm_num [netPrm]) hp bellSteps_ok
    (rs := [1 / 2, 1 / 4]) (by
      intro r hr
      simp only [List.mem_cons, List.not_mem_nil, or_false] at hr
      rcases hr with rfl | rfl <;> norm_num)
    (DistributedF.of_ready (st := fun _ _ => 0) (by norm_num) rfl netReady ⟨fun _ _ _ => rfl, fun _ _ _ => rfl⟩ _) (by rw [hT]; exact one_pos)
  exact ⟨reqs, hp, c', h2, fun os hos => (h3 os hos).1⟩

end QIP.Props
