import Verif.Props.FDistJob
import Verif.Props.FDistCircuitRanged

/-!
# C115 for the processes with underflow and overflow
-/

namespace QIP.Props

open QIP Spec MeasureTheory

variable {A : Arith} {F : FOps} {u eta big low : ℝ} {t n K N C M : Nat} {prm : Wid → FNet.WParam} {ws : List Wid} {st : Wid → Wid → Nat}
  {v : List (FC A)}

theorem draws_within {reqs : List (FNet.Req A)} {rs : List ℝ} (hdraw : ∀ w c, 0 ≤ (prm w).draw c ∧ (prm w).draw c ≤ 1)
    (hrs : ∀ r ∈ rs, 0 ≤ r ∧ r ≤ 1) (cnt : Wid → Nat) :
    ∀ x ∈ drawsIn prm cnt reqs rs, (0 ≤ x.1 ∧ x.1 ≤ 1) ∧ ∀ i, 0 ≤ x.2 i ∧ x.2 i ≤ 1 := by
  induction reqs generalizing cnt rs with
  | nil => simp [drawsIn]
  | cons q reqs ih =>
    cases q with
    | kron mats => exact ih hrs _
    | measure indices =>
      intro x hx
      rw [drawsIn, List.mem_cons] at hx
      rcases hx with rfl | hx
      · refine ⟨?_, fun i => hdraw _ _⟩
        cases rs with
        | nil => simp
        | cons r rs => exact hrs r (by simp)
      · exact ih (fun r hr => hrs r (List.mem_of_mem_tail hr)) _ x hx

/-- C115 for the processes with underflow and overflow, the state: if the job ends well, then the workers have ranges of a state that is
close to the exact one for the outcomes that the client gets.  Missing: the uninitialised accumulators (C27) are taken as 0. -/
theorem C115_ranged_network_state_partial [A.Ranged] [AddRanged A] (hF : Ranged F u eta big) (hl : LowOKD u eta big low n K)
    (hg : FNet.GridOK prm K N C M ws) (hops : ∀ w, (prm w).ops = F)
    (hsched : ∀ w c, ((prm w).sched c).Perm (List.range N)) (hdraw : ∀ w c, 0 ≤ (prm w).draw c ∧ (prm w).draw c ≤ 1)
    {reqs : List (FNet.Req A)} {steps : List QStep} (hreq : List.Forall₂ (AsksFor A t) reqs steps) (hok : ∀ q ∈ steps, StepOK n q)
    (hrg : ∀ q ∈ steps, StepRangeD A t K q) {rs : List ℝ} (hrs : ∀ r ∈ rs, 0 ≤ r ∧ r ≤ 1)
    {c : Cfg Pid (FNet.NMsg A) (FNet.NLoc A)} (hD : DistributedF K N n v C M st (FNet.jobOps F ws reqs rs []) c)
    {q : ℝ} (hT : 0 < totalProb n (vals v)) (hq : |totalProb n (vals v) - 1| ≤ q)
    (hsmall : circuitErrDR A.u A.eta u eta low t n K q steps ≤ 1 / 8) :
    ∃ c', AlwaysEnds (FNet.netAct prm) c c' ∧ ∀ os, c'.loc none = .mgr (.done os none) →
      ∃ v' st', DistributedF K N n v' C M st' (.done os none) c' ∧
        (0 < branchProb n steps os (vals v) →
          dist2 n (fun c => ((1 / √(totalProb n (vals v')) : ℝ) : ℂ) * vals v' c)
              (fun c => ((1 / √(totalProb n (branchOf n steps os (vals v))) : ℝ) : ℂ) * branchOf n steps os (vals v) c)
            ≤ 2 * circuitErrDR A.u A.eta u eta low t n K q steps / √(branchProb n steps os (vals v))) := by
  obtain ⟨c', h1, h2⟩ := C115_network hg hops hsched hreq hok hD (cnt := received c) fun _ _ _ _ => rfl
  refine ⟨c', h1, fun os hos => ?_⟩
  have hx := draws_within (reqs := reqs) hdraw hrs (received c)
  generalize hr : distRunF F n K N (callsOf prm N (received c) reqs) (drawsIn prm (received c) reqs rs) v = r at h2
  unfold JobEnds at h2
  split at h2
  · rename_i os' v'
    obtain ⟨st', h2⟩ := h2
    have e : os' = os := by
      have := h2.manager
      rw [hos] at this
      injection this with this
      injection this with this
      exact this.symm
    subst e
    exact ⟨v', st', h2, C115_ranged_state_partial (t := t) hF hl (performs_calls hg hsched hreq _) hok hrg hg.posN hD.cover hD.size hT hq hsmall
      hx hr⟩
  · obtain ⟨v', st', h2⟩ := h2
    have := h2.manager
    rw [hos] at this
    injection this with this
    injection this with _ this
    cases this
  · obtain ⟨-, ⟨k, h2⟩, -⟩ := h2
    rw [hos] at h2
    injection h2 with h2
    cases h2
  · exact absurd h2 id

/-- C115 for the processes with underflow and overflow, probabilities: bounds of the probability that the job ends with the outcomes
`os`; the random numbers with which the workers reject a probability make the job hang.  Missing: the uninitialised accumulators (C27)
are taken as 0. -/
theorem C115_ranged_network_law_partial [A.Ranged] [AddRanged A] (hF : Ranged F u eta big) (hl : LowOKD u eta big low n K)
    (hg : FNet.GridOK prm K N C M ws) (hops : ∀ w, (prm w).ops = F)
    (hsched : ∀ w c, ((prm w).sched c).Perm (List.range N)) {reqs : List (FNet.Req A)} {steps : List QStep}
    (hreq : List.Forall₂ (AsksFor A t) reqs steps) (hok : ∀ q ∈ steps, StepOK n q) (hrg : ∀ q ∈ steps, StepRangeD A t K q)
    {pm : FNet.MProg A} {c : Cfg Pid (FNet.NMsg A) (FNet.NLoc A)} (hD : DistributedF K N n v C M st pm c)
    (hfresh : ∀ i < K, ∀ j < K, received c (i, j) = 0) {q : ℝ} (hT : 0 < totalProb n (vals v)) (hq : |totalProb n (vals v) - 1| ≤ q)
    (hsmall : circuitErrDR A.u A.eta u eta low t n K q steps ≤ 1 / 8) {os : List Nat} (hlen : os.length = countMeasures steps) :
    ∃ hang : Set (Fin os.length → JobDraw → ℝ),
      (∀ x ∈ hang, ∃ c', JobEndsIn F prm ws reqs c x c' ∧ (∃ k, c'.loc none = .mgr (.recv (0, 0) k)) ∧
        ∀ i < K, ∃ s, c'.loc (some (i, i)) = .wkr s ∧ s.pc = .crashed) ∧
      (circuitLaw os.length (jobDrawsFor F prm ws reqs c os)).toReal ≤ branchProb n steps os (vals v)
        + circuitErrDR A.u A.eta u eta low t n K q steps * (3 + circuitErrDR A.u A.eta u eta low t n K q steps) ∧
      branchProb n steps os (vals v) - circuitErrDR A.u A.eta u eta low t n K q steps * (3 + circuitErrDR A.u A.eta u eta low t n K q steps)
        ≤ (circuitLaw os.length (jobDrawsFor F prm ws reqs c os ∪ hang)).toReal := by
  have hp := performs_calls (n := n) hg hsched hreq fun _ => 0
  have key := C115_network_draws (F := F) hg hops hsched hreq hok hD hfresh hlen
  have e := jobDrawsFor_runs (F := F) hg hops hsched hreq hok hD hfresh hlen
  refine ⟨distRejected F n K N (callsOf prm N (fun _ => 0) reqs) v os, ?_, ?_, ?_⟩
  · rintro x ⟨os', -, -, hr⟩
    obtain ⟨c', h1, h2⟩ := key x
    rw [hr] at h2
    exact ⟨c', h1, h2.2⟩
  · rw [e]
    exact C115_ranged_upper_partial hF hl hp hok hrg hg.posN hD.cover hD.size hT hq hsmall hlen
  · rw [e]
    exact C115_ranged_lower_partial hF hl hp hok hrg hg.posN hD.cover hD.size hT hq hsmall hlen

/-- C115 for the processes in double precision with underflow and overflow: the job ends with the outcomes `os` with the probability of
Born's rule up to 1/256, apart from random numbers with which it hangs.  Missing: the uninitialised accumulators (C27) are taken as 0. -/
theorem C115_network_binary64_partial {D : Double} [D.Ranged] {n : Nat} {v : List (FC (binary64 D))} (hn : n ≤ 20) (hK16 : K ≤ 2 ^ 4)
    (hF : Ranged F (8 * (1 / 2 ^ 53)) (8 * (1 / 2 ^ 1022)) (2 ^ 1023 / 4)) (hg : FNet.GridOK prm K N C M ws) (hops : ∀ w, (prm w).ops = F)
    (hsched : ∀ w c, ((prm w).sched c).Perm (List.range N)) {reqs : List (FNet.Req (binary64 D))} {steps : List QStep}
    (hreq : List.Forall₂ (AsksFor (binary64 D) 8) reqs steps) (hok : ∀ q ∈ steps, StepOK n q) (hN : steps.length ≤ 2 ^ 8)
    (hw : ∀ g back gs, .gate g back gs ∈ steps → gs.flatten.length ≤ 3) {pm : FNet.MProg (binary64 D)}
    {c : Cfg Pid (FNet.NMsg (binary64 D)) (FNet.NLoc (binary64 D))} (hD : DistributedF K N n v C M st pm c)
    (hfresh : ∀ i < K, ∀ j < K, received c (i, j) = 0) (hT : |totalProb n (vals v) - 1| ≤ 1 / 2 ^ 20)
    {os : List Nat} (hlen : os.length = countMeasures steps) :
    ∃ hang : Set (Fin os.length → JobDraw → ℝ),
      (∀ x ∈ hang, ∃ c', JobEndsIn F prm ws reqs c x c' ∧ (∃ k, c'.loc none = .mgr (.recv (0, 0) k)) ∧
        ∀ i < K, ∃ s, c'.loc (some (i, i)) = .wkr s ∧ s.pc = .crashed) ∧
      (circuitLaw os.length (jobDrawsFor F prm ws reqs c os)).toReal ≤ branchProb n steps os (vals v) + 1 / 2 ^ 8 ∧
      branchProb n steps os (vals v) - 1 / 2 ^ 8 ≤ (circuitLaw os.length (jobDrawsFor F prm ws reqs c os ∪ hang)).toReal := by
  have hpos : 0 < totalProb n (vals v) := by
    have := (abs_le.1 hT).1
    norm_num at this ⊢
    linarith
  obtain ⟨h3, h4⟩ := circuitErrDR_binary64 (D := D) hn hK16 hN (q := 1 / 2 ^ 20) (by positivity) le_rfl hw
  obtain ⟨hang, h0, h1, h2⟩ := C115_ranged_network_law_partial (t := 8) hF (lowOKD_binary64 (K := K) hn (by omega)) hg hops hsched hreq hok
    (stepRangeD_binary64 hK16 hw) hD hfresh hpos hT (h4.trans (by norm_num)) hlen
  generalize circuitErrDR (binary64 D).u (binary64 D).eta (8 * (1 / 2 ^ 53)) (8 * (1 / 2 ^ 1022)) (1 / 2 ^ 200) 8 n K (1 / 2 ^ 20) steps = x at *
  have h5 : x * (3 + x) ≤ 1 / 2 ^ 8 := by
    refine (mul_le_mul h4 (by linarith : 3 + x ≤ 3 + 1 / 2 ^ 10) (by linarith) (by positivity)).trans ?_
    norm_num
  exact ⟨hang, h0, by linarith, by linarith⟩

/-! ### Example: a Bell pair on four worker processes, measured, undone and measured again -/

theorem asks_ranged {D : Double} [D.Ranged] {steps : List QStep} (hok : ∀ q ∈ steps, StepOK n q)
    (hf : ∀ q ∈ steps, ∀ reg1 reg2 f, q ≠ .func reg1 reg2 f) (ht : 1 ≤ t) : ∃ reqs, List.Forall₂ (AsksFor (binary64 D) t) reqs steps := by
  obtain ⟨calls, h⟩ := dperforms_ranged (D := D) (K := 1) (size := 1) hok hf ht
  clear hok hf
  induction h with
  | nil => exact ⟨[], .nil⟩
  | cons h1 _ ih =>
    obtain ⟨reqs, h2⟩ := ih
    cases h1 with
    | gate hm hF => exact ⟨_ :: reqs, .cons (.gate hm hF) h2⟩
    | measure => exact ⟨_ :: reqs, .cons .measure h2⟩

open C113 in
example (D : Double) [D.Ranged] : ∃ reqs, List.Forall₂ (AsksFor (binary64 D) 8) reqs bellSteps ∧ ∀ m m' : Nat,
    ∃ (prm : Wid → FNet.WParam) (F : FOps) (hang : Set (Fin 2 → JobDraw → ℝ)),
      (∀ x ∈ hang, ∃ c', JobEndsIn F prm [(0, 0), (0, 1), (1, 0), (1, 1)] reqs
        (FNet.netCfg (.done [] none) netSt (FNet.nbuf 1 2 (fun _ _ => 0) FNet.noMsg FNet.noMsg)) x c' ∧
        (∃ k, c'.loc none = .mgr (.recv (0, 0) k)) ∧ ∀ i < 2, ∃ s, c'.loc (some (i, i)) = .wkr s ∧ s.pc = .crashed) ∧
      (circuitLaw 2 (jobDrawsFor F prm [(0, 0), (0, 1), (1, 0), (1, 1)] reqs
        (FNet.netCfg (.done [] none) netSt (FNet.nbuf 1 2 (fun _ _ => 0) FNet.noMsg FNet.noMsg)) [m, m'])).toReal
          ≤ branchProb 2 bellSteps [m, m'] (vals ([0, 0, 1, 0] : List (FC (binary64 D)))) + 1 / 2 ^ 8 ∧
      branchProb 2 bellSteps [m, m'] (vals ([0, 0, 1, 0] : List (FC (binary64 D)))) - 1 / 2 ^ 8
        ≤ (circuitLaw 2 (jobDrawsFor F prm [(0, 0), (0, 1), (1, 0), (1, 1)] reqs
          (FNet.netCfg (.done [] none) netSt (FNet.nbuf 1 2 (fun _ _ => 0) FNet.noMsg FNet.noMsg)) [m, m'] ∪ hang)).toReal := by
  obtain ⟨reqs, hp⟩ := asks_ranged (D := D) (t := 8) bellSteps_ok (by
    intro q hq
    simp only [bellSteps, List.mem_cons, List.not_mem_nil, or_false] at hq
    rcases hq with rfl | rfl | rfl | rfl | rfl | rfl <;> simp) (by norm_num)
  have hw : ∀ g back gs, .gate g back gs ∈ bellSteps → gs.flatten.length ≤ 3 := by
    intro g back gs h
    simp only [bellSteps, List.mem_cons, QStep.gate.injEq, List.not_mem_nil, or_false, reduceCtorEq, false_or] at h
    rcases h with ⟨_, _, rfl⟩ | ⟨_, _, rfl⟩ | ⟨_, _, rfl⟩ | ⟨_, _, rfl⟩ <;> simp
  have h0 : (0 : FC (binary64 D)).val = 0 := rfl
  have h1 : (1 : FC (binary64 D)).val = 1 := rfl
  have hT : totalProb 2 (vals ([0, 0, 1, 0] : List (FC (binary64 D)))) = 1 := by simp [totalProb, vals, Finset.sum_range_succ, h0, h1]
  refine ⟨reqs, hp, fun m m' => ⟨fun w => { netPrm w with ops := FOps.ofRounding round64 fun a L => L.foldl (fun s x => round64 (s + x)) a },
    FOps.ofRounding round64 fun a L => L.foldl (fun s x => round64 (s + x)) a, ?_⟩⟩
  exact C115_network_binary64_partial (prm := fun w => { netPrm w with ops := FOps.ofRounding round64 fun a L => L.foldl (fun s x => round64 (s + x)) a })
    (n := 2) (by norm_num) (by norm_num) binary64_ranged
    ⟨netOK.posK, netOK.posN, netOK.posC, netOK.posM, netOK.size, netOK.chunk, netOK.inflight, netOK.nodup, netOK.mem, netOK.regs_nodup, netOK.regs⟩
    (fun _ => rfl)
    (fun _ _ => by simpa [netPrm, List.range_succ] using List.Perm.swap 0 1 []) hp bellSteps_ok (by simp [bellSteps]) hw
    (DistributedF.of_ready (st := fun _ _ => 0) (by norm_num) rfl netReady ⟨fun _ _ _ => rfl, fun _ _ _ => rfl⟩ _)
    (by
      intro i hi j hj
      simp only [received, FNet.netCfg, netSt, hi, hj, and_self, if_true])
    (by rw [hT]; norm_num) (os := [m, m']) rfl

end QIP.Props
