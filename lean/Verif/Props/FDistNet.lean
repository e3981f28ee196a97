import Verif.Lemmas.FNetKron
import Verif.Lemmas.Parts
import Verif.Props.FDist

/-!
# Rounding on the distributed backend: the processes (C113)
-/

namespace QIP.Props

open QIP Spec

variable {A : Arith} {F : FOps} {t n K N C M : Nat} {prm : Wid → FNet.WParam} {ws : List Wid} {st : Wid → Wid → Nat} {v : List (FC A)}

/-- The state `v` is distributed: worker `(i, j)` of the `K * K` grid waits for its next operation and has the
amplitudes `i * N, …, (i + 1) * N - 1` of `v`; there are no other workers, and no messages are on the way except
acknowledgements of earlier transfers (cf. `Distributed`). -/
structure DistributedF (K N n : Nat) (v : List (FC A)) (C M : Nat) (st : Wid → Wid → Nat) (pm : FNet.MProg A)
    (c : Cfg Pid (FNet.NMsg A) (FNet.NLoc A)) : Prop where
  size : v.length = 2 ^ n
  cover : K * N = 2 ^ n
  manager : c.loc none = .mgr pm
  workers : ∀ i < K, ∀ j < K, ∃ b cnt, c.loc (some (i, j)) = .wkr ⟨b, .idle, cnt⟩ ∧ b.n = n ∧
    b.state.length = N ∧ (∀ o < N, b.state.getD o 0 = v.getD (i * N + o) 0) ∧ b.arena.length = N
  others : ∀ w, ¬ (w.1 < K ∧ w.2 < K) → ∃ s, c.loc (some w) = .wkr s ∧ s.pc = .closed
  fromManager : ∀ w, c.buf (none, some w) = []
  toManager : ∀ w, c.buf (some w, none) = []
  self : c.buf (none, none) = []
  acks : ∀ x y, c.buf (some x, some y) = List.replicate (st x y) (.accept C M)
  direction : ∀ i j, i ≠ j → st (i, j) (j, j) = 0 ∧ st (i, i) (i, j) = 0

theorem DistributedF.cfg {pm : FNet.MProg A} {c : Cfg Pid (FNet.NMsg A) (FNet.NLoc A)} (h : DistributedF K N n v C M st pm c) :
    ∃ f, c = FNet.netCfg pm f (FNet.nbuf C M st FNet.noMsg FNet.noMsg) ∧ FNet.GridReady K N n v f ∧ FNet.StOK st := by
  have hw : ∀ w : Wid, ∃ s, c.loc (some w) = .wkr s := by
    intro w
    by_cases hw : w.1 < K ∧ w.2 < K
    · obtain ⟨b, cnt, h1, -⟩ := h.workers w.1 hw.1 w.2 hw.2
      exact ⟨_, h1⟩
    · obtain ⟨s, h1, -⟩ := h.others w hw
      exact ⟨s, h1⟩
  choose f hf using hw
  refine ⟨f, ?_, ⟨?_, ?_⟩, fun i j hij => (h.direction i j hij).1, fun i j hij => (h.direction i j hij).2⟩
  · apply cfg_ext
    · funext x
      cases x with
      | none => exact h.manager
      | some w => exact hf w
    · funext x
      obtain ⟨x, y⟩ := x
      cases x with
      | none =>
        cases y with
        | none => exact h.self
        | some y => exact h.fromManager y
      | some x =>
        cases y with
        | none => exact h.toManager x
        | some y => exact h.acks x y
  · intro i hi j hj
    obtain ⟨b, cnt, h1, h2, h3, h4, h5⟩ := h.workers i hi j hj
    have e : f (i, j) = ⟨b, .idle, cnt⟩ := by
      have := hf (i, j)
      rw [h1] at this
      injection this with this
      exact this.symm
    rw [e]
    refine ⟨rfl, h2, ?_, h5⟩
    have hvK : v.length = K * N := by rw [h.size, h.cover]
    apply List.ext_getElem
    · rw [h3, rangeOf_length hvK hi]
    · intro o ho1 ho2
      rw [← List.getD_eq_getElem b.state 0 ho1, ← List.getD_eq_getElem (rangeOf N v i) 0 ho2,
        rangeOf_getD (by simpa only [h3] using ho1)]
      exact h4 o (by simpa only [h3] using ho1)
  · intro w hw
    obtain ⟨s, h1, h2⟩ := h.others w hw
    rw [hf w] at h1
    injection h1 with h1
    rw [h1]; exact h2

theorem DistributedF.of_ready (hKN : K * N = 2 ^ n) (hv : v.length = 2 ^ n) {f : Wid → FNet.WSt A} (hR : FNet.GridReady K N n v f)
    (hst : FNet.StOK st) (pm : FNet.MProg A) :
    DistributedF K N n v C M st pm (FNet.netCfg pm f (FNet.nbuf C M st FNet.noMsg FNet.noMsg)) := by
  have hvK : v.length = K * N := by omega
  refine ⟨hv, hKN, rfl, ?_, ?_, fun _ => rfl, fun _ => rfl, rfl, fun _ _ => rfl, fun i j h => ⟨hst.1 i j h, hst.2 i j h⟩⟩
  · intro i hi j hj
    obtain ⟨h1, h2, h3, h4⟩ := hR.grid i hi j hj
    refine ⟨(f (i, j)).b, (f (i, j)).cnt, ?_, h2, by rw [h3, rangeOf_length hvK hi], ?_, h4⟩
    · rw [← h1]; rfl
    · intro o ho
      rw [h3, rangeOf_getD ho]
  · intro w hw
    exact ⟨f w, rfl, hR.others w hw⟩

theorem gates_run (hg : FNet.GridOK prm K N C M ws) (hsched : ∀ w c, ((prm w).sched c).Perm (List.range N))
    {gates : List (Gate × List (List Nat))} (hops : ∀ g ∈ gates, Fits g.1 g.2 ∧ GroupsOK n g.2)
    (matsOf : Gate × List (List Nat) → List (Key × Mat (FC A)))
    (hmats : ∀ g ∈ gates, ∃ mats, g.1.feedMats false g.2 = .ok mats ∧ List.Forall₂ (fun a b => a.1 = b.1 ∧ MatNear t a.2 b.2) (matsOf g) mats)
    (hKN : K * N = 2 ^ n) (hv : v.length = 2 ^ n) {f : Wid → FNet.WSt A} (hR : FNet.GridReady K N n v f) (hst : FNet.StOK st) (rs : List ℝ) :
    ∃ v' f' st', DistGates A t n K N gates v v' ∧ v'.length = 2 ^ n ∧ FNet.GridReady K N n v' f' ∧ FNet.StOK st' ∧
      Runs (FNet.netAct prm) (FNet.netCfg (FNet.jobOps F ws (gates.map fun g => .kron (matsOf g)) rs []) f (FNet.nbuf C M st FNet.noMsg FNet.noMsg))
        (FNet.netCfg (.done [] none) f' (FNet.nbuf C M st' FNet.noMsg FNet.noMsg)) := by
  induction gates generalizing v f st with
  | nil => exact ⟨v, f, st, .nil v, hv, hR, hst, Runs.refl _⟩
  | cons g rest ih =>
    have h := hops g (by simp)
    obtain ⟨mats, hm, hF⟩ := hmats g (by simp)
    have harena : ∀ i j, (if i < K ∧ j < K then (f (i, j)).b.arena else List.replicate N 0).length = N := by
      intro i j
      split
      · next hij => exact (hR.grid i hij.1 j hij.2).2.2.2
      · simp
    have hvK : v.length = K * N := by rw [hv, hKN]
    have hs : ∀ i j, ((prm (i, j)).sched (f (i, j)).cnt).Perm (List.range N) := fun i j => hsched _ _
    have ho := fun j hj => FNet.orderOf_perm hg (j := j) hj
    obtain ⟨w, hw, hwl⟩ := gate_dist_runs (fun i j => (prm (i, j)).run (f (i, j)).cnt) h.1 h.2 (by simp) hm hF hg.posN hKN hvK harena hs ho
    obtain ⟨f1, h1, hR1, -⟩ := FNet.kron_runs hg hvK hR hst (fun _ _ _ _ => rfl) (fun i hi j hj => if_pos ⟨hi, hj⟩) (fun _ _ _ _ => rfl) hw
      (FNet.jobOps F ws (rest.map fun g => .kron (matsOf g)) rs [])
    obtain ⟨v', f', st', hd, hl, hR', hst', h2⟩ := ih (fun g hg => hops g (by simp [hg])) (fun g hg => hmats g (by simp [hg]))
      (by rw [hwl, hKN]) hR1 (FNet.stOK_scatter (FNet.stOK_gather hst _ _) _ _)
    exact ⟨v', f', st', .cons hm hF hs harena ho hw hd, hl, hR', hst', h1.trans h2⟩

/-- C113 for the processes: a job of gates on a grid of workers, in any arithmetic.  Under every schedule it ends in the same
configuration, bit for bit, and what the workers then have is one of the results that the other theorems of C113 speak about: the
order of the connections, not the schedule of the processes, decides which. -/
theorem C113_network (hg : FNet.GridOK prm K N C M ws) (hsched : ∀ w c, ((prm w).sched c).Perm (List.range N))
    {gates : List (Gate × List (List Nat))} (hops : ∀ g ∈ gates, Fits g.1 g.2 ∧ GroupsOK n g.2)
    (matsOf : Gate × List (List Nat) → List (Key × Mat (FC A)))
    (hmats : ∀ g ∈ gates, ∃ mats, g.1.feedMats false g.2 = .ok mats ∧ List.Forall₂ (fun a b => a.1 = b.1 ∧ MatNear t a.2 b.2) (matsOf g) mats)
    {rs : List ℝ} {c : Cfg Pid (FNet.NMsg A) (FNet.NLoc A)} (hD : DistributedF K N n v C M st (FNet.jobOps F ws (gates.map fun g => .kron (matsOf g)) rs []) c) :
    ∃ c' v' st', AlwaysEnds (FNet.netAct prm) c c' ∧ DistributedF K N n v' C M st' (.done [] none) c' ∧ DistGates A t n K N gates v v' := by
  obtain ⟨f, rfl, hR, hst⟩ := hD.cfg
  obtain ⟨v', f', st', hd, hl, hR', hst', hrun⟩ := gates_run (t := t) hg hsched hops matsOf hmats hD.cover hD.size hR hst rs
  refine ⟨_, v', st', hrun.alwaysEnds (FNet.stuck_of ?_), DistributedF.of_ready hD.cover hl hR' hst' _, hd⟩
  intro w
  by_cases hw : w.1 < K ∧ w.2 < K
  · exact Or.inr (Or.inr ⟨(hR'.grid w.1 hw.1 w.2 hw.2).1, rfl⟩)
  · exact Or.inl (hR'.others w hw)

/-- C113 for the processes in double precision: under every schedule the job ends, and the workers have ranges of a state that is close
to the exact one. -/
theorem C113_network_binary64 {D : Double} [D.Ranged] {v : List (FC (binary64 D))} (hn : n ≤ 1000) (hK : K ≤ 64)
    (hg : FNet.GridOK prm K N C M ws) (hsched : ∀ w c, ((prm w).sched c).Perm (List.range N))
    {gates : List (Gate × List (List Nat))} (hops : ∀ g ∈ gates, Fits g.1 g.2 ∧ GroupsOK n g.2) (hw : ∀ g ∈ gates, g.2.flatten.length ≤ 3)
    (hN : gates.length ≤ 2 ^ 20) (matsOf : Gate × List (List Nat) → List (Key × Mat (FC (binary64 D))))
    (hmats : ∀ g ∈ gates, ∃ mats, g.1.feedMats false g.2 = .ok mats ∧ List.Forall₂ (fun a b => a.1 = b.1 ∧ MatNear 8 a.2 b.2) (matsOf g) mats)
    (h1 : totalProb n (vals v) = 1) {rs : List ℝ} {c : Cfg Pid (FNet.NMsg (binary64 D)) (FNet.NLoc (binary64 D))}
    (hD : DistributedF K N n v C M st (FNet.jobOps F ws (gates.map fun g => .kron (matsOf g)) rs []) c) :
    ∃ c' v' st', AlwaysEnds (FNet.netAct prm) c c' ∧ DistributedF K N n v' C M st' (.done [] none) c' ∧
      dist2 n (vals v') (exactGates n gates (vals v)) ≤ 1 / 2 ^ 20 ∧
      ∀ idx m, |outcomeProb n idx (vals v') m - outcomeProb n idx (exactGates n gates (vals v)) m| ≤ 1 / 2 ^ 18 := by
  obtain ⟨c', v', st', he, hD', hd⟩ := C113_network (t := 8) hg hsched hops matsOf hmats hD
  exact ⟨c', v', st', he, hD', C113_binary64 hn hg.posN hD.cover hK hops hw hN hD.size h1 hd⟩

/-! ### Example: CNot on two qubits and four workers -/

namespace C113

/-- Ranges of two amplitudes, chunks of one; the connections have arrived in different orders. -/
noncomputable def netPrm : Wid → FNet.WParam := fun w =>
  { size := 2, regs := if w = (0, 0) then [(0, 1), (1, 0)] else [(1, 0), (0, 1)], chunk := 1, inflight := 2, sched := fun _ => [1, 0], run := id, draw := fun _ => 1 / 2,
    ops := FOps.double }

theorem netOK : FNet.GridOK netPrm 2 2 1 2 [(0, 0), (0, 1), (1, 0), (1, 1)] := by
  refine ⟨by norm_num, by norm_num, by norm_num, by norm_num, fun _ => rfl, fun _ => rfl, fun _ => rfl, by decide, ?_, ?_, ?_⟩
  · rintro ⟨a, b⟩
    simp only [List.mem_cons, Prod.mk.injEq, List.not_mem_nil, or_false]
    omega
  · intro j hj
    interval_cases j <;> decide
  · rintro j hj ⟨a, b⟩
    interval_cases j <;> simp only [netPrm, if_true, Prod.mk.injEq, Nat.one_ne_zero, and_self, if_false, List.mem_cons,
      List.not_mem_nil, or_false] <;> omega

noncomputable def netSt {A : Arith} : Wid → FNet.WSt A := fun w =>
  if w.1 < 2 ∧ w.2 < 2 then ⟨⟨2, if w.1 = 0 then [0, 0] else [1, 0], [0, 0]⟩, .idle, 0⟩ else ⟨⟨0, [], []⟩, .closed, 0⟩

theorem netReady {A : Arith} : FNet.GridReady 2 2 2 ([0, 0, 1, 0] : List (FC A)) netSt := by
  refine ⟨?_, ?_⟩
  · intro i hi j hj
    simp only [netSt, hi, hj, and_self, if_true, true_and]
    rcases (show i = 0 ∨ i = 1 by omega) with rfl | rfl <;> simp [rangeOf]
  · intro w hw
    simp only [netSt, if_neg hw]

end C113

open C113 in
example {D : Double} [D.Ranged] {F : FOps} : ∃ (c' : Cfg Pid (FNet.NMsg (binary64 D)) (FNet.NLoc (binary64 D))) (v' : List (FC (binary64 D))) (st' : Wid → Wid → Nat),
    AlwaysEnds (FNet.netAct netPrm)
    (FNet.netCfg (FNet.jobOps F [(0, 0), (0, 1), (1, 0), (1, 1)] [.kron [(.tup [0, 1], .cmat (.dense 2 2 [0, 1, 1, 0]))]] [] []) netSt
      (FNet.nbuf 1 2 (fun _ _ => 0) FNet.noMsg FNet.noMsg)) c' ∧ DistributedF 2 2 2 v' 1 2 st' (.done [] none) c' ∧
    dist2 2 (vals v') (exactGates 2 [(.c .x, [[0], [1]])] (vals ([0, 0, 1, 0] : List (FC (binary64 D))))) ≤ 1 / 2 ^ 20 := by
  have h0 : (0 : FC (binary64 D)).val = 0 := rfl
  have h1 : (1 : FC (binary64 D)).val = 1 := rfl
  obtain ⟨c', v', st', h2, h3, h4, -⟩ := C113_network_binary64 (D := D) (n := 2) (gates := [(.c .x, [[0], [1]])]) (by norm_num) (by norm_num) netOK
    (fun _ _ => by simpa [netPrm, List.range_succ] using List.Perm.swap 0 1 [])
    (by
      intro g hg
      rw [List.mem_singleton] at hg
      subst hg
      exact ⟨⟨0, [[1]], rfl, by simp [Fits]⟩, by constructor <;> simp⟩) (by simp) (by norm_num)
    (fun _ => [(.tup [0, 1], .cmat (.dense 2 2 [0, 1, 1, 0]))]) (by
      intro g hg
      rw [List.mem_singleton] at hg
      subst hg
      refine ⟨_, rfl, .cons ⟨rfl, ?_⟩ .nil⟩
      refine ⟨rfl, rfl, .cons ?_ (.cons ?_ (.cons ?_ (.cons ?_ .nil)))⟩ <;> simp [Near, h0, h1, one_le_pow₀, (binary64 D).u_nonneg])
    (v := [0, 0, 1, 0]) (by simp [totalProb, vals, Finset.sum_range_succ, h0, h1])
    (DistributedF.of_ready (st := fun _ _ => 0) (by norm_num) rfl netReady ⟨fun _ _ _ => rfl, fun _ _ _ => rfl⟩ _)
  exact ⟨c', v', st', h2, h3, h4⟩

end QIP.Props
