import Verif.Lemmas.Parts
import Verif.Lemmas.Blocked

/-!
# Operations of a distributed job (C61, C64, C77)
-/

namespace QIP.Props

open QIP QIP.Spec

variable {prm : Wid → WParam} {K N C M n : Nat} {ws : List Wid} {st : Wid → Wid → Nat} {v : List ℂ} {f : Wid → WSt}

/-- The whole state `v` is distributed: worker `(i, j)` of the `K * K` grid waits for its next operation and has the
amplitudes `i * N, …, (i + 1) * N - 1` of `v`; there are no other workers, and no messages are on the way except
acknowledgements of earlier transfers. -/
structure Distributed (K N n : Nat) (v : List ℂ) (C M : Nat) (st : Wid → Wid → Nat) (pm : MProg)
    (c : Cfg Pid NMsg NLoc) : Prop where
  size : v.length = 2 ^ n
  cover : K * N = 2 ^ n
  manager : c.loc none = .mgr pm
  workers : ∀ i < K, ∀ j < K, ∃ b cnt, c.loc (some (i, j)) = .wkr ⟨b, .idle, cnt⟩ ∧ b.n = n ∧
    b.state.length = N ∧ (∀ o < N, b.state.getD o 0 = v.getD (i * N + o) 0) ∧ b.arena.length = N
  others : ∀ w, ¬ (w.1 < K ∧ w.2 < K) → ∃ s, c.loc (some w) = .wkr s ∧ s.pc = .closed
  fromManager : ∀ w, c.buf (none, some w) = []
  toManager : ∀ w, c.buf (some w, none) = []
  self : c.buf (none, none) = []
  acks : ∀ x y, c.buf (some x, some y) = List.replicate (st x y) (.accept C M)
  direction : ∀ i j, i ≠ j → st (i, j) (j, j) = 0 ∧ st (i, i) (i, j) = 0

theorem Distributed.cfg {pm : MProg} {c : Cfg Pid NMsg NLoc} (h : Distributed K N n v C M st pm c) :
    ∃ f, c = netCfg pm f (nbuf C M st noMsg noMsg) ∧ GridReady K N n v f ∧ StOK st := by
  have hw : ∀ w : Wid, ∃ s, c.loc (some w) = .wkr s := by
    intro w
    by_cases hw : w.1 < K ∧ w.2 < K
    · obtain ⟨b, cnt, h1, -⟩ := h.workers w.1 hw.1 w.2 hw.2
      exact ⟨_, h1⟩
    · obtain ⟨s, h1, -⟩ := h.others w hw
      exact ⟨s, h1⟩
  choose f hf using hw
  refine ⟨f, ?_, ⟨?_, ?_⟩, fun i j hij => (h.direction i j hij).1, fun i j hij => (h.direction i j hij).2⟩
  · apply cfg_ext
    · funext x
      cases x with
      | none => exact h.manager
      | some w => exact hf w
    · funext x
      obtain ⟨x, y⟩ := x
      cases x with
      | none =>
        cases y with
        | none => exact h.self
        | some y => exact h.fromManager y
      | some x =>
        cases y with
        | none => exact h.toManager x
        | some y => exact h.acks x y
  · intro i hi j hj
    obtain ⟨b, cnt, h1, h2, h3, h4, h5⟩ := h.workers i hi j hj
    have e : f (i, j) = ⟨b, .idle, cnt⟩ := by
      have := hf (i, j)
      rw [h1] at this
      injection this with this
      exact this.symm
    rw [e]
    refine ⟨rfl, h2, ?_, h5⟩
    have hvK : v.length = K * N := by rw [h.size, h.cover]
    apply List.ext_getElem
    · rw [h3, part_length hvK hi]
    · intro o ho1 ho2
      rw [← List.getD_eq_getElem b.state 0 ho1, ← List.getD_eq_getElem (part N v i) 0 ho2,
        part_getD (by simpa only [h3] using ho1)]
      exact h4 o (by simpa only [h3] using ho1)
  · intro w hw
    obtain ⟨s, h1, h2⟩ := h.others w hw
    rw [hf w] at h1
    injection h1 with h1
    rw [h1]; exact h2

theorem Distributed.of_ready (hKN : K * N = 2 ^ n) (hv : v.length = 2 ^ n) (hR : GridReady K N n v f) (hst : StOK st)
    (pm : MProg) : Distributed K N n v C M st pm (netCfg pm f (nbuf C M st noMsg noMsg)) := by
  have hvK : v.length = K * N := by omega
  refine ⟨hv, hKN, rfl, ?_, ?_, fun _ => rfl, fun _ => rfl, rfl, fun _ _ => rfl, fun i j h => ⟨hst.1 i j h, hst.2 i j h⟩⟩
  · intro i hi j hj
    obtain ⟨h1, h2, h3, h4⟩ := hR.grid i hi j hj
    refine ⟨(f (i, j)).b, (f (i, j)).cnt, ?_, h2, by rw [h3, part_length hvK hi], ?_, h4⟩
    · rw [← h1]; rfl
    · intro o ho
      rw [h3, part_getD ho]
  · intro w hw
    exact ⟨f w, rfl, hR.others w hw⟩

/-- The manager handles several kron products one after the other. -/
def kronOps (ws : List Wid) : List (List (Key × Mat ℂ)) → MProg
  | [] => .done (.ok none)
  | mats :: ops => mapWorkers (.kron mats) ws fun _ => mapWorkers (.sync 0 false) ws fun _ => kronOps ws ops

/-- One operation is `send_kronprod`. -/
theorem kronOps_one (mats : List (Key × Mat ℂ)) : kronOps ws [mats] = sendKronprod mats ws := rfl

/-- The local backend performs the same operations. -/
noncomputable def localOps (b : BState) (scheds : Nat → List Nat) : List (List (Key × Mat ℂ)) → Except PyErr BState
  | [] => .ok b
  | mats :: ops =>
    match b.kronselectDot mats 0 0 (scheds 0) with
    | (.ok _, b') => localOps b' (fun k => scheds (k + 1)) ops
    | (.error e, _) => .error e

/-- What an operation has to look like for the compiled kernel (C05, C71): distinct groups of the same size, within the
register, matrices of the right shape. -/
structure KronOpOK (n : Nat) (mats : List (Key × Mat ℂ)) : Prop where
  nonempty : mats ≠ []
  keys : (mats.map fun km => km.1.qubits).Nodup
  shapes : ∀ km ∈ mats, km.2.shape = (2 ^ km.1.qubits.length, 2 ^ km.1.qubits.length)
  range : ∀ km ∈ mats, ∀ q ∈ km.1.qubits, q < n
  wf : ∀ km ∈ mats, km.2.WF
  sameSize : ∀ km ∈ mats, ∀ km' ∈ mats, km.1.qubits.length = km'.1.qubits.length

/-- Acknowledgements left over after `k` synchronisations. -/
def afterSyncs (K k : Nat) (st : Wid → Wid → Nat) : Nat → Wid → Wid → Nat
  | 0 => st
  | m + 1 => afterSyncs K k (scatterSt (gatherSt st K k) K k) m

theorem ops_run (hg : GridOK prm K N C M ws) (hsched : ∀ w c, ((prm w).sched c).Perm (List.range N))
    {ops : List (List (Key × Mat ℂ))} (hops : ∀ mats ∈ ops, KronOpOK n mats) {arena : List ℂ}
    (ha : arena.length = 2 ^ n) {scheds : Nat → List Nat} (hsch : ∀ k, (scheds k).Perm (List.range (2 ^ n)))
    (hKN : K * N = 2 ^ n) (hv : v.length = 2 ^ n) (hR : GridReady K N n v f) (hst : StOK st) :
    ∃ b' f', localOps ⟨n, v, arena⟩ scheds ops = .ok b' ∧ b'.state.length = 2 ^ n ∧ GridReady K N n b'.state f' ∧
      StOK (afterSyncs K (leftover N C M) st ops.length) ∧
      Runs (netAct prm) (netCfg (kronOps ws ops) f (nbuf C M st noMsg noMsg))
        (netCfg (.done (.ok none)) f' (nbuf C M (afterSyncs K (leftover N C M) st ops.length) noMsg noMsg)) := by
  induction ops generalizing v arena scheds f st with
  | nil => exact ⟨⟨n, v, arena⟩, f, rfl, hv, hR, hst, Runs.refl _⟩
  | cons mats ops ih =>
    have hm := hops mats (by simp)
    have hcall : ∀ out : List ℂ, out.length = 2 ^ n → CallOK n mats v out 0 0 := fun out ho =>
      ⟨hm.keys, hm.shapes, hm.range, hm.wf, by omega, by omega⟩
    have hloc := part_local_kron (v := v) ha (hcall arena ha) (sched := scheds 0)
      ⟨by rw [ha]; exact hsch 0, hm.nonempty, hm.sameSize⟩
    obtain ⟨f1, h1, hR1, -⟩ := kron_runs (prm := prm) (st := st) hg hKN hv hR hst (hcall _ (by simp)) hm.nonempty
      hm.sameSize hsched (kronOps ws ops)
    obtain ⟨b', f', hb, hl, hR', hst', h2⟩ := ih (fun mats' h => hops mats' (by simp [h])) (v := kronVec n mats v)
      (arena := v) hv (scheds := fun k => scheds (k + 1)) (fun k => hsch (k + 1)) (by simp [kronVec]) hR1
      (stOK_scatter (stOK_gather hst _ _) _ _)
    refine ⟨b', f', ?_, hl, hR', hst', h1.trans h2⟩
    simp only [localOps, hloc]
    exact hb

/-- C61: a sequence of kron products on a grid of workers: under every schedule of the processes it ends, the manager
reports success, and every worker has its input range of the state the local backend computes.  Missing for the full
property: all connections have arrived at the diagonal workers before the first synchronisation (`GridOK.regs`, see
`C64_unregistered_deadlock`). -/
theorem C61_kron_partial (hg : GridOK prm K N C M ws) (hsched : ∀ w c, ((prm w).sched c).Perm (List.range N))
    {ops : List (List (Key × Mat ℂ))} (hops : ∀ mats ∈ ops, KronOpOK n mats) {arena : List ℂ}
    (ha : arena.length = 2 ^ n) {scheds : Nat → List Nat} (hsch : ∀ k, (scheds k).Perm (List.range (2 ^ n)))
    {c : Cfg Pid NMsg NLoc} (hD : Distributed K N n v C M st (kronOps ws ops) c) :
    ∃ b' c', localOps ⟨n, v, arena⟩ scheds ops = .ok b' ∧ AlwaysEnds (netAct prm) c c' ∧
      Distributed K N n b'.state C M (afterSyncs K (leftover N C M) st ops.length) (.done (.ok none)) c' := by
  obtain ⟨f, rfl, hR, hst⟩ := hD.cfg
  obtain ⟨b', f', hb, hl, hR', hst', hrun⟩ := ops_run (prm := prm) hg hsched hops ha hsch hD.cover hD.size hR hst
  exact ⟨b', _, hb, hrun.alwaysEnds hR'.stuck, Distributed.of_ready hD.cover hl hR' hst' _⟩

/-- C61 for a single operation, with what is computed: the tensor product applied to the state (C03). -/
theorem C61_single_partial (hg : GridOK prm K N C M ws) (hsched : ∀ w c, ((prm w).sched c).Perm (List.range N))
    {mats : List (Key × Mat ℂ)} (hop : KronOpOK n mats)
    {c : Cfg Pid NMsg NLoc} (hD : Distributed K N n v C M st (sendKronprod mats ws) c) :
    ∃ c' v' st', AlwaysEnds (netAct prm) c c' ∧ Distributed K N n v' C M st' (.done (.ok none)) c' ∧
      ∀ r < 2 ^ n, v'.getD r 0 = kronApply n (opsOf mats) (fun x => v.getD x 0) r := by
  obtain ⟨b', c', hb, he, hD'⟩ := C61_kron_partial (prm := prm) (ops := [mats]) hg hsched (by simpa using hop)
    (arena := List.replicate (2 ^ n) 0) (by simp) (scheds := fun _ => List.range (2 ^ n)) (fun _ => List.Perm.refl _) hD
  refine ⟨c', b'.state, _, he, hD', ?_⟩
  have hloc := part_local_kron (v := v) (mats := mats) (arena := List.replicate (2 ^ n) 0) (by simp)
    ⟨hop.keys, hop.shapes, hop.range, hop.wf, by rw [hD.size]; omega, by simp⟩ (sched := List.range (2 ^ n))
    ⟨by simp, hop.nonempty, hop.sameSize⟩
  simp only [localOps, hloc] at hb
  injection hb with hb
  subst hb
  intro r hr
  simp [kronVec, hr]

/-- C64: a synchronisation (as after a kron product, or, with `d`, after a measurement) started when all workers wait
for an operation completes under every schedule, whatever the amplitudes.  Missing for the full property: the connections
have arrived (`GridOK.regs`). -/
theorem C64_sync_partial (hg : GridOK prm K N C M ws) (hst : StOK st)
    (hidle : ∀ w, w.1 < K → w.2 < K → (f w).pc = .idle ∧ (f w).b.state.length = N)
    (hothers : ∀ w, ¬ (w.1 < K ∧ w.2 < K) → (f w).pc = .closed) (d : Bool) (r : Except PyErr (Option (Nat × ℝ))) :
    ∃ f' st', AlwaysEnds (netAct prm) (netCfg (mapWorkers (.sync 0 d) ws fun _ => .done r) f (nbuf C M st noMsg noMsg))
      (netCfg (.done r) f' (nbuf C M st' noMsg noMsg)) ∧ ∀ w, w.1 < K → w.2 < K → (f' w).pc = .idle := by
  have hself : onGrid K (idleSt (fun w => (f w).b) fun w => (f w).cnt) f = f :=
    onGrid_self fun w h1 h2 => (hidle w h1 h2).1
  have hstuck : ∀ (b : Wid → BState) (cnt : Wid → Nat) (st' : Wid → Wid → Nat),
      Stuck (netAct prm) (netCfg (.done r) (onGrid K (idleSt b cnt) f) (nbuf C M st' noMsg noMsg)) := by
    intro b cnt st'
    apply stuck_of
    intro w
    by_cases hw : w.1 < K ∧ w.2 < K
    · exact Or.inr (Or.inr ⟨by simp [onGrid, hw, idleSt], rfl⟩)
    · exact Or.inl (by simp only [onGrid, if_neg hw]; exact hothers w hw)
  cases d with
  | false =>
    have h := sync_runs (prm := prm) (b := fun w => (f w).b) (cnt := fun w => (f w).cnt) (fo := f) hg hst
      (fun w h1 h2 => (hidle w h1 h2).2) (fun _ => .done r)
    rw [hself] at h
    exact ⟨_, _, h.alwaysEnds (hstuck _ _ _), fun w h1 h2 => by simp [onGrid, h1, h2, idleSt]⟩
  | true =>
    have h := sync_diag_runs (prm := prm) (b := fun w => (f w).b) (cnt := fun w => (f w).cnt) (fo := f) hg hst
      (fun w h1 h2 => (hidle w h1 h2).2) (fun _ => .done r)
    rw [hself] at h
    exact ⟨_, _, h.alwaysEnds (hstuck _ _ _), fun w h1 h2 => by simp [onGrid, h1, h2, idleSt]⟩

/-! ## A connection that has not arrived -/

/-- C64 (negation of the full property): a synchronisation that starts when the connection of worker `(i, j)` has not yet
been registered by the server thread of the diagonal worker `(j, j)` never completes: whatever the schedule, the manager
is never done.  (Nothing makes the manager or a worker wait for the registration.) -/
theorem C64_unregistered_deadlock {i j : Nat} (hij : i ≠ j) (hmem : (i, j) ∈ ws) (hreg : (i, j) ∉ (prm (j, j)).regs)
    (hidle : (f (i, j)).pc = .idle) (hidle' : (f (j, j)).pc = .idle) (k : List NMsg → MProg) {t : List Pid}
    {c' : Cfg Pid NMsg NLoc}
    (h : exec (netAct prm) t (netCfg (mapWorkers (.sync 0 false) ws k) f fun _ => []) = some c')
    (r : Except PyErr (Option (Nat × ℝ))) : c'.loc none ≠ .mgr (.done r) := by
  have hpq : ((i, j) : Wid) ≠ (j, j) := fun e => hij (Prod.ext_iff.1 e).1
  have hp : ∃ ts, syncTasks (prm (i, j)) (i, j) 0 false = .sendTo (j, j) :: ts := by
    simp only [syncTasks, if_neg hij]
    exact ⟨_, rfl⟩
  have hq : ∀ t ∈ syncTasks (prm (j, j)) (j, j) 0 false, Task.partner t ≠ (i, j) := by
    intro t ht he
    simp only [syncTasks, if_true, Bool.false_eq_true, if_false, ne_eq, not_true_eq_false, List.mem_append, List.mem_map,
      List.mem_filter] at ht
    rcases ht with ⟨r, ⟨hr, -⟩, rfl⟩ | ⟨r, ⟨hr, -⟩, rfl⟩ <;> exact hreg (he ▸ hr)
  have h0 : Blocked prm (i, j) (j, j) (netCfg (mapWorkers (.sync 0 false) ws k) f fun _ => []) :=
    ⟨⟨_, rfl, waitsFor_sync hmem k⟩, ⟨_, rfl, Or.inl hidle⟩, ⟨_, rfl, by rw [hidle']; trivial⟩, by simp [netCfg, OnlySync],
      by simp [netCfg, OnlySync], rfl, rfl⟩
  have hall : ∀ (t : List Pid) (c : Cfg Pid NMsg NLoc), Blocked prm (i, j) (j, j) c →
      exec (netAct prm) t c = some c' → Blocked prm (i, j) (j, j) c' := by
    intro t
    induction t with
    | nil =>
      intro c hc h
      simp only [exec, Option.some.injEq] at h
      exact h ▸ hc
    | cons x t ih =>
      intro c hc h
      simp only [exec] at h
      rcases hs : stepP (netAct prm) x c with _ | c1 <;> rw [hs] at h <;> simp only at h
      · cases h
      exact ih c1 (blocked_step hpq hp hq hc hs) h
  obtain ⟨⟨pm, e, hw⟩, -⟩ := hall t _ h0 h
  rw [e]
  intro he
  injection he with he
  subst he
  cases hw

/-! ## Unread messages -/

theorem afterSyncs_gather {i j : Nat} (hi : i < K) (hj : j < K) (hij : i ≠ j) (k m : Nat) :
    afterSyncs K k st m (j, j) (i, j) = st (j, j) (i, j) + m * k := by
  induction m generalizing st with
  | zero => simp [afterSyncs]
  | succ m ih =>
    rw [afterSyncs, ih]
    have h1 : scatterSt (gatherSt st K k) K k (j, j) (i, j) = gatherSt st K k (j, j) (i, j) := by
      unfold scatterSt addSt
      exact if_neg (by rintro ⟨h, -⟩; exact hij h)
    have h2 : gatherSt st K k (j, j) (i, j) = st (j, j) (i, j) + k := by
      unfold gatherSt addSt
      exact if_pos ⟨rfl, hj, rfl, hij, hi⟩
    rw [h1, h2, Nat.succ_mul]
    omega

/-- C77 (negation): no bound on the number of messages in a socket.  After `k` kron products, every worker off the
diagonal has, besides what was there before, `k * (min chunks max_inflight - 1)` acknowledgements in its socket that it
has not read, where `chunks` is the number of chunks of a transfer. -/
theorem C77_unread_grow (hg : GridOK prm K N C M ws) (hsched : ∀ w c, ((prm w).sched c).Perm (List.range N))
    {ops : List (List (Key × Mat ℂ))} (hops : ∀ mats ∈ ops, KronOpOK n mats)
    {c : Cfg Pid NMsg NLoc} (hD : Distributed K N n v C M st (kronOps ws ops) c) {i j : Nat} (hi : i < K) (hj : j < K)
    (hij : i ≠ j) :
    ∃ c', AlwaysEnds (netAct prm) c c' ∧ (c'.buf (some (j, j), some (i, j))).length
      = (c.buf (some (j, j), some (i, j))).length + ops.length * (min ((N + C - 1) / C) M - 1) := by
  obtain ⟨b', c', -, he, hD'⟩ := C61_kron_partial (prm := prm) hg hsched hops (arena := List.replicate (2 ^ n) 0)
    (by simp) (scheds := fun _ => List.range (2 ^ n)) (fun _ => List.Perm.refl _) hD
  refine ⟨c', he, ?_⟩
  rw [hD'.acks, hD.acks, List.length_replicate, List.length_replicate, afterSyncs_gather hi hj hij]
  rfl

/-! ## A grid of four workers -/

/-- Two qubits, four workers; chunks of one amplitude, two in flight. -/
def gridPrm : Wid → WParam := fun w =>
  ⟨2, if w.1 = w.2 then [(0, 1), (1, 0)] else [], 1, 2, fun _ => [1, 0], fun _ => 0, fun _ => 0⟩

theorem gridOK : GridOK gridPrm 2 2 1 2 [(0, 0), (0, 1), (1, 0), (1, 1)] where
  posK := by decide
  posN := by decide
  posC := by decide
  posM := by decide
  size := fun _ => rfl
  chunk := fun _ => rfl
  inflight := fun _ => rfl
  nodup := by decide
  mem := by
    rintro ⟨a, b⟩
    simp only [List.mem_cons, Prod.mk.injEq, List.not_mem_nil, or_false]
    omega
  regs_nodup := fun j _ => by simp [gridPrm]
  regs := by
    rintro j hj ⟨a, b⟩
    simp only [gridPrm, if_true, List.mem_cons, Prod.mk.injEq, List.not_mem_nil, or_false]
    omega

/-- The state with amplitudes 1, 2, 3, 4 (not normalised), on the four workers. -/
noncomputable def gridSt : Wid → WSt := fun w =>
  if w.1 < 2 ∧ w.2 < 2 then ⟨⟨2, if w.1 = 0 then [1, 2] else [3, 4], [0, 0]⟩, .idle, 0⟩ else ⟨⟨0, [], []⟩, .closed, 0⟩

theorem gridReady : GridReady 2 2 2 [1, 2, 3, 4] gridSt := by
  constructor
  · intro i hi j hj
    simp only [gridSt, hi, hj, and_self, if_true, true_and]
    rcases (show i = 0 ∨ i = 1 by omega) with rfl | rfl <;> simp [part]
  · intro w hw
    simp only [gridSt, if_neg hw]

theorem gridStart (pm : MProg) : Distributed 2 2 2 [1, 2, 3, 4] 1 2 (fun _ _ => 0) pm
    (netCfg pm gridSt (nbuf 1 2 (fun _ _ => 0) noMsg noMsg)) :=
  Distributed.of_ready (by norm_num) (by norm_num) gridReady ⟨fun _ _ _ => rfl, fun _ _ _ => rfl⟩ pm

/-- Not on qubit 0. -/
noncomputable def gridOp : List (Key × Mat ℂ) := [(.tup [0], .dense 2 2 [0, 1, 1, 0])]

example : ∃ c' v' st', AlwaysEnds (netAct gridPrm) (netCfg (sendKronprod gridOp [(0, 0), (0, 1), (1, 0), (1, 1)]) gridSt
    (nbuf 1 2 (fun _ _ => 0) noMsg noMsg)) c' ∧ Distributed 2 2 2 v' 1 2 st' (.done (.ok none)) c' := by
  obtain ⟨c', v', st', h1, h2, -⟩ := C61_single_partial (prm := gridPrm) gridOK
    (fun _ _ => by simpa [gridPrm, List.range_succ] using List.Perm.swap 0 1 [])
    (mats := gridOp) ⟨by simp [gridOp], by simp [gridOp], by simp [gridOp, Key.qubits, Mat.shape],
      by simp [gridOp, Key.qubits], by simp [gridOp, Mat.WF], by simp [gridOp]⟩ (gridStart _)
  exact ⟨c', v', st', h1, h2⟩

/-- The same grid, before worker (0, 1) is known to worker (1, 1). -/
def gridPrm' : Wid → WParam := fun w => { gridPrm w with regs := if w = (0, 0) then [(0, 1), (1, 0)] else [(1, 0)] }

example {t : List Pid} {c' : Cfg Pid NMsg NLoc} (h : exec (netAct gridPrm') t
    (netCfg (mapWorkers (.sync 0 false) [(0, 0), (0, 1), (1, 0), (1, 1)] fun _ => .done (.ok none)) gridSt
      fun _ => []) = some c') : c'.loc none ≠ .mgr (.done (.ok none)) :=
  C64_unregistered_deadlock (i := 0) (j := 1) (by decide) (by simp) (by simp [gridPrm']) (by simp [gridSt]) (by simp [gridSt]) _ h _

end QIP.Props
