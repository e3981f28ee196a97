import Verif.Spec.Job
import Verif.Lemmas.Job
import Verif.Lemmas.IntState
import Verif.Lemmas.Born
import Verif.Props.DistMeasure
import Verif.Props.Gates

/-!
# C84, C88: jobs of the distributed backend, from setup to result
-/

namespace QIP.Props

open QIP QIP.Spec

variable {n : Nat} {groups : List (List Nat)} {vecs : List (List ℂ)} {workers rest : List Wkr} {placed : List Placed}
  {states : List PbState} {prm : Wid → WParam} {C M : Nat} {pm : MProg} {c : Cfg Pid NMsg NLoc}

/-- Well-formed vectors fed to a job on `n` qubits: at least one, for disjoint groups of qubits. -/
structure FedOK (n : Nat) (groups : List (List Nat)) (vecs : List (List ℂ)) : Prop where
  some : groups ≠ []
  nodup : groups.flatten.Nodup
  lt : ∀ q ∈ groups.flatten, q < n
  length : groups.length = vecs.length
  sizes : ∀ gv ∈ groups.zip vecs, gv.2.length = 2 ^ gv.1.length

theorem params_grid (hpl : placeWorkers n workers = .ok (placed, rest)) (hprm : JobParams placed prm C M) :
    ∃ k ≤ n, placed.map (fun p => (p.inp, p.out)) = gridRanges (2 ^ (n - k)) (2 ^ k) ∧
      GridOK prm (2 ^ (n - k)) (2 ^ k) C M (placed.map Placed.wid) := by
  obtain ⟨k, hk, hp⟩ := place_grid hpl
  refine ⟨k, hk, hp, ?_⟩
  have hN : 0 < 2 ^ k := by positivity
  have hK : 0 < 2 ^ (n - k) := by positivity
  have hwids := grid_wids hN hp
  have hreg : ∀ j < 2 ^ (n - k), ∃ p ∈ placed, p.wid = (j, j) ∧
      (prm (j, j)).regs.Perm ((connecting placed p).map Placed.wid) := by
    intro j hj
    obtain ⟨p, h1, h2⟩ := grid_exists hN hp (w := (j, j)) hj hj
    refine ⟨p, h1, h2, ?_⟩
    rw [← h2]
    apply hprm.regs p h1
    obtain ⟨-, -, e1, e2⟩ := grid_wid hN hp h1
    rw [e1, e2, h2]
  refine ⟨hK, hN, hprm.chunk.1, hprm.inflight.1, ?_, hprm.chunk.2, hprm.inflight.2, ?_, ?_, ?_, ?_⟩
  · intro w
    obtain ⟨p, h1, -⟩ := grid_exists hN hp (w := (0, 0)) hK hK
    obtain ⟨-, -, e1, -⟩ := grid_wid hN hp h1
    rw [hprm.size p h1, e1]
    simp only [Nat.succ_mul, Nat.add_sub_cancel_left]
  · rw [hwids]; exact wids_nodup _
  · intro w; rw [hwids, mem_wids]
  · intro j hj
    obtain ⟨p, -, -, hperm⟩ := hreg j hj
    rw [hperm.nodup_iff]
    have : (placed.map Placed.wid).Nodup := by rw [hwids]; exact wids_nodup _
    exact this.sublist ((List.filter_sublist).map _)
  · intro j hj r
    obtain ⟨p, hmem, hw, hperm⟩ := hreg j hj
    rw [hperm.mem_iff]
    simp only [connecting, List.mem_map, List.mem_filter, decide_eq_true_eq]
    constructor
    · rintro ⟨q, ⟨h1, h2⟩, rfl⟩
      obtain ⟨h3, -, h4⟩ := (mem_partners hN hp hmem h1).1 h2
      obtain ⟨a, b, -, -⟩ := grid_wid hN hp h1
      rw [hw] at h4
      exact ⟨a, b, h3, h4⟩
    · rintro ⟨h1, h2, h3, h4⟩
      obtain ⟨q, hq, rfl⟩ := grid_exists hN hp h1 h2
      refine ⟨q, ⟨hq, (mem_partners hN hp hmem hq).2 ⟨h3, by rw [hw], by rw [hw]; exact h4⟩⟩, rfl⟩

/-- C84 (partial: at least one vector is fed, see `C84_unfed_false`; the connections have arrived, see C64): a new job on
enough free workers.  The message can be sent, the workers are placed, every worker can make its state, and then every
worker has its input range of the initial state of the local backend, whatever is in the uninitialised memory. -/
theorem C84_setup_partial (hn : n ≤ 30) (hfed : FedOK n groups vecs)
    (hw : ∃ S, List.Subperm S workers ∧ Enough n S) :
    ∃ states placed rest v, setupStates n groups (vecs.map .vec) = .ok states ∧
      placeWorkers n workers = .ok (placed, rest) ∧ (placed.map Placed.worker ++ rest).Perm workers ∧
      (∀ p ∈ placed, ∀ arena, ∃ b, workerInit n states p arena = .ok b) ∧
      (∀ arena, makeState n groups (vecs.map .vec) 0 (2 ^ n) arena = .ok ⟨n, v, arena⟩) ∧
      (∀ r < 2 ^ n, v.getD r 0 = initAmp n groups vecs r) ∧
      ∃ K N, ∀ prm C M pm c, JobParams placed prm C M → JobStart n states placed pm c →
        GridOK prm K N C M (placed.map Placed.wid) ∧ Distributed K N n v C M (fun _ _ => 0) pm c := by
  have h31 : (30 : Nat) < 2 ^ 31 := by norm_num
  obtain ⟨states, s1, s2, s3⟩ := setup_vecs (n := n) (by omega) (fun q hq => by have := hfed.lt q hq; omega) hfed.length
  obtain ⟨placed, rest, hpl⟩ := place_ok (by omega) hw
  obtain ⟨k, hk, hp⟩ := place_grid hpl
  have hN : 0 < 2 ^ k := by positivity
  have hKN : 2 ^ (n - k) * 2 ^ k = 2 ^ n := by rw [← pow_add]; congr 1; omega
  obtain ⟨full, hfull, -, -, hlen, hamp⟩ := C30_initial_state hfed.nodup hfed.lt hfed.length hfed.sizes
    ([] : List ℂ)
  have hwin : ∀ start stop, start < stop → stop ≤ 2 ^ n → ∀ arena', makeState n groups (vecs.map .vec) start stop arena'
      = .ok ⟨n, full.getRange start stop, arena'⟩ := by
    intro start stop h1 h2 arena'
    obtain ⟨full', h3, h4⟩ := C31_windows_partial hfed.nodup hfed.lt hfed.length hfed.sizes h1 h2 (Or.inl hfed.some) [] arena'
    rw [hfull] at h3
    injection h3 with h3
    rw [h3, h4]
  have hinit : ∀ p ∈ placed, ∀ arena, workerInit n states p arena
      = .ok ⟨n, full.getRange (p.wid.1 * 2 ^ k) ((p.wid.1 + 1) * 2 ^ k), arena⟩ := by
    intro p hmem arena
    obtain ⟨a1, -, e1, -⟩ := grid_wid hN hp hmem
    have h1 : (p.wid.1 + 1) * 2 ^ k ≤ 2 ^ (n - k) * 2 ^ k := Nat.mul_le_mul_right _ a1
    rw [init_vecs s2 s3, e1]
    exact hwin _ _ (Nat.mul_lt_mul_of_pos_right (Nat.lt_succ_self _) hN) (h1.trans hKN.le) arena
  refine ⟨states, placed, rest, full.state, s1, hpl, ?_, fun p hmem arena => ⟨_, hinit p hmem arena⟩, ?_, ?_,
    2 ^ (n - k), 2 ^ k, ?_⟩
  · unfold placeWorkers at hpl
    rcases hd : drawWorkers n workers with e | ⟨un, rest', wn⟩
    · simp [hd, bind, Except.bind] at hpl
    simp only [hd, bind, Except.bind] at hpl
    obtain ⟨placed', h1, h2, -⟩ := C60_tiles hd
    simp only [h1] at hpl
    split at hpl
    · injection hpl with hpl
      obtain ⟨rfl, rfl⟩ := Prod.mk.inj hpl
      exact (h2.append_right _).trans (C59_drawn hd).1
    · cases hpl
  · intro arena
    rw [hwin 0 (2 ^ n) (by positivity) le_rfl arena]
    congr 2
    unfold BState.getRange
    rw [List.drop_zero, List.take_of_length_le hlen.le]
  · intro r hr
    rw [List.getD_eq_getElem?_getD, hamp r hr]
    rfl
  · intro prm C M pm c hprm hstart
    obtain ⟨k', hk', hp', hg⟩ := params_grid hpl hprm
    have hkk : k' = k := by
      have hne : placed ≠ [] := by
        obtain ⟨p, h1, -⟩ := grid_exists hN hp (w := (0, 0)) (by positivity) (by positivity)
        exact List.ne_nil_of_mem h1
      obtain ⟨p, h1⟩ := List.exists_mem_of_ne_nil _ hne
      obtain ⟨-, -, e1, -⟩ := grid_wid hN hp h1
      have e1' := (grid_wid (by positivity) hp' h1).2.2.1
      have h2 : p.inp.2 - p.inp.1 = 2 ^ k := by rw [e1]; simp only [Nat.succ_mul, Nat.add_sub_cancel_left]
      have h3 : p.inp.2 - p.inp.1 = 2 ^ k' := by rw [e1']; simp only [Nat.succ_mul, Nat.add_sub_cancel_left]
      exact Nat.pow_right_injective (le_refl 2) (h3.symm.trans h2)
    subst hkk
    refine ⟨hg, hlen, hKN, hstart.manager, ?_, ?_, fun w => hstart.buffers _, fun w => hstart.buffers _,
      hstart.buffers _, ?_, ?_⟩
    · intro i hi j hj
      obtain ⟨p, hmem, hw⟩ := grid_exists hN hp (w := (i, j)) hi hj
      obtain ⟨arena, b, h1, h2, h3⟩ := hstart.workers p hmem
      rw [hinit p hmem arena] at h2
      injection h2 with h2
      rw [hw] at h2 h3
      obtain ⟨-, -, -, e2⟩ := grid_wid hN hp hmem
      have hi' : (i + 1) * 2 ^ k' ≤ 2 ^ (n - k') * 2 ^ k' := Nat.mul_le_mul_right _ hi
      rw [Nat.succ_mul] at hi'
      refine ⟨b, 0, h3, by rw [← h2], ?_, ?_, ?_⟩
      · rw [← h2]
        simp only [BState.getRange, List.length_drop, List.length_take, hlen, Nat.succ_mul]
        omega
      · intro o ho
        rw [← h2]
        simp only [BState.getRange, List.getD_eq_getElem?_getD, List.getElem?_drop, List.getElem?_take, Nat.succ_mul]
        rw [if_pos (by omega)]
      · rw [← h2]
        simp only
        rw [h1, e2, hw]
        simp only [Nat.succ_mul, Nat.add_sub_cancel_left]
    · intro w hw'
      apply hstart.others
      rw [grid_wids hN hp, mem_wids]
      exact hw'
    · intro i j
      simp [hstart.buffers]
    · intro i j h
      simp

/-- C84 (negation of the full property): without fed vectors, every worker of a job puts amplitude 1 at the first basis
state of its input range, also if this is not `|0…0⟩`.  With two or more ranges, no state of the local backend is
distributed over the workers: the job starts with as many nonzero amplitudes as there are ranges. -/
theorem C84_unfed_false (hn : n < 2 ^ 31) (hpl : placeWorkers n workers = .ok (placed, rest)) {p : Placed} (hp : p ∈ placed) (h0 : p.inp.1 ≠ 0)
    (arena arena' : List ℂ) :
    ∃ b full, setupStates n [] [] = .ok [] ∧ workerInit n [] p arena = .ok b ∧ b.state[0]? = some 1 ∧
      makeState n [] [] 0 (2 ^ n) arena' = .ok full ∧ full.state[p.inp.1]? = some 0 := by
  obtain ⟨k, hk, hg⟩ := place_grid hpl
  have hN : 0 < 2 ^ k := by positivity
  have hKN : 2 ^ (n - k) * 2 ^ k = 2 ^ n := by rw [← pow_add]; congr 1; omega
  obtain ⟨a1, -, e1, -⟩ := grid_wid hN hg hp
  have h1 : (p.wid.1 + 1) * 2 ^ k ≤ 2 ^ (n - k) * 2 ^ k := Nat.mul_le_mul_right _ a1
  have hlt : p.inp.1 < p.inp.2 := by rw [e1]; exact Nat.mul_lt_mul_of_pos_right (Nat.lt_succ_self _) hN
  have hle : p.inp.2 ≤ 2 ^ n := by rw [e1]; exact h1.trans hKN.le
  obtain ⟨full, win, h2, h3, h4, h5⟩ := C31_empty_feed_wrong (Nat.pos_of_ne_zero h0) hlt hle arena' arena
  exact ⟨win, full, if_pos hn, h3, h4, h2, h5⟩

/-- C84 (negation for basis states): an initial state given as an int is refused with ValueError if it does not fit 64 bits,
and otherwise the message is sent, and the workers whose range starts at 0 (and all workers, if all qubits are fed) raise
TypeError instead of making their state. -/
theorem C84_int_false (hn : n < 2 ^ 31) {groups : List (List Nat)} {feeds : List InitState} (hS : groups.flatten.Nodup)
    (hlt : ∀ q ∈ groups.flatten, q < n) (hl : groups.length = feeds.length)
    (hs : ∀ j (hj : j < groups.length) v, feeds[j]? = some (.vec v) → 2 ^ groups[j].length ≤ v.length)
    {i : Int} (hi : .int i ∈ feeds) :
    (¬ (-2 ^ 63 ≤ i ∧ i < 2 ^ 63) → setupStates n groups feeds = .error .valueError) ∧
      ((∀ i, .int i ∈ feeds → -2 ^ 63 ≤ i ∧ i < 2 ^ 63) → ∃ states, setupStates n groups feeds = .ok states ∧
        ∀ placed rest, placeWorkers n workers = .ok (placed, rest) → ∀ p ∈ placed,
          p.inp.1 = 0 ∨ (∀ q < n, q ∈ groups.flatten) → ∀ arena, workerInit n states p arena = .error .typeError) := by
  refine ⟨setup_refused hl hi, fun hfit => ?_⟩
  obtain ⟨states, h1, h2, h3⟩ := setup_any hn (fun q hq => (hlt q hq).trans hn) hl hfit
  refine ⟨states, h1, fun placed rest hpl p hp hz arena => ?_⟩
  obtain ⟨k, hk, hg⟩ := place_grid hpl
  have hN : 0 < 2 ^ k := by positivity
  have hKN : 2 ^ (n - k) * 2 ^ k = 2 ^ n := by rw [← pow_add]; congr 1; omega
  obtain ⟨a1, -, e1, -⟩ := grid_wid hN hg hp
  have hw : (p.wid.1 + 1) * 2 ^ k ≤ 2 ^ (n - k) * 2 ^ k := Nat.mul_le_mul_right _ a1
  have hlt' : p.inp.1 < p.inp.2 := by rw [e1]; exact Nat.mul_lt_mul_of_pos_right (Nat.lt_succ_self _) hN
  have hle : p.inp.2 ≤ 2 ^ n := by rw [e1]; exact hw.trans hKN.le
  unfold workerInit
  simp only [h3, bind, Except.bind, h2]
  refine makeState_int hS hlt hl hs ⟨i, hi⟩ (le_refl _) hlt' (by omega) ?_ arena
  intro q hq hm
  rcases hz with hz | hz
  · rw [hz, qbit_zero]
  · exact absurd (hz q hq) hm

-- feeding the basis state 3 of two qubits
example (workers : List Wkr) : ∃ states, setupStates 2 [[0, 1]] [.int 3] = .ok states ∧
    ∀ placed rest, placeWorkers 2 workers = .ok (placed, rest) → ∀ p ∈ placed, ∀ arena,
      workerInit 2 states p arena = .error .typeError := by
  obtain ⟨states, h1, h2⟩ := (C84_int_false (n := 2) (workers := workers) (by norm_num) (groups := [[0, 1]]) (feeds := [.int 3])
    (by simp) (by simp) rfl (by intro j hj v hv; have : j = 0 := by simpa using hj
                                subst this; simp at hv) (i := 3) (by simp)).2 (by simp)
  exact ⟨states, h1, fun placed rest hp p hm arena => h2 placed rest hp p hm (.inr (by intro q hq; simp; omega)) arena⟩

/-! ## Operations -/

theorem Distributed.start {K N : Nat} {v : List ℂ} {st : Wid → Wid → Nat} {pm : MProg} {c : Cfg Pid NMsg NLoc}
    (h : Distributed K N n v C M st pm c) (pm' : MProg) : Distributed K N n v C M st pm' (startOp c pm') :=
  ⟨h.size, h.cover, by simp [startOp], by simpa [startOp] using h.workers, by simpa [startOp] using h.others, h.fromManager,
    h.toManager, h.self, h.acks, h.direction⟩

/-- An operation that the distributed backend can do: unitary matrices on tuples of qubits (C69; the compiled kernel wants
tuples of the same size, C71), and measurements. -/
def OpOK (n : Nat) : JobOp → Prop
  | .kron mats => KronOpOK n mats ∧ (∀ km ∈ mats, ∃ is, km.1 = .tup is ∧ is.length ≤ 30) ∧
      ∀ v, Spec.totalProb n (kronApply n (opsOf mats) v) = Spec.totalProb n v
  | .measure indices _ => IdxOK n indices

theorem mats_wire (hn : n ≤ 30) {mats : List (Key × Mat ℂ)} (hop : OpOK n (.kron mats)) :
    ∃ pb, matsToPb mats = .ok pb ∧ pbToMats pb = .ok mats := by
  obtain ⟨hk, ht, -⟩ := hop
  have e : mats = (mats.map fun km => (km.1.qubits, km.2)).map fun m => (Key.tup m.1, m.2) := by
    rw [List.map_map]
    conv_lhs => rw [← List.map_id mats]
    apply List.map_congr_left
    intro km hkm
    obtain ⟨is, h, -⟩ := ht km hkm
    rcases km with ⟨k, m⟩
    simp only at h
    subst h
    rfl
  obtain ⟨pb, h1, h2⟩ := C58_mapping (ms := mats.map fun km => (km.1.qubits, km.2))
    (by rw [List.map_map]; exact hk.keys)
    (by
      intro m hm i hi
      obtain ⟨km, hkm, rfl⟩ := List.mem_map.1 hm
      have := hk.range km hkm i hi
      omega)
    (by
      intro m hm
      obtain ⟨km, hkm, rfl⟩ := List.mem_map.1 hm
      obtain ⟨is, h, hl⟩ := ht km hkm
      simp only [h, Key.qubits]
      omega)
    (by
      intro m hm
      obtain ⟨km, hkm, rfl⟩ := List.mem_map.1 hm
      exact hk.wf km hkm)
    (by
      intro m hm
      obtain ⟨km, hkm, rfl⟩ := List.mem_map.1 hm
      exact hk.shapes km hkm)
  rw [← e] at h1 h2
  exact ⟨pb, h1, h2⟩

/-- The matrices of swaps and controlled gates, also those of controlled gates run backwards, are such operations. -/
theorem opOK_gate (hn : n ≤ 30) {g : Gate} {d : Bool} {gs : List (List Nat)} (hg : tupleGate g = true) (hf : Fits g gs)
    (hgs : GroupsOK n gs) (hd : d = true → hasSwap g = false) :
    ∃ mats, g.feedMats d gs = .ok mats ∧ OpOK n (.kron mats) := by
  obtain ⟨mats, hgm⟩ := gm_exists (n := n) g gs hf hgs
  have hkeep : ∀ ops : List (List Nat × (Nat → Nat → ℂ)), opMat n (adjOps ops) * opMat n ops = 1 →
      ∀ v, Spec.totalProb n (kronApply n ops v) = Spec.totalProb n v := by
    intro ops hu v
    have h1 := norm2_act hu ((List.range (2 ^ n)).map v) (by simp)
    rw [← norm2_total (n := n) (length_act _ _ _), ← norm2_total (n := n) (by simp)] at h1
    have h2 : Spec.totalProb n (fun c => ((List.range (2 ^ n)).map v).getD c 0) = Spec.totalProb n v :=
      totalProb_congr fun r hr => by simp [hr]
    rw [h2] at h1
    rw [← h1]
    apply totalProb_congr
    intro r hr
    rw [getD_act ops _ hr]
    unfold kronApply
    apply Finset.sum_congr rfl
    intro c hc
    rw [Finset.mem_range] at hc
    simp [hc]
  have hlen : gs.flatten.length ≤ n := by
    have := (hgs.1.subperm fun q hq => List.mem_range.2 (hgs.2 q hq)).length_le
    simpa using this
  have ht : ∀ km ∈ mats, ∃ is, km.1 = .tup is ∧ is.length ≤ 30 := by
    intro km hkm
    obtain ⟨is, h⟩ := makemats_tuple hg hf hgs hgm km hkm
    have := key_length g hf hgs hgm km hkm
    rw [h] at this
    simp only [Key.qubits] at this
    exact ⟨is, h, by omega⟩
  cases d with
  | false =>
    refine ⟨mats, ?_, ⟨hgm.ne, hgm.keys, hgm.shapes, fun km h q hq => hgs.2 q (hgm.sub km h q hq), hgm.wf, hgm.len⟩, ht,
      hkeep _ hgm.uni⟩
    simp only [Gate.feedMats, hgm.ok, bind, Except.bind, Bool.false_eq_true, if_false, pure, Except.pure]
  | true =>
    obtain ⟨dm, h1, h2, h3, h4, h5⟩ := feedMats_dagger hf hgs hgm (hd rfl)
    have hmem : ∀ km ∈ dm, ∃ km' ∈ mats, km'.1 = km.1 := by
      intro km hkm
      have : km.1 ∈ mats.map (·.1) := by rw [← h2]; exact List.mem_map_of_mem hkm
      obtain ⟨x, hx, hxe⟩ := List.mem_map.1 this
      exact ⟨x, hx, hxe⟩
    have hkeys : (dm.map fun km => km.1.qubits) = mats.map fun km => km.1.qubits := by
      have := congrArg (List.map Key.qubits) h2
      simpa [List.map_map, Function.comp_def] using this
    refine ⟨dm, h1, ⟨?_, by rw [hkeys]; exact hgm.keys, h3, ?_, h4, ?_⟩, ?_, ?_⟩
    · intro e
      rw [e] at h2
      exact hgm.ne (List.map_eq_nil_iff.1 h2.symm)
    · intro km hkm q hq
      obtain ⟨km', h6, h7⟩ := hmem km hkm
      exact hgs.2 q (hgm.sub km' h6 q (by rw [h7]; exact hq))
    · intro km hkm km' hkm'
      obtain ⟨x, h6, h7⟩ := hmem km hkm
      obtain ⟨x', h8, h9⟩ := hmem km' hkm'
      rw [← h7, ← h9]
      exact hgm.len x h6 x' h8
    · intro km hkm
      obtain ⟨km', h6, h7⟩ := hmem km hkm
      rw [← h7]
      exact ht km' h6
    · have hadj : adjOps (adjOps (opsOf mats)) = opsOf mats := by
        simp [adjOps, List.map_map, Function.comp_def]
      intro v
      rw [← hkeep (adjOps (opsOf mats)) (by rw [hadj]; exact hgm.uni') v]
      apply totalProb_congr
      intro r hr
      have := act_congr h5 ((List.range (2 ^ n)).map v)
      have := congrArg (fun l => l.getD r 0) this
      simp only [getD_act _ _ hr] at this
      have conv : ∀ ops : List (List Nat × (Nat → Nat → ℂ)),
          kronApply n ops (fun c => ((List.range (2 ^ n)).map v).getD c 0) r = kronApply n ops v r := by
        intro ops
        unfold kronApply
        apply Finset.sum_congr rfl
        intro c hc
        rw [Finset.mem_range] at hc
        simp [hc]
      rwa [conv, conv] at this

/-- C69 (partial: swaps and controlled gates only), also backwards: the message is accepted and the worker rebuilds exactly the
matrices.  Only swaps backwards are missing, which fail on the local backend too (C14). -/
theorem C69_backwards_partial (hn : n ≤ 30) {g : Gate} (d : Bool) {gs : List (List Nat)} (hg : tupleGate g = true)
    (hf : Fits g gs) (hgs : GroupsOK n gs) (hd : d = true → hasSwap g = false) :
    ∃ mats pb, g.feedMats d gs = .ok mats ∧ matsToPb mats = .ok pb ∧ pbToMats pb = .ok mats := by
  obtain ⟨mats, h1, h2⟩ := opOK_gate hn hg hf hgs hd
  obtain ⟨pb, h3, h4⟩ := mats_wire hn h2
  exact ⟨mats, pb, h1, h3, h4⟩

example : ∃ mats pb, (Gate.c (.rm 3 false)).feedMats true [[0], [1]] = .ok mats ∧ matsToPb mats = .ok pb ∧ pbToMats pb = .ok mats :=
  C69_backwards_partial (n := 2) (by norm_num) true rfl ⟨0, [[1]], rfl, by simp [Fits]⟩ ⟨by decide, by simp⟩ (fun _ => rfl)

theorem kron_step {K N : Nat} {v : List ℂ} {st : Wid → Wid → Nat} {ws : List Wid} (hn : n ≤ 30)
    (hg : GridOK prm K N C M ws) (hsched : ∀ w c, ((prm w).sched c).Perm (List.range N)) {mats : List (Key × Mat ℂ)}
    (hop : OpOK n (.kron mats)) (hD : Distributed K N n v C M st pm c) {arena : List ℂ} (ha : arena.length = 2 ^ n) (r : ℝ) :
    ∃ pm' v' c' st', opProg ws r (.kron mats) = .ok pm' ∧
      (∀ sched, sched.Perm (List.range (2 ^ n)) → BState.kronselectDot ⟨n, v, arena⟩ mats 0 0 sched = (.ok (), ⟨n, v', v⟩)) ∧
      norm2 v' = norm2 v ∧ AlwaysEnds (netAct prm) (startOp c pm') c' ∧
      Distributed K N n v' C M st' (.done (.ok none)) c' := by
  obtain ⟨pb, hpb, hmb⟩ := mats_wire hn hop
  obtain ⟨hk, -, hu⟩ := hop
  have hact : ∀ sched, sched.Perm (List.range (2 ^ n)) → BState.kronselectDot ⟨n, v, arena⟩ mats 0 0 sched
      = (.ok (), ⟨n, kronVec n mats v, v⟩) := fun sched hs =>
    part_local_kron ha ⟨hk.keys, hk.shapes, hk.range, hk.wf, by rw [hD.size]; omega, by rw [ha]; omega⟩
      ⟨by rw [ha]; exact hs, hk.nonempty, hk.sameSize⟩
  obtain ⟨b', c', hb, he, hD'⟩ := C61_kron_partial (prm := prm) (ops := [mats]) hg hsched
    (by
      intro mats' hmem
      rw [List.mem_singleton.1 hmem]
      exact hk)
    ha (scheds := fun _ => List.range (2 ^ n)) (fun _ => List.Perm.refl _) (hD.start (kronOps ws [mats]))
  have hb' : b' = ⟨n, kronVec n mats v, v⟩ := by
    simp only [localOps, hact _ (List.Perm.refl _)] at hb
    injection hb with hb
    exact hb.symm
  subst hb'
  refine ⟨sendKronprod mats ws, _, c', _, ?_, hact, ?_, he, hD'⟩
  · simp only [opProg, hpb, hmb, bind, Except.bind]
  · rw [← norm2_total hD.size, ← hu, ← norm2_total (n := n) (by simp [kronVec])]
    apply totalProb_congr
    intro r hr
    simp [kronVec, hr]

theorem measure_step {K N : Nat} {v : List ℂ} {st : Wid → Wid → Nat} {ws : List Wid} {indices : List Nat} {req : Option Int} (hn : n ≤ 30)
    (hg : GridOK prm K N C M ws) (hgarb : ∀ w c, (prm w).garbage c = 0)
    (hu : ∀ i c, 0 < (prm (i, i)).draw c ∧ (prm (i, i)).draw c < 1) (hop : OpOK n (.measure indices req))
    (hT : norm2 v = 1) (hD : Distributed K N n v C M st pm c) {arena : List ℂ} (ha : arena.length = 2 ^ n) {r : ℝ}
    (hr : 0 < r ∧ r < 1) :
    ∃ (pm' : MProg) (m : Nat) (p : ℝ) (v' : List ℂ) (c' : _) (st' : _), opProg ws r (.measure indices req) = .ok pm' ∧
      (∀ u g, BState.measure ⟨n, v, arena⟩ indices (some (m : Int)) none 0 0 u g = (.ok (m, p), ⟨n, v', v⟩)) ∧
      norm2 v' = 1 ∧ AlwaysEnds (netAct prm) (startOp c pm') c' ∧
      Distributed K N n v' C M st' (.done (.ok (some (m, p)))) c' := by
  have hIdx : IdxOK n indices := hop
  have hT' : Spec.totalProb n (fun c => v.getD c 0) = 1 := by rw [norm2_total hD.size, hT]
  obtain ⟨m, p, b', c', st', hm, hp, hp0, he, hD', hb⟩ := C65_measure_partial (prm := prm) hg hIdx hgarb hu hT' hr
    (hD.start (sendMeasure indices r ws)) ha 0 0
  have hloc : ∀ u g, BState.measure ⟨n, v, arena⟩ indices (some (m : Int)) none 0 0 u g
      = (.ok (m, p), ⟨n, collapsedVec n indices v m p, v⟩) := by
    intro u g
    rw [hp] at hp0 ⊢
    exact local_measure ha hD.size hIdx hm hp0 u g
  have hb' : b' = ⟨n, collapsedVec n indices v m p, v⟩ := by
    rw [hloc] at hb
    exact (Prod.mk.inj hb).2.symm
  subst hb'
  refine ⟨sendMeasure indices r ws, m, p, _, c', st', ?_, hloc, ?_, he, hD'⟩
  · have : ∀ i ∈ indices, i < 2 ^ 31 := fun i hi => by have := hIdx.lt i hi; omega
    simp only [opProg, C58_indices this, bind, Except.bind]
  · rw [← norm2_total (n := n) (by simp [collapsedVec])]
    rw [totalProb_scale (a := √(1 / p)) (w := project n indices m fun c => v.getD c 0), totalProb_project]
    · rw [← hp, Real.sq_sqrt (by positivity)]
      field_simp
    · intro r hr
      unfold collapsedVec
      rw [List.getD_eq_getElem _ _ (by simpa using hr)]
      simp only [List.getElem_map, List.getElem_range, collapsed, project]
      split
      · ring
      · simp

theorem ops_steps {K N : Nat} {ws : List Wid} (hn : n ≤ 30)
    (hg : GridOK prm K N C M ws) (hsched : ∀ w c, ((prm w).sched c).Perm (List.range N))
    (hgarb : ∀ w c, (prm w).garbage c = 0) (hu : ∀ i c, 0 < (prm (i, i)).draw c ∧ (prm (i, i)).draw c < 1)
    {ops : List (JobOp × ℝ)} (hops : ∀ o ∈ ops, OpOK n o.1 ∧ 0 < o.2 ∧ o.2 < 1) {v : List ℂ} {st : Wid → Wid → Nat}
    {pm : MProg} {c : Cfg Pid NMsg NLoc} (hT : norm2 v = 1) (hD : Distributed K N n v C M st pm c) {arena : List ℂ}
    (ha : arena.length = 2 ^ n) :
    ∃ results b' c' pm' st', JobRuns prm ws ops c results c' ∧
      LocalJob ((ops.map Prod.fst).zip results) ⟨n, v, arena⟩ b' ∧ Distributed K N n b'.state C M st' pm' c' := by
  induction ops generalizing v st pm c arena with
  | nil => exact ⟨[], ⟨n, v, arena⟩, c, pm, st, .nil c, .nil _, hD⟩
  | cons o ops ih =>
    obtain ⟨op, r⟩ := o
    obtain ⟨h1, h2, h3⟩ := hops (op, r) (by simp)
    cases op with
    | kron mats =>
      obtain ⟨pm', v', c', st', e1, e3, e4, e5, e6⟩ := kron_step (prm := prm) (pm := pm) hn hg hsched h1 hD ha r
      obtain ⟨results, b', c2, pm2, st2, i1, i2, i3⟩ := ih (fun o h => hops o (by simp [h])) (e4.trans hT) e6 hD.size
      exact ⟨none :: results, b', c2, pm2, st2, .cons e1 e5 e6.manager i1, .kron e3 i2, i3⟩
    | measure indices req =>
      obtain ⟨pm', m, p, v', c', st', e1, e2, e3, e4, e5⟩ := measure_step (prm := prm) (pm := pm) hn hg hgarb hu h1 hT hD ha
        ⟨h2, h3⟩
      obtain ⟨results, b', c2, pm2, st2, i1, i2, i3⟩ := ih (fun o h => hops o (by simp [h])) e3 e5 hD.size
      exact ⟨some (m, p) :: results, b', c2, pm2, st2, .cons e1 e4 e5.manager i1, .measure e2 i2, i3⟩

theorem grid_size {K N : Nat} (hpl : placeWorkers n workers = .ok (placed, rest)) (hprm : JobParams placed prm C M)
    (hg : GridOK prm K N C M (placed.map Placed.wid)) {p : Placed} (hmem : p ∈ placed) :
    p.out.2 - p.out.1 = N ∧ p.inp = (p.wid.1 * N, (p.wid.1 + 1) * N) := by
  obtain ⟨k, hk, hp⟩ := place_grid hpl
  have hN : 0 < 2 ^ k := by positivity
  obtain ⟨-, -, e1, e2⟩ := grid_wid hN hp hmem
  have h1 := hprm.size p hmem (0, 0)
  rw [hg.size, e1] at h1
  simp only [Nat.succ_mul, Nat.add_sub_cancel_left] at h1
  subst h1
  refine ⟨?_, e1⟩
  rw [e2]
  simp only [Nat.succ_mul, Nat.add_sub_cancel_left]

theorem sched_grid {K N : Nat} (hpl : placeWorkers n workers = .ok (placed, rest)) (hprm : JobParams placed prm C M)
    (hg : GridOK prm K N C M (placed.map Placed.wid))
    (hsched : ∀ p ∈ placed, ∀ w c, ((prm w).sched c).Perm (List.range (p.out.2 - p.out.1))) (w : Wid) (c : Nat) :
    ((prm w).sched c).Perm (List.range N) := by
  obtain ⟨k, hk, hp⟩ := place_grid hpl
  have hN : 0 < 2 ^ k := by positivity
  obtain ⟨p, h1, -⟩ := grid_exists hN hp (w := (0, 0)) (by positivity) (by positivity)
  rw [← (grid_size hpl hprm hg h1).1]
  exact hsched p h1 w c

/-- Every worker of the job has its input range of the state. -/
theorem Distributed.ranges {K N : Nat} {st : Wid → Wid → Nat} {b' : BState} {c' : Cfg Pid NMsg NLoc}
    (i3 : Distributed K N n b'.state C M st pm c') (hpl : placeWorkers n workers = .ok (placed, rest))
    (hprm : JobParams placed prm C M) (hg : GridOK prm K N C M (placed.map Placed.wid)) {p : Placed} (hmem : p ∈ placed) :
    ∃ s, c'.loc (some p.wid) = .wkr s ∧ s.pc = .idle ∧ s.b.state = b'.getRange p.inp.1 p.inp.2 := by
  obtain ⟨h1, h2⟩ := (hg.mem p.wid).1 (List.mem_map.2 ⟨p, hmem, rfl⟩)
  obtain ⟨b, cnt, j1, -, j3, j4, -⟩ := i3.workers p.wid.1 h1 p.wid.2 h2
  refine ⟨_, j1, rfl, ?_⟩
  have h3 : (p.wid.1 + 1) * N ≤ K * N := Nat.mul_le_mul_right _ h1
  rw [Nat.succ_mul, i3.cover] at h3
  have hlen := i3.size
  rw [(grid_size hpl hprm hg hmem).2]
  apply List.ext_getElem
  · rw [j3]
    simp only [BState.getRange, List.length_drop, List.length_take, Nat.succ_mul]
    omega
  · intro o ho1 ho2
    have ho : o < N := j3 ▸ ho1
    have h4 := j4 o ho
    rw [List.getD_eq_getElem _ _ ho1, List.getD_eq_getElem _ _ (by omega)] at h4
    rw [h4]
    simp [BState.getRange]

/-- C88 (partial: at least one vector is fed (C84); unitary matrices on tuples of qubits, see C69, and
measurements, see C66; accumulators 0 and
draws not 0 (C23, C24); connections arrived (C64)): a whole job, on any enough free workers.  Every operation ends, whatever
the schedule of the processes; the local backend started with the same states and asked for the same operations and the
reported outcomes reports the same probabilities; and at the end every worker has its range of the state of the local
backend. -/
theorem C88_job_partial (hn : n ≤ 30) (hfed : FedOK n groups vecs)
    (hnorm : Spec.totalProb n (initAmp n groups vecs) = 1)
    (hset : setupStates n groups (vecs.map .vec) = .ok states) (hpl : placeWorkers n workers = .ok (placed, rest))
    (hprm : JobParams placed prm C M) (hstart : JobStart n states placed pm c)
    (hsched : ∀ p ∈ placed, ∀ w c, ((prm w).sched c).Perm (List.range (p.out.2 - p.out.1)))
    (hgarb : ∀ w c, (prm w).garbage c = 0) (hu : ∀ i c, 0 < (prm (i, i)).draw c ∧ (prm (i, i)).draw c < 1)
    {ops : List (JobOp × ℝ)} (hops : ∀ o ∈ ops, OpOK n o.1 ∧ 0 < o.2 ∧ o.2 < 1) {arena : List ℂ}
    (ha : arena.length = 2 ^ n) :
    ∃ results c' b b', JobRuns prm (placed.map Placed.wid) ops c results c' ∧
      makeState n groups (vecs.map .vec) 0 (2 ^ n) arena = .ok b ∧ LocalJob ((ops.map Prod.fst).zip results) b b' ∧
      ∀ p ∈ placed, ∃ s, c'.loc (some p.wid) = .wkr s ∧ s.pc = .idle ∧ s.b.state = b'.getRange p.inp.1 p.inp.2 := by
  have hw : ∃ S, List.Subperm S workers ∧ Enough n S := by
    rw [← C59_draw_iff]
    unfold placeWorkers at hpl
    rcases hd : drawWorkers n workers with e | x
    · simp [hd, bind, Except.bind] at hpl
    · exact ⟨x, rfl⟩
  obtain ⟨states', placed', rest', v, s1, s2, -, -, s5, s6, K, N, s7⟩ := C84_setup_partial hn hfed hw
  rw [hset] at s1
  injection s1 with s1
  rw [hpl] at s2
  injection s2 with s2
  obtain ⟨rfl, rfl⟩ := Prod.mk.inj s2
  subst s1
  obtain ⟨hg, hD⟩ := s7 prm C M pm c hprm hstart
  have hT : norm2 v = 1 := by
    rw [← norm2_total hD.size, ← hnorm]
    exact totalProb_congr s6
  have hsched' := sched_grid hpl hprm hg hsched
  obtain ⟨results, b', c', pm', st', i1, i2, i3⟩ := ops_steps hn hg hsched' hgarb hu hops hT hD ha
  exact ⟨results, c', _, b', i1, s5 arena, i2, fun p hmem => i3.ranges hpl hprm hg hmem⟩

/-- C78 (negation of the property): the distributed backend does not pass on the requested outcome.  In every job, for any two
possible outcomes of a measurement, one can be requested so that another outcome is reported; the local backend reports the
requested outcome. -/
theorem C78_forced_false (hn : n ≤ 30) (hfed : FedOK n groups vecs)
    (hnorm : Spec.totalProb n (initAmp n groups vecs) = 1)
    (hset : setupStates n groups (vecs.map .vec) = .ok states) (hpl : placeWorkers n workers = .ok (placed, rest))
    (hprm : JobParams placed prm C M) (hstart : JobStart n states placed pm c)
    (hsched : ∀ p ∈ placed, ∀ w c, ((prm w).sched c).Perm (List.range (p.out.2 - p.out.1)))
    (hgarb : ∀ w c, (prm w).garbage c = 0) (hu : ∀ i c, 0 < (prm (i, i)).draw c ∧ (prm (i, i)).draw c < 1)
    {indices : List Nat} (hIdx : IdxOK n indices) {r : ℝ} (hr : 0 < r ∧ r < 1) {m1 m2 : Nat}
    (h1 : m1 < 2 ^ indices.length) (h2 : m2 < 2 ^ indices.length) (hne : m1 ≠ m2)
    (hp1 : 0 < outcomeProb n indices (initAmp n groups vecs) m1) (hp2 : 0 < outcomeProb n indices (initAmp n groups vecs) m2)
    {arena : List ℂ} (ha : arena.length = 2 ^ n) :
    ∃ req m p c' b, (req = m1 ∨ req = m2) ∧ m ≠ req ∧
      JobRuns prm (placed.map Placed.wid) [(.measure indices (some (req : Int)), r)] c [some (m, p)] c' ∧
      makeState n groups (vecs.map .vec) 0 (2 ^ n) arena = .ok b ∧ ∀ u g, ∃ b',
        b.measure indices (some (req : Int)) none 0 0 u g
          = (.ok (req, outcomeProb n indices (initAmp n groups vecs) req), b') := by
  obtain ⟨results, c', b, b', j1, j2, j3, -⟩ := C88_job_partial hn hfed hnorm hset hpl hprm hstart hsched hgarb hu
    (ops := [(.measure indices (some (m1 : Int)), r)]) (by
      simp only [List.mem_singleton, forall_eq]
      exact ⟨hIdx, hr⟩) ha
  obtain ⟨full, hfull, hb1, hb2, hb3, hamp⟩ := C30_initial_state hfed.nodup hfed.lt hfed.length hfed.sizes arena
  rw [hfull] at j2
  injection j2 with j2
  subst j2
  have hloc : ∀ m, m < 2 ^ indices.length → 0 < outcomeProb n indices (initAmp n groups vecs) m → ∀ u g, ∃ b',
      full.measure indices (some (m : Int)) none 0 0 u g
        = (.ok (m, outcomeProb n indices (initAmp n groups vecs) m), b') := by
    intro m hm hp u g
    subst hb1
    have he : outcomeProb full.n indices full.amp m = outcomeProb full.n indices (initAmp full.n groups vecs) m := by
      apply outcomeProb_congr
      intro r hr
      unfold BState.amp
      rw [List.getD_eq_getElem?_getD, hamp r hr]
      rfl
    obtain ⟨b', h, -⟩ := (C26_forced (b := full) ⟨hb3, by rw [hb2]; exact ha⟩ hIdx hm (by rw [he]; exact hp.ne') u g).1
    rw [he] at h
    exact ⟨b', h⟩
  cases j1 with
  | cons hop hrun hres hrest =>
    cases hrest with
    | nil =>
      cases j3 with
      | @measure _ _ m p _ _ _ _ hm _ =>
        by_cases h : m = m1
        · refine ⟨m2, m, p, c', full, Or.inr rfl, by rw [h]; exact hne, ?_, hfull, hloc m2 h2 hp2⟩
          exact .cons hop hrun hres (.nil _)
        · exact ⟨m1, m, p, c', full, Or.inl rfl, h, .cons hop hrun hres (.nil _), hfull, hloc m1 h1 hp1⟩

/-! ## Such jobs exist -/

/-- The hypotheses of `C84_setup_partial` and `C88_job_partial` about the workers can be met whenever workers are placed. -/
theorem job_exists (hpl : placeWorkers n workers = .ok (placed, rest))
    (hinit : ∀ p ∈ placed, ∀ arena, ∃ b, workerInit n states p arena = .ok b) (pm : MProg) :
    ∃ prm c, JobParams placed prm 1 2 ∧ JobStart n states placed pm c ∧
      (∀ p ∈ placed, ∀ w c, ((prm w).sched c).Perm (List.range (p.out.2 - p.out.1))) ∧ (∀ w c, (prm w).garbage c = 0) ∧
      ∀ i c, 0 < (prm (i, i)).draw c ∧ (prm (i, i)).draw c < 1 := by
  classical
  obtain ⟨k, hk, hp⟩ := place_grid hpl
  have hN : 0 < 2 ^ k := by positivity
  have hout : ∀ p ∈ placed, p.out.2 - p.out.1 = 2 ^ k ∧ p.inp.2 - p.inp.1 = 2 ^ k := by
    intro p hmem
    obtain ⟨-, -, e1, e2⟩ := grid_wid hN hp hmem
    rw [e1, e2]
    simp only [Nat.succ_mul, Nat.add_sub_cancel_left, and_self]
  let prm : Wid → WParam := fun w => ⟨2 ^ k,
    if h : ∃ p ∈ placed, p.wid = w then (connecting placed h.choose).map Placed.wid else [], 1, 2,
    fun _ => List.range (2 ^ k), fun _ => 1 / 2, fun _ => 0⟩
  have hb : ∀ p : Placed, ∃ b, p ∈ placed → workerInit n states p (List.replicate (2 ^ k) 0) = .ok b := by
    intro p
    by_cases h : p ∈ placed
    · obtain ⟨b, hb⟩ := hinit p h (List.replicate (2 ^ k) 0)
      exact ⟨b, fun _ => hb⟩
    · exact ⟨⟨0, [], []⟩, fun h' => absurd h' h⟩
  choose bs hbs using hb
  let c : Cfg Pid NMsg NLoc := ⟨fun x => match x with
    | none => .mgr pm
    | some w => .wkr (if h : ∃ p ∈ placed, p.wid = w then ⟨bs h.choose, .idle, 0⟩ else ⟨⟨0, [], []⟩, .closed, 0⟩), fun _ => []⟩
  have hch : ∀ p ∈ placed, ∃ h : ∃ q ∈ placed, q.wid = p.wid, h.choose = p := by
    intro p hmem
    have h : ∃ q ∈ placed, q.wid = p.wid := ⟨p, hmem, rfl⟩
    exact ⟨h, grid_inj hN hp h.choose_spec.1 hmem h.choose_spec.2⟩
  refine ⟨prm, c, ⟨fun p hmem w => (hout p hmem).2.symm, ⟨by norm_num, fun _ => rfl⟩, ⟨by norm_num, fun _ => rfl⟩, ?_⟩,
    ⟨rfl, ?_, ?_, fun _ => rfl⟩, ?_, fun _ _ => rfl, fun _ _ => by norm_num [prm]⟩
  · intro p hmem _
    obtain ⟨h1, h2⟩ := hch p hmem
    simp only [prm, dif_pos h1, h2]
    exact List.Perm.refl _
  · intro p hmem
    obtain ⟨h1, h2⟩ := hch p hmem
    refine ⟨_, bs p, ?_, hbs p hmem, ?_⟩
    · rw [List.length_replicate, (hout p hmem).1]
    · simp only [c, dif_pos h1, h2]
  · intro w hw
    have h : ¬ ∃ p ∈ placed, p.wid = w := fun ⟨p, h1, h2⟩ => hw (List.mem_map.2 ⟨p, h1, h2⟩)
    exact ⟨_, rfl, by simp only [dif_neg h]⟩
  · intro p hmem w c
    rw [(hout p hmem).1]

/-- Four free workers for one qubit each, and one that is not needed. -/
def fiveWorkers : List Wkr := [⟨0, 1⟩, ⟨1, 1⟩, ⟨2, 1⟩, ⟨3, 1⟩, ⟨4, 0⟩]

theorem five_enough : ∃ S, List.Subperm S fiveWorkers ∧ Enough 2 S :=
  ⟨[⟨0, 1⟩, ⟨1, 1⟩, ⟨2, 1⟩, ⟨3, 1⟩], (List.sublist_append_left ([⟨0, 1⟩, ⟨1, 1⟩, ⟨2, 1⟩, ⟨3, 1⟩] : List Wkr) [⟨4, 0⟩]).subperm,
    by simp, by simp⟩

theorem bell_fed : FedOK 2 [[0, 1]] [bellV] :=
  ⟨by simp, by simp, by simp, rfl, by simp [bellV]⟩

theorem bell_amp {r : Nat} (hr : r < 2 ^ 2) : initAmp 2 [[0, 1]] [bellV] r = bellV.getD r 0 := by
  have hs : subIndex 2 [0, 1] r = r := by
    have : ∀ r < 2 ^ 2, subIndex 2 [0, 1] r = r := by decide
    exact this r hr
  unfold initAmp
  rw [if_pos (by
    intro q hq hq'
    simp at hq'
    omega)]
  simp [hs]

theorem bell_init : Spec.totalProb 2 (initAmp 2 [[0, 1]] [bellV]) = 1 := by
  rw [← bell_norm]
  exact totalProb_congr fun r hr => bell_amp hr

/-- `3/5 |00> + 4/5 |11>` on four workers: a controlled `Rm(3)` run backwards, the first qubit measured, the qubits exchanged, and
measured again. -/
example : ∃ states placed rest prm c results c' b b' m1 m2, setupStates 2 [[0, 1]] [.vec bellV] = .ok states ∧
    placeWorkers 2 fiveWorkers = .ok (placed, rest) ∧
    (Gate.c (.rm 3 false)).feedMats true [[0], [1]] = .ok m1 ∧ (Gate.swap 1).feedMats false [[0], [1]] = .ok m2 ∧
    JobRuns prm (placed.map Placed.wid) [(.kron m1, 1 / 2), (.measure [0] none, 1 / 3), (.kron m2, 1 / 2),
      (.measure [0, 1] (some 2), 1 / 4)] c results c' ∧
    LocalJob (([(.kron m1, 1 / 2), (.measure [0] none, 1 / 3), (.kron m2, 1 / 2),
      (.measure [0, 1] (some 2), 1 / 4)] : List (JobOp × ℝ)).map Prod.fst |>.zip results) b b' := by
  obtain ⟨states, placed, rest, v, s1, s2, -, s4, -⟩ := C84_setup_partial (by norm_num) bell_fed five_enough
  obtain ⟨prm, c, h1, h2, h3, h4, h5⟩ := job_exists s2 s4 (.done (.ok none))
  have hgr : GroupsOK 2 [[0], [1]] := ⟨by decide, by simp⟩
  obtain ⟨m1, g1, o1⟩ := opOK_gate (n := 2) (by norm_num) (g := .c (.rm 3 false)) (d := true) rfl ⟨0, [[1]], rfl, by simp [Fits]⟩ hgr
    (fun _ => rfl)
  obtain ⟨m2, g2, o2⟩ := opOK_gate (n := 2) (by norm_num) (g := .swap 1) (d := false) rfl (by simp [Fits]) hgr (by simp)
  obtain ⟨results, c', b, b', i1, -, i3, -⟩ := C88_job_partial (by norm_num) bell_fed bell_init s1 s2 h1 h2 h3 h4 h5
    (ops := [(.kron m1, 1 / 2), (.measure [0] none, 1 / 3), (.kron m2, 1 / 2), (.measure [0, 1] (some 2), 1 / 4)])
    (by
      simp only [List.mem_cons, List.not_mem_nil, or_false, forall_eq_or_imp, forall_eq]
      exact ⟨⟨o1, by norm_num⟩, ⟨⟨by simp, by simp⟩, by norm_num⟩, ⟨o2, by norm_num⟩, ⟨⟨by simp, by simp⟩, by norm_num⟩⟩)
    (arena := List.replicate 4 0) (by simp)
  exact ⟨states, placed, rest, prm, c, results, c', b, b', m1, m2, s1, s2, g1, g2, i1, i3⟩

/-- The outcomes 0 and 1 of qubit 1 of `3/5 |00> + 4/5 |11>` are possible. -/
example : ∃ states placed rest prm c, ∃ req m : Nat, ∃ p c', setupStates 2 [[0, 1]] [.vec bellV] = .ok states ∧
    placeWorkers 2 fiveWorkers = .ok (placed, rest) ∧ (req = 0 ∨ req = 1) ∧ m ≠ req ∧
    JobRuns prm (placed.map Placed.wid) [(.measure [1] (some (req : Int)), 1 / 2)] c [some (m, p)] c' := by
  obtain ⟨states, placed, rest, v, s1, s2, -, s4, -⟩ := C84_setup_partial (by norm_num) bell_fed five_enough
  obtain ⟨prm, c, h1, h2, h3, h4, h5⟩ := job_exists s2 s4 (.done (.ok none))
  have hI : IdxOK 2 [1] := by constructor <;> simp
  have hp1 : outcomeProb 2 [1] (initAmp 2 [[0, 1]] [bellV]) 1 = 16 / 25 := by
    rw [← bell_prob]
    exact outcomeProb_congr (fun r hr => bell_amp hr) _
  have hp0 : outcomeProb 2 [1] (initAmp 2 [[0, 1]] [bellV]) 0 = 9 / 25 := by
    have h := hI.sum_outcomeProb (initAmp 2 [[0, 1]] [bellV])
    rw [bell_init] at h
    simp only [List.length_singleton, pow_one, Finset.sum_range_succ, Finset.sum_range_zero, hp1] at h
    linarith
  obtain ⟨req, m, p, c', b, i1, i2, i3, -⟩ := C78_forced_false (by norm_num) bell_fed bell_init s1 s2 h1 h2 h3 h4 h5
    hI (r := 1 / 2) (by norm_num) (m1 := 0) (m2 := 1) (by norm_num) (by norm_num) (by norm_num)
    (by rw [hp0]; norm_num) (by rw [hp1]; norm_num) (arena := List.replicate 4 0) (by simp)
  exact ⟨states, placed, rest, prm, c, req, m, p, c', s1, s2, i1, i2, i3⟩

/-- Some worker of this grid is in the situation of `C84_unfed_false`. -/
example : ∃ placed rest p, placeWorkers 2 fiveWorkers = .ok (placed, rest) ∧ p ∈ placed ∧ p.inp.1 ≠ 0 := by
  obtain ⟨placed, rest, h⟩ := place_ok (by norm_num) five_enough
  refine ⟨placed, rest, ?_⟩
  have h' := h
  unfold placeWorkers at h'
  rcases hd : drawWorkers 2 fiveWorkers with e | ⟨un, rest', wn⟩
  · simp [hd, bind, Except.bind] at h'
  simp only [hd, bind, Except.bind] at h'
  obtain ⟨placed', h1, h2, h3, h4, -⟩ := C60_tiles hd
  simp only [h1] at h'
  split at h'
  · injection h' with h'
    obtain ⟨rfl, rfl⟩ := Prod.mk.inj h'
    have hc := h4 0 (by norm_num) 3 (by norm_num)
    obtain ⟨p, hp, hq⟩ := List.countP_pos_iff.1 (by rw [hc]; norm_num : 0 < List.countP _ placed')
    refine ⟨p, h, hp, ?_⟩
    simp only [Bool.and_eq_true, decide_eq_true_eq] at hq
    obtain ⟨m, -, hm, e1, -⟩ := h3 p hp
    have hmem : p.worker ∈ fiveWorkers := (C59_drawn hd).1.subset (List.mem_append_left _
      (h2.subset (List.mem_map.2 ⟨p, hp, rfl⟩)))
    have hnq : p.worker.nq ≤ 1 := by
      have : ∀ w ∈ fiveWorkers, w.nq ≤ 1 := by simp [fiveWorkers]
      exact this _ hmem
    have : 2 ^ m ≤ 2 ^ 1 := Nat.pow_le_pow_right (by norm_num) (by omega)
    omega
  · cases h'

end QIP.Props
