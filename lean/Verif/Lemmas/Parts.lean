import Verif.Lemmas.Grid
import Verif.Props.Measure

/-!
# The state of a job, cut into the ranges of its workers
-/

namespace QIP

open Spec

/-- Range `i` of a vector cut into ranges of length `N`. -/
def part {R : Type} (N : Nat) (v : List R) (i : Nat) : List R := (v.drop (i * N)).take N

theorem part_length {R : Type} {N K : Nat} {v : List R} (hv : v.length = K * N) {i : Nat} (hi : i < K) :
    (part N v i).length = N := by
  have : (i + 1) * N ≤ K * N := Nat.mul_le_mul_right N hi
  rw [Nat.succ_mul] at this
  simp [part]; omega

theorem part_getD {R : Type} {N : Nat} {v : List R} {i o : Nat} (ho : o < N) (d : R) :
    (part N v i).getD o d = v.getD (i * N + o) d := by
  simp [part, List.getElem?_take, ho]

theorem take_part {R : Type} (N : Nat) (v : List R) (k : Nat) :
    v.take ((k + 1) * N) = v.take (k * N) ++ part N v k := by
  rw [Nat.succ_mul, List.take_add]
  rfl

/-- Quantities that are additive over consecutive pieces. -/
theorem sum_parts {A : Type} [AddCommMonoid A] (F : (Nat → ℂ) → A) (h0 : F (sliceAt 0 []) = 0)
    (hadd : ∀ p q : List ℂ, F (sliceAt 0 (p ++ q)) = F (sliceAt 0 p) + F (sliceAt p.length q)) {N K : Nat} {v : List ℂ}
    (hv : v.length = K * N) :
    ((List.range K).map fun i => F (sliceAt (i * N) (part N v i))).sum = F (fun c => v.getD c 0) := by
  have key : ∀ k ≤ K, ((List.range k).map fun i => F (sliceAt (i * N) (part N v i))).sum
      = F (sliceAt 0 (v.take (k * N))) := by
    intro k hk
    induction k with
    | zero => simpa using h0.symm
    | succ k ih =>
      rw [List.range_succ, List.map_append, List.sum_append, ih (by omega), take_part, hadd]
      have : k * N ≤ K * N := Nat.mul_le_mul_right N (by omega)
      simp [hv, this]
  rw [key K le_rfl, List.take_of_length_le (by omega), sliceAt_zero']

theorem sum_parts_kron {n : Nat} (ops : List (List Nat × (Nat → Nat → ℂ))) (r : Nat) {N K : Nat} {v : List ℂ}
    (hv : v.length = K * N) :
    ((List.range K).map fun i => kronApply n ops (sliceAt (i * N) (part N v i)) r).sum
      = kronApply n ops (fun c => v.getD c 0) r := by
  refine sum_parts (fun w => kronApply n ops w r) ?_ ?_ hv
  · have : sliceAt 0 ([] : List ℂ) = fun _ => 0 := by funext c; simp [sliceAt]
    simp only [this, Props.kronApply_zero]
  · intro p q
    rw [← Props.kronApply_add]
    congr 1
    funext c
    rw [Props.sliceAt_append, Nat.zero_add]

/-- A sum of squared magnitudes over any set of indices is additive. -/
theorem sum_parts_normSq (S : Finset Nat) {N K : Nat} {v : List ℂ} (hv : v.length = K * N) :
    ((List.range K).map fun i => ∑ c ∈ S, Complex.normSq (sliceAt (i * N) (part N v i) c)).sum
      = ∑ c ∈ S, Complex.normSq (v.getD c 0) := by
  refine sum_parts (fun w => ∑ c ∈ S, Complex.normSq (w c)) ?_ ?_ hv
  · simp [sliceAt]
  · intro p q
    rw [← Finset.sum_add_distrib]
    apply Finset.sum_congr rfl
    intro c _
    rw [Props.sliceAt_append, Nat.zero_add]
    have hz : sliceAt 0 p c = 0 ∨ sliceAt p.length q c = 0 := by
      by_cases hc : c < p.length
      · right; unfold sliceAt; rw [if_neg (by omega)]
      · left
        unfold sliceAt
        split
        · exact List.getD_eq_default _ _ (by omega)
        · rfl
    rcases hz with hz | hz <;> simp [hz]

theorem sum_parts_outcome {n : Nat} (indices : List Nat) (m : Nat) {N K : Nat} {v : List ℂ} (hv : v.length = K * N) :
    ((List.range K).map fun i => outcomeProb n indices (sliceAt (i * N) (part N v i)) m).sum
      = outcomeProb n indices (fun c => v.getD c 0) m := sum_parts_normSq _ hv

theorem sum_parts_total {n : Nat} {N K : Nat} {v : List ℂ} (hv : v.length = K * N) :
    ((List.range K).map fun i => Spec.totalProb n (sliceAt (i * N) (part N v i))).sum
      = Spec.totalProb n (fun c => v.getD c 0) := sum_parts_normSq _ hv

/-- Every worker of the grid waits for an operation and has its input range of `v`; there are no other workers. -/
structure GridReady (K N n : Nat) (v : List ℂ) (f : Wid → WSt) : Prop where
  grid : ∀ i < K, ∀ j < K, (f (i, j)).pc = .idle ∧ (f (i, j)).b.n = n ∧ (f (i, j)).b.state = part N v i ∧
    (f (i, j)).b.arena.length = N
  others : ∀ w, ¬ (w.1 < K ∧ w.2 < K) → (f w).pc = .closed

variable {prm : Wid → WParam} {K N C M n : Nat} {ws : List Wid} {st : Wid → Wid → Nat} {v : List ℂ} {f : Wid → WSt}

theorem onGrid_self (hidle : ∀ w, w.1 < K → w.2 < K → (f w).pc = .idle) :
    onGrid K (idleSt (fun w => (f w).b) fun w => (f w).cnt) f = f := by
  funext w
  unfold onGrid
  split
  · next h =>
    unfold idleSt
    rw [← hidle w h.1 h.2]
  · rfl

/-- The manager's program for a kron product, then `k`. -/
def kronThen (mats : List (Key × Mat ℂ)) (ws : List Wid) (k : MProg) : MProg :=
  mapWorkers (.kron mats) ws fun _ => mapWorkers (.sync 0 false) ws fun _ => k

/-- The whole state after a kron product. -/
noncomputable def kronVec (n : Nat) (mats : List (Key × Mat ℂ)) (v : List ℂ) : List ℂ :=
  (List.range (2 ^ n)).map fun r => kronApply n (opsOf mats) (fun c => v.getD c 0) r

theorem part_local_kron {mats : List (Key × Mat ℂ)} {arena : List ℂ} (ha : arena.length = 2 ^ n)
    (hcall : CallOK n mats v arena 0 0) {sched : List Nat} (hi : ImplOK mats arena (.cython sched)) :
    BState.kronselectDot ⟨n, v, arena⟩ mats 0 0 sched = (.ok (), ⟨n, kronVec n mats v, v⟩) := by
  unfold BState.kronselectDot
  simp only
  rw [kronselectDot_eq hcall hi]
  simp only [ha, sliceAt_zero', Nat.add_zero]
  rfl

/-- A kron product on the grid. -/
theorem kron_runsB {cap : Pid × Pid → Option Nat} (hpos : ∀ e, hasRoom (cap e) 1 = true) (hg : GridOK prm K N C M ws) (hKN : K * N = 2 ^ n) (hv : v.length = 2 ^ n) (hR : GridReady K N n v f)
    (hst : StOK st)
    (hcg : ∀ i j, i < K → j < K → i ≠ j → hasRoom (cap (some (j, j), some (i, j))) (st (j, j) (i, j) + leftover N C M) = true)
    (hcs : ∀ i j, i < K → j < K → i ≠ j → hasRoom (cap (some (i, j), some (i, i))) (st (i, j) (i, i) + leftover N C M) = true)
    {mats : List (Key × Mat ℂ)} (hcall : CallOK n mats v (List.replicate (2 ^ n) 0) 0 0)
    (hne : mats ≠ []) (hsame : ∀ km ∈ mats, ∀ km' ∈ mats, km.1.qubits.length = km'.1.qubits.length)
    (hsched : ∀ w c, ((prm w).sched c).Perm (List.range N)) (k : MProg) :
    ∃ f', RunsB (netAct prm) cap (netCfg (kronThen mats ws k) f (nbuf C M st noMsg noMsg))
      (netCfg k f' (nbuf C M (scatterSt (gatherSt st K (leftover N C M)) K (leftover N C M)) noMsg noMsg)) ∧
      GridReady K N n (kronVec n mats v) f' ∧ ∀ i < K, (f' (i, i)).cnt = (f (i, i)).cnt + 2 := by
  have hvK : v.length = K * N := by omega
  have hidle : ∀ w, w.1 < K → w.2 < K → (f w).pc = .idle := fun w h1 h2 => (hR.grid w.1 h1 w.2 h2).1
  -- every worker's own part
  have hloc : ∀ w, w.1 < K → w.2 < K → handleOp (prm w) w (f w) (.kron mats)
      = (⟨n, (List.range N).map fun o => kronApply n (opsOf mats) (sliceAt (w.1 * N) (part N v w.1)) (o + w.2 * N),
          part N v w.1⟩, .reply .conf) := by
    intro w h1 h2
    obtain ⟨-, e1, e2, e3⟩ := hR.grid w.1 h1 w.2 h2
    have hin : (w.1 + 1) * N ≤ K * N := Nat.mul_le_mul_right N h1
    have hout : (w.2 + 1) * N ≤ K * N := Nat.mul_le_mul_right N h2
    rw [Nat.succ_mul] at hin hout
    have hpl := part_length (R := ℂ) hvK h1
    have := kronselectDot_eq (n := n) (mats := mats) (vec := part N v w.1) (out := (f w).b.arena) (inOff := w.1 * N)
      (outOff := w.2 * N) ⟨hcall.keys, hcall.shapes, hcall.range, hcall.wf, by omega, by rw [e3]; omega⟩
      (impl := .cython ((prm w).sched (f w).cnt)) ⟨by rw [e3]; exact hsched _ _, hne, hsame⟩
    rw [e3] at this
    unfold handleOp BState.kronselectDot
    simp only [hg.size, e1, e2]
    rw [this]
  generalize hb : (fun w : Wid => (⟨n, (List.range N).map fun o =>
    kronApply n (opsOf mats) (sliceAt (w.1 * N) (part N v w.1)) (o + w.2 * N), part N v w.1⟩ : BState)) = b
  have hb' : ∀ w, b w = ⟨n, (List.range N).map fun o =>
      kronApply n (opsOf mats) (sliceAt (w.1 * N) (part N v w.1)) (o + w.2 * N), part N v w.1⟩ := by
    intro w; rw [← hb]
  have h1 := mapWorkers_localB (cap := cap) (prm := prm) (C := C) (M := M) (st := st) (o := .kron mats) (f := f) hpos hg.nodup
    (fun _ => mapWorkers (.sync 0 false) ws fun _ => k)
    (fun w hw => hidle w ((hg.mem w).1 hw).1 ((hg.mem w).1 hw).2) (m := fun _ => .conf)
    (fun w hw => by rw [hloc w ((hg.mem w).1 hw).1 ((hg.mem w).1 hw).2])
  have e1 : (fun w => if w ∈ ws then (⟨(handleOp (prm w) w (f w) (.kron mats)).1, .idle, (f w).cnt + 1⟩ : WSt) else f w)
      = onGrid K (idleSt b fun w => (f w).cnt + 1) f := by
    funext w
    unfold onGrid
    by_cases hw : w.1 < K ∧ w.2 < K
    · rw [if_pos ((hg.mem w).2 hw), if_pos hw, hloc w hw.1 hw.2, idleSt, hb']
    · rw [if_neg (fun h => hw ((hg.mem w).1 h)), if_neg hw]
  rw [e1] at h1
  have hlen : ∀ w, w.1 < K → w.2 < K → (b w).state.length = N := by
    intro w _ _
    rw [hb']; simp
  have h2 := sync_runsB (cap := cap) (prm := prm) (b := b) (cnt := fun w => (f w).cnt + 1) (fo := f) hpos hg hst hlen hcg hcs (fun _ => k)
  refine ⟨_, h1.trans h2, ⟨?_, ?_⟩, ?_⟩
  · intro i hi j hj
    simp only [onGrid, hi, hj, and_self, if_true, idleSt, true_and]
    have hn' : (scattered (gathered prm b) (i, j)).n = n := by
      simp only [scattered, gathered]
      split <;> rw [hb']
    have ha' : (scattered (gathered prm b) (i, j)).arena = part N v i := by
      simp only [scattered, gathered]
      split <;> rw [hb']
    have hs' : (scattered (gathered prm b) (i, j)).state = colSum prm b i := by
      simp only [scattered, gathered, if_true]
    refine ⟨hn', ?_, by rw [ha']; exact part_length hvK hi⟩
    rw [hs']
    have hvl : (kronVec n mats v).length = K * N := by simp [kronVec, hKN]
    apply List.ext_getElem
    · rw [colSum_length hlen hg hi, part_length hvl hi]
    · intro o ho1 ho2
      have ho : o < N := by rw [colSum_length hlen hg hi] at ho1; exact ho1
      have hin : (i + 1) * N ≤ K * N := Nat.mul_le_mul_right N hi
      rw [Nat.succ_mul] at hin
      rw [← List.getD_eq_getElem (colSum prm b i) 0 ho1, ← List.getD_eq_getElem (part N (kronVec n mats v) i) 0 ho2,
        colSum_getD hg hlen hi, part_getD ho]
      have e2 : (kronVec n mats v).getD (i * N + o) 0 = kronApply n (opsOf mats) (fun c => v.getD c 0) (o + i * N) := by
        unfold kronVec
        rw [List.getD_eq_getElem _ _ (by simp; omega)]
        simp [Nat.add_comm]
      rw [e2, ← sum_parts_kron (opsOf mats) (o + i * N) hvK]
      congr 1
      apply List.map_congr_left
      intro i' _
      rw [hb']
      simp [ho]
  · intro w hw
    simp only [onGrid, if_neg hw]
    exact hR.others w hw
  · intro i hi
    simp [onGrid, hi, idleSt]

/-- A kron product on the grid. -/
theorem kron_runs (hg : GridOK prm K N C M ws) (hKN : K * N = 2 ^ n) (hv : v.length = 2 ^ n) (hR : GridReady K N n v f)
    (hst : StOK st) {mats : List (Key × Mat ℂ)} (hcall : CallOK n mats v (List.replicate (2 ^ n) 0) 0 0)
    (hne : mats ≠ []) (hsame : ∀ km ∈ mats, ∀ km' ∈ mats, km.1.qubits.length = km'.1.qubits.length)
    (hsched : ∀ w c, ((prm w).sched c).Perm (List.range N)) (k : MProg) :
    ∃ f', Runs (netAct prm) (netCfg (kronThen mats ws k) f (nbuf C M st noMsg noMsg))
      (netCfg k f' (nbuf C M (scatterSt (gatherSt st K (leftover N C M)) K (leftover N C M)) noMsg noMsg)) ∧
      GridReady K N n (kronVec n mats v) f' ∧ ∀ i < K, (f' (i, i)).cnt = (f (i, i)).cnt + 2 := by
  obtain ⟨f', h1, h2⟩ := kron_runsB (cap := noCap) (fun _ => rfl) hg hKN hv hR hst (fun _ _ _ _ _ => rfl)
    (fun _ _ _ _ _ => rfl) hcall hne hsame hsched k
  exact ⟨f', h1.runs, h2⟩

theorem GridReady.stuck_at (hR : GridReady K N n v f) {pm : MProg} (hpm : (∃ r, pm = .done r) ∨ ∃ r, pm = .doneTop r) :
    Stuck (netAct prm) (netCfg pm f (nbuf C M st noMsg noMsg)) := by
  apply QIP.stuck_at hpm
  intro w
  by_cases hw : w.1 < K ∧ w.2 < K
  · exact Or.inr (Or.inr ⟨(hR.grid w.1 hw.1 w.2 hw.2).1, rfl⟩)
  · exact Or.inl (hR.others w hw)

theorem GridReady.stuck (hR : GridReady K N n v f) {r : Except PyErr (Option (Nat × ℝ))} :
    Stuck (netAct prm) (netCfg (.done r) f (nbuf C M st noMsg noMsg)) := hR.stuck_at (Or.inl ⟨r, rfl⟩)

end QIP
