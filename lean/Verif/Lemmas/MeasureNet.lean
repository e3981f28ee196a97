import Verif.Lemmas.Parts
import Mathlib.Data.List.Perm.Basic

/-!
# A measurement on a grid of workers
-/

namespace QIP

open Spec

variable {prm : Wid → WParam} {K N C M n : Nat} {ws : List Wid} {st : Wid → Wid → Nat} {v : List ℂ} {f f' : Wid → WSt}
  {indices : List Nat} {cap : Pid × Pid → Option Nat}

theorem GridReady.congr (hR : GridReady K N n v f) (h : ∀ w, (f' w).b = (f w).b ∧ (f' w).pc = (f w).pc) : GridReady K N n v f' := by
  constructor
  · intro i hi j hj
    rw [(h (i, j)).1, (h (i, j)).2]
    exact hR.grid i hi j hj
  · intro w hw
    rw [(h w).2]
    exact hR.others w hw

/-- An operation that changes nothing. -/
theorem query_runsB (hpos : ∀ e, hasRoom (cap e) 1 = true) {o : WOp} {l : List Wid} (hl : l.Nodup) (k : List NMsg → MProg) (hidle : ∀ w ∈ l, (f w).pc = .idle)
    {m : Wid → NMsg} (hq : ∀ w ∈ l, handleOp (prm w) w (f w) o = ((f w).b, .reply (m w))) :
    ∃ f', RunsB (netAct prm) cap (netCfg (mapWorkers o l k) f (nbuf C M st noMsg noMsg))
      (netCfg (k (l.map m)) f' (nbuf C M st noMsg noMsg)) ∧ (∀ w, (f' w).b = (f w).b ∧ (f' w).pc = (f w).pc) ∧
      ∀ w, (f' w).cnt = (f w).cnt + if w ∈ l then 1 else 0 := by
  refine ⟨_, mapWorkers_localB hpos hl k hidle (m := m) (fun w hw => by rw [hq w hw]), ?_, ?_⟩
  · intro w
    by_cases hw : w ∈ l
    · simp only [if_pos hw, hq w hw, hidle w hw, and_self]
    · simp only [if_neg hw, and_self]
  · intro w
    by_cases hw : w ∈ l
    · simp only [if_pos hw]
    · simp only [if_neg hw, add_zero]

theorem diagWorkers_eq (hnd : ws.Nodup) (hmem : ∀ w, w ∈ ws ↔ w.1 < K ∧ w.2 < K) :
    diagWorkers ws = (List.range K).map fun i => (i, i) := by
  unfold diagWorkers
  have hp : ((ws.filter fun w => w.1 = w.2).mergeSort fun a b => decide (a.1 ≤ b.1)).Perm
      ((List.range K).map fun i => (i, i)) := by
    refine (List.mergeSort_perm _ _).trans ?_
    rw [List.perm_ext_iff_of_nodup (hnd.filter _) (List.Nodup.map (fun a b h => (Prod.ext_iff.1 h).1) List.nodup_range)]
    rintro ⟨a, b⟩
    simp only [List.mem_filter, hmem, decide_eq_true_eq, List.mem_map, List.mem_range, Prod.mk.injEq]
    constructor
    · rintro ⟨⟨h1, h2⟩, rfl⟩
      exact ⟨a, h1, rfl, rfl⟩
    · rintro ⟨c, hc, rfl, rfl⟩
      exact ⟨⟨hc, hc⟩, rfl⟩
  have hs := List.pairwise_mergeSort (le := fun a b : Wid => decide (a.1 ≤ b.1))
    (by intro a b c h1 h2; simp only [decide_eq_true_eq] at *; omega)
    (by intro a b; simp only [Bool.or_eq_true, decide_eq_true_eq]; omega) (ws.filter fun w => w.1 = w.2)
  refine hp.eq_of_pairwise (le := fun a b : Wid => a.1 ≤ b.1) ?_ ?_ ?_
  · intro a b ha hb h1 h2
    have ha' : a.1 = a.2 := by
      have := List.mem_of_mem_filter (hp.mem_iff.1 ha |> fun h => hp.mem_iff.2 h |> (List.mergeSort_perm _ _).mem_iff.1)
      have h3 := (List.mem_filter.1 ((List.mergeSort_perm _ _).mem_iff.1 ha)).2
      simpa using h3
    simp only [List.mem_map, List.mem_range] at hb
    obtain ⟨c, -, rfl⟩ := hb
    have : a.1 = c := le_antisymm h1 h2
    exact Prod.ext this (by rw [← ha']; exact this)
  · simpa using hs
  · rw [List.pairwise_map]
    exact List.pairwise_lt_range.imp fun h => h.le

theorem selectWorker_spec (ps : List ℝ) (r : ℝ) (hne : ps ≠ []) (hr : r ≤ ps.sum) :
    ∃ s < ps.length, selectWorker ps r = some s ∧ (∀ j < s, (ps.take (j + 1)).sum < r) ∧ r ≤ (ps.take (s + 1)).sum := by
  induction ps generalizing r with
  | nil => exact absurd rfl hne
  | cons p ps ih =>
    unfold selectWorker
    by_cases h : r - p ≤ 0
    · rw [if_pos h]
      exact ⟨0, by simp, rfl, by simp, by simp; linarith⟩
    · rw [if_neg h]
      have hne' : ps ≠ [] := by
        rintro rfl
        simp at hr
        exact h (by linarith)
      obtain ⟨s, hs, h1, h2, h3⟩ := ih (r - p) hne' (by rw [List.sum_cons] at hr; linarith)
      refine ⟨s + 1, by simpa using hs, by rw [h1]; rfl, ?_, ?_⟩
      · intro j hj
        cases j with
        | zero => simp; linarith
        | succ j =>
          have := h2 j (by omega)
          rw [List.take_succ_cons, List.sum_cons]
          linarith
      · rw [List.take_succ_cons, List.sum_cons]
        linarith

theorem getD_add_eraseIdx {α : Type} (l : List α) (g : α → ℝ) (s : Nat) (hs : s < l.length) (d : α) :
    g (l.getD s d) + ((l.eraseIdx s).map g).sum = (l.map g).sum := by
  have hp := (List.getElem_cons_eraseIdx_perm hs).map g
  rw [← hp.sum_eq, List.map_cons, List.sum_cons, List.getD_eq_getElem _ _ hs]

/-- Amplitudes and probabilities of the diagonal worker `i`. -/
noncomputable def sl (N : Nat) (v : List ℂ) (i : Nat) : Nat → ℂ := sliceAt (i * N) (part N v i)

/-- The whole state after a measurement. -/
noncomputable def collapsedVec (n : Nat) (indices : List Nat) (v : List ℂ) (m : Nat) (p : ℝ) : List ℂ :=
  (List.range (2 ^ n)).map (collapsed n indices (fun c => v.getD c 0) m p)

theorem part_fits (hKN : K * N = 2 ^ n) (hv : v.length = 2 ^ n) {i : Nat} (hi : i < K) :
    (part N v i).length + i * N ≤ 2 ^ n := by
  have hvK : v.length = K * N := by omega
  have hin : (i + 1) * N ≤ K * N := Nat.mul_le_mul_right N hi
  rw [Nat.succ_mul] at hin
  rw [part_length hvK hi]
  omega

theorem handle_total (hg : GridOK prm K N C M ws) (hKN : K * N = 2 ^ n) (hv : v.length = 2 ^ n)
    (hgarb : ∀ w c, (prm w).garbage c = 0) (hR : GridReady K N n v f) {i : Nat} (hi : i < K) :
    handleOp (prm (i, i)) (i, i) (f (i, i)) .totalProb
      = ((f (i, i)).b, .reply (.result none (Spec.totalProb n (sl N v i)))) := by
  obtain ⟨-, -, e2, -⟩ := hR.grid i hi i hi
  simp only [handleOp, BState.totalProb, hgarb, e2]
  rw [probMagnitude_eq 0 (part N v i) (part_fits hKN hv hi), zero_add]
  rfl

theorem handle_forced (hg : GridOK prm K N C M ws) (hIdx : IdxOK n indices) (hR : GridReady K N n v f) {i : Nat} (hi : i < K)
    {m : Nat} (hm : m < 2 ^ indices.length) :
    handleOp (prm (i, i)) (i, i) (f (i, i)) (.soft indices (some m))
      = ((f (i, i)).b, .reply (.result (some m) (outcomeProb n indices (sl N v i) m))) := by
  obtain ⟨-, e1, e2, -⟩ := hR.grid i hi i hi
  simp only [handleOp, e1, e2, hg.size]
  rw [softMeasure_forced hIdx (part N v i) (i * N) hm]
  rfl

theorem handle_soft (hg : GridOK prm K N C M ws) (hIdx : IdxOK n indices) (hKN : K * N = 2 ^ n) (hv : v.length = 2 ^ n)
    (hgarb : ∀ w c, (prm w).garbage c = 0)
    (hR : GridReady K N n v f) {i : Nat} (hi : i < K) :
    ∃ m, handleOp (prm (i, i)) (i, i) (f (i, i)) (.soft indices none)
      = ((f (i, i)).b, .reply (.result (some m) (outcomeProb n indices (sl N v i) m))) ∧ m < 2 ^ indices.length ∧
      (∀ j < m, cumProb n indices (sl N v i) (j + 1) < (prm (i, i)).draw (f (i, i)).cnt * Spec.totalProb n (sl N v i)) ∧
      (m + 1 = 2 ^ indices.length ∨ (prm (i, i)).draw (f (i, i)).cnt * Spec.totalProb n (sl N v i) ≤ cumProb n indices (sl N v i) (m + 1)) := by
  obtain ⟨-, e1, e2, -⟩ := hR.grid i hi i hi
  obtain ⟨m, h1, h2, h3, h4⟩ := softMeasure_spec hIdx (part N v i) (i * N) (part_fits hKN hv hi)
    ((prm (i, i)).draw (f (i, i)).cnt) 0
  rw [zero_add] at h3 h4
  refine ⟨m, ?_, h2, h3, h4⟩
  simp only [handleOp, e1, e2, hg.size, hgarb]
  rw [h1]
  rfl

theorem handle_measure (hg : GridOK prm K N C M ws) (hIdx : IdxOK n indices) (hKN : K * N = 2 ^ n) (hv : v.length = 2 ^ n)
    (hR : GridReady K N n v f) {i : Nat} (hi : i < K) {m : Nat} (hm : m < 2 ^ indices.length) {p : ℝ} (hp : 0 < p ∧ p ≤ 1) :
    handleOp (prm (i, i)) (i, i) (f (i, i)) (.measure indices (some (m, p)))
      = (⟨n, part N (collapsedVec n indices v m p) i, part N v i⟩, .reply (.result (some m) p)) := by
  obtain ⟨-, e1, e2, e3⟩ := hR.grid i hi i hi
  have hvK : v.length = K * N := by omega
  have hcK : (collapsedVec n indices v m p).length = K * N := by simp [collapsedVec, hKN]
  have hin : (i + 1) * N ≤ K * N := Nat.mul_le_mul_right N hi
  rw [Nat.succ_mul] at hin
  have hc := chooseOutcome_both indices n (part N v i) (i * N) hm hp ((prm (i, i)).draw (f (i, i)).cnt)
    ((prm (i, i)).garbage (f (i, i)).cnt)
  obtain ⟨out', h1, h2, h3⟩ := measure_eq hIdx (part N v i) (f (i, i)).b.arena (i * N) (i * N) (part_fits hKN hv hi) hm rfl
    hc
  have e : out' = part N (collapsedVec n indices v m p) i := by
    apply List.ext_getElem?
    intro j
    by_cases hj : j < N
    · rw [h3 j (by omega), if_pos (by rw [part_length hvK hi]; omega)]
      have hj' : j < (part N (collapsedVec n indices v m p) i).length := by rw [part_length hcK hi]; exact hj
      rw [List.getElem?_eq_getElem hj', Option.some.injEq, ← List.getD_eq_getElem _ (0 : ℂ) hj', part_getD hj]
      have : (collapsedVec n indices v m p).getD (i * N + j) 0
          = collapsed n indices (fun c => v.getD c 0) m p (i * N + j) := by
        unfold collapsedVec
        rw [List.getD_eq_getElem _ _ (by simp; omega)]
        simp
      rw [this]
      have e4 : sliceAt (i * N) (part N v i) (j + i * N) = v.getD (i * N + j) 0 := by
        unfold sliceAt
        rw [if_pos (by omega), show j + i * N - i * N = j by omega, part_getD hj]
      rw [Nat.add_comm j (i * N)] at e4 ⊢
      simp only [collapsed, e4]
    · rw [List.getElem?_eq_none (by omega), List.getElem?_eq_none (by rw [part_length hcK hi]; omega)]
  subst e
  simp only [handleOp, e1, e2, hg.size, Option.map_some, BState.measure, h1]

theorem handle_measure_bad (hIdx : IdxOK n indices) (hR : GridReady K N n v f) {i : Nat} (hi : i < K) {m : Nat} {p : ℝ}
    (hp : ¬ (0 < p ∧ p ≤ 1)) :
    handleOp (prm (i, i)) (i, i) (f (i, i)) (.measure indices (some (m, p))) = ((f (i, i)).b, .crashed) := by
  have := BState.measure_error (f (i, i)).b (outOff := i * (prm (i, i)).size)
    (chooseOutcome_bad_prob indices (f (i, i)).b.n (f (i, i)).b.state (i * (prm (i, i)).size) hp (some (m : Int))
      ((prm (i, i)).draw (f (i, i)).cnt) ((prm (i, i)).garbage (f (i, i)).cnt))
  simp only [handleOp, Option.map_some, this]

/-- What the manager does after the outcome and its probability are known. -/
def collapseProg (indices : List Nat) (m : Nat) (p : ℝ) (diag ws : List Wid) : MProg :=
  mapWorkers (.measure indices (some (m, p))) diag fun _ =>
    mapWorkers (.sync 0 true) ws fun _ => .done (.ok (some (m, p)))

/-- The first part of a measurement: an outcome and its probability are determined. -/
noncomputable def chooseProg (indices : List Nat) (r : ℝ) (diag : List Wid) (e : PyErr) (kk : Nat → ℝ → MProg) : MProg :=
  mapWorkers .totalProb diag fun confs =>
    match selectWorker (confs.map NMsg.prob) r with
    | none => .done (.error e)
    | some i =>
      .send (diag.getD i (0, 0)) (.soft indices none) <| .recv (diag.getD i (0, 0)) fun conf =>
        mapWorkers (.soft indices (some conf.bits)) (diag.eraseIdx i) fun confs =>
          kk conf.bits (conf.prob + (confs.map NMsg.prob).sum)

theorem chooseProg_runsB (hpos : ∀ e, hasRoom (cap e) 1 = true) (hg : GridOK prm K N C M ws) (hIdx : IdxOK n indices) (hKN : K * N = 2 ^ n) (hv : v.length = 2 ^ n)
    (hgarb : ∀ w c, (prm w).garbage c = 0)
    (hR : GridReady K N n v f) (e : PyErr) (kk : Nat → ℝ → MProg) {r : ℝ} (hr : r ≤ Spec.totalProb n fun c => v.getD c 0) :
    ∃ s < K, ∃ m < 2 ^ indices.length, ∃ k, k = (f (s, s)).cnt + 1 ∧
      (∀ j < s, ((List.range (j + 1)).map fun i => Spec.totalProb n (sl N v i)).sum < r) ∧
      r ≤ ((List.range (s + 1)).map fun i => Spec.totalProb n (sl N v i)).sum ∧
      (∀ j < m, cumProb n indices (sl N v s) (j + 1) < (prm (s, s)).draw k * Spec.totalProb n (sl N v s)) ∧
      (m + 1 = 2 ^ indices.length ∨ (prm (s, s)).draw k * Spec.totalProb n (sl N v s) ≤ cumProb n indices (sl N v s) (m + 1)) ∧
      ∃ f', GridReady K N n v f' ∧ (∀ i < K, (f' (i, i)).cnt = (f (i, i)).cnt + 2) ∧ RunsB (netAct prm) cap
        (netCfg (chooseProg indices r ((List.range K).map fun i => (i, i)) e kk) f (nbuf C M st noMsg noMsg))
        (netCfg (kk m (outcomeProb n indices (fun c => v.getD c 0) m)) f' (nbuf C M st noMsg noMsg)) := by
  have hvK : v.length = K * N := by omega
  have hdnd : ((List.range K).map fun i => (i, i)).Nodup :=
    List.Nodup.map (fun a b h => (Prod.ext_iff.1 h).1) List.nodup_range
  have hdmem : ∀ w ∈ (List.range K).map fun i => ((i, i) : Wid), ∃ i < K, w = (i, i) := by
    intro w hw
    obtain ⟨i, hi, rfl⟩ := List.mem_map.1 hw
    exact ⟨i, List.mem_range.1 hi, rfl⟩
  unfold chooseProg
  generalize hdiag : ((List.range K).map fun i => ((i, i) : Wid)) = diag at hdnd hdmem
  -- total probabilities
  obtain ⟨f1, hrun1, hc1, ht1⟩ := query_runsB (cap := cap) (prm := prm) (C := C) (M := M) (st := st) (f := f) (o := .totalProb) hpos hdnd
    (fun confs =>
      match selectWorker (confs.map NMsg.prob) r with
      | none => .done (.error e)
      | some i =>
        .send (diag.getD i (0, 0)) (.soft indices none) <| .recv (diag.getD i (0, 0)) fun conf =>
          mapWorkers (.soft indices (some conf.bits)) (diag.eraseIdx i) fun confs =>
            kk conf.bits (conf.prob + (confs.map NMsg.prob).sum))
    (fun w hw => by obtain ⟨i, hi, rfl⟩ := hdmem w hw; exact (hR.grid i hi i hi).1)
    (m := fun w => .result none (Spec.totalProb n (sl N v w.1)))
    (fun w hw => by obtain ⟨i, hi, rfl⟩ := hdmem w hw; exact handle_total hg hKN hv hgarb hR hi)
  have hR1 := hR.congr hc1
  have eprobs : (diag.map fun w => NMsg.result none (Spec.totalProb n (sl N v w.1))).map NMsg.prob
      = (List.range K).map fun i => Spec.totalProb n (sl N v i) := by
    rw [← hdiag]
    simp [List.map_map, Function.comp_def, NMsg.prob]
  obtain ⟨s, hs, hsel, hlo, hhi⟩ := selectWorker_spec ((List.range K).map fun i => Spec.totalProb n (sl N v i)) r
    (by have := hg.posK; simp; omega) (by rw [show ((List.range K).map fun i => Spec.totalProb n (sl N v i)).sum
      = Spec.totalProb n fun c => v.getD c 0 from sum_parts_total hvK]; exact hr)
  have hsK : s < K := by simpa using hs
  rw [eprobs, hsel] at hrun1
  simp only at hrun1
  have hsd : diag.getD s (0, 0) = (s, s) := by
    rw [← hdiag, List.getD_eq_getElem _ _ (by simpa using hsK)]
    simp
  rw [hsd] at hrun1
  -- the selected worker
  obtain ⟨m, hm1, hm, hm3, hm4⟩ := handle_soft hg hIdx hKN hv hgarb hR1 hsK
  obtain ⟨f2, hrun2, hc2, ht2⟩ := query_runsB (cap := cap) (prm := prm) (C := C) (M := M) (st := st) (f := f1) (o := .soft indices none)
    (l := [(s, s)]) hpos (by simp)
    (fun ms => mapWorkers (.soft indices (some (ms.headD .conf).bits)) (diag.eraseIdx s) fun confs =>
            kk (ms.headD .conf).bits ((ms.headD .conf).prob + (confs.map NMsg.prob).sum))
    (by simp only [List.mem_singleton, forall_eq]; exact (hR1.grid s hsK s hsK).1)
    (m := fun _ => .result (some m) (outcomeProb n indices (sl N v s) m)) (by simpa using hm1)
  have hR2 := hR1.congr hc2
  simp only [List.map_cons, List.map_nil, List.headD_cons, NMsg.bits, NMsg.prob] at hrun2
  -- the other workers
  have hemem : ∀ w ∈ diag.eraseIdx s, ∃ i < K, w = (i, i) := fun w hw => hdmem w (List.mem_of_mem_eraseIdx hw)
  obtain ⟨f3, hrun3, hc3, ht3⟩ := query_runsB (cap := cap) (prm := prm) (C := C) (M := M) (st := st) (f := f2)
    (o := .soft indices (some m)) (l := diag.eraseIdx s) hpos (hdnd.eraseIdx s)
    (fun confs => kk m (outcomeProb n indices (sl N v s) m + (confs.map NMsg.prob).sum))
    (fun w hw => by obtain ⟨i, hi, rfl⟩ := hemem w hw; exact (hR2.grid i hi i hi).1)
    (m := fun w => .result (some m) (outcomeProb n indices (sl N v w.1) m))
    (fun w hw => by obtain ⟨i, hi, rfl⟩ := hemem w hw; exact handle_forced hg hIdx hR2 hi hm)
  have hR3 := hR2.congr hc3
  have hsum : outcomeProb n indices (sl N v s) m
      + (((diag.eraseIdx s).map fun w => NMsg.result (some m) (outcomeProb n indices (sl N v w.1) m)).map NMsg.prob).sum
      = outcomeProb n indices (fun c => v.getD c 0) m := by
    have h1 := getD_add_eraseIdx diag (fun w => outcomeProb n indices (sl N v w.1) m) s (by rw [← hdiag]; simpa using hsK)
      (0, 0)
    rw [hsd] at h1
    rw [← sum_parts_outcome indices m hvK]
    rw [show (((diag.eraseIdx s).map fun w => NMsg.result (some m) (outcomeProb n indices (sl N v w.1) m)).map NMsg.prob)
      = (diag.eraseIdx s).map fun w => outcomeProb n indices (sl N v w.1) m from by
        simp [List.map_map, Function.comp_def, NMsg.prob]]
    rw [h1, ← hdiag]
    simp [List.map_map, Function.comp_def, sl]
  simp only [hsum] at hrun3
  have hin : ∀ i < K, ((i, i) : Wid) ∈ diag := fun i hi => by
    rw [← hdiag]; exact List.mem_map.2 ⟨i, List.mem_range.2 hi, rfl⟩
  have her : ∀ i < K, ((i, i) : Wid) ∈ diag.eraseIdx s ↔ i ≠ s := by
    intro i hi
    rw [List.mem_eraseIdx_iff_getElem, ← hdiag]
    constructor
    · rintro ⟨j, hj, hne, e⟩ rfl
      simp at e
      exact hne e
    · intro hne
      exact ⟨i, by simpa using hi, hne, by simp⟩
  refine ⟨s, hsK, m, hm, _, ?_, ?_, ?_, hm3, hm4, f3, hR3, ?_, (hrun1.trans hrun2).trans hrun3⟩
  · rw [ht1, if_pos (hin s hsK)]
  · intro j hj
    have := hlo j hj
    rwa [← List.map_take, List.take_range, min_eq_left (by omega)] at this
  · rwa [← List.map_take, List.take_range, min_eq_left (by omega)] at hhi
  · intro i hi
    rw [ht3, ht2, ht1, if_pos (hin i hi)]
    by_cases e : i = s
    · rw [if_pos (by simp [e]), if_neg (fun h => (her i hi).1 h e)]
    · rw [if_neg (by simpa using e), if_pos ((her i hi).2 e)]

/-- The first part of `send_measure`. -/
theorem choose_runsB (hpos : ∀ e, hasRoom (cap e) 1 = true) (hg : GridOK prm K N C M ws) (hIdx : IdxOK n indices) (hKN : K * N = 2 ^ n) (hv : v.length = 2 ^ n)
    (hgarb : ∀ w c, (prm w).garbage c = 0)
    (hR : GridReady K N n v f) {r : ℝ} (hr : r ≤ Spec.totalProb n fun c => v.getD c 0) :
    ∃ s < K, ∃ m < 2 ^ indices.length, ∃ k, k = (f (s, s)).cnt + 1 ∧
      (∀ j < s, ((List.range (j + 1)).map fun i => Spec.totalProb n (sl N v i)).sum < r) ∧
      r ≤ ((List.range (s + 1)).map fun i => Spec.totalProb n (sl N v i)).sum ∧
      (∀ j < m, cumProb n indices (sl N v s) (j + 1) < (prm (s, s)).draw k * Spec.totalProb n (sl N v s)) ∧
      (m + 1 = 2 ^ indices.length ∨ (prm (s, s)).draw k * Spec.totalProb n (sl N v s) ≤ cumProb n indices (sl N v s) (m + 1)) ∧
      ∃ f', GridReady K N n v f' ∧ (∀ i < K, (f' (i, i)).cnt = (f (i, i)).cnt + 2) ∧
        RunsB (netAct prm) cap (netCfg (sendMeasure indices r ws) f (nbuf C M st noMsg noMsg))
        (netCfg (collapseProg indices m (outcomeProb n indices (fun c => v.getD c 0) m)
          ((List.range K).map fun i => (i, i)) ws) f' (nbuf C M st noMsg noMsg)) := by
  have e : sendMeasure indices r ws = chooseProg indices r ((List.range K).map fun i => (i, i)) .attributeError
      fun m p => collapseProg indices m p ((List.range K).map fun i => (i, i)) ws := by
    rw [← diagWorkers_eq hg.nodup hg.mem]
    rfl
  rw [e]
  exact chooseProg_runsB hpos hg hIdx hKN hv hgarb hR _ _ hr

/-- The second part of a measurement. -/
theorem collapse_runsB (hpos : ∀ e, hasRoom (cap e) 1 = true) (hg : GridOK prm K N C M ws) (hIdx : IdxOK n indices) (hKN : K * N = 2 ^ n) (hv : v.length = 2 ^ n)
    (hR : GridReady K N n v f) (hst : StOK st)
    (hcs : ∀ i j, i < K → j < K → i ≠ j → hasRoom (cap (some (i, j), some (i, i))) (st (i, j) (i, i) + leftover N C M) = true)
    {m : Nat} (hm : m < 2 ^ indices.length) {p : ℝ} (hp : 0 < p ∧ p ≤ 1) :
    ∃ f', GridReady K N n (collapsedVec n indices v m p) f' ∧ (∀ i < K, (f' (i, i)).cnt = (f (i, i)).cnt + 2) ∧
      RunsB (netAct prm) cap (netCfg (collapseProg indices m p ((List.range K).map fun i => (i, i)) ws) f
        (nbuf C M st noMsg noMsg))
        (netCfg (.done (.ok (some (m, p)))) f' (nbuf C M (scatterSt st K (leftover N C M)) noMsg noMsg)) := by
  have hvK : v.length = K * N := by omega
  have hcK : (collapsedVec n indices v m p).length = K * N := by simp [collapsedVec, hKN]
  have hdnd : ((List.range K).map fun i => ((i, i) : Wid)).Nodup :=
    List.Nodup.map (fun a b h => (Prod.ext_iff.1 h).1) List.nodup_range
  have hdmem : ∀ w, w ∈ (List.range K).map (fun i => ((i, i) : Wid)) ↔ w.1 < K ∧ w.1 = w.2 := by
    rintro ⟨a, b⟩
    simp only [List.mem_map, List.mem_range, Prod.mk.injEq]
    constructor
    · rintro ⟨c, hc, rfl, rfl⟩; exact ⟨hc, rfl⟩
    · rintro ⟨h, rfl⟩; exact ⟨a, h, rfl, rfl⟩
  have h1 := mapWorkers_localB (cap := cap) (prm := prm) (C := C) (M := M) (st := st) (f := f) (o := .measure indices (some (m, p))) hpos hdnd
    (fun _ => mapWorkers (.sync 0 true) ws fun _ => .done (.ok (some (m, p))))
    (fun w hw => by
      obtain ⟨a, b⟩ := w
      obtain ⟨ha, hab⟩ := (hdmem _).1 hw
      simp only at ha hab
      subst hab
      exact (hR.grid a ha a ha).1) (m := fun _ => .result (some m) p)
    (fun w hw => by
      obtain ⟨a, b⟩ := w
      obtain ⟨ha, hab⟩ := (hdmem _).1 hw
      simp only at ha hab
      subst hab
      rw [handle_measure hg hIdx hKN hv hR ha hm hp])
  let b : Wid → BState := fun w => if w.1 = w.2 then ⟨n, part N (collapsedVec n indices v m p) w.1, part N v w.1⟩
    else (f w).b
  let cnt : Wid → Nat := fun w => if w.1 = w.2 then (f w).cnt + 1 else (f w).cnt
  have e1 : (fun w => if w ∈ (List.range K).map (fun i => ((i, i) : Wid)) then
      (⟨(handleOp (prm w) w (f w) (.measure indices (some (m, p)))).1, .idle, (f w).cnt + 1⟩ : WSt) else f w)
      = onGrid K (idleSt b cnt) f := by
    funext w
    obtain ⟨i, j⟩ := w
    by_cases hd : (i, j) ∈ (List.range K).map (fun i => ((i, i) : Wid))
    · rw [if_pos hd]
      obtain ⟨hi, hab⟩ := (hdmem _).1 hd
      simp only at hi hab
      subst hab
      rw [handle_measure hg hIdx hKN hv hR hi hm hp]
      simp [onGrid, hi, idleSt, b, cnt]
    · rw [if_neg hd]
      unfold onGrid
      split
      · next hw =>
        have hne : i ≠ j := fun e => hd ((hdmem _).2 ⟨hw.1, e⟩)
        have := (hR.grid i hw.1 j hw.2).1
        simp only [idleSt, b, cnt, hne, if_false]
        rw [← this]
      · rfl
  rw [e1] at h1
  have hlen : ∀ w, w.1 < K → w.2 < K → (b w).state.length = N := by
    intro w h1 h2
    simp only [b]
    split
    · exact part_length hcK h1
    · rw [(hR.grid w.1 h1 w.2 h2).2.2.1]
      exact part_length hvK h1
  have h2 := sync_diag_runsB (cap := cap) (prm := prm) (b := b) (cnt := cnt) (fo := f) hpos hg hst hlen hcs
    (fun _ => .done (.ok (some (m, p))))
  refine ⟨_, ⟨?_, ?_⟩, ?_, h1.trans h2⟩
  · intro i hi j hj
    obtain ⟨-, g1, g2, g3⟩ := hR.grid i hi j hj
    simp only [onGrid, hi, hj, and_self, if_true, idleSt, true_and, scattered, b]
    by_cases hij : i = j
    · subst hij
      simp only [if_true, true_and]
      exact part_length hvK hi
    · simp only [hij, if_false]
      exact ⟨g1, g3⟩
  · intro w hw
    simp only [onGrid, if_neg hw]
    exact hR.others w hw
  · intro i hi
    simp [onGrid, hi, idleSt, cnt]

/-! ### Sockets without bound -/

theorem query_runs {o : WOp} {l : List Wid} (hl : l.Nodup) (k : List NMsg → MProg) (hidle : ∀ w ∈ l, (f w).pc = .idle)
    {m : Wid → NMsg} (hq : ∀ w ∈ l, handleOp (prm w) w (f w) o = ((f w).b, .reply (m w))) :
    ∃ f', Runs (netAct prm) (netCfg (mapWorkers o l k) f (nbuf C M st noMsg noMsg))
      (netCfg (k (l.map m)) f' (nbuf C M st noMsg noMsg)) ∧ (∀ w, (f' w).b = (f w).b ∧ (f' w).pc = (f w).pc) ∧
      ∀ w, (f' w).cnt = (f w).cnt + if w ∈ l then 1 else 0 := by
  obtain ⟨f', h, hh⟩ := query_runsB (cap := noCap) (C := C) (M := M) (st := st) (fun _ => rfl) hl k hidle hq
  exact ⟨f', h.runs, hh⟩

theorem chooseProg_runs (hg : GridOK prm K N C M ws) (hIdx : IdxOK n indices) (hKN : K * N = 2 ^ n) (hv : v.length = 2 ^ n)
    (hgarb : ∀ w c, (prm w).garbage c = 0)
    (hR : GridReady K N n v f) (e : PyErr) (kk : Nat → ℝ → MProg) {r : ℝ} (hr : r ≤ Spec.totalProb n fun c => v.getD c 0) :
    ∃ s < K, ∃ m < 2 ^ indices.length, ∃ k, k = (f (s, s)).cnt + 1 ∧
      (∀ j < s, ((List.range (j + 1)).map fun i => Spec.totalProb n (sl N v i)).sum < r) ∧
      r ≤ ((List.range (s + 1)).map fun i => Spec.totalProb n (sl N v i)).sum ∧
      (∀ j < m, cumProb n indices (sl N v s) (j + 1) < (prm (s, s)).draw k * Spec.totalProb n (sl N v s)) ∧
      (m + 1 = 2 ^ indices.length ∨ (prm (s, s)).draw k * Spec.totalProb n (sl N v s) ≤ cumProb n indices (sl N v s) (m + 1)) ∧
      ∃ f', GridReady K N n v f' ∧ (∀ i < K, (f' (i, i)).cnt = (f (i, i)).cnt + 2) ∧ Runs (netAct prm)
        (netCfg (chooseProg indices r ((List.range K).map fun i => (i, i)) e kk) f (nbuf C M st noMsg noMsg))
        (netCfg (kk m (outcomeProb n indices (fun c => v.getD c 0) m)) f' (nbuf C M st noMsg noMsg)) := by
  obtain ⟨s, hs, m, hm, k, hk, h1, h2, h3, h4, f', hR', hc, h⟩ := chooseProg_runsB (cap := noCap) (C := C) (M := M) (st := st) (fun _ => rfl)
    hg hIdx hKN hv hgarb hR e kk hr
  exact ⟨s, hs, m, hm, k, hk, h1, h2, h3, h4, f', hR', hc, h.runs⟩

theorem choose_runs (hg : GridOK prm K N C M ws) (hIdx : IdxOK n indices) (hKN : K * N = 2 ^ n) (hv : v.length = 2 ^ n)
    (hgarb : ∀ w c, (prm w).garbage c = 0)
    (hR : GridReady K N n v f) {r : ℝ} (hr : r ≤ Spec.totalProb n fun c => v.getD c 0) :
    ∃ s < K, ∃ m < 2 ^ indices.length, ∃ k, k = (f (s, s)).cnt + 1 ∧
      (∀ j < s, ((List.range (j + 1)).map fun i => Spec.totalProb n (sl N v i)).sum < r) ∧
      r ≤ ((List.range (s + 1)).map fun i => Spec.totalProb n (sl N v i)).sum ∧
      (∀ j < m, cumProb n indices (sl N v s) (j + 1) < (prm (s, s)).draw k * Spec.totalProb n (sl N v s)) ∧
      (m + 1 = 2 ^ indices.length ∨ (prm (s, s)).draw k * Spec.totalProb n (sl N v s) ≤ cumProb n indices (sl N v s) (m + 1)) ∧
      ∃ f', GridReady K N n v f' ∧ (∀ i < K, (f' (i, i)).cnt = (f (i, i)).cnt + 2) ∧
        Runs (netAct prm) (netCfg (sendMeasure indices r ws) f (nbuf C M st noMsg noMsg))
        (netCfg (collapseProg indices m (outcomeProb n indices (fun c => v.getD c 0) m)
          ((List.range K).map fun i => (i, i)) ws) f' (nbuf C M st noMsg noMsg)) := by
  obtain ⟨s, hs, m, hm, k, hk, h1, h2, h3, h4, f', hR', hc, h⟩ := choose_runsB (cap := noCap) (C := C) (M := M) (st := st) (fun _ => rfl)
    hg hIdx hKN hv hgarb hR hr
  exact ⟨s, hs, m, hm, k, hk, h1, h2, h3, h4, f', hR', hc, h.runs⟩

theorem collapse_runs (hg : GridOK prm K N C M ws) (hIdx : IdxOK n indices) (hKN : K * N = 2 ^ n) (hv : v.length = 2 ^ n)
    (hR : GridReady K N n v f) (hst : StOK st) {m : Nat} (hm : m < 2 ^ indices.length) {p : ℝ} (hp : 0 < p ∧ p ≤ 1) :
    ∃ f', GridReady K N n (collapsedVec n indices v m p) f' ∧ (∀ i < K, (f' (i, i)).cnt = (f (i, i)).cnt + 2) ∧
      Runs (netAct prm) (netCfg (collapseProg indices m p ((List.range K).map fun i => (i, i)) ws) f
        (nbuf C M st noMsg noMsg))
        (netCfg (.done (.ok (some (m, p)))) f' (nbuf C M (scatterSt st K (leftover N C M)) noMsg noMsg)) := by
  obtain ⟨f', hR', hc, h⟩ := collapse_runsB (cap := noCap) (prm := prm) (fun _ => rfl) hg hIdx hKN hv hR hst (fun _ _ _ _ _ => rfl) hm hp
  exact ⟨f', hR', hc, h.runs⟩

/-- No step is possible if the manager waits for a report that has not been sent. -/
theorem stuck_waiting {buf : Pid × Pid → List NMsg} {w0 : Wid} {k : NMsg → MProg} (h0 : buf (some w0, none) = [])
    (h : ∀ w, (f w).pc = .closed ∨ (f w).pc = .crashed ∨ ((f w).pc = .idle ∧ buf (none, some w) = [])) :
    Stuck (netAct prm) (netCfg (.recv w0 k) f buf) := by
  intro p
  rcases p with _ | w
  · have h0' : (netCfg (.recv w0 k) f buf).buf (some w0, none) = [] := h0
    have e : (netCfg (.recv w0 k) f buf).loc none = .mgr (.recv w0 k) := rfl
    simp [stepP, e, netAct, h0']
  · unfold stepP
    have e : (netCfg (.recv w0 k) f buf).loc (some w) = .wkr (f w) := rfl
    rw [e]
    rcases h w with h | h | ⟨h, hb⟩
    · simp [netAct, workerAct, h]
    · simp [netAct, workerAct, h]
    · have hb' : (netCfg (.recv w0 k) f buf).buf (none, some w) = [] := hb
      simp [netAct, workerAct, h, hb']

/-- If an operation makes all diagonal workers die, the manager waits forever. -/
theorem ask_deadlock (hg : GridOK prm K N C M ws) (hR : GridReady K N n v f) {o : WOp} (kk : List NMsg → MProg)
    (hbad : ∀ i < K, (handleOp (prm (i, i)) (i, i) (f (i, i)) o).2 = .crashed) :
    ∃ f' k, (∀ i < K, (f' (i, i)).pc = .crashed) ∧
      Stuck (netAct prm) (netCfg (.recv (0, 0) k) f' (nbuf C M st noMsg noMsg)) ∧
      Runs (netAct prm) (netCfg (mapWorkers o ((List.range K).map fun i => (i, i)) kk) f
        (nbuf C M st noMsg noMsg)) (netCfg (.recv (0, 0) k) f' (nbuf C M st noMsg noMsg)) := by
  have hdnd : ((List.range K).map fun i => ((i, i) : Wid)).Nodup :=
    List.Nodup.map (fun a b h => (Prod.ext_iff.1 h).1) List.nodup_range
  have hdmem : ∀ w ∈ (List.range K).map fun i => ((i, i) : Wid), ∃ i < K, w = (i, i) := by
    intro w hw
    obtain ⟨i, hi, rfl⟩ := List.mem_map.1 hw
    exact ⟨i, List.mem_range.1 hi, rfl⟩
  obtain ⟨k, hk⟩ : ∃ k, recvEach ((List.range K).map fun i => ((i, i) : Wid)) kk = .recv (0, 0) k := by
    obtain ⟨K', rfl⟩ : ∃ K', K = K' + 1 := ⟨K - 1, by have := hg.posK; omega⟩
    rw [List.range_succ_eq_map, List.map_cons]
    exact ⟨_, rfl⟩
  have h1 := sendEach_runs (prm := prm) (f := f) (C := C) (M := M) (st := st) (ops := noMsg) (cf := noMsg)
    o (.recv (0, 0) k) hdnd
  have h2 := deliver_runs (prm := prm) (pm := .recv (0, 0) k) (f := f) (C := C) (M := M) (st := st) (cf := noMsg)
    o hdnd (fun w hw => by obtain ⟨i, hi, rfl⟩ := hdmem w hw; exact (hR.grid i hi i hi).1)
  have hcr : ∀ w ∈ (List.range K).map (fun i => ((i, i) : Wid)), (handled prm o w (f w)).pc = .crashed := by
    intro w hw
    obtain ⟨i, hi, rfl⟩ := hdmem w hw
    exact hbad i hi
  refine ⟨fun w => if w ∈ (List.range K).map (fun i => ((i, i) : Wid)) then handled prm o w (f w) else f w, k, ?_, ?_, ?_⟩
  · intro i hi
    have hm : ((i, i) : Wid) ∈ (List.range K).map (fun i => ((i, i) : Wid)) := List.mem_map.2 ⟨i, List.mem_range.2 hi, rfl⟩
    simp only [if_pos hm]
    exact hcr _ hm
  · apply stuck_waiting rfl
    intro w
    by_cases hw : w ∈ (List.range K).map (fun i => ((i, i) : Wid))
    · right; left
      simp only [if_pos hw]
      exact hcr w hw
    · simp only [if_neg hw]
      by_cases hK : w.1 < K ∧ w.2 < K
      · exact Or.inr (Or.inr ⟨(hR.grid w.1 hK.1 w.2 hK.2).1, rfl⟩)
      · exact Or.inl (hR.others w hK)
  · have e : mapWorkers o ((List.range K).map fun i => ((i, i) : Wid)) kk
        = sendEach o ((List.range K).map fun i => ((i, i) : Wid)) (.recv (0, 0) k) := congrArg (sendEach _ _) hk
    rw [e]
    exact h1.trans h2

/-- If the probability found is not allowed for `measure`, the workers die and the manager waits forever. -/
theorem collapse_deadlock (hg : GridOK prm K N C M ws) (hIdx : IdxOK n indices) (hR : GridReady K N n v f) {m : Nat} {p : ℝ}
    (hp : ¬ (0 < p ∧ p ≤ 1)) :
    ∃ f' k, (∀ i < K, (f' (i, i)).pc = .crashed) ∧
      Stuck (netAct prm) (netCfg (.recv (0, 0) k) f' (nbuf C M st noMsg noMsg)) ∧
      Runs (netAct prm) (netCfg (collapseProg indices m p ((List.range K).map fun i => (i, i)) ws) f
        (nbuf C M st noMsg noMsg)) (netCfg (.recv (0, 0) k) f' (nbuf C M st noMsg noMsg)) :=
  ask_deadlock hg hR _ fun i hi => by rw [handle_measure_bad (prm := prm) hIdx hR hi hp]

end QIP
