import Verif.Props.DistMeasure
import Verif.Props.FMeasure

/-!
# C96: distributed measurement of states that are not exactly normalised
-/

namespace QIP.Props

open QIP QIP.Spec

variable {prm : Wid → WParam} {K N C M n : Nat} {ws : List Wid} {st : Wid → Wid → Nat} {v : List ℂ} {f : Wid → WSt}
  {indices : List Nat}

theorem selectWorker_none (ps : List ℝ) (r : ℝ) (h0 : ∀ p ∈ ps, 0 ≤ p) (hr : ps.sum < r) : selectWorker ps r = none := by
  induction ps generalizing r with
  | nil => rfl
  | cons p ps ih =>
    rw [List.sum_cons] at hr
    have hs : 0 ≤ ps.sum := List.sum_nonneg fun x hx => h0 x (by simp [hx])
    unfold selectWorker
    rw [if_neg (by linarith), ih _ (fun x hx => h0 x (by simp [hx])) (by linarith)]
    rfl

/-- No worker is selected. -/
theorem unselected_runs (hg : GridOK prm K N C M ws) (hKN : K * N = 2 ^ n) (hv : v.length = 2 ^ n)
    (hgarb : ∀ w c, (prm w).garbage c = 0) (hR : GridReady K N n v f) {r : ℝ}
    (hr : Spec.totalProb n (fun c => v.getD c 0) < r) :
    ∃ f', GridReady K N n v f' ∧ Runs (netAct prm) (netCfg (sendMeasure indices r ws) f (nbuf C M st noMsg noMsg))
        (netCfg (.done (.error .attributeError)) f' (nbuf C M st noMsg noMsg)) := by
  have e : sendMeasure indices r ws = chooseProg indices r ((List.range K).map fun i => (i, i)) .attributeError
      fun m p => collapseProg indices m p ((List.range K).map fun i => (i, i)) ws := by
    rw [← diagWorkers_eq hg.nodup hg.mem]
    rfl
  rw [e]
  have hvK : v.length = K * N := by omega
  have hdnd : ((List.range K).map fun i => (i, i)).Nodup :=
    List.Nodup.map (fun a b h => (Prod.ext_iff.1 h).1) List.nodup_range
  have hdmem : ∀ w ∈ (List.range K).map fun i => ((i, i) : Wid), ∃ i < K, w = (i, i) := by
    intro w hw
    obtain ⟨i, hi, rfl⟩ := List.mem_map.1 hw
    exact ⟨i, List.mem_range.1 hi, rfl⟩
  unfold chooseProg
  generalize hdiag : ((List.range K).map fun i => ((i, i) : Wid)) = diag at hdnd hdmem
  obtain ⟨f1, hrun1, hc1, -⟩ := query_runs (prm := prm) (C := C) (M := M) (st := st) (f := f) (o := .totalProb) hdnd
    (fun confs =>
      match selectWorker (confs.map NMsg.prob) r with
      | none => .done (.error .attributeError)
      | some i =>
        .send (diag.getD i (0, 0)) (.soft indices none) <| .recv (diag.getD i (0, 0)) fun conf =>
          mapWorkers (.soft indices (some conf.bits)) (diag.eraseIdx i) fun confs =>
            collapseProg indices conf.bits (conf.prob + (confs.map NMsg.prob).sum) diag ws)
    (fun w hw => by obtain ⟨i, hi, rfl⟩ := hdmem w hw; exact (hR.grid i hi i hi).1)
    (m := fun w => .result none (Spec.totalProb n (sl N v w.1)))
    (fun w hw => by obtain ⟨i, hi, rfl⟩ := hdmem w hw; exact handle_total hg hKN hv hgarb hR hi)
  have eprobs : (diag.map fun w => NMsg.result none (Spec.totalProb n (sl N v w.1))).map NMsg.prob
      = (List.range K).map fun i => Spec.totalProb n (sl N v i) := by
    rw [← hdiag]
    simp [List.map_map, Function.comp_def, NMsg.prob]
  have hsel : selectWorker ((List.range K).map fun i => Spec.totalProb n (sl N v i)) r = none := by
    apply selectWorker_none
    · intro p hp
      obtain ⟨i, -, rfl⟩ := List.mem_map.1 hp
      exact totalProb_nonneg _ _
    · rw [show ((List.range K).map fun i => Spec.totalProb n (sl N v i)).sum
        = Spec.totalProb n fun c => v.getD c 0 from sum_parts_total hvK]
      exact hr
  rw [eprobs, hsel] at hrun1
  exact ⟨f1, hR.congr hc1, hrun1⟩

/-- C96 (negation of the full property): if the squared norm of the state is less than the draw of the manager, the measurement
ends with AttributeError (`selected_worker` is None); nothing is measured. -/
theorem C96_small_fails (hg : GridOK prm K N C M ws) (hgarb : ∀ w c, (prm w).garbage c = 0) {r : ℝ}
    (hr : Spec.totalProb n (fun c => v.getD c 0) < r)
    {c : Cfg Pid NMsg NLoc} (hD : Distributed K N n v C M st (sendMeasure indices r ws) c) :
    ∃ c', AlwaysEnds (netAct prm) c c' ∧ Distributed K N n v C M st (.done (.error .attributeError)) c' := by
  obtain ⟨f, rfl, hR, hst⟩ := hD.cfg
  obtain ⟨f', hR', h⟩ := unselected_runs (prm := prm) (indices := indices) (st := st) hg hD.cover hD.size hgarb hR hr
  exact ⟨_, h.alwaysEnds hR'.stuck, Distributed.of_ready hD.cover hD.size hR' hst _⟩

/-- C96 (partial): a measurement of a state of any norm, if the draw of the manager is at most its square.  A possible outcome `m`
is selected; if its squared norm `p` is at most 1, the measurement ends as for a normalised state (C65); otherwise every diagonal
worker dies with ValueError and the manager waits for ever. -/
theorem C96_any_norm_partial (hg : GridOK prm K N C M ws) (hIdx : IdxOK n indices)
    (hgarb : ∀ w c, (prm w).garbage c = 0) (hu : ∀ i c, 0 < (prm (i, i)).draw c ∧ (prm (i, i)).draw c < 1)
    {r : ℝ} (hr0 : 0 < r) (hr : r ≤ Spec.totalProb n (fun c => v.getD c 0))
    {c : Cfg Pid NMsg NLoc} (hD : Distributed K N n v C M st (sendMeasure indices r ws) c) {arena : List ℂ}
    (ha : arena.length = 2 ^ n) (u' g' : ℝ) :
    ∃ m p b' c', m < 2 ^ indices.length ∧ p = outcomeProb n indices (fun c => v.getD c 0) m ∧ 0 < p ∧
      AlwaysEnds (netAct prm) c c' ∧
      BState.measure ⟨n, v, arena⟩ indices (some (m : Int)) none 0 0 u' g' = (.ok (m, p), b') ∧
      (p ≤ 1 → ∃ st', Distributed K N n b'.state C M st' (.done (.ok (some (m, p)))) c') ∧
      (1 < p → ∃ k, c'.loc none = .mgr (.recv (0, 0) k) ∧ ∀ i < K, ∃ s, c'.loc (some (i, i)) = .wkr s ∧ s.pc = .crashed) := by
  obtain ⟨f, rfl, hR, hst⟩ := hD.cfg
  obtain ⟨s, hs, m, hm, k, -, h1, h2, h3, h4, f1, hR1, -, hrun⟩ := choose_runs (prm := prm) (st := st) hg hIdx hD.cover hD.size hgarb hR hr
  have hTs : 0 < Spec.totalProb n (sl N v s) := by
    have e := before_succ n N v s
    have hb : before n N v s < r := by
      cases s with
      | zero => simpa [before] using hr0
      | succ j => exact h1 j (by omega)
    have : r ≤ before n N v (s + 1) := h2
    linarith
  have hp : 0 < outcomeProb n indices (fun c => v.getD c 0) m :=
    (cum_lt_pos hIdx hm (hu s k).1 (hu s k).2 hTs h3 h4).trans_le (outcome_part_le hD.cover hD.size hs m)
  have hloc := local_measure ha hD.size hIdx hm hp u' g'
  by_cases hp1 : outcomeProb n indices (fun c => v.getD c 0) m ≤ 1
  · obtain ⟨f2, hR2, -, hrun2⟩ := collapse_runs (prm := prm) hg hIdx hD.cover hD.size hR1 hst hm ⟨hp, hp1⟩
    exact ⟨m, _, _, _, hm, rfl, hp, (hrun.trans hrun2).alwaysEnds hR2.stuck, hloc,
      fun _ => ⟨_, Distributed.of_ready hD.cover (by simp [collapsedVec]) hR2 (stOK_scatter hst _ _) _⟩,
      fun h => absurd hp1 (not_le.2 h)⟩
  · obtain ⟨f2, k, h5, h6, h7⟩ := collapse_deadlock (prm := prm) (st := st) hg hIdx hR1 (m := m)
      (p := outcomeProb n indices (fun c => v.getD c 0) m) (fun h => hp1 h.2)
    exact ⟨m, _, _, _, hm, rfl, hp, (hrun.trans h7).alwaysEnds h6, hloc, fun h => absurd h hp1,
      fun _ => ⟨k, rfl, fun i hi => ⟨_, rfl, h5 i hi⟩⟩⟩

/-! ## A coin made of doubles -/

/-- `math.sqrt(0.5)`, the double next to the square root of 1/2. -/
noncomputable def coin : ℝ := 6369051672525773 / 2 ^ 53

/-- `[coin, coin]` on the second of two qubits. -/
noncomputable def coinV : List ℂ := [(coin : ℂ), (coin : ℂ), 0, 0]

noncomputable def coinSt : Wid → WSt := fun w =>
  if w.1 < 2 ∧ w.2 < 2 then ⟨⟨2, if w.1 = 0 then [(coin : ℂ), (coin : ℂ)] else [0, 0], [0, 0]⟩, .idle, 0⟩
  else ⟨⟨0, [], []⟩, .closed, 0⟩

theorem coinReady : GridReady 2 2 2 coinV coinSt := by
  constructor
  · intro i hi j hj
    simp only [coinSt, hi, hj, and_self, if_true, true_and]
    rcases (show i = 0 ∨ i = 1 by omega) with rfl | rfl <;> simp [part, coinV]
  · intro w hw
    simp only [coinSt, if_neg hw]

/-- Rounding of numbers between 1/2 and 1. -/
theorem round53_half {x : ℝ} {k : Nat} (h0 : 1 / 2 ≤ x) (h1 : x < 1) (h2 : ((k : ℝ) - 1 / 2) / 2 ^ 53 ≤ x)
    (h3 : x < ((k : ℝ) + 1 / 2) / 2 ^ 53) : round53 x = k / 2 ^ 53 := by
  have hx : 0 < x := by linarith
  have hlog : Int.log 2 |x| = -1 := by
    rw [abs_of_pos hx]
    apply le_antisymm
    · rw [← Int.lt_add_one_iff, ← Int.lt_zpow_iff_log_lt (by norm_num) hx]
      norm_num
      exact h1
    · rw [← Int.zpow_le_iff_le_log (by norm_num) hx]
      norm_num at h0 ⊢
      exact h0
  unfold round53
  rw [hlog]
  have e : (2 : ℝ) ^ ((-1 : ℤ) - 52) = 1 / 2 ^ 53 := by norm_num
  rw [e]
  have hr : round (x / (1 / 2 ^ 53)) = (k : ℤ) := by
    rw [round_eq, Int.floor_eq_iff]
    rw [div_le_iff₀ (by positivity)] at h2
    rw [lt_div_iff₀ (by positivity)] at h3
    rw [div_div_eq_mul_div, div_one]
    push_cast
    constructor <;> linarith
  rw [hr]
  push_cast
  ring

/-- `coin` is the double nearest to the square root of 1/2, and its square is more than 1/2. -/
theorem coin_sqrt : coin = round53 (√(1 / 2)) ∧ 1 / 2 < coin * coin ∧ coin * coin < 1 / 2 + 1 / 2 ^ 52 := by
  refine ⟨?_, by norm_num [coin], by norm_num [coin]⟩
  rw [round53_half (k := 6369051672525773) (Real.le_sqrt' (by norm_num) |>.2 (by norm_num)) (Real.sqrt_lt' (by norm_num) |>.2 (by norm_num))
    (Real.le_sqrt' (by norm_num) |>.2 (by norm_num)) (Real.sqrt_lt' (by norm_num) |>.2 (by norm_num))]
  norm_num [coin]

theorem coin_total : Spec.totalProb 2 (fun c => coinV.getD c 0) = 2 * (coin * coin) := by
  simp only [Spec.totalProb, coinV, Finset.sum_range_succ, Finset.sum_range_zero, show 2 ^ 2 = 4 from rfl]
  simp [Complex.normSq_ofReal]
  ring

theorem coin_prob (m : Nat) : outcomeProb 2 [0] (fun c => coinV.getD c 0) m = if m = 0 then 2 * (coin * coin) else 0 := by
  have e : ∀ c < 4, subIndex 2 (inOrder 2 [0]) c = c / 2 := by decide
  unfold outcomeProb
  rw [Finset.sum_filter]
  simp only [coinV, Finset.sum_range_succ, Finset.sum_range_zero, show 2 ^ 2 = 4 from rfl, e 0 (by omega), e 1 (by omega), e 2 (by omega), e 3 (by omega)]
  by_cases h : m = 0
  · subst h
    simp [Complex.normSq_ofReal]
    ring
  · have h' : ¬ 0 = m := fun h' => h h'.symm
    simp [h, h', Complex.normSq_ofReal]

/-- C96 (negation of the full property): two qubits, a worker for every pair of halves of the state, the first qubit in `|0⟩`, the second
a coin fed as `[math.sqrt(0.5)] * 2`.  The measurement of the first qubit never ends, whatever the draws and the schedule: the outcome
0 has a probability above 1 by less than `2 ^ -51`. -/
theorem C96_coin_deadlock {prm : Wid → WParam} {C M : Nat} {ws : List Wid} (hg : GridOK prm 2 2 C M ws)
    (hgarb : ∀ w c, (prm w).garbage c = 0) (hu : ∀ i c, 0 < (prm (i, i)).draw c ∧ (prm (i, i)).draw c < 1)
    {r : ℝ} (hr : 0 < r ∧ r < 1) {c : Cfg Pid NMsg NLoc} (hD : Distributed 2 2 2 coinV C M st (sendMeasure [0] r ws) c) :
    ∃ c' k, AlwaysEnds (netAct prm) c c' ∧ c'.loc none = .mgr (.recv (0, 0) k) ∧
      ∀ i < 2, ∃ s, c'.loc (some (i, i)) = .wkr s ∧ s.pc = .crashed := by
  obtain ⟨-, h1, h2⟩ := coin_sqrt
  obtain ⟨m, p, b', c', -, hp, hp0, he, -, -, hbad⟩ := C96_any_norm_partial (indices := [0]) hg ⟨by decide, by decide⟩ hgarb hu hr.1
    (by rw [coin_total]; linarith [hr.2]) hD (arena := [0, 0, 0, 0]) rfl 0 0
  rw [coin_prob] at hp
  split at hp
  · obtain ⟨k, h3, h4⟩ := hbad (by linarith)
    exact ⟨c', k, he, h3, h4⟩
  · linarith

/-- The four workers of `gridPrm`, with draws 1/2. -/
noncomputable def halfPrm : Wid → WParam := fun w => { gridPrm w with draw := fun _ => 1 / 2 }

theorem halfOK : GridOK halfPrm 2 2 1 2 [(0, 0), (0, 1), (1, 0), (1, 1)] :=
  ⟨gridOK.posK, gridOK.posN, gridOK.posC, gridOK.posM, gridOK.size, gridOK.chunk, gridOK.inflight, gridOK.nodup, gridOK.mem,
    gridOK.regs_nodup, gridOK.regs⟩

example : ∃ c' k, AlwaysEnds (netAct halfPrm) (netCfg (sendMeasure [0] (1 / 3) [(0, 0), (0, 1), (1, 0), (1, 1)]) coinSt
      (nbuf 1 2 (fun _ _ => 0) noMsg noMsg)) c' ∧ c'.loc none = .mgr (.recv (0, 0) k) := by
  obtain ⟨c', k, h1, h2, -⟩ := C96_coin_deadlock halfOK (fun _ _ => rfl) (fun _ _ => by norm_num [halfPrm]) (r := 1 / 3) (by norm_num)
    (Distributed.of_ready (by norm_num) (by norm_num [coinV]) coinReady (st := fun _ _ => 0) ⟨fun _ _ _ => rfl, fun _ _ _ => rfl⟩ _)
  exact ⟨c', k, h1, h2⟩

/-- `0.36 |00⟩ + 0.48 |11⟩`, of squared norm 0.36. -/
noncomputable def shortSt : Wid → WSt := fun w =>
  if w.1 < 2 ∧ w.2 < 2 then ⟨⟨2, if w.1 = 0 then [9 / 25, 0] else [0, 12 / 25], [0, 0]⟩, .idle, 0⟩
  else ⟨⟨0, [], []⟩, .closed, 0⟩

theorem shortReady : GridReady 2 2 2 [9 / 25, 0, 0, 12 / 25] shortSt := by
  constructor
  · intro i hi j hj
    simp only [shortSt, hi, hj, and_self, if_true, true_and]
    rcases (show i = 0 ∨ i = 1 by omega) with rfl | rfl <;> simp [part]
  · intro w hw
    simp only [shortSt, if_neg hw]

theorem shortStart (pm : MProg) : Distributed 2 2 2 [9 / 25, 0, 0, 12 / 25] 1 2 (fun _ _ => 0) pm
    (netCfg pm shortSt (nbuf 1 2 (fun _ _ => 0) noMsg noMsg)) :=
  Distributed.of_ready (by norm_num) (by norm_num) shortReady ⟨fun _ _ _ => rfl, fun _ _ _ => rfl⟩ pm

theorem short_norm : Spec.totalProb 2 (fun c => ([9 / 25, 0, 0, 12 / 25] : List ℂ).getD c 0) = 9 / 25 := by
  simp only [Spec.totalProb]
  norm_num [Finset.sum_range_succ, Complex.normSq_apply, List.getD]

-- a draw of 1/2 selects no worker
example := C96_small_fails (indices := [0]) halfOK (fun _ _ => rfl) (r := 1 / 2) (by rw [short_norm]; norm_num) (shortStart _)

-- a draw of 1/3 does
example := C96_any_norm_partial (indices := [0]) halfOK ⟨by decide, by decide⟩ (fun _ _ => rfl) (fun _ _ => by norm_num [halfPrm])
  (r := 1 / 3) (by norm_num) (by rw [short_norm]; norm_num) (shortStart _) (arena := [0, 0, 0, 0]) rfl 0 0

/-! ## In double precision -/

theorem coin_absSq : FOps.double.absSq (coin : ℂ) = 1 / 2 + 1 / 2 ^ 53 := by
  have e0 : round53 0 = 0 := by simp [round53]
  have h1 : round53 (coin * coin) = (4503599627370497 : Nat) / 2 ^ 53 :=
    round53_half (by norm_num [coin]) (by norm_num [coin]) (by norm_num [coin]) (by norm_num [coin])
  have h2 : round53 ((4503599627370497 : Nat) / 2 ^ 53) = (4503599627370497 : Nat) / 2 ^ 53 :=
    round53_half (by norm_num) (by norm_num) (by norm_num) (by norm_num)
  have h3 : round53 (√((4503599627370497 : Nat) / 2 ^ 53)) = (6369051672525773 : Nat) / 2 ^ 53 :=
    round53_half (Real.le_sqrt' (by norm_num) |>.2 (by norm_num)) (Real.sqrt_lt' (by norm_num) |>.2 (by norm_num))
      (Real.le_sqrt' (by norm_num) |>.2 (by norm_num)) (Real.sqrt_lt' (by norm_num) |>.2 (by norm_num))
  have h4 : ((6369051672525773 : Nat) : ℝ) / 2 ^ 53 = coin := by norm_num [coin]
  change absSqWith round53 _ = _
  unfold absSqWith
  simp only [Complex.ofReal_re, Complex.ofReal_im, mul_zero, e0, add_zero]
  rw [h1, h2, h3, h4, h1]
  norm_num

/-- C96 (negation of the full property): in double precision `soft_measure` reports the probability `1 + 2 ^ -52` for the only
possible outcome, and `measure` rejects it. -/
theorem C96_double_rejected (out : List ℂ) (x : ℝ) :
    softMeasureF FOps.double [0] 2 coinV (some 0) 0 x 0 = .ok (0, 1 + 1 / 2 ^ 52) ∧
      measureF FOps.double [0] 2 coinV out 0 0 (some 0) (some (1 + 1 / 2 ^ 52)) x 0 = .error .valueError := by
  constructor
  · rw [softMeasureF_forced ⟨by decide, by decide⟩]
    have e1 : entwineBit 1 1 0 0 (rowMask 2 [0]) = 0 := by decide
    have e2 : entwineBit 1 1 0 1 (rowMask 2 [0]) = 1 := by decide
    have hs : softAccF FOps.double 2 [0] coinV 0 0 = round53 (round53 (0 + (1 / 2 + 1 / 2 ^ 53)) + (1 / 2 + 1 / 2 ^ 53)) := by
      unfold softAccF
      simp only [List.length_cons, List.length_nil, Nat.zero_add, Nat.reduceSub, pow_one, show List.range 2 = [0, 1] from rfl]
      rw [List.filter_cons, if_pos (by rw [e1]; simp [coinV]), List.filter_cons, if_pos (by rw [e2]; simp [coinV])]
      simp only [List.filter_nil, List.map_cons, List.map_nil, e1, e2, Nat.sub_zero]
      have : coinV.getD 0 0 = (coin : ℂ) := rfl
      have h' : coinV.getD 1 0 = (coin : ℂ) := rfl
      rw [this, h', coin_absSq]
      rfl
    have h1 : round53 (0 + (1 / 2 + 1 / 2 ^ 53)) = 1 / 2 + 1 / 2 ^ 53 := by
      have := round53_nat 4503599627370497 53
      rw [show roundNat 4503599627370497 = 4503599627370497 by decide +kernel] at this
      rw [show (0 + (1 / 2 + 1 / 2 ^ 53) : ℝ) = ((4503599627370497 : Nat) : ℝ) / 2 ^ 53 by norm_num, this]
      norm_num
    have h2 : round53 (1 / 2 + 1 / 2 ^ 53 + (1 / 2 + 1 / 2 ^ 53)) = 1 + 1 / 2 ^ 52 := by
      have := round53_nat 4503599627370497 52
      rw [show roundNat 4503599627370497 = 4503599627370497 by decide +kernel] at this
      rw [show (1 / 2 + 1 / 2 ^ 53 + (1 / 2 + 1 / 2 ^ 53) : ℝ) = ((4503599627370497 : Nat) : ℝ) / 2 ^ 52 by norm_num, this]
      norm_num
    rw [hs, h1, h2]
  · unfold measureF chooseOutcomeF
    simp only [bind, Except.bind, pure, Except.pure]
    rw [if_neg (by norm_num), if_pos (by norm_num)]

end QIP.Props
