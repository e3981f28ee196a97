import Verif.Lemmas.FDistMeasure
import Verif.Lemmas.FNetKron
import Verif.Lemmas.MeasureNet

/-!
# Measurements on a grid of workers in rounded arithmetic
-/

namespace QIP.FNet

open QIP Spec

variable {A : Arith} {F : FOps} {prm : Wid → WParam} {K N C M n : Nat} {ws : List Wid} {st : Wid → Wid → Nat} {v : List (FC A)}
  {f f' : Wid → WSt A} {indices : List Nat}

/-! ### The contents of output buffers do not matter -/

theorem sets_indep {sched : List Nat} (g : Nat → Except PyErr (FC A)) {out out' : List (FC A)} (hl : out.length = out'.length)
    (h : ∀ r < out.length, r ∉ sched → out[r]? = out'[r]?) :
    sched.foldlM (fun o r => do
      let s ← g r
      pure (o.set r s)) out = sched.foldlM (fun o r => do
      let s ← g r
      pure (o.set r s)) out' := by
  induction sched generalizing out out' with
  | nil =>
    have : out = out' := by
      apply List.ext_getElem?
      intro r
      by_cases hr : r < out.length
      · exact h r hr (by simp)
      · rw [List.getElem?_eq_none (by omega), List.getElem?_eq_none (by omega)]
    rw [this]
  | cons r sched ih =>
    rw [List.foldlM_cons, List.foldlM_cons]
    rcases hr : g r with e | s <;> simp only [bind, Except.bind, pure, Except.pure]
    apply ih (by simp [hl])
    intro r' hr' hn
    rw [List.length_set] at hr'
    by_cases e : r = r'
    · subst e
      rw [List.getElem?_set_self hr', List.getElem?_set_self (by omega)]
    · rw [List.getElem?_set_ne e, List.getElem?_set_ne e]
      exact h r' hr' (by simp [hn, Ne.symm e])

theorem kron_buffer {run : Nat} {mats : List (Key × Mat (FC A))} {vec : List (FC A)} {out out' : List (FC A)} {inOff outOff : Nat}
    {sched : List Nat} (hs : sched.Perm (List.range N)) (h1 : out.length = N) (h2 : out'.length = N) :
    kronselectDotF run mats vec n out inOff outOff sched = kronselectDotF run mats vec n out' inOff outOff sched := by
  have hl : out.length = out'.length := by omega
  have he : out = [] ↔ out' = [] := by rw [← List.length_eq_zero_iff, ← List.length_eq_zero_iff, hl]
  unfold kronselectDotF
  rw [hl]
  simp only [cdotLoopF, ne_eq, he]
  congr 2
  simp only [bind, Except.bind]
  split
  · rfl
  split
  · rfl
  split
  · rfl
  exact sets_indep _ hl fun r hr hn => absurd (hs.mem_iff.2 (List.mem_range.2 (by omega))) hn

theorem distKron_buffer {run : Nat → Nat → Nat} {mats : List (Key × Mat (FC A))} {arena arena' : Nat → Nat → List (FC A)}
    {sched : Nat → Nat → List Nat} {order : Nat → List Nat} (hs : ∀ i j, (sched i j).Perm (List.range N))
    (h1 : ∀ i j, (arena i j).length = N) (h2 : ∀ i j, (arena' i j).length = N) :
    distKronF run mats n K N v arena sched order = distKronF run mats n K N v arena' sched order := by
  have h : workerKronF run mats n N v arena sched = workerKronF run mats n N v arena' sched := by
    funext i j
    exact kron_buffer (hs i j) (h1 i j) (h2 i j)
  simp only [distKronF, collectKronF, h]

theorem foldl_set_indep {L : List Nat} {off : Nat} (g : Nat → ℂ) {out out' : List ℂ} (hl : out.length = out'.length)
    (h : ∀ r < out.length, (∀ i ∈ L, i - off ≠ r) → out[r]? = out'[r]?) :
    L.foldl (fun (o : List ℂ) i => o.set (i - off) (g i)) out = L.foldl (fun (o : List ℂ) i => o.set (i - off) (g i)) out' := by
  induction L generalizing out out' with
  | nil =>
    apply List.ext_getElem?
    intro r
    by_cases hr : r < out.length
    · exact h r hr (by simp)
    · simp only [List.foldl_nil]
      rw [List.getElem?_eq_none (by omega), List.getElem?_eq_none (by omega)]
  | cons i L ih =>
    rw [List.foldl_cons, List.foldl_cons]
    apply ih (by simp [hl])
    intro r hr hn
    rw [List.length_set] at hr
    by_cases e : i - off = r
    · subst e
      rw [List.getElem?_set_self hr, List.getElem?_set_self (by omega)]
    · rw [List.getElem?_set_ne e, List.getElem?_set_ne e]
      exact h r hr (by simpa [e] using hn)

theorem foldl_set_length {L : List Nat} {off : Nat} (g : Nat → ℂ) (out : List ℂ) :
    (L.foldl (fun (o : List ℂ) i => o.set (i - off) (g i)) out).length = out.length := by
  induction L generalizing out with
  | nil => rfl
  | cons i L ih => rw [List.foldl_cons, ih, List.length_set]

/-- The result of `measure` for a worker that knows outcome and probability. -/
noncomputable def collapsedPart (F : FOps) (indices : List Nat) (n : Nat) (vec out : List ℂ) (off m : Nat) (p : ℝ) : List ℂ :=
  (List.range' off vec.length).foldl (fun (o : List ℂ) i => o.set (i - off)
    (if (i &&& rowMask n indices) ^^^ entwineBit indices.length (n - indices.length) m 0 (rowMask n indices) ≠ 0 then 0
      else F.scale (vec.getD (i - off) 0) (F.sqrt (F.div 1 p)))) out

theorem measure_known (hIdx : IdxOK n indices) {vec out : List ℂ} (hl : out.length = vec.length) (off : Nat) {m : Nat}
    (hm : m < 2 ^ indices.length) {p : ℝ} (hp : 0 < p ∧ p ≤ 1) (u g : ℝ) :
    measureF F indices n vec out off off (some (m : Int)) (some p) u g = .ok (m, p, collapsedPart F indices n vec out off m p) := by
  have hb := hIdx.not_bad
  have hm' : (m : Int) < 2 ^ indices.length := by exact_mod_cast hm
  unfold measureF chooseOutcomeF
  simp only [bind, Except.bind, pure, Except.pure]
  rw [if_neg (by push Not; exact ⟨by omega, hm'⟩)]
  rw [if_neg (by push Not; exact hp)]
  rw [if_neg hp.1.ne']
  simp only [if_neg hb]
  unfold collapsedPart
  have e : min (off + vec.length) (off + out.length) - off = vec.length := by rw [hl]; simp
  simp only [max_self, e, Int.toNat_natCast]
  congr 3
  apply List.foldl_ext
  intro o i hi
  split <;> rfl

theorem measure_unknown {vec out : List ℂ} (off off' : Nat) {m : Nat} {p : ℝ} (hm : m < 2 ^ indices.length) (hp : ¬ (0 < p ∧ p ≤ 1)) (u g : ℝ) :
    measureF F indices n vec out off off' (some (m : Int)) (some p) u g = .error .valueError := by
  have hm' : (m : Int) < 2 ^ indices.length := by exact_mod_cast hm
  unfold measureF chooseOutcomeF
  simp only [bind, Except.bind, pure, Except.pure]
  rw [if_neg (by push Not; exact ⟨by omega, hm'⟩)]
  rw [if_pos hp]

theorem collapsedPart_buffer {vec out out' : List ℂ} (h1 : out.length = vec.length) (h2 : out'.length = vec.length) (off m : Nat) (p : ℝ) :
    collapsedPart F indices n vec out off m p = collapsedPart F indices n vec out' off m p := by
  unfold collapsedPart
  apply foldl_set_indep _ (by omega)
  intro r hr hn
  exact absurd (by omega) (hn (off + r) (by rw [List.mem_range'_1]; omega))

theorem collapsedPart_length {vec out : List ℂ} (off m : Nat) (p : ℝ) : (collapsedPart F indices n vec out off m p).length = out.length :=
  foldl_set_length _ _

/-! ### Operations of a measurement -/

theorem share_range (i : Nat) : shareOf N (v.map FC.val) i = (rangeOf N v i).map FC.val := by
  simp [shareOf, rangeOf, List.map_drop, List.map_take]

theorem rangeOf_flatten {parts : List (List (FC A))} (hparts : ∀ l ∈ parts, l.length = N) {i : Nat} (hi : i < parts.length) :
    rangeOf N parts.flatten i = parts.getD i [] := by
  have hwl : parts.flatten.length = parts.length * N := by
    rw [List.length_flatten, List.map_congr_left hparts]
    simp
  have hil : (parts.getD i []).length = N := by
    rw [List.getD_eq_getElem _ _ hi]
    exact hparts _ (List.getElem_mem hi)
  apply List.ext_getElem
  · rw [rangeOf_length hwl hi, hil]
  · intro o ho1 ho2
    rw [← List.getD_eq_getElem _ 0 ho1, ← List.getD_eq_getElem _ 0 ho2, rangeOf_getD (by omega), flatten_getD 0 hparts (by omega) (by omega)]

theorem GridReady.congr (hR : GridReady K N n v f) (h : ∀ w, (f' w).b = (f w).b ∧ (f' w).pc = (f w).pc) : GridReady K N n v f' := by
  constructor
  · intro i hi j hj
    rw [(h (i, j)).1, (h (i, j)).2]
    exact hR.grid i hi j hj
  · intro w hw
    rw [(h w).2]
    exact hR.others w hw

/-- An operation that changes nothing. -/
theorem query_runs {o : WOp A} {l : List Wid} (hl : l.Nodup) (k : List (NMsg A) → MProg A) (hidle : ∀ w ∈ l, (f w).pc = .idle)
    {m : Wid → NMsg A} (hq : ∀ w ∈ l, handleOp (prm w) w (f w) o = ((f w).b, .reply (m w))) :
    ∃ f', Runs (netAct prm) (netCfg (mapWorkers o l k) f (nbuf C M st noMsg noMsg))
      (netCfg (k (l.map m)) f' (nbuf C M st noMsg noMsg)) ∧ (∀ w, (f' w).b = (f w).b ∧ (f' w).pc = (f w).pc) ∧
      ∀ w, (f' w).cnt = (f w).cnt + if w ∈ l then 1 else 0 := by
  refine ⟨_, mapWorkers_local hl k hidle (m := m) (fun w hw => by rw [hq w hw]), ?_, ?_⟩
  · intro w
    by_cases hw : w ∈ l
    · simp only [if_pos hw, hq w hw, hidle w hw, and_self]
    · simp only [if_neg hw, and_self]
  · intro w
    by_cases hw : w ∈ l
    · simp only [if_pos hw]
    · simp only [if_neg hw, add_zero]

theorem softLoop_mem (acc : Nat → ℝ) {L : List Nat} (hL : L ≠ []) (r : ℝ) :
    (softLoopF F acc L r).1 ∈ L ∧ (softLoopF F acc L r).2 = acc (softLoopF F acc L r).1 := by
  induction L generalizing r with
  | nil => exact absurd rfl hL
  | cons p L ih =>
    unfold softLoopF
    split
    · simp
    split
    · simp
    · next h =>
      obtain ⟨h1, h2⟩ := ih h (F.sub r (acc p))
      exact ⟨List.mem_cons_of_mem _ h1, h2⟩

theorem soft_free (hIdx : IdxOK n indices) (vec : List ℂ) (off : Nat) (u g : ℝ) :
    ∃ m < 2 ^ indices.length, softMeasureF F indices n vec none off u g = .ok (m, softAccF F n indices vec off m) := by
  unfold softMeasureF
  rw [if_neg hIdx.not_bad]
  have hne : List.range (2 ^ indices.length) ≠ [] := by
    have := Nat.two_pow_pos indices.length
    simp
  obtain ⟨h1, h2⟩ := softLoop_mem (F := F) (softAccF F n indices vec off) hne
    (if indices.length < 2 ^ n then F.mul u (probMagnitudeF F g vec) else u)
  exact ⟨_, List.mem_range.1 h1, congrArg Except.ok (Prod.ext rfl h2)⟩

theorem soft_known (hIdx : IdxOK n indices) (vec : List ℂ) (off m : Nat) (u g : ℝ) :
    softMeasureF F indices n vec (some m) off u g = .ok (m, softAccF F n indices vec off m) := by
  unfold softMeasureF
  rw [if_neg hIdx.not_bad]
  simp only [softLoopF]
  split <;> simp

theorem select_lt {ps : List ℝ} {r : ℝ} {s : Nat} (h : selectWorkerF F ps r = some s) : s < ps.length := by
  induction ps generalizing r s with
  | nil => simp [selectWorkerF] at h
  | cons p ps ih =>
    unfold selectWorkerF at h
    split at h
    · injection h with h
      subst h
      simp
    · rcases e : selectWorkerF F ps (F.sub r p) with _ | s' <;> rw [e] at h
      · simp at h
      · have := ih e
        simp only [Option.map_some, Option.some.injEq] at h
        subst h
        simpa using this

theorem mapM_pure {α β : Type} (L : List α) (g : α → Except PyErr β) (h : α → β) (hg : ∀ a ∈ L, g a = .ok (h a)) : L.mapM g = .ok (L.map h) := by
  induction L with
  | nil => rfl
  | cons a L ih =>
    rw [List.mapM_cons, hg a (by simp), ih fun b hb => hg b (by simp [hb])]
    rfl

/-- What the manager does after the outcome and its probability are known. -/
def collapseProg (indices : List Nat) (m : Nat) (p : ℝ) (diag ws : List Wid) (k : MProg A) : MProg A :=
  mapWorkers (.measure indices m p) diag fun _ => mapWorkers (.sync 0 true) ws fun _ => k

/-- The first part of `send_measure`: what it does is `distChooseF`. -/
theorem choose_runs (hg : GridOK prm K N C M ws) (hops : ∀ w, (prm w).ops = F) (hIdx : IdxOK n indices)
    (hR : GridReady K N n v f) (r : ℝ) (outs : List Nat) (k : Nat → MProg A) {draw : Nat → ℝ}
    (hdraw : ∀ i < K, draw i = (prm (i, i)).draw ((f (i, i)).cnt + 1)) :
    match distChooseF F indices n K N (v.map FC.val) r draw with
    | .error e => e = .attributeError ∧ ∃ f', GridReady K N n v f' ∧
        Runs (netAct prm) (netCfg (sendMeasure F indices r ws outs k) f (nbuf C M st noMsg noMsg))
          (netCfg (.done outs (some .attributeError)) f' (nbuf C M st noMsg noMsg))
    | .ok (m, p) => m < 2 ^ indices.length ∧ ∃ f', GridReady K N n v f' ∧
        (∀ i < K, ∀ j < K, (f' (i, j)).cnt = (f (i, j)).cnt + if i = j then 2 else 0) ∧
        Runs (netAct prm) (netCfg (sendMeasure F indices r ws outs k) f (nbuf C M st noMsg noMsg))
          (netCfg (collapseProg indices m p ((List.range K).map fun i => (i, i)) ws (k m)) f' (nbuf C M st noMsg noMsg)) := by
  have hdnd : ((List.range K).map fun i => ((i, i) : Wid)).Nodup :=
    List.Nodup.map (fun a b h => (Prod.ext_iff.1 h).1) List.nodup_range
  have hdmem : ∀ w ∈ (List.range K).map fun i => ((i, i) : Wid), ∃ i < K, w = (i, i) := by
    intro w hw
    obtain ⟨i, hi, rfl⟩ := List.mem_map.1 hw
    exact ⟨i, List.mem_range.1 hi, rfl⟩
  have hdin : ∀ i j, ((i, j) : Wid) ∈ (List.range K).map (fun i => ((i, i) : Wid)) ↔ i < K ∧ i = j := by
    intro i j
    simp only [List.mem_map, List.mem_range, Prod.mk.injEq]
    constructor
    · rintro ⟨c, hc, rfl, rfl⟩; exact ⟨hc, rfl⟩
    · rintro ⟨h, rfl⟩; exact ⟨i, h, rfl, rfl⟩
  let acc : Nat → Nat → ℝ := fun i m => softAccF F n indices (shareOf N (v.map FC.val) i) (i * N) m
  unfold sendMeasure distChooseF
  rw [diagWorkers_eq hg.nodup hg.mem]
  simp only
  -- total probabilities
  obtain ⟨f1, hrun1, hc1, ht1⟩ := query_runs (prm := prm) (C := C) (M := M) (st := st) (f := f) (o := .totalProb) hdnd
    (fun confs =>
      match selectWorkerF F (confs.map NMsg.prob) r with
      | none => .done outs (some .attributeError)
      | some i =>
        .send (((List.range K).map fun i => (i, i)).getD i (0, 0)) (.soft indices none) <|
          .recv (((List.range K).map fun i => (i, i)).getD i (0, 0)) fun rep =>
            mapWorkers (.soft indices (some rep.bits)) (((List.range K).map fun i => (i, i)).eraseIdx i) fun confs =>
              mapWorkers (.measure indices rep.bits (F.add rep.prob (F.acc 0 (confs.map NMsg.prob)))) ((List.range K).map fun i => (i, i)) fun _ =>
                mapWorkers (.sync 0 true) ws fun _ => k rep.bits)
    (fun w hw => by obtain ⟨i, hi, rfl⟩ := hdmem w hw; exact (hR.grid i hi i hi).1)
    (m := fun w => .result none (probMagnitudeF F 0 (shareOf N (v.map FC.val) w.1)))
    (fun w hw => by
      obtain ⟨i, hi, rfl⟩ := hdmem w hw
      obtain ⟨-, -, e2, -⟩ := hR.grid i hi i hi
      simp only [handleOp, hops, e2, share_range])
  have hR1 := hR.congr hc1
  have eprobs : (((List.range K).map fun i => ((i, i) : Wid)).map fun w => (NMsg.result none (probMagnitudeF F 0 (shareOf N (v.map FC.val) w.1)) : NMsg A)).map
      NMsg.prob = (List.range K).map fun i => probMagnitudeF F 0 (shareOf N (v.map FC.val) i) := by
    simp [List.map_map, Function.comp_def, NMsg.prob]
  rw [eprobs] at hrun1
  rcases hsel : selectWorkerF F ((List.range K).map fun i => probMagnitudeF F 0 (shareOf N (v.map FC.val) i)) r with _ | s
  · rw [hsel] at hrun1
    exact ⟨rfl, f1, hR1, hrun1⟩
  rw [hsel] at hrun1
  have hsK : s < K := by simpa using select_lt hsel
  simp only at hrun1 ⊢
  have hsd : ((List.range K).map fun i => ((i, i) : Wid)).getD s (0, 0) = (s, s) := by
    rw [List.getD_eq_getElem _ _ (by simpa using hsK)]
    simp
  rw [hsd] at hrun1
  -- the selected worker
  obtain ⟨m, hm, hm1⟩ := soft_free (F := F) hIdx (shareOf N (v.map FC.val) s) (s * N) (draw s) 0
  obtain ⟨f2, hrun2, hc2, ht2⟩ := query_runs (prm := prm) (C := C) (M := M) (st := st) (f := f1) (o := .soft indices none)
    (l := [(s, s)]) (by simp)
    (fun ms => mapWorkers (.soft indices (some (ms.headD .conf).bits)) (((List.range K).map fun i => (i, i)).eraseIdx s) fun confs =>
      mapWorkers (.measure indices (ms.headD .conf).bits (F.add (ms.headD .conf).prob (F.acc 0 (confs.map NMsg.prob))))
        ((List.range K).map fun i => (i, i)) fun _ => mapWorkers (.sync 0 true) ws fun _ => k (ms.headD .conf).bits)
    (by simp only [List.mem_singleton, forall_eq]; exact (hR1.grid s hsK s hsK).1)
    (m := fun _ => .result (some m) (acc s m)) (by
      intro w hw
      rw [List.mem_singleton] at hw
      subst hw
      obtain ⟨-, e1, e2, -⟩ := hR1.grid s hsK s hsK
      have hcnt : (f1 (s, s)).cnt = (f (s, s)).cnt + 1 := by rw [ht1, if_pos ((hdin s s).2 ⟨hsK, rfl⟩)]
      have hm2 := hm1
      rw [hdraw s hsK] at hm2
      simp only [handleOp, e1, e2, hops, hg.size, hcnt, ← share_range, hm2, acc])
  have hR2 := hR1.congr hc2
  simp only [List.map_cons, List.map_nil, List.headD_cons, NMsg.bits, NMsg.prob] at hrun2
  -- the other workers
  have hemem : ∀ w ∈ ((List.range K).map fun i => ((i, i) : Wid)).eraseIdx s, ∃ i < K, w = (i, i) := fun w hw => hdmem w (List.mem_of_mem_eraseIdx hw)
  obtain ⟨f3, hrun3, hc3, ht3⟩ := query_runs (prm := prm) (C := C) (M := M) (st := st) (f := f2)
    (o := .soft indices (some m)) (l := ((List.range K).map fun i => ((i, i) : Wid)).eraseIdx s) (hdnd.eraseIdx s)
    (fun confs => mapWorkers (.measure indices m (F.add (acc s m) (F.acc 0 (confs.map NMsg.prob)))) ((List.range K).map fun i => (i, i)) fun _ =>
      mapWorkers (.sync 0 true) ws fun _ => k m)
    (fun w hw => by obtain ⟨i, hi, rfl⟩ := hemem w hw; exact (hR2.grid i hi i hi).1)
    (m := fun w => .result (some m) (acc w.1 m))
    (fun w hw => by
      obtain ⟨i, hi, rfl⟩ := hemem w hw
      obtain ⟨-, e1, e2, -⟩ := hR2.grid i hi i hi
      simp only [handleOp, e1, e2, hops, hg.size, ← share_range, soft_known hIdx, acc])
  have hR3 := hR2.congr hc3
  have her : ∀ i < K, ((i, i) : Wid) ∈ ((List.range K).map fun i => ((i, i) : Wid)).eraseIdx s ↔ i ≠ s := by
    intro i hi
    rw [List.mem_eraseIdx_iff_getElem]
    constructor
    · rintro ⟨j, hj, hne, e⟩ rfl
      simp at e
      exact hne e
    · intro hne
      exact ⟨i, by simpa using hi, hne, by simp⟩
  have hoth : ((List.range K).eraseIdx s).mapM (fun i => softMeasureF F indices n (shareOf N (v.map FC.val) i) (some m) (i * N) (draw i) 0)
      = .ok (((List.range K).eraseIdx s).map fun i => (m, acc i m)) := mapM_pure _ _ _ fun i _ => soft_known hIdx _ _ _ _ _
  have hconf : ((((List.range K).map fun i => ((i, i) : Wid)).eraseIdx s).map fun w => (NMsg.result (some m) (acc w.1 m) : NMsg A)).map NMsg.prob
      = (((List.range K).eraseIdx s).map fun i => (m, acc i m)).map Prod.snd := by
    rw [List.eraseIdx_map]
    simp [List.map_map, Function.comp_def, NMsg.prob]
  rw [hconf] at hrun3
  simp only [hm1, hoth, bind, Except.bind, pure, Except.pure]
  refine ⟨hm, f3, hR3, ?_, (hrun1.trans hrun2).trans hrun3⟩
  intro i hi j hj
  rw [ht3, ht2, ht1]
  by_cases e : i = j
  · subst e
    rw [if_pos ((hdin i i).2 ⟨hi, rfl⟩), if_pos rfl]
    by_cases e : i = s
    · rw [if_pos (by simp [e]), if_neg (fun h => (her i hi).1 h e)]
    · rw [if_neg (by simpa using e), if_pos ((her i hi).2 e)]
  · have h1 : ((i, j) : Wid) ∉ (List.range K).map fun i => ((i, i) : Wid) := fun h => e ((hdin i j).1 h).2
    rw [if_neg h1, if_neg (fun h => h1 (List.mem_of_mem_eraseIdx h)), if_neg e, if_neg (by
      rw [List.mem_singleton, Prod.mk.injEq]
      rintro ⟨rfl, rfl⟩
      exact e rfl)]

/-- The state after a measurement. -/
noncomputable def collapsedAll (F : FOps) (indices : List Nat) (n K N : Nat) (v : List (FC A)) (m : Nat) (p : ℝ) : List (FC A) :=
  ((List.range K).map fun i => (collapsedPart F indices n (shareOf N (v.map FC.val) i) (List.replicate N 0) (i * N) m p).map FC.mk).flatten

theorem share_length (hv : v.length = K * N) {i : Nat} (hi : i < K) : (shareOf N (v.map FC.val) i).length = N := by
  rw [share_range, List.length_map, rangeOf_length hv hi]

theorem collapsedAll_range {m : Nat} {p : ℝ} {i : Nat} (hi : i < K) : rangeOf N (collapsedAll F indices n K N v m p) i
    = (collapsedPart F indices n (shareOf N (v.map FC.val) i) (List.replicate N 0) (i * N) m p).map FC.mk := by
  unfold collapsedAll
  rw [rangeOf_flatten ?_ (by simpa using hi), List.getD_eq_getElem _ _ (by simpa using hi)]
  · simp
  · intro l hl
    obtain ⟨j, hj, rfl⟩ := List.mem_map.1 hl
    rw [List.length_map, collapsedPart_length, List.length_replicate]

theorem collapsedAll_length {m : Nat} {p : ℝ} : (collapsedAll F indices n K N v m p).length = K * N := by
  unfold collapsedAll
  rw [List.length_flatten, List.map_map, List.map_congr_left (g := fun _ => N)]
  · simp
  · intro i _
    simp [collapsedPart_length]

theorem distMeasure_known (hv : v.length = K * N) (hIdx : IdxOK n indices) {r : ℝ} {draw : Nat → ℝ} {m : Nat} {p : ℝ}
    (hc : distChooseF F indices n K N (v.map FC.val) r draw = .ok (m, p)) (hm : m < 2 ^ indices.length) (hp : 0 < p ∧ p ≤ 1)
    {arena : Nat → List ℂ} (ha : ∀ i < K, (arena i).length = N) :
    ∃ out, distMeasureF F indices n K N (v.map FC.val) arena r draw = .ok (m, p, out) ∧
      out.map FC.mk = collapsedAll F indices n K N v m p := by
  unfold distMeasureF
  have h := mapM_pure (List.range K) (fun i => measureF F indices n (shareOf N (v.map FC.val) i) (arena i) (i * N) (i * N) (some (m : Int)) (some p) (draw i) 0)
    (fun i => (m, p, collapsedPart F indices n (shareOf N (v.map FC.val) i) (List.replicate N 0) (i * N) m p)) (by
      intro i hi
      have hi' := List.mem_range.1 hi
      rw [measure_known hIdx (by rw [ha i hi', share_length hv hi']) _ hm hp,
        collapsedPart_buffer (out' := List.replicate N 0) (by rw [ha i hi', share_length hv hi']) (by rw [List.length_replicate, share_length hv hi'])])
  simp only [hc, bind, Except.bind, pure, Except.pure]
  rw [h]
  refine ⟨_, rfl, ?_⟩
  unfold collapsedAll
  simp [List.map_flatten, List.map_map, Function.comp_def]

theorem distMeasure_unknown (hK : 0 < K) {r : ℝ} {draw : Nat → ℝ} {m : Nat} {p : ℝ}
    (hc : distChooseF F indices n K N (v.map FC.val) r draw = .ok (m, p)) (hm : m < 2 ^ indices.length) (hp : ¬ (0 < p ∧ p ≤ 1))
    {arena : Nat → List ℂ} : distMeasureF F indices n K N (v.map FC.val) arena r draw = .error .valueError := by
  unfold distMeasureF
  obtain ⟨K', rfl⟩ : ∃ K', K = K' + 1 := ⟨K - 1, by omega⟩
  simp only [hc, bind, Except.bind, pure, Except.pure]
  rw [List.range_succ_eq_map, List.mapM_cons, measure_unknown _ _ hm hp]
  rfl

/-- The second part of a measurement. -/
theorem collapse_runs (hg : GridOK prm K N C M ws) (hops : ∀ w, (prm w).ops = F) (hIdx : IdxOK n indices) (hv : v.length = K * N)
    (hR : GridReady K N n v f) (hst : StOK st) {m : Nat} (hm : m < 2 ^ indices.length) {p : ℝ} (hp : 0 < p ∧ p ≤ 1) (k : MProg A) :
    ∃ f', GridReady K N n (collapsedAll F indices n K N v m p) f' ∧
      (∀ i < K, ∀ j < K, (f' (i, j)).cnt = (f (i, j)).cnt + if i = j then 2 else 1) ∧
      Runs (netAct prm) (netCfg (collapseProg indices m p ((List.range K).map fun i => (i, i)) ws k) f (nbuf C M st noMsg noMsg))
        (netCfg k f' (nbuf C M (scatterSt st K (leftover N C M)) noMsg noMsg)) := by
  have hdnd : ((List.range K).map fun i => ((i, i) : Wid)).Nodup :=
    List.Nodup.map (fun a b h => (Prod.ext_iff.1 h).1) List.nodup_range
  have hdmem : ∀ w, w ∈ (List.range K).map (fun i => ((i, i) : Wid)) ↔ w.1 < K ∧ w.1 = w.2 := by
    rintro ⟨a, b⟩
    simp only [List.mem_map, List.mem_range, Prod.mk.injEq]
    constructor
    · rintro ⟨c, hc, rfl, rfl⟩; exact ⟨hc, rfl⟩
    · rintro ⟨h, rfl⟩; exact ⟨a, h, rfl, rfl⟩
  have hloc : ∀ i < K, handleOp (prm (i, i)) (i, i) (f (i, i)) (.measure indices m p)
      = (⟨n, rangeOf N (collapsedAll F indices n K N v m p) i, rangeOf N v i⟩, .reply (.result (some m) p)) := by
    intro i hi
    obtain ⟨-, e1, e2, e3⟩ := hR.grid i hi i hi
    have hl : ((f (i, i)).b.arena.map FC.val).length = (shareOf N (v.map FC.val) i).length := by
      rw [List.length_map, e3, share_length hv hi]
    simp only [handleOp, e1, e2, hops, hg.size, ← share_range]
    rw [measure_known hIdx hl _ hm hp, collapsedPart_buffer (out' := List.replicate N 0) hl (by rw [List.length_replicate, share_length hv hi]),
      collapsedAll_range hi]
  have h1 := mapWorkers_local (prm := prm) (C := C) (M := M) (st := st) (f := f) (o := .measure indices m p) hdnd
    (fun _ => mapWorkers (.sync 0 true) ws fun _ => k)
    (fun w hw => by
      obtain ⟨a, b⟩ := w
      obtain ⟨ha, hab⟩ := (hdmem _).1 hw
      simp only at ha hab
      subst hab
      exact (hR.grid a ha a ha).1) (m := fun _ => .result (some m) p)
    (fun w hw => by
      obtain ⟨a, b⟩ := w
      obtain ⟨ha, hab⟩ := (hdmem _).1 hw
      simp only at ha hab
      subst hab
      rw [hloc a ha])
  let b : Wid → FState A := fun w => if w.1 = w.2 then ⟨n, rangeOf N (collapsedAll F indices n K N v m p) w.1, rangeOf N v w.1⟩ else (f w).b
  let cnt : Wid → Nat := fun w => if w.1 = w.2 then (f w).cnt + 1 else (f w).cnt
  have e1 : (fun w => if w ∈ (List.range K).map (fun i => ((i, i) : Wid)) then
      (⟨(handleOp (prm w) w (f w) (.measure indices m p)).1, .idle, (f w).cnt + 1⟩ : WSt A) else f w)
      = onGrid K (idleSt b cnt) f := by
    funext w
    obtain ⟨i, j⟩ := w
    by_cases hd : (i, j) ∈ (List.range K).map (fun i => ((i, i) : Wid))
    · rw [if_pos hd]
      obtain ⟨hi, hab⟩ := (hdmem _).1 hd
      simp only at hi hab
      subst hab
      rw [hloc i hi]
      simp [onGrid, hi, idleSt, b, cnt]
    · rw [if_neg hd]
      unfold onGrid
      split
      · next hw =>
        have hne : i ≠ j := fun e => hd ((hdmem _).2 ⟨hw.1, e⟩)
        have := (hR.grid i hw.1 j hw.2).1
        simp only [idleSt, b, cnt, hne, if_false]
        rw [← this]
      · rfl
  rw [e1] at h1
  have hlen : ∀ w, w.1 < K → w.2 < K → (b w).state.length = N := by
    intro w h1 h2
    simp only [b]
    split
    · exact rangeOf_length collapsedAll_length h1
    · rw [(hR.grid w.1 h1 w.2 h2).2.2.1]
      exact rangeOf_length hv h1
  have h2 := sync_diag_runs (prm := prm) (b := b) (cnt := cnt) (fo := f) hg hst hlen (fun _ => k)
  refine ⟨_, ⟨?_, ?_⟩, ?_, h1.trans h2⟩
  · intro i hi j hj
    obtain ⟨-, g1, g2, g3⟩ := hR.grid i hi j hj
    simp only [onGrid, hi, hj, and_self, if_true, idleSt, true_and, scattered, b]
    by_cases hij : i = j
    · subst hij
      simp only [if_true, true_and]
      exact rangeOf_length hv hi
    · simp only [hij, if_false]
      exact ⟨g1, g3⟩
  · intro w hw
    simp only [onGrid, if_neg hw]
    exact hR.others w hw
  · intro i hi j hj
    simp only [onGrid, hi, hj, and_self, if_true, idleSt, cnt]
    split <;> rfl

/-- No step is possible if the manager waits for a report that has not been sent. -/
theorem stuck_waiting {buf : Pid × Pid → List (NMsg A)} {w0 : Wid} {k : NMsg A → MProg A} (h0 : buf (some w0, none) = [])
    (h : ∀ w, (f w).pc = .closed ∨ (f w).pc = .crashed ∨ ((f w).pc = .idle ∧ buf (none, some w) = [])) :
    Stuck (netAct prm) (netCfg (.recv w0 k) f buf) := by
  intro p
  rcases p with _ | w
  · have h0' : (netCfg (.recv w0 k) f buf).buf (some w0, none) = [] := h0
    have e : (netCfg (.recv w0 k) f buf).loc none = .mgr (.recv w0 k) := rfl
    simp [stepP, e, netAct, h0']
  · unfold stepP
    have e : (netCfg (.recv w0 k) f buf).loc (some w) = .wkr (f w) := rfl
    rw [e]
    rcases h w with h | h | ⟨h, hb⟩
    · simp [netAct, workerAct, h]
    · simp [netAct, workerAct, h]
    · have hb' : (netCfg (.recv w0 k) f buf).buf (none, some w) = [] := hb
      simp [netAct, workerAct, h, hb']

/-- If the probability found is not allowed for `measure`, the diagonal workers die and the manager waits forever. -/
theorem collapse_deadlock (hg : GridOK prm K N C M ws) (hR : GridReady K N n v f) {m : Nat} (hm : m < 2 ^ indices.length) {p : ℝ}
    (hp : ¬ (0 < p ∧ p ≤ 1)) (kk : MProg A) :
    ∃ f' k, (∀ i < K, (f' (i, i)).pc = .crashed) ∧
      Stuck (netAct prm) (netCfg (.recv (0, 0) k) f' (nbuf C M st noMsg noMsg)) ∧
      Runs (netAct prm) (netCfg (collapseProg indices m p ((List.range K).map fun i => (i, i)) ws kk) f
        (nbuf C M st noMsg noMsg)) (netCfg (.recv (0, 0) k) f' (nbuf C M st noMsg noMsg)) := by
  have hdnd : ((List.range K).map fun i => ((i, i) : Wid)).Nodup :=
    List.Nodup.map (fun a b h => (Prod.ext_iff.1 h).1) List.nodup_range
  have hdmem : ∀ w ∈ (List.range K).map fun i => ((i, i) : Wid), ∃ i < K, w = (i, i) := by
    intro w hw
    obtain ⟨i, hi, rfl⟩ := List.mem_map.1 hw
    exact ⟨i, List.mem_range.1 hi, rfl⟩
  obtain ⟨k, hk⟩ : ∃ k, recvEach ((List.range K).map fun i => ((i, i) : Wid)) (fun _ => mapWorkers (.sync 0 true) ws fun _ => kk) = .recv (0, 0) k := by
    obtain ⟨K', rfl⟩ : ∃ K', K = K' + 1 := ⟨K - 1, by have := hg.posK; omega⟩
    rw [List.range_succ_eq_map, List.map_cons]
    exact ⟨_, rfl⟩
  have h1 := sendEach_runs (prm := prm) (f := f) (C := C) (M := M) (st := st) (ops := noMsg) (cf := noMsg)
    (.measure indices m p) (.recv (0, 0) k) hdnd
  have h2 := deliver_runs (prm := prm) (pm := .recv (0, 0) k) (f := f) (C := C) (M := M) (st := st) (cf := noMsg)
    (.measure indices m p) hdnd (fun w hw => by obtain ⟨i, hi, rfl⟩ := hdmem w hw; exact (hR.grid i hi i hi).1)
  have hcr : ∀ w ∈ (List.range K).map (fun i => ((i, i) : Wid)), (handled prm (.measure indices m p) w (f w)).pc = .crashed := by
    intro w hw
    simp only [handled, handleOp, measure_unknown _ _ hm hp]
  refine ⟨fun w => if w ∈ (List.range K).map (fun i => ((i, i) : Wid)) then handled prm (.measure indices m p) w (f w) else f w, k, ?_, ?_, ?_⟩
  · intro i hi
    have hm : ((i, i) : Wid) ∈ (List.range K).map (fun i => ((i, i) : Wid)) := List.mem_map.2 ⟨i, List.mem_range.2 hi, rfl⟩
    simp only [if_pos hm]
    exact hcr _ hm
  · apply stuck_waiting rfl
    intro w
    by_cases hw : w ∈ (List.range K).map (fun i => ((i, i) : Wid))
    · right; left
      simp only [if_pos hw]
      exact hcr w hw
    · simp only [if_neg hw]
      by_cases hK : w.1 < K ∧ w.2 < K
      · exact Or.inr (Or.inr ⟨(hR.grid w.1 hK.1 w.2 hK.2).1, rfl⟩)
      · exact Or.inl (hR.others w hK)
  · have e : collapseProg indices m p ((List.range K).map fun i => ((i, i) : Wid)) ws kk
        = sendEach (.measure indices m p) ((List.range K).map fun i => ((i, i) : Wid)) (.recv (0, 0) k) := congrArg (sendEach _ _) hk
    rw [e]
    exact h1.trans h2

end QIP.FNet
