import Verif.Lemmas.Sync

/-!
# Synchronisation of a grid of workers
-/

namespace QIP

/-- A grid of `K * K` workers with ranges of length `N`, and the list of workers the manager has. -/
structure GridOK (prm : Wid → WParam) (K N C M : Nat) (ws : List Wid) : Prop where
  posK : 0 < K
  posN : 0 < N
  posC : 0 < C
  posM : 0 < M
  size : ∀ w, (prm w).size = N
  chunk : ∀ w, (prm w).chunk = C
  inflight : ∀ w, (prm w).inflight = M
  nodup : ws.Nodup
  mem : ∀ w, w ∈ ws ↔ w.1 < K ∧ w.2 < K
  regs_nodup : ∀ j < K, (prm (j, j)).regs.Nodup
  regs : ∀ j < K, ∀ r, r ∈ (prm (j, j)).regs ↔ r.1 < K ∧ r.2 < K ∧ r.1 ≠ r.2 ∧ (r.1 = j ∨ r.2 = j)

/-- Unread acknowledgements are only on the way from a receiver to a sender. -/
def StOK (st : Wid → Wid → Nat) : Prop :=
  (∀ i j, i ≠ j → st (i, j) (j, j) = 0) ∧ ∀ i j, i ≠ j → st (i, i) (i, j) = 0

/-- `s` on the grid, `fo` elsewhere. -/
def onGrid (K : Nat) (s fo : Wid → WSt) : Wid → WSt := fun w => if w.1 < K ∧ w.2 < K then s w else fo w

variable {prm : Wid → WParam} {K N C M : Nat} {ws : List Wid} {pm : MProg} {st : Wid → Wid → Nat}
  {ops cf : Wid → List NMsg} {b : Wid → BState} {cnt : Wid → Nat} {fo : Wid → WSt} {cap : Pid × Pid → Option Nat}

/-- Amplitudes of the diagonal worker `j` after adding what the others of its column have. -/
noncomputable def colSum (prm : Wid → WParam) (b : Wid → BState) (j : Nat) : List ℂ :=
  ((prm (j, j)).regs.filter fun r => r.2 = j).foldl (fun acc r => List.zipWith (· + ·) acc (b r).state) (b (j, j)).state

/-- The diagonal workers have added up. -/
noncomputable def gathered (prm : Wid → WParam) (b : Wid → BState) : Wid → BState :=
  fun w => if w.1 = w.2 then { b w with state := colSum prm b w.2 } else b w

/-- Everybody has the amplitudes of the diagonal worker of the own row. -/
noncomputable def scattered (b : Wid → BState) : Wid → BState :=
  fun w => { b w with state := (b (w.1, w.1)).state }

/-- At the beginning of a synchronisation. -/
def atSync (prm : Wid → WParam) (d : Bool) (b : Wid → BState) (cnt : Wid → Nat) (w : Wid) : WSt :=
  ⟨b w, nextTask (syncTasks (prm w) w 0 d), cnt w⟩

theorem colSum_length (hlen : ∀ w, w.1 < K → w.2 < K → (b w).state.length = N)
    (hg : GridOK prm K N C M ws) {j : Nat} (hj : j < K) : (colSum prm b j).length = N := by
  unfold colSum
  have hL : ∀ r ∈ (prm (j, j)).regs.filter fun r => r.2 = j, (b r).state.length = N := by
    intro r hr
    have := (hg.regs j hj r).1 (List.mem_of_mem_filter hr)
    exact hlen r this.1 this.2.1
  generalize (prm (j, j)).regs.filter (fun r => r.2 = j) = L at hL
  have h0 := hlen (j, j) hj hj
  generalize (b (j, j)).state = acc at h0
  induction L generalizing acc with
  | nil => exact h0
  | cons r L ih =>
    rw [List.foldl_cons]
    apply ih
    · exact fun r hr => hL r (List.mem_cons_of_mem _ hr)
    · have := hL r List.mem_cons_self
      simp; omega

theorem sync_diag (j : Nat) (p : WParam) (d : Bool) : syncTasks p (j, j) 0 d
    = (if d then [] else (p.regs.filter fun r => r.2 = j).map fun r => Task.recvFrom r false)
      ++ (p.regs.filter fun r => r.1 = j).map Task.sendTo := by
  simp [syncTasks]

theorem sync_off {i j : Nat} (h : i ≠ j) (p : WParam) (d : Bool) : syncTasks p (i, j) 0 d
    = (if d then [] else [Task.sendTo (j, j)]) ++ [Task.recvFrom (i, i) true] := by
  simp [syncTasks, h]

theorem gather_allB (hpos : ∀ e, hasRoom (cap e) 1 = true) (hg : GridOK prm K N C M ws) (hst : StOK st)
    (hlen : ∀ w, w.1 < K → w.2 < K → (b w).state.length = N)
    (hcg : ∀ i j, i < K → j < K → i ≠ j → hasRoom (cap (some (j, j), some (i, j))) (st (j, j) (i, j) + leftover N C M) = true) :
    RunsB (netAct prm) cap (netCfg pm (onGrid K (atSync prm false b cnt) fo) (nbuf C M st ops cf))
      (netCfg pm (onGrid K (atSync prm true (gathered prm b) cnt) fo)
        (nbuf C M (addSt st (fun x y => x.1 = x.2 ∧ x.2 < K ∧ y.2 = x.2 ∧ y.1 ≠ y.2 ∧ y.1 < K) (leftover N C M)) ops cf)) := by
  suffices h : ∀ J ≤ K, RunsB (netAct prm) cap (netCfg pm (onGrid K (atSync prm false b cnt) fo) (nbuf C M st ops cf))
      (netCfg pm (onGrid K (fun w => if w.2 < J then atSync prm true (gathered prm b) cnt w else atSync prm false b cnt w) fo)
        (nbuf C M (addSt st (fun x y => x.1 = x.2 ∧ x.2 < J ∧ y.2 = x.2 ∧ y.1 ≠ y.2 ∧ y.1 < K) (leftover N C M)) ops cf)) by
    refine Eq.mp ?_ (h K le_rfl)
    congr 2
    funext w
    unfold onGrid
    by_cases hw : w.1 < K ∧ w.2 < K
    · simp [hw]
    · simp [hw]
  intro J hJ
  induction J with
  | zero =>
    have e : addSt st (fun x y => x.1 = x.2 ∧ x.2 < 0 ∧ y.2 = x.2 ∧ y.1 ≠ y.2 ∧ y.1 < K) (leftover N C M) = st := by
      funext x y; simp [addSt]
    rw [e]
    simp only [Nat.not_lt_zero, if_false]
    exact RunsB.refl _
  | succ J ih =>
    have hJK : J < K := hJ
    refine (ih (by omega)).trans ?_
    have hmem : ∀ r, r ∈ ((prm (J, J)).regs.filter fun r => r.2 = J) ↔ r.2 = J ∧ r.1 < K ∧ r.1 ≠ J := by
      intro r
      rw [List.mem_filter, hg.regs J hJK, decide_eq_true_eq]
      constructor
      · rintro ⟨⟨h1, h2, h3, h4⟩, h5⟩
        exact ⟨h5, h1, by omega⟩
      · rintro ⟨h1, h2, h3⟩
        exact ⟨⟨h2, by omega, by omega, Or.inr h1⟩, h1⟩
    generalize hf : onGrid K (fun w => if w.2 < J then atSync prm true (gathered prm b) cnt w else atSync prm false b cnt w)
      fo = f
    have fcol : ∀ i < K, f (i, J) = atSync prm false b cnt (i, J) := by
      intro i hi
      rw [← hf]
      simp [onGrid, hi, hJK]
    have h1 := gather_runsB (cap := cap) (prm := prm) (pm := pm) (f := f) (C := C) (M := M)
      (st := addSt st (fun x y => x.1 = x.2 ∧ x.2 < J ∧ y.2 = x.2 ∧ y.1 ≠ y.2 ∧ y.1 < K) (leftover N C M)) (ops := ops)
      (cf := cf) (N := N) hpos hg.posC hg.posM hg.posN (d := (J, J)) (hg.chunk _) (hg.inflight _)
      (ts := ((prm (J, J)).regs.filter fun r => r.1 = J).map Task.sendTo) (tq := fun r => [.recvFrom (r.1, r.1) true])
      (L := (prm (J, J)).regs.filter fun r => r.2 = J) ((hg.regs_nodup J hJK).filter _)
      (by rw [hmem]; simp)
      (by rw [fcol J hJK]; simp only [atSync, sync_diag]; rfl)
      (by rw [fcol J hJK]; exact hlen _ hJK hJK)
      (by
        rintro ⟨i, j⟩ hr
        obtain ⟨h1, h2, h3⟩ := (hmem _).1 hr
        simp only at h1 h2 h3
        subst h1
        rw [fcol i h2]
        refine ⟨?_, hlen _ h2 hJK⟩
        simp only [atSync, sync_off h3]
        rfl)
      (by
        rintro ⟨i, j⟩ hr
        obtain ⟨h1, h2, h3⟩ := (hmem _).1 hr
        simp only at h1 h2 h3
        subst h1
        simp only [addSt]
        rw [if_neg (by simp [h3])]
        exact hst.1 i _ h3)
      (by
        rintro ⟨i, j⟩ hr
        obtain ⟨h1, h2, h3⟩ := (hmem _).1 hr
        simp only at h1 h2 h3
        subst h1
        simp only [addSt]
        rw [if_neg (by simp)]
        exact hcg i _ h2 hJK h3)
    refine Eq.mp ?_ h1
    congr 2
    · funext w
      rcases w with ⟨i, j⟩
      by_cases hd : (i, j) = (J, J)
      · rw [if_pos hd]
        cases hd
        have : onGrid K (fun w => if w.2 < J + 1 then atSync prm true (gathered prm b) cnt w else atSync prm false b cnt w) fo
            (J, J) = atSync prm true (gathered prm b) cnt (J, J) := by
          simp [onGrid, hJK]
        rw [this, fcol J hJK]
        simp only [atSync, sync_diag, gathered, if_true, List.nil_append, colSum]
        congr 2
        refine List.foldl_ext _ _ _ ?_
        intro acc r hr
        obtain ⟨h1, h2, h3⟩ := (hmem r).1 hr
        obtain ⟨r1, r2⟩ := r
        simp only at h1 h2 h3
        subst h1
        rw [fcol r1 h2]
        rfl
      · rw [if_neg hd]
        by_cases hr : (i, j) ∈ (prm (J, J)).regs.filter fun r => r.2 = J
        · rw [if_pos hr]
          obtain ⟨h1, h2, h3⟩ := (hmem _).1 hr
          simp only at h1 h2 h3
          subst h1
          rw [fcol i h2]
          have : onGrid K (fun w => if w.2 < j + 1 then atSync prm true (gathered prm b) cnt w else atSync prm false b cnt w) fo
              (i, j) = atSync prm true (gathered prm b) cnt (i, j) := by
            simp [onGrid, hJK, h2]
          rw [this]
          simp [atSync, sync_off h3, gathered, h3]
        · rw [if_neg hr, ← hf]
          simp only [onGrid]
          by_cases hin : i < K ∧ j < K
          · rw [if_pos hin, if_pos hin]
            have hj : j ≠ J := by
              rintro rfl
              apply hr
              rw [hmem]
              refine ⟨rfl, hin.1, ?_⟩
              rintro h
              simp only at h
              subst h
              exact hd rfl
            by_cases hlt : j < J
            · rw [if_pos hlt, if_pos (by omega)]
            · rw [if_neg hlt, if_neg (by omega)]
          · rw [if_neg hin, if_neg hin]
    · congr 1
      funext x y
      simp only [addSt, hmem]
      obtain ⟨x1, x2⟩ := x
      obtain ⟨y1, y2⟩ := y
      simp only [Prod.mk.injEq]
      by_cases hx : x1 = J ∧ x2 = J
      · obtain ⟨rfl, rfl⟩ := hx
        simp only [lt_irrefl, false_and, and_false, if_false, true_and, and_self, lt_add_iff_pos_right, zero_lt_one]
        by_cases h : y2 = x2 ∧ y1 < K ∧ y1 ≠ x2
        · rw [if_pos h, if_pos ⟨h.1, by omega, h.2.1⟩]
        · rw [if_neg h, if_neg (by rintro ⟨h1, h2, h3⟩; exact h ⟨h1, h3, by omega⟩)]
      · rw [if_neg (by tauto)]
        by_cases h : x1 = x2 ∧ x2 < J ∧ y2 = x2 ∧ y1 ≠ y2 ∧ y1 < K
        · rw [if_pos h, if_pos ⟨h.1, by omega, h.2.2⟩]
        · rw [if_neg h, if_neg (by rintro ⟨h1, h2, h3⟩; exact h ⟨h1, by omega, h3⟩)]

theorem scatter_allB (hpos : ∀ e, hasRoom (cap e) 1 = true) (hg : GridOK prm K N C M ws) (hst : StOK st)
    (hlen : ∀ w, w.1 < K → w.2 < K → (b w).state.length = N)
    (hcs : ∀ i j, i < K → j < K → i ≠ j → hasRoom (cap (some (i, j), some (i, i))) (st (i, j) (i, i) + leftover N C M) = true) :
    RunsB (netAct prm) cap (netCfg pm (onGrid K (atSync prm true b cnt) fo) (nbuf C M st ops cf))
      (netCfg pm (onGrid K (fun w => ⟨scattered b w, .reply .conf, cnt w⟩) fo)
        (nbuf C M (addSt st (fun x y => y.1 = y.2 ∧ y.1 < K ∧ x.1 = y.1 ∧ x.1 ≠ x.2 ∧ x.2 < K) (leftover N C M)) ops cf)) := by
  suffices h : ∀ I ≤ K, RunsB (netAct prm) cap (netCfg pm (onGrid K (atSync prm true b cnt) fo) (nbuf C M st ops cf))
      (netCfg pm (onGrid K (fun w => if w.1 < I then ⟨scattered b w, .reply .conf, cnt w⟩ else atSync prm true b cnt w) fo)
        (nbuf C M (addSt st (fun x y => y.1 = y.2 ∧ y.1 < I ∧ x.1 = y.1 ∧ x.1 ≠ x.2 ∧ x.2 < K) (leftover N C M)) ops cf)) by
    refine Eq.mp ?_ (h K le_rfl)
    congr 2
    funext w
    unfold onGrid
    by_cases hw : w.1 < K ∧ w.2 < K
    · simp [hw]
    · simp [hw]
  intro I hI
  induction I with
  | zero =>
    have e : addSt st (fun x y => y.1 = y.2 ∧ y.1 < 0 ∧ x.1 = y.1 ∧ x.1 ≠ x.2 ∧ x.2 < K) (leftover N C M) = st := by
      funext x y; simp [addSt]
    rw [e]
    simp only [Nat.not_lt_zero, if_false]
    exact RunsB.refl _
  | succ I ih =>
    have hIK : I < K := hI
    refine (ih (by omega)).trans ?_
    have hmem : ∀ r, r ∈ ((prm (I, I)).regs.filter fun r => r.1 = I) ↔ r.1 = I ∧ r.2 < K ∧ r.2 ≠ I := by
      intro r
      rw [List.mem_filter, hg.regs I hIK, decide_eq_true_eq]
      constructor
      · rintro ⟨⟨h1, h2, h3, h4⟩, h5⟩
        exact ⟨h5, h2, by omega⟩
      · rintro ⟨h1, h2, h3⟩
        exact ⟨⟨by omega, h2, by omega, Or.inl h1⟩, h1⟩
    generalize hf : onGrid K (fun w => if w.1 < I then ⟨scattered b w, .reply .conf, cnt w⟩ else atSync prm true b cnt w)
      fo = f
    have frow : ∀ j < K, f (I, j) = atSync prm true b cnt (I, j) := by
      intro j hj
      rw [← hf]
      simp [onGrid, hj, hIK]
    have h1 := scatter_runsB (cap := cap) (prm := prm) (pm := pm) (f := f) (C := C) (M := M)
      (st := addSt st (fun x y => y.1 = y.2 ∧ y.1 < I ∧ x.1 = y.1 ∧ x.1 ≠ x.2 ∧ x.2 < K) (leftover N C M)) (ops := ops)
      (cf := cf) (N := N) hpos hg.posC hg.posM hg.posN (d := (I, I)) (ts := [])
      (L := (prm (I, I)).regs.filter fun r => r.1 = I) (fun r _ => hg.chunk r) (fun r _ => hg.inflight r)
      ((hg.regs_nodup I hIK).filter _) (by rw [hmem]; simp)
      (by rw [frow I hIK]; simp only [atSync, sync_diag, List.append_nil]; rfl)
      (by rw [frow I hIK]; exact hlen _ hIK hIK)
      (by
        rintro ⟨i, j⟩ hr
        obtain ⟨h1, h2, h3⟩ := (hmem _).1 hr
        simp only at h1 h2 h3
        subst h1
        rw [frow j h2]
        refine ⟨?_, hlen _ hIK h2⟩
        simp only [atSync, sync_off (Ne.symm h3)]
        rfl)
      (by
        rintro ⟨i, j⟩ hr
        obtain ⟨h1, h2, h3⟩ := (hmem _).1 hr
        simp only at h1 h2 h3
        subst h1
        simp only [addSt]
        rw [if_neg (by simp)]
        exact hst.2 i j (Ne.symm h3))
      (by
        rintro ⟨i, j⟩ hr
        obtain ⟨h1, h2, h3⟩ := (hmem _).1 hr
        simp only at h1 h2 h3
        subst h1
        simp only [addSt]
        rw [if_neg (by simp)]
        exact hcs i j hIK h2 (Ne.symm h3))
    refine Eq.mp ?_ h1
    congr 2
    · funext w
      rcases w with ⟨i, j⟩
      by_cases hd : (i, j) = (I, I)
      · rw [if_pos hd]
        cases hd
        rw [frow I hIK]
        simp [onGrid, hIK, atSync, scattered, nextTask]
      · rw [if_neg hd]
        by_cases hr : (i, j) ∈ (prm (I, I)).regs.filter fun r => r.1 = I
        · rw [if_pos hr]
          obtain ⟨h1, h2, h3⟩ := (hmem _).1 hr
          simp only at h1 h2 h3
          subst h1
          rw [frow j h2, frow i hIK]
          simp [onGrid, hIK, h2, atSync, scattered]
        · rw [if_neg hr, ← hf]
          simp only [onGrid]
          by_cases hin : i < K ∧ j < K
          · rw [if_pos hin, if_pos hin]
            have hi : i ≠ I := by
              rintro rfl
              apply hr
              rw [hmem]
              refine ⟨rfl, hin.2, ?_⟩
              rintro h
              simp only at h
              subst h
              exact hd rfl
            by_cases hlt : i < I
            · rw [if_pos hlt, if_pos (by omega)]
            · rw [if_neg hlt, if_neg (by omega)]
          · rw [if_neg hin, if_neg hin]
    · congr 1
      funext x y
      simp only [addSt, hmem]
      obtain ⟨x1, x2⟩ := x
      obtain ⟨y1, y2⟩ := y
      simp only [Prod.mk.injEq]
      by_cases hy : y1 = I ∧ y2 = I
      · obtain ⟨rfl, rfl⟩ := hy
        simp only [lt_irrefl, false_and, and_false, if_false, true_and, and_self, lt_add_iff_pos_right, zero_lt_one]
        by_cases h : x1 = y2 ∧ x2 < K ∧ x2 ≠ y2
        · rw [if_pos h, if_pos ⟨h.1, by omega, h.2.1⟩]
        · rw [if_neg h, if_neg (by rintro ⟨h1, h2, h3⟩; exact h ⟨h1, h3, by omega⟩)]
      · rw [if_neg (by tauto)]
        by_cases h : y1 = y2 ∧ y1 < I ∧ x1 = y1 ∧ x1 ≠ x2 ∧ x2 < K
        · rw [if_pos h, if_pos ⟨h.1, by omega, h.2.2⟩]
        · rw [if_neg h, if_neg (by rintro ⟨h1, h2, h3⟩; exact h ⟨h1, by omega, h3⟩)]

theorem stOK_gather (h : StOK st) (K k : Nat) :
    StOK (addSt st (fun x y => x.1 = x.2 ∧ x.2 < K ∧ y.2 = x.2 ∧ y.1 ≠ y.2 ∧ y.1 < K) k) := by
  constructor
  · intro i j hij
    simp only [addSt]
    rw [if_neg (by rintro ⟨h1, -⟩; exact hij h1)]
    exact h.1 i j hij
  · intro i j hij
    simp only [addSt]
    rw [if_neg (by rintro ⟨-, -, h1, -⟩; exact hij h1.symm)]
    exact h.2 i j hij

theorem stOK_scatter (h : StOK st) (K k : Nat) :
    StOK (addSt st (fun x y => y.1 = y.2 ∧ y.1 < K ∧ x.1 = y.1 ∧ x.1 ≠ x.2 ∧ x.2 < K) k) := by
  constructor
  · intro i j hij
    simp only [addSt]
    rw [if_neg (by rintro ⟨-, -, h1, -⟩; exact hij h1)]
    exact h.1 i j hij
  · intro i j hij
    simp only [addSt]
    rw [if_neg (by rintro ⟨h1, -⟩; exact hij h1)]
    exact h.2 i j hij

/-- The acknowledgements left over by a whole synchronisation. -/
def gatherSt (st : Wid → Wid → Nat) (K k : Nat) : Wid → Wid → Nat :=
  addSt st (fun x y => x.1 = x.2 ∧ x.2 < K ∧ y.2 = x.2 ∧ y.1 ≠ y.2 ∧ y.1 < K) k

def scatterSt (st : Wid → Wid → Nat) (K k : Nat) : Wid → Wid → Nat :=
  addSt st (fun x y => y.1 = y.2 ∧ y.1 < K ∧ x.1 = y.1 ∧ x.1 ≠ x.2 ∧ x.2 < K) k

/-- A state in which every worker waits for the next operation. -/
def idleSt (b : Wid → BState) (cnt : Wid → Nat) (w : Wid) : WSt := ⟨b w, .idle, cnt w⟩

theorem deliver_sync (hg : GridOK prm K N C M ws) (d : Bool) :
    (fun w => if w ∈ ws then handled prm (.sync 0 d) w (onGrid K (idleSt b cnt) fo w) else onGrid K (idleSt b cnt) fo w)
      = onGrid K (atSync prm d b fun w => cnt w + 1) fo := by
  funext w
  by_cases hw : w.1 < K ∧ w.2 < K
  · rw [if_pos ((hg.mem w).2 hw)]
    simp [onGrid, hw, handled, handleOp, idleSt, atSync]
  · rw [if_neg (fun h => hw ((hg.mem w).1 h))]
    simp [onGrid, hw]

/-- A synchronisation of all workers in both directions. -/
theorem sync_runsB (hpos : ∀ e, hasRoom (cap e) 1 = true) (hg : GridOK prm K N C M ws) (hst : StOK st)
    (hlen : ∀ w, w.1 < K → w.2 < K → (b w).state.length = N)
    (hcg : ∀ i j, i < K → j < K → i ≠ j → hasRoom (cap (some (j, j), some (i, j))) (st (j, j) (i, j) + leftover N C M) = true)
    (hcs : ∀ i j, i < K → j < K → i ≠ j → hasRoom (cap (some (i, j), some (i, i))) (st (i, j) (i, i) + leftover N C M) = true)
    (k : List NMsg → MProg) :
    RunsB (netAct prm) cap (netCfg (mapWorkers (.sync 0 false) ws k) (onGrid K (idleSt b cnt) fo) (nbuf C M st noMsg noMsg))
      (netCfg (k (ws.map fun _ => .conf)) (onGrid K (idleSt (scattered (gathered prm b)) fun w => cnt w + 1) fo)
        (nbuf C M (scatterSt (gatherSt st K (leftover N C M)) K (leftover N C M)) noMsg noMsg)) := by
  have h := mapWorkers_runsB (cap := cap) (prm := prm) (C := C) (M := M) (st := st) (o := .sync 0 false) hpos hg.nodup k
    (f := onGrid K (idleSt b cnt) fo) (by
      intro w hw
      simp [onGrid, (hg.mem w).1 hw, idleSt]) (m := fun _ => .conf)
    (f2 := onGrid K (fun w => ⟨scattered (gathered prm b) w, .reply .conf, cnt w + 1⟩) fo)
    (st' := scatterSt (gatherSt st K (leftover N C M)) K (leftover N C M)) (by
      intro pm
      rw [deliver_sync hg]
      refine (gather_allB hpos hg hst hlen hcg).trans (scatter_allB hpos hg (stOK_gather hst _ _) ?_ ?_)
      · intro w h1 h2
        unfold gathered
        split
        · exact colSum_length hlen hg h2
        · exact hlen w h1 h2
      · intro i j hi hj hij
        simp only [addSt]
        rw [if_neg (by rintro ⟨h, -⟩; exact hij h)]
        exact hcs i j hi hj hij) (by
      intro w hw
      simp [onGrid, (hg.mem w).1 hw])
  refine Eq.mp ?_ h
  congr 2
  funext w
  by_cases hw : w.1 < K ∧ w.2 < K
  · rw [if_pos ((hg.mem w).2 hw)]
    simp [onGrid, hw, idleSt]
  · rw [if_neg (fun h => hw ((hg.mem w).1 h))]
    simp [onGrid, hw]

/-- A synchronisation with `diagonal_overwrite`. -/
theorem sync_diag_runsB (hpos : ∀ e, hasRoom (cap e) 1 = true) (hg : GridOK prm K N C M ws) (hst : StOK st)
    (hlen : ∀ w, w.1 < K → w.2 < K → (b w).state.length = N)
    (hcs : ∀ i j, i < K → j < K → i ≠ j → hasRoom (cap (some (i, j), some (i, i))) (st (i, j) (i, i) + leftover N C M) = true)
    (k : List NMsg → MProg) :
    RunsB (netAct prm) cap (netCfg (mapWorkers (.sync 0 true) ws k) (onGrid K (idleSt b cnt) fo) (nbuf C M st noMsg noMsg))
      (netCfg (k (ws.map fun _ => .conf)) (onGrid K (idleSt (scattered b) fun w => cnt w + 1) fo)
        (nbuf C M (scatterSt st K (leftover N C M)) noMsg noMsg)) := by
  have h := mapWorkers_runsB (cap := cap) (prm := prm) (C := C) (M := M) (st := st) (o := .sync 0 true) hpos hg.nodup k
    (f := onGrid K (idleSt b cnt) fo) (by
      intro w hw
      simp [onGrid, (hg.mem w).1 hw, idleSt]) (m := fun _ => .conf)
    (f2 := onGrid K (fun w => ⟨scattered b w, .reply .conf, cnt w + 1⟩) fo)
    (st' := scatterSt st K (leftover N C M)) (by
      intro pm
      rw [deliver_sync hg]
      exact scatter_allB hpos hg hst hlen hcs) (by
      intro w hw
      simp [onGrid, (hg.mem w).1 hw])
  refine Eq.mp ?_ h
  congr 2
  funext w
  by_cases hw : w.1 < K ∧ w.2 < K
  · rw [if_pos ((hg.mem w).2 hw)]
    simp [onGrid, hw, idleSt]
  · rw [if_neg (fun h => hw ((hg.mem w).1 h))]
    simp [onGrid, hw]

/-- A synchronisation of all workers in both directions. -/
theorem sync_runs (hg : GridOK prm K N C M ws) (hst : StOK st) (hlen : ∀ w, w.1 < K → w.2 < K → (b w).state.length = N)
    (k : List NMsg → MProg) :
    Runs (netAct prm) (netCfg (mapWorkers (.sync 0 false) ws k) (onGrid K (idleSt b cnt) fo) (nbuf C M st noMsg noMsg))
      (netCfg (k (ws.map fun _ => .conf)) (onGrid K (idleSt (scattered (gathered prm b)) fun w => cnt w + 1) fo)
        (nbuf C M (scatterSt (gatherSt st K (leftover N C M)) K (leftover N C M)) noMsg noMsg)) :=
  (sync_runsB (cap := noCap) (fun _ => rfl) hg hst hlen (fun _ _ _ _ _ => rfl) (fun _ _ _ _ _ => rfl) k).runs

/-- A synchronisation with `diagonal_overwrite`. -/
theorem sync_diag_runs (hg : GridOK prm K N C M ws) (hst : StOK st)
    (hlen : ∀ w, w.1 < K → w.2 < K → (b w).state.length = N) (k : List NMsg → MProg) :
    Runs (netAct prm) (netCfg (mapWorkers (.sync 0 true) ws k) (onGrid K (idleSt b cnt) fo) (nbuf C M st noMsg noMsg))
      (netCfg (k (ws.map fun _ => .conf)) (onGrid K (idleSt (scattered b) fun w => cnt w + 1) fo)
        (nbuf C M (scatterSt st K (leftover N C M)) noMsg noMsg)) :=
  (sync_diag_runsB (cap := noCap) (fun _ => rfl) hg hst hlen (fun _ _ _ _ _ => rfl) k).runs

/-- What a diagonal worker has after adding up, amplitude by amplitude. -/
theorem colSum_getD (hg : GridOK prm K N C M ws) (hlen : ∀ w, w.1 < K → w.2 < K → (b w).state.length = N) {j : Nat}
    (hj : j < K) (o : Nat) :
    (colSum prm b j).getD o 0 = ((List.range K).map fun i => (b (i, j)).state.getD o 0).sum := by
  have key : ∀ (L : List Wid) (acc : List ℂ), acc.length = N → (∀ r ∈ L, (b r).state.length = N) →
      (L.foldl (fun acc r => List.zipWith (· + ·) acc (b r).state) acc).getD o 0
        = acc.getD o 0 + (L.map fun r => (b r).state.getD o 0).sum := by
    intro L
    induction L with
    | nil => intro acc _ _; simp
    | cons r L ih =>
      intro acc h1 h2
      have hr := h2 r List.mem_cons_self
      rw [List.foldl_cons, ih _ (by simp; omega) (fun r hr => h2 r (List.mem_cons_of_mem _ hr)), List.map_cons,
        List.sum_cons, ← add_assoc]
      congr 1
      simp only [List.getD_eq_getElem?_getD, List.getElem?_zipWith]
      by_cases ho : o < N
      · rw [List.getElem?_eq_getElem (by omega), List.getElem?_eq_getElem (by omega)]
        rfl
      · rw [List.getElem?_eq_none (by omega), List.getElem?_eq_none (by omega)]
        simp
  unfold colSum
  rw [key _ _ (hlen _ hj hj) (by
    intro r hr
    have := (hg.regs j hj r).1 (List.mem_of_mem_filter hr)
    exact hlen r this.1 this.2.1)]
  have hp : ((j, j) :: (prm (j, j)).regs.filter fun r => r.2 = j).Perm ((List.range K).map fun i => (i, j)) := by
    rw [List.perm_ext_iff_of_nodup]
    · rintro ⟨a, c⟩
      rw [List.mem_cons, List.mem_filter, hg.regs j hj, decide_eq_true_eq]
      simp only [List.mem_map, List.mem_range, Prod.mk.injEq]
      constructor
      · rintro (⟨rfl, rfl⟩ | ⟨⟨h1, -⟩, h2⟩)
        · exact ⟨_, hj, rfl, rfl⟩
        · exact ⟨a, h1, rfl, h2.symm⟩
      · rintro ⟨i, hi, rfl, rfl⟩
        by_cases h : i = j
        · exact Or.inl ⟨h, rfl⟩
        · exact Or.inr ⟨⟨hi, hj, h, Or.inr rfl⟩, rfl⟩
    · refine List.nodup_cons.2 ⟨?_, (hg.regs_nodup j hj).filter _⟩
      rw [List.mem_filter, hg.regs j hj]
      simp
    · exact List.nodup_range.map (fun a c h => (Prod.ext_iff.1 h).1)
  have := (hp.map fun r => (b r).state.getD o 0).sum_eq
  rw [List.map_cons, List.sum_cons, List.map_map] at this
  exact this

end QIP
