import Verif.Lemmas.FDist
import Verif.Lemmas.FNetGrid

/-!
# A kron product on a grid of workers, with rounded amplitudes
-/

namespace QIP.FNet

open QIP

variable {A : Arith}

theorem sets_length {sched : List Nat} (g : Nat → Except PyErr (FC A)) {out w : List (FC A)}
    (h : sched.foldlM (fun o r => do
      let s ← g r
      pure (o.set r s)) out = .ok w) : w.length = out.length := by
  induction sched generalizing out with
  | nil =>
    cases h
    rfl
  | cons r sched ih =>
    rw [List.foldlM_cons] at h
    rcases hr : g r with e | s <;> rw [hr] at h <;> simp only [bind, Except.bind, pure, Except.pure] at h
    · cases h
    · rw [ih h, List.length_set]

theorem mapM_ok {α : Type} {K : Nat} {g : Nat → Except PyErr (List α)} {parts : List (List α)}
    (h : (List.range K).mapM g = .ok parts) : parts.length = K ∧ ∀ j < K, g j = .ok (parts.getD j []) := by
  induction K generalizing parts with
  | zero =>
    cases h
    exact ⟨rfl, fun j hj => absurd hj (by omega)⟩
  | succ K ih =>
    rw [List.range_succ, List.mapM_append] at h
    rcases h1 : (List.range K).mapM g with e | ps <;> rw [h1] at h <;> simp only [bind, Except.bind] at h
    · cases h
    rw [List.mapM_cons] at h
    rcases h2 : g K with e | p <;> rw [h2] at h <;> simp only [bind, Except.bind, List.mapM_nil, pure, Except.pure] at h
    · cases h
    injection h with h
    obtain ⟨e1, e2⟩ := ih h1
    subst h
    refine ⟨by simp [e1], ?_⟩
    intro j hj
    by_cases hjK : j < K
    · rw [e2 j hjK, List.getD_append _ _ _ _ (by omega)]
    · have : j = K := by omega
      subst this
      rw [h2, List.getD_append_right _ _ _ _ (by omega), e1]
      simp

theorem foldlM_ok {order : List Nat} {g : Nat → Except PyErr (List (FC A))} {own r : List (FC A)}
    (h : order.foldlM (fun s i => do
      let part ← g i
      pure (List.zipWith (· + ·) s part)) own = .ok r) :
    (∀ i ∈ order, ∃ p, g i = .ok p) ∧ ∀ out : Nat → List (FC A), (∀ i ∈ order, g i = .ok (out i)) →
      r = order.foldl (fun s i => List.zipWith (· + ·) s (out i)) own := by
  induction order generalizing own with
  | nil =>
    cases h
    exact ⟨by simp, fun _ _ => rfl⟩
  | cons i order ih =>
    rw [List.foldlM_cons] at h
    rcases hi : g i with e | p <;> rw [hi] at h <;> simp only [bind, Except.bind, pure, Except.pure] at h
    · cases h
    obtain ⟨h1, h2⟩ := ih h
    refine ⟨?_, ?_⟩
    · intro i' hi'
      rcases List.mem_cons.1 hi' with rfl | hi'
      · exact ⟨p, hi⟩
      · exact h1 i' hi'
    · intro out ho
      have e : p = out i := by
        have := ho i (by simp)
        rw [hi] at this
        injection this
      rw [List.foldl_cons, ← e]
      exact h2 out fun i' hi' => ho i' (by simp [hi'])

theorem kron_length {run : Nat} {mats : List (Key × Mat (FC A))} {vec : List (FC A)} {n : Nat} {out : List (FC A)} {inOff outOff : Nat}
    {sched : List Nat} {w : List (FC A)} (h : kronselectDotF run mats vec n out inOff outOff sched = .ok w) : w.length = out.length := by
  unfold kronselectDotF at h
  split at h
  · cases h
  split at h
  · cases h
  rcases hn : normMats mats with e | new <;> rw [hn] at h <;> simp only [bind, Except.bind] at h
  · cases h
  split at h
  · cases h
  unfold cdotLoopF at h
  split at h
  · cases h
  exact sets_length _ h

/-- Every worker waits for its next operation and has its range of `v`. -/
structure GridReady (K N n : Nat) (v : List (FC A)) (f : Wid → WSt A) : Prop where
  grid : ∀ i < K, ∀ j < K, (f (i, j)).pc = .idle ∧ (f (i, j)).b.n = n ∧ (f (i, j)).b.state = rangeOf N v i ∧
    (f (i, j)).b.arena.length = N
  others : ∀ w, ¬ (w.1 < K ∧ w.2 < K) → (f w).pc = .closed

variable {prm : Wid → WParam} {K N C M n : Nat} {ws : List Wid} {st : Wid → Wid → Nat} {v : List (FC A)} {f : Wid → WSt A}

/-- The order in which the diagonal worker `j` adds what the others of its column have. -/
def orderOf (prm : Wid → WParam) (j : Nat) : List Nat := ((prm (j, j)).regs.filter fun r => r.2 = j).map Prod.fst

theorem orderOf_perm (hg : GridOK prm K N C M ws) {j : Nat} (hj : j < K) : (j :: orderOf prm j).Perm (List.range K) := by
  have hinj : ((prm (j, j)).regs.filter fun r => r.2 = j).map Prod.fst = orderOf prm j := rfl
  rw [List.perm_ext_iff_of_nodup]
  · intro a
    rw [List.mem_cons, ← hinj, List.mem_map, List.mem_range]
    constructor
    · rintro (rfl | ⟨⟨a', c⟩, h, rfl⟩)
      · exact hj
      · rw [List.mem_filter, hg.regs j hj] at h
        exact h.1.1
    · intro ha
      by_cases h : a = j
      · exact Or.inl h
      · refine Or.inr ⟨(a, j), ?_, rfl⟩
        rw [List.mem_filter, hg.regs j hj]
        simp [ha, hj, h]
  · refine List.nodup_cons.2 ⟨?_, ?_⟩
    · rw [← hinj, List.mem_map]
      rintro ⟨⟨a, c⟩, h, e⟩
      rw [List.mem_filter, hg.regs j hj] at h
      simp only [decide_eq_true_eq] at h e
      subst e
      obtain ⟨⟨-, -, h1, -⟩, rfl⟩ := h
      exact h1 rfl
    · rw [← hinj]
      refine List.Nodup.map_on ?_ ((hg.regs_nodup j hj).filter _)
      rintro ⟨a, c⟩ h ⟨a', c'⟩ h' e
      rw [List.mem_filter] at h h'
      simp only [decide_eq_true_eq] at h h' e
      rw [e, h.2, h'.2]
  · exact List.nodup_range

theorem onGrid_self (hidle : ∀ w, w.1 < K → w.2 < K → (f w).pc = .idle) :
    onGrid K (idleSt (fun w => (f w).b) fun w => (f w).cnt) f = f := by
  funext w
  unfold onGrid
  split
  · next h =>
    unfold idleSt
    rw [← hidle w h.1 h.2]
  · rfl

/-- A kron product on the grid: the state afterwards is `distKronF`. -/
theorem kron_runs (hg : GridOK prm K N C M ws) (hv : v.length = K * N) (hR : GridReady K N n v f) (hst : StOK st)
    {mats : List (Key × Mat (FC A))} {run : Nat → Nat → Nat} {arena : Nat → Nat → List (FC A)} {sched : Nat → Nat → List Nat}
    (hrun : ∀ i < K, ∀ j < K, run i j = (prm (i, j)).run (f (i, j)).cnt)
    (harena : ∀ i < K, ∀ j < K, arena i j = (f (i, j)).b.arena)
    (hsched : ∀ i < K, ∀ j < K, sched i j = (prm (i, j)).sched (f (i, j)).cnt) {w : List (FC A)}
    (hw : distKronF run mats n K N v arena sched (orderOf prm) = .ok w) (k : MProg A) :
    ∃ f', Runs (netAct prm) (netCfg (sendKronprod mats ws k) f (nbuf C M st noMsg noMsg))
      (netCfg k f' (nbuf C M (scatterSt (gatherSt st K (leftover N C M)) K (leftover N C M)) noMsg noMsg)) ∧
      GridReady K N n w f' ∧ ∀ i < K, ∀ j < K, (f' (i, j)).cnt = (f (i, j)).cnt + 2 := by
  unfold sendKronprod
  have hidle : ∀ w, w.1 < K → w.2 < K → (f w).pc = .idle := fun w h1 h2 => (hR.grid w.1 h1 w.2 h2).1
  -- what the workers compute
  unfold distKronF at hw
  rcases hp : (List.range K).mapM fun j => collectKronF run mats n N v arena sched (orderOf prm j) j with e | parts <;> rw [hp] at hw <;>
    simp only [bind, Except.bind, pure, Except.pure] at hw
  · cases hw
  injection hw with hw
  obtain ⟨hpl, hpart⟩ := mapM_ok hp
  have hok : ∀ i j, ∃ o, i < K → j < K → workerKronF run mats n N v arena sched i j = .ok o := by
    intro i j
    by_cases hij : i < K ∧ j < K
    · have h := hpart j hij.2
      unfold collectKronF at h
      rcases hown : workerKronF run mats n N v arena sched j j with e | own <;> rw [hown] at h <;> simp only [bind, Except.bind] at h
      · cases h
      have hi : i ∈ j :: orderOf prm j := (orderOf_perm hg hij.2).mem_iff.2 (List.mem_range.2 hij.1)
      rcases List.mem_cons.1 hi with rfl | hi
      · exact ⟨own, fun _ _ => hown⟩
      · obtain ⟨o, ho⟩ := (foldlM_ok h).1 i hi
        exact ⟨o, fun _ _ => ho⟩
    · exact ⟨[], fun h1 h2 => absurd ⟨h1, h2⟩ hij⟩
  choose out hout using hok
  have hlen0 : ∀ i j, i < K → j < K → (out i j).length = N := by
    intro i j hi hj
    have h := kron_length (hout i j hi hj)
    rw [h, harena i hi j hj]
    exact (hR.grid i hi j hj).2.2.2
  have hpe : ∀ j < K, parts.getD j [] = (orderOf prm j).foldl (fun s i => List.zipWith (· + ·) s (out i j)) (out j j) := by
    intro j hj
    have h := hpart j hj
    unfold collectKronF at h
    rw [hout j j hj hj] at h
    exact (foldlM_ok h).2 (fun i => out i j) fun i hi =>
      hout i j (List.mem_range.1 ((orderOf_perm hg hj).mem_iff.1 (List.mem_cons_of_mem _ hi))) hj
  have hloc : ∀ w, w.1 < K → w.2 < K → handleOp (prm w) w (f w) (.kron mats)
      = (⟨n, out w.1 w.2, rangeOf N v w.1⟩, .reply .conf) := by
    intro w h1 h2
    obtain ⟨-, e1, e2, e3⟩ := hR.grid w.1 h1 w.2 h2
    have h := hout w.1 w.2 h1 h2
    unfold workerKronF at h
    rw [hrun _ h1 _ h2, harena _ h1 _ h2, hsched _ h1 _ h2] at h
    unfold handleOp
    simp only [hg.size, e1, e2]
    rw [h]
  generalize hb : (fun w : Wid => (⟨n, out w.1 w.2, rangeOf N v w.1⟩ : FState A)) = b
  have hb' : ∀ w, b w = ⟨n, out w.1 w.2, rangeOf N v w.1⟩ := by
    intro w; rw [← hb]
  have h1 := mapWorkers_local (prm := prm) (C := C) (M := M) (st := st) (o := .kron mats) (f := f) hg.nodup
    (fun _ => mapWorkers (.sync 0 false) ws fun _ => k)
    (fun w hw => hidle w ((hg.mem w).1 hw).1 ((hg.mem w).1 hw).2) (m := fun _ => .conf)
    (fun w hw => by rw [hloc w ((hg.mem w).1 hw).1 ((hg.mem w).1 hw).2])
  have e1 : (fun w => if w ∈ ws then (⟨(handleOp (prm w) w (f w) (.kron mats)).1, .idle, (f w).cnt + 1⟩ : WSt A) else f w)
      = onGrid K (idleSt b fun w => (f w).cnt + 1) f := by
    funext w
    unfold onGrid
    by_cases hw : w.1 < K ∧ w.2 < K
    · rw [if_pos ((hg.mem w).2 hw), if_pos hw, hloc w hw.1 hw.2, idleSt, hb']
    · rw [if_neg (fun h => hw ((hg.mem w).1 h)), if_neg hw]
  rw [e1] at h1
  have hlen : ∀ w, w.1 < K → w.2 < K → (b w).state.length = N := by
    intro w h1 h2
    rw [hb']
    exact hlen0 _ _ h1 h2
  have h2 := sync_runs (prm := prm) (b := b) (cnt := fun w => (f w).cnt + 1) (fo := f) hg hst hlen (fun _ => k)
  have hcol : ∀ j < K, colSum prm b j = parts.getD j [] := by
    intro j hj
    rw [hpe j hj]
    unfold colSum orderOf
    rw [List.foldl_map, hb']
    apply List.foldl_ext
    intro acc r hr
    have : r.2 = j := by simpa using (List.mem_filter.1 hr).2
    rw [hb', this]
  have hparts : ∀ l ∈ parts, l.length = N := by
    intro l hl
    obtain ⟨j, hj, rfl⟩ := List.mem_iff_getElem.1 hl
    rw [← List.getD_eq_getElem parts [] hj, ← hcol j (by omega)]
    exact colSum_length hlen hg (by omega)
  have hwl : w.length = K * N := by
    rw [← hw, List.length_flatten, List.map_congr_left hparts]
    simp [hpl]
  refine ⟨_, h1.trans h2, ⟨?_, ?_⟩, ?_⟩
  · intro i hi j hj
    simp only [onGrid, hi, hj, and_self, if_true, idleSt, true_and]
    have hn' : (scattered (gathered prm b) (i, j)).n = n := by
      simp only [scattered, gathered]
      split <;> rw [hb']
    have ha' : (scattered (gathered prm b) (i, j)).arena = rangeOf N v i := by
      simp only [scattered, gathered]
      split <;> rw [hb']
    have hs' : (scattered (gathered prm b) (i, j)).state = colSum prm b i := by
      simp only [scattered, gathered, if_true]
    refine ⟨hn', ?_, by rw [ha']; exact rangeOf_length hv hi⟩
    rw [hs', hcol i hi]
    have hil : (parts.getD i []).length = N := by
      rw [← hcol i hi]
      exact colSum_length hlen hg hi
    apply List.ext_getElem
    · rw [rangeOf_length hwl hi, hil]
    · intro o ho1 ho2
      rw [← List.getD_eq_getElem _ 0 ho1, ← List.getD_eq_getElem _ 0 ho2, rangeOf_getD (by omega), ← hw,
        flatten_getD 0 hparts (by omega) (by omega)]
  · intro w hw
    simp only [onGrid, if_neg hw]
    exact hR.others w hw
  · intro i hi j hj
    simp only [onGrid, hi, hj, and_self, if_true, idleSt]

end QIP.FNet
