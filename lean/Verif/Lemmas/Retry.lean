import Verif.Spec.Retry
import Verif.Props.RunMore

/-! # What a run leaves behind -/

namespace QIP

open Spec Heap Finset

/-! ## Matrices -/

theorem retry_insert_mem {d : List (Key × Mat ℂ)} {k : Key} {m : Mat ℂ} {P : Mat ℂ → Prop} (hd : ∀ km ∈ d, P km.2) (hm : P m) :
    ∀ km ∈ dictInsert d k m, P km.2 := by
  intro km hkm
  unfold dictInsert at hkm
  split at hkm
  · obtain ⟨km', h1, rfl⟩ := List.mem_map.1 hkm
    split
    · exact hm
    · exact hd _ h1
  · rcases List.mem_append.1 hkm with h1 | h1
    · exact hd _ h1
    · simp only [List.mem_singleton] at h1
      subst h1
      exact hm

theorem makemats_noSwap (g : Gate) (hg : hasSwap g = false) {gs : List (List Nat)} {mats : List (Key × Mat ℂ)}
    (hm : g.makemats gs = .ok mats) : ∀ km ∈ mats, noSwapMat km.2 = true := by
  have hpq : ∀ (m : Mat ℂ) (gs : List (List Nat)), noSwapMat m = true → ∀ km ∈ perQubit m gs, noSwapMat km.2 = true := by
    intro m gs h
    unfold perQubit
    generalize gs.flatten = l
    have : ∀ (l : List Nat) (d : List (Key × Mat ℂ)), (∀ km ∈ d, noSwapMat km.2 = true) →
        ∀ km ∈ l.foldl (fun d i => dictInsert d (.int i) m) d, noSwapMat km.2 = true := by
      intro l
      induction l with
      | nil => exact fun d hd => hd
      | cons q l ih => exact fun d hd => ih _ (retry_insert_mem (P := fun m => noSwapMat m = true) hd h)
    exact this l [] (by simp)
  induction g generalizing gs mats with
  | swap k => simp [hasSwap] at hg
  | c op ih =>
    simp only [Gate.makemats, bind, Except.bind] at hm
    rcases ho : op.makemats gs.tail with _ | opm
    · simp [ho] at hm
    simp only [ho] at hm
    have hop := ih hg ho
    have key : ∀ (l d d' : List (Key × Mat ℂ)), (∀ km ∈ l, noSwapMat km.2 = true) →
        (∀ km ∈ d, noSwapMat km.2 = true) → l.foldlM (fun d km =>
        match gs with
        | [] => (.error .indexError : Except PyErr (List (Key × Mat ℂ)))
        | g0 :: _ => .ok (dictInsert d (.tup (g0 ++ km.1.qubits)) (.cmat km.2))) d = .ok d' →
        ∀ km ∈ d', noSwapMat km.2 = true := by
      intro l
      induction l with
      | nil => intro d d' _ hd he; cases he; exact hd
      | cons a l ihl =>
        intro d d' hl hd he
        rw [List.foldlM_cons] at he
        cases gs with
        | nil => cases he
        | cons g0 gs =>
          exact ihl _ _ (fun km hkm => hl km (by simp [hkm]))
            (retry_insert_mem (k := .tup (g0 ++ a.1.qubits)) (m := .cmat a.2) (P := fun m => noSwapMat m = true) hd
              (hl a (by simp))) he
    exact key _ _ _ hop (by simp) hm
  | _ =>
    simp only [Gate.makemats, Except.ok.injEq] at hm
    subst hm
    exact hpq _ _ rfl

theorem conj_noSwap (m : Mat ℂ) (hm : noSwapMat m = true) : ∃ m', m.conj = .ok m' ∧ noSwapMat m' = true := by
  induction m with
  | dense r c d => exact ⟨_, rfl, rfl⟩
  | cmat m ih =>
    obtain ⟨m', h1, h2⟩ := ih hm
    exact ⟨.cmat m', by simp [Mat.conj, h1, bind, Except.bind, pure, Except.pure], h2⟩
  | swap k => simp [noSwapMat] at hm

theorem T_noSwap (m : Mat ℂ) (hm : noSwapMat m = true) : ∃ m', m.T = .ok m' := by
  induction m with
  | dense r c d => exact ⟨_, rfl⟩
  | cmat m ih =>
    obtain ⟨m', h1⟩ := ih hm
    exact ⟨.cmat m', by simp [Mat.T, h1, bind, Except.bind, pure, Except.pure]⟩
  | swap k => simp [noSwapMat] at hm

theorem retry_mapM_ok {α β : Type} {f : α → Except PyErr β} {l : List α} (h : ∀ x ∈ l, ∃ y, f x = .ok y) :
    ∃ ys, l.mapM f = .ok ys := by
  induction l with
  | nil => exact ⟨[], rfl⟩
  | cons a l ih =>
    obtain ⟨y, hy⟩ := h a (by simp)
    obtain ⟨ys, hys⟩ := ih fun x hx => h x (by simp [hx])
    exact ⟨y :: ys, by simp [List.mapM_cons, hy, hys, bind, Except.bind, pure, Except.pure]⟩

/-- Gates that are no inverse of a swap can be fed if their matrices can be made. -/
theorem feedMats_ok {g : Gate} {d : Bool} (hg : d = true → hasSwap g = false) {gs : List (List Nat)}
    {mats : List (Key × Mat ℂ)} (hm : g.makemats gs = .ok mats) : ∃ m, g.feedMats d gs = .ok m := by
  unfold Gate.feedMats
  simp only [hm, bind, Except.bind]
  cases d with
  | false => exact ⟨mats, rfl⟩
  | true =>
    rw [if_pos rfl]
    apply retry_mapM_ok
    intro km hkm
    obtain ⟨m1, h1, h2⟩ := conj_noSwap _ (makemats_noSwap g (hg rfl) hm km hkm)
    obtain ⟨m2, h3⟩ := T_noSwap _ h2
    exact ⟨(km.1, m2), by simp [h1, h3, pure, Except.pure]⟩

theorem feedMats_make {g : Gate} {d : Bool} {gs : List (List Nat)} {m : List (Key × Mat ℂ)} (h : g.feedMats d gs = .ok m) :
    ∃ mats, g.makemats gs = .ok mats := by
  unfold Gate.feedMats at h
  rcases hm : g.makemats gs with e | mats
  · rw [hm] at h; cases h
  · exact ⟨mats, rfl⟩

theorem msLeft_ok {ms : Option (List (Key × Mat ℂ))} {g : Gate} {d : Bool} {gs : List (List Nat)} {m : List (Key × Mat ℂ)}
    (h : opMats ms g d gs = .ok m) : msLeft ms g d gs = some m := by
  unfold opMats at h
  unfold msLeft
  cases ms with
  | some m' => simp only [Except.ok.injEq] at h; rw [h]
  | none =>
    simp only at h ⊢
    obtain ⟨mats, hm⟩ := feedMats_make h
    rw [hm, h]

/-- The matrix of a (controlled) swap is its own adjoint. -/
theorem swapMat_self (m : Mat ℂ) (hm : noSwapMat m = false) (i j : Nat) :
    (starRingEnd ℂ) (matEntry m j i) = matEntry m i j := by
  induction m generalizing i j with
  | dense r c d => simp [noSwapMat] at hm
  | cmat m ih =>
    simp only [matEntry, ctrlEntry]
    by_cases h1 : i < matSize m ∧ j < matSize m
    · rw [if_pos h1, if_pos h1.symm]
      by_cases h2 : i = j
      · rw [if_pos h2, if_pos h2.symm, map_one]
      · rw [if_neg h2, if_neg (Ne.symm h2), map_zero]
    · rw [if_neg h1, if_neg fun h => h1 h.symm]
      by_cases h2 : matSize m ≤ i ∧ matSize m ≤ j
      · rw [if_pos h2, if_pos h2.symm, ih hm]
      · rw [if_neg h2, if_neg fun h => h2 h.symm, map_zero]
  | swap k =>
    simp only [matEntry, swapEntry]
    by_cases h : i / 2 ^ k = j % 2 ^ k ∧ i % 2 ^ k = j / 2 ^ k
    · rw [if_pos h, if_pos ⟨h.2.symm, h.1.symm⟩, map_one]
    · rw [if_neg h, if_neg fun h' => h ⟨h'.2.symm, h'.1.symm⟩, map_zero]

theorem adjOps_swap {n : Nat} {g : Gate} {gs : List (List Nat)} (hf : Fits g gs) (hgs : GroupsOK n gs)
    (hs : hasSwap g = true) {mats : List (Key × Mat ℂ)} (hm : g.makemats gs = .ok mats) : adjOps (opsOf mats) = opsOf mats := by
  have hno := noSwapMat_gate g gs hf hgs mats hm
  unfold adjOps opsOf
  rw [List.map_map]
  apply List.map_congr_left
  intro km hkm
  have h1 : noSwapMat km.2 = false := by rw [hno km hkm, hs]; rfl
  simp only [Function.comp_apply, Prod.mk.injEq]
  refine ⟨trivial, ?_⟩
  funext i j
  exact swapMat_self km.2 h1 i j

/-! ## Feeding with exceptions -/

/-- `keepFeed` of one node. -/
noncomputable def keepStep (h : Heap) (args : List Nat) (orc : Nat → Oracle) (acc : Except PyErr Feeder × MsTable) (x : Nat) :
    Except PyErr Feeder × MsTable :=
  match acc with
  | (.error e, left) => (.error e, left)
  | (.ok st, _) => (nodeFeed h orc st (groups h args x) (wires h args x) x, nodeLeft h st.ms (groups h args x) x)

theorem foldlM_keep (h : Heap) (args : List Nat) (orc : Nat → Oracle) (L : List Nat) (acc : Except PyErr Feeder × MsTable) :
    L.foldlM (fun a x => keepFeed h orc a (groups h args x) (wires h args x) x) acc = .ok (L.foldl (keepStep h args orc) acc) := by
  induction L generalizing acc with
  | nil => rfl
  | cons x L ih =>
    rw [List.foldlM_cons, List.foldl_cons, ← ih]
    rcases acc with ⟨e | st, left⟩ <;> rfl

theorem foldl_keep_error (h : Heap) (args : List Nat) (orc : Nat → Oracle) (L : List Nat) (e : PyErr) (left : MsTable) :
    L.foldl (keepStep h args orc) (.error e, left) = (.error e, left) := by
  induction L with
  | nil => rfl
  | cons x L ih => exact ih

theorem nodeLeft_ok {h : Heap} {orc : Nat → Oracle} {st st' : Feeder} {gs : List (List Nat)} {own : List Nat} {x : Nat}
    (hf : nodeFeed h orc st gs own x = .ok st') : nodeLeft h st.ms gs x = st'.ms := by
  unfold nodeFeed at hf
  unfold nodeLeft
  rcases hk : h.kind x with _ | is | ⟨g, d⟩ | f | _ | k <;> rw [hk] at hf <;> simp only at hf ⊢
  · cases hf; rfl
  · cases hf; rfl
  · rcases hm : opMats (st.ms x) g d gs with e | m
    · rw [hm] at hf; cases hf
    · rw [hm] at hf
      simp only [bind, Except.bind] at hf
      rcases hr : st.state.kronselectDot m 0 0 (orc x).sched with ⟨r, b⟩
      rw [hr] at hf
      rcases r with e | u
      · cases hf
      · cases hf
        rw [msLeft_ok hm]
  · rcases hr : backendFuncApply (gs.getD 0 []) (gs.getD 1 []) f st.state.n st.state.state st.state.arena
      (orc x).faOrder (orc x).faGarb with e | out
    · rw [hr] at hf; cases hf
    · rw [hr] at hf; cases hf; rfl
  · rcases hr : st.state.measure gs.flatten none none 0 0 (orc x).u (orc x).garbage with ⟨r, b⟩
    rw [hr] at hf
    rcases r with e | ⟨m, p⟩
    · cases hf
    · cases hf; rfl
  · rcases hr : st.state.measureProbabilities gs.flatten k with e | r
    · rw [hr] at hf; cases hf
    · rw [hr] at hf; cases hf; rfl

theorem keep_result (h : Heap) (args : List Nat) (orc : Nat → Oracle) (L : List Nat) (st : Feeder) :
    (L.foldl (keepStep h args orc) (.ok st, st.ms)).1
        = L.foldlM (fun a x => nodeFeed h orc a (groups h args x) (wires h args x) x) st ∧
      ∀ st', L.foldlM (fun a x => nodeFeed h orc a (groups h args x) (wires h args x) x) st = .ok st' →
        (L.foldl (keepStep h args orc) (.ok st, st.ms)).2 = st'.ms := by
  induction L generalizing st with
  | nil => exact ⟨rfl, fun st' h => by cases h; rfl⟩
  | cons x L ih =>
    rw [List.foldl_cons, List.foldlM_cons]
    simp only [keepStep]
    rcases hf : nodeFeed h orc st (groups h args x) (wires h args x) x with e | st1
    · rw [foldl_keep_error]
      exact ⟨rfl, fun st' h => by cases h⟩
    · rw [nodeLeft_ok hf]
      exact ih st1

theorem keep_left (h : Heap) (args : List Nat) (orc : Nat → Oracle) (L : List Nat) (st : Feeder) (y : Nat) :
    (L.foldl (keepStep h args orc) (.ok st, st.ms)).2 y = st.ms y ∨ y ∈ L ∧ st.ms y = none ∧ ∃ g d, h.kind y = .gate g d ∧
      (L.foldl (keepStep h args orc) (.ok st, st.ms)).2 y = msLeft none g d (groups h args y) := by
  induction L generalizing st with
  | nil => exact .inl rfl
  | cons x L ih =>
    rw [List.foldl_cons]
    simp only [keepStep]
    have one : nodeLeft h st.ms (groups h args x) x y = st.ms y ∨ y = x ∧ st.ms y = none ∧ ∃ g d, h.kind y = .gate g d ∧
        nodeLeft h st.ms (groups h args x) x y = msLeft none g d (groups h args y) := by
      unfold nodeLeft
      rcases hk : h.kind x with _ | is | ⟨g, d⟩ | f | _ | k <;> simp only
      · exact .inl trivial
      · exact .inl trivial
      · by_cases hy : y = x
        · subst hy
          rw [if_pos rfl]
          rcases hm : st.ms y with _ | m
          · exact .inr ⟨rfl, rfl, g, d, hk, rfl⟩
          · exact .inl rfl
        · rw [if_neg hy]
          exact .inl rfl
      · exact .inl trivial
      · exact .inl trivial
      · exact .inl trivial
    rcases hf : nodeFeed h orc st (groups h args x) (wires h args x) x with e | st1
    · rw [foldl_keep_error]
      simp only
      rcases one with h1 | ⟨rfl, h2, h3⟩
      · exact .inl h1
      · exact .inr ⟨by simp, h2, h3⟩
    · have e1 := nodeLeft_ok hf
      rw [e1] at one ⊢
      rcases ih st1 with i | ⟨i1, i2, g, d, i3, i4⟩
      · rw [i]
        rcases one with h1 | ⟨rfl, h2, h3⟩
        · exact .inl h1
        · exact .inr ⟨by simp, h2, h3⟩
      · right
        refine ⟨by simp [i1], ?_, g, d, i3, i4⟩
        rcases one with h1 | ⟨rfl, h2, -⟩
        · rw [← h1]; exact i2
        · exact h2

/-- A run with exceptions, as `run_pre`. -/
theorem runKeep_pre {h : Heap} {V : Nat → Prop} {args : List Nat} (c : Ctx h V args)
    (pick : List Nat → Nat) (shuffle : List Nat → List Nat) (hsh : ∀ l, (shuffle l).Perm l) :
    ∃ deps, deps.Perm (leaves h args) ∧ ∀ (ms : MsTable)
      (feed : List (List Nat × InitState)) (strict : Bool) (state : Option StateKw) (orc : Nat → Oracle) (arena : List ℂ),
      (run h ms args feed strict state pick shuffle orc arena = (do
        let b ← runPre h args feed strict state deps arena
        let acc ← (needed h args).foldlM (fun a x => nodeFeed h orc a (groups h args x) (wires h args x) x) ⟨b, ms, []⟩
        .ok (acc.state.state, acc.classic, acc.ms))) ∧
      runKeep h ms args feed strict state pick shuffle orc arena = match runPre h args feed strict state deps arena with
        | .error e => (.error e, ms)
        | .ok b => (((needed h args).foldl (keepStep h args orc) (.ok ⟨b, ms, []⟩, ms)).1.map
            (fun st => (st.state.state, st.classic)), ((needed h args).foldl (keepStep h args orc) (.ok ⟨b, ms, []⟩, ms)).2) := by
  obtain ⟨deps, seen, e1, d1, d2, d3, d4⟩ := getDeps_spec h pick args (fun x hx => c.wf.vlt x (c.vargs x hx))
    (fun x hx => c.ilt hx)
  have hsd : (shuffle deps).Nodup := (hsh deps).nodup_iff.2 d1
  have hsl := sortQid_deps c.wf c.vargs hsd (fun x => ((hsh deps).mem_iff).trans (d4 x))
  have hperm : (shuffle deps).Perm (leaves h args) := by
    rw [← hsl]
    exact (List.mergeSort_perm _ _).symm
  refine ⟨shuffle deps, hperm, ?_⟩
  intro ms feed strict state orc arena
  unfold run runKeep runPre
  simp only [e1, bind, Except.bind, hsl]
  by_cases hs : strict = true ∧ ∃ q ∈ leaves h args, q ∉ (feed.map (·.1)).flatten
  · simp only [if_pos hs]; exact ⟨trivial, trivial⟩
  · simp only [if_neg hs]
    simp only [pure, Except.pure]
    generalize List.mapM (m := Except PyErr) _ (feed ++ (shuffle deps).flatMap (defaultFeed h (feed.map (·.1)).flatten)) = G
    cases G with
    | error err => exact ⟨rfl, rfl⟩
    | ok gs =>
      simp only
      rcases hsa : stateArg state with err | _ | s
      · exact ⟨rfl, rfl⟩
      · simp only
        unfold width
        cases makeState ((leaves h args).map h.n).sum gs _ 0 (2 ^ ((leaves h args).map h.n).sum) arena with
        | error err => exact ⟨rfl, rfl⟩
        | ok b =>
          simp only
          rw [runGraph_spec c.wf c.kind c.vargs c.size c.split d3 d2 rfl, runGraph_spec c.wf c.kind c.vargs c.size c.split d3 d2 rfl,
            foldlM_keep]
          exact ⟨rfl, rfl⟩
      · simp only
        unfold width
        cases makeState ((leaves h args).map h.n).sum _ [s] 0 (2 ^ ((leaves h args).map h.n).sum) arena with
        | error err => exact ⟨rfl, rfl⟩
        | ok b =>
          simp only
          rw [runGraph_spec c.wf c.kind c.vargs c.size c.split d3 d2 rfl, runGraph_spec c.wf c.kind c.vargs c.size c.split d3 d2 rfl,
            foldlM_keep]
          exact ⟨rfl, rfl⟩

/-- The state before `run_graph`. -/
theorem runPre_start {h : Heap} {V : Nat → Prop} {args : List Nat} (c : Ctx h V args) {feed : List (List Nat × List ℂ)}
    (hf : FeedOK h args feed) (hdef : ∀ q ∈ leaves h args, q ∉ (feed.map (·.1)).flatten → DefaultOK h q) {deps : List Nat}
    (hperm : deps.Perm (leaves h args)) (arena : List ℂ) :
    runPre h args (feed.map asFeed) false none deps arena = .ok (startState h args feed arena) := by
  have hsd : deps.Nodup := hperm.nodup_iff.2 ((leaves_asc h args).imp fun h => Nat.ne_of_lt h)
  have hdef' : ∀ q ∈ deps, q ∉ (feed.map (·.1)).flatten → DefaultOK h q :=
    fun q hq => hdef q (hperm.mem_iff.1 hq)
  unfold runPre
  have hfed : ((feed.map asFeed).map (·.1)).flatten = (feed.map (·.1)).flatten := by
    simp [asFeed, List.map_map, Function.comp_def]
  have hall : feed.map asFeed ++ deps.flatMap (defaultFeed h (feed.map (·.1)).flatten)
      = (allFeed h feed deps).map asFeed := by
    unfold allFeed
    rw [List.map_append, List.map_flatMap]
    congr 2
    funext q
    exact defaultFeed_eq h _ q
  simp only [bind, Except.bind, hfed]
  rw [if_neg (by simp)]
  simp only [hall]
  have hmap : ((allFeed h feed deps).map asFeed).mapM (fun f => do
      let gs ← f.1.mapM (lookup (blocks h (leaves h args) 0))
      pure gs.flatten : List Nat × InitState → Except PyErr (List Nat))
      = .ok (((allFeed h feed deps).map asFeed).map fun f => (f.1.map (wires h args)).flatten) := by
    apply mapM_ok
    intro f hfm
    obtain ⟨kv, hkv, rfl⟩ := List.mem_map.1 hfm
    have : kv.1.mapM (lookup (blocks h (leaves h args) 0)) = .ok (kv.1.map (wires h args)) := by
      apply mapM_lookup
      intro q hq
      have hq' : q ∈ leaves h args := by
        rcases (mem_keys hdef').1 (List.mem_flatten.2 ⟨_, List.mem_map.2 ⟨kv, hkv, rfl⟩, hq⟩) with h1 | h1
        · exact hf.mem q h1
        · exact hperm.mem_iff.1 h1.1
      rw [blocks_asc h _ (leaves_asc h args) 0 hq', wires_leaf ((mem_leaves c.wf c.vargs).1 hq').2, Nat.zero_add]
      rfl
    simp only [asFeed]
    rw [this]
    rfl
  simp only [bind, Except.bind] at hmap
  simp only [pure, Except.pure] at hmap ⊢
  rw [hmap]
  simp only [stateArg]
  have hst2 : ((allFeed h feed deps).map asFeed).map (·.2) = ((allFeed h feed deps).map (·.2)).map .vec := by
    simp [asFeed, List.map_map, Function.comp_def]
  have hg2 : (((allFeed h feed deps).map asFeed).map fun f => (f.1.map (wires h args)).flatten)
      = (allFeed h feed deps).map fun kv => (kv.1.map (wires h args)).flatten := by
    simp [asFeed, List.map_map, Function.comp_def]
  rw [hst2, hg2]
  exact makeState_allFeed c hf hsd hperm hdef arena

/-! ## Inverses of swaps, tried again -/

/-- Cached matrices belong to the index groups of this run; those of inverses of swaps are the ones of the swap. -/
def CacheTry (h : Heap) (args : List Nat) (ms : MsTable) : Prop :=
  ∀ x g d, Reach h args x → h.kind x = .gate g d → ∀ m, ms x = some m →
    if d && hasSwap g then g.makemats (groups h args x) = .ok m else g.feedMats d (groups h args x) = .ok m

theorem cacheTry_fresh (h : Heap) (args : List Nat) : CacheTry h args fun _ => none := fun _ _ _ _ _ _ h => by cases h

/-- Inverses of swaps without cached matrices. -/
noncomputable def pending (h : Heap) (ms : MsTable) (x : Nat) : Bool := inverseSwap h x && (ms x).isNone

theorem pending_congr {h : Heap} {ms ms' : MsTable} {x : Nat} (e : ms x = ms' x) : pending h ms x = pending h ms' x := by
  simp [pending, e]

theorem _root_.QIP.Spec.TryOK.node {h : Heap} {args : List Nat} {x : Nat} (t : TryOK h args x) (hx : inverseSwap h x = false) :
    NodeOK h args x := by
  refine ⟨t.distinct, ?_, t.fop⟩
  intro g d hk
  refine ⟨t.gate g d hk, ?_⟩
  rintro rfl
  simpa [inverseSwap, hk] using hx

/-- Feeding one node. -/
theorem try_step {h : Heap} {V : Nat → Prop} {args : List Nat} (c : Ctx h V args) {x : Nat} (hx : Reach h args x)
    (hok : TryOK h args x) (hnm : NoMeasure h args x) {orc : Nat → Oracle} (ho : OracleOK h args orc) {st : Feeder}
    (hn : st.state.n = width h args) (hfull : st.state.Full) (hc : CacheTry h args st.ms) (own : List Nat) :
    (pending h st.ms x = true → nodeFeed h orc st (groups h args x) own x = .error .attributeError ∧
      CacheTry h args (nodeLeft h st.ms (groups h args x) x) ∧ (nodeLeft h st.ms (groups h args x) x x).isSome ∧
      ∀ y, y ≠ x → nodeLeft h st.ms (groups h args x) x y = st.ms y) ∧
    (pending h st.ms x = false → ∃ st', nodeFeed h orc st (groups h args x) own x = .ok st' ∧
      st'.state.n = width h args ∧ st'.state.Full ∧ CacheTry h args st'.ms ∧
      ∃ cl, st'.classic = st.classic ++ [(x, cl)] ∧ StepSpec (width h args) h args x st.state.amp st'.state.amp cl) := by
  rcases hi : inverseSwap h x with _ | _
  · refine ⟨fun hp => by simp [pending, hi] at hp, fun _ => ?_⟩
    have hnode := hok.node hi
    have hcx : ∀ g d, h.kind x = .gate g d → ∀ m, st.ms x = some m → g.feedMats d (groups h args x) = .ok m := by
      intro g d hk m hm
      have := hc x g d hx hk m hm
      have hd : (d && hasSwap g) = false := by
        cases d with
        | false => rfl
        | true => simpa [inverseSwap, hk] using hi
      rw [hd] at this
      simpa using this
    obtain ⟨s1, s2⟩ := nodeFeed_spec (st := ⟨st.state, fun _ => none, st.classic⟩) c hx hnode ho
      ⟨hn, hfull, fun _ _ _ _ _ _ h => by cases h⟩ own
    obtain ⟨st1, h1⟩ := s1 hnm
    obtain ⟨k1, cl, k2, k3, -⟩ := s2 st1 h1
    have key := nodeFeed_cache (orc := orc) st.state st.ms (fun _ => none) st.classic (own := own) hcx
      (fun _ _ _ _ h => by cases h)
    rw [h1] at key
    rcases hf : nodeFeed h orc st (groups h args x) own x with e | st'
    · have : nodeFeed h orc ⟨st.state, st.ms, st.classic⟩ (groups h args x) own x = .error e := hf
      rw [this] at key; cases key
    · have : nodeFeed h orc ⟨st.state, st.ms, st.classic⟩ (groups h args x) own x = .ok st' := hf
      rw [this] at key
      simp only [Except.map, Except.ok.injEq, Prod.mk.injEq] at key
      refine ⟨st', rfl, by rw [key.1]; exact k1.n, by rw [key.1]; exact k1.full, ?_, cl, by rw [key.2, k2], by rw [key.1]; exact k3⟩
      obtain ⟨u1, u2, -⟩ := nodeFeed_ms hf
      intro y g d hy hk m hm
      by_cases hyx : y = x
      · subst hyx
        rcases u2 with u2 | ⟨g', d', m', hk', -, hm', hm''⟩
        · rw [u2] at hm; exact hc y g d hy hk m hm
        · rw [hk] at hk'
          cases hk'
          rw [hm] at hm''
          cases hm''
          have hd : (d && hasSwap g) = false := by
            cases d with
            | false => rfl
            | true => simpa [inverseSwap, hk] using hi
          rw [hd]
          exact hm'
      · rw [u1 y hyx] at hm; exact hc y g d hy hk m hm
  · obtain ⟨g, hk, hsw⟩ : ∃ g, h.kind x = .gate g true ∧ hasSwap g = true := by
      unfold inverseSwap at hi
      split at hi
      · next g hk => exact ⟨g, hk, hi⟩
      · cases hi
    have hin := hok.gate g true hk
    have hkd := c.kind x (c.vis hx)
    unfold KindOK at hkd
    rw [hk] at hkd
    have hfits : Fits g (groups h args x) := fits_of_fitsN g _ (by rw [c.len_groups hx]; exact (hkd.2 hin).2)
    have hgs : GroupsOK (width h args) (groups h args x) := ⟨hok.distinct, fun q hq => c.groups_lt hx hq⟩
    obtain ⟨mats, gm⟩ := gm_exists (n := width h args) g _ hfits hgs
    have herr := feedMats_dagger_swap hfits hgs hsw
    constructor
    · intro hp
      have hnone : st.ms x = none := by simpa [pending, hi] using hp
      refine ⟨?_, ?_, ?_, ?_⟩
      · simp only [nodeFeed, hk, hnone, opMats, herr, bind, Except.bind]
      · intro y g' d' hy hky m hm
        by_cases hyx : y = x
        · subst hyx
          rw [hk] at hky
          cases hky
          simp only [nodeLeft, hk, hnone, msLeft, gm.ok, herr, if_true, Option.some.injEq] at hm
          subst hm
          simp only [hsw, Bool.and_self, if_true]
          exact gm.ok
        · simp only [nodeLeft, hk, if_neg hyx] at hm
          exact hc y g' d' hy hky m hm
      · simp [nodeLeft, hk, hnone, msLeft, gm.ok, herr]
      · intro y hy
        simp only [nodeLeft, hk, if_neg hy]
    · intro hp
      obtain ⟨m, hm⟩ : ∃ m, st.ms x = some m := by
        rw [pending, hi, Bool.true_and] at hp
        rcases hms : st.ms x with _ | m
        · simp [hms] at hp
        · exact ⟨m, rfl⟩
      have hmm := hc x g true hx hk m hm
      simp only [hsw, Bool.and_self, if_true] at hmm
      rw [gm.ok] at hmm
      cases hmm
      have happ : g.apply false (groups h args x) st.state.n st.state.state st.state.arena (.cython (orc x).sched)
          = .ok (act st.state.n (opsOf mats) st.state.state) := by
        rw [hn]
        exact gate_apply_eq hgs gm (by rw [← hn]; exact hfull.state) (by rw [← hn]; exact hfull.arena) (ho x).1
      have hfm : g.feedMats false (groups h args x) = .ok mats := by
        unfold Gate.feedMats
        simp [gm.ok, bind, Except.bind, pure, Except.pure]
      unfold Gate.apply at happ
      rw [hfm] at happ
      simp only [bind, Except.bind] at happ
      have hkr : st.state.kronselectDot mats 0 0 (orc x).sched
          = (.ok (), ⟨st.state.n, act st.state.n (opsOf mats) st.state.state, st.state.state⟩) := by
        unfold BState.kronselectDot
        rw [happ]
      simp only [nodeFeed, hk, hm, opMats, hkr, bind, Except.bind]
      refine ⟨_, rfl, hn, ⟨length_act _ _ _, hfull.state⟩, ?_, .zero, rfl, ?_⟩
      · intro y g' d' hy hky m' hm'
        by_cases hyx : y = x
        · subst hyx
          rw [hk] at hky
          cases hky
          simp only [if_true, Option.some.injEq] at hm'
          subst hm'
          simp only [hsw, Bool.and_self, if_true]
          exact gm.ok
        · simp only [if_neg hyx] at hm'
          exact hc y g' d' hy hky m' hm'
      · unfold StepSpec
        simp only [hk]
        refine ⟨?_, trivial⟩
        intro r hr
        unfold nodeApply
        simp only [hk]
        rw [← adjApply_eq gm _ hr, adjOps_swap hfits hgs hsw gm.ok]
        change (act st.state.n (opsOf mats) st.state.state).getD r 0 = _
        rw [hn]
        exact getD_act (opsOf mats) st.state.state hr

/-- Feeding the nodes: the first inverse of a swap without cached matrices raises and gets its matrices. -/
theorem try_all {h : Heap} {V : Nat → Prop} {args : List Nat} (c : Ctx h V args) {orc : Nat → Oracle} (ho : OracleOK h args orc)
    (L : List Nat) (hnd : L.Nodup) (hL : ∀ x ∈ L, Reach h args x ∧ TryOK h args x ∧ NoMeasure h args x) {st : Feeder}
    (hn : st.state.n = width h args) (hfull : st.state.Full) (hc : CacheTry h args st.ms) :
    CacheTry h args (L.foldl (keepStep h args orc) (.ok st, st.ms)).2 ∧
    L.filter (pending h (L.foldl (keepStep h args orc) (.ok st, st.ms)).2) = (L.filter (pending h st.ms)).tail ∧
    (L.filter (pending h st.ms) ≠ [] → (L.foldl (keepStep h args orc) (.ok st, st.ms)).1 = .error .attributeError) ∧
    (L.filter (pending h st.ms) = [] → ∃ st', (L.foldl (keepStep h args orc) (.ok st, st.ms)).1 = .ok st' ∧
      st'.state.state.length = 2 ^ width h args ∧ ∃ cs, st'.classic = st.classic ++ cs ∧
        Steps (width h args) h args L st.state.amp st'.state.amp cs) := by
  induction L generalizing st with
  | nil =>
    refine ⟨hc, rfl, fun h => absurd rfl h, fun _ => ⟨st, rfl, by rw [← hn]; exact hfull.state, [], by simp, .nil fun _ _ => rfl⟩⟩
  | cons x L ih =>
    obtain ⟨hxL, hnd'⟩ := List.nodup_cons.1 hnd
    obtain ⟨hx, hok, hnm⟩ := hL x (by simp)
    obtain ⟨s1, s2⟩ := try_step c hx hok hnm ho hn hfull hc (wires h args x)
    rw [List.foldl_cons]
    simp only [keepStep]
    have hcong : ∀ ms ms' : MsTable, (∀ y, y ≠ x → ms y = ms' y) → L.filter (pending h ms) = L.filter (pending h ms') := by
      intro ms ms' he
      apply List.filter_congr
      intro y hy
      exact pending_congr (he y fun e => hxL (e ▸ hy))
    rcases hp : pending h st.ms x with _ | _
    · obtain ⟨st1, f1, f2, f3, f4, cl, f5, f6⟩ := s2 hp
      have e1 := nodeLeft_ok f1
      rw [f1, e1]
      obtain ⟨i1, i2, i3, i4⟩ := ih hnd' (fun y hy => hL y (by simp [hy])) f2 f3 f4
      obtain ⟨u1, u2, u3⟩ := nodeFeed_ms f1
      have hx0 : (L.foldl (keepStep h args orc) (.ok st1, st1.ms)).2 x = st1.ms x := by
        rcases keep_left h args orc L st1 x with k | k
        · exact k
        · exact absurd k.1 hxL
      have hpx : pending h st1.ms x = false := by
        rcases hi : inverseSwap h x with _ | _
        · simp [pending, hi]
        · obtain ⟨g, d, hk⟩ : ∃ g d, h.kind x = .gate g d := by
            unfold inverseSwap at hi
            split at hi
            · next g hk => exact ⟨g, true, hk⟩
            · cases hi
          obtain ⟨m, hm⟩ := u3 g d hk
          simp [pending, hm]
      have g1 : (x :: L).filter (pending h st.ms) = L.filter (pending h st1.ms) := by
        rw [List.filter_cons_of_neg (by rw [hp]; simp), hcong st1.ms st.ms u1]
      have g2 : (x :: L).filter (pending h (L.foldl (keepStep h args orc) (.ok st1, st1.ms)).2)
          = L.filter (pending h (L.foldl (keepStep h args orc) (.ok st1, st1.ms)).2) :=
        List.filter_cons_of_neg (by rw [pending_congr hx0, hpx]; simp)
      rw [g1, g2]
      refine ⟨i1, i2, i3, fun h0 => ?_⟩
      obtain ⟨st', j1, j2, cs, j3, j4⟩ := i4 h0
      exact ⟨st', j1, j2, (x, cl) :: cs, by rw [j3, f5]; simp, .cons f6 j4⟩
    · obtain ⟨f1, f2, f3, f4⟩ := s1 hp
      rw [f1, foldl_keep_error]
      have g1 : (x :: L).filter (pending h st.ms) = x :: L.filter (pending h st.ms) := List.filter_cons_of_pos hp
      have g2 : (x :: L).filter (pending h (nodeLeft h st.ms (groups h args x) x))
          = L.filter (pending h (nodeLeft h st.ms (groups h args x) x)) := by
        apply List.filter_cons_of_neg
        rw [pending]
        rcases hm : nodeLeft h st.ms (groups h args x) x x with _ | m
        · rw [hm] at f3; simp at f3
        · simp
      simp only
      rw [g1, g2, List.tail_cons]
      exact ⟨f2, hcong _ _ f4, fun _ => trivial, fun h => by simp at h⟩

end QIP
