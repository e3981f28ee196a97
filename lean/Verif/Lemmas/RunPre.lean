import Verif.Lemmas.Local

/-! # `run`, cut at the start of `run_graph` -/

namespace QIP

open Spec Heap

/-- The part of `run` before `run_graph`. -/
noncomputable def runPre (h : Heap) (args : List Nat) (feed : List (List Nat × InitState)) (strict : Bool)
    (state : Option StateKw) (deps : List Nat) (arena : List ℂ) : Except PyErr BState :=
  if strict = true ∧ ∃ q ∈ leaves h args, q ∉ (feed.map (·.1)).flatten then .error .valueError
  else do
    let groups ← (feed ++ deps.flatMap (defaultFeed h (feed.map (·.1)).flatten)).mapM fun f => do
      let gs ← f.1.mapM (lookup (blocks h (leaves h args) 0))
      pure gs.flatten
    let arg ← stateArg state
    let (groups, states) := match arg with
      | some s => ([List.range (width h args)], [s])
      | none => (groups, (feed ++ deps.flatMap (defaultFeed h (feed.map (·.1)).flatten)).map (·.2))
    makeState (width h args) groups states 0 (2 ^ width h args) arena

theorem run_pre {h : Heap} {V : Nat → Prop} {args : List Nat} (c : Ctx h V args)
    (pick : List Nat → Nat) (shuffle : List Nat → List Nat) (hsh : ∀ l, (shuffle l).Perm l) :
    ∃ deps, deps.Perm (leaves h args) ∧ ∀ (ms : MsTable)
      (feed : List (List Nat × InitState)) (strict : Bool) (state : Option StateKw) (orc : Nat → Oracle) (arena : List ℂ),
      run h ms args feed strict state pick shuffle orc arena = (do
        let b ← runPre h args feed strict state deps arena
        let acc ← (needed h args).foldlM (fun a x => nodeFeed h orc a (groups h args x) (wires h args x) x) ⟨b, ms, []⟩
        .ok (acc.state.state, acc.classic, acc.ms)) := by
  obtain ⟨deps, seen, e1, d1, d2, d3, d4⟩ := getDeps_spec h pick args (fun x hx => c.wf.vlt x (c.vargs x hx))
    (fun x hx => c.ilt hx)
  have hsd : (shuffle deps).Nodup := (hsh deps).nodup_iff.2 d1
  have hsl := sortQid_deps c.wf c.vargs hsd (fun x => ((hsh deps).mem_iff).trans (d4 x))
  have hperm : (shuffle deps).Perm (leaves h args) := by
    rw [← hsl]
    exact (List.mergeSort_perm _ _).symm
  refine ⟨shuffle deps, hperm, ?_⟩
  intro ms feed strict state orc arena
  unfold run runPre
  simp only [e1, bind, Except.bind, hsl]
  by_cases hs : strict = true ∧ ∃ q ∈ leaves h args, q ∉ (feed.map (·.1)).flatten
  · rw [if_pos hs, if_pos hs]
  · rw [if_neg hs, if_neg hs]
    simp only [pure, Except.pure]
    generalize List.mapM (m := Except PyErr) _ (feed ++ (shuffle deps).flatMap (defaultFeed h (feed.map (·.1)).flatten)) = G
    cases G with
    | error err => rfl
    | ok gs =>
      simp only
      rcases hsa : stateArg state with err | _ | s
      · rfl
      · simp only
        unfold width
        cases makeState ((leaves h args).map h.n).sum gs _ 0 (2 ^ ((leaves h args).map h.n).sum) arena with
        | error err => rfl
        | ok b =>
          simp only
          rw [runGraph_spec c.wf c.kind c.vargs c.size c.split d3 d2 rfl]
      · simp only
        unfold width
        cases makeState ((leaves h args).map h.n).sum _ [s] 0 (2 ^ ((leaves h args).map h.n).sum) arena with
        | error err => rfl
        | ok b =>
          simp only
          rw [runGraph_spec c.wf c.kind c.vargs c.size c.split d3 d2 rfl]

/-! ## Cached matrices -/

/-- What feeding one node does to the cache. -/
theorem nodeFeed_ms {h : Heap} {orc : Nat → Oracle} {st st' : Feeder} {gs : List (List Nat)} {own : List Nat} {x : Nat}
    (hf : nodeFeed h orc st gs own x = .ok st') :
    (∀ y, y ≠ x → st'.ms y = st.ms y) ∧
      (st'.ms x = st.ms x ∨ ∃ g d m, h.kind x = .gate g d ∧ st.ms x = none ∧ g.feedMats d gs = .ok m ∧ st'.ms x = some m) ∧
      (∀ g d, h.kind x = .gate g d → ∃ m, st'.ms x = some m) := by
  unfold nodeFeed at hf
  rcases hk : h.kind x with _ | is | ⟨g, d⟩ | f | _ | k <;> rw [hk] at hf <;> simp only at hf
  · cases hf; exact ⟨fun _ _ => rfl, Or.inl rfl, fun _ _ h => by cases h⟩
  · cases hf; exact ⟨fun _ _ => rfl, Or.inl rfl, fun _ _ h => by cases h⟩
  · rcases hm : opMats (st.ms x) g d gs with e | m
    · rw [hm] at hf; cases hf
    · rw [hm] at hf
      simp only [bind, Except.bind] at hf
      rcases hr : st.state.kronselectDot m 0 0 (orc x).sched with ⟨r, b⟩
      rw [hr] at hf
      rcases r with e | u
      · cases hf
      · cases hf
        refine ⟨fun y hy => by simp [hy], ?_, fun _ _ _ => ⟨m, by simp⟩⟩
        unfold opMats at hm
        rcases hms : st.ms x with _ | m'
        · rw [hms] at hm
          exact Or.inr ⟨g, d, m, rfl, rfl, hm, by simp⟩
        · rw [hms] at hm
          left
          cases hm
          simp
  · rcases hm : backendFuncApply (gs.getD 0 []) (gs.getD 1 []) f st.state.n st.state.state st.state.arena
      (orc x).faOrder (orc x).faGarb with e | out
    · rw [hm] at hf; cases hf
    · rw [hm] at hf; cases hf
      exact ⟨fun _ _ => rfl, Or.inl rfl, fun _ _ h => by cases h⟩
  · rcases hr : st.state.measure gs.flatten none none 0 0 (orc x).u (orc x).garbage with ⟨r, b⟩
    rw [hr] at hf
    rcases r with e | ⟨m, p⟩
    · cases hf
    · cases hf
      exact ⟨fun _ _ => rfl, Or.inl rfl, fun _ _ h => by cases h⟩
  · rcases hr : st.state.measureProbabilities gs.flatten k with e | r
    · rw [hr] at hf; cases hf
    · rw [hr] at hf; cases hf
      exact ⟨fun _ _ => rfl, Or.inl rfl, fun _ _ h => by cases h⟩

/-- The outcome of feeding a node does not depend on the cache, as long as the cache belongs to this run. -/
theorem nodeFeed_cache {h : Heap} {orc : Nat → Oracle} (b : BState) (ms ms' : MsTable) (cl : List (Nat × Classic))
    {gs : List (List Nat)} {own : List Nat} {x : Nat}
    (h1 : ∀ g d, h.kind x = .gate g d → ∀ m, ms x = some m → g.feedMats d gs = .ok m)
    (h2 : ∀ g d, h.kind x = .gate g d → ∀ m, ms' x = some m → g.feedMats d gs = .ok m) :
    (nodeFeed h orc ⟨b, ms, cl⟩ gs own x).map (fun s => (s.state, s.classic))
      = (nodeFeed h orc ⟨b, ms', cl⟩ gs own x).map (fun s => (s.state, s.classic)) := by
  unfold nodeFeed
  rcases hk : h.kind x with _ | is | ⟨g, d⟩ | f | _ | k <;> simp only
  · rfl
  · rfl
  · have e : ∀ t : MsTable, (∀ m, t x = some m → g.feedMats d gs = .ok m) → opMats (t x) g d gs = g.feedMats d gs := by
      intro t ht
      unfold opMats
      rcases hm : t x with _ | m
      · rfl
      · exact (ht m hm).symm
    rw [e ms (h1 g d hk), e ms' (h2 g d hk)]
    rcases g.feedMats d gs with err | m
    · rfl
    · simp only [bind, Except.bind]
      rcases b.kronselectDot m 0 0 (orc x).sched with ⟨r, b'⟩
      rcases r with e | u <;> rfl
  · rcases backendFuncApply (gs.getD 0 []) (gs.getD 1 []) f b.n b.state b.arena (orc x).faOrder (orc x).faGarb with e | out
      <;> rfl
  · rcases b.measure gs.flatten none none 0 0 (orc x).u (orc x).garbage with ⟨r, b'⟩
    rcases r with e | ⟨m, p⟩ <;> rfl
  · rcases b.measureProbabilities gs.flatten k with e | r <;> rfl

theorem feedAll_cache {h : Heap} {args : List Nat} {orc : Nat → Oracle} (L : List Nat) (hL : ∀ x ∈ L, Reach h args x)
    (b : BState) (ms ms' : MsTable) (cl : List (Nat × Classic)) (h1 : CacheOK h args ms) (h2 : CacheOK h args ms') :
    (L.foldlM (fun a x => nodeFeed h orc a (groups h args x) (wires h args x) x) ⟨b, ms, cl⟩).map
        (fun s => (s.state, s.classic))
      = (L.foldlM (fun a x => nodeFeed h orc a (groups h args x) (wires h args x) x) ⟨b, ms', cl⟩).map
        (fun s => (s.state, s.classic)) := by
  induction L generalizing b ms ms' cl with
  | nil => rfl
  | cons x L ih =>
    rw [List.foldlM_cons, List.foldlM_cons]
    have hx := hL x (by simp)
    have key := nodeFeed_cache (orc := orc) b ms ms' cl (own := wires h args x) (h1 x · · hx) (h2 x · · hx)
    have upd : ∀ ms st', CacheOK h args ms → nodeFeed h orc ⟨b, ms, cl⟩ (groups h args x) (wires h args x) x = .ok st' →
        CacheOK h args st'.ms := by
      intro ms st' hc hf y g d hy hk m hm
      obtain ⟨u1, u2, -⟩ := nodeFeed_ms hf
      by_cases hyx : y = x
      · subst hyx
        rcases u2 with u2 | ⟨g', d', m', hk', -, hm', hm''⟩
        · rw [u2] at hm; exact hc y g d hy hk m hm
        · rw [hk] at hk'
          cases hk'
          rw [hm] at hm''
          cases hm''
          exact hm'
      · rw [u1 y hyx] at hm; exact hc y g d hy hk m hm
    rcases hf : nodeFeed h orc ⟨b, ms, cl⟩ (groups h args x) (wires h args x) x with e | s
    · rcases hf' : nodeFeed h orc ⟨b, ms', cl⟩ (groups h args x) (wires h args x) x with e' | s'
      · rw [hf, hf'] at key
        cases key
        rfl
      · rw [hf, hf'] at key; cases key
    · rcases hf' : nodeFeed h orc ⟨b, ms', cl⟩ (groups h args x) (wires h args x) x with e' | s'
      · rw [hf, hf'] at key; cases key
      · rw [hf, hf'] at key
        have h1' := upd ms s h1 hf
        have h2' := upd ms' s' h2 hf'
        simp only [Except.map] at key
        have key' := Except.ok.inj key
        simp only [Prod.mk.injEq] at key'
        simp only [bind, Except.bind]
        rcases s with ⟨sb, sm, sc⟩
        rcases s' with ⟨sb', sm', sc'⟩
        simp only at key' h1' h2'
        obtain ⟨rfl, rfl⟩ := key'
        exact ih (fun y hy => hL y (by simp [hy])) sb sm sm' sc h1' h2'

/-- What a whole run does to the cache. -/
theorem feedAll_ms {h : Heap} {args : List Nat} {orc : Nat → Oracle} (L : List Nat) {st st' : Feeder}
    (hf : L.foldlM (fun a x => nodeFeed h orc a (groups h args x) (wires h args x) x) st = .ok st') (y : Nat) :
    st'.ms y = st.ms y ∨ y ∈ L ∧ ∃ g d m, h.kind y = .gate g d ∧ st.ms y = none ∧
      g.feedMats d (groups h args y) = .ok m ∧ st'.ms y = some m := by
  induction L generalizing st with
  | nil => cases hf; exact Or.inl rfl
  | cons x L ih =>
    rw [List.foldlM_cons] at hf
    rcases h1 : nodeFeed h orc st (groups h args x) (wires h args x) x with e | s
    · rw [h1] at hf; cases hf
    · rw [h1] at hf
      simp only [bind, Except.bind] at hf
      obtain ⟨u1, u2, -⟩ := nodeFeed_ms h1
      rcases ih hf with i | ⟨i1, g, d, m, i2, i3, i4, i5⟩
      · by_cases hyx : y = x
        · subst hyx
          rcases u2 with u2 | ⟨g, d, m, a, b, c, e⟩
          · left; rw [i, u2]
          · right; exact ⟨by simp, g, d, m, a, b, c, by rw [i, e]⟩
        · left; rw [i, u1 y hyx]
      · right
        refine ⟨by simp [i1], g, d, m, i2, ?_, i4, i5⟩
        by_cases hyx : y = x
        · subst hyx
          rcases u2 with u2 | ⟨g', d', m', a, b, c, e⟩
          · rw [← u2]; exact i3
          · exact b
        · rw [← u1 y hyx]; exact i3

end QIP
