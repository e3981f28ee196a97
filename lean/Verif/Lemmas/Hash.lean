import Verif.Model.RunIn
import Verif.Spec.Hash
import Verif.Lemmas.RunPre
import Verif.Lemmas.Repr

/-!
# Hashing nodes
-/

namespace QIP

open Spec Heap

/-- The `repr` of the node can be computed. -/
def Heap.can (h : Heap) (frames x : Nat) : Bool := (h.repr frames x).isSome

theorem hashes_eq (h : Heap) (frames : Nat) (xs : List Nat) :
    h.hashes frames xs = if xs.all (h.can frames) then .ok () else .error .recursionError := rfl

theorem depsLoopIn_same {h : Heap} {pick : List Nat → Nat} {frames : Nat} {C : Nat → Prop} (hC : ∀ x, C x → h.can frames x = true)
    (hin : ∀ x, C x → ∀ i ∈ h.inputs x, C i) (fuel : Nat) {F : List Nat} (hF : ∀ x ∈ F, C x) (D S : List Nat) :
    depsLoopIn frames h pick fuel F D S = depsLoop h pick fuel F D S := by
  induction fuel generalizing F D S with
  | zero => cases F <;> rfl
  | succ fuel ih =>
    cases F with
    | nil => rfl
    | cons f fs =>
      have hlt : pick (f :: fs) % (f :: fs).length < (f :: fs).length := Nat.mod_lt _ (by simp)
      simp only [depsLoopIn, depsLoop]
      set i := pick (f :: fs) % (f :: fs).length
      have hn : C ((f :: fs).getD i 0) := by
        rw [List.getD_eq_getElem _ _ hlt]; exact hF _ (List.getElem_mem hlt)
      have hrest : ∀ x ∈ (f :: fs).eraseIdx i, C x := fun x hx => hF x (List.mem_of_mem_eraseIdx hx)
      rw [hashes_eq, if_pos (List.all_eq_true.2 fun x hx => by
        rcases List.mem_cons.1 hx with rfl | hx
        · exact hC _ hn
        · exact hC _ (hin _ hn _ hx))]
      simp only
      split
      · exact ih hrest _ _
      · refine ih (fun x hx => ?_) _ _
        rcases mem_foldl_setAdd.1 hx with hx | hx
        · exact hrest x hx
        · exact hin _ hn _ hx

/-- Either everything seen can be hashed, or the loop fails. -/
theorem depsLoopIn_cases {h : Heap} {pick : List Nat → Nat} {frames : Nat} (fuel : Nat) (F D S : List Nat) :
    depsLoopIn frames h pick fuel F D S = .error .recursionError ∨
      (depsLoopIn frames h pick fuel F D S = depsLoop h pick fuel F D S ∧
        ∀ d s, depsLoop h pick fuel F D S = .ok (d, s) → ∀ x ∈ s, x ∈ S ∨ h.can frames x = true) := by
  induction fuel generalizing F D S with
  | zero =>
    cases F with
    | nil =>
      refine Or.inr ⟨rfl, fun d s e x hx => ?_⟩
      simp only [depsLoop, Except.ok.injEq, Prod.mk.injEq] at e
      rw [e.2]; exact Or.inl hx
    | cons f fs => exact Or.inr ⟨rfl, fun d s e => by simp [depsLoop] at e⟩
  | succ fuel ih =>
    cases F with
    | nil =>
      refine Or.inr ⟨rfl, fun d s e x hx => ?_⟩
      simp only [depsLoop, Except.ok.injEq, Prod.mk.injEq] at e
      rw [e.2]; exact Or.inl hx
    | cons f fs =>
      simp only [depsLoopIn, depsLoop, hashes_eq]
      set i := pick (f :: fs) % (f :: fs).length
      by_cases hall : (((f :: fs).getD i 0) :: h.inputs ((f :: fs).getD i 0)).all (h.can frames) = true
      · simp only [if_pos hall]
        have hnode : h.can frames ((f :: fs).getD i 0) = true := List.all_eq_true.1 hall _ (by simp)
        have step : ∀ (F' D' : List Nat), (depsLoopIn frames h pick fuel F' D' (setAdd S ((f :: fs).getD i 0)) = .error .recursionError ∨
            (depsLoopIn frames h pick fuel F' D' (setAdd S ((f :: fs).getD i 0)) = depsLoop h pick fuel F' D' (setAdd S ((f :: fs).getD i 0)) ∧
              ∀ d s, depsLoop h pick fuel F' D' (setAdd S ((f :: fs).getD i 0)) = .ok (d, s) → ∀ x ∈ s, x ∈ S ∨ h.can frames x = true)) := by
          intro F' D'
          refine (ih F' D' (setAdd S ((f :: fs).getD i 0))).imp id fun ⟨e, k⟩ => ⟨e, fun d s e' x hx => ?_⟩
          rcases k d s e' x hx with hx | hx
          · rcases mem_setAdd.1 hx with hx | rfl
            · exact Or.inl hx
            · exact Or.inr hnode
          · exact Or.inr hx
        split
        · exact step _ _
        · exact step _ _
      · simp only [if_neg hall]; exact Or.inl trivial

/-- `get_deps` finds what it finds without hashing if every node the outputs depend on can be hashed, and raises
RecursionError otherwise. -/
theorem getDepsIn_spec {h : Heap} {V : Nat → Prop} {args : List Nat} (c : Ctx h V args) (pick : List Nat → Nat) (frames : Nat) :
    getDepsIn frames h pick args
      = if (needed h args).all (h.can frames) then getDeps h pick args else .error .recursionError := by
  obtain ⟨deps, nodes, e1, -, -, d3, -⟩ := getDeps_spec h pick args (fun x hx => c.wf.vlt x (c.vargs x hx)) fun x hx => c.ilt hx
  have hargs : ∀ x ∈ args, x ∈ needed h args := fun x hx => (mem_needed c.wf c.vargs).2 (.arg hx)
  unfold getDepsIn
  rw [hashes_eq]
  by_cases hall : (needed h args).all (h.can frames) = true
  · have hC := List.all_eq_true.1 hall
    rw [if_pos hall, if_pos (List.all_eq_true.2 fun x hx => hC x (hargs x hx))]
    simp only [bind, Except.bind]
    refine depsLoopIn_same (C := fun x => x ∈ needed h args) hC (fun x hx i hi => ?_) _ (fun x hx => ?_) _ _
    · exact (mem_needed c.wf c.vargs).2 (.input ((mem_needed c.wf c.vargs).1 hx) hi)
    · exact hargs x ((mem_foldl_setAdd.1 hx).resolve_left (by simp))
  · rw [if_neg hall]
    by_cases ha : args.all (h.can frames) = true
    · rw [if_pos ha]
      simp only [bind, Except.bind]
      rcases depsLoopIn_cases (h := h) (pick := pick) (frames := frames) (2 ^ h.nodes.length) (args.foldl setAdd []) [] []
        with e | ⟨-, k⟩
      · exact e
      · refine absurd (List.all_eq_true.2 fun x hx => ?_) hall
        exact (k deps nodes e1 x ((d3 x).2 ((mem_needed c.wf c.vargs).1 hx))).resolve_left (by simp)
    · rw [if_neg ha]; rfl

theorem hashing_eq {σ : Type} (frames : Nat) (h : Heap) (feed : σ → List (List Nat) → List Nat → Nat → Except PyErr σ)
    (acc : σ) (gs : List (List Nat)) (own : List Nat) (x : Nat) :
    hashing frames h feed acc gs own x = (do
      let b ← feed acc gs own x
      if (h.sinks x).all (h.can frames) then .ok b else .error .recursionError) := by
  unfold hashing
  rw [hashes_eq]
  rcases feed acc gs own x with e | b
  · rfl
  · simp only [bind, Except.bind]
    by_cases hc : (h.sinks x).all (h.can frames) = true
    · simp only [if_pos hc]
    · simp only [if_neg hc]

/-- A fold with a check after every step. -/
theorem foldlM_checked {σ : Type} {F : σ → Nat → Except PyErr σ} {e : PyErr} {p : Nat → Bool} (L : List Nat) (a : σ) :
    (∀ r, L.foldlM (fun a x => do let b ← F a x; if p x then .ok b else .error e) a = .ok r →
        L.all p = true ∧ L.foldlM F a = .ok r) ∧
    (L.all p = true → L.foldlM (fun a x => do let b ← F a x; if p x then .ok b else .error e) a = L.foldlM F a) ∧
      (L.all p = false → ∀ r, L.foldlM F a = .ok r →
        L.foldlM (fun a x => do let b ← F a x; if p x then .ok b else .error e) a = .error e) := by
  induction L generalizing a with
  | nil => exact ⟨fun _ h => ⟨rfl, h⟩, fun _ => rfl, fun h => by simp at h⟩
  | cons x L ih =>
    simp only [List.foldlM_cons, List.all_cons]
    rcases hx : F a x with er | b
    · exact ⟨fun r hr => by simp [bind, Except.bind] at hr, fun _ => rfl, fun _ r hr => by simp [bind, Except.bind] at hr⟩
    · simp only [bind, Except.bind]
      rcases hp : p x with _ | _
      · simp
      · simp only [if_true, Bool.true_and]
        exact ih b

theorem all_around {h : Heap} {args : List Nat} {p : Nat → Bool} :
    (around h args).all p = ((needed h args).all p && (needed h args).all fun x => (h.sinks x).all p) := by
  unfold around
  rw [List.all_append, List.all_flatMap]

theorem around_lt {h : Heap} {V : Nat → Prop} {args : List Nat} (c : Ctx h V args) {x : Nat} (hx : x ∈ around h args) :
    x < h.nodes.length := by
  have hn : ∀ y ∈ needed h args, y < h.nodes.length :=
    fun y hy => c.wf.vlt y (c.vis ((mem_needed c.wf c.vargs).1 hy))
  rcases List.mem_append.1 hx with hx | hx
  · exact hn x hx
  · obtain ⟨y, hy, hs⟩ := List.mem_flatMap.1 hx
    exact c.wf.slt y (hn y hy) x hs

/-- `run` with hashing, as `run` and checks. -/
theorem runIn_pre {h : Heap} {V : Nat → Prop} {args : List Nat} (c : Ctx h V args)
    (pick : List Nat → Nat) (shuffle : List Nat → List Nat) (hsh : ∀ l, (shuffle l).Perm l) (frames : Nat) (ms : MsTable)
    (feed : List (List Nat × InitState)) (strict : Bool) (state : Option StateKw) (orc : Nat → Oracle) (arena : List ℂ) :
    ∃ deps,
      (run h ms args feed strict state pick shuffle orc arena = (do
        let b ← runPre h args feed strict state deps arena
        let acc ← (needed h args).foldlM (fun a x => nodeFeed h orc a (groups h args x) (wires h args x) x) ⟨b, ms, []⟩
        .ok (acc.state.state, acc.classic, acc.ms))) ∧
      runIn frames h ms args feed strict state pick shuffle orc arena =
        if ((feed.map (·.1)).flatten ++ needed h args).all (h.can frames) then (do
          let b ← runPre h args feed strict state deps arena
          let acc ← (needed h args).foldlM (fun a x => do
            let b ← nodeFeed h orc a (groups h args x) (wires h args x) x
            if (h.sinks x).all (h.can frames) then .ok b else .error .recursionError) ⟨b, ms, []⟩
          .ok (acc.state.state, acc.classic, acc.ms))
        else .error .recursionError := by
  by_cases hall : ((feed.map (·.1)).flatten ++ needed h args).all (h.can frames) = true
  · obtain ⟨deps, seen, e1, d1, d2, d3, d4⟩ := getDeps_spec h pick args (fun x hx => c.wf.vlt x (c.vargs x hx))
      (fun x hx => c.ilt hx)
    have hsd : (shuffle deps).Nodup := (hsh deps).nodup_iff.2 d1
    have hsl := sortQid_deps c.wf c.vargs hsd (fun x => ((hsh deps).mem_iff).trans (d4 x))
    have hg : getDepsIn frames h pick args = .ok (deps, seen) := by
      rw [getDepsIn_spec c, if_pos (List.all_eq_true.2 fun x hx => List.all_eq_true.1 hall x (by simp [hx])), e1]
    have hf : h.hashes frames (feed.map (·.1)).flatten = .ok () := by
      rw [hashes_eq, if_pos (List.all_eq_true.2 fun x hx => List.all_eq_true.1 hall x (List.mem_append_left _ hx))]
    refine ⟨shuffle deps, ?_⟩
    rw [if_pos hall]
    unfold run runIn runPre
    simp only [hf, hg, e1, bind, Except.bind, hsl]
    by_cases hs : strict = true ∧ ∃ q ∈ leaves h args, q ∉ (feed.map (·.1)).flatten
    · simp only [if_pos hs]; exact ⟨trivial, trivial⟩
    · simp only [if_neg hs]
      simp only [pure, Except.pure]
      generalize List.mapM (m := Except PyErr) _ (feed ++ (shuffle deps).flatMap (defaultFeed h (feed.map (·.1)).flatten)) = G
      cases G with
      | error err => exact ⟨rfl, rfl⟩
      | ok gs =>
        simp only
        rcases hsa : stateArg state with err | _ | s
        · exact ⟨rfl, rfl⟩
        · simp only
          unfold width
          cases makeState ((leaves h args).map h.n).sum gs _ 0 (2 ^ ((leaves h args).map h.n).sum) arena with
          | error err => exact ⟨rfl, rfl⟩
          | ok b =>
            simp only
            rw [runGraph_spec c.wf c.kind c.vargs c.size c.split d3 d2 rfl, runGraph_spec c.wf c.kind c.vargs c.size c.split d3 d2 rfl]
            simp only [hashing_eq]
            exact ⟨trivial, rfl⟩
        · simp only
          unfold width
          cases makeState ((leaves h args).map h.n).sum _ [s] 0 (2 ^ ((leaves h args).map h.n).sum) arena with
          | error err => exact ⟨rfl, rfl⟩
          | ok b =>
            simp only
            rw [runGraph_spec c.wf c.kind c.vargs c.size c.split d3 d2 rfl, runGraph_spec c.wf c.kind c.vargs c.size c.split d3 d2 rfl]
            simp only [hashing_eq]
            exact ⟨trivial, rfl⟩
  · obtain ⟨deps, -, hr⟩ := run_pre c pick shuffle hsh
    refine ⟨deps, hr ms feed strict state orc arena, ?_⟩
    rw [if_neg hall]
    unfold runIn
    simp only [hashes_eq, getDepsIn_spec c]
    rw [List.all_append, Bool.and_eq_true, not_and_or] at hall
    by_cases hfd : (feed.map (·.1)).flatten.all (h.can frames) = true
    · simp only [if_pos hfd, if_neg (hall.resolve_left (not_not.2 hfd)), bind, Except.bind]
    · simp only [if_neg hfd, bind, Except.bind]

end QIP
