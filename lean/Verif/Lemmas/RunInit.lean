import Verif.Lemmas.RunState

/-! # The initial state `run` builds, and `run` as a whole -/

namespace QIP

open Spec Heap

theorem block_cover (f : Nat → Nat) (l : List Nat) (hl : l.Pairwise (· < ·)) {k : Nat} (hk : k < (l.map f).sum) :
    ∃ x ∈ l, ((l.filter (· < x)).map f).sum ≤ k ∧ k < ((l.filter (· < x)).map f).sum + f x := by
  induction l using List.reverseRecOn with
  | nil => simp at hk
  | append_singleton l a ih =>
    obtain ⟨h1, -, h3⟩ := List.pairwise_append.1 hl
    have hla : ∀ x ∈ l, x < a := fun x hx => h3 x hx a (by simp)
    by_cases hlt : k < (l.map f).sum
    · obtain ⟨x, hx, h4⟩ := ih h1 hlt
      refine ⟨x, by simp [hx], ?_⟩
      have : ¬ a < x := by have := hla x hx; omega
      rw [List.filter_append]
      simpa [this] using h4
    · refine ⟨a, by simp, ?_⟩
      have e : l.filter (· < a) = l := by
        rw [List.filter_eq_self]
        intro x hx
        simpa using hla x hx
      rw [List.filter_append, e]
      simp at hk ⊢
      omega

theorem Ctx.cover {h : Heap} {V : Nat → Prop} {args : List Nat} (c : Ctx h V args) {k : Nat} (hk : k < width h args) :
    ∃ x ∈ leaves h args, k ∈ wires h args x := by
  obtain ⟨x, hx, h1, h2⟩ := block_cover h.n (leaves h args) (leaves_asc h args) hk
  exact ⟨x, hx, (Ctx.mem_leaf ((mem_leaves c.wf c.vargs).1 hx).2).2 ⟨h1, h2⟩⟩

/-- `defaultFeed` with plain vectors. -/
noncomputable def defaultVec (h : Heap) (fed : List Nat) (q : Nat) : List (List Nat × List ℂ) :=
  if q ∈ fed then []
  else match h.default q with
    | none => []
    | some (.int k) => if 0 < k ∧ k < 2 ^ h.n q then [([q], (List.replicate (2 ^ h.n q) 0).set k.toNat 1)] else []
    | some (.list l) => [([q], l)]
    | some (.array l) => [([q], l)]

theorem defaultFeed_eq (h : Heap) (fed : List Nat) (q : Nat) :
    defaultFeed h fed q = (defaultVec h fed q).map asFeed := by
  unfold defaultFeed defaultVec
  split
  · rfl
  · rcases h.default q with _ | d
    · rfl
    · cases d with
      | int k => dsimp only; split <;> rfl
      | list l => rfl
      | array l => rfl

/-- What the program adds for an unfed input qubit: its start vector, or nothing when that is `|0…0⟩`. -/
theorem defaultVec_cases {h : Heap} {fed : List Nat} {q : Nat} (hq : q ∉ fed) (hd : DefaultOK h q) :
    (startVec h q).length = 2 ^ h.n q ∧ (defaultVec h fed q = [([q], startVec h q)] ∨
      defaultVec h fed q = [] ∧ startVec h q = (List.replicate (2 ^ h.n q) 0).set 0 1) := by
  unfold defaultVec startVec DefaultOK at *
  rw [if_neg hq]
  rcases hdef : h.default q with _ | d
  · simp
  · rw [hdef] at hd
    cases d with
    | int k =>
      dsimp only at hd ⊢
      by_cases hk : 0 < k
      · simp [hk, hd.2]
      · have : k = 0 := by omega
        subst this
        simp
    | list l => simpa using hd
    | array l => simpa using hd

theorem prod_ite {α : Type} (l : List α) (s g : α → ℂ) (b : α → Prop) [DecidablePred b]
    (hs : ∀ x ∈ l, s x = if b x then g x else 0) :
    (l.map s).prod = if ∀ x ∈ l, b x then (l.map g).prod else 0 := by
  induction l with
  | nil => simp
  | cons a l ih =>
    rw [List.map_cons, List.prod_cons, ih fun x hx => hs x (by simp [hx]), hs a (by simp)]
    by_cases h1 : b a
    · by_cases h2 : ∀ x ∈ l, b x
      · rw [if_pos h1, if_pos h2, if_pos (by simpa using ⟨h1, h2⟩), List.map_cons, List.prod_cons]
      · rw [if_neg h2, if_neg (c := ∀ x ∈ a :: l, b x) (fun H => h2 fun x hx => H x (by simp [hx])), mul_zero]
    · rw [if_neg h1, if_neg (c := ∀ x ∈ a :: l, b x) (fun H => h1 (H a (by simp))), zero_mul]

theorem prod_flatMap {α β : Type} (l : List α) (f : α → List β) (g : β → ℂ) :
    ((l.flatMap f).map g).prod = (l.map fun x => ((f x).map g).prod).prod := by
  induction l with
  | nil => simp
  | cons a l ih => simp [ih]

theorem prod_filter_one {α : Type} (l : List α) (p : α → Prop) [DecidablePred p] (s : α → ℂ)
    (hs : ∀ x ∈ l, ¬ p x → s x = 1) : (l.map s).prod = ((l.filter p).map s).prod := by
  induction l with
  | nil => simp
  | cons a l ih =>
    rw [List.map_cons, List.prod_cons, ih fun x hx => hs x (by simp [hx]), List.filter_cons]
    by_cases h1 : p a
    · simp [h1]
    · simp [h1, hs a (by simp) h1]

/-- The vectors that make up the initial state, with their qubits. -/
noncomputable def allFeed (h : Heap) (feed : List (List Nat × List ℂ)) (deps : List Nat) :
    List (List Nat × List ℂ) := feed ++ deps.flatMap (defaultVec h (feed.map (·.1)).flatten)

section
variable {h : Heap} {V : Nat → Prop} {args : List Nat} {feed : List (List Nat × List ℂ)} {deps : List Nat}

theorem keys_allFeed (hdef : ∀ q ∈ deps, q ∉ (feed.map (·.1)).flatten → DefaultOK h q) :
    ((allFeed h feed deps).map (·.1)).flatten = (feed.map (·.1)).flatten ++
      deps.filter fun q => defaultVec h (feed.map (·.1)).flatten q ≠ [] := by
  unfold allFeed
  rw [List.map_append, List.flatten_append]
  congr 1
  induction deps with
  | nil => simp
  | cons q qs ih =>
    rw [List.flatMap_cons, List.map_append, List.flatten_append, ih fun q hq => hdef q (by simp [hq]), List.filter_cons]
    by_cases hq : q ∈ (feed.map (·.1)).flatten
    · have : defaultVec h (feed.map (·.1)).flatten q = [] := by unfold defaultVec; rw [if_pos hq]
      simp [this]
    · rcases (defaultVec_cases hq (hdef q (by simp) hq)).2 with e | ⟨e, -⟩ <;> simp [e]

theorem mem_keys (hdef : ∀ q ∈ deps, q ∉ (feed.map (·.1)).flatten → DefaultOK h q) {q : Nat} :
    q ∈ ((allFeed h feed deps).map (·.1)).flatten ↔ q ∈ (feed.map (·.1)).flatten ∨
      q ∈ deps ∧ defaultVec h (feed.map (·.1)).flatten q ≠ [] := by
  rw [keys_allFeed hdef, List.mem_append, List.mem_filter]
  simp

theorem nodup_keys (hf : (feed.map (·.1)).flatten.Nodup) (hnd : deps.Nodup)
    (hdef : ∀ q ∈ deps, q ∉ (feed.map (·.1)).flatten → DefaultOK h q) :
    ((allFeed h feed deps).map (·.1)).flatten.Nodup := by
  rw [keys_allFeed hdef, List.nodup_append]
  refine ⟨hf, hnd.filter _, ?_⟩
  rintro a ha b hb rfl
  rw [List.mem_filter] at hb
  have : defaultVec h (feed.map (·.1)).flatten a = [] := by unfold defaultVec; rw [if_pos ha]
  simp [this] at hb

theorem flatten_groups (l : List (List Nat × List ℂ)) (w : Nat → List Nat) :
    (l.map fun kv => (kv.1.map w).flatten).flatten = ((l.map (·.1)).flatten.map w).flatten := by
  induction l with
  | nil => rfl
  | cons a l ih => simp [ih]

theorem subIndex_zero_iff (n : Nat) (g : List Nat) (r : Nat) : subIndex n g r = 0 ↔ ∀ q ∈ g, qbit n r q = false := by
  constructor
  · intro h0 q hq
    obtain ⟨j, hj, rfl⟩ := List.getElem_of_mem hq
    have := testBit_subIndex n g r j hj
    rw [h0, Nat.zero_testBit] at this
    exact this.symm
  · intro hq
    unfold subIndex
    have : g.map (qbit n r) = List.replicate g.length false := by
      rw [List.eq_replicate_iff]
      refine ⟨by simp, ?_⟩
      intro b hb
      obtain ⟨q, hq', rfl⟩ := List.mem_map.1 hb
      exact hq q hq'
    rw [this]
    generalize g.length = m
    have : ∀ m, bitsVal (List.replicate m false) = 0 := by
      intro m
      induction m with
      | zero => rfl
      | succ m ih =>
        unfold bitsVal at ih ⊢
        rw [List.replicate_succ, List.foldl_cons]
        simpa using ih
    exact this m

theorem initAmp_allFeed (c : Ctx h V args) (hf : FeedOK h args feed) (hperm : deps.Perm (leaves h args))
    (hdef : ∀ q ∈ leaves h args, q ∉ (feed.map (·.1)).flatten → DefaultOK h q) (r : Nat) :
    initAmp (width h args) ((allFeed h feed deps).map fun kv => (kv.1.map (wires h args)).flatten)
      ((allFeed h feed deps).map (·.2)) r = startAmp h args feed r := by
  classical
  have hdef' : ∀ q ∈ deps, q ∉ (feed.map (·.1)).flatten → DefaultOK h q := fun q hq => hdef q (hperm.mem_iff.1 hq)
  set n := width h args with hn
  set fed := (feed.map (·.1)).flatten with hfed
  have hzip : ((allFeed h feed deps).map fun kv => (kv.1.map (wires h args)).flatten).zip
      ((allFeed h feed deps).map (·.2)) = (allFeed h feed deps).map fun kv =>
        ((kv.1.map (wires h args)).flatten, kv.2) := by
    rw [List.zip_map']
  unfold initAmp
  rw [hzip, List.map_map, flatten_groups]
  set F : List Nat × List ℂ → ℂ := fun kv => kv.2.getD (subIndex n (kv.1.map (wires h args)).flatten r) 0 with hF
  have hFc : ((fun gv : List Nat × List ℂ => gv.2.getD (subIndex n gv.1 r) 0) ∘
      fun kv : List Nat × List ℂ => ((kv.1.map (wires h args)).flatten, kv.2)) = F := rfl
  rw [hFc]
  unfold startAmp
  simp only
  rw [← hn, ← hfed]
  set b : Nat → Prop := fun q => defaultVec h fed q ≠ [] ∨ ∀ k ∈ wires h args q, qbit n r k = false with hb
  set s : Nat → ℂ := fun q => (startVec h q).getD (subIndex n (wires h args q) r) 0 with hs
  set g : Nat → ℂ := fun q => ((defaultVec h fed q).map F).prod with hg
  have hleaf : ∀ q ∈ leaves h args, q ∉ fed → s q = if b q then g q else 0 := by
    intro q hq hqf
    have hql := (mem_leaves c.wf c.vargs).1 hq
    have hlen := c.len hql.1
    rcases (defaultVec_cases hqf (hdef q hq hqf)).2 with e | ⟨e, e2⟩
    · have : b q := Or.inl (by rw [e]; simp)
      rw [if_pos this]
      simp [hg, hs, hF, e]
    · simp only [hs, hg, e2, e, List.map_nil, List.prod_nil]
      have hlt := subIndex_lt n (wires h args q) r
      rw [hlen] at hlt
      have hbq : b q ↔ subIndex n (wires h args q) r = 0 := by
        rw [subIndex_zero_iff]
        simp [hb, e]
      by_cases h0 : subIndex n (wires h args q) r = 0
      · rw [if_pos (hbq.2 h0), h0]
        simp
      · rw [if_neg (fun H => h0 (hbq.1 H))]
        simp [List.getElem?_set, Ne.symm h0, hlt]
  rw [prod_ite _ s g b (by
    intro q hq
    rw [List.mem_filter] at hq
    exact hleaf q hq.1 (by simpa using hq.2))]
  have hcond : (∀ q < n, q ∉ (((allFeed h feed deps).map (·.1)).flatten.map (wires h args)).flatten → qbit n r q = false)
      ↔ ∀ q ∈ (leaves h args).filter (fun q => q ∉ fed), b q := by
    constructor
    · intro H q hq
      rw [List.mem_filter] at hq
      have hqf : q ∉ fed := by simpa using hq.2
      by_cases hd : defaultVec h fed q = []
      · right
        intro k hk
        have hql := (mem_leaves c.wf c.vargs).1 hq.1
        apply H k (c.lt_width hql.1 hk)
        intro hmem
        obtain ⟨_, hl, hk'⟩ := List.mem_flatten.1 hmem
        obtain ⟨p, hp, rfl⟩ := List.mem_map.1 hl
        have hpk := (mem_keys hdef').1 hp
        have hpl : p ∈ leaves h args := by
          rcases hpk with h1 | h1
          · exact hf.mem p h1
          · exact hperm.mem_iff.1 h1.1
        have hpl' := (mem_leaves c.wf c.vargs).1 hpl
        have := c.leaf_unique hql.1 hpl'.1 hql.2 hpl'.2 hk hk'
        subst this
        rcases hpk with h1 | h1
        · exact hqf h1
        · exact h1.2 hd
      · exact Or.inl hd
    · intro H k hk hnot
      obtain ⟨q, hq, hkq⟩ := c.cover hk
      have hqn : q ∉ ((allFeed h feed deps).map (·.1)).flatten := by
        intro hq'
        exact hnot (List.mem_flatten.2 ⟨_, List.mem_map.2 ⟨q, hq', rfl⟩, hkq⟩)
      rw [mem_keys hdef'] at hqn
      push Not at hqn
      have hbq := H q (by rw [List.mem_filter]; exact ⟨hq, decide_eq_true hqn.1⟩)
      rcases hbq with h1 | h1
      · exact absurd (hqn.2 (hperm.mem_iff.2 hq)) h1
      · exact h1 k hkq
  rw [if_congr hcond rfl rfl]
  split
  · unfold allFeed
    rw [List.map_append, List.prod_append, prod_flatMap]
    congr 1
    have h1 : (deps.map g).prod = ((leaves h args).map g).prod := (hperm.map g).prod_eq
    rw [← hfed]
    change (deps.map g).prod = _
    rw [h1]
    apply prod_filter_one
    intro q _ hq
    have hq' : q ∈ fed := by simpa using hq
    have : defaultVec h fed q = [] := by unfold defaultVec; rw [if_pos hq']
    simp [hg, this]
  · rw [mul_zero]

theorem size_allFeed (hf : FeedOK h args feed) (hdef : ∀ q ∈ deps, q ∉ (feed.map (·.1)).flatten → DefaultOK h q) :
    ∀ kv ∈ allFeed h feed deps, kv.2.length = 2 ^ (kv.1.map h.n).sum := by
  intro kv hkv
  rcases List.mem_append.1 hkv with h1 | h1
  · exact hf.size kv h1
  · obtain ⟨q, hq, h2⟩ := List.mem_flatMap.1 h1
    by_cases hqf : q ∈ (feed.map (·.1)).flatten
    · unfold defaultVec at h2
      rw [if_pos hqf] at h2
      cases h2
    · obtain ⟨h3, h4⟩ := defaultVec_cases hqf (hdef q hq hqf)
      rcases h4 with e | ⟨e, -⟩
      · rw [e] at h2
        simp at h2
        subst h2
        simpa using h3
      · rw [e] at h2
        cases h2

/-- The state `run` starts with. -/
noncomputable def startState (h : Heap) (args : List Nat) (feed : List (List Nat × List ℂ)) (arena : List ℂ) : BState :=
  ⟨width h args, (List.range (2 ^ width h args)).map (startAmp h args feed), arena⟩

theorem makeState_allFeed (c : Ctx h V args) (hf : FeedOK h args feed) (hnd : deps.Nodup)
    (hperm : deps.Perm (leaves h args))
    (hdef : ∀ q ∈ leaves h args, q ∉ (feed.map (·.1)).flatten → DefaultOK h q) (arena : List ℂ) :
    makeState (width h args) ((allFeed h feed deps).map fun kv => (kv.1.map (wires h args)).flatten)
      (((allFeed h feed deps).map (·.2)).map .vec) 0 (2 ^ width h args) arena = .ok (startState h args feed arena) := by
  have hdef' : ∀ q ∈ deps, q ∉ (feed.map (·.1)).flatten → DefaultOK h q := fun q hq => hdef q (hperm.mem_iff.1 hq)
  have hkl : ∀ q ∈ ((allFeed h feed deps).map (·.1)).flatten, q ∈ leaves h args := by
    intro q hq
    rcases (mem_keys hdef').1 hq with h1 | h1
    · exact hf.mem q h1
    · exact hperm.mem_iff.1 h1.1
  have hkl' := fun q hq => (mem_leaves c.wf c.vargs).1 (hkl q hq)
  have hS : ((allFeed h feed deps).map fun kv => (kv.1.map (wires h args)).flatten).flatten.Nodup := by
    rw [flatten_groups]
    apply Ctx.nodup_flatten_of (nodup_keys hf.nodup hnd hdef')
    · intro q hq
      rw [wires_leaf (hkl' q hq).2]
      exact List.Nodup.map (fun a b h => Nat.add_left_cancel h) List.nodup_range
    · intro x hx y hy hne k hk hk'
      exact hne (c.leaf_unique (hkl' x hx).1 (hkl' y hy).1 (hkl' x hx).2 (hkl' y hy).2 hk hk')
  have hlt : ∀ q ∈ ((allFeed h feed deps).map fun kv => (kv.1.map (wires h args)).flatten).flatten,
      q < width h args := by
    rw [flatten_groups]
    intro k hk
    obtain ⟨_, hl, hk'⟩ := List.mem_flatten.1 hk
    obtain ⟨q, hq, rfl⟩ := List.mem_map.1 hl
    exact c.lt_width (hkl' q hq).1 hk'
  obtain ⟨b, h1, h2, h3, h4, h5⟩ := Props.C30_initial_state (vecs := (allFeed h feed deps).map (·.2)) hS hlt (by simp) (by
    rw [List.zip_map']
    intro gv hgv
    obtain ⟨kv, hkv, rfl⟩ := List.mem_map.1 hgv
    simp only
    rw [size_allFeed hf hdef' kv hkv, List.length_flatten, List.map_map]
    congr 1
    congr 1
    apply List.map_congr_left
    intro q hq
    exact (c.len (hkl' q (List.mem_flatten.2 ⟨_, List.mem_map.2 ⟨kv, hkv, rfl⟩, hq⟩)).1).symm) arena
  rw [h1]
  congr 1
  rcases b with ⟨bn, bs, ba⟩
  simp only at h2 h3 h4 h5
  subst h2 h3
  unfold startState
  congr 1
  apply List.ext_getElem?
  intro r
  by_cases hr : r < 2 ^ width h args
  · rw [h5 r hr, initAmp_allFeed c hf hperm hdef]
    simp [hr]
  · rw [List.getElem?_eq_none (by omega), List.getElem?_eq_none (by simp; omega)]

/-- `run` as a whole. -/
theorem run_spec (c : Ctx h V args) (hf : FeedOK h args feed)
    (hdef : ∀ q ∈ leaves h args, q ∉ (feed.map (·.1)).flatten → DefaultOK h q) (ms : MsTable) (strict : Bool)
    (pick : List Nat → Nat) (shuffle : List Nat → List Nat) (hsh : ∀ l, (shuffle l).Perm l) (orc : Nat → Oracle)
    (arena : List ℂ) (hst : strict = true → ∀ q ∈ leaves h args, q ∈ (feed.map (·.1)).flatten) :
    run h ms args (feed.map asFeed) strict none pick shuffle orc arena = (do
      let acc ← (needed h args).foldlM (fun a x => nodeFeed h orc a (groups h args x) (wires h args x) x)
        ⟨startState h args feed arena, ms, []⟩
      .ok (acc.state.state, acc.classic, acc.ms)) := by
  obtain ⟨deps, seen, e1, d1, d2, d3, d4⟩ := getDeps_spec h pick args (fun x hx => c.wf.vlt x (c.vargs x hx))
    (fun x hx => c.ilt hx)
  have hsd : (shuffle deps).Nodup := (hsh deps).nodup_iff.2 d1
  have hsl := sortQid_deps c.wf c.vargs hsd (fun x => ((hsh deps).mem_iff).trans (d4 x))
  have hperm : (shuffle deps).Perm (leaves h args) := by
    rw [← hsl]
    exact (List.mergeSort_perm _ _).symm
  have hdef' : ∀ q ∈ shuffle deps, q ∉ (feed.map (·.1)).flatten → DefaultOK h q :=
    fun q hq => hdef q (hperm.mem_iff.1 hq)
  unfold run
  have hfed : ((feed.map asFeed).map (·.1)).flatten = (feed.map (·.1)).flatten := by
    simp [asFeed, List.map_map, Function.comp_def]
  have hall : feed.map asFeed ++ (shuffle deps).flatMap (defaultFeed h (feed.map (·.1)).flatten)
      = (allFeed h feed (shuffle deps)).map asFeed := by
    unfold allFeed
    rw [List.map_append, List.map_flatMap]
    congr 2
    funext q
    exact defaultFeed_eq h _ q
  simp only [e1, bind, Except.bind, hfed, hsl]
  rw [if_neg (by
    rintro ⟨h1, q, hq, hq'⟩
    exact hq' (hst h1 q hq))]
  simp only [hall]
  have hmap : ((allFeed h feed (shuffle deps)).map asFeed).mapM (fun f => do
      let gs ← f.1.mapM (lookup (blocks h (leaves h args) 0))
      pure gs.flatten : List Nat × InitState → Except PyErr (List Nat))
      = .ok (((allFeed h feed (shuffle deps)).map asFeed).map fun f => (f.1.map (wires h args)).flatten) := by
    apply mapM_ok
    intro f hfm
    obtain ⟨kv, hkv, rfl⟩ := List.mem_map.1 hfm
    have : kv.1.mapM (lookup (blocks h (leaves h args) 0)) = .ok (kv.1.map (wires h args)) := by
      apply mapM_lookup
      intro q hq
      have hq' : q ∈ leaves h args := by
        rcases (mem_keys hdef').1 (List.mem_flatten.2 ⟨_, List.mem_map.2 ⟨kv, hkv, rfl⟩, hq⟩) with h1 | h1
        · exact hf.mem q h1
        · exact hperm.mem_iff.1 h1.1
      rw [blocks_asc h _ (leaves_asc h args) 0 hq', wires_leaf ((mem_leaves c.wf c.vargs).1 hq').2, Nat.zero_add]
      rfl
    simp only [asFeed]
    rw [this]
    rfl
  simp only [bind, Except.bind] at hmap
  simp only [pure, Except.pure] at hmap ⊢
  rw [hmap]
  simp only [stateArg]
  have hst2 : ((allFeed h feed (shuffle deps)).map asFeed).map (·.2) = ((allFeed h feed (shuffle deps)).map (·.2)).map .vec := by
    simp [asFeed, List.map_map, Function.comp_def]
  have hg2 : (((allFeed h feed (shuffle deps)).map asFeed).map fun f => (f.1.map (wires h args)).flatten)
      = (allFeed h feed (shuffle deps)).map fun kv => (kv.1.map (wires h args)).flatten := by
    simp [asFeed, List.map_map, Function.comp_def]
  rw [hst2, hg2]
  have := makeState_allFeed c hf hsd hperm hdef arena
  unfold width at this
  rw [this]
  simp only
  rw [runGraph_spec c.wf c.kind c.vargs c.size c.split d3 d2 rfl]

end

end QIP
