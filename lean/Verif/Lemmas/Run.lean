import Mathlib.Algebra.BigOperators.Group.Finset.Basic
import Mathlib.Algebra.Order.BigOperators.Group.Finset
import Mathlib.Data.List.Sort
import Verif.Lemmas.Built
import Verif.Lemmas.Fold
import Verif.Model.Run

/-! # `get_deps` and `run_graph` -/

namespace QIP

open Spec Heap

/-! ## Lists -/

theorem asc_ext {l₁ l₂ : List Nat} (h1 : l₁.Pairwise (· < ·)) (h2 : l₂.Pairwise (· < ·))
    (h : ∀ x, x ∈ l₁ ↔ x ∈ l₂) : l₁ = l₂ :=
  List.Subset.antisymm_of_pairwise h1 h2 (fun x hx => (h x).1 hx) (fun x hx => (h x).2 hx)

theorem pair_sublist_cases {l : List Nat} {a b : Nat} (ha : a ∈ l) (hb : b ∈ l) (hne : a ≠ b) :
    [a, b].Sublist l ∨ [b, a].Sublist l := by
  induction l with
  | nil => simp at ha
  | cons x l ih =>
    rcases List.mem_cons.1 ha with rfl | ha'
    · rcases List.mem_cons.1 hb with rfl | hb'
      · exact absurd rfl hne
      · exact Or.inl ((List.singleton_sublist.2 hb').cons_cons a)
    · rcases List.mem_cons.1 hb with rfl | hb'
      · exact Or.inr ((List.singleton_sublist.2 ha').cons_cons b)
      · exact (ih ha' hb').imp (·.cons x) (·.cons x)

theorem not_pair_both {l : List Nat} (hl : l.Nodup) {a b : Nat} (h1 : [a, b].Sublist l) (h2 : [b, a].Sublist l) :
    False := by
  induction l with
  | nil => simp at h1
  | cons x l ih =>
    obtain ⟨hx, hl'⟩ := List.nodup_cons.1 hl
    rcases List.sublist_cons_iff.1 h1 with h1' | ⟨r, e, h1'⟩
    · rcases List.sublist_cons_iff.1 h2 with h2' | ⟨r, e, h2'⟩
      · exact ih hl' h1' h2'
      · obtain ⟨rfl, rfl⟩ := List.cons.inj e
        exact hx (h1'.subset (by simp))
    · obtain ⟨rfl, rfl⟩ := List.cons.inj e
      rcases List.sublist_cons_iff.1 h2 with h2' | ⟨r, e, h2'⟩
      · exact hx (h2'.subset (by simp))
      · obtain ⟨rfl, rfl⟩ := List.cons.inj e
        exact hx (h2'.subset (by simp))

theorem mem_setAdd {s : List Nat} {x y : Nat} : y ∈ setAdd s x ↔ y ∈ s ∨ y = x := by
  unfold setAdd
  split
  · next h =>
    constructor
    · exact Or.inl
    · rintro (h' | rfl)
      · exact h'
      · exact h
  · simp

theorem nodup_setAdd {s : List Nat} (hs : s.Nodup) (x : Nat) : (setAdd s x).Nodup := by
  unfold setAdd
  split
  · exact hs
  · next h =>
    rw [List.nodup_append]
    refine ⟨hs, by simp, ?_⟩
    intro a ha b hb
    simp at hb
    subst hb
    rintro rfl
    exact h ha

theorem mem_foldl_setAdd {l s : List Nat} {y : Nat} : y ∈ l.foldl setAdd s ↔ y ∈ s ∨ y ∈ l := by
  induction l generalizing s with
  | nil => simp
  | cons x l ih => rw [List.foldl_cons, ih, mem_setAdd, List.mem_cons]; tauto

theorem nodup_foldl_setAdd {l s : List Nat} (hs : s.Nodup) : (l.foldl setAdd s).Nodup := by
  induction l generalizing s with
  | nil => exact hs
  | cons x l ih => exact ih (nodup_setAdd hs x)

/-! ## `get_deps` -/

theorem sum_two_pow_range (x : Nat) : ∑ i ∈ Finset.range x, 2 ^ i + 1 = 2 ^ x := by
  induction x with
  | zero => simp
  | succ x ih => rw [Finset.sum_range_succ, pow_succ]; omega

theorem sum_two_pow_union (A B : Finset Nat) : ∑ i ∈ A ∪ B, 2 ^ i ≤ ∑ i ∈ A, 2 ^ i + ∑ i ∈ B, 2 ^ i := by
  have h1 : A ∪ B = A ∪ (B \ A) := by simp
  rw [h1, Finset.sum_union Finset.disjoint_sdiff]
  have := Finset.sum_le_sum_of_subset (f := fun i => 2 ^ i) (Finset.sdiff_subset : B \ A ⊆ B)
  omega

theorem depsLoop_spec (h : Heap) (pick : List Nat → Nat) (args : List Nat)
    (hlt : ∀ x, Reach h args x → ∀ i ∈ h.inputs x, i < x) (fuel : Nat) (F D S : List Nat)
    (hF : F.Nodup) (hD : D.Nodup) (hS : S.Nodup) (hFr : ∀ x ∈ F, Reach h args x) (hSr : ∀ x ∈ S, Reach h args x)
    (hargs : ∀ x ∈ args, x ∈ F ∨ x ∈ S) (hcl : ∀ x ∈ S, ∀ i ∈ h.inputs x, i ∈ F ∨ i ∈ S)
    (hDS : ∀ x, x ∈ D ↔ x ∈ S ∧ h.inputs x = []) (hfuel : ∑ i ∈ F.toFinset, 2 ^ i ≤ fuel) :
    ∃ deps seen, depsLoop h pick fuel F D S = .ok (deps, seen) ∧ deps.Nodup ∧ seen.Nodup ∧
      (∀ x, x ∈ seen ↔ Reach h args x) ∧ ∀ x, x ∈ deps ↔ Reach h args x ∧ h.inputs x = [] := by
  induction fuel generalizing F D S with
  | zero =>
    cases F with
    | nil =>
      have hseen : ∀ x, x ∈ S ↔ Reach h args x := by
        intro x
        refine ⟨hSr x, fun hx => ?_⟩
        induction hx with
        | arg hx => exact (hargs _ hx).resolve_left (by simp)
        | input _ hi ih => exact (hcl _ ih _ hi).resolve_left (by simp)
      exact ⟨D, S, by simp [depsLoop], hD, hS, hseen, fun x => by rw [hDS, hseen]⟩
    | cons f fs =>
      exfalso
      have : 2 ^ f ≤ ∑ i ∈ (f :: fs).toFinset, 2 ^ i :=
        Finset.single_le_sum (f := fun i => 2 ^ i) (fun _ _ => Nat.zero_le _) (by simp)
      have := Nat.two_pow_pos f
      omega
  | succ fuel ih =>
    cases F with
    | nil =>
      have hseen : ∀ x, x ∈ S ↔ Reach h args x := by
        intro x
        refine ⟨hSr x, fun hx => ?_⟩
        induction hx with
        | arg hx => exact (hargs _ hx).resolve_left (by simp)
        | input _ hi ih => exact (hcl _ ih _ hi).resolve_left (by simp)
      exact ⟨D, S, by simp [depsLoop], hD, hS, hseen, fun x => by rw [hDS, hseen]⟩
    | cons f fs =>
      unfold depsLoop
      simp only
      set F := f :: fs with hFdef
      have hpos : 0 < F.length := by simp [hFdef]
      set i := pick F % F.length with hi
      have hilt : i < F.length := Nat.mod_lt _ hpos
      have hnode : F.getD i 0 = F[i] := List.getD_eq_getElem _ _ hilt
      rw [hnode]
      have hmem : F[i] ∈ F := List.getElem_mem hilt
      have hrest : ∀ y, y ∈ F.eraseIdx i ↔ y ∈ F ∧ y ≠ F[i] := by
        intro y
        rw [← hF.erase_getElem i hilt]
        rw [hF.mem_erase_iff, and_comm]
      have hrestnd : (F.eraseIdx i).Nodup := hF.sublist (List.eraseIdx_sublist F i)
      have hsplit : F.toFinset = insert F[i] (F.eraseIdx i).toFinset := by
        ext y
        simp only [List.mem_toFinset, Finset.mem_insert, hrest]
        by_cases hy : y = F[i]
        · simp [hy, hmem]
        · simp [hy]
      have hsum : ∑ j ∈ F.toFinset, 2 ^ j = 2 ^ F[i] + ∑ j ∈ (F.eraseIdx i).toFinset, 2 ^ j := by
        rw [hsplit, Finset.sum_insert]
        rw [List.mem_toFinset, hrest]
        simp
      have hreach := hFr _ hmem
      split
      · next hleaf =>
        refine ih _ _ _ hrestnd (nodup_setAdd hD _) (nodup_setAdd hS _) ?_ ?_ ?_ ?_ ?_ ?_
        · intro x hx; exact hFr x ((hrest x).1 hx).1
        · intro x hx
          rcases mem_setAdd.1 hx with hx | rfl
          · exact hSr x hx
          · exact hreach
        · intro x hx
          rw [hrest, mem_setAdd]
          rcases hargs x hx with h1 | h1
          · by_cases he : x = F[i]
            · exact Or.inr (Or.inr he)
            · exact Or.inl ⟨h1, he⟩
          · exact Or.inr (Or.inl h1)
        · intro x hx j hj
          rw [hrest, mem_setAdd]
          rcases mem_setAdd.1 hx with hx | rfl
          · rcases hcl x hx j hj with h1 | h1
            · by_cases he : j = F[i]
              · exact Or.inr (Or.inr he)
              · exact Or.inl ⟨h1, he⟩
            · exact Or.inr (Or.inl h1)
          · rw [hleaf] at hj; simp at hj
        · intro x
          rw [mem_setAdd, mem_setAdd, hDS]
          constructor
          · rintro (⟨h1, h2⟩ | rfl)
            · exact ⟨Or.inl h1, h2⟩
            · exact ⟨Or.inr rfl, hleaf⟩
          · rintro ⟨h1 | rfl, h2⟩
            · exact Or.inl ⟨h1, h2⟩
            · exact Or.inr rfl
        · have := Nat.two_pow_pos F[i]
          omega
      · next hleaf =>
        refine ih _ _ _ (nodup_foldl_setAdd hrestnd) hD (nodup_setAdd hS _) ?_ ?_ ?_ ?_ ?_ ?_
        · intro x hx
          rcases mem_foldl_setAdd.1 hx with hx | hx
          · exact hFr x ((hrest x).1 hx).1
          · exact Reach.input hreach hx
        · intro x hx
          rcases mem_setAdd.1 hx with hx | rfl
          · exact hSr x hx
          · exact hreach
        · intro x hx
          rw [mem_foldl_setAdd, hrest, mem_setAdd]
          rcases hargs x hx with h1 | h1
          · by_cases he : x = F[i]
            · exact Or.inr (Or.inr he)
            · exact Or.inl (Or.inl ⟨h1, he⟩)
          · exact Or.inr (Or.inl h1)
        · intro x hx j hj
          rw [mem_foldl_setAdd, hrest, mem_setAdd]
          rcases mem_setAdd.1 hx with hx | rfl
          · rcases hcl x hx j hj with h1 | h1
            · by_cases he : j = F[i]
              · exact Or.inr (Or.inr he)
              · exact Or.inl (Or.inl ⟨h1, he⟩)
            · exact Or.inr (Or.inl h1)
          · exact Or.inl (Or.inr hj)
        · intro x
          rw [mem_setAdd, hDS]
          constructor
          · rintro ⟨h1, h2⟩; exact ⟨Or.inl h1, h2⟩
          · rintro ⟨h1 | rfl, h2⟩
            · exact ⟨h1, h2⟩
            · exact absurd h2 hleaf
        · have hsub : ((h.inputs F[i]).foldl setAdd (F.eraseIdx i)).toFinset
              ⊆ (F.eraseIdx i).toFinset ∪ Finset.range F[i] := by
            intro y hy
            rw [List.mem_toFinset, mem_foldl_setAdd] at hy
            rw [Finset.mem_union, List.mem_toFinset, Finset.mem_range]
            exact hy.imp id fun hy => hlt _ hreach y hy
          have h1 := Finset.sum_le_sum_of_subset (f := fun j => 2 ^ j) hsub
          have h2 := sum_two_pow_union (F.eraseIdx i).toFinset (Finset.range F[i])
          have h3 := sum_two_pow_range F[i]
          omega

theorem getDeps_spec (h : Heap) (pick : List Nat → Nat) (args : List Nat)
    (hlen : ∀ x ∈ args, x < h.nodes.length) (hlt : ∀ x, Reach h args x → ∀ i ∈ h.inputs x, i < x) :
    ∃ deps seen, getDeps h pick args = .ok (deps, seen) ∧ deps.Nodup ∧ seen.Nodup ∧
      (∀ x, x ∈ seen ↔ Reach h args x) ∧ ∀ x, x ∈ deps ↔ Reach h args x ∧ h.inputs x = [] := by
  apply depsLoop_spec h pick args hlt
  · exact nodup_foldl_setAdd List.nodup_nil
  · exact List.nodup_nil
  · exact List.nodup_nil
  · intro x hx
    rcases mem_foldl_setAdd.1 hx with hx | hx
    · simp at hx
    · exact Reach.arg hx
  · simp
  · intro x hx
    exact Or.inl (mem_foldl_setAdd.2 (Or.inr hx))
  · simp
  · simp
  · have hsub : (args.foldl setAdd []).toFinset ⊆ Finset.range h.nodes.length := by
      intro y hy
      rw [List.mem_toFinset, mem_foldl_setAdd] at hy
      rw [Finset.mem_range]
      exact hlen y (hy.resolve_left (by simp))
    have h1 := Finset.sum_le_sum_of_subset (f := fun j => 2 ^ j) hsub
    have h3 := sum_two_pow_range h.nodes.length
    omega

/-! ## Reachable nodes -/

theorem reach_visible {h : Heap} {V : Nat → Prop} (hw : WF h V) {args : List Nat} (hargs : ∀ x ∈ args, V x) {x : Nat}
    (hx : Reach h args x) : V x := by
  induction hx with
  | arg hx => exact hargs _ hx
  | input _ hi ih => exact hw.vin _ ih _ hi

theorem mem_needed {h : Heap} {V : Nat → Prop} (hw : WF h V) {args : List Nat} (hargs : ∀ x ∈ args, V x) {x : Nat} :
    x ∈ needed h args ↔ Reach h args x := by
  unfold needed
  rw [List.mem_filter, List.mem_range]
  simp only [decide_eq_true_eq, and_iff_right_iff_imp]
  intro hx
  exact hw.vlt x (reach_visible hw hargs hx)

theorem needed_asc (h : Heap) (args : List Nat) : (needed h args).Pairwise (· < ·) :=
  List.Pairwise.sublist List.filter_sublist List.pairwise_lt_range

theorem leaves_asc (h : Heap) (args : List Nat) : (leaves h args).Pairwise (· < ·) :=
  (needed_asc h args).sublist List.filter_sublist

theorem mem_leaves {h : Heap} {V : Nat → Prop} (hw : WF h V) {args : List Nat} (hargs : ∀ x ∈ args, V x) {x : Nat} :
    x ∈ leaves h args ↔ Reach h args x ∧ h.inputs x = [] := by
  unfold leaves isLeaf
  rw [List.mem_filter, mem_needed hw hargs, List.isEmpty_iff]

/-- Sorting by qid is sorting by creation. -/
theorem sortQid_asc {h : Heap} {V : Nat → Prop} (hw : WF h V) {F : List Nat} (hF : F.Nodup) (hv : ∀ x ∈ F, V x)
    (hasc : F.Pairwise fun a b => h.qid a = h.qid b → a < b) :
    (sortQid h F).Pairwise (· < ·) ∧ (sortQid h F).Perm F := by
  have hperm : (sortQid h F).Perm F := List.mergeSort_perm _ _
  have htrans : ∀ a b c : Nat, decide (h.qid a ≤ h.qid b) = true → decide (h.qid b ≤ h.qid c) = true →
      decide (h.qid a ≤ h.qid c) = true := by
    intro a b c; simp; omega
  have htot : ∀ a b : Nat, (decide (h.qid a ≤ h.qid b) || decide (h.qid b ≤ h.qid a)) = true := by
    intro a b; simp; omega
  refine ⟨?_, hperm⟩
  have hs := List.pairwise_mergeSort htrans htot F
  rw [List.pairwise_iff_forall_sublist] at hs hasc ⊢
  intro a b hab
  have h1 := hs hab
  simp only [decide_eq_true_eq] at h1
  have ha : a ∈ F := hperm.subset (hab.subset (by simp))
  have hb : b ∈ F := hperm.subset (hab.subset (by simp))
  have hne : a ≠ b := by
    have := (hperm.nodup_iff.2 hF).sublist hab
    simpa using this
  rcases Nat.lt_or_ge (h.qid a) (h.qid b) with h2 | h2
  · by_contra hge
    have := hw.qmono b a (by omega) (hw.vlt a (hv a ha))
    omega
  · rcases pair_sublist_cases ha hb hne with h3 | h3
    · exact hasc h3 (by omega)
    · exfalso
      have := List.pair_sublist_mergeSort (le := fun a b => decide (h.qid a ≤ h.qid b)) htrans htot (by simpa using h2) h3
      exact not_pair_both (hperm.nodup_iff.2 hF) hab this

theorem sortQid_deps {h : Heap} {V : Nat → Prop} (hw : WF h V) {args : List Nat} (hargs : ∀ x ∈ args, V x)
    {deps : List Nat} (hnd : deps.Nodup) (hmem : ∀ x, x ∈ deps ↔ Reach h args x ∧ h.inputs x = []) :
    sortQid h deps = leaves h args := by
  obtain ⟨h1, h2⟩ := sortQid_asc hw hnd (fun x hx => reach_visible hw hargs ((hmem x).1 hx).1) (by
    rw [List.pairwise_iff_forall_sublist]
    intro a b hab he
    have ha := (hmem a).1 (hab.subset (by simp))
    have hb := (hmem b).1 (hab.subset (by simp))
    have hne : a ≠ b := by
      have := hnd.sublist hab
      simpa using this
    rcases Nat.lt_or_gt_of_ne hne with hlt | hgt
    · exact hlt
    · obtain ⟨p, _, _, e, -⟩ := hw.tie b a (reach_visible hw hargs hb.1) (reach_visible hw hargs ha.1) hgt he.symm
      rw [hb.2] at e
      cases e)
  apply asc_ext h1 (leaves_asc h args)
  intro x
  rw [h2.mem_iff, hmem, mem_leaves hw hargs]

/-! ## Wires -/

theorem blocks_asc (h : Heap) (l : List Nat) (hl : l.Pairwise (· < ·)) (m : Nat) {x : Nat} (hx : x ∈ l) :
    blocks h l m x = some ((List.range (h.n x)).map (m + ((l.filter (· < x)).map h.n).sum + ·)) := by
  induction l generalizing m with
  | nil => simp at hx
  | cons q qs ih =>
    unfold blocks
    obtain ⟨h1, h2⟩ := List.pairwise_cons.1 hl
    by_cases he : x = q
    · subst he
      have : (qs.filter (· < x)) = [] := by
        rw [List.filter_eq_nil_iff]
        intro a ha
        have := h1 a ha
        simp; omega
      simp [this]
    · have hx' : x ∈ qs := (List.mem_cons.1 hx).resolve_left he
      rw [if_neg he, ih h2 _ hx', List.filter_cons_of_pos (by simpa using h1 x hx')]
      simp only [List.map_cons, List.sum_cons]
      congr 2
      funext y
      omega

theorem wires_leaf {h : Heap} {args : List Nat} {x : Nat} (hx : h.inputs x = []) :
    wires h args x = (List.range (h.n x)).map (offset h args x + ·) := by
  rw [wires, if_pos hx]

theorem wires_node {h : Heap} {args : List Nat} {x : Nat} (hx : h.inputs x ≠ []) (hlt : ∀ i ∈ h.inputs x, i < x) :
    wires h args x = match h.kind x with
      | .split is => is.map fun i => (groups h args x).flatten.getD i.toNat 0
      | _ => (groups h args x).flatten := by
  rw [wires, if_neg hx]
  have : ((h.inputs x).map fun i => if i < x then wires h args i else []) = groups h args x := by
    unfold groups
    apply List.map_congr_left
    intro i hi
    rw [if_pos (hlt i hi)]
  rw [this]
  rfl

theorem length_wires {h : Heap} {V : Nat → Prop} (hw : WF h V) (hk : ∀ x, V x → KindOK h x) {args : List Nat}
    (hargs : ∀ x ∈ args, V x) (hsz : ∀ x, Reach h args x → SizeOK h x) {x : Nat} (hx : Reach h args x) :
    (wires h args x).length = h.n x := by
  induction x using Nat.strongRecOn with
  | ind x ih =>
    by_cases hl : h.inputs x = []
    · rw [wires_leaf hl]; simp
    · have hv := reach_visible hw hargs hx
      have hlt := hw.ilt x (hw.vlt x hv)
      rw [wires_node hl hlt]
      have hlen : (groups h args x).flatten.length = ((h.inputs x).map h.n).sum := by
        unfold groups
        rw [List.length_flatten, List.map_map]
        congr 1
        apply List.map_congr_left
        intro i hi
        exact ih i (hlt i hi) (Reach.input hx hi)
      have hs := hsz x hx hl
      rcases hkx : h.kind x with _ | is | _ | _ | _ | _
      all_goals simp only
      case split =>
        have := hk x hv
        unfold KindOK at this
        rw [hkx] at this
        simp [this.1]
      all_goals
        rw [hlen, hs]
        intro is he
        rw [hkx] at he
        cases he

/-- The selection of a node's indices succeeds and gives its wires. -/
theorem selectIndex_wires {h : Heap} {V : Nat → Prop} (hw : WF h V) (hk : ∀ x, V x → KindOK h x) {args : List Nat}
    (hargs : ∀ x ∈ args, V x) (hsz : ∀ x, Reach h args x → SizeOK h x) (hsp : ∀ x, Reach h args x → SplitOK h x)
    {x : Nat} (hx : Reach h args x) (hl : h.inputs x ≠ []) :
    selectIndex (h.kind x) (groups h args x).flatten = .ok (wires h args x) := by
  have hv := reach_visible hw hargs hx
  have hlt := hw.ilt x (hw.vlt x hv)
  rw [wires_node hl hlt]
  have hlen : (groups h args x).flatten.length = ((h.inputs x).map h.n).sum := by
    unfold groups
    rw [List.length_flatten, List.map_map]
    congr 1
    apply List.map_congr_left
    intro i hi
    exact length_wires hw hk hargs hsz (Reach.input hx hi)
  have hsx := hsp x hx
  rcases hkx : h.kind x with _ | is | _ | _ | _ | _
  all_goals simp only [selectIndex]
  apply mapM_ok
  intro i hi
  obtain ⟨h1, h2⟩ := hsx is hkx i hi
  unfold pyGet
  simp only
  rw [if_neg (by omega : ¬ i < 0), if_neg (by omega)]
  have : i.toNat < (groups h args x).flatten.length := by rw [hlen]; omega
  rw [List.getElem?_eq_getElem this, List.getD_eq_getElem _ _ this]

/-! ## The loop of `run_graph` -/

/-- Invariant at the head of the loop. -/
structure LoopInv (h : Heap) (args F : List Nat) (idx : IndexMap) (S : List Nat) : Prop where
  fnd : F.Nodup
  disj : ∀ x ∈ F, x ∉ S
  fR : ∀ x ∈ F, Reach h args x
  ready : ∀ x ∈ F, ∀ i ∈ h.inputs x, i ∈ S
  complete : ∀ x, Reach h args x → (∀ i ∈ h.inputs x, i ∈ S) → x ∈ S ∨ x ∈ F
  idx : ∀ x, x ∈ S ∨ x ∈ F → idx x = some (wires h args x)
  asc : F.Pairwise fun a b => h.qid a = h.qid b → a < b

theorem mapM_lookup {idx : IndexMap} {h : Heap} {args xs : List Nat} (hx : ∀ x ∈ xs, idx x = some (wires h args x)) :
    xs.mapM (lookup idx) = .ok (xs.map (wires h args)) := by
  apply mapM_ok
  intro x hx'
  unfold lookup
  rw [hx x hx']

theorem sinkLoop_spec {σ : Type} {h : Heap} {V : Nat → Prop} (hw : WF h V) (hk : ∀ x, V x → KindOK h x)
    {args : List Nat} (hargs : ∀ x ∈ args, V x) (hsz : ∀ x, Reach h args x → SizeOK h x)
    (hsp : ∀ x, Reach h args x → SplitOK h x) {R : List Nat} (hR : ∀ x, x ∈ R ↔ Reach h args x)
    (ss : List Nat) (hss : ss.Pairwise (· ≤ ·)) (hne : ∀ s ∈ ss, h.inputs s ≠ []) (rest new S : List Nat)
    (idx : IndexMap) (acc : σ) (hnew : new.Pairwise (· < ·)) (hle : ∀ a ∈ new, ∀ s ∈ ss, a ≤ s)
    (hidx : ∀ x, x ∈ S ∨ x ∈ rest ∨ x ∈ new → idx x = some (wires h args x)) :
    ∃ more idx', ss.foldlM (sinkStep h R) (⟨rest ++ new, idx, S, acc⟩ : RunState σ)
        = .ok ⟨rest ++ (new ++ more), idx', S, acc⟩ ∧ (new ++ more).Pairwise (· < ·) ∧
      (∀ x, x ∈ more ↔ x ∈ ss ∧ Reach h args x ∧ x ∉ S ∧ x ∉ rest ∧ x ∉ new ∧ ∀ i ∈ h.inputs x, i ∈ S) ∧
      ∀ x, x ∈ S ∨ x ∈ rest ∨ x ∈ new ++ more → idx' x = some (wires h args x) := by
  induction ss generalizing new idx with
  | nil => exact ⟨[], idx, by simp; rfl, by simpa using hnew, by simp, by simpa using hidx⟩
  | cons s ss ih =>
    obtain ⟨hs1, hs2⟩ := List.pairwise_cons.1 hss
    rw [List.foldlM_cons]
    unfold sinkStep
    by_cases hc : s ∈ R ∧ s ∉ S ∧ s ∉ rest ++ new ∧ ∀ p ∈ h.inputs s, p ∈ S
    · rw [if_pos hc]
      obtain ⟨c1, c2, c3, c4⟩ := hc
      rw [List.mem_append, not_or] at c3
      have hgs : (h.inputs s).mapM (lookup idx) = .ok (groups h args s) :=
        mapM_lookup fun i hi => hidx i (Or.inl (c4 i hi))
      have hsel := selectIndex_wires hw hk hargs hsz hsp ((hR s).1 c1) (hne s (by simp))
      simp only [hgs, hsel, bind, Except.bind]
      have hnew' : (new ++ [s]).Pairwise (· < ·) := by
        rw [List.pairwise_append]
        refine ⟨hnew, by simp, ?_⟩
        intro a ha b hb
        simp at hb
        subst hb
        have := hle a ha b (by simp)
        rcases Nat.lt_or_eq_of_le this with h1 | h1
        · exact h1
        · exact absurd (h1 ▸ ha) c3.2
      obtain ⟨more, idx', h1, h2, h3, h4⟩ := ih hs2 (fun t ht => hne t (by simp [ht])) (new ++ [s])
        (fun x => if x = s then some (wires h args s) else idx x) hnew' (by
          intro a ha t ht
          rcases List.mem_append.1 ha with ha | ha
          · exact hle a ha t (by simp [ht])
          · simp at ha; subst ha; exact hs1 t ht) (by
          intro x hx
          by_cases he : x = s
          · simp [he]
          · rw [if_neg he]
            apply hidx
            simp only [List.mem_append, List.mem_singleton, he, or_false] at hx
            exact hx)
      refine ⟨s :: more, idx', ?_, ?_, ?_, ?_⟩
      · simp only [List.append_assoc, List.singleton_append] at h1 ⊢
        exact h1
      · simpa using h2
      · intro x
        rw [List.mem_cons, List.mem_cons, h3]
        constructor
        · rintro (rfl | ⟨g1, g2, g3, g4, g5, g6⟩)
          · exact ⟨Or.inl rfl, (hR x).1 c1, c2, c3.1, c3.2, c4⟩
          · exact ⟨Or.inr g1, g2, g3, g4, fun hm => g5 (List.mem_append_left _ hm), g6⟩
        · rintro ⟨g1, g2, g3, g4, g5, g6⟩
          by_cases he : x = s
          · exact Or.inl he
          · refine Or.inr ⟨g1.resolve_left he, g2, g3, g4, ?_, g6⟩
            rw [List.mem_append, not_or]
            exact ⟨g5, by simpa using he⟩
      · intro x hx
        apply h4
        simpa using hx
    · rw [if_neg hc]
      simp only [bind, Except.bind]
      obtain ⟨more, idx', h1, h2, h3, h4⟩ := ih hs2 (fun t ht => hne t (by simp [ht])) new idx hnew
        (fun a ha t ht => hle a ha t (by simp [ht])) hidx
      refine ⟨more, idx', h1, h2, ?_, h4⟩
      intro x
      rw [h3, List.mem_cons]
      constructor
      · rintro ⟨g1, g⟩; exact ⟨Or.inr g1, g⟩
      · rintro ⟨g1, g2, g3, g4, g5, g6⟩
        refine ⟨g1.resolve_left ?_, g2, g3, g4, g5, g6⟩
        rintro rfl
        exact hc ⟨(hR x).2 g2, g3, by rw [List.mem_append, not_or]; exact ⟨g4, g5⟩, g6⟩

theorem filter_min {l : List Nat} (hl : l.Pairwise (· < ·)) {S : List Nat} {p : Nat} (hp : p ∈ l) (hpS : p ∉ S)
    (hmin : ∀ x ∈ l, x ∉ S → p ≤ x) :
    l.filter (fun x => x ∉ S) = p :: l.filter (fun x => x ∉ S ++ [p]) := by
  apply asc_ext (hl.sublist List.filter_sublist)
  · rw [List.pairwise_cons]
    refine ⟨?_, hl.sublist List.filter_sublist⟩
    intro a ha
    simp only [List.mem_filter, List.mem_append, List.mem_singleton, not_or, decide_eq_true_eq] at ha
    have := hmin a ha.1 ha.2.1
    omega
  · intro x
    simp only [List.mem_filter, List.mem_cons, List.mem_append, List.not_mem_nil, or_false, not_or, decide_eq_true_eq]
    constructor
    · rintro ⟨h1, h2⟩
      by_cases he : x = p
      · exact Or.inl he
      · exact Or.inr ⟨h1, h2, he⟩
    · rintro (rfl | ⟨h1, h2, -⟩)
      · exact ⟨hp, hpS⟩
      · exact ⟨h1, h2⟩

theorem graphLoop_spec {h : Heap} {V : Nat → Prop} (hw : WF h V) (hk : ∀ x, V x → KindOK h x)
    {args : List Nat} (hargs : ∀ x ∈ args, V x) (hsz : ∀ x, Reach h args x → SizeOK h x)
    (hsp : ∀ x, Reach h args x → SplitOK h x) {R : List Nat} (hR : ∀ x, x ∈ R ↔ Reach h args x)
    {σ : Type} (feed : σ → List (List Nat) → List Nat → Nat → Except PyErr σ) (fuel : Nat) (F : List Nat)
    (idx : IndexMap) (S : List Nat) (acc : σ) (hinv : LoopInv h args F idx S)
    (hfuel : ((needed h args).filter (fun x => x ∉ S)).length ≤ fuel) :
    graphLoop h R feed fuel ⟨F, idx, S, acc⟩
      = ((needed h args).filter (fun x => x ∉ S)).foldlM (fun a x => feed a (groups h args x) (wires h args x) x) acc := by
  induction fuel generalizing F idx S acc with
  | zero =>
    have hnil : (needed h args).filter (fun x => x ∉ S) = [] := List.length_eq_zero_iff.1 (Nat.le_zero.1 hfuel)
    have hF : F = [] := by
      apply List.eq_nil_iff_forall_not_mem.2
      intro x hx
      have : x ∈ (needed h args).filter (fun x => x ∉ S) := by
        rw [List.mem_filter, mem_needed hw hargs]
        exact ⟨hinv.fR x hx, by simpa using hinv.disj x hx⟩
      rw [hnil] at this
      simp at this
    subst hF
    rw [hnil]
    unfold graphLoop
    simp [sortQid]
    rfl
  | succ fuel ih =>
    obtain ⟨s1, s2⟩ := sortQid_asc hw hinv.fnd (fun x hx => reach_visible hw hargs (hinv.fR x hx)) hinv.asc
    -- the smallest node not yet seen is in the frontier
    have hsmall : ∀ x, Reach h args x → x ∉ S → ∃ m ∈ F, m ≤ x := by
      intro x
      induction x using Nat.strongRecOn with
      | ind x ihx =>
        intro hx hxS
        by_cases hr : ∀ i ∈ h.inputs x, i ∈ S
        · exact ⟨x, (hinv.complete x hx hr).resolve_left hxS, le_rfl⟩
        · push Not at hr
          obtain ⟨i, hi, hiS⟩ := hr
          have hlt := hw.ilt x (hw.vlt x (reach_visible hw hargs hx)) i hi
          obtain ⟨m, hm, hle⟩ := ihx i hlt (Reach.input hx hi) hiS
          exact ⟨m, hm, by omega⟩
    rcases hsort : sortQid h F with _ | ⟨p, rest⟩
    · have hF : F = [] := by
        have := s2
        rw [hsort] at this
        exact this.symm.eq_nil
      have hnil : (needed h args).filter (fun x => x ∉ S) = [] := by
        rw [List.filter_eq_nil_iff]
        intro x hx
        simp only [decide_eq_true_eq, not_not]
        by_contra hxS
        obtain ⟨m, hm, -⟩ := hsmall x ((mem_needed hw hargs).1 hx) hxS
        rw [hF] at hm
        simp at hm
      rw [hnil]
      unfold graphLoop
      simp only [hsort]
      rfl
    · rw [hsort] at s1 s2
      obtain ⟨p1, p2⟩ := List.pairwise_cons.1 s1
      have hpF : p ∈ F := s2.subset (by simp)
      have hpR := hinv.fR p hpF
      have hpS := hinv.disj p hpF
      have hpV := reach_visible hw hargs hpR
      have hplt := hw.vlt p hpV
      have hpnot : p ∉ rest := (List.nodup_cons.1 (s2.nodup_iff.2 hinv.fnd)).1
      have hFmem : ∀ x, x ∈ F ↔ x = p ∨ x ∈ rest := by
        intro x; rw [← s2.mem_iff, List.mem_cons]
      have hmin : ∀ x ∈ needed h args, x ∉ S → p ≤ x := by
        intro x hx hxS
        obtain ⟨m, hm, hle⟩ := hsmall x ((mem_needed hw hargs).1 hx) hxS
        rcases (hFmem m).1 hm with rfl | hm
        · exact hle
        · have := p1 m hm; omega
      have hfil := filter_min (needed_asc h args) ((mem_needed hw hargs).2 hpR) hpS hmin
      rw [hfil, List.foldlM_cons]
      unfold graphLoop
      simp only [hsort]
      have hgs : (h.inputs p).mapM (lookup idx) = .ok (groups h args p) :=
        mapM_lookup fun i hi => hinv.idx i (Or.inl (hinv.ready p hpF i hi))
      have hown : lookup idx p = .ok (wires h args p) := by
        unfold lookup; rw [hinv.idx p (Or.inr hpF)]
      simp only [hgs, hown, bind, Except.bind]
      rcases hfeed : feed acc (groups h args p) (wires h args p) p with e | acc'
      · rfl
      · simp only
        obtain ⟨more, idx', f1, f2, f3, f4⟩ := sinkLoop_spec hw hk hargs hsz hsp hR (h.sinks p) (hw.sasc p hplt)
          (fun s hs he => by have := hw.sin p hplt s hs; rw [he] at this; simp at this) rest [] (S ++ [p]) idx acc'
          List.Pairwise.nil (by simp) (by
            intro x hx
            apply hinv.idx
            rw [List.mem_append, List.mem_singleton] at hx
            rw [hFmem]
            simp only [List.not_mem_nil, or_false] at hx
            tauto)
        rw [List.nil_append] at f1 f2 f4
        rw [List.append_nil] at f1
        rw [f1]
        simp only
        have hinv' : LoopInv h args (rest ++ more) idx' (S ++ [p]) := by
          have hrestF : ∀ x ∈ rest, x ∈ F := fun x hx => (hFmem x).2 (Or.inr hx)
          refine ⟨?_, ?_, ?_, ?_, ?_, ?_, ?_⟩
          · rw [List.nodup_append]
            refine ⟨(List.nodup_cons.1 (s2.nodup_iff.2 hinv.fnd)).2, f2.imp (fun h => Nat.ne_of_lt h), ?_⟩
            intro a ha b hb
            rintro rfl
            exact ((f3 a).1 hb).2.2.2.1 ha
          · intro x hx
            rcases List.mem_append.1 hx with hx | hx
            · rw [List.mem_append, not_or, List.mem_singleton]
              exact ⟨hinv.disj x (hrestF x hx), fun e => hpnot (e ▸ hx)⟩
            · exact ((f3 x).1 hx).2.2.1
          · intro x hx
            rcases List.mem_append.1 hx with hx | hx
            · exact hinv.fR x (hrestF x hx)
            · exact ((f3 x).1 hx).2.1
          · intro x hx i hi
            rcases List.mem_append.1 hx with hx | hx
            · exact List.mem_append_left _ (hinv.ready x (hrestF x hx) i hi)
            · exact ((f3 x).1 hx).2.2.2.2.2 i hi
          · intro x hx hr
            by_cases hxS : x ∈ S ++ [p]
            · exact Or.inl hxS
            right
            rw [List.mem_append]
            by_cases hxr : x ∈ rest
            · exact Or.inl hxr
            right
            rw [f3]
            refine ⟨?_, hx, hxS, hxr, by simp, hr⟩
            -- it was not ready before, so it consumes `p`
            have hpi : p ∈ h.inputs x := by
              by_contra hpi
              rcases hinv.complete x hx (fun i hi => by
                have := hr i hi
                rw [List.mem_append, List.mem_singleton] at this
                rcases this with h1 | rfl
                · exact h1
                · exact absurd hi hpi) with h1 | h1
              · exact hxS (List.mem_append_left _ h1)
              · rcases (hFmem x).1 h1 with rfl | h1
                · exact hxS (by simp)
                · exact hxr h1
            exact hw.link x (reach_visible hw hargs hx) p hpi
          · intro x hx
            apply f4
            simp only [List.mem_append] at hx ⊢
            tauto
          · rw [List.pairwise_append]
            refine ⟨p2.imp (S := fun a b => h.qid a = h.qid b → a < b) (fun hab _ => hab), f2.imp (S := fun a b => h.qid a = h.qid b → a < b) (fun hab _ => hab), ?_⟩
            intro r hr x hx he
            obtain ⟨g1, g2, g3, g4, -, g6⟩ := (f3 x).1 hx
            by_contra hge
            have hne : x ≠ r := by rintro rfl; exact g4 hr
            obtain ⟨p', _, _, e1, e2, -⟩ := hw.tie x r (reach_visible hw hargs g2)
              (reach_visible hw hargs (hinv.fR r (hrestF r hr))) (by omega) he.symm
            have hpx := hw.sin p hplt x g1
            rw [e1, List.mem_singleton] at hpx
            subst hpx
            exact hpS (hinv.ready r (hrestF r hr) p (by rw [e2]; simp))
        have := ih (rest ++ more) idx' (S ++ [p]) acc' hinv' (by
          rw [hfil, List.length_cons] at hfuel
          omega)
        exact this

/-- `run_graph` feeds exactly the needed nodes, in creation order, with their wires. -/
theorem runGraph_spec {h : Heap} {V : Nat → Prop} (hw : WF h V) (hk : ∀ x, V x → KindOK h x)
    {args : List Nat} (hargs : ∀ x ∈ args, V x) (hsz : ∀ x, Reach h args x → SizeOK h x)
    (hsp : ∀ x, Reach h args x → SplitOK h x) {R F : List Nat} (hR : ∀ x, x ∈ R ↔ Reach h args x) (hRnd : R.Nodup)
    (hF : F = leaves h args)
    {σ : Type} (feed : σ → List (List Nat) → List Nat → Nat → Except PyErr σ) (acc : σ) :
    runGraph h F R feed acc
      = (needed h args).foldlM (fun a x => feed a (groups h args x) (wires h args x) x) acc := by
  have hperm : R.Perm (needed h args) := by
    rw [List.perm_ext_iff_of_nodup hRnd ((needed_asc h args).imp (fun h => Nat.ne_of_lt h))]
    intro x
    rw [hR, mem_needed hw hargs]
  have hFmem : ∀ x, x ∈ F ↔ Reach h args x ∧ h.inputs x = [] := by
    intro x; rw [hF, mem_leaves hw hargs]
  have hFnd : F.Nodup := by
    rw [hF]; exact (leaves_asc h args).imp (fun h => Nat.ne_of_lt h)
  unfold runGraph
  have key := graphLoop_spec hw hk hargs hsz hsp hR feed R.length F (blocks h (sortQid h F) 0) [] acc ?_ ?_
  · rw [key]
    congr 1
    simp
  · rw [sortQid_deps hw hargs hFnd hFmem]
    refine ⟨hFnd, by simp, fun x hx => ((hFmem x).1 hx).1, ?_, ?_, ?_, ?_⟩
    · intro x hx i hi
      rw [((hFmem x).1 hx).2] at hi
      simp at hi
    · intro x hx hr
      right
      rw [hFmem]
      refine ⟨hx, List.eq_nil_iff_forall_not_mem.2 fun i hi => ?_⟩
      have := hr i hi
      simp at this
    · intro x hx
      have hx' := hx.resolve_left (by simp)
      rw [blocks_asc h _ (leaves_asc h args) 0 (by rw [← hF]; exact hx'), wires_leaf ((hFmem x).1 hx').2]
      unfold offset
      simp
    · rw [hF]; exact (leaves_asc h args).imp (S := fun a b => h.qid a = h.qid b → a < b) (fun hab _ => hab)
  · simp [hperm.length_eq]

end QIP
