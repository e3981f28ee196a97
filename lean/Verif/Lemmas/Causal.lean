import Verif.Spec.Causal
import Verif.Lemmas.Pick

/-!
# Lemmas: the order of operations and measurements
-/

namespace QIP

open Spec Heap Finset

variable {h : Heap} {V : Nat → Prop} {args : List Nat}

theorem local_project {n : Nat} (idx : List Nat) (m : Nat) : Local n idx (project n idx m) := by
  classical
  obtain ⟨E, e1, e2, e3⟩ := local_id n idx
  refine ⟨fun r c => if subIndex n (inOrder n idx) r = m then E r c else 0, ?_, ?_, ?_⟩
  · intro v r hr
    by_cases hm : subIndex n (inOrder n idx) r = m
    · simp only [project, hm, if_true]
      exact e1 v r hr
    · simp [project, hm]
  · intro r c hrc
    simp only [e2 r c hrc, ite_self]
  · intro r c r' c' h1 h2 h3 h4
    have : subIndex n (inOrder n idx) r = subIndex n (inOrder n idx) r' :=
      subIndex_congr fun q hq => h3 q (by simpa using (List.mem_filter.1 hq).2)
    simp only [this, e3 r c r' c' h1 h2 h3 h4]

theorem local_branch (c : Ctx h V args) {x : Nat} (hx : Reach h args x) (hok : NodeOK h args x) (o : Nat → Nat) :
    Local (width h args) (groups h args x).flatten fun v => branchStep (width h args) h args o v x := by
  by_cases hk : h.kind x = .measure
  · refine (local_project (groups h args x).flatten (o x)).of_eq fun v r _ => ?_
    unfold branchStep
    rw [hk]
  · refine (local_node c hx hok).of_eq fun v r _ => ?_
    rw [branchStep_other hk]

theorem branch_comm (c : Ctx h V args) (hu : UsedOnce h args) {x y : Nat} (hx : Reach h args x) (hy : Reach h args y)
    (okx : NodeOK h args x) (oky : NodeOK h args y) (hxy : ¬ Reach h [x] y) (hyx : ¬ Reach h [y] x) (o : Nat → Nat)
    (v : Nat → ℂ) {r : Nat} (hr : r < 2 ^ width h args) :
    branchStep (width h args) h args o (branchStep (width h args) h args o v y) x r
      = branchStep (width h args) h args o (branchStep (width h args) h args o v x) y r := by
  have hcase : ∀ z, Reach h args z → (∀ v, branchStep (width h args) h args o v z = v) ∨
      ∀ k ∈ (groups h args z).flatten, k ∈ wires h args z := by
    intro z hz
    have hsame : (∀ is, h.kind z ≠ .split is) → ∀ k ∈ (groups h args z).flatten, k ∈ wires h args z := by
      intro hns k hkm
      have hne : h.inputs z ≠ [] := by
        intro e
        simp [groups, e] at hkm
      rw [wires_node hne (c.ilt hz)]
      rcases hk : h.kind z with _ | is | ⟨g, d⟩ | f | _ | k
      · exact hkm
      · exact absurd hk (hns is)
      · exact hkm
      · exact hkm
      · exact hkm
      · exact hkm
    rcases hk : h.kind z with _ | is | ⟨g, d⟩ | f | _ | k
    · exact Or.inl fun v => by unfold branchStep nodeApply; simp only [hk]
    · exact Or.inl fun v => by unfold branchStep nodeApply; simp only [hk]
    · exact Or.inr (hsame (by simp [hk]))
    · exact Or.inr (hsame (by simp [hk]))
    · exact Or.inr (hsame (by simp [hk]))
    · exact Or.inl fun v => by unfold branchStep nodeApply; simp only [hk]
  rcases hcase x hx with h1 | h1
  · rw [h1, h1]
  · rcases hcase y hy with h2 | h2
    · rw [h2, h2]
    · apply Local.comm (fun q hq => c.groups_lt hx hq) (fun q hq => c.groups_lt hy hq) _ (local_branch c hx okx o)
        (local_branch c hy oky o) v hr
      intro q hq hq'
      exact c.disjoint hu hx hy hxy hyx q (h1 q hq) (h2 q hq')

theorem branch_congr (c : Ctx h V args) (o : Nat → Nat) (L : List Nat) (hL : ∀ x ∈ L, Reach h args x ∧ NodeOK h args x)
    {v w : Nat → ℂ} (hvw : ∀ r < 2 ^ width h args, v r = w r) {r : Nat} (hr : r < 2 ^ width h args) :
    branch (width h args) h args o L v r = branch (width h args) h args o L w r := by
  induction L generalizing v w with
  | nil => exact hvw r hr
  | cons x L ih =>
    have hx := hL x (by simp)
    exact ih (fun y hy => hL y (by simp [hy])) fun r hr => (local_branch c hx.1 hx.2 o).congr hvw hr

/-- Moving a node to the end past nodes it is independent of. -/
theorem branch_move (c : Ctx h V args) (hu : UsedOnce h args) (o : Nat → Nat) (x : Nat) (hx : Reach h args x ∧ NodeOK h args x)
    (A : List Nat) (hA : ∀ y ∈ A, Reach h args y ∧ NodeOK h args y) (hind : ∀ y ∈ A, ¬ Reach h [x] y ∧ ¬ Reach h [y] x)
    (v : Nat → ℂ) {r : Nat} (hr : r < 2 ^ width h args) :
    branch (width h args) h args o (A ++ [x]) v r = branch (width h args) h args o (x :: A) v r := by
  induction A generalizing v with
  | nil => rfl
  | cons y A ih =>
    have hy := hA y (by simp)
    have e := ih (fun z hz => hA z (by simp [hz])) (fun z hz => hind z (by simp [hz]))
      (branchStep (width h args) h args o v y)
    calc branch (width h args) h args o (y :: A ++ [x]) v r
        = branch (width h args) h args o (A ++ [x]) (branchStep (width h args) h args o v y) r := rfl
      _ = branch (width h args) h args o (x :: A) (branchStep (width h args) h args o v y) r := e
      _ = branch (width h args) h args o A (branchStep (width h args) h args o
            (branchStep (width h args) h args o v y) x) r := rfl
      _ = branch (width h args) h args o A (branchStep (width h args) h args o
            (branchStep (width h args) h args o v x) y) r := by
        apply branch_congr c o A (fun z hz => hA z (by simp [hz])) _ hr
        intro r hr
        exact branch_comm c hu hx.1 hy.1 hx.2 hy.2 (hind y (by simp)).1 (hind y (by simp)).2 o v hr
      _ = branch (width h args) h args o (x :: y :: A) v r := rfl

theorem branch_append (n : Nat) (o : Nat → Nat) (L M : List Nat) (w : Nat → ℂ) :
    branch n h args o (L ++ M) w = branch n h args o M (branch n h args o L w) := by
  unfold branch; rw [List.foldl_append]

/-- A node on which none of the following ones depends can be moved to the end. -/
theorem branch_last (c : Ctx h V args) (hu : UsedOnce h args) (o : Nat → Nat) (A B : List Nat) (x : Nat)
    (hx : Reach h args x ∧ NodeOK h args x)
    (hB : ∀ y ∈ B, Reach h args y ∧ NodeOK h args y) (hind : ∀ y ∈ B, ¬ Reach h [x] y ∧ ¬ Reach h [y] x)
    (v : Nat → ℂ) {r : Nat} (hr : r < 2 ^ width h args) :
    branch (width h args) h args o (A ++ x :: B) v r
      = branchStep (width h args) h args o (branch (width h args) h args o (A ++ B) v) x r := by
  rw [branch_append, ← branch_move c hu o x hx B hB hind _ hr, branch_append, branch_append]
  rfl

/-- Every order that respects dependencies does the same. -/
theorem branch_order (c : Ctx h V args) (hu : UsedOnce h args) (o : Nat → Nat)
    (N : List Nat) (hN : N.Pairwise (· < ·)) (hok : ∀ x ∈ N, Reach h args x ∧ NodeOK h args x) (L : List Nat)
    (hL : L.Perm N) (hr' : Respects h L) (v : Nat → ℂ) {r : Nat} (hr : r < 2 ^ width h args) :
    branch (width h args) h args o L v r = branch (width h args) h args o N v r := by
  induction N generalizing L v with
  | nil => rw [hL.eq_nil]
  | cons x N ih =>
    obtain ⟨hx1, hx2⟩ := List.pairwise_cons.1 hN
    have hxL : x ∈ L := hL.mem_iff.2 (by simp)
    obtain ⟨A, B, rfl⟩ := List.append_of_mem hxL
    have hperm : (A ++ B).Perm N := by
      have : (x :: (A ++ B)).Perm (x :: N) := (List.perm_middle.symm).trans hL
      exact this.cons_inv
    have hmem : ∀ y ∈ A ++ B, y ∈ N := fun y hy => hperm.mem_iff.1 hy
    have hx := hok x (by simp)
    unfold Respects at hr'
    obtain ⟨p1, p2, p3⟩ := List.pairwise_append.1 hr'
    obtain ⟨p4, p5⟩ := List.pairwise_cons.1 p2
    have hAN : ∀ y ∈ A, y ∈ N := fun y hy => hmem y (by simp [hy])
    have e1 : branch (width h args) h args o (A ++ x :: B) v r
        = branch (width h args) h args o (x :: A ++ B) v r := by
      have : A ++ x :: B = (A ++ [x]) ++ B := by simp
      rw [this, branch_append _ o (A ++ [x]) B, branch_append _ o (x :: A) B]
      apply branch_congr c o B (fun z hz => hok z (by simp [hmem z (by simp [hz])])) _ hr
      intro r hr
      apply branch_move c hu o x hx A (fun z hz => hok z (by simp [hAN z hz])) _ v hr
      intro y hy
      refine ⟨fun hre => ?_, p3 y hy x (by simp)⟩
      have := reach_single_le c hx.1 hre
      have := hx1 y (hAN y hy)
      omega
    rw [e1]
    change branch (width h args) h args o (A ++ B) (branchStep (width h args) h args o v x) r
      = branch (width h args) h args o N (branchStep (width h args) h args o v x) r
    apply ih hx2 (fun y hy => hok y (by simp [hy])) (A ++ B) hperm
    unfold Respects
    rw [List.pairwise_append]
    exact ⟨p1, p5, fun a ha b hb => p3 a ha b (by simp [hb])⟩

theorem branch_outcomes {n : Nat} {o o' : Nat → Nat} {L : List Nat} (ho : ∀ x ∈ L, o' x = o x) (v : Nat → ℂ) :
    branch n h args o' L v = branch n h args o L v := by
  unfold branch
  induction L generalizing v with
  | nil => rfl
  | cons x L ih =>
    rw [List.foldl_cons, List.foldl_cons, ih fun y hy => ho y (by simp [hy])]
    congr 1
    unfold branchStep
    rw [ho x (by simp)]

theorem totalProb_congr' {n : Nat} {v w : Nat → ℂ} (hv : ∀ r < 2 ^ n, v r = w r) : totalProb n v = totalProb n w := by
  unfold totalProb
  exact Finset.sum_congr rfl fun c hc => by rw [hv c (mem_range.1 hc)]

/-- The results of a run are those of its nodes. -/
theorem steps_keys {n : Nat} {L : List Nat} {v v' : Nat → ℂ} {cs : List (Nat × Classic)} (hs : Steps n h args L v v' cs) :
    cs.map Prod.fst = L := by
  induction hs with
  | nil _ => rfl
  | cons _ _ ih => simp [ih]

theorem steps_measure {n : Nat} {L : List Nat} {v v' : Nat → ℂ} {cs : List (Nat × Classic)} (hs : Steps n h args L v v' cs)
    {x : Nat} (hx : x ∈ L) (hk : h.kind x = .measure) :
    ∃ m p, m < 2 ^ (groups h args x).flatten.length ∧ (x, Classic.bits m p) ∈ cs := by
  induction hs with
  | nil _ => simp at hx
  | @cons y L v v' v'' cl cs h1 h2 ih =>
    rcases List.mem_cons.1 hx with rfl | hx
    · unfold StepSpec at h1
      simp only [hk] at h1
      obtain ⟨m, p, rfl, hm, -⟩ := h1
      exact ⟨m, p, hm, by simp⟩
    · obtain ⟨m, p, hm, hc⟩ := ih hx
      exact ⟨m, p, hm, by simp [hc]⟩

theorem classic_unique {cs : List (Nat × Classic)} (hn : (cs.map Prod.fst).Nodup) {x : Nat} {a b : Classic} (ha : (x, a) ∈ cs)
    (hb : (x, b) ∈ cs) : a = b := by
  induction cs with
  | nil => simp at ha
  | cons y cs ih =>
    rw [List.map_cons, List.nodup_cons] at hn
    rcases List.mem_cons.1 ha with rfl | ha' <;> rcases List.mem_cons.1 hb with hb' | hb'
    · exact (Prod.mk.inj hb').2.symm
    · exact absurd (List.mem_map.2 ⟨_, hb', rfl⟩) hn.1
    · subst hb'
      exact absurd (List.mem_map.2 ⟨_, ha', rfl⟩) hn.1
    · exact ih hn.2 ha' hb'

end QIP
