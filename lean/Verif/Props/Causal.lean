import Verif.Lemmas.Causal
import Verif.Props.Born

/-!
# What a measurement does not depend on: C122
-/

namespace QIP.Props

open QIP Spec Heap Finset MeasureTheory

section
variable {h : Heap} {env args : List Nat} {feed : List (List Nat × List ℂ)} {e : Env} {P : Nat → Prop}

theorem closed_reach (hP : ∀ x, P x → ∀ i ∈ h.inputs x, P i) {x y : Nat} (hx : P x) (hy : Reach h [x] y) : P y := by
  induction hy with
  | arg hm => rw [List.mem_singleton] at hm; exact hm ▸ hx
  | input _ hi ih => exact hP _ ih _ hi

theorem reportsOf_congr {Q : Nat → Prop} {o o' : Nat → Nat} (hPQ : ∀ x ∈ measures h args, P x ↔ Q x)
    (ho : ∀ x ∈ measures h args, P x → o x = o' x) : reportsOf h args feed e P o = reportsOf h args feed e Q o' := by
  ext u
  refine and_congr_right fun _ => exists_congr fun out => exists_congr fun cl => exists_congr fun ms =>
    and_congr_right fun _ => ?_
  constructor
  · intro k x hx hq
    have hp := (hPQ x hx).2 hq
    rw [← ho x hx hp]
    exact k x hx hp
  · intro k x hx hp
    rw [ho x hx hp]
    exact k x hx ((hPQ x hx).1 hp)

theorem reportsOf_all {o : Nat → Nat} (hP : ∀ x ∈ measures h args, P x) :
    reportsOf h args feed e P o = drawsOf h args feed e o := by
  ext u
  exact and_congr_right fun _ => exists_congr fun out => exists_congr fun cl => exists_congr fun ms =>
    and_congr_right fun _ => ⟨fun k x hx => k x hx (hP x hx), fun k x hx _ => k x hx⟩

open Classical in
/-- The nodes `P` and those created before `b`. -/
theorem marginal (c : Circuit h env args) (hu : UsedOnce h args) (hok : ∀ x, Reach h args x → NodeOK h args x)
    (hm : ∀ x, Reach h args x → h.kind x = .measure ∨ NoMeasure h args x) (hf : FeedOK h args feed)
    (hdef : ∀ q ∈ leaves h args, q ∉ (feed.map (·.1)).flatten → DefaultOK h q) (he : EnvOK h args e)
    (hg : ∀ x, (e.orc x).garbage = 0) (hT : 0 < totalProb (width h args) (startAmp h args feed))
    (hP : ∀ x, P x → ∀ i ∈ h.inputs x, P i) (k : Nat) : ∀ b, h.nodes.length ≤ b + k → ∀ o : Nat → Nat,
    (∀ x ∈ measures h args, (P x ∨ x < b) → o x < 2 ^ (groups h args x).flatten.length) →
    NullMeasurableSet (reportsOf h args feed e (fun x => P x ∨ x < b) o) ∧
    volume (reportsOf h args feed e (fun x => P x ∨ x < b) o) = ENNReal.ofReal
      (totalProb (width h args) (branch (width h args) h args o ((needed h args).filter fun x => decide (P x ∨ x < b))
        (startAmp h args feed)) / totalProb (width h args) (startAmp h args feed)) := by
  have c0 := c
  obtain ⟨V, c⟩ := c.ctx
  have hnd : (needed h args).Nodup := (needed_asc h args).imp fun h => Nat.ne_of_lt h
  have hlen : ∀ x ∈ needed h args, x < h.nodes.length := by
    intro x hx
    unfold needed at hx
    exact List.mem_range.1 (List.mem_filter.1 hx).1
  have hrch : ∀ x ∈ needed h args, Reach h args x := fun x hx => (mem_needed c.wf c.vargs).1 hx
  induction k with
  | zero =>
    intro b hb o ho
    have hall : ∀ x ∈ needed h args, P x ∨ x < b := fun x hx => Or.inr (by have := hlen x hx; omega)
    have hall' : ∀ x ∈ measures h args, P x ∨ x < b := fun x hx => hall x (mem_measures.1 hx).1
    rw [reportsOf_all hall', List.filter_eq_self.2 fun x hx => decide_eq_true (hall x hx)]
    exact ⟨draws_null c0 hok hm hf hdef he hg hT o fun x hx => ho x hx (hall' x hx),
      C85_joint_partial c0 hok hm hf hdef he hg hT o fun x hx => ho x hx (hall' x hx)⟩
  | succ k ih =>
    intro b hb o ho
    have ih' := ih (b + 1) (by omega)
    by_cases hbn : b ∈ needed h args ∧ ¬ P b
    swap
    · have hiff : ∀ x ∈ needed h args, (P x ∨ x < b) ↔ (P x ∨ x < b + 1) := by
        intro x hx
        constructor
        · rintro (h1 | h1)
          · exact Or.inl h1
          · exact Or.inr (by omega)
        · rintro (h1 | h1)
          · exact Or.inl h1
          · rcases Nat.lt_succ_iff_lt_or_eq.1 h1 with h2 | rfl
            · exact Or.inr h2
            · exact Or.inl (by by_contra hn; exact hbn ⟨hx, hn⟩)
      rw [reportsOf_congr (Q := fun x => P x ∨ x < b + 1) (o' := o) (fun x hx => hiff x (mem_measures.1 hx).1) fun _ _ _ => rfl,
        List.filter_congr (q := fun x => decide (P x ∨ x < b + 1)) fun x hx => decide_eq_decide.2 (hiff x hx)]
      exact ih' o fun x hx hpx => ho x hx ((hiff x (mem_measures.1 hx).1).2 hpx)
    · obtain ⟨hbm, hbP⟩ := hbn
      have hbr := hrch b hbm
      obtain ⟨A, B, hAB⟩ := List.append_of_mem hbm
      have hasc := needed_asc h args
      rw [hAB, List.pairwise_append, List.pairwise_cons] at hasc
      obtain ⟨-, ⟨hB, -⟩, hA⟩ := hasc
      have hA' : ∀ a ∈ A, a < b := fun a ha => hA a ha b (by simp)
      have hAm : ∀ a ∈ A, a ∈ needed h args := fun a ha => by rw [hAB]; simp [ha]
      have hBm : ∀ a ∈ B, a ∈ needed h args := fun a ha => by rw [hAB]; simp [ha]
      set B' := B.filter fun x => decide (P x ∨ x < b) with hB'
      have hB1 : ∀ x ∈ B', P x ∧ x ∈ B := by
        intro x hx
        have := List.mem_filter.1 hx
        have h2 := hB x this.1
        refine ⟨?_, this.1⟩
        rcases of_decide_eq_true this.2 with h3 | h3
        · exact h3
        · omega
      have f0 : (needed h args).filter (fun x => decide (P x ∨ x < b)) = A ++ B' := by
        rw [hAB, List.filter_append, List.filter_cons_of_neg (by simp [hbP]),
          List.filter_eq_self.2 fun x hx => decide_eq_true (Or.inr (hA' x hx))]
      have f1 : (needed h args).filter (fun x => decide (P x ∨ x < b + 1)) = A ++ b :: B' := by
        rw [hAB, List.filter_append, List.filter_cons_of_pos (by simp),
          List.filter_eq_self.2 fun x hx => decide_eq_true (Or.inr (by have := hA' x hx; omega)), hB']
        congr 2
        apply List.filter_congr
        intro x hx
        have := hB x hx
        rw [decide_eq_decide]
        constructor
        · rintro (h1 | h1)
          · exact Or.inl h1
          · omega
        · rintro (h1 | h1)
          · exact Or.inl h1
          · omega
      have hlast : ∀ o' : Nat → Nat, totalProb (width h args) (branch (width h args) h args o' (A ++ b :: B') (startAmp h args feed))
          = totalProb (width h args) (branchStep (width h args) h args o'
              (branch (width h args) h args o' (A ++ B') (startAmp h args feed)) b) := by
        intro o'
        apply totalProb_congr'
        intro r hr
        refine branch_last c hu o' A B' b ⟨hbr, hok b hbr⟩ (fun y hy => ?_) (fun y hy => ⟨?_, ?_⟩) _ hr
        · have := hrch y (hBm y (hB1 y hy).2)
          exact ⟨this, hok y this⟩
        · intro hby
          have h1 := reach_single_le c hbr hby
          have h2 := hB y (hB1 y hy).2
          omega
        · intro hyb
          exact hbP (closed_reach hP (hB1 y hy).1 hyb)
      rcases hm b hbr with hkb | hkb
      · -- a measurement: its outcomes are disjoint and exhaust the possibilities
        have hbM : b ∈ measures h args := mem_measures.2 ⟨hbm, hkb⟩
        set N := 2 ^ (groups h args b).flatten.length with hN
        have ho' : ∀ m < N, ∀ x ∈ measures h args, (P x ∨ x < b + 1) →
            Function.update o b m x < 2 ^ (groups h args x).flatten.length := by
          intro m hm' x hx hpx
          by_cases hxb : x = b
          · subst hxb
            rw [Function.update_self]
            exact hm'
          · rw [Function.update_of_ne hxb]
            refine ho x hx ?_
            rcases hpx with h1 | h1
            · exact Or.inl h1
            · exact Or.inr (by omega)
        have hstep := fun m hm' => ih' (Function.update o b m) (ho' m hm')
        have hun : reportsOf h args feed e (fun x => P x ∨ x < b) o
            = ⋃ m ∈ range N, reportsOf h args feed e (fun x => P x ∨ x < b + 1) (Function.update o b m) := by
          ext u
          simp only [Set.mem_iUnion, mem_range, exists_prop]
          constructor
          · rintro ⟨hu0, out, cl, ms, hr, hcl⟩
            obtain ⟨-, v, -, hs⟩ := C35_run_sound c0 hok hf hdef (withDraws_ok he (measures h args) u) hr
            obtain ⟨m, p, hm', hmp⟩ := steps_measure hs hbm hkb
            refine ⟨m, hm', hu0, out, cl, ms, hr, ?_⟩
            intro x hx hpx
            by_cases hxb : x = b
            · subst hxb
              rw [Function.update_self]
              exact ⟨p, hmp⟩
            · rw [Function.update_of_ne hxb]
              refine hcl x hx ?_
              rcases hpx with h1 | h1
              · exact Or.inl h1
              · exact Or.inr (by omega)
          · rintro ⟨m, hm', hu0, out, cl, ms, hr, hcl⟩
            refine ⟨hu0, out, cl, ms, hr, ?_⟩
            intro x hx hpx
            have hxb : x ≠ b := by
              rintro rfl
              rcases hpx with h1 | h1
              · exact hbP h1
              · omega
            have := hcl x hx (by rcases hpx with h1 | h1; exacts [Or.inl h1, Or.inr (by omega)])
            rwa [Function.update_of_ne hxb] at this
        have hdis : Set.Pairwise (range N : Set Nat) (Function.onFun (AEDisjoint volume)
            fun m => reportsOf h args feed e (fun x => P x ∨ x < b + 1) (Function.update o b m)) := by
          intro m _ m' _ hne
          apply Disjoint.aedisjoint
          rw [Set.disjoint_left]
          rintro u ⟨-, out, cl, ms, hr, hcl⟩ ⟨-, out', cl', ms', hr', hcl'⟩
          rw [hr] at hr'
          simp only [Except.ok.injEq, Prod.mk.injEq] at hr'
          obtain ⟨-, rfl, -⟩ := hr'
          obtain ⟨-, v, -, hs⟩ := C35_run_sound c0 hok hf hdef (withDraws_ok he (measures h args) u) hr
          obtain ⟨p, hp⟩ := hcl b hbM (Or.inr (by omega))
          obtain ⟨p', hp'⟩ := hcl' b hbM (Or.inr (by omega))
          rw [Function.update_self] at hp hp'
          have := classic_unique (by rw [steps_keys hs]; exact hnd) hp hp'
          simp only [Classic.bits.injEq] at this
          exact hne this.1
        have hnull : ∀ m ∈ range N, NullMeasurableSet
            (reportsOf h args feed e (fun x => P x ∨ x < b + 1) (Function.update o b m)) :=
          fun m hm' => (hstep m (mem_range.1 hm')).1
        rw [hun]
        refine ⟨NullMeasurableSet.biUnion (Finset.countable_toSet _) hnull, ?_⟩
        rw [measure_biUnion_finset₀ hdis hnull, f0]
        have hbr' : ∀ m, branch (width h args) h args (Function.update o b m) (A ++ B') (startAmp h args feed)
            = branch (width h args) h args o (A ++ B') (startAmp h args feed) := by
          intro m
          apply branch_outcomes
          intro x hx
          have hxb : x ≠ b := by
            rintro rfl
            rcases List.mem_append.1 hx with h1 | h1
            · exact absurd (hA' x h1) (by omega)
            · exact hbP (hB1 x h1).1
          rw [Function.update_of_ne hxb]
        set w := branch (width h args) h args o (A ++ B') (startAmp h args feed) with hw
        have hone : ∀ m ∈ range N, volume (reportsOf h args feed e (fun x => P x ∨ x < b + 1) (Function.update o b m))
            = ENNReal.ofReal (outcomeProb (width h args) (groups h args b).flatten w m
                / totalProb (width h args) (startAmp h args feed)) := by
          intro m hm'
          rw [(hstep m (mem_range.1 hm')).2, f1, hlast, hbr', branchStep_measure hkb, totalProb_project, Function.update_self]
        rw [Finset.sum_congr rfl hone, ← ENNReal.ofReal_sum_of_nonneg, ← Finset.sum_div, hN,
          (measure_idx c hbr (hok b hbr)).sum_outcomeProb]
        intro m _
        refine div_nonneg ?_ hT.le
        unfold outcomeProb
        exact Finset.sum_nonneg fun _ _ => Complex.normSq_nonneg _
      · have hnm : ∀ x ∈ measures h args, (P x ∨ x < b) ↔ (P x ∨ x < b + 1) := by
          intro x hx
          have hxb : x ≠ b := by
            rintro rfl
            exact hkb.1 (mem_measures.1 hx).2
          constructor
          · rintro (h1 | h1)
            · exact Or.inl h1
            · exact Or.inr (by omega)
          · rintro (h1 | h1)
            · exact Or.inl h1
            · exact Or.inr (by omega)
        obtain ⟨h1, h2⟩ := ih' o fun x hx hpx => ho x hx ((hnm x hx).2 hpx)
        rw [reportsOf_congr (Q := fun x => P x ∨ x < b + 1) (o' := o) hnm fun _ _ _ => rfl]
        refine ⟨h1, ?_⟩
        rw [h2, f0, f1, hlast, branchStep_other hkb.1, total_node c hbr (hok b hbr) hkb]

open Classical in
/-- **C122**, Born's rule for some of the measurements: the draws with which the measurements among the nodes `P` report
the given outcomes, whatever the others report, have as their volume the squared norm of the state after the nodes `P`
alone.  `P` contains what its nodes depend on. -/
theorem C122_marginal_partial (c : Circuit h env args) (hu : UsedOnce h args) (hok : ∀ x, Reach h args x → NodeOK h args x)
    (hm : ∀ x, Reach h args x → h.kind x = .measure ∨ NoMeasure h args x) (hf : FeedOK h args feed)
    (hdef : ∀ q ∈ leaves h args, q ∉ (feed.map (·.1)).flatten → DefaultOK h q) (he : EnvOK h args e)
    (hg : ∀ x, (e.orc x).garbage = 0) (hT : 0 < totalProb (width h args) (startAmp h args feed))
    (hP : ∀ x, P x → ∀ i ∈ h.inputs x, P i) (o : Nat → Nat)
    (ho : ∀ x ∈ measures h args, P x → o x < 2 ^ (groups h args x).flatten.length) :
    volume (reportsOf h args feed e P o) = ENNReal.ofReal
      (totalProb (width h args) (branch (width h args) h args o ((needed h args).filter fun x => decide (P x))
        (startAmp h args feed)) / totalProb (width h args) (startAmp h args feed)) := by
  have := (marginal c hu hok hm hf hdef he hg hT hP h.nodes.length 0 (by omega) o (by simpa using ho)).2
  simpa using this

theorem reach_parts {part : List Nat} (hp : ∀ x ∈ part, Reach h args x) {x : Nat} (hx : Reach h part x) : Reach h args x := by
  induction hx with
  | arg hx => exact hp _ hx
  | input _ hi ih => exact .input ih hi

open Classical in
theorem needed_parts {part : List Nat} (hp : ∀ x ∈ part, Reach h args x) :
    needed h part = (needed h args).filter fun x => decide (Reach h part x) := by
  unfold needed
  rw [List.filter_filter]
  apply List.filter_congr
  intro x _
  by_cases hx : Reach h part x
  · simp [hx, reach_parts hp hx]
  · simp [hx]

theorem branch_leaves {a b : List Nat} (hl : leaves h a = leaves h b) (n : Nat) (o : Nat → Nat) (L : List Nat) :
    branch n h a o L = branch n h b o L := by
  have : branchStep n h a o = branchStep n h b o := by
    funext v x
    unfold branchStep
    rw [nodeApply_leaves hl, groups_leaves hl]
  funext v
  unfold branch
  rw [this]

/-- **C122**: measurements do not notice what they do not depend on.  Take any nodes `part` of a circuit that together
depend on all its qubits.  Running the whole circuit, the measurements that `part` depends on report given outcomes with
the probability with which a run of `part` alone reports them: operations and measurements applied later, or applied to
other qubits, entangled or not, change nothing.  Partial: as `C85_joint_partial`. -/
theorem C122_causal_partial (c : Circuit h env args) (hu : UsedOnce h args) (hok : ∀ x, Reach h args x → NodeOK h args x)
    (hm : ∀ x, Reach h args x → h.kind x = .measure ∨ NoMeasure h args x) (hf : FeedOK h args feed)
    (hdef : ∀ q ∈ leaves h args, q ∉ (feed.map (·.1)).flatten → DefaultOK h q) (he : EnvOK h args e)
    (hg : ∀ x, (e.orc x).garbage = 0) (hT : 0 < totalProb (width h args) (startAmp h args feed)) {part : List Nat}
    (hp : ∀ x ∈ part, Reach h args x) (cp : Circuit h env part) (hl : leaves h part = leaves h args) {e' : Env}
    (he' : EnvOK h part e') (hg' : ∀ x, (e'.orc x).garbage = 0) (o : Nat → Nat)
    (ho : ∀ x ∈ measures h part, o x < 2 ^ (groups h args x).flatten.length) :
    volume (reportsOf h args feed e (Reach h part) o) = volume (drawsOf h part feed e' o) := by
  classical
  obtain ⟨V', cp'⟩ := cp.ctx
  have hok' : ∀ x, Reach h part x → NodeOK h part x := by
    intro x hx
    have := hok x (reach_parts hp hx)
    exact ⟨by rw [groups_leaves hl]; exact this.distinct, this.gate,
      by rw [groups_leaves hl, width_leaves hl]; exact this.fop⟩
  have hm' : ∀ x, Reach h part x → h.kind x = .measure ∨ NoMeasure h part x := by
    intro x hx
    unfold NoMeasure
    rw [groups_leaves hl]
    exact hm x (reach_parts hp hx)
  have hf' : FeedOK h part feed := ⟨hf.nodup, by rw [hl]; exact hf.mem, hf.size⟩
  have hms : ∀ x ∈ measures h args, Reach h part x → x ∈ measures h part := fun x hx hr =>
    mem_measures.2 ⟨(mem_needed cp'.wf cp'.vargs).2 hr, (mem_measures.1 hx).2⟩
  rw [C122_marginal_partial c hu hok hm hf hdef he hg hT (fun x hx i hi => .input hx hi) o
      fun x hx hr => ho x (hms x hx hr),
    C85_joint_partial cp hok' hm' hf' (by rw [hl]; exact hdef) he' hg'
      (by rw [startAmp_leaves hl, width_leaves hl]; exact hT) o fun x hx => by
        rw [groups_leaves hl]; exact ho x hx]
  unfold jointProb
  rw [startAmp_leaves hl, width_leaves hl, branch_leaves hl, needed_parts hp]

/-- **C122**, no signalling: two circuits with the same qubits that share the nodes `part`.  Whatever else they do, with the
other qubits or later, the measurements that `part` depends on report given outcomes with the same probability in both.
Partial: as `C85_joint_partial`. -/
theorem C122_no_signal_partial (c : Circuit h env args) (hu : UsedOnce h args)
    (hok : ∀ x, Reach h args x → NodeOK h args x) (hm : ∀ x, Reach h args x → h.kind x = .measure ∨ NoMeasure h args x)
    (he : EnvOK h args e) (hg : ∀ x, (e.orc x).garbage = 0) {env' args' : List Nat} (c' : Circuit h env' args')
    (hu' : UsedOnce h args') (hok' : ∀ x, Reach h args' x → NodeOK h args' x)
    (hm' : ∀ x, Reach h args' x → h.kind x = .measure ∨ NoMeasure h args' x) {e' : Env} (he' : EnvOK h args' e')
    (hg' : ∀ x, (e'.orc x).garbage = 0) (hl : leaves h args' = leaves h args) (hf : FeedOK h args feed)
    (hdef : ∀ q ∈ leaves h args, q ∉ (feed.map (·.1)).flatten → DefaultOK h q)
    (hT : 0 < totalProb (width h args) (startAmp h args feed)) {part : List Nat} (hp : ∀ x ∈ part, Reach h args x)
    (hp' : ∀ x ∈ part, Reach h args' x) (o : Nat → Nat)
    (ho : ∀ x ∈ measures h part, o x < 2 ^ (groups h args x).flatten.length) :
    volume (reportsOf h args feed e (Reach h part) o) = volume (reportsOf h args' feed e' (Reach h part) o) := by
  classical
  have hms : ∀ {a : List Nat}, (∀ x ∈ part, Reach h a x) → ∀ x ∈ measures h a, Reach h part x → x ∈ measures h part := by
    intro a ha x hx hr
    refine mem_measures.2 ⟨?_, (mem_measures.1 hx).2⟩
    rw [needed_parts ha]
    exact List.mem_filter.2 ⟨(mem_measures.1 hx).1, decide_eq_true hr⟩
  rw [C122_marginal_partial c hu hok hm hf hdef he hg hT (fun x hx i hi => .input hx hi) o
      fun x hx hr => ho x (hms hp x hx hr),
    C122_marginal_partial c' hu' hok' hm' ⟨hf.nodup, by rw [hl]; exact hf.mem, hf.size⟩ (by rw [hl]; exact hdef) he' hg'
      (by rw [startAmp_leaves hl, width_leaves hl]; exact hT) (fun x hx i hi => .input hx hi) o
      fun x hx hr => by rw [groups_leaves hl]; exact ho x (hms hp' x hx hr),
    ← needed_parts hp, ← needed_parts hp', startAmp_leaves hl, width_leaves hl, branch_leaves hl]

/-- **C36** with measurements: every order of the needed nodes that respects dependencies gives the probability with which
the measurements of a run report given outcomes, and the state such a run returns.  Partial: as `C85_joint_partial`. -/
theorem C36_measured_partial (c : Circuit h env args) (hu : UsedOnce h args) (hok : ∀ x, Reach h args x → NodeOK h args x)
    (hm : ∀ x, Reach h args x → h.kind x = .measure ∨ NoMeasure h args x) (hf : FeedOK h args feed)
    (hdef : ∀ q ∈ leaves h args, q ∉ (feed.map (·.1)).flatten → DefaultOK h q) (he : EnvOK h args e)
    (hg : ∀ x, (e.orc x).garbage = 0) (hT : totalProb (width h args) (startAmp h args feed) = 1) {order : List Nat}
    (hn : order.Nodup) (hmem : ∀ x, x ∈ order ↔ Reach h args x) (hr : Respects h order) (o : Nat → Nat)
    (ho : ∀ x ∈ measures h args, o x < 2 ^ (groups h args x).flatten.length) {p : ℝ} {v : Nat → ℂ}
    (hv : v = branch (width h args) h args o order (startAmp h args feed)) (hp : p = totalProb (width h args) v) :
    volume (drawsOf h args feed e o) = ENNReal.ofReal p ∧
      ((∀ x, 0 ≤ (e.orc x).u ∧ (e.orc x).u < 1) → ∀ out cl ms,
        QIP.run h (fun _ => none) args (feed.map asFeed) false none e.pick e.shuffle e.orc e.arena = .ok (out, cl, ms) →
        (∀ x ∈ measures h args, ∃ p, (x, Classic.bits (o x) p) ∈ cl) →
        0 < p ∧ ∀ r < 2 ^ width h args, out.getD r 0 = v r / (√p : ℝ)) := by
  obtain ⟨V, c'⟩ := c.ctx
  have hb : ∀ r < 2 ^ width h args, v r = branch (width h args) h args o (needed h args) (startAmp h args feed) r := by
    intro r hr'
    rw [hv]
    refine branch_order c' hu o (needed h args) (needed_asc h args) (fun x hx => ?_) order ?_ hr _ hr'
    · have := (mem_needed c'.wf c'.vargs).1 hx
      exact ⟨this, hok x this⟩
    · refine (List.perm_ext_iff_of_nodup hn ((needed_asc h args).imp fun h => Nat.ne_of_lt h)).2 fun x => ?_
      rw [hmem, mem_needed c'.wf c'.vargs]
  have hj : jointProb h args feed o = p := by
    unfold jointProb
    rw [hT, div_one, hp, totalProb_congr' hb]
  constructor
  · rw [C85_joint_partial c hok hm hf hdef he hg (by rw [hT]; exact one_pos) o ho, hj]
  · intro hu' out cl ms hrun hout
    obtain ⟨k1, k2⟩ := C85_state_partial c hok hm hf hdef he hg hT hu' hrun hout
    rw [hj] at k1 k2
    exact ⟨k1, fun r hr' => by rw [k2 r hr', hb r hr']⟩

end

/-! ## Example: the first measurement of `q = Qubit(); m1 = Measure(H(q)); m2 = Measure(H(m1))` -/

theorem coins_reach2 (x : Nat) : Reach coins [2] x ↔ x ∈ [0, 1, 2] := by
  obtain ⟨i0, i1, i2, i3, i4, -⟩ := coins_facts
  constructor
  · exact reach_sub (by simp) (by
      intro y hy
      simp only [List.mem_cons, List.not_mem_nil, or_false] at hy
      rcases hy with rfl | rfl | rfl <;> simp [*])
  · have h2 : Reach coins [2] 2 := .arg (by simp)
    have h1 : Reach coins [2] 1 := .input h2 (by simp [i2])
    have h0 : Reach coins [2] 0 := .input h1 (by simp [i1])
    intro hx
    simp only [List.mem_cons, List.not_mem_nil, or_false] at hx
    rcases hx with rfl | rfl | rfl <;> assumption

theorem coins_circuit2 : Circuit coins [0, 1, 2, 3, 4] [2] := by
  have hr : ∀ x, Reach coins [2] x → Reach coins [4] x := by
    intro x hx
    rw [coins_reach]
    have := (coins_reach2 x).1 hx
    simp only [List.mem_cons, List.not_mem_nil, or_false] at this ⊢
    omega
  exact ⟨coins_built, by simp, fun x hx => coins_circuit.size x (hr x hx), fun x hx => coins_circuit.split x (hr x hx)⟩

theorem coins_once : UsedOnce coins [4] := by
  obtain ⟨i0, i1, i2, i3, i4, k0, k1, k2, k3, k4, -⟩ := coins_facts
  refine ⟨?_, ?_, ?_⟩
  · intro x hx
    have := (coins_reach x).1 hx
    simp only [List.mem_cons, List.not_mem_nil, or_false] at this
    rcases this with rfl | rfl | rfl | rfl | rfl <;> simp [*]
  · intro x hx is hk
    have := (coins_reach x).1 hx
    simp only [List.mem_cons, List.not_mem_nil, or_false] at this
    rcases this with rfl | rfl | rfl | rfl | rfl <;> simp [*] at hk
  · intro x y p hx hy hne hpx hpy
    have h1 := (coins_reach x).1 hx
    have h2 := (coins_reach y).1 hy
    simp only [List.mem_cons, List.not_mem_nil, or_false] at h1 h2
    rcases h1 with rfl | rfl | rfl | rfl | rfl <;> rcases h2 with rfl | rfl | rfl | rfl | rfl <;>
      simp [*] at hpx hpy hne <;> omega

/-- The first measurement is reported as if the second did not exist. -/
example (o : Nat → Nat) (h2 : o 2 < 2) : ∃ e e', EnvOK coins [4] e ∧ EnvOK coins [2] e' ∧
    volume (reportsOf coins [4] [] e (Reach coins [2]) o) = volume (drawsOf coins [2] [] e' o) := by
  have he : ∀ a, EnvOK coins a ⟨fun _ => 0, id, fun x => ⟨List.range (2 ^ width coins a),
    (faCounters (width coins a) ((groups coins a x).getD 0 []) ((groups coins a x).getD 1 [])), fun _ => 0, 0, 0⟩,
    List.replicate (2 ^ width coins a) 0⟩ := fun a => ⟨fun _ => .refl _, fun _ => .refl _, fun _ => .refl _, by simp⟩
  refine ⟨_, _, he [4], he [2], ?_⟩
  obtain ⟨w1, w2, w3, g0, g1, g2, g3, g4, w0⟩ := coins_wires
  obtain ⟨i0, i1, i2, i3, i4, k0, k1, k2, k3, k4, -⟩ := coins_facts
  obtain ⟨V, c⟩ := coins_circuit2.ctx
  have n2 := needed_known c (by simp) coins_reach2
  refine C122_causal_partial coins_circuit coins_once coins_ok coins_measure ⟨by simp, by simp, by simp⟩ ?_ (he [4])
    (fun _ => rfl) (by rw [coins_total]; exact one_pos) ?_ coins_circuit2 ?_ (he [2]) (fun _ => rfl) o ?_
  · intro q hq _
    rw [w2, List.mem_singleton] at hq
    subst hq
    unfold DefaultOK
    rw [coins_facts.2.2.2.2.2.2.2.2.2.2.2.2.2.2.2]
    trivial
  · intro x hx
    rw [List.mem_singleton] at hx
    rw [coins_reach, hx]
    simp
  · rw [w2]
    simp [leaves, n2, isLeaf, i0, i1, i2]
  · intro x hx
    have hx' := mem_measures.1 hx
    rw [n2] at hx'
    have h3 := hx'.1
    have h4 := hx'.2
    simp only [List.mem_cons, List.not_mem_nil, or_false] at h3
    rcases h3 with rfl | rfl | rfl
    · rw [k0] at h4; cases h4
    · rw [k1] at h4; cases h4
    · simpa [g2] using h2

/-! ## Example: `a = Qubit(); b = Qubit(); m = Measure(a)`, with and without `H(b)`, fed with an entangled state -/

def bobCmds : List Cmd := [.qubit [] none none, .qubit [] none none, .measure [0], .op (.gate .h) false [1]]

def bob : Heap := (runCmds bobCmds (Heap.empty, [])).1

theorem bob_facts : bob.inputs 0 = [] ∧ bob.inputs 1 = [] ∧ bob.inputs 2 = [0] ∧ bob.inputs 3 = [1] ∧
    bob.kind 0 = .qubit ∧ bob.kind 1 = .qubit ∧ bob.kind 2 = .measure ∧ bob.kind 3 = .gate .h false ∧
    bob.n 0 = 1 ∧ bob.n 1 = 1 ∧ bob.n 2 = 1 ∧ bob.n 3 = 1 :=
  ⟨rfl, rfl, rfl, rfl, rfl, rfl, rfl, rfl, rfl, rfl, rfl, rfl⟩

theorem bob_built : Built bob [0, 1, 2, 3] := by
  have e : (runCmds bobCmds (Heap.empty, [])).2 = [0, 1, 2, 3] := rfl
  rw [← e]
  refine built_runCmds _ _ Built.start ?_
  simp only [bobCmds, cmdsOK, Cmd.args, and_true]
  refine ⟨by simp, by simp, ?_, ?_⟩
  · change ∀ x ∈ [0], x ∈ [0, 1]; decide
  · change ∀ x ∈ [1], x ∈ [0, 1, 2]; decide

theorem bob_reach {args : List Nat} (ha : ∀ x ∈ args, x ∈ [0, 1, 2, 3]) {x : Nat} (hx : Reach bob args x) :
    x = 0 ∨ x = 1 ∨ x = 2 ∨ x = 3 := by
  obtain ⟨i0, i1, i2, i3, -⟩ := bob_facts
  have : x ∈ [0, 1, 2, 3] := reach_sub ha (by
    intro y hy
    simp only [List.mem_cons, List.not_mem_nil, or_false] at hy
    rcases hy with rfl | rfl | rfl | rfl <;> simp [*]) hx
  simpa using this

theorem bob_circuit {args : List Nat} (ha : ∀ x ∈ args, x ∈ [0, 1, 2, 3]) : Circuit bob [0, 1, 2, 3] args := by
  obtain ⟨i0, i1, i2, i3, k0, k1, k2, k3, n0, n1, n2, n3⟩ := bob_facts
  refine ⟨bob_built, ha, ?_, ?_⟩
  · intro x hx
    rcases bob_reach ha hx with rfl | rfl | rfl | rfl <;> simp [SizeOK, *]
  · intro x hx is hk
    rcases bob_reach ha hx with rfl | rfl | rfl | rfl <;> simp [*] at hk

theorem bob_once {args : List Nat} (ha : ∀ x ∈ args, x ∈ [0, 1, 2, 3]) : UsedOnce bob args := by
  obtain ⟨i0, i1, i2, i3, k0, k1, k2, k3, -⟩ := bob_facts
  refine ⟨?_, ?_, ?_⟩
  · intro x hx
    rcases bob_reach ha hx with rfl | rfl | rfl | rfl <;> simp [*]
  · intro x hx is hk
    rcases bob_reach ha hx with rfl | rfl | rfl | rfl <;> simp [*] at hk
  · intro x y p hx hy hne hpx hpy
    rcases bob_reach ha hx with rfl | rfl | rfl | rfl <;> rcases bob_reach ha hy with rfl | rfl | rfl | rfl <;>
      simp [*] at hpx hpy hne <;> omega

theorem bob_leaves {b : Nat} (hb : b = 1 ∨ b = 3) : leaves bob [2, b] = [0, 1] := by
  obtain ⟨i0, i1, i2, i3, -⟩ := bob_facts
  have ha : ∀ x ∈ [2, b], x ∈ [0, 1, 2, 3] := by rcases hb with rfl | rfl <;> simp
  obtain ⟨V, c⟩ := (bob_circuit ha).ctx
  have h2 : Reach bob [2, b] 2 := .arg (by simp)
  have h1 : Reach bob [2, b] 1 := by
    rcases hb with rfl | rfl
    · exact .arg (by simp)
    · have h3 : Reach bob [2, 3] 3 := .arg (by simp)
      exact .input h3 (by simp [i3])
  refine asc_ext (leaves_asc bob [2, b]) (by simp) fun x => ?_
  rw [mem_leaves c.wf c.vargs]
  constructor
  · rintro ⟨hx, hi⟩
    rcases bob_reach ha hx with rfl | rfl | rfl | rfl <;> simp_all
  · intro hx
    simp only [List.mem_cons, List.not_mem_nil, or_false] at hx
    rcases hx with rfl | rfl
    · exact ⟨.input h2 (by simp [i2]), i0⟩
    · exact ⟨h1, i1⟩

theorem bob_wires {b : Nat} (hb : b = 1 ∨ b = 3) : width bob [2, b] = 2 ∧ wires bob [2, b] 0 = [0] ∧
    wires bob [2, b] 1 = [1] ∧ groups bob [2, b] 0 = [] ∧ groups bob [2, b] 1 = [] ∧ groups bob [2, b] 2 = [[0]] ∧
    groups bob [2, b] 3 = [[1]] := by
  obtain ⟨i0, i1, i2, i3, k0, k1, k2, k3, n0, n1, n2, n3⟩ := bob_facts
  have hl := bob_leaves hb
  have w0 : wires bob [2, b] 0 = [0] := by rw [wires_leaf i0]; simp [offset, hl, n0]
  have w1 : wires bob [2, b] 1 = [1] := by rw [wires_leaf i1]; simp [offset, hl, n0, n1]
  exact ⟨by simp [width, hl, n0, n1], w0, w1, by simp [groups, i0], by simp [groups, i1], by simp [groups, i2, w0],
    by simp [groups, i3, w1]⟩

theorem bob_ok {b : Nat} (hb : b = 1 ∨ b = 3) : ∀ x, Reach bob [2, b] x → NodeOK bob [2, b] x := by
  obtain ⟨i0, i1, i2, i3, k0, k1, k2, k3, -⟩ := bob_facts
  obtain ⟨-, -, -, g0, g1, g2, g3⟩ := bob_wires hb
  intro x hx
  have ha : ∀ x ∈ [2, b], x ∈ [0, 1, 2, 3] := by rcases hb with rfl | rfl <;> simp
  have := bob_reach ha hx
  refine ⟨?_, ?_, ?_⟩
  · rcases this with rfl | rfl | rfl | rfl <;> simp [*]
  · intro g d hk
    rcases this with rfl | rfl | rfl | rfl <;> simp [*] at hk ⊢
    exact fun h => absurd h (by simp [← hk.2])
  · intro f hk
    rcases this with rfl | rfl | rfl | rfl <;> simp [*] at hk

theorem bob_measure {b : Nat} (hb : b = 1 ∨ b = 3) :
    ∀ x, Reach bob [2, b] x → bob.kind x = .measure ∨ NoMeasure bob [2, b] x := by
  obtain ⟨i0, i1, i2, i3, k0, k1, k2, k3, -⟩ := bob_facts
  intro x hx
  have ha : ∀ x ∈ [2, b], x ∈ [0, 1, 2, 3] := by rcases hb with rfl | rfl <;> simp
  unfold NoMeasure
  rcases bob_reach ha hx with rfl | rfl | rfl | rfl <;> simp [*]

theorem bob_total : 0 < totalProb (width bob [2, 1]) (startAmp bob [2, 1] [([0, 1], [3 / 5, 0, 0, 4 / 5])]) := by
  obtain ⟨w, w0, w1, -⟩ := bob_wires (Or.inl rfl : (1 : Nat) = 1 ∨ 1 = 3)
  have h0 : startAmp bob [2, 1] [([0, 1], [3 / 5, 0, 0, 4 / 5])] 0 = 3 / 5 := by
    simp [startAmp, w, w0, w1, bob_leaves, subIndex, qbit, bitsVal]
  rw [w]
  unfold totalProb
  refine Finset.sum_pos' (fun _ _ => Complex.normSq_nonneg _) ⟨0, by simp, ?_⟩
  rw [h0]
  norm_num [Complex.normSq_apply]

/-- Whether `H` is applied to the other half of the entangled pair or not, `m` is reported with the same probabilities. -/
example (o : Nat → Nat) (h2 : o 2 < 2) : ∃ e e', EnvOK bob [2, 1] e ∧ EnvOK bob [2, 3] e' ∧
    volume (reportsOf bob [2, 1] [([0, 1], [3 / 5, 0, 0, 4 / 5])] e (Reach bob [2]) o)
      = volume (reportsOf bob [2, 3] [([0, 1], [3 / 5, 0, 0, 4 / 5])] e' (Reach bob [2]) o) := by
  have he : ∀ a, EnvOK bob a ⟨fun _ => 0, id, fun x => ⟨List.range (2 ^ width bob a),
    (faCounters (width bob a) ((groups bob a x).getD 0 []) ((groups bob a x).getD 1 [])), fun _ => 0, 0, 0⟩,
    List.replicate (2 ^ width bob a) 0⟩ := fun a => ⟨fun _ => .refl _, fun _ => .refl _, fun _ => .refl _, by simp⟩
  refine ⟨_, _, he [2, 1], he [2, 3], ?_⟩
  obtain ⟨i0, i1, i2, i3, k0, k1, k2, k3, n0, n1, n2, n3⟩ := bob_facts
  have l1 := bob_leaves (Or.inl rfl : (1 : Nat) = 1 ∨ 1 = 3)
  have l3 := bob_leaves (Or.inr rfl : (3 : Nat) = 1 ∨ 3 = 3)
  obtain ⟨-, -, -, -, -, g2, -⟩ := bob_wires (Or.inl rfl : (1 : Nat) = 1 ∨ 1 = 3)
  refine C122_no_signal_partial (bob_circuit (args := [2, 1]) (by simp)) (bob_once (by simp)) (bob_ok (Or.inl rfl)) (bob_measure (Or.inl rfl))
    (he [2, 1]) (fun _ => rfl) (bob_circuit (args := [2, 3]) (by simp)) (bob_once (by simp)) (bob_ok (Or.inr rfl)) (bob_measure (Or.inr rfl))
    (he [2, 3]) (fun _ => rfl) (by rw [l1, l3]) ⟨by simp, by rw [l1]; simp, by simp [n0, n1]⟩ ?_ bob_total ?_ ?_ o ?_
  · intro q hq hn
    rw [l1] at hq
    exact absurd hq (by simpa using hn)
  · intro x hx
    exact .arg (by rw [List.mem_singleton] at hx; simp [hx])
  · intro x hx
    exact .arg (by rw [List.mem_singleton] at hx; simp [hx])
  · intro x hx
    obtain ⟨hx1, hx2⟩ := mem_measures.1 hx
    obtain ⟨V, c⟩ := (bob_circuit (args := [2]) (by simp)).ctx
    have := bob_reach (by simp) ((mem_needed c.wf c.vargs).1 hx1)
    rcases this with rfl | rfl | rfl | rfl <;> simp_all

theorem bob_needed : needed bob [2, 3] = [0, 1, 2, 3] := by
  obtain ⟨i0, i1, i2, i3, -⟩ := bob_facts
  obtain ⟨V, c⟩ := (bob_circuit (args := [2, 3]) (by simp)).ctx
  refine needed_known c (by simp) fun x => ⟨fun hx => by simpa using bob_reach (by simp) hx, ?_⟩
  have h2 : Reach bob [2, 3] 2 := .arg (by simp)
  have h3 : Reach bob [2, 3] 3 := .arg (by simp)
  have h0 : Reach bob [2, 3] 0 := .input h2 (by simp [i2])
  have h1 : Reach bob [2, 3] 1 := .input h3 (by simp [i3])
  intro hx
  simp only [List.mem_cons, List.not_mem_nil, or_false] at hx
  rcases hx with rfl | rfl | rfl | rfl <;> assumption

/-- `H(b)` may as well come before the measurement of `a`: the order `b, H(b), a, m` meets the hypotheses of
`C36_measured_partial`. -/
example : ([1, 3, 0, 2] : List Nat).Nodup ∧ (∀ x, x ∈ [1, 3, 0, 2] ↔ Reach bob [2, 3] x) ∧ Respects bob [1, 3, 0, 2] := by
  obtain ⟨i0, i1, i2, i3, -⟩ := bob_facts
  obtain ⟨V, c⟩ := (bob_circuit (args := [2, 3]) (by simp)).ctx
  have h0 : ∀ x, Reach bob [0] x → x ∈ [0] := fun x hx => reach_sub (by simp) (by simp [i0]) hx
  have h1 : ∀ x, Reach bob [1] x → x ∈ [1] := fun x hx => reach_sub (by simp) (by simp [i1]) hx
  have h3 : ∀ x, Reach bob [3] x → x ∈ [1, 3] := fun x hx => reach_sub (by simp) (by simp [i1, i3]) hx
  refine ⟨by simp, fun x => ?_, ?_⟩
  · rw [← mem_needed c.wf c.vargs, bob_needed]
    simp only [List.mem_cons, List.not_mem_nil, or_false]
    omega
  · unfold Respects
    simp only [List.pairwise_cons, List.mem_cons, List.not_mem_nil, or_false, List.Pairwise.nil, and_true]
    refine ⟨?_, ?_, ?_, by simp⟩
    · rintro y (rfl | rfl | rfl) hy <;> simpa using h1 _ hy
    · rintro y (rfl | rfl) hy <;> simpa using h3 _ hy
    · rintro y rfl hy
      simpa using h0 _ hy

/-! ## Qubits used twice: `q = Qubit(); a = H(q); m = Measure(q)`, which the library accepts (C40) -/

def twiceCmds : List Cmd := [.qubit [] none none, .op (.gate .h) false [0], .measure [0]]

def twice : Heap := (runCmds twiceCmds (Heap.empty, [])).1

theorem twice_facts : twice.inputs 0 = [] ∧ twice.inputs 1 = [0] ∧ twice.inputs 2 = [0] ∧ twice.kind 0 = .qubit ∧
    twice.kind 1 = .gate .h false ∧ twice.kind 2 = .measure ∧ twice.n 0 = 1 ∧ twice.n 1 = 1 ∧ twice.n 2 = 1 ∧
    twice.default 0 = none :=
  ⟨rfl, rfl, rfl, rfl, rfl, rfl, rfl, rfl, rfl, rfl⟩

theorem twice_built : Built twice [0, 1, 2] := by
  have e : (runCmds twiceCmds (Heap.empty, [])).2 = [0, 1, 2] := rfl
  rw [← e]
  refine built_runCmds _ _ Built.start ?_
  simp only [twiceCmds, cmdsOK, Cmd.args, and_true]
  refine ⟨by simp, ?_, ?_⟩
  · change ∀ x ∈ [0], x ∈ [0]; decide
  · change ∀ x ∈ [0], x ∈ [0, 1]; decide

theorem twice_reach {args : List Nat} (ha : ∀ x ∈ args, x ∈ [0, 1, 2]) {x : Nat} (hx : Reach twice args x) :
    x = 0 ∨ x = 1 ∨ x = 2 := by
  obtain ⟨i0, i1, i2, -⟩ := twice_facts
  have : x ∈ [0, 1, 2] := reach_sub ha (by
    intro y hy
    simp only [List.mem_cons, List.not_mem_nil, or_false] at hy
    rcases hy with rfl | rfl | rfl <;> simp [*]) hx
  simpa using this

theorem twice_circuit {args : List Nat} (ha : ∀ x ∈ args, x ∈ [0, 1, 2]) : Circuit twice [0, 1, 2] args := by
  obtain ⟨i0, i1, i2, k0, k1, k2, n0, n1, n2, -⟩ := twice_facts
  refine ⟨twice_built, ha, ?_, ?_⟩
  · intro x hx
    rcases twice_reach ha hx with rfl | rfl | rfl <;> simp [SizeOK, *]
  · intro x hx is hk
    rcases twice_reach ha hx with rfl | rfl | rfl <;> simp [*] at hk

theorem twice_needed : needed twice [1, 2] = [0, 1, 2] ∧ needed twice [2] = [0, 2] := by
  obtain ⟨i0, i1, i2, -⟩ := twice_facts
  constructor
  · obtain ⟨V, c⟩ := (twice_circuit (args := [1, 2]) (by simp)).ctx
    refine needed_known c (by simp) fun x => ⟨fun hx => by simpa using twice_reach (by simp) hx, ?_⟩
    have h1 : Reach twice [1, 2] 1 := .arg (by simp)
    have h2 : Reach twice [1, 2] 2 := .arg (by simp)
    have h0 : Reach twice [1, 2] 0 := .input h1 (by simp [i1])
    intro hx
    simp only [List.mem_cons, List.not_mem_nil, or_false] at hx
    rcases hx with rfl | rfl | rfl <;> assumption
  · obtain ⟨V, c⟩ := (twice_circuit (args := [2]) (by simp)).ctx
    refine needed_known c (by simp) fun x => ⟨fun hx => reach_sub (R := [0, 2]) (by simp) ?_ hx, ?_⟩
    · intro y hy
      simp only [List.mem_cons, List.not_mem_nil, or_false] at hy
      rcases hy with rfl | rfl <;> simp [*]
    · have h2 : Reach twice [2] 2 := .arg (by simp)
      have h0 : Reach twice [2] 0 := .input h2 (by simp [i2])
      intro hx
      simp only [List.mem_cons, List.not_mem_nil, or_false] at hx
      rcases hx with rfl | rfl <;> assumption

theorem twice_wires {args : List Nat} (ha : args = [1, 2] ∨ args = [2]) : leaves twice args = [0] ∧ width twice args = 1 ∧
    wires twice args 0 = [0] ∧ groups twice args 0 = [] ∧ groups twice args 1 = [[0]] ∧ groups twice args 2 = [[0]] := by
  obtain ⟨i0, i1, i2, k0, k1, k2, n0, n1, n2, -⟩ := twice_facts
  have hl : leaves twice args = [0] := by
    rcases ha with rfl | rfl
    · simp [leaves, twice_needed.1, isLeaf, i0, i1, i2]
    · simp [leaves, twice_needed.2, isLeaf, i0, i2]
  have w0 : wires twice args 0 = [0] := by rw [wires_leaf i0]; simp [offset, hl, n0]
  exact ⟨hl, by simp [width, hl, n0], w0, by simp [groups, i0], by simp [groups, i1, w0], by simp [groups, i2, w0]⟩

theorem twice_ok {args : List Nat} (ha : args = [1, 2] ∨ args = [2]) : ∀ x, Reach twice args x → NodeOK twice args x := by
  obtain ⟨i0, i1, i2, k0, k1, k2, -⟩ := twice_facts
  obtain ⟨-, -, -, g0, g1, g2⟩ := twice_wires ha
  intro x hx
  have := twice_reach (by rcases ha with rfl | rfl <;> simp) hx
  refine ⟨?_, ?_, ?_⟩
  · rcases this with rfl | rfl | rfl <;> simp [*]
  · intro g d hk
    rcases this with rfl | rfl | rfl <;> simp [*] at hk ⊢
    exact fun h => absurd h (by simp [← hk.2])
  · intro f hk
    rcases this with rfl | rfl | rfl <;> simp [*] at hk

theorem twice_measure {args : List Nat} (ha : args = [1, 2] ∨ args = [2]) :
    ∀ x, Reach twice args x → twice.kind x = .measure ∨ NoMeasure twice args x := by
  obtain ⟨i0, i1, i2, k0, k1, k2, -⟩ := twice_facts
  intro x hx
  unfold NoMeasure
  rcases twice_reach (by rcases ha with rfl | rfl <;> simp) hx with rfl | rfl | rfl <;> simp [*]

theorem twice_start {args : List Nat} (ha : args = [1, 2] ∨ args = [2]) (r : Nat) (hr : r < 2) :
    startAmp twice args [] r = if r = 0 then 1 else 0 := by
  obtain ⟨i0, i1, i2, k0, k1, k2, n0, n1, n2, d0⟩ := twice_facts
  obtain ⟨w2, w3, w0, -⟩ := twice_wires ha
  have : r = 0 ∨ r = 1 := by omega
  rcases this with rfl | rfl <;>
    simp [startAmp, w2, w3, w0, startVec, d0, n0, subIndex, qbit, bitsVal]

theorem twice_total {args : List Nat} (ha : args = [1, 2] ∨ args = [2]) :
    totalProb (width twice args) (startAmp twice args []) = 1 := by
  rw [(twice_wires ha).2.1]
  unfold totalProb
  rw [show (2 : Nat) ^ 1 = 2 by norm_num, Finset.sum_range_succ, Finset.sum_range_one, twice_start ha 0 (by norm_num),
    twice_start ha 1 (by norm_num)]
  simp

theorem twice_joint (o : Nat → Nat) (h2 : o 2 = 0) :
    jointProb twice [1, 2] [] o = 1 / 2 ∧ jointProb twice [2] [] o = 1 := by
  obtain ⟨i0, i1, i2, k0, k1, k2, n0, n1, n2, d0⟩ := twice_facts
  have a1 : ([1, 2] : List Nat) = [1, 2] ∨ ([1, 2] : List Nat) = [2] := Or.inl rfl
  have a2 : ([2] : List Nat) = [1, 2] ∨ ([2] : List Nat) = [2] := Or.inr rfl
  obtain ⟨-, v1, -, g0, g1, g2⟩ := twice_wires a1
  obtain ⟨-, v2, -, f0, f1, f2⟩ := twice_wires a2
  have hp : ∀ (m : Nat) (v : Nat → ℂ) (r : Nat), r < 2 → project 1 [0] m v r = if r = m then v r else 0 := by
    intro m v r hr
    unfold project
    have h1 : r = 0 ∨ r = 1 := by omega
    rcases h1 with rfl | rfl
    · rw [show subIndex 1 (inOrder 1 [0]) 0 = 0 by decide]
    · rw [show subIndex 1 (inOrder 1 [0]) 1 = 1 by decide]
  have hs : Complex.normSq ((1 / √2 : ℝ) : ℂ) = 1 / 2 := by
    rw [Complex.normSq_ofReal, div_mul_div_comm, Real.mul_self_sqrt (by norm_num)]
    norm_num
  constructor
  · unfold jointProb
    rw [twice_total a1, div_one, twice_needed.1, v1]
    set a : ℂ := ((1 / √2 : ℝ) : ℂ) with ha
    unfold totalProb branch
    simp only [List.foldl_cons, List.foldl_nil, branchStep, k0, k1, k2, nodeApply, g1, g2, List.flatten_cons,
      List.flatten_nil, List.append_nil]
    rw [show (2 : Nat) ^ 1 = 2 by norm_num, Finset.sum_range_succ, Finset.sum_range_one, hp _ _ 0 (by norm_num),
      hp _ _ 1 (by norm_num), coins_h _ 0 (by norm_num), coins_h _ 1 (by norm_num), twice_start a1 0 (by norm_num),
      twice_start a1 1 (by norm_num), ← ha, h2]
    simp [hs]
  · unfold jointProb
    rw [twice_total a2, div_one, twice_needed.2, v2]
    unfold totalProb branch
    simp only [List.foldl_cons, List.foldl_nil, branchStep, k0, k2, nodeApply, f2, List.flatten_cons,
      List.flatten_nil, List.append_nil]
    rw [show (2 : Nat) ^ 1 = 2 by norm_num, Finset.sum_range_succ, Finset.sum_range_one, hp _ _ 0 (by norm_num),
      hp _ _ 1 (by norm_num), twice_start a2 0 (by norm_num), twice_start a2 1 (by norm_num), h2]
    simp

/-- **C122** fails for circuits that use a qubit twice, which the library accepts: in `a = H(q); m = Measure(q)` the result
of `m` does not depend on `a`, and `m` run alone always reports 0; run together with `a` it does so half of the time. -/
theorem C122_used_twice_fails {e e' : Env} (he : EnvOK twice [1, 2] e) (hg : ∀ x, (e.orc x).garbage = 0)
    (he' : EnvOK twice [2] e') (hg' : ∀ x, (e'.orc x).garbage = 0) (o : Nat → Nat) (h2 : o 2 = 0) :
    ¬ Reach twice [2] 1 ∧ volume (reportsOf twice [1, 2] [] e (Reach twice [2]) o) = ENNReal.ofReal (1 / 2) ∧
      volume (drawsOf twice [2] [] e' o) = 1 := by
  obtain ⟨i0, i1, i2, k0, k1, k2, n0, n1, n2, d0⟩ := twice_facts
  have a1 : ([1, 2] : List Nat) = [1, 2] ∨ ([1, 2] : List Nat) = [2] := Or.inl rfl
  have a2 : ([2] : List Nat) = [1, 2] ∨ ([2] : List Nat) = [2] := Or.inr rfl
  have hdef : ∀ {a : List Nat}, (a = [1, 2] ∨ a = [2]) →
      ∀ q ∈ leaves twice a, q ∉ ((([] : List (List Nat × List ℂ)).map (·.1)).flatten) → DefaultOK twice q := by
    intro a ha q hq _
    rw [(twice_wires ha).1, List.mem_singleton] at hq
    subst hq
    unfold DefaultOK
    rw [d0]
    trivial
  have hm2 : ∀ {a : List Nat} (ha : a = [1, 2] ∨ a = [2]), ∀ x ∈ measures twice a, x = 2 := by
    intro a ha x hx
    obtain ⟨hx1, hx2⟩ := mem_measures.1 hx
    have ha' : ∀ x ∈ a, x ∈ [0, 1, 2] := by rcases ha with rfl | rfl <;> simp
    obtain ⟨V, c⟩ := (twice_circuit ha').ctx
    rcases twice_reach ha' ((mem_needed c.wf c.vargs).1 hx1) with rfl | rfl | rfl
    · rw [k0] at hx2; cases hx2
    · rw [k1] at hx2; cases hx2
    · rfl
  have ho : ∀ {a : List Nat} (ha : a = [1, 2] ∨ a = [2]), ∀ x ∈ measures twice a,
      o x < 2 ^ (groups twice a x).flatten.length := by
    intro a ha x hx
    rw [hm2 ha x hx, h2]
    positivity
  refine ⟨?_, ?_, ?_⟩
  · intro hr
    have : (1 : Nat) ∈ [0, 2] := reach_sub (by simp) (by
      intro y hy
      simp only [List.mem_cons, List.not_mem_nil, or_false] at hy
      rcases hy with rfl | rfl <;> simp [*]) hr
    simp at this
  · rw [reportsOf_all fun x hx => by rw [hm2 a1 x hx]; exact .arg (by simp), ← (twice_joint o h2).1]
    exact C85_joint_partial (twice_circuit (by simp)) (twice_ok a1) (twice_measure a1) ⟨by simp, by simp, by simp⟩ (hdef a1) he hg
      (by rw [twice_total a1]; exact one_pos) o (ho a1)
  · rw [C85_joint_partial (twice_circuit (by simp)) (twice_ok a2) (twice_measure a2) ⟨by simp, by simp, by simp⟩ (hdef a2) he' hg'
      (by rw [twice_total a2]; exact one_pos) o (ho a2), (twice_joint o h2).2, ENNReal.ofReal_one]

example : ∃ e e', EnvOK twice [1, 2] e ∧ (∀ x, (e.orc x).garbage = 0) ∧ EnvOK twice [2] e' ∧ (∀ x, (e'.orc x).garbage = 0) := by
  have he : ∀ a, EnvOK twice a ⟨fun _ => 0, id, fun x => ⟨List.range (2 ^ width twice a),
    (faCounters (width twice a) ((groups twice a x).getD 0 []) ((groups twice a x).getD 1 [])), fun _ => 0, 0, 0⟩,
    List.replicate (2 ^ width twice a) 0⟩ := fun a => ⟨fun _ => .refl _, fun _ => .refl _, fun _ => .refl _, by simp⟩
  exact ⟨_, _, he [1, 2], fun _ => rfl, he [2], fun _ => rfl⟩

end QIP.Props
