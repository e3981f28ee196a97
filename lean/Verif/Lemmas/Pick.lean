import Verif.Lemmas.TopStep
import Verif.Lemmas.Dft
import Verif.Lemmas.Qfft
import Verif.Lemmas.Born

/-! # Measuring one of the current qubits of a circuit -/

namespace QIP

open Spec Heap

variable {h h' : Heap} {V : Nat → Prop} {a b args : List Nat}

/-! ### Outputs with the same input qubits -/

theorem offset_leaves (hl : leaves h a = leaves h b) (x : Nat) : offset h a x = offset h b x := by
  unfold offset; rw [hl]

theorem wires_leaves (hl : leaves h a = leaves h b) (x : Nat) : wires h a x = wires h b x := by
  induction x using Nat.strongRecOn with
  | ind x ih =>
    rw [wires.eq_def h a x, wires.eq_def h b x, offset_leaves hl]
    have : (h.inputs x).map (fun i => if i < x then wires h a i else [])
        = (h.inputs x).map (fun i => if i < x then wires h b i else []) := by
      apply List.map_congr_left
      intro i _
      by_cases hi : i < x
      · rw [if_pos hi, if_pos hi, ih i hi]
      · rw [if_neg hi, if_neg hi]
    rw [this]

theorem groups_leaves (hl : leaves h a = leaves h b) (x : Nat) : groups h a x = groups h b x :=
  List.map_congr_left fun i _ => wires_leaves hl i

theorem width_leaves (hl : leaves h a = leaves h b) : width h a = width h b := by
  unfold width; rw [hl]

theorem startAmp_leaves (hl : leaves h a = leaves h b) (feed : List (List Nat × List ℂ)) :
    startAmp h a feed = startAmp h b feed := by
  funext r
  unfold startAmp
  have : wires h a = wires h b := funext fun x => wires_leaves hl x
  rw [width_leaves hl, hl, this]

theorem nodeApply_leaves (hl : leaves h a = leaves h b) (n x : Nat) : nodeApply n h a x = nodeApply n h b x := by
  funext v
  unfold nodeApply
  rw [groups_leaves hl]

/-- Nodes that do nothing can be left out. -/
theorem applyAll_filter {n : Nat} {L : List Nat} (p : Nat → Bool)
    (hp : ∀ x ∈ L, p x = false → ∀ v, nodeApply n h args x v = v) (v : Nat → ℂ) :
    applyAll n h args (L.filter p) v = applyAll n h args L v := by
  unfold applyAll
  induction L generalizing v with
  | nil => rfl
  | cons x L ih =>
    have ih' := ih fun y hy => hp y (by simp [hy])
    cases hpx : p x with
    | true => rw [List.filter_cons_of_pos hpx, List.foldl_cons, List.foldl_cons, ih']
    | false =>
      rw [List.filter_cons_of_neg (by simp [hpx]), List.foldl_cons, ih', hp x (by simp) hpx]

theorem Ctx.part (c : Ctx h V args) {q : Nat} (hq : q ∈ args) : Ctx h V [q] := by
  have hr : ∀ x, Reach h [q] x → Reach h args x := by
    intro x hx
    induction hx with
    | arg hx => rw [List.mem_singleton] at hx; subst hx; exact .arg hq
    | input _ hi ih => exact .input ih hi
  exact ⟨c.wf, c.kind, fun x hx => by rw [List.mem_singleton] at hx; subst hx; exact c.vargs _ hq,
    fun x hx => c.size x (hr x hx), fun x hx => c.split x (hr x hx)⟩

theorem reach_part {q : Nat} (hq : q ∈ args) {x : Nat} (hx : Reach h [q] x) : Reach h args x := by
  induction hx with
  | arg hx => rw [List.mem_singleton] at hx; subst hx; exact .arg hq
  | input _ hi ih => exact .input ih hi

open Classical in
theorem needed_part {q : Nat} (hq : q ∈ args) :
    needed h [q] = (needed h args).filter fun x => decide (Reach h [q] x) := by
  unfold needed
  rw [List.filter_filter]
  apply List.filter_congr
  intro x _
  have := @reach_part h args q hq x
  by_cases hx : Reach h [q] x <;> simp [hx]
  exact this hx

/-- `Measure(*ins)`. -/
theorem measure_exec {env ins : List Nat} (hb : Built h env) (hins : ∀ x ∈ ins, x ∈ env) (hne : ins ≠ [])
    (hpos : ∀ x ∈ ins, 0 < h.n x) :
    ∃ h', h.exec (.measure ins) = (.ok [h.nodes.length], h') ∧ Ext h h' ∧ Built h' (env ++ [h.nodes.length]) ∧
      h'.kind h.nodes.length = .measure ∧ h'.inputs h.nodes.length = ins ∧
      h'.n h.nodes.length = (ins.map h'.n).sum := by
  obtain ⟨V, hw, hk, hV⟩ := built_wf hb
  have hin : ∀ i ∈ ins, V i := fun i hi => hV i (hins i hi)
  obtain ⟨V', v1, v2, v3, v4, v5⟩ := mkMeasure_spec hw hk hin
  obtain ⟨h1, r1, e1, w1, c1⟩ := initQubit_ok hw (kind := .measure) (inputs := ins) (n := none) (qid := none) hin
    qidOK_none (by simp) (initN_pos (by simpa using hne) hpos)
  have hok : (h.mkMeasure ins).1 = .ok h.nodes.length := by
    unfold mkMeasure
    rw [r1]
    simp only
    obtain ⟨f1, -⟩ := setN_fields h1 h.nodes.length ((ins.map h.n).sum)
    have := registerSinks_other (h := h1.setN h.nodes.length ((ins.map h.n).sum)) (x := h.nodes.length) ins
      (by rw [f1, c1.kindx]; simp)
    unfold setN at this
    split
    · rename_i hr; rw [hr] at this; simp at this
    · rfl
  obtain ⟨v, k, i, -⟩ := v5 _ hok
  have hex : h.exec (.measure ins) = (.ok [h.nodes.length], (h.mkMeasure ins).2) := by
    change ((h.mkMeasure ins).1.map ([·]), _) = _
    rw [hok]; rfl
  have hb' := Built.call (.measure ins) hb hins
  rw [hex] at hb'
  refine ⟨_, hex, v2, hb', k, i, ?_⟩
  have := v4 _ v
  unfold KindOK at this
  rw [k] at this
  simp only [i] at this
  exact this.1

theorem measure_grows {a0 : Nat} (c : Ctx h V [a0]) {h' : Heap} (he : Ext h h') (hk : h'.inputs h.nodes.length = [a0]) :
    Grows h [a0] h' [h.nodes.length] [h.nodes.length] := by
  have hr : Reach h' [h.nodes.length] a0 := .input (.arg (List.mem_singleton.2 rfl)) (by rw [hk]; simp)
  have hin : ∀ x ∈ [h.nodes.length], h'.inputs x ≠ [] := by
    intro x hx
    rw [List.mem_singleton] at hx
    rw [hx, hk]; simp
  refine ⟨he, ?_, by simp, by intro x hx; rw [List.mem_singleton] at hx; rw [hx], hin⟩
  intro x
  constructor
  · intro hx
    induction hx with
    | arg hx => exact Or.inr hx
    | @input y z _ hi ih =>
      rcases ih with ih | ih
      · rw [he.inputs _ (c.lt ih)] at hi
        exact Or.inl (.input ih hi)
      · rw [List.mem_singleton] at ih
        subst ih
        rw [hk] at hi
        exact Or.inl (.arg hi)
  · rintro (hx | hx)
    · induction hx with
      | arg hx => rw [List.mem_singleton] at hx; subst hx; exact hr
      | input h0 hi ih =>
        rw [← he.inputs _ (c.lt h0)] at hi
        exact .input ih hi
    · rw [List.mem_singleton] at hx; subst hx; exact .arg (by simp)

/-- A circuit whose last object measures `idx`; `T` is done to the state before. -/
structure Measured (h' : Heap) (m : Nat) (feed : List (List Nat × List ℂ)) (n : Nat) (idx : List Nat) (start : Nat → ℂ)
    (T : (Nat → ℂ) → Nat → ℂ) : Prop where
  circuit : ∃ env, Circuit h' env [m]
  ok : ∀ x, Reach h' [m] x → NodeOK h' [m] x
  kinds : ∀ x, Reach h' [m] x → h'.kind x = .measure ∨ NoMeasure h' [m] x
  feedOK : FeedOK h' [m] feed
  defaults : ∀ q ∈ leaves h' [m], q ∉ (feed.map (·.1)).flatten → DefaultOK h' q
  only : measures h' [m] = {m}
  group : (groups h' [m] m).flatten = idx
  size : width h' [m] = n
  begins : startAmp h' [m] feed = start
  state : ∀ o v, branch n h' [m] o (needed h' [m]) v = project n idx (o m) (T v)

/-- Measuring one of the current qubits, possibly after further calls: if it depends on all input qubits and the objects
it does not depend on do nothing. -/
theorem measured {h1 h' : Heap} {env env1 live : List Nat} {q m : Nat} {feed : List (List Nat × List ℂ)}
    (l : Live h env live) (e : Ext h h1) (hb : Built h1 env1) (hq : q ∈ live) (hq1 : q ∈ env1)
    (hl : leaves h [q] = leaves h live)
    (hdrop : ∀ x, Reach h live x → ¬ Reach h [q] x → ∀ n v, nodeApply n h live x v = v)
    (hs : Startable h live feed) (hex : h1.exec (.measure [q]) = (.ok [m], h')) :
    Measured h' m feed (width h live) (wires h live q) (startAmp h live feed)
      (applyAll (width h live) h live (needed h live)) := by
  classical
  obtain ⟨V0, c0⟩ := l.circuit.ctx
  have cq : Ctx h V0 [q] := c0.part hq
  have hqlt := c0.lt (Reach.arg hq)
  obtain ⟨V1, w1, k1, hV1⟩ := built_wf hb
  -- the heap before the measurement
  have cq1 : Ctx h1 V1 [q] := by
    refine ⟨w1, k1, fun x hx => by rw [List.mem_singleton] at hx; subst hx; exact hV1 _ hq1, ?_, ?_⟩
    · intro x hx
      rw [reach_ext cq e] at hx
      have hlt := cq.lt hx
      unfold SizeOK
      rw [e.inputs x hlt, e.kind x hlt, e.n x hlt]
      have : (h.inputs x).map h1.n = (h.inputs x).map h.n :=
        List.map_congr_left fun i hi => e.n i ((cq.ilt hx i hi).trans hlt)
      rw [this]
      exact cq.size x hx
    · intro x hx is
      rw [reach_ext cq e] at hx
      have hlt := cq.lt hx
      rw [e.inputs x hlt, e.kind x hlt]
      have : (h.inputs x).map h1.n = (h.inputs x).map h.n :=
        List.map_congr_left fun i hi => e.n i ((cq.ilt hx i hi).trans hlt)
      rw [this]
      exact cq.split x hx is
  obtain ⟨h2, r2, e2, b2, kd2, in2, n2⟩ := measure_exec hb (ins := [q]) (by simpa using hq1) (by simp) (by
    intro x hx
    rw [List.mem_singleton] at hx
    subst hx
    rw [e.n _ hqlt]
    exact l.pos (.arg hq))
  rw [hex] at r2
  simp only [Prod.mk.injEq, Except.ok.injEq, List.cons.injEq, and_true] at r2
  obtain ⟨rfl, rfl⟩ := r2
  set m := h1.nodes.length with hm
  have g := measure_grows cq1 e2 in2
  have g0 : Grows h [q] h1 [q] [] := ⟨e, fun x => by rw [reach_ext cq e]; simp, by simp, by simp, by simp⟩
  have hf0 : FeedOK h [q] feed := ⟨hs.1.nodup, fun q hq => by rw [hl]; exact hs.1.mem q hq, hs.1.size⟩
  have hrm : Reach h' [m] m := .arg (by simp)
  have hcirc : Circuit h' (env1 ++ [m]) [m] := by
    refine ⟨b2, by simp, ?_, ?_⟩
    · intro x hx
      rcases (g.reach x).1 hx with hx | hx
      · have hlt := cq1.lt hx
        unfold SizeOK
        rw [e2.inputs x hlt, e2.kind x hlt, e2.n x hlt]
        have : (h1.inputs x).map h'.n = (h1.inputs x).map h1.n :=
          List.map_congr_left fun i hi => e2.n i ((cq1.ilt hx i hi).trans hlt)
        rw [this]
        exact cq1.size x hx
      · rw [List.mem_singleton] at hx
        subst hx
        intro _ _
        rw [in2]; exact n2
    · intro x hx is
      rcases (g.reach x).1 hx with hx | hx
      · have hlt := cq1.lt hx
        rw [e2.inputs x hlt, e2.kind x hlt]
        have : (h1.inputs x).map h'.n = (h1.inputs x).map h1.n :=
          List.map_congr_left fun i hi => e2.n i ((cq1.ilt hx i hi).trans hlt)
        rw [this]
        exact cq1.split x hx is
      · rw [List.mem_singleton] at hx
        subst hx
        intro hk; rw [kd2] at hk; cases hk
  obtain ⟨V', c'⟩ := hcirc.ctx
  have hw : ∀ {x}, Reach h [q] x → wires h' [m] x = wires h live x := by
    intro x hx
    rw [g.wires cq1 c' ((reach_ext cq e x).2 hx), wires_ext cq e hx, wires_leaves hl]
  have hwidth : width h' [m] = width h live := by
    rw [g.width cq1 c', width_ext cq e, width_leaves hl]
  have hgr : ∀ {x}, Reach h [q] x → groups h' [m] x = groups h live x := by
    intro x hx
    rw [g.groups cq1 c' ((reach_ext cq e x).2 hx), groups_ext cq e hx, groups_leaves hl]
  have hidx : (groups h' [m] m).flatten = wires h live q := by
    unfold groups
    rw [in2]
    simp [hw (Reach.arg (List.mem_singleton.2 rfl))]
  have hold : ∀ {x}, Reach h' [m] x → x = m ∨ (Reach h [q] x ∧ h'.kind x = h.kind x ∧ h'.inputs x = h.inputs x) := by
    intro x hx
    rcases (g.reach x).1 hx with hx | hx
    · have hx' := (reach_ext cq e x).1 hx
      right
      refine ⟨hx', ?_, ?_⟩
      · rw [e2.kind x (cq1.lt hx), e.kind x (cq.lt hx')]
      · rw [e2.inputs x (cq1.lt hx), e.inputs x (cq.lt hx')]
    · exact Or.inl (List.mem_singleton.1 hx)
  have hnm : ∀ x, Reach h [q] x → h'.kind x = h.kind x → h'.kind x ≠ .measure := by
    intro x hx hk
    rw [hk]
    exact (l.nomeasure x (reach_part hq hx)).1
  have hneed : needed h' [m] = needed h [q] ++ [m] := by
    rw [g.needed cq1 c', needed_ext cq e]
  have hstart : startAmp h' [m] feed = startAmp h live feed := by
    rw [g.startAmp cq1 c' (g0.feedOK cq cq1 hf0), g0.startAmp cq cq1 hf0, startAmp_leaves hl]
  refine ⟨⟨_, hcirc⟩, ?_, ?_, ?_, ?_, ?_, hidx, hwidth, hstart, ?_⟩
  · intro x hx
    rcases hold hx with rfl | ⟨hx', hk, hi⟩
    · refine ⟨?_, ?_, ?_⟩
      · rw [hidx]
        have := l.part.nodup_iff.2 List.nodup_range
        rw [List.nodup_flatten] at this
        exact this.1 _ (List.mem_map.2 ⟨q, hq, rfl⟩)
      · intro g d hk; rw [kd2] at hk; cases hk
      · intro f hk; rw [kd2] at hk; cases hk
    · obtain ⟨o1, o2, o3⟩ := l.ok x (reach_part hq hx')
      refine ⟨by rw [hgr hx']; exact o1, by rw [hk, hi]; exact o2, by rw [hk, hwidth, hgr hx']; exact o3⟩
  · intro x hx
    rcases hold hx with rfl | ⟨hx', hk, hi⟩
    · exact Or.inl kd2
    · right
      unfold NoMeasure
      rw [hk, hgr hx']
      exact l.nomeasure x (reach_part hq hx')
  · exact g.feedOK cq1 c' (g0.feedOK cq cq1 hf0)
  · exact g.defaultOK cq1 c' (g0.defaultOK cq cq1 (by rw [hl]; exact hs.2))
  · ext x
    rw [mem_measures, Finset.mem_singleton, mem_needed c'.wf c'.vargs]
    constructor
    · rintro ⟨hx, hk⟩
      rcases hold hx with rfl | ⟨hx', hk', -⟩
      · rfl
      · exact absurd hk (hnm x hx' hk')
    · rintro rfl
      exact ⟨hrm, kd2⟩
  · intro o v
    rw [hneed]
    unfold branch
    rw [List.foldl_append, List.foldl_cons, List.foldl_nil, branchStep_measure kd2, hidx]
    congr 1
    have key : ∀ (L : List Nat), (∀ x ∈ L, Reach h [q] x) → ∀ v, L.foldl (branchStep (width h live) h' [m] o) v
        = applyAll (width h live) h live L v := by
      intro L
      induction L with
      | nil => intro _ _; rfl
      | cons x L ih =>
        intro hL v
        have hx := hL x (by simp)
        have hk : h'.kind x = h.kind x := by
          rw [e2.kind x ((cq.lt hx).trans_le e.len), e.kind x (cq.lt hx)]
        have : branchStep (width h live) h' [m] o v x = nodeApply (width h live) h live x v := by
          rw [branchStep_other (hnm x hx hk)]
          unfold nodeApply
          rw [hk, hgr hx]
        unfold applyAll
        rw [List.foldl_cons, List.foldl_cons, this]
        exact ih (fun y hy => hL y (by simp [hy])) _
    rw [key _ (fun x hx => (mem_needed cq.wf cq.vargs).1 hx), needed_part hq, applyAll_filter]
    intro x hx hp
    exact hdrop x ((mem_needed c0.wf c0.vargs).1 hx) (by simpa using hp) _

end QIP
