import Verif.Lemmas.SplitStep

/-! # Sequences of steps -/

namespace QIP

open Spec Heap

/-- The circuit with current qubits `live`, none of them used, has been extended to one with current qubits `live'`;
`T` has been done to the state. -/
structure Evolves (h : Heap) (live : List Nat) (h' : Heap) (live' : List Nat) (T : Nat → (Nat → ℂ) → Nat → ℂ) :
    Prop where
  old : ∃ env, Live h env live
  new : ∃ env, Live h' env live'
  unused : ∀ x ∈ live', h'.sinks x = []
  grows : ∃ new, Grows h live h' live' new ∧ ∀ n v, applyAll n h' live' new v = T n v

theorem Evolves.wires {h h' : Heap} {live live' : List Nat} {T : Nat → (Nat → ℂ) → Nat → ℂ}
    (e : Evolves h live h' live' T) {x : Nat} (hx : x ∈ live) : Spec.wires h' live' x = Spec.wires h live x := by
  obtain ⟨_, l⟩ := e.old
  obtain ⟨_, l'⟩ := e.new
  obtain ⟨_, c⟩ := l.circuit.ctx
  obtain ⟨_, c'⟩ := l'.circuit.ctx
  obtain ⟨_, g, -⟩ := e.grows
  exact g.wires c c' (.arg hx)

theorem Evolves.width {h h' : Heap} {live live' : List Nat} {T : Nat → (Nat → ℂ) → Nat → ℂ}
    (e : Evolves h live h' live' T) : Spec.width h' live' = Spec.width h live := by
  obtain ⟨_, l⟩ := e.old
  obtain ⟨_, l'⟩ := e.new
  obtain ⟨_, c⟩ := l.circuit.ctx
  obtain ⟨_, c'⟩ := l'.circuit.ctx
  obtain ⟨_, g, -⟩ := e.grows
  exact g.width c c'

theorem Evolves.map_wires {h h' : Heap} {live live' : List Nat} {T : Nat → (Nat → ℂ) → Nat → ℂ}
    (e : Evolves h live h' live' T) {xs : List Nat} (hx : ∀ x ∈ xs, x ∈ live) :
    xs.map (Spec.wires h' live') = xs.map (Spec.wires h live) :=
  List.map_congr_left fun x h => e.wires (hx x h)

/-- The state after the extended circuit. -/
theorem Evolves.state {h h' : Heap} {live live' : List Nat} {T : Nat → (Nat → ℂ) → Nat → ℂ}
    (e : Evolves h live h' live' T) (n : Nat) (v : Nat → ℂ) :
    applyAll n h' live' (needed h' live') v = T n (applyAll n h live (needed h live) v) := by
  obtain ⟨_, l⟩ := e.old
  obtain ⟨_, l'⟩ := e.new
  obtain ⟨_, c⟩ := l.circuit.ctx
  obtain ⟨_, c'⟩ := l'.circuit.ctx
  obtain ⟨_, g, hT⟩ := e.grows
  rw [g.applyAll c c', hT]

theorem Evolves.trans {h h' h'' : Heap} {live live' live'' : List Nat} {T T' : Nat → (Nat → ℂ) → Nat → ℂ}
    (a : Evolves h live h' live' T) (b : Evolves h' live' h'' live'' T') :
    Evolves h live h'' live'' (fun n v => T' n (T n v)) := by
  obtain ⟨_, l'⟩ := a.new
  obtain ⟨_, l''⟩ := b.new
  obtain ⟨_, c'⟩ := l'.circuit.ctx
  obtain ⟨_, c''⟩ := l''.circuit.ctx
  obtain ⟨n1, g1, t1⟩ := a.grows
  obtain ⟨n2, g2, t2⟩ := b.grows
  refine ⟨a.old, b.new, b.unused, n1 ++ n2, g1.trans c' g2, ?_⟩
  intro n v
  have e : applyAll n h'' live'' (n1 ++ n2) v = applyAll n h'' live'' n2 (applyAll n h'' live'' n1 v) := by
    unfold applyAll; rw [List.foldl_append]
  rw [e, t2, g2.applyAll_old c' c'' n n1 (fun x hx => (g1.reach x).2 (Or.inr hx)), t1]

theorem Evolves.congr {h h' : Heap} {live live' : List Nat} {T T' : Nat → (Nat → ℂ) → Nat → ℂ}
    (a : Evolves h live h' live' T) (hT : ∀ n v, T n v = T' n v) : Evolves h live h' live' T' := by
  obtain ⟨n1, g1, t1⟩ := a.grows
  exact ⟨a.old, a.new, a.unused, n1, g1, fun n v => (t1 n v).trans (hT n v)⟩

theorem Live.perm {h : Heap} {env live live' : List Nat} (l : Live h env live) (hp : live.Perm live') :
    Live h env live' := by
  obtain ⟨_, c⟩ := l.circuit.ctx
  have g : Grows h live h live' [] := Grows.perm fun x => hp.mem_iff
  refine l.grow g l.circuit.built (fun x hx => l.circuit.held x (hp.mem_iff.2 hx)) (by simp) (by simp) (by simp)
    (by simp) ?_
  intro V' c'
  have e : live'.map (wires h live') = live'.map (wires h live) :=
    List.map_congr_left fun x hx => g.wires c c' (.arg (hp.mem_iff.2 hx))
  rw [e]
  exact ((hp.symm.map _).flatten).trans l.part

theorem Evolves.perm {h : Heap} {env live live' : List Nat} (l : Live h env live) (hp : live.Perm live')
    (hu : ∀ x ∈ live, h.sinks x = []) : Evolves h live h live' (fun _ v => v) :=
  ⟨⟨env, l⟩, ⟨env, l.perm hp⟩, fun x hx => hu x (hp.mem_iff.2 hx), [], Grows.perm fun x => hp.mem_iff,
    fun _ _ => rfl⟩

theorem Evolves.of_step {h h' : Heap} {env live ins rest outs : List Nat} {W : List (List Nat)}
    {T : Nat → (Nat → ℂ) → Nat → ℂ} (l : Live h env live) (hp : live.Perm (ins ++ rest))
    (hu : ∀ x ∈ live, h.sinks x = []) (st : Stepped h live ins rest h' outs W T) :
    Evolves h live h' (outs ++ rest) T := by
  refine ⟨⟨env, l⟩, st.live', ?_, st.grows⟩
  intro x hx
  rcases List.mem_append.1 hx with hx | hx
  · exact st.free x hx
  · have hxl : x ∈ live := hp.mem_iff.2 (List.mem_append_right _ hx)
    obtain ⟨_, c⟩ := l.circuit.ctx
    rw [st.keep x (c.lt (.arg hxl)), hu x hxl]
    intro hi
    exact (List.nodup_append.1 (hp.nodup_iff.1 l.nodup)).2.2 x hi x hx rfl

end QIP
