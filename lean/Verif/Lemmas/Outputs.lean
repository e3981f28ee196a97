import Verif.Lemmas.WrapRun
import Verif.Lemmas.Control
import Verif.Lemmas.Registers
import Verif.Props.Run

/-! # Running circuits before and after they have been extended -/

namespace QIP

open Spec Heap

theorem Spec.Current.live {h : Heap} {env live : List Nat} (c : Current h env live) : Live h env live :=
  ⟨c.circuit, c.ok, c.nomeasure, c.part⟩

theorem Live.current {h : Heap} {env live : List Nat} (l : Live h env live) (hu : ∀ x ∈ live, h.sinks x = []) :
    Current h env live :=
  ⟨l.circuit, l.ok, l.nomeasure, l.part, hu⟩

/-- The state that the circuit computes. -/
noncomputable def finalState (h : Heap) (live : List Nat) (feed : List (List Nat × List ℂ)) : Nat → ℂ :=
  applyAll (width h live) h live (needed h live) (startAmp h live feed)

theorem Live.outputs {h : Heap} {env live : List Nat} (l : Live h env live) {feed : List (List Nat × List ℂ)}
    (hs : Startable h live feed) :
    Outputs h live feed ((List.range (2 ^ width h live)).map (finalState h live feed)) := by
  intro e he
  obtain ⟨out, cl, ms', h1, h2, h3⟩ := Props.C35_run_computes_partial l.circuit l.ok l.nomeasure hs.1 hs.2 he
  refine ⟨cl, ms', ?_⟩
  rw [h1]
  have : out = (List.range (2 ^ width h live)).map (finalState h live feed) := by
    apply List.ext_getElem?
    intro i
    by_cases hi : i < 2 ^ width h live
    · rw [h3 i hi, List.getElem?_map, List.getElem?_range hi]; rfl
    · rw [List.getElem?_eq_none (by omega), List.getElem?_eq_none (by simp; omega)]
  rw [this]

theorem Evolves.startable {h h' : Heap} {live live' : List Nat} {T : Nat → (Nat → ℂ) → Nat → ℂ}
    (e : Evolves h live h' live' T) {feed : List (List Nat × List ℂ)} (hs : Startable h live feed) :
    Startable h' live' feed := by
  obtain ⟨_, l⟩ := e.old
  obtain ⟨_, l'⟩ := e.new
  obtain ⟨_, c⟩ := l.circuit.ctx
  obtain ⟨_, c'⟩ := l'.circuit.ctx
  obtain ⟨_, g, -⟩ := e.grows
  exact ⟨g.feedOK c c' hs.1, g.defaultOK c c' hs.2⟩

theorem Evolves.final {h h' : Heap} {live live' : List Nat} {T : Nat → (Nat → ℂ) → Nat → ℂ}
    (e : Evolves h live h' live' T) {feed : List (List Nat × List ℂ)} (hs : Startable h live feed) :
    finalState h' live' feed = T (Spec.width h live) (finalState h live feed) := by
  have hst := e.state (Spec.width h live) (Spec.startAmp h live feed)
  obtain ⟨_, l⟩ := e.old
  obtain ⟨_, l'⟩ := e.new
  obtain ⟨_, c⟩ := l.circuit.ctx
  obtain ⟨_, c'⟩ := l'.circuit.ctx
  obtain ⟨_, g, -⟩ := e.grows
  unfold finalState
  rw [g.width c c', g.startAmp c c' hs.1, hst]

/-- Running before and after. -/
theorem Evolves.outputs {h h' : Heap} {live live' : List Nat} {T : Nat → (Nat → ℂ) → Nat → ℂ}
    (e : Evolves h live h' live' T) {feed : List (List Nat × List ℂ)} (hs : Startable h live feed) :
    Outputs h' live' feed ((List.range (2 ^ Spec.width h live)).map (T (Spec.width h live) (finalState h live feed))) := by
  obtain ⟨_, l'⟩ := e.new
  have := l'.outputs (e.startable hs)
  rwa [e.width, e.final hs] at this

/-- Nothing is dropped if the results hold as many qubits as the inputs. -/
theorem drop_nil {h h' : Heap} {env live cs cur rest live' cs' outs drop : List Nat} {T : Nat → (Nat → ℂ) → Nat → ℂ}
    (l : Live h env live) (hp : live.Perm (cs ++ cur ++ rest)) (e : Evolves h live h' live' T)
    (hl : live' = cs' ++ outs ++ (drop ++ rest))
    (hc : cs'.map (wires h' live') = cs.map (wires h live))
    (hn : ((outs.map (wires h' live')).flatten).length = ((cur.map (wires h live)).flatten).length) : drop = [] := by
  obtain ⟨env', l'⟩ := e.new
  have h1 := l.part.length_eq
  have h2 := l'.part.length_eq
  have h3 := ((hp.map (Spec.wires h live)).flatten).length_eq
  have hr : rest.map (Spec.wires h' live') = rest.map (Spec.wires h live) :=
    e.map_wires fun x hx => hp.mem_iff.2 (by simp [hx])
  have hl2 : (live'.map (Spec.wires h' live')).flatten = ((cs'.map (Spec.wires h' live')).flatten ++
      (outs.map (Spec.wires h' live')).flatten) ++ ((drop.map (Spec.wires h' live')).flatten ++
      (rest.map (Spec.wires h' live')).flatten) := by
    conv_lhs => arg 1; arg 2; rw [hl]
    simp
  rw [hl2, hc, hr] at h2
  rw [h3] at h1
  simp only [List.map_append, List.flatten_append, List.length_append, List.length_range] at h1 h2
  rw [e.width] at h2
  have hz : ((drop.map (Spec.wires h' live')).flatten).length = 0 := by omega
  by_contra hne
  obtain ⟨x, hx⟩ := List.exists_mem_of_ne_nil _ hne
  have hxl : x ∈ live' := by rw [hl]; simp [hx]
  have hpos := l'.pos (.arg hxl)
  obtain ⟨_, c'⟩ := l'.circuit.ctx
  have hlen := c'.len (.arg hxl)
  have : (drop.map (Spec.wires h' live')).flatten = [] := List.length_eq_zero_iff.1 hz
  have h0 : Spec.wires h' live' x = [] := by
    rw [List.flatten_eq_nil_iff] at this
    exact this _ (List.mem_map.2 ⟨x, hx, rfl⟩)
  rw [h0] at hlen
  simp at hlen
  omega

end QIP
