import Verif.Lemmas.Local

/-!
# A concrete circuit, used to show that hypotheses can be met

`a = Qubit(n=2); b = Qubit(default=1); c = H(a); d = C(Not)(b, c); m = StochasticMeasure(d)`.  Objects: `a` 0, `b` 1, `c` 2, the inner `Not` 3, `d` 4, `m` 5.
-/

namespace QIP

open Spec Heap

noncomputable def demoCmds : List Cmd :=
  [.qubit [] (some 2) none, .qubit [] none (some (.int 1)), .op (.gate .h) false [0],
    .op (.c (.gate .not)) false [1, 2], .smeasure [4] 0]

/-- The heap and references after a list of calls. -/
def runCmds : List Cmd → Heap × List Nat → Heap × List Nat
  | [], s => s
  | c :: cs, s => runCmds cs ((s.1.exec c).2, s.2 ++ match (s.1.exec c).1 with | .ok xs => xs | .error _ => [])

/-- Every call only uses references the user holds. -/
def cmdsOK : List Cmd → Heap × List Nat → Prop
  | [], _ => True
  | c :: cs, s => (∀ x ∈ c.args, x ∈ s.2) ∧
      cmdsOK cs ((s.1.exec c).2, s.2 ++ match (s.1.exec c).1 with | .ok xs => xs | .error _ => [])

theorem built_runCmds (cs : List Cmd) (s : Heap × List Nat) (hb : Built s.1 s.2) (hok : cmdsOK cs s) :
    Built (runCmds cs s).1 (runCmds cs s).2 := by
  induction cs generalizing s with
  | nil => exact hb
  | cons c cs ih => exact ih _ (Built.call c hb hok.1) hok.2

noncomputable def demo : Heap := (runCmds demoCmds (empty, [])).1

theorem demo_env : (runCmds demoCmds (empty, [])).2 = [0, 1, 2, 4, 5] := rfl

theorem demo_built : Built demo [0, 1, 2, 4, 5] := by
  rw [← demo_env]
  refine built_runCmds _ _ Built.start ?_
  simp only [demoCmds, cmdsOK, Cmd.args, and_true]
  refine ⟨by simp, by simp, ?_, ?_, ?_⟩
  · change ∀ x ∈ [0], x ∈ [0, 1]; decide
  · change ∀ x ∈ [1, 2], x ∈ [0, 1, 2]; decide
  · change ∀ x ∈ [4], x ∈ [0, 1, 2, 4]; decide

theorem demo_nodes : demo.nodes.length = 6 := rfl

theorem demo_inputs : demo.inputs 0 = [] ∧ demo.inputs 1 = [] ∧ demo.inputs 2 = [0] ∧ demo.inputs 4 = [1, 2] ∧
    demo.inputs 5 = [4] := ⟨rfl, rfl, rfl, rfl, rfl⟩

theorem demo_kind : demo.kind 0 = .qubit ∧ demo.kind 1 = .qubit ∧ demo.kind 2 = .gate .h false ∧
    demo.kind 4 = .gate (.c .not) false ∧ demo.kind 5 = .smeasure 0 := ⟨rfl, rfl, rfl, rfl, rfl⟩

theorem demo_n : demo.n 0 = 2 ∧ demo.n 1 = 1 ∧ demo.n 2 = 2 ∧ demo.n 4 = 3 ∧ demo.n 5 = 3 := ⟨rfl, rfl, rfl, rfl, rfl⟩

/-- Nodes reachable in a list that contains the outputs and is closed under inputs. -/
theorem reach_sub {h : Heap} {args R : List Nat} (ha : ∀ x ∈ args, x ∈ R) (hc : ∀ x ∈ R, ∀ i ∈ h.inputs x, i ∈ R)
    {x : Nat} (hx : Reach h args x) : x ∈ R := by
  induction hx with
  | arg h => exact ha _ h
  | input _ h ih => exact hc _ ih _ h

theorem demo_reach {x : Nat} (hx : Reach demo [5] x) : x = 0 ∨ x = 1 ∨ x = 2 ∨ x = 4 ∨ x = 5 := by
  have : x ∈ [0, 1, 2, 4, 5] := by
    refine reach_sub (by simp) ?_ hx
    obtain ⟨i0, i1, i2, i4, i5⟩ := demo_inputs
    intro y hy
    simp only [List.mem_cons, List.not_mem_nil, or_false] at hy
    rcases hy with rfl | rfl | rfl | rfl | rfl <;> simp [*]
  simpa using this

theorem demo_circuit : Circuit demo [0, 1, 2, 4, 5] [5] := by
  obtain ⟨i0, i1, i2, i4, i5⟩ := demo_inputs
  obtain ⟨k0, k1, k2, k4, k5⟩ := demo_kind
  obtain ⟨n0, n1, n2, n4, n5⟩ := demo_n
  refine ⟨demo_built, by simp, ?_, ?_⟩
  · intro x hx
    rcases demo_reach hx with rfl | rfl | rfl | rfl | rfl <;> simp [SizeOK, *]
  · intro x hx is hk
    rcases demo_reach hx with rfl | rfl | rfl | rfl | rfl <;> simp [*] at hk

theorem demo_once : UsedOnce demo [5] := by
  obtain ⟨i0, i1, i2, i4, i5⟩ := demo_inputs
  obtain ⟨k0, k1, k2, k4, k5⟩ := demo_kind
  refine ⟨?_, ?_, ?_⟩
  · intro x hx
    rcases demo_reach hx with rfl | rfl | rfl | rfl | rfl <;> simp [*]
  · intro x hx is hk
    rcases demo_reach hx with rfl | rfl | rfl | rfl | rfl <;> simp [*] at hk
  · intro x y p hx hy hne hpx hpy
    exfalso
    rcases demo_reach hx with rfl | rfl | rfl | rfl | rfl <;>
    rcases demo_reach hy with rfl | rfl | rfl | rfl | rfl <;>
    simp [*] at hne hpx hpy <;> omega

theorem Spec.Circuit.ctx {h : Heap} {env args : List Nat} (c : Circuit h env args) : ∃ V, Ctx h V args := by
  obtain ⟨V, h1, h2, h3⟩ := built_wf c.built
  exact ⟨V, h1, h2, fun x hx => h3 x (c.held x hx), c.size, c.split⟩

theorem demo_ok : ∀ x, Reach demo [5] x → NodeOK demo [5] x := by
  obtain ⟨V, c⟩ := demo_circuit.ctx
  obtain ⟨i0, i1, i2, i4, i5⟩ := demo_inputs
  obtain ⟨k0, k1, k2, k4, k5⟩ := demo_kind
  intro x hx
  refine ⟨(c.chain demo_once x hx).2.1, ?_, ?_⟩
  · intro g d hk
    rcases demo_reach hx with rfl | rfl | rfl | rfl | rfl <;> simp [*] at hk ⊢
    · exact fun h => absurd h (by simp [← hk.2])
    · exact fun h => absurd h (by simp [← hk.2])
  · intro f hk
    rcases demo_reach hx with rfl | rfl | rfl | rfl | rfl <;> simp [*] at hk

theorem demo_nomeasure : ∀ x, Reach demo [5] x → NoMeasure demo [5] x := by
  obtain ⟨k0, k1, k2, k4, k5⟩ := demo_kind
  intro x hx
  unfold NoMeasure
  rcases demo_reach hx with rfl | rfl | rfl | rfl | rfl <;> simp [*]

theorem demo_feed : FeedOK demo [5] [([0], [0, 0, 1, 0])] := by
  obtain ⟨V, c⟩ := demo_circuit.ctx
  refine ⟨by simp, ?_, ?_⟩
  · intro q hq
    simp at hq
    subst hq
    rw [mem_leaves c.wf c.vargs]
    refine ⟨?_, demo_inputs.1⟩
    have h5 : Reach demo [5] 5 := .arg (by simp)
    have h4 : Reach demo [5] 4 := .input h5 (by simp [demo_inputs.2.2.2.2])
    have h2 : Reach demo [5] 2 := .input h4 (by simp [demo_inputs.2.2.2.1])
    exact .input h2 (by simp [demo_inputs.2.2.1])
  · simp [demo_n.1]

theorem demo_default : ∀ q ∈ leaves demo [5], q ∉ ([0] : List Nat) → DefaultOK demo q := by
  obtain ⟨V, c⟩ := demo_circuit.ctx
  intro q hq hq0
  rw [mem_leaves c.wf c.vargs] at hq
  obtain ⟨i0, i1, i2, i4, i5⟩ := demo_inputs
  rcases demo_reach hq.1 with rfl | rfl | rfl | rfl | rfl
  · simp at hq0
  · have : demo.default 1 = some (.int 1) := rfl
    simp [DefaultOK, this, demo_n.2.1]
  all_goals simp [*] at hq

/-- The needed nodes, if they are known. -/
theorem needed_known {h : Heap} {V : Nat → Prop} {args : List Nat} (c : Ctx h V args) {L : List Nat}
    (hL : L.Pairwise (· < ·)) (hm : ∀ x, Reach h args x ↔ x ∈ L) : needed h args = L :=
  asc_ext (needed_asc h args) hL fun x => (mem_needed c.wf c.vargs).trans (hm x)

theorem demo_reach_iff (x : Nat) : Reach demo [5] x ↔ x ∈ [0, 1, 2, 4, 5] := by
  constructor
  · intro hx
    have := demo_reach hx
    simpa using this
  · intro hx
    have h5 : Reach demo [5] 5 := .arg (by simp)
    have h4 : Reach demo [5] 4 := .input h5 (by simp [demo_inputs.2.2.2.2])
    have h2 : Reach demo [5] 2 := .input h4 (by simp [demo_inputs.2.2.2.1])
    have h1 : Reach demo [5] 1 := .input h4 (by simp [demo_inputs.2.2.2.1])
    have h0 : Reach demo [5] 0 := .input h2 (by simp [demo_inputs.2.2.1])
    simp only [List.mem_cons, List.not_mem_nil, or_false] at hx
    rcases hx with rfl | rfl | rfl | rfl | rfl <;> assumption

theorem demo_needed : needed demo [5] = [0, 1, 2, 4, 5] := by
  obtain ⟨V, c⟩ := demo_circuit.ctx
  exact needed_known c (by simp) demo_reach_iff

theorem demo_leaves : leaves demo [5] = [0, 1] := by
  obtain ⟨i0, i1, i2, i4, i5⟩ := demo_inputs
  simp [leaves, demo_needed, isLeaf, i0, i1, i2, i4, i5]

theorem demo_width : width demo [5] = 3 := by
  simp [width, demo_leaves, demo_n.1, demo_n.2.1]

end QIP
