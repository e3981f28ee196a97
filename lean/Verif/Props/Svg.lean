import Verif.Lemmas.Svg
import Verif.Props.Run

/-!
# Drawings: C55, C56
-/

namespace QIP.Props

open QIP Spec Heap

theorem ctrls_le (g : Gate) (ns : List Nat) (h : FitsN g ns) : g.ctrls ≤ ns.sum := by
  induction g generalizing ns with
  | c op ih =>
    obtain ⟨rest, rfl, h⟩ := h
    have := ih rest h
    simp only [Gate.ctrls, List.sum_cons]
    omega
  | _ => simp [Gate.ctrls]

theorem kindCtrls_le {h : Heap} {V : Nat → Prop} {args : List Nat} (c : Ctx h V args) {x : Nat} (hx : Reach h args x) :
    kindCtrls (h.kind x) ≤ (wires h args x).length := by
  rw [c.len hx]
  have hk := c.kind x (c.vis hx)
  unfold KindOK at hk
  cases hkk : h.kind x with
  | gate g d =>
    rw [hkk] at hk
    simp only [kindCtrls]
    by_cases hi : h.inputs x = []
    · cases g with
      | c op => exact absurd hi (hk.1.2 ⟨op, rfl⟩)
      | _ => simp [Gate.ctrls]
    · obtain ⟨h1, h2⟩ := hk.2 hi
      rw [h1]
      exact ctrls_le g _ h2
  | _ => simp [kindCtrls]

theorem svgFeeder_spec {h : Heap} {env args : List Nat} (c : Circuit h env args) (pick : List Nat → Nat)
    (shuffle : List Nat → List Nat) (hsh : ∀ l, (shuffle l).Perm l) :
    ∃ st, svgFeeder h args pick shuffle = .ok (width h args, st) ∧ st.acc = [] ∧ 0 ≤ st.lastMax ∧
      List.Forall₂ (fun x ss => ∃ c, Drawn (h.kind x) (wires h args x) c ss) ((needed h args).filter (isOp h)) st.ops ∧
      (∀ ss ∈ st.ops, ∀ s ∈ ss, 7 ≤ s.left ∧ s.right ≤ st.lastMax + 1) ∧
      st.ops.Pairwise fun a b => ∀ s ∈ a, ∀ t ∈ b, s.right + 6 ≤ t.left := by
  obtain ⟨V, c⟩ := c.ctx
  obtain ⟨deps, nodes, e1, d1, d2, d3, d4⟩ := getDeps_spec h pick args (fun x hx => c.wf.vlt x (c.vargs x hx))
    fun x hx => c.ilt hx
  have hsl := sortQid_deps c.wf c.vargs ((hsh deps).nodup_iff.2 d1) (fun x => ((hsh deps).mem_iff).trans (d4 x))
  obtain ⟨st, new, e2, a1, a2, a3, a4, a5, a6⟩ := svgFold_spec (h := h) (args := args) (needed h args)
    (fun x hx => kindCtrls_le c ((mem_needed c.wf c.vargs).1 hx)) ⟨[], 0, []⟩
  simp only [List.nil_append] at a1 a2 a3 a5
  refine ⟨st, ?_, a1, a3, by rw [a2]; exact a4, by rw [a2]; simpa using a5, by rw [a2]; exact a6⟩
  unfold svgFeeder
  rw [e1]
  simp only [bind, Except.bind]
  rw [hsl, runGraph_spec c.wf c.kind c.vargs c.size c.split d3 d2 rfl]
  rw [show (needed h args).foldlM (fun a x => svgFeed {} h a (groups h args x) (wires h args x) x) ⟨[], 0, []⟩ = .ok st
    from e2]
  rfl

theorem lineY_bounds {k n : Nat} (h : k < n) : 10 ≤ lineY k ∧ lineY k + 10 ≤ 20 * n := by
  have h1 : (0 : ℚ) ≤ k := by positivity
  have h2 : (k : ℚ) + 1 ≤ n := by exact_mod_cast h
  unfold lineY
  constructor <;> linarith

/-- **C55**: `make_svg` succeeds, whatever order the sets have.  The drawing has one line per qubit over its whole width,
and one group of elements for each operation the outputs depend on, in execution order: its symbols on the lines of its
qubits.  A later operation is drawn at least 6 units to the right of an earlier one, and everything is inside the view
box. -/
theorem C55_drawing {h : Heap} {env args : List Nat} (c : Circuit h env args) (pick : List Nat → Nat)
    (shuffle : List Nat → List Nat) (hsh : ∀ l, (shuffle l).Perm l) :
    ∃ svg, makeSvg h args pick shuffle = .ok svg ∧ svg.lines.length = width h args ∧
      (∀ s, s ∈ svg.lines ↔ ∃ k < width h args, s = .line 0 svg.width (lineY k) (lineY k) 2) ∧
      List.Forall₂ (fun x ss => ∃ c, Drawn (h.kind x) (wires h args x) c ss) ((needed h args).filter (isOp h)) svg.ops ∧
      (svg.ops.Pairwise fun a b => ∀ s ∈ a, ∀ t ∈ b, s.right + 6 ≤ t.left) ∧
      ∀ ss ∈ svg.ops, ∀ s ∈ ss, 0 ≤ s.left ∧ s.right ≤ svg.width ∧ 0 ≤ s.top ∧ s.bottom ≤ svg.height := by
  obtain ⟨st, e, a1, a2, a3, a4, a5⟩ := svgFeeder_spec c pick shuffle hsh
  obtain ⟨V, c⟩ := c.ctx
  refine ⟨(svgText {} (width h args) st).1, ?_, by simp [svgText, a1], ?_, a3, a5, ?_⟩
  · unfold makeSvg
    rw [e]
    rfl
  · intro s
    simp only [svgText, a1, List.nil_append, List.mem_map, List.mem_range]
    constructor
    · rintro ⟨k, hk, rfl⟩
      refine ⟨k, hk, ?_⟩
      rw [lay0_y]
      norm_num
    · rintro ⟨k, hk, rfl⟩
      refine ⟨k, hk, ?_⟩
      rw [lay0_y]
      norm_num
  · intro ss hss s hs
    obtain ⟨b1, b2⟩ := a4 ss hss s hs
    have hb : ((({} : Layout).opbuffer : ℤ) : ℚ) = 10 := rfl
    obtain ⟨i, hi, rfl⟩ := List.getElem_of_mem hss
    have hlen := a3.length_eq
    have hx := List.Forall₂.get a3 (by rw [hlen]; exact hi) hi
    obtain ⟨ctr, hd⟩ := hx
    obtain ⟨a, ha, b, hb', h1, h2⟩ := hd.within s hs
    have hmem : Reach h args (((needed h args).filter (isOp h)).get ⟨i, by rw [hlen]; exact hi⟩) := by
      have := List.get_mem ((needed h args).filter (isOp h)) ⟨i, by rw [hlen]; exact hi⟩
      exact (mem_needed c.wf c.vargs).1 (List.mem_filter.1 this).1
    have ba := lineY_bounds (c.lt_width hmem ha)
    have bb := lineY_bounds (c.lt_width hmem hb')
    refine ⟨by linarith, ?_, by linarith, ?_⟩
    · simp only [svgText, hb]; linarith
    · have : (svgText {} (width h args) st).1.height = 20 * (width h args : ℚ) + 2 * 10 := rfl
      rw [this]; linarith

/-- **C56**: the operations and the size of the drawing are the same on every call, and no new kind of element appears.
Partial: the text is not the same, see `C56_repeat_false`. -/
theorem C56_same_picture_partial (lay : Layout) (n : Nat) (st : SvgState) (hst : st.acc = []) :
    let first := svgText lay n st
    let second := svgText lay n first.2
    second.1.ops = first.1.ops ∧ second.1.width = first.1.width ∧ second.1.height = first.1.height ∧
      ∀ s, s ∈ second.1.lines ↔ s ∈ first.1.lines := by
  simp [svgText, hst]

/-- **C56** is false: every further call of `get_svg_text` draws the qubit lines once more, for every circuit that has qubits. -/
theorem C56_repeat_false {h : Heap} {env args : List Nat} (c : Circuit h env args) (hn : 0 < width h args) (pick : List Nat → Nat)
    (shuffle : List Nat → List Nat) (hsh : ∀ l, (shuffle l).Perm l) :
    ∃ n st, svgFeeder h args pick shuffle = .ok (n, st) ∧
      let first := svgText {} n st
      let second := svgText {} n first.2
      second.1.lines = first.1.lines ++ first.1.lines ∧ second.1 ≠ first.1 := by
  obtain ⟨st, e, a1, -⟩ := svgFeeder_spec c pick shuffle hsh
  refine ⟨_, st, e, ?_, ?_⟩
  · simp [svgText, a1]
  · intro heq
    have := congrArg (fun s => s.lines.length) heq
    simp only [svgText, a1, List.nil_append, List.length_append, List.length_map, List.length_range] at this
    omega

example : ∃ svg, makeSvg demo [5] (fun _ => 7) List.reverse = .ok svg ∧ svg.ops.length = 3 := by
  obtain ⟨svg, h1, -, -, h2, -⟩ := C55_drawing demo_circuit (fun _ => 7) List.reverse (fun l => l.reverse_perm)
  refine ⟨svg, h1, ?_⟩
  obtain ⟨k0, k1, k2, k4, k5⟩ := demo_kind
  rw [← h2.length_eq, demo_needed]
  simp [isOp, k0, k1, k2, k4, k5]

example : ∃ n st, svgFeeder demo [5] (fun _ => 7) List.reverse = .ok (n, st) ∧
    let first := svgText {} n st
    let second := svgText {} n first.2
    second.1.lines = first.1.lines ++ first.1.lines ∧ second.1 ≠ first.1 := by
  refine C56_repeat_false demo_circuit ?_ (fun _ => 7) List.reverse (fun l => l.reverse_perm)
  rw [demo_width]; norm_num

end QIP.Props
