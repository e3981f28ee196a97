import Verif.Lemmas.Hash
import Verif.Lemmas.ShorRun
import Verif.Props.Svg
import Verif.Props.Print

/-!
# How much work it is to name the operations of a drawing: C109
-/

namespace QIP.Props

open QIP Spec Heap

/-! ## Drawing with a limited stack -/

/-- A fold some of whose steps fail with `e`. -/
theorem foldlM_guard {σ : Type} {F G : σ → Nat → Except PyErr σ} {e : PyErr} {p : Nat → Bool} (L : List Nat)
    (hok : ∀ x ∈ L, ∀ a, ∃ b, F a x = .ok b) (hp : ∀ x ∈ L, p x = true → ∀ a, G a x = F a x)
    (hn : ∀ x ∈ L, p x = false → ∀ a, G a x = .error e) (a : σ) :
    L.foldlM G a = if L.all p then L.foldlM F a else .error e := by
  induction L generalizing a with
  | nil => rfl
  | cons x L ih =>
    have ih' := ih (fun y hy => hok y (by simp [hy])) (fun y hy => hp y (by simp [hy])) (fun y hy => hn y (by simp [hy]))
    rw [List.foldlM_cons, List.foldlM_cons]
    rcases hx : p x with _ | _
    · rw [hn x (by simp) hx a]
      simp [List.all_cons, hx, bind, Except.bind]
    · rw [hp x (by simp) hx a]
      obtain ⟨b, hb⟩ := hok x (by simp) a
      rw [hb]
      simp only [bind, Except.bind, List.all_cons, hx, Bool.true_and]
      exact ih' b

theorem svgFeedIn_some {frames : Nat} {h : Heap} {x : Nat} {s : String} (hs : h.repr frames x = some s) (lay : Layout)
    (st : SvgState) (gs : List (List Nat)) (own : List Nat) : svgFeedIn frames lay h st gs own x = svgFeed lay h st gs own x := by
  unfold svgFeedIn svgFeed
  rw [hs]
  simp only
  rw [repr_trim hs]

theorem svgFeed_ok {h : Heap} {V : Nat → Prop} {args : List Nat} (c : Ctx h V args) {x : Nat} (hx : Reach h args x)
    (st : SvgState) : ∃ st', svgFeed {} h st (groups h args x) (wires h args x) x = .ok st' := by
  obtain ⟨st', -, e, -⟩ := svgFold_spec (h := h) (args := args) [x] (by simpa using kindCtrls_le c hx) st
  simp only [List.foldlM_cons, List.foldlM_nil, bind, Except.bind] at e
  rcases hf : svgFeed lay0 h st (groups h args x) (wires h args x) x with er | st''
  · rw [hf] at e; simp at e
  · exact ⟨st'', rfl⟩

/-- A fold whose steps are followed by a check. -/
theorem foldlM_hashing {σ : Type} {frames : Nat} {h : Heap} {args : List Nat}
    {F G : σ → List (List Nat) → List Nat → Nat → Except PyErr σ}
    (hok : ∀ x ∈ needed h args, ∀ a, ∃ b, F a (groups h args x) (wires h args x) x = .ok b)
    (hp : ∀ x ∈ needed h args, h.can frames x = true → ∀ a, G a (groups h args x) (wires h args x) x
      = F a (groups h args x) (wires h args x) x)
    (hall : (needed h args).all (h.can frames) = true) (a : σ) :
    (needed h args).foldlM (fun a x => hashing frames h G a (groups h args x) (wires h args x) x) a
      = if (around h args).all (h.can frames) then
          (needed h args).foldlM (fun a x => F a (groups h args x) (wires h args x) x) a
        else .error .recursionError := by
  have hc := List.all_eq_true.1 hall
  rw [foldlM_guard (F := fun a x => F a (groups h args x) (wires h args x) x) (e := .recursionError)
    (p := fun x => (h.sinks x).all (h.can frames)) (needed h args) hok
    (fun x hx hs a => by
      obtain ⟨b, hb⟩ := hok x hx a
      rw [hashing_eq, hp x hx (hc x hx), hb]
      simp only [bind, Except.bind, if_pos hs])
    (fun x hx hs a => by
      obtain ⟨b, hb⟩ := hok x hx a
      rw [hashing_eq, hp x hx (hc x hx), hb]
      simp only [bind, Except.bind, hs]
      rfl)]
  rw [all_around, hall, Bool.true_and]

/-- **C109** (the limit of the stack): where `frames` nested calls are allowed, `make_svg` draws what C55 says if the
`repr` of every node the outputs depend on, and of everything made directly from such a node, can be computed, and raises
RecursionError otherwise; the names it finds are the names of the classes. -/
theorem C109_drawing {h : Heap} {env args : List Nat} (c : Circuit h env args) (pick : List Nat → Nat)
    (shuffle : List Nat → List Nat) (hsh : ∀ l, (shuffle l).Perm l) (frames : Nat) :
    makeSvgIn frames h args pick shuffle
      = if (around h args).all (fun x => (h.repr frames x).isSome) then makeSvg h args pick shuffle
        else .error .recursionError := by
  change _ = if (around h args).all (h.can frames) then _ else _
  obtain ⟨V, c⟩ := c.ctx
  obtain ⟨deps, nodes, e1, d1, d2, d3, d4⟩ := getDeps_spec h pick args (fun x hx => c.wf.vlt x (c.vargs x hx))
    fun x hx => c.ilt hx
  have hsl := sortQid_deps c.wf c.vargs ((hsh deps).nodup_iff.2 d1) (fun x => ((hsh deps).mem_iff).trans (d4 x))
  unfold makeSvgIn makeSvg svgFeeder
  rw [getDepsIn_spec c, e1]
  by_cases hnd : (needed h args).all (h.can frames) = true
  · rw [if_pos hnd]
    simp only [bind, Except.bind]
    rw [hsl, runGraph_spec c.wf c.kind c.vargs c.size c.split d3 d2 rfl, runGraph_spec c.wf c.kind c.vargs c.size c.split d3 d2 rfl]
    rw [foldlM_hashing (F := svgFeed {} h) (fun x hx a => svgFeed_ok c ((mem_needed c.wf c.vargs).1 hx) a)
      (fun x _ hp a => by
        obtain ⟨s, hs⟩ := Option.isSome_iff_exists.1 hp
        exact svgFeedIn_some hs _ _ _ _) hnd]
    by_cases hall : (around h args).all (h.can frames) = true
    · rw [if_pos hall, if_pos hall]
      rcases (needed h args).foldlM (fun a x => svgFeed {} h a (groups h args x) (wires h args x) x) ⟨[], 0, []⟩ with e | st <;> rfl
    · rw [if_neg hall, if_neg hall]
  · have hn : ¬ (around h args).all (h.can frames) = true := by
      rw [all_around, Bool.and_eq_true]; exact fun h => hnd h.1
    rw [if_neg hnd, if_neg hn]
    rfl

/-- The same for `print_circuit`. -/
theorem C109_printing {h : Heap} {env args : List Nat} (c : Circuit h env args) (w : Nat) (pick : List Nat → Nat)
    (shuffle : List Nat → List Nat) (hsh : ∀ l, (shuffle l).Perm l) (frames : Nat) :
    printCircuitIn frames w h args pick shuffle
      = if (around h args).all (fun x => (h.repr frames x).isSome) then printCircuit w h args pick shuffle
        else .error .recursionError := by
  change _ = if (around h args).all (h.can frames) then _ else _
  obtain ⟨V, c⟩ := c.ctx
  obtain ⟨deps, nodes, e1, d1, d2, d3, d4⟩ := getDeps_spec h pick args (fun x hx => c.wf.vlt x (c.vargs x hx))
    fun x hx => c.ilt hx
  have hsl := sortQid_deps c.wf c.vargs ((hsh deps).nodup_iff.2 d1) (fun x => ((hsh deps).mem_iff).trans (d4 x))
  unfold printCircuitIn printCircuit
  rw [getDepsIn_spec c, e1]
  by_cases hnd : (needed h args).all (h.can frames) = true
  · rw [if_pos hnd]
    simp only [bind, Except.bind]
    rw [hsl, runGraph_spec c.wf c.kind c.vargs c.size c.split d3 d2 rfl, runGraph_spec c.wf c.kind c.vargs c.size c.split d3 d2 rfl]
    refine foldlM_hashing (F := fun out gs _ x => .ok (out ++ printRows w ((leaves h args).map h.n).sum h gs x)) (fun x _ a => ⟨_, rfl⟩) (fun x _ hp a => ?_) hnd _
    unfold printRowsIn printRows
    simp only
    by_cases hg : (groups h args x).flatten.length > 0
    · rw [if_pos hg, if_pos hg]
      obtain ⟨s, hs⟩ := Option.isSome_iff_exists.1 hp
      rw [hs]
      simp only
      rw [repr_trim hs]
    · rw [if_neg hg, if_neg hg]
  · have hn : ¬ (around h args).all (h.can frames) = true := by
      rw [all_around, Bool.and_eq_true]; exact fun h => hnd h.1
    rw [if_neg hnd, if_neg hn]
    rfl

/-- **C109** (part): with more nested calls allowed than nodes have been made, drawing and printing succeed. -/
theorem C109_enough_partial {h : Heap} {env args : List Nat} (c : Circuit h env args) (w : Nat) (pick : List Nat → Nat)
    (shuffle : List Nat → List Nat) (hsh : ∀ l, (shuffle l).Perm l) {frames : Nat} (hf : h.nodes.length ≤ frames) :
    makeSvgIn frames h args pick shuffle = makeSvg h args pick shuffle ∧
      printCircuitIn frames w h args pick shuffle = printCircuit w h args pick shuffle := by
  have hall : ∀ x ∈ around h args, (h.repr frames x).isSome = true := by
    have hd := built_deep c.built
    obtain ⟨V, c⟩ := c.ctx
    intro x hx
    have hlt := around_lt c hx
    obtain ⟨s, hs⟩ := repr_some hd (f := frames) hlt (by omega)
    rw [hs]; rfl
  rw [C109_drawing c pick shuffle hsh, C109_printing c w pick shuffle hsh, if_pos (List.all_eq_true.2 hall),
    if_pos (List.all_eq_true.2 hall)]
  exact ⟨rfl, rfl⟩

/-- **C109** (the limit of the stack): where a drawing succeeds, it succeeds with more nested calls allowed as well, and
is the same. -/
theorem C109_more {h : Heap} {env args : List Nat} (c : Circuit h env args) (w : Nat) (pick : List Nat → Nat)
    (shuffle : List Nat → List Nat) (hsh : ∀ l, (shuffle l).Perm l) {f g : Nat} (hfg : f ≤ g) :
    (∀ r, makeSvgIn f h args pick shuffle = .ok r → makeSvgIn g h args pick shuffle = .ok r) ∧
      ∀ r, printCircuitIn f w h args pick shuffle = .ok r → printCircuitIn g w h args pick shuffle = .ok r := by
  have mono : ∀ x, (h.repr f x).isSome = true → (h.repr g x).isSome = true := by
    intro x hx
    obtain ⟨s, hs⟩ := Option.isSome_iff_exists.1 hx
    rw [repr_mono hs hfg]; rfl
  rw [C109_drawing c pick shuffle hsh, C109_drawing c pick shuffle hsh, C109_printing c w pick shuffle hsh,
    C109_printing c w pick shuffle hsh]
  constructor
  · intro r hr
    split at hr
    · rename_i hall
      rwa [if_pos (List.all_eq_true.2 fun x hx => mono x (List.all_eq_true.1 hall x hx))]
    · cases hr
  · intro r hr
    split at hr
    · rename_i hall
      rwa [if_pos (List.all_eq_true.2 fun x hx => mono x (List.all_eq_true.1 hall x hx))]
    · cases hr

/-- `C(C(...C(g)...))` with `k` controls. -/
def controlled (g : Gate) : Nat → Gate
  | 0 => g
  | k + 1 => .c (controlled g k)

/-- **C109** (the limit of the stack): an operation with `k` controls needs more than `k` nested calls, even if its text
contains no input: otherwise the drawing ends with RecursionError. -/
theorem C109_controls {h : Heap} {env args : List Nat} (c : Circuit h env args) (pick : List Nat → Nat)
    (shuffle : List Nat → List Nat) (hsh : ∀ l, (shuffle l).Perm l) {x : Nat} (hx : x ∈ needed h args) {g : Gate} {d : Bool}
    {k : Nat} (hk : h.kind x = .gate (controlled g k) d) {frames : Nat} (hf : frames ≤ k) :
    makeSvgIn frames h args pick shuffle = .error .recursionError := by
  have hi : ∀ k, k ≤ (controlled g k).inner := by
    intro k
    induction k with
    | zero => exact Nat.zero_le _
    | succ k ih => exact Nat.succ_le_succ ih
  rw [C109_drawing c pick shuffle hsh, if_neg]
  intro hall
  have := List.all_eq_true.1 hall x (List.mem_append_left _ hx)
  rw [repr_few h (by rw [hk]; exact hf.trans (hi k))] at this
  cases this

/-! ## Long texts -/

/-- **C109** (part): if the `repr` of every node made before `x` contains that of at most one input – no `F`, and `R` only
on single qubits –, the `repr` of `x` is not longer than the own texts of these nodes, taken once per input of `x`. -/
theorem C109_short_partial {h : Heap} {env : List Nat} (hb : Built h env) {x : Nat} (hx : x ∈ env)
    (hn : ∀ y < x, ((h.kind y).shown (h.inputs y)).length ≤ 1) {frames : Nat} {s : String} (hs : h.repr frames x = some s) :
    s.length ≤ ownLen h x + (h.inputs x).length * ((List.range x).map (ownLen h)).sum := by
  obtain ⟨V, hw, -, hV⟩ := built_wf hb
  have hlt := hw.vlt x (hV x hx)
  have hlen := repr_len hs (B := ((List.range x).map (ownLen h)).sum) (by
    intro i hi f' t ht
    have hi' := hw.ilt x hlt i (Kind.shown_sub _ hi)
    refine (repr_narrow hw (by omega) (fun y hy => hn y (by omega)) ht).trans ?_
    have hsub : (List.range (i + 1)).Sublist (List.range x) := List.range_sublist.2 (by omega)
    exact (hsub.map _).sum_le_sum (fun _ _ => Nat.zero_le _))
  refine hlen.trans ?_
  have hsh : ∀ k : Kind, (k.shown (h.inputs x)).length ≤ (h.inputs x).length := by
    have hg : ∀ (g : Gate) (l : List Nat), (g.shown l).length ≤ l.length := by
      intro g
      induction g with
      | c op ih => intro l; exact (ih _).trans (by simp)
      | _ => intro l; simp [Gate.shown]
    intro k
    cases k with
    | gate g d => exact hg g _
    | fop f => simp [Kind.shown]
    | _ => simp [Kind.shown]
  have := Nat.mul_le_mul_right ((List.range x).map (ownLen h)).sum (hsh (h.kind x))
  omega

/-- `for _ in range(k): a, b = F(f, a, b)`. -/
def oracles (f : Nat → Except PyErr Int) : Nat → List Nat → W (List Nat)
  | 0, xs => pure xs
  | k + 1, xs => do
    let ys ← callWrapper (.fop f) [] xs
    oracles f k ys

/-- Two registers of one qubit, then `k` times `F`. -/
def manyOracles (f : Nat → Except PyErr Int) (k : Nat) : W (List Nat) := do
  let a ← direct (.qubit [] (some ((1 : Nat) : Int)) none)
  let b ← direct (.qubit [] (some ((1 : Nat) : Int)) none)
  oracles f k (a ++ b)

/-- Every `repr` of the node has at least `m` characters. -/
def Long (h : Heap) (x m : Nat) : Prop := ∀ frames s, h.repr frames x = some s → m ≤ s.length

theorem long_split {h : Heap} {z x a b m : Nat} {is : List Int} {f : Nat → Except PyErr Int} (hx : h.inputs x = [z])
    (kx : h.kind x = .split is) (hz : h.inputs z = [a, b]) (kz : h.kind z = .fop f) (ha : Long h a m) (hb : Long h b m) :
    Long h x (2 * m) := by
  intro frames s hs
  obtain ⟨f1, l, -, hl, rfl⟩ := repr_parts hs
  rw [kx, hx] at hl
  simp only [Kind.shown] at hl
  obtain ⟨t, ht, rfl⟩ : ∃ t, h.repr f1 z = some t ∧ l = [t] := by
    cases hl with
    | cons h1 h2 => cases h2; exact ⟨_, h1, rfl⟩
  clear hl hs
  obtain ⟨f2, l, -, hl, rfl⟩ := repr_parts ht
  rw [kz, hz] at hl
  simp only [Kind.shown, List.take_succ_cons, List.take_zero] at hl
  obtain ⟨ta, tb, h1, h2, rfl⟩ : ∃ ta tb, h.repr f2 a = some ta ∧ h.repr f2 b = some tb ∧ l = [ta, tb] := by
    cases hl with
    | cons h1 h2 => cases h2 with | cons h2 h3 => cases h3; exact ⟨_, _, h1, h2, rfl⟩
  have := ha _ _ h1
  have := hb _ _ h2
  rw [kx, kz]
  simp only [Kind.text, commas, String.length_append, List.getD_cons_zero, List.getD_cons_succ]
  omega

theorem oracles_long {f : Nat → Except PyErr Int} (hf : ∀ i < 2, ∃ y, f i = .ok y ∧ -2 ^ 31 ≤ y ∧ y < 2 ^ 31) (k : Nat)
    {s : WState} {a b m : Nat} (t : Top s [a, b]) (hw : width s.heap [a, b] = 2)
    (ha : (wires s.heap [a, b] a).length = 1) (hb : (wires s.heap [a, b] b).length = 1)
    (la : Long s.heap a m) (lb : Long s.heap b m) :
    ∃ s' a' b', oracles f k [a, b] s = (.ok [a', b'], s') ∧ Top s' [a', b'] ∧ Long s'.heap a' (2 ^ k * m) ∧
      Long s'.heap b' (2 ^ k * m) := by
  induction k generalizing s a b m with
  | zero => exact ⟨s, a, b, rfl, t, by simpa using la, by simpa using lb⟩
  | succ k ih =>
    obtain ⟨s1, p, q, c, z, is, js, hp, hq, kq, -, kp, kz, hz⟩ := t.fop_pieces (a := a) (b := b) (rest := []) (by simp)
      (f := f) [] ⟨by rw [hw]; norm_num, by simpa [ha] using hf, Or.inl (by rw [hw]; simp [ha, hb])⟩
    obtain ⟨env, l⟩ := t.alive
    obtain ⟨V, hwf, -, hV⟩ := built_wf l.circuit.built
    have hin : ∀ i ∈ [a, b], i < s.heap.nodes.length := fun i hi => hwf.vlt i (hV i (l.circuit.held i hi))
    obtain ⟨_, g, -⟩ := c.ev.grows
    have la' : Long s1.heap a m := fun fr u hu => la fr u (by rwa [repr_ext hwf g.ext (hin a (by simp))] at hu)
    have lb' : Long s1.heap b m := fun fr u hu => lb fr u (by rwa [repr_ext hwf g.ext (hin b (by simp))] at hu)
    have u := c.wires
    simp only [List.map_cons, List.map_nil, List.append_nil, List.cons.injEq, and_true] at u
    obtain ⟨s', a', b', e, t', l1, l2⟩ := ih (s := s1) (a := p) (b := q) (m := 2 * m) c.top (c.ev.width.trans hw)
      (by rw [u.1, ha]) (by rw [u.2, hb]) (long_split hp kp hz kz la' lb') (long_split hq kq hz kz la' lb')
    refine ⟨s', a', b', ?_, t', ?_, ?_⟩
    · unfold oracles
      rw [W.bind_ok c.ret, e]
    · rw [pow_succ, mul_assoc]; exact l1
    · rw [pow_succ, mul_assoc]; exact l2

/-- Nothing has been made yet. -/
def fresh : WState := ⟨Heap.empty, [], 0, fun _ => 0⟩

/-- **C109** (negation for the length of the texts): the text that is computed to find the name of an output of `k`
successive `F` operations on two one-qubit registers has at least `2 ** k` characters. -/
theorem C109_long_false {f : Nat → Except PyErr Int} (hf : ∀ i < 2, ∃ y, f i = .ok y ∧ -2 ^ 31 ≤ y ∧ y < 2 ^ 31) (k : Nat) :
    ∃ s a b env, manyOracles f k fresh = (.ok [a, b], s) ∧ Circuit s.heap env [a, b] ∧ a ∈ needed s.heap [a, b] ∧
      (∃ frames t, s.heap.repr frames a = some t) ∧ ∀ frames t, s.heap.repr frames a = some t → 2 ^ k ≤ t.length := by
  have hd : badDefault (1 : Nat) none = false := rfl
  obtain ⟨a1, -, -⟩ := allRegs_push allRegs_empty one_pos hd
  have x1 := exec_register (h := Heap.empty) one_pos hd
  rw [x1] at a1
  simp only [List.nil_append] at a1
  set h1 := Heap.empty.push (Heap.empty.newNode .qubit [] (some ((1 : Nat) : Int)) none none) (Heap.empty.newNext none) with hh1
  obtain ⟨a2, -, -⟩ := allRegs_push a1 one_pos hd
  have x2 := exec_register (h := h1) one_pos hd
  rw [x2] at a2
  simp only [List.singleton_append] at a2
  set h2 := h1.push (h1.newNode .qubit [] (some ((1 : Nat) : Int)) none none) (h1.newNext none) with hh2
  have cur := a2.current (by simp)
  have hr2 : List.range [1, 1].length = [0, 1] := rfl
  rw [hr2] at cur
  have hw2 : width h2 [0, 1] = 2 := by have := a2.width; rw [hr2] at this; simpa using this
  have hwa : (wires h2 [0, 1] 0).length = 1 := by
    have := a2.wires (x := 0) (by simp); rw [hr2] at this; rw [this]; simp
  have hwb : (wires h2 [0, 1] 1).length = 1 := by
    have := a2.wires (x := 1) (by simp); rw [hr2] at this; rw [this]; simp
  have t0 : Top ⟨h2, [], 0, fun _ => 0⟩ [0, 1] := ⟨rfl, rfl, ⟨_, cur.live⟩, cur.unused⟩
  have hl : ∀ x < 2, Long h2 x 1 := by
    intro x hx frames s hs
    obtain ⟨_, l, -, -, rfl⟩ := repr_parts hs
    rw [a2.kind x (by simpa using hx)]
    simp only [Kind.text, String.length_append]
    have : "Q(".length = 2 := rfl
    omega
  obtain ⟨s, a, b, e, t, la, -⟩ := oracles_long hf k t0 hw2 hwa hwb (hl 0 (by norm_num)) (hl 1 (by norm_num))
  obtain ⟨env, lv⟩ := t.alive
  obtain ⟨V, c⟩ := lv.circuit.ctx
  refine ⟨s, a, b, env, ?_, lv.circuit, (mem_needed c.wf c.vargs).2 (.arg (by simp)), ?_, fun fr u hu => by
    simpa using la fr u hu⟩
  · have r1 : direct (.qubit [] (some ((1 : Nat) : Int)) none) fresh = (.ok [0], ⟨h1, [], 0, fun _ => 0⟩) := by
      unfold direct fresh
      simp only
      rw [x1]
      rfl
    have r2 : direct (.qubit [] (some ((1 : Nat) : Int)) none) ⟨h1, [], 0, fun _ => 0⟩ = (.ok [1], ⟨h2, [], 0, fun _ => 0⟩) := by
      unfold direct
      simp only
      rw [x2, a1.len]
      rfl
    unfold manyOracles
    rw [W.bind_ok r1, W.bind_ok r2]
    exact e
  · obtain ⟨u, hu⟩ := repr_some (built_deep lv.circuit.built) (f := a + 1) (c.wf.vlt a (c.vargs a (by simp))) (by omega)
    exact ⟨_, u, hu⟩

/-! ## Deep texts -/

/-- `for _ in range(k): a = R(phi, a)`. -/
noncomputable def turns (phi : ℝ) : Nat → List Nat → W (List Nat)
  | 0, xs => pure xs
  | k + 1, xs => do
    let ys ← callWrapper (.param (.r phi)) [] xs
    turns phi k ys

/-- One qubit, then `k` times `R`. -/
noncomputable def manyTurns (phi : ℝ) (k : Nat) : W (List Nat) := do
  let a ← direct (.qubit [] (some ((1 : Nat) : Int)) none)
  turns phi k a

/-- `R(phi, a)`, with the object made. -/
theorem turn_shape {s : WState} {a : Nat} (t : Top s [a]) (phi : ℝ) :
    ∃ s' x, callWrapper (.param (.r phi)) [] [a] s = (.ok [x], s') ∧ Top s' [x] ∧ Ext s.heap s'.heap ∧
      s'.heap.kind x = .gate (.r phi) false ∧ s'.heap.inputs x = [a] ∧ x = s.heap.nodes.length ∧
      s'.heap.nodes.length = s.heap.nodes.length + 1 ∧ s'.heap.default x = none := by
  obtain ⟨env, l⟩ := t.alive
  obtain ⟨V, hw, hk, hV⟩ := built_wf l.circuit.built
  have hpos : 0 < s.heap.n a := l.pos (.arg (by simp))
  obtain ⟨s', outs, c⟩ := t.op (ins := [a]) (rest := []) (by simp) (w := .param (.r phi)) [] (Or.inr ⟨_, rfl⟩)
    (by simp [Ctor.spec, OpFits, Gate.withKw])
  obtain ⟨h', r, e, w, cr⟩ := initQubit_ok hw (kind := .gate (.r phi) false) (inputs := [a]) (n := none) (qid := none)
    (by simpa using hV a (l.circuit.held a (by simp))) qidOK_none (by simp) (initN_pos (by simp) (by simpa using hpos))
  have happ : applyInContext (.param (.r phi)) ((Ctor.param (.r phi)).positional [a]) s
      = (.ok [s.heap.nodes.length], { s with heap := h' }) := by
    unfold applyInContext
    have hst : ¬ 0 < s.stack.length := by rw [t.stack]; simp
    simp only [hst, decide_false, Bool.false_eq_true, ↓reduceIte]
    have : constructArgs s.heap (.param (.r phi)) (wrapperKw [] []) ((Ctor.param (.r phi)).positional [a])
        = s.heap.initQubit (.gate (.r phi) false) [a] none none none := rfl
    rw [this, r]
    simp only
    have : h'.split s.heap.nodes.length none = (.ok [s.heap.nodes.length], h') := by
      unfold Heap.split
      simp only [cr.inputsx, Heap.cumulative]
      rfl
    rw [this]
  have hret := c.ret
  have hcall : callWrapper (.param (.r phi)) [] [a] s = (.ok [s.heap.nodes.length], { s with heap := h' }) := by
    unfold callWrapper
    rw [W.bind_ok happ]
    rfl
  rw [hcall] at hret
  simp only [Prod.mk.injEq, Except.ok.injEq] at hret
  obtain ⟨rfl, rfl⟩ := hret
  exact ⟨_, _, hcall, c.top, e, cr.kindx, cr.inputsx, rfl, cr.len, cr.defaultx⟩

theorem turns_deep (phi : ℝ) (k : Nat) {s : WState} {a m : Nat} (t : Top s [a]) (ha : s.heap.repr m a = none) :
    ∃ s' x, turns phi k [a] s = (.ok [x], s') ∧ Top s' [x] ∧ s'.heap.repr (m + k) x = none ∧
      s'.heap.nodes.length = s.heap.nodes.length + k ∧
      ((∀ y < s.heap.nodes.length, s.heap.default y = none) → ∀ y < s'.heap.nodes.length, s'.heap.default y = none) := by
  induction k generalizing s a m with
  | zero => exact ⟨s, a, rfl, t, ha, rfl, id⟩
  | succ k ih =>
    obtain ⟨s1, x, e, t1, ex, kx, ix, rfl, len, dx⟩ := turn_shape t phi
    obtain ⟨env, l⟩ := t.alive
    obtain ⟨V, hw, -, hV⟩ := built_wf l.circuit.built
    have h1 : s1.heap.repr (m + 1) s.heap.nodes.length = none := by
      have := repr_step s1.heap m s.heap.nodes.length
      rw [kx, ix] at this
      rw [show m + 1 = m + 1 + (Kind.gate (.r phi) false).inner from rfl, this]
      simp only [Kind.shown, Gate.shown, List.mapM_cons]
      rw [repr_ext hw ex (hw.vlt a (hV a (l.circuit.held a (by simp)))), ha]
      rfl
    obtain ⟨s', y, e', t', d, len', df⟩ := ih (s := s1) (a := s.heap.nodes.length) (m := m + 1) t1 h1
    refine ⟨s', y, ?_, t', by rw [show m + (k + 1) = m + 1 + k by omega]; exact d, by omega, fun h0 => df fun z hz => ?_⟩
    · unfold turns
      rw [W.bind_ok e, e']
    · by_cases hz' : z < s.heap.nodes.length
      · rw [ex.default z hz', h0 z hz']
      · obtain rfl : z = s.heap.nodes.length := by omega
        exact dx

theorem manyTurns_deep (phi : ℝ) (k : Nat) :
    ∃ s x env, manyTurns phi k fresh = (.ok [x], s) ∧ Live s.heap env [x] ∧ s.heap.repr k x = none ∧
      s.heap.nodes.length = k + 1 ∧ ∀ y < s.heap.nodes.length, s.heap.default y = none := by
  have hd : badDefault (1 : Nat) none = false := rfl
  obtain ⟨a1, -, -⟩ := allRegs_push allRegs_empty one_pos hd
  have x1 := exec_register (h := Heap.empty) one_pos hd
  rw [x1] at a1
  simp only [List.nil_append] at a1
  set h1 := Heap.empty.push (Heap.empty.newNode .qubit [] (some ((1 : Nat) : Int)) none none) (Heap.empty.newNext none) with hh1
  have cur := a1.current (by simp)
  have hr1 : List.range [1].length = [0] := rfl
  rw [hr1] at cur
  have t0 : Top ⟨h1, [], 0, fun _ => 0⟩ [0] := ⟨rfl, rfl, ⟨_, cur.live⟩, cur.unused⟩
  obtain ⟨s, x, e, t, d, len, df⟩ := turns_deep phi k (m := 0) t0 rfl
  rw [Nat.zero_add] at d
  obtain ⟨env, lv⟩ := t.alive
  have r1 : direct (.qubit [] (some ((1 : Nat) : Int)) none) fresh = (.ok [0], ⟨h1, [], 0, fun _ => 0⟩) := by
    unfold direct fresh
    simp only
    rw [x1]
    rfl
  refine ⟨s, x, env, ?_, lv, d, ?_, df ?_⟩
  · unfold manyTurns
    rw [W.bind_ok r1]
    exact e
  · rw [len]
    change h1.nodes.length + k = k + 1
    rw [a1.len]
    simp [Nat.add_comm]
  · intro y hy
    have : y = 0 := by
      have := a1.len
      simp only [List.length_singleton] at this
      change y < h1.nodes.length at hy
      omega
    subst this
    rfl

/-- **C109** (negation for the depth): however many nested calls are allowed, there is a circuit of that many `R` gates on
one qubit which `make_svg` and `print_circuit` cannot draw. -/
theorem C109_deep_false (phi : ℝ) (frames : Nat) :
    ∃ s x env, manyTurns phi frames fresh = (.ok [x], s) ∧ Circuit s.heap env [x] ∧
      ∀ pick shuffle, (∀ l, (shuffle l).Perm l) → makeSvgIn frames s.heap [x] pick shuffle = .error .recursionError ∧
        ∀ w, printCircuitIn frames w s.heap [x] pick shuffle = .error .recursionError := by
  obtain ⟨s, x, env, e, lv, d, -, -⟩ := manyTurns_deep phi frames
  refine ⟨s, x, env, e, lv.circuit, fun pick shuffle hsh => ?_⟩
  obtain ⟨V, c⟩ := lv.circuit.ctx
  have hbad : ¬ (around s.heap [x]).all (fun x => (s.heap.repr frames x).isSome) = true := by
    intro hall
    have := List.all_eq_true.1 hall x (List.mem_append_left _ ((mem_needed c.wf c.vargs).2 (.arg (by simp))))
    rw [d] at this
    simp at this
  constructor
  · rw [C109_drawing lv.circuit pick shuffle hsh, if_neg hbad]
  · intro w
    rw [C109_printing lv.circuit w pick shuffle hsh, if_neg hbad]

/-! ## Examples -/

/-- `repr` of the measurement of the demonstration circuit: of the measurement, of the `COp` and of the `Not` inside. -/
example : demo.repr 3 5 = some "SM(CNot(3))" := rfl

example : demo.repr 2 5 = none := rfl

example (pick : List Nat → Nat) : makeSvgIn 1 demo [5] pick List.reverse = .error .recursionError :=
  C109_controls demo_circuit pick _ (fun l => l.reverse_perm) (x := 4) (g := .not) (k := 1) (d := false)
    (by rw [demo_needed]; decide) rfl le_rfl

example (pick : List Nat → Nat) (r : List (List String)) (h : printCircuitIn 3 1 demo [5] pick List.reverse = .ok r) :
    printCircuitIn 1000 1 demo [5] pick List.reverse = .ok r :=
  (C109_more demo_circuit 1 pick _ (fun l => l.reverse_perm) (by norm_num)).2 r h

/-- Too few nested calls for it. -/
example (pick : List Nat → Nat) : makeSvgIn 2 demo [5] pick List.reverse = .error .recursionError := by
  rw [C109_drawing demo_circuit pick _ (fun l => l.reverse_perm), if_neg]
  rw [around, demo_needed]
  decide +kernel

example (pick : List Nat → Nat) : makeSvgIn 6 demo [5] pick List.reverse = makeSvg demo [5] pick List.reverse :=
  (C109_enough_partial demo_circuit 1 pick _ (fun l => l.reverse_perm) demo_nodes.le).1

example {frames : Nat} {s : String} (hs : demo.repr frames 5 = some s) : s.length ≤ 4 + 1 * (4 + 4 + 4 + 6 + 7) :=
  C109_short_partial demo_built (x := 5) (by simp) (by
    intro y hy
    have : y = 0 ∨ y = 1 ∨ y = 2 ∨ y = 3 ∨ y = 4 := by omega
    rcases this with rfl | rfl | rfl | rfl | rfl <;> exact Nat.zero_le _) hs

noncomputable example : ∃ s x env, manyTurns 1 1000 fresh = (.ok [x], s) ∧ Circuit s.heap env [x] ∧
    ∀ pick shuffle, (∀ l, (shuffle l).Perm l) → makeSvgIn 1000 s.heap [x] pick shuffle = .error .recursionError ∧
      ∀ w, printCircuitIn 1000 w s.heap [x] pick shuffle = .error .recursionError :=
  C109_deep_false 1 1000

example : ∃ s a b env, manyOracles (fun _ => .ok 1) 100 fresh = (.ok [a, b], s) ∧ Circuit s.heap env [a, b] ∧
    a ∈ needed s.heap [a, b] ∧ (∃ frames t, s.heap.repr frames a = some t) ∧
    ∀ frames t, s.heap.repr frames a = some t → 2 ^ 100 ≤ t.length :=
  C109_long_false (fun i _ => ⟨1, rfl, by norm_num, by norm_num⟩) 100

end QIP.Props
