import Verif.Spec.Svg
import Verif.Lemmas.RunPre
import Verif.Lemmas.Demo

/-!
# Lemmas on drawings
-/

namespace QIP

open Spec Heap

/-- The default layout. -/
abbrev lay0 : Layout := {}

theorem lay0_y (i : Nat) : lay0.y i = lineY i := by
  simp only [Layout.y, lineY]; push_cast; ring

theorem foldl_min_spec (l : List Nat) (a : Nat) : l.foldl min a ∈ a :: l ∧ ∀ q ∈ a :: l, l.foldl min a ≤ q := by
  induction l generalizing a with
  | nil => simp
  | cons b l ih =>
    obtain ⟨h1, h2⟩ := ih (min a b)
    simp only [List.foldl_cons]
    refine ⟨?_, ?_⟩
    · rcases List.mem_cons.1 h1 with h | h
      · rw [h]
        rcases min_choice a b with e | e <;> simp [e]
      · exact List.mem_cons_of_mem _ (List.mem_cons_of_mem _ h)
    · intro q hq
      have h0 := h2 (min a b) (by simp)
      rcases List.mem_cons.1 hq with rfl | hq
      · omega
      · rcases List.mem_cons.1 hq with rfl | hq
        · omega
        · exact h2 q (by simp [hq])

theorem foldl_max_spec (l : List Nat) (a : Nat) : l.foldl max a ∈ a :: l ∧ ∀ q ∈ a :: l, q ≤ l.foldl max a := by
  induction l generalizing a with
  | nil => simp
  | cons b l ih =>
    obtain ⟨h1, h2⟩ := ih (max a b)
    simp only [List.foldl_cons]
    refine ⟨?_, ?_⟩
    · rcases List.mem_cons.1 h1 with h | h
      · rw [h]
        rcases max_choice a b with e | e <;> simp [e]
      · exact List.mem_cons_of_mem _ (List.mem_cons_of_mem _ h)
    · intro q hq
      have h0 := h2 (max a b) (by simp)
      rcases List.mem_cons.1 hq with rfl | hq
      · omega
      · rcases List.mem_cons.1 hq with rfl | hq
        · omega
        · exact h2 q (by simp [hq])

/-- Elements stay within the given distance and between the lines of the qubits. -/
def Inside (qs : List Nat) (x d : ℚ) (s : Shape) : Prop :=
  x - d ≤ s.left ∧ s.right ≤ x + d ∧ ∃ a ∈ qs, ∃ b ∈ qs, lineY a - 5 ≤ s.top ∧ s.bottom ≤ lineY b + 5

theorem lineY_mono {a b : Nat} (h : a ≤ b) : lineY a ≤ lineY b := by
  have : (a : ℚ) ≤ b := by exact_mod_cast h
  unfold lineY; linarith

theorem connector_spec (x : ℚ) (qs : List Nat) {d : ℚ} (hd : 0 ≤ d) :
    (1 < qs.length → ∃ a ∈ qs, ∃ b ∈ qs, (∀ q ∈ qs, a ≤ q ∧ q ≤ b) ∧ ∃ w, .line x x (lineY a) (lineY b) w ∈ connector lay0 x qs) ∧
      ∀ s ∈ connector lay0 x qs, Inside qs x d s := by
  rcases qs with _ | ⟨q, qs⟩
  · simp [connector]
  · obtain ⟨a1, a2⟩ := foldl_min_spec qs q
    obtain ⟨b1, b2⟩ := foldl_max_spec qs q
    have hab := b2 _ a1
    have hy := lineY_mono hab
    unfold connector
    split
    · simp only [List.headD_cons, List.tail_cons, lay0_y]
      refine ⟨fun _ => ⟨_, a1, _, b1, fun q hq => ⟨a2 q hq, b2 q hq⟩, _, List.mem_singleton.2 rfl⟩, ?_⟩
      intro s hs
      rw [List.mem_singleton] at hs
      subst hs
      refine ⟨?_, ?_, _, a1, _, b1, ?_, ?_⟩
      · simp only [Shape.left, min_self]; linarith
      · simp only [Shape.right, max_self]; linarith
      · simp only [Shape.top, min_eq_left hy]; linarith
      · simp only [Shape.bottom, max_eq_right hy]; linarith
    · rename_i h
      exact ⟨fun h' => absurd h' h, by simp⟩

theorem shows_mono {ss ss' : List Shape} (h : ∀ s ∈ ss, s ∈ ss') {x y : ℚ} {k : Sym} (hs : Shows ss x y k) : Shows ss' x y k := by
  cases k with
  | control => obtain ⟨r, h1, h2⟩ := hs; exact ⟨r, h1, h _ h2⟩
  | plus => obtain ⟨r, h1, h2, ⟨w, h3⟩, w', h4⟩ := hs; exact ⟨r, h1, h _ h2, ⟨w, h _ h3⟩, w', h _ h4⟩
  | cross => obtain ⟨r, h1, w, h2, h3⟩ := hs; exact ⟨r, h1, w, h _ h2, h _ h3⟩
  | box s => obtain ⟨a, h1, b, h2, w, z, h3, h4⟩ := hs; exact ⟨a, h1, b, h2, w, z, h _ h3, h _ h4⟩

theorem boxes_spec (x : ℚ) (name : String) (qs : List Nat) :
    (∀ q ∈ qs, Shows (boxes lay0 x name qs) x (lineY q) (.box name)) ∧
      ∀ s ∈ boxes lay0 x name qs, Inside qs x (7 * name.length / 4 + 3 / 2) s := by
  unfold boxes
  simp only [lay0_y]
  have hl : (0 : ℚ) ≤ name.length := by positivity
  refine ⟨?_, ?_⟩
  · intro q hq
    refine ⟨(7 : ℚ) * name.length / 2 / 2 + 1, by positivity, 5, by norm_num, 1, 7, ?_, ?_⟩ <;>
      refine List.mem_flatMap.2 ⟨q, hq, ?_⟩ <;> norm_num
  · intro s hs
    obtain ⟨q, hq, hs⟩ := List.mem_flatMap.1 hs
    simp only [List.mem_cons, List.not_mem_nil, or_false] at hs
    push_cast at hs
    rcases hs with rfl | rfl
    · refine ⟨?_, ?_, q, hq, q, hq, ?_, ?_⟩
      · simp only [Shape.left]
        refine le_min ?_ ?_ <;> linarith
      · simp only [Shape.right]
        refine max_le ?_ ?_ <;> linarith
      · simp only [Shape.top]
        refine le_min ?_ ?_ <;> linarith
      · simp only [Shape.bottom]
        refine max_le ?_ ?_ <;> linarith
    · refine ⟨?_, ?_, q, hq, q, hq, ?_, ?_⟩
      · simp only [Shape.left]; linarith
      · simp only [Shape.right]; linarith
      · simp only [Shape.top]; linarith
      · simp only [Shape.bottom]; linarith

theorem Inside.mono {qs qs' : List Nat} {x d d' : ℚ} {s : Shape} (h : Inside qs x d s) (hd : d ≤ d')
    (hq : ∀ q ∈ qs, q ∈ qs') : Inside qs' x d' s := by
  obtain ⟨h1, h2, a, ha, b, hb, h3, h4⟩ := h
  exact ⟨by linarith, by linarith, a, hq a ha, b, hq b hb, h3, h4⟩

theorem gate_name_pos (g : Gate) : 1 ≤ g.name.length := by
  have hC : "C".length = 1 := by decide
  have hR : "R[".length = 2 := by decide
  cases g with
  | c op => simp only [Gate.name, String.length_append]; omega
  | rm m b => simp only [Gate.name, String.length_append]; omega
  | _ => simp only [Gate.name]; decide

/-- Number of control qubits. -/
def Gate.ctrls : Gate → Nat
  | .c op => op.ctrls + 1
  | _ => 0

theorem gateSym_box {g : Gate} (h1 : g ≠ .not) (h2 : ∀ n, g ≠ .swap n) (h3 : ∀ op, g ≠ .c op) (j : Nat) :
    gateSym g j = .box g.name := by
  cases g <;> simp_all [gateSym, Gate.name]

theorem gateShapes_box {g : Gate} (h1 : g ≠ .not) (h2 : ∀ n, g ≠ .swap n) (h3 : ∀ op, g ≠ .c op) (lay : Layout) (x : ℚ)
    (qs : List Nat) : gateShapes lay x g qs = .ok (connector lay x qs ++ boxes lay x g.name qs) := by
  cases g <;> simp_all [gateShapes]

theorem mem_of_getElem? {l : List Nat} {j q : Nat} (h : l[j]? = some q) : q ∈ l := List.mem_of_getElem? h

theorem gateShapes_spec (x : ℚ) (g : Gate) : ∀ (qs : List Nat), g.ctrls ≤ qs.length →
    ∃ ss, gateShapes lay0 x g qs = .ok ss ∧ (∀ j q, qs[j]? = some q → Shows ss x (lineY q) (gateSym g j)) ∧
      (∀ s ∈ ss, Inside qs x (7 * g.name.length / 4 + 3 / 2) s) ∧
      (1 < qs.length → ∃ a ∈ qs, ∃ b ∈ qs, (∀ q ∈ qs, a ≤ q ∧ q ≤ b) ∧ ∃ w, .line x x (lineY a) (lineY b) w ∈ ss) := by
  induction g with
  | not =>
    intro qs _
    obtain ⟨c1, c2⟩ := connector_spec x qs (d := 7 * (Gate.name .not).length / 4 + 3 / 2) (by positivity)
    refine ⟨_, rfl, ?_, ?_, ?_⟩
    · intro j q hq
      have hq := mem_of_getElem? hq
      simp only [gateSym, lay0_y]
      refine ⟨5, by norm_num, ?_, ⟨1, ?_⟩, ⟨1, ?_⟩⟩ <;>
        refine List.mem_append_right _ (List.mem_flatMap.2 ⟨q, hq, ?_⟩) <;> norm_num
    · intro s hs
      rcases List.mem_append.1 hs with hs | hs
      · exact c2 s hs
      · obtain ⟨q, hq, hs⟩ := List.mem_flatMap.1 hs
        simp only [List.mem_cons, List.not_mem_nil, or_false, lay0_y] at hs
        push_cast at hs
        have hn : ((Gate.name .not).length : ℚ) = 3 := by
          have : (Gate.name .not).length = 3 := by simp only [Gate.name]; decide
          rw [this]; norm_num
        rw [hn]
        rcases hs with rfl | rfl | rfl
        · refine ⟨?_, ?_, q, hq, q, hq, ?_, ?_⟩ <;> simp only [Shape.left, Shape.right, Shape.top, Shape.bottom] <;> linarith
        · refine ⟨?_, ?_, q, hq, q, hq, ?_, ?_⟩ <;> simp only [Shape.left, Shape.right, Shape.top, Shape.bottom] <;>
            first | (refine le_min ?_ ?_ <;> linarith) | (refine max_le ?_ ?_ <;> linarith)
        · refine ⟨?_, ?_, q, hq, q, hq, ?_, ?_⟩ <;> simp only [Shape.left, Shape.right, Shape.top, Shape.bottom] <;>
            first | (refine le_min ?_ ?_ <;> linarith) | (refine max_le ?_ ?_ <;> linarith)
    · intro h
      obtain ⟨a, ha, b, hb, h1, w, h2⟩ := c1 h
      exact ⟨a, ha, b, hb, h1, w, List.mem_append_left _ h2⟩
  | swap k =>
    intro qs _
    obtain ⟨c1, c2⟩ := connector_spec x qs (d := 7 * (Gate.name (.swap k)).length / 4 + 3 / 2) (by positivity)
    refine ⟨_, rfl, ?_, ?_, ?_⟩
    · intro j q hq
      have hq := mem_of_getElem? hq
      simp only [gateSym, lay0_y]
      refine ⟨5, by norm_num, 2, ?_, ?_⟩ <;>
        refine List.mem_append_right _ (List.mem_flatMap.2 ⟨q, hq, ?_⟩) <;> norm_num
    · intro s hs
      rcases List.mem_append.1 hs with hs | hs
      · exact c2 s hs
      · obtain ⟨q, hq, hs⟩ := List.mem_flatMap.1 hs
        simp only [List.mem_cons, List.not_mem_nil, or_false, lay0_y] at hs
        push_cast at hs
        have hn : ((Gate.name (.swap k)).length : ℚ) = 4 := by
          have : (Gate.name (.swap k)).length = 4 := by simp only [Gate.name]; decide
          rw [this]; norm_num
        rw [hn]
        rcases hs with rfl | rfl
        · refine ⟨?_, ?_, q, hq, q, hq, ?_, ?_⟩ <;> simp only [Shape.left, Shape.right, Shape.top, Shape.bottom] <;>
            first | (refine le_min ?_ ?_ <;> linarith) | (refine max_le ?_ ?_ <;> linarith)
        · refine ⟨?_, ?_, q, hq, q, hq, ?_, ?_⟩ <;> simp only [Shape.left, Shape.right, Shape.top, Shape.bottom] <;>
            first | (refine le_min ?_ ?_ <;> linarith) | (refine max_le ?_ ?_ <;> linarith)
    · intro h
      obtain ⟨a, ha, b, hb, h1, w, h2⟩ := c1 h
      exact ⟨a, ha, b, hb, h1, w, List.mem_append_left _ h2⟩
  | c op ih =>
    intro qs hlen
    rcases qs with _ | ⟨i, rest⟩
    · simp [Gate.ctrls] at hlen
    · simp only [Gate.ctrls, List.length_cons] at hlen
      obtain ⟨ss, e, h1, h2, -⟩ := ih rest (by omega)
      obtain ⟨c1, c2⟩ := connector_spec x (i :: rest) (d := 7 * (Gate.name (.c op)).length / 4 + 3 / 2) (by positivity)
      have hn : ((Gate.name (.c op)).length : ℚ) = op.name.length + 1 := by
        have hC : "C".length = 1 := by decide
        simp only [Gate.name, String.length_append, hC]; push_cast; ring
      have hp : (1 : ℚ) ≤ op.name.length := by exact_mod_cast gate_name_pos op
      refine ⟨connector lay0 x (i :: rest) ++ [.circle x (lay0.y i) (lay0.opheight / 2) "black"] ++ ss, ?_, ?_, ?_, ?_⟩
      · simp only [gateShapes, e]; rfl
      · intro j q hq
        rcases j with _ | j
        · simp only [List.getElem?_cons_zero, Option.some.injEq] at hq
          subst hq
          simp only [gateSym, lay0_y]
          exact ⟨5, by norm_num, List.mem_append_left _ (List.mem_append_right _ (by norm_num))⟩
        · exact shows_mono (fun s hs => List.mem_append_right _ hs) (h1 j q (by simpa using hq))
      · intro s hs
        rcases List.mem_append.1 hs with hs | hs
        · rcases List.mem_append.1 hs with hs | hs
          · exact c2 s hs
          · rw [List.mem_singleton, lay0_y] at hs
            push_cast at hs
            subst hs
            rw [hn]
            refine ⟨?_, ?_, i, by simp, i, by simp, ?_, ?_⟩ <;> simp only [Shape.left, Shape.right, Shape.top, Shape.bottom] <;>
              linarith
        · refine (h2 s hs).mono ?_ fun q hq => List.mem_cons_of_mem _ hq
          rw [hn]; linarith
      · intro h
        obtain ⟨a, ha, b, hb, k1, w, k2⟩ := c1 h
        exact ⟨a, ha, b, hb, k1, w, List.mem_append_left _ (List.mem_append_left _ k2)⟩
  | _ =>
    intro qs _
    refine ⟨_, gateShapes_box (by simp) (by simp) (by simp) _ _ _, ?_, ?_, ?_⟩
    · intro j q hq
      rw [gateSym_box (by simp) (by simp) (by simp)]
      exact shows_mono (fun s hs => List.mem_append_right _ hs) ((boxes_spec x _ qs).1 q (mem_of_getElem? hq))
    · intro s hs
      rcases List.mem_append.1 hs with hs | hs
      · exact (connector_spec x qs (by positivity)).2 s hs
      · exact (boxes_spec x _ qs).2 s hs
    · intro h
      obtain ⟨a, ha, b, hb, k1, w, k2⟩ := (connector_spec x qs (le_refl 0)).1 h
      exact ⟨a, ha, b, hb, k1, w, List.mem_append_left _ k2⟩

/-- Control qubits of a node. -/
def kindCtrls : Kind → Nat
  | .gate g _ => g.ctrls
  | _ => 0

theorem kindShapes_spec (x : ℚ) (k : Kind) (qs : List Nat) (hk : kindCtrls k ≤ qs.length) :
    ∃ ss, kindShapes lay0 x k qs = .ok ss ∧ Drawn k qs x ss ∧
      ∀ s ∈ ss, x - (7 * k.name.length / 4 + 3 / 2) ≤ s.left ∧ s.right ≤ x + (7 * k.name.length / 4 + 3 / 2) := by
  have other : ∀ k' : Kind, (∀ j, sym k' j = .box k'.name) →
      kindShapes lay0 x k' qs = .ok (connector lay0 x qs ++ boxes lay0 x k'.name qs) →
      ∃ ss, kindShapes lay0 x k' qs = .ok ss ∧ Drawn k' qs x ss ∧
      ∀ s ∈ ss, x - (7 * k'.name.length / 4 + 3 / 2) ≤ s.left ∧ s.right ≤ x + (7 * k'.name.length / 4 + 3 / 2) := by
    intro k' hs e
    have hin : ∀ s ∈ connector lay0 x qs ++ boxes lay0 x k'.name qs, Inside qs x (7 * k'.name.length / 4 + 3 / 2) s := by
      intro s hs
      rcases List.mem_append.1 hs with hs | hs
      · exact (connector_spec x qs (by positivity)).2 s hs
      · exact (boxes_spec x _ qs).2 s hs
    refine ⟨_, e, ⟨?_, ?_, ?_⟩, ?_⟩
    · intro j q hq
      rw [hs]
      exact shows_mono (fun s hs => List.mem_append_right _ hs) ((boxes_spec x _ qs).1 q (mem_of_getElem? hq))
    · intro h
      obtain ⟨a, ha, b, hb, k1, w, k2⟩ := (connector_spec x qs (le_refl 0)).1 h
      exact ⟨a, ha, b, hb, k1, w, List.mem_append_left _ k2⟩
    · exact fun s hs => (hin s hs).2.2
    · exact fun s hs => ⟨(hin s hs).1, (hin s hs).2.1⟩
  cases k with
  | gate g d =>
    obtain ⟨ss, e, h1, h2, h3⟩ := gateShapes_spec x g qs hk
    exact ⟨ss, e, ⟨h1, h3, fun s hs => (h2 s hs).2.2⟩, fun s hs => ⟨(h2 s hs).1, (h2 s hs).2.1⟩⟩
  | _ => exact other _ (fun j => rfl) rfl

theorem name_blacklist (h : Heap) (x : Nat) : (h.kind x).name ∈ ["SplitQubit", "Q"] ↔ isOp h x = false := by
  unfold isOp
  cases hk : h.kind x with
  | gate g d =>
    simp only [Kind.name, List.mem_cons, List.not_mem_nil, or_false, Bool.true_eq_false, iff_false, not_or]
    cases g with
    | c op =>
      simp only [Gate.name]
      constructor <;> intro he <;> · have := congrArg String.toList he; simp at this
    | rm m b =>
      simp only [Gate.name]
      constructor <;> intro he <;> · have := congrArg String.toList he; simp at this
    | _ => simp [Gate.name]
  | _ => simp [Kind.name]

theorem floor_half (t : ℚ) : t / 2 - 1 < (⌊t / 2⌋ : ℚ) ∧ (⌊t / 2⌋ : ℚ) ≤ t / 2 :=
  ⟨by have := Int.lt_floor_add_one (t / 2); linarith, Int.floor_le _⟩

/-- What feeding a list of nodes draws. -/
theorem svgFold_spec {h : Heap} {args : List Nat} (L : List Nat)
    (hc : ∀ x ∈ L, kindCtrls (h.kind x) ≤ (wires h args x).length) (st : SvgState) :
    ∃ st' new, L.foldlM (fun a x => svgFeed lay0 h a (groups h args x) (wires h args x) x) st = .ok st' ∧
      st'.acc = st.acc ∧ st'.ops = st.ops ++ new ∧ st.lastMax ≤ st'.lastMax ∧
      List.Forall₂ (fun x ss => ∃ c, Drawn (h.kind x) (wires h args x) c ss) (L.filter (isOp h)) new ∧
      (∀ ss ∈ new, ∀ s ∈ ss, st.lastMax + 7 ≤ s.left ∧ s.right ≤ st'.lastMax + 1) ∧
      new.Pairwise fun a b => ∀ s ∈ a, ∀ t ∈ b, s.right + 6 ≤ t.left := by
  induction L generalizing st with
  | nil => exact ⟨st, [], rfl, rfl, by simp, le_refl _, by simp, by simp, by simp⟩
  | cons x L ih =>
    by_cases hop : isOp h x = true
    · have hnb : (h.kind x).name ∉ ["SplitQubit", "Q"] := by rw [name_blacklist, hop]; simp
      set nm := (h.kind x).name with hnm
      set total : ℚ := (lay0.fontwidth : ℚ) * nm.length / 2 + 1 with htot
      have htot' : total = 7 * nm.length / 2 + 1 := rfl
      obtain ⟨f1, f2⟩ := floor_half total
      have hl0 : (0 : ℚ) ≤ nm.length := by positivity
      obtain ⟨ss, e, d1, d2⟩ := kindShapes_spec (st.lastMax + lay0.opbuffer + ⌊total / 2⌋) (h.kind x) (wires h args x)
        (hc x (by simp))
      have hstep : svgFeed lay0 h st (groups h args x) (wires h args x) x = .ok ⟨st.acc,
          st.lastMax + lay0.opbuffer + ⌊total / 2⌋ + total - ⌊total / 2⌋, st.ops ++ [ss]⟩ := by
        unfold svgFeed svgFeedNamed
        simp only
        rw [if_pos hnb, ← hnm, ← htot, e]
        rfl
      obtain ⟨st', new, e2, a1, a2, a3, a4, a5, a6⟩ := ih (fun y hy => hc y (by simp [hy]))
        ⟨st.acc, st.lastMax + lay0.opbuffer + ⌊total / 2⌋ + total - ⌊total / 2⌋, st.ops ++ [ss]⟩
      simp only at a1 a2 a3 a5
      have hb : (lay0.opbuffer : ℚ) = 10 := rfl
      rw [hb] at a3 a5 d2
      rw [← hnm] at d2
      refine ⟨st', ss :: new, ?_, a1, by rw [a2]; simp, by linarith, ?_, ?_, ?_⟩
      · rw [List.foldlM_cons, hstep]; exact e2
      · rw [List.filter_cons_of_pos hop]
        exact .cons ⟨_, d1⟩ a4
      · intro us hus s hs
        rcases List.mem_cons.1 hus with rfl | hus
        · obtain ⟨b1, b2⟩ := d2 s hs
          constructor <;> linarith
        · obtain ⟨b1, b2⟩ := a5 us hus s hs
          constructor <;> linarith
      · refine List.pairwise_cons.2 ⟨?_, a6⟩
        intro us hus s hs t ht
        obtain ⟨b1, b2⟩ := d2 s hs
        obtain ⟨b3, b4⟩ := a5 us hus t ht
        linarith
    · have hnb : ¬ (h.kind x).name ∉ ["SplitQubit", "Q"] := by
        rw [not_not, name_blacklist]; simpa using hop
      have hstep : svgFeed lay0 h st (groups h args x) (wires h args x) x = .ok st := by
        unfold svgFeed svgFeedNamed
        simp only
        rw [if_neg hnb]
      obtain ⟨st', new, e2, a⟩ := ih (fun y hy => hc y (by simp [hy])) st
      rw [List.filter_cons_of_neg hop]
      exact ⟨st', new, by rw [List.foldlM_cons, hstep]; exact e2, a⟩

end QIP
