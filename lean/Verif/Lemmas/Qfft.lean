import Verif.Lemmas.Ready

/-! # Executing the QFFT -/

namespace QIP

open Spec Heap

/-- The operations of one row of the QFFT. -/
def rowActs (ws : List Nat) (offset : Nat) (is : List Nat) : List Act :=
  is.map fun (i : Nat) => ⟨[], .c (.rm (1 + (i : Int) - (offset : Int)) false), [[ws.getD i 0], [ws.getD offset 0]]⟩

/-- The operations of the recursion. -/
def recActs (ws : List Nat) : Nat → Nat → List Act
  | 0, _ => []
  | k + 1, o => ⟨[], .h, [[ws.getD o 0]]⟩ :: (rowActs ws o (List.range' (o + 1) (ws.length - (o + 1))) ++ recActs ws k (o + 1))

/-- The swaps. -/
def swapActs (ws : List Nat) (is : List Nat) : List Act :=
  is.map fun (i : Nat) => ⟨[], .swap 1, [[ws.getD i 0], [ws.getD (ws.length - 1 - i) 0]]⟩

/-- All of them. -/
def qfftActs (rev : Bool) (ws : List Nat) : List Act :=
  recActs ws ws.length 0 ++ if rev then swapActs ws (List.range (ws.length / 2)) else []

theorem wires_getD {s : WState} {live qs ws : List Nat}
    (hw : qs.map (wires s.heap live) = ws.map fun w => [w]) {i : Nat} (hi : i < qs.length) :
    wires s.heap live (qs.getD i 0) = [ws.getD i 0] := by
  have hl : qs.length = ws.length := by simpa using congrArg List.length hw
  have := congrArg (fun l => l[i]?) hw
  simp only [List.getElem?_map, List.getElem?_eq_getElem hi, List.getElem?_eq_getElem (show i < ws.length by omega),
    Option.map_some, Option.some.injEq] at this
  rw [List.getD_eq_getElem _ _ hi, this, List.getD_eq_getElem _ _ (by omega)]

theorem Ready.n_getD {s : WState} {cs live qs rest ws : List Nat} (r : Ready s cs live qs rest)
    (hw : qs.map (wires s.heap live) = ws.map fun w => [w]) {i : Nat} (hi : i < qs.length) :
    s.heap.n (qs.getD i 0) = 1 := by
  rw [← r.n (r.mem (by rw [List.getD_eq_getElem _ _ hi]; exact List.getElem_mem _)), wires_getD hw hi]
  rfl

theorem qfftRow_ok (is : List Nat) : ∀ {s : WState} {cs live qs rest ws : List Nat} {offset : Nat},
    Ready s cs live qs rest → qs.map (wires s.heap live) = ws.map (fun w => [w]) → offset < qs.length →
    (∀ i ∈ is, i < qs.length ∧ i ≠ offset) →
    ∃ s' cs' live' qs', qfftRow offset is qs s = (.ok qs', s') ∧ Ready s' cs' live' qs' rest ∧
      Moved s cs live s' cs' live' (rowActs ws offset is) ∧ qs'.map (wires s'.heap live') = ws.map (fun w => [w]) := by
  induction is with
  | nil =>
    intro s cs live qs rest ws offset r hw ho _
    exact ⟨s, cs, live, qs, rfl, r, Moved.refl r, hw⟩
  | cons i is ih =>
    intro s cs live qs rest ws offset r hw ho his
    obtain ⟨hi, hio⟩ := his i (by simp)
    have n1 := r.n_getD hw hi
    have n2 := r.n_getD hw ho
    obtain ⟨s1, cs1, live1, a, b, h1, r1, m1, w1⟩ := r.op2 (w := .c (.bound (.rm (1 + (i : Int) - (offset : Int)) false) [.negate]))
      hi ho hio (by trivial) (by
        rw [n1, n2]
        exact ⟨[1], rfl, by simp, by simp [OpFits, Ctor.spec, Gate.withKw]⟩)
    rw [hw] at w1
    obtain ⟨s2, cs2, live2, qs2, h2, r2, m2, w2⟩ := ih (offset := offset) r1 w1 (by simpa using ho)
      (fun k hk => by simpa using his k (by simp [hk]))
    refine ⟨s2, cs2, live2, qs2, ?_, r2, ?_, w2⟩
    · unfold qfftRow
      simp only
      rw [W.bind_ok h1]
      exact h2
    · have := m1.trans m2
      rw [n1, n2, wires_getD hw hi, wires_getD hw ho] at this
      exact this

theorem recQFFT_ok (k : Nat) : ∀ {s : WState} {cs live qs rest ws : List Nat} {offset : Nat},
    Ready s cs live qs rest → qs.map (wires s.heap live) = ws.map (fun w => [w]) → offset + k = qs.length →
    ∃ s' cs' live' qs', recQFFT k qs offset s = (.ok qs', s') ∧ Ready s' cs' live' qs' rest ∧
      Moved s cs live s' cs' live' (recActs ws k offset) ∧ qs'.map (wires s'.heap live') = ws.map (fun w => [w]) := by
  induction k with
  | zero =>
    intro s cs live qs rest ws offset r hw ho
    exact ⟨s, cs, live, qs, rfl, r, Moved.refl r, hw⟩
  | succ k ih =>
    intro s cs live qs rest ws offset r hw ho
    have hol : offset < qs.length := by omega
    have n1 := r.n_getD hw hol
    have hl : qs.length = ws.length := by simpa using congrArg List.length hw
    obtain ⟨s1, cs1, live1, a, h1, r1, m1, w1⟩ := r.op1 (w := .op .h) hol (by trivial) (by
        rw [n1]; simp [OpFits, Ctor.spec, Gate.withKw])
    rw [hw] at w1
    obtain ⟨s2, cs2, live2, qs2, h2, r2, m2, w2⟩ := qfftRow_ok (List.range' (offset + 1) (qs.length - (offset + 1)))
      (offset := offset) r1 w1 (by simpa using hol) (fun i hi => by
        rw [List.mem_range'_1] at hi
        rw [List.length_set]
        omega)
    have hl2 : qs2.length = ws.length := by simpa using congrArg List.length w2
    obtain ⟨s3, cs3, live3, qs3, h3, r3, m3, w3⟩ := ih (offset := offset + 1) r2 w2 (by omega)
    refine ⟨s3, cs3, live3, qs3, ?_, r3, ?_, w3⟩
    · unfold recQFFT
      rw [W.bind_ok h1]
      simp only
      rw [W.bind_ok h2]
      exact h3
    · have := m1.trans (m2.trans m3)
      rw [n1, wires_getD hw hol, hl] at this
      exact this

theorem qfftSwaps_ok (is : List Nat) : ∀ {s : WState} {cs live qs rest ws : List Nat},
    Ready s cs live qs rest → qs.map (wires s.heap live) = ws.map (fun w => [w]) →
    (∀ i ∈ is, i < qs.length / 2) →
    ∃ s' cs' live' qs', qfftSwaps is qs s = (.ok qs', s') ∧ Ready s' cs' live' qs' rest ∧
      Moved s cs live s' cs' live' (swapActs ws is) ∧ qs'.map (wires s'.heap live') = ws.map (fun w => [w]) := by
  induction is with
  | nil =>
    intro s cs live qs rest ws r hw _
    exact ⟨s, cs, live, qs, rfl, r, Moved.refl r, hw⟩
  | cons i is ih =>
    intro s cs live qs rest ws r hw his
    have hi2 := his i (by simp)
    have hi : i < qs.length := by omega
    have hj : qs.length - 1 - i < qs.length := by omega
    have hl : qs.length = ws.length := by simpa using congrArg List.length hw
    have n1 := r.n_getD hw hi
    have n2 := r.n_getD hw hj
    obtain ⟨s1, cs1, live1, a, b, h1, r1, m1, w1⟩ := r.op2 (w := .op (.swap 0)) hi hj (by omega) (by trivial) (by
        rw [n1, n2]; exact ⟨1, rfl⟩)
    rw [hw] at w1
    obtain ⟨s2, cs2, live2, qs2, h2, r2, m2, w2⟩ := ih r1 w1 (fun k hk => by simpa using his k (by simp [hk]))
    refine ⟨s2, cs2, live2, qs2, ?_, r2, ?_, w2⟩
    · unfold qfftSwaps
      simp only
      rw [W.bind_ok h1]
      exact h2
    · have := m1.trans m2
      rw [n1, n2, wires_getD hw hi, wires_getD hw hj, hl] at this
      exact this

theorem parts_all (l : List Nat) : parts l ((List.range l.length).map fun (i : Nat) => (i : Int)) = l.map fun w => [w] := by
  have hc : cutList l.length ((List.range l.length).map fun (i : Nat) => (i : Int)) = List.range (l.length + 1) := by
    unfold cutList
    rw [List.filter_eq_self]
    intro c hc
    rw [List.mem_range] at hc
    rw [decide_eq_true_iff]
    by_cases h : c = l.length
    · exact Or.inr (Or.inl h)
    · exact Or.inr (Or.inr (List.mem_map.2 ⟨c, List.mem_range.2 (by omega), rfl⟩))
  unfold parts
  simp only
  rw [hc]
  apply List.ext_getElem
  · simp
  · intro i h1 h2
    simp only [List.length_map, List.length_range, Nat.add_sub_cancel] at h1
    simp only [List.getElem_map, List.getElem_range]
    rw [List.getD_eq_getElem _ _ (by simp; omega), List.getD_eq_getElem _ _ (by simp; omega)]
    simp only [List.getElem_range]
    unfold slice
    rw [show i + 1 - i = 1 by omega, List.drop_eq_getElem_cons h1]
    rfl

theorem splitAll_ok (ins : List Nat) : ∀ {s : WState} {cs live rest : List Nat}, Ready s cs live ins rest →
    ∃ s' live' outs, splitAll ins s = (.ok outs, s') ∧ Ready s' cs live' outs rest ∧ Moved s cs live s' cs live' [] ∧
      outs.map (wires s'.heap live') = ((ins.map (wires s.heap live)).flatten).map (fun w => [w]) := by
  induction ins with
  | nil =>
    intro s cs live rest r
    exact ⟨s, live, [], rfl, r, Moved.refl r, rfl⟩
  | cons q qs ih =>
    intro s cs live rest r
    have r0 : Ready s cs live [q] (qs ++ rest) := r.reperm (by simp)
    have hn := r0.n (r0.mem (x := q) (by simp))
    obtain ⟨s1, live1, o1, h1, r1, m1, w1⟩ := r0.split
      (bs := (List.range (s.heap.n q)).map fun (i : Nat) => (i : Int)) (by
        intro b hb
        obtain ⟨i, hi, rfl⟩ := List.mem_map.1 hb
        rw [List.mem_range] at hi
        omega) (by
        refine (List.nodup_map_iff ?_).2 List.nodup_range
        intro a b h
        exact Int.ofNat_inj.1 h)
    have r1' : Ready s1 cs live1 qs (o1 ++ rest) := r1.reperm (by
      rw [List.perm_iff_count]; intro a; simp only [List.count_append]; omega)
    obtain ⟨s2, live2, o2, h2, r2, m2, w2⟩ := ih r1'
    refine ⟨s2, live2, o1 ++ o2, ?_, r2.reperm ?_, by simpa using m1.trans m2, ?_⟩
    · unfold splitAll
      change (direct (.split q (some ((List.range (s.heap.n q)).map fun (i : Nat) => (i : Int)))) >>= fun xs =>
        splitAll qs >>= fun ys => pure (xs ++ ys)) s = _
      rw [W.bind_ok h1, W.bind_ok h2]
      rfl
    · rw [List.perm_iff_count]; intro a; simp only [List.count_append]; omega
    · rw [List.map_append, w2, m2.ev.map_wires fun x hx => r1.mem hx, w1, ← hn, parts_all,
        m1.ev.map_wires fun x hx => r.mem (by simp [hx])]
      simp

theorem qfftJoin_ok (ins : List Nat) : ∀ {s0 s : WState} {cs live live0 qs rest : List Nat}, Ready s cs live qs rest →
    (∀ x ∈ ins, 0 < s.heap.n x) → (∀ x ∈ ins, x < s.heap.nodes.length) →
    (∀ x ∈ ins, (wires s0.heap live0 x).length = s.heap.n x) →
    qs.map (wires s.heap live) = ((ins.map (wires s0.heap live0)).flatten).map (fun w => [w]) →
    ∃ s' live' outs, qfftJoin ins qs s = (.ok outs, s') ∧ Ready s' cs live' outs rest ∧ Moved s cs live s' cs live' [] ∧
      outs.map (wires s'.heap live') = ins.map (wires s0.heap live0) := by
  induction ins with
  | nil =>
    intro s0 s cs live live0 qs rest r _ _ _ hw
    have : qs = [] := by simpa using hw
    subst this
    exact ⟨s, live, [], rfl, r, Moved.refl r, rfl⟩
  | cons q ins ih =>
    intro s0 s cs live live0 qs rest r hpos hlt hlen hw
    have hq := hlen q (by simp)
    have hq0 := hpos q (by simp)
    rw [List.map_cons, List.flatten_cons, List.map_append] at hw
    obtain ⟨A, B, rfl, hA, hB⟩ := List.map_eq_append_iff.1 hw
    have hAl : A.length = s.heap.n q := by
      rw [← hq]
      simpa using congrArg List.length hA
    have r0 : Ready s cs live A (B ++ rest) := r.reperm (by simp)
    obtain ⟨s1, live1, x, h1, r1, m1, w1⟩ := r0.join (by rintro rfl; simp at hAl; omega)
    have r1' : Ready s1 cs live1 B ([x] ++ rest) := r1.reperm (by
      rw [List.perm_iff_count]; intro a; simp only [List.count_append]; omega)
    have hkeep : ∀ y ∈ ins, s1.heap.n y = s.heap.n y ∧ y < s1.heap.nodes.length := by
      intro y hy
      obtain ⟨new, g, -⟩ := m1.ev.grows
      exact ⟨g.ext.n y (hlt y (by simp [hy])), lt_of_lt_of_le (hlt y (by simp [hy])) g.ext.len⟩
    obtain ⟨s2, live2, o2, h2, r2, m2, w2⟩ := ih (s0 := s0) (live0 := live0) r1'
      (fun y hy => by rw [(hkeep y hy).1]; exact hpos y (by simp [hy]))
      (fun y hy => (hkeep y hy).2)
      (fun y hy => by rw [(hkeep y hy).1]; exact hlen y (by simp [hy]))
      (by rw [m1.ev.map_wires fun y hy => r.mem (by simp [hy])]; exact hB)
    refine ⟨s2, live2, x :: o2, ?_, r2.reperm ?_, by simpa using m1.trans m2, ?_⟩
    · unfold qfftJoin
      change (direct (.qubit ((A ++ B).take (s.heap.n q)) none none) >>= fun x =>
        qfftJoin ins ((A ++ B).drop (s.heap.n q)) >>= fun ys => pure (x ++ ys)) s = _
      rw [List.take_left' hAl, List.drop_left' hAl, W.bind_ok h1, W.bind_ok h2]
      rfl
    · rw [List.perm_iff_count]; intro a; simp only [List.count_append, List.count_cons, List.count_nil]; omega
    · rw [List.map_cons, List.map_cons, w2, m2.ev.wires (r1.mem (by simp)), w1, hA]
      congr 1
      rw [← List.flatMap_def]
      simp

theorem Ready.pos {s : WState} {cs live qs rest : List Nat} (r : Ready s cs live qs rest) {x : Nat} (hx : x ∈ live) :
    0 < s.heap.n x := by
  obtain ⟨_, l⟩ := r.alive
  exact l.pos (.arg hx)

theorem Ready.lt {s : WState} {cs live qs rest : List Nat} (r : Ready s cs live qs rest) {x : Nat} (hx : x ∈ live) :
    x < s.heap.nodes.length := by
  obtain ⟨_, l⟩ := r.alive
  obtain ⟨_, c⟩ := l.circuit.ctx
  exact c.lt (.arg hx)

theorem qfftBody_ok {s : WState} {cs live ins rest : List Nat} (rev : Bool) (r : Ready s cs live ins rest)
    (hne : ins ≠ []) :
    Ran s cs live rest (qfftBody rev ins s) (ins.map (wires s.heap live))
      (qfftActs rev (ins.map (wires s.heap live)).flatten) := by
  set ws := (ins.map (wires s.heap live)).flatten with hws
  obtain ⟨s1, live1, q1, h1, r1, m1, w1⟩ := splitAll_ok ins r
  rw [← hws] at w1
  have l1 : q1.length = ws.length := by simpa using congrArg List.length w1
  obtain ⟨s2, cs2, live2, q2, h2, r2, m2, w2⟩ := recQFFT_ok q1.length (offset := 0) r1 w1 (by omega)
  have l2 : q2.length = ws.length := by simpa using congrArg List.length w2
  have m12 := m1.trans m2
  rw [List.nil_append, l1] at m12
  obtain ⟨s3, cs3, live3, q3, h3, r3, m3, w3⟩ : ∃ s3 cs3 live3 q3,
      ((if rev then qfftSwaps (List.range (q2.length / 2)) q2 else pure q2 : W (List Nat))) s2 = (.ok q3, s3) ∧
      Ready s3 cs3 live3 q3 rest ∧
      Moved s2 cs2 live2 s3 cs3 live3 (if rev then swapActs ws (List.range (ws.length / 2)) else []) ∧
      q3.map (wires s3.heap live3) = ws.map (fun w => [w]) := by
    cases rev with
    | true =>
      simp only [if_true]
      rw [← l2]
      exact qfftSwaps_ok _ r2 w2 (fun i hi => by simpa using hi)
    | false => exact ⟨s2, cs2, live2, q2, rfl, r2, Moved.refl r2, w2⟩
  have m13 := m12.trans m3
  have l3 : q3.length = ws.length := by simpa using congrArg List.length w3
  have hsum : ws.length = (ins.map fun x => (wires s.heap live x).length).sum := by
    rw [hws, List.length_flatten, List.map_map]; rfl
  obtain ⟨new, g, -⟩ := m13.ev.grows
  obtain ⟨s4, live4, q4, h4, r4, m4, w4⟩ : ∃ s4 live4 q4,
      ((if ins.length < q3.length then qfftJoin ins q3 else pure q3 : W (List Nat))) s3 = (.ok q4, s4) ∧
      Ready s4 cs3 live4 q4 rest ∧ Moved s3 cs3 live3 s4 cs3 live4 [] ∧
      q4.map (wires s4.heap live4) = ins.map (wires s.heap live) := by
    by_cases hlt : ins.length < q3.length
    · simp only [hlt, if_true]
      have hn : ∀ x ∈ ins, s3.heap.n x = s.heap.n x := fun x hx => g.ext.n x (r.lt (r.mem hx))
      exact qfftJoin_ok ins (s0 := s) (live0 := live) r3 (fun x hx => by rw [hn x hx]; exact r.pos (r.mem hx))
        (fun x hx => lt_of_lt_of_le (r.lt (r.mem hx)) g.ext.len) (fun x hx => by rw [hn x hx]; exact r.n (r.mem hx)) w3
    · simp only [hlt, if_false]
      refine ⟨s3, live3, q3, rfl, r3, Moved.refl r3, ?_⟩
      rw [w3]
      rw [l3, hsum] at hlt
      have hone : ∀ (l : List (List Nat)), (∀ w ∈ l, 0 < w.length) → (l.map List.length).sum ≤ l.length →
          l.flatten.map (fun w => [w]) = l := by
        intro l
        induction l with
        | nil => intro _ _; rfl
        | cons w l ih =>
          intro hp hle
          have hw := hp w (by simp)
          have hge : ∀ (l : List (List Nat)), (∀ w ∈ l, 0 < w.length) → l.length ≤ (l.map List.length).sum := by
            intro l hl
            induction l with
            | nil => simp
            | cons a l ih' =>
              have := ih' fun w hw => hl w (by simp [hw])
              have := hl a (by simp)
              simp only [List.length_cons, List.map_cons, List.sum_cons]
              omega
          have := hge l fun w hw => hp w (by simp [hw])
          simp only [List.length_cons, List.map_cons, List.sum_cons] at hle
          obtain ⟨a, rfl⟩ := List.length_eq_one_iff.1 (show w.length = 1 by omega)
          rw [List.flatten_cons, List.map_append, ih (fun w hw => hp w (by simp [hw])) (by simp at hle; omega)]
          rfl
      refine hone _ ?_ ?_
      · intro w hw
        obtain ⟨x, hx, rfl⟩ := List.mem_map.1 hw
        rw [r.n (r.mem hx)]
        exact r.pos (r.mem hx)
      · rw [List.map_map, List.length_map]
        exact Nat.le_of_not_lt hlt
  have hq4 : q4 ≠ [] := by
    rintro rfl
    exact hne (by simpa using w4.symm)
  have hrun : qfftBody rev ins s = (.ok q4, s4) := by
    unfold qfftBody
    rw [W.bind_ok h1, W.bind_ok h2]
    have fin : ∀ st, (if q4 = [] then W.raise .indexError else pure q4 : W (List Nat)) st = (.ok q4, st) := by
      intro st; rw [if_neg hq4]; rfl
    have tail : (do
        let out ← if ins.length < q3.length then qfftJoin ins q3 else pure q3
        if out = [] then W.raise .indexError else pure out : W (List Nat)) s3 = (.ok q4, s4) := by
      by_cases hlt : ins.length < q3.length
      · simp only [hlt, if_true] at h4 ⊢
        rw [W.bind_ok h4]
        exact fin s4
      · simp only [hlt, if_false] at h4 ⊢
        rw [W.bind_ok h4]
        exact fin s4
    cases rev with
    | true =>
      simp only [if_true] at h3 ⊢
      rw [W.bind_ok h3]
      exact tail
    | false =>
      simp only [Bool.false_eq_true, if_false] at h3 ⊢
      rw [W.bind_ok h3]
      exact tail
  have := (m13.trans m4).toRan r4
  rw [hrun, ← w4]
  rw [List.append_nil] at this
  exact this

end QIP
