import Verif.Lemmas.WrapStep

/-! # Executing circuit functions -/

namespace QIP

open Spec Heap

/-! ## Positions -/

theorem pick_map {α β : Type} (f : α → β) (pos : List Nat) (l : List α) : pick pos (l.map f) = (pick pos l).map f := by
  unfold pick
  rw [List.map_filterMap]
  congr 1
  funext i
  simp

theorem leave_map {α β : Type} (f : α → β) (pos : List Nat) (l : List α) :
    leave pos (l.map f) = (leave pos l).map f := by
  unfold leave
  rw [List.length_map, pick_map]

theorem pick_length {α : Type} {pos : List Nat} {l : List α} (h : ∀ p ∈ pos, p < l.length) :
    (pick pos l).length = pos.length := by
  unfold pick
  induction pos with
  | nil => rfl
  | cons p pos ih =>
    rw [List.filterMap_cons_some (List.getElem?_eq_getElem (h p (by simp)))]
    simp [ih fun q hq => h q (by simp [hq])]

theorem pick_range {α : Type} (l : List α) : pick (List.range l.length) l = l := by
  apply List.ext_getElem?
  intro i
  unfold pick
  induction l with
  | nil => rfl
  | cons a l ih =>
    rw [List.length_cons, List.range_succ_eq_map, List.filterMap_cons_some (b := a) (by simp), List.filterMap_map]
    have : (fun i => ((a :: l)[i]?)) ∘ Nat.succ = fun i => l[i]? := by funext i; simp
    rw [this]
    have e : List.filterMap (fun i => l[i]?) (List.range l.length) = l := by
      apply List.ext_getElem?
      intro j
      clear this ih
      have : ∀ (m : Nat), m ≤ l.length → List.filterMap (fun i => l[i]?) (List.range m) = l.take m := by
        intro m
        induction m with
        | zero => intro _; simp
        | succ m ihm =>
          intro hm
          rw [List.range_succ, List.filterMap_append, ihm (by omega), List.take_succ_eq_append_getElem (by omega)]
          simp [List.getElem?_eq_getElem (show m < l.length by omega)]
      rw [this l.length le_rfl, List.take_length]
    rw [e]

theorem pick_perm {α : Type} {pos : List Nat} {l : List α} (h : PosOK pos l.length) :
    l.Perm (pick pos l ++ leave pos l) := by
  have hp : (pos ++ (List.range l.length).filter (· ∉ pos)).Perm (List.range l.length) := by
    rw [List.perm_ext_iff_of_nodup]
    · intro a
      simp only [List.mem_append, List.mem_filter, List.mem_range, decide_eq_true_eq]
      constructor
      · rintro (h' | h')
        · exact h.2 a h'
        · exact h'.1
      · intro h'
        by_cases ha : a ∈ pos
        · exact Or.inl ha
        · exact Or.inr ⟨h', ha⟩
    · rw [List.nodup_append]
      refine ⟨h.1, List.nodup_range.filter _, ?_⟩
      rintro a ha b hb rfl
      simp only [List.mem_filter, decide_eq_true_eq] at hb
      exact hb.2 ha
    · exact List.nodup_range
  unfold leave
  have := hp.filterMap (l[·]?)
  rw [List.filterMap_append] at this
  refine (List.Perm.trans ?_ this.symm)
  rw [show List.filterMap (l[·]?) (List.range l.length) = l from pick_range l]

theorem cutList_eq {n : Nat} {bs : List Int} {cs : List Nat} (hb : ∀ b ∈ bs, b ≤ n) (h : Cuts n bs cs) :
    cs = cutList n bs := by
  refine asc_ext h.asc (List.pairwise_lt_range.filter _) ?_
  intro c
  rw [h.mem]
  unfold cutList
  simp only [List.mem_filter, List.mem_range, decide_eq_true_eq]
  constructor
  · intro h'
    refine ⟨?_, h'⟩
    rcases h' with rfl | rfl | h'
    · omega
    · omega
    · have := hb _ h'; omega
  · exact fun h' => h'.2

/-! ## Execution -/

theorem direct_ok {s : WState} {cmd : Cmd} {xs : List Nat} {h' : Heap} (h : s.heap.exec cmd = (.ok xs, h')) :
    direct cmd s = (.ok xs, { s with heap := h' }) := by
  unfold direct
  rw [h]

theorem popInputs_ok {m : Nat} {l : List Nat} (h : m ≤ l.length) : popInputs m l = .ok (l.take m, l.drop m) := by
  induction m generalizing l with
  | zero => rfl
  | succ m ih =>
    rcases l with _ | ⟨x, l⟩
    · simp at h
    · simp only [List.length_cons, Nat.add_le_add_iff_right] at h
      simp [popInputs, ih h]

theorem actAll_append (n : Nat) (a b : List Act) (v : Nat → ℂ) : actAll n (a ++ b) v = actAll n b (actAll n a v) := by
  unfold actAll; rw [List.foldl_append]

theorem actAll_cons (n : Nat) (a : Act) (b : List Act) (v : Nat → ℂ) : actAll n (a :: b) v = actAll n b (a.apply n v) :=
  rfl

theorem more_more (a b : List Nat) (x : Act) : (x.more b).more a = x.more (a ++ b) := by
  unfold Act.more; simp

theorem apply_more_perm {a b : List Nat} (h : a.Perm b) (n : Nat) (x : Act) (v : Nat → ℂ) :
    (x.more a).apply n v = (x.more b).apply n v := by
  funext r
  unfold Act.apply Act.more
  exact if_congr ⟨fun h' c hc => h' c ((List.mem_append.1 hc).imp_left h.mem_iff.2 |> List.mem_append.2),
    fun h' c hc => h' c ((List.mem_append.1 hc).imp_left h.mem_iff.1 |> List.mem_append.2)⟩ rfl rfl

theorem actAll_more_perm {a b : List Nat} (h : a.Perm b) (n : Nat) (xs : List Act) (v : Nat → ℂ) :
    actAll n (xs.map (Act.more a)) v = actAll n (xs.map (Act.more b)) v := by
  induction xs generalizing v with
  | nil => rfl
  | cons x xs ih =>
    rw [List.map_cons, List.map_cons, actAll_cons, actAll_cons, apply_more_perm h, ih]

theorem Evolves.mem_perm {h h' : Heap} {live live' : List Nat} {T : Nat → (Nat → ℂ) → Nat → ℂ}
    (e : Evolves h live h' live' T) {live'' : List Nat} (hp : live'.Perm live'') : Evolves h live h' live'' T := by
  obtain ⟨_, l⟩ := e.new
  exact (e.trans (Evolves.perm l hp e.unused)).congr fun _ _ => rfl

theorem Evolves.refl {h : Heap} {env live : List Nat} (l : Live h env live) (hu : ∀ x ∈ live, h.sinks x = []) :
    Evolves h live h live (fun _ v => v) :=
  Evolves.perm l (List.Perm.refl _) hu

/-- What executing a circuit function does. -/
structure Ran (s : WState) (cs live rest : List Nat) (r : Except PyErr (List Nat) × WState)
    (W : List (List Nat)) (acts : List Act) : Prop where
  ran : ∃ cs' outs drop h' st', r = (.ok outs, ⟨h', st', s.total, s.wraps⟩) ∧
    st'.map List.length = s.stack.map List.length ∧ st'.flatten = cs'.map ctl ∧
    Evolves s.heap live h' (cs' ++ outs ++ (drop ++ rest))
      (fun n => actAll n (acts.map (Act.more (cs.map (wires s.heap live)).flatten))) ∧
    cs'.map (wires h' (cs' ++ outs ++ (drop ++ rest))) = cs.map (wires s.heap live) ∧
    outs.map (wires h' (cs' ++ outs ++ (drop ++ rest))) = W

theorem wires_perm {h : Heap} {env live live' : List Nat} (l : Live h env live) (hp : live.Perm live')
    (hu : ∀ x ∈ live, h.sinks x = []) (x : Nat) (hx : x ∈ live) : wires h live' x = wires h live x :=
  (Evolves.perm l hp hu).wires hx

/-- One step followed by the rest of the function. -/
theorem ran_step {s : WState} {cs env live ins rest : List Nat} (hc : InCtl s cs) (l : Live s.heap env live)
    (hu : ∀ x ∈ live, s.heap.sinks x = [])
    {cs1 outs1 : List Nat} {h1 : Heap} {st1 : List (List Entry)} {acts1 : List Act} {drop1 : List Nat}
    {k : List Nat → W (List Nat)} {cur1 : List Nat} {m : W (List Nat)} {Wo : List (List Nat)} {acts : List Act}
    {W1 : List (List Nat)}
    (hm : m s = (.ok outs1, ⟨h1, st1, s.total, s.wraps⟩))
    (hst : st1.map List.length = s.stack.map List.length) (hfl : st1.flatten = cs1.map ctl)
    (hone : ∀ c ∈ cs, s.heap.n c = 1) (hcs : ∀ x ∈ cs, x ∈ live) (hleave : ∀ x ∈ cur1, x ∈ live)
    (e1 : Evolves s.heap live h1 (cs1 ++ outs1 ++ (drop1 ++ (cur1 ++ rest)))
      (fun n => actAll n (acts1.map (Act.more (cs.map (wires s.heap live)).flatten))))
    (hw1 : cs1.map (wires h1 (cs1 ++ outs1 ++ (drop1 ++ (cur1 ++ rest)))) = cs.map (wires s.heap live))
    (hw2 : outs1.map (wires h1 (cs1 ++ outs1 ++ (drop1 ++ (cur1 ++ rest)))) = W1)
    (hk : ∀ s' env' live', InCtl s' cs1 → s'.total = s.total → s'.wraps = s.wraps → s'.heap = h1 →
      Live s'.heap env' live' → live'.Perm (cs1 ++ (cur1 ++ outs1) ++ (drop1 ++ rest)) →
      (∀ x ∈ live', s'.heap.sinks x = []) → (∀ c ∈ cs1, s'.heap.n c = 1) →
      (cur1 ++ outs1).map (wires s'.heap live') = cur1.map (wires s.heap live) ++ W1 →
      Ran s' cs1 live' (drop1 ++ rest) (k (cur1 ++ outs1) s') Wo acts) :
    Ran s cs live rest ((m >>= fun r => k (cur1 ++ r)) s) Wo (acts1 ++ acts) := by
  obtain ⟨env1, l1⟩ := e1.new
  have hlen1 : cs1.length = cs.length := by have := congrArg List.length hw1; simpa using this
  have hp1 : (cs1 ++ outs1 ++ (drop1 ++ (cur1 ++ rest))).Perm (cs1 ++ (cur1 ++ outs1) ++ (drop1 ++ rest)) := by
    rw [List.perm_iff_count]
    intro a
    simp only [List.count_append]
    omega
  have hones : ∀ c ∈ cs1, h1.n c = 1 := by
    have e : cs1.map h1.n = cs.map s.heap.n := by
      rw [l1.sizes (by intro x hx; simp [hx]), l.sizes hcs, hw1]
    intro c hc
    have : h1.n c ∈ cs1.map h1.n := List.mem_map.2 ⟨c, hc, rfl⟩
    rw [e] at this
    obtain ⟨d, hd, h'⟩ := List.mem_map.1 this
    rw [← h', hone d hd]
  have hcurw : (cur1 ++ outs1).map (wires h1 (cs1 ++ outs1 ++ (drop1 ++ (cur1 ++ rest))))
      = cur1.map (wires s.heap live) ++ W1 := by
    rw [List.map_append, hw2]
    congr 1
    exact e1.map_wires hleave
  have R := hk ⟨h1, st1, s.total, s.wraps⟩ env1 _ ⟨hfl, by simp only [hc.total, hlen1]⟩ rfl rfl rfl l1 hp1
    e1.unused hones hcurw
  obtain ⟨cs2, outs2, drop2, h2, st2, r2, a2, b2, e2, w2, w2'⟩ := R.ran
  simp only at r2 a2 b2 e2 w2 w2'
  have hassoc : drop2 ++ (drop1 ++ rest) = (drop2 ++ drop1) ++ rest := by simp
  refine ⟨cs2, outs2, drop2 ++ drop1, h2, st2, ?_, a2.trans hst, b2, ?_, ?_, ?_⟩
  · rw [QIP.W.bind_ok hm]
    exact r2
  · rw [← hassoc]
    refine (e1.trans e2).congr fun n v => ?_
    rw [List.map_append, actAll_append, hw1]
  · rw [← hassoc, w2, hw1]
  · rw [← hassoc, w2']

theorem pick_mem {α : Type} {pos : List Nat} {l : List α} {x : α} (hx : x ∈ pick pos l) : x ∈ l := by
  unfold pick at hx
  obtain ⟨i, -, hi⟩ := List.mem_filterMap.1 hx
  exact List.mem_of_getElem? hi

theorem pick_ne_nil {α : Type} {pos : List Nat} {l : List α} (h : ∀ p ∈ pos, p < l.length) (hne : pos ≠ []) :
    pick pos l ≠ [] := by
  intro e
  have := pick_length h
  rw [e] at this
  exact hne (List.length_eq_zero_iff.1 this.symm)

theorem pick_one {l : List Nat} {p : Nat} (hp : p < l.length) : pick [p] l = [l.getD p 0] := by
  unfold pick
  rw [List.filterMap_cons_some (List.getElem?_eq_getElem hp), List.getD_eq_getElem _ _ hp]
  rfl

theorem sum_ctl (b : List Nat) : ((b.map ctl).map fun x => (x.qubits.length : Int)).sum = b.length := by
  rw [List.map_map]
  induction b with
  | nil => rfl
  | cons x b ih =>
    rw [List.map_cons, List.sum_cons, ih]
    simp [ctl]
    omega

/-- A call of a circuit function. -/
theorem call_ok {s : WState} {cs live ins rest : List Nat} {f : Nat} {body : List Nat → W (List Nat)}
    {Wo : List (List Nat)} {acts : List Act}
    (hc : InCtl s cs) (hm : s.wraps f ≤ ins.length)
    (hbody : ∀ s1, InCtl s1 (cs ++ (ins.take (s.wraps f)).reverse) → s1.heap = s.heap → s1.wraps = s.wraps →
      Ran s1 (cs ++ (ins.take (s.wraps f)).reverse) live rest (body (ins.drop (s.wraps f)) s1) Wo acts) :
    Ran s cs live rest (callFunc f body ins s) (((ins.take (s.wraps f)).map (wires s.heap live)).reverse ++ Wo)
      (acts.map (Act.more ((ins.take (s.wraps f)).map (wires s.heap live)).flatten)) := by
  set m := s.wraps f with hmdef
  set popped := ins.take m with hpop
  have hpl : popped.length = m := by rw [hpop, List.length_take]; omega
  have hctx : (popped.reverse.map fun q => (⟨1, [q], [0]⟩ : Entry)) = popped.reverse.map ctl := rfl
  set s1 : WState := ⟨s.heap, s.stack ++ [popped.reverse.map ctl], s.total + (m : Nat), s.wraps⟩ with hs1
  have hc1 : InCtl s1 (cs ++ popped.reverse) := by
    refine ⟨?_, ?_⟩
    · simp [hs1, hc.flat]
    · simp only [hs1, hc.total, List.length_append, List.length_reverse, hpl, Nat.cast_add]
  obtain ⟨cs', outs, drop, h', st', r, a, b, e, w1, w2⟩ := (hbody s1 hc1 rfl rfl).ran
  simp only [hs1] at r a b e w1 w2
  rw [List.map_append, List.map_cons, List.map_nil] at a
  have hstl : st'.length = s.stack.length + 1 := by have := congrArg List.length a; simpa using this
  obtain ⟨st0, last, rfl⟩ : ∃ st0 last, st' = st0 ++ [last] := by
    refine ⟨st'.dropLast, st'.getLast (by intro h; rw [h] at hstl; simp at hstl), ?_⟩
    exact (List.dropLast_append_getLast _).symm
  rw [List.map_append, List.map_cons, List.map_nil] at a
  obtain ⟨a1, a2⟩ := List.append_inj' a (by simp)
  have hll : last.length = m := by
    have := List.head_eq_of_cons_eq a2
    simpa [hpl] using this
  rw [List.flatten_append, List.flatten_cons, List.flatten_nil, List.append_nil] at b
  obtain ⟨ca, cb, rfl, b1, b2⟩ := List.map_eq_append_iff.1 b.symm
  have hcb : cb.length = m := by rw [← hll, ← b2]; simp
  have hcal : ca.length = cs.length := by
    have := congrArg List.length w1
    simp at this
    omega
  have hw1 := w1
  rw [List.map_append, List.map_append] at hw1
  obtain ⟨wa, wb⟩ := List.append_inj hw1 (by simp [hcal])
  have hassoc : ca ++ cb ++ outs ++ (drop ++ rest) = ca ++ (cb ++ outs) ++ (drop ++ rest) := by simp
  rw [hassoc] at e wa wb w2
  refine ⟨ca, cb ++ outs, drop, h', st0, ?_, a1, b1.symm, ?_, wa, ?_⟩
  · unfold callFunc
    rw [popInputs_ok hm]
    simp only
    unfold withContext
    simp only [hctx, sum_ctl, List.length_reverse, ← hpop, hpl]
    rw [W.bind_ok r]
    have hown : ownContext ⟨h', st0 ++ [last], s.total + (m : Nat), s.wraps⟩
        = (.ok last, ⟨h', st0 ++ [last], s.total + (m : Nat), s.wraps⟩) := by
      unfold ownContext
      simp
    rw [W.bind_ok hown, ← b2, putInOrder_ctl]
    simp only [List.map_id]
    have h1 : (st0 ++ [cb.map ctl]).dropLast = st0 := List.dropLast_concat
    have h2 : s.total + (m : Nat) - (m : Nat) = s.total := Int.add_sub_cancel _ _
    change (Except.ok (cb ++ outs), WState.mk h' (st0 ++ [cb.map ctl]).dropLast (s.total + (m : Nat) - (m : Nat))
      s.wraps) = _
    rw [h1, h2]
  · refine e.congr fun n v => ?_
    rw [List.map_map]
    have e1 : (Act.more (cs.map (wires s.heap live)).flatten ∘ Act.more (popped.map (wires s.heap live)).flatten)
        = Act.more ((cs.map (wires s.heap live)).flatten ++ (popped.map (wires s.heap live)).flatten) := by
      funext x; exact more_more _ _ _
    rw [e1]
    refine actAll_more_perm ?_ n acts v
    rw [List.map_append, List.flatten_append]
    exact ((popped.reverse_perm.map _).flatten).append_left _
  · rw [List.map_append, w2, wb, List.map_reverse]

theorem eval_ok (c : Circ) : ∀ {s : WState} {cs env live cur rest : List Nat}, InCtl s cs → Live s.heap env live →
    live.Perm (cs ++ cur ++ rest) → (∀ x ∈ live, s.heap.sinks x = []) → (∀ x ∈ cs, s.heap.n x = 1) →
    c.Fits s.wraps (cur.map (wires s.heap live)) →
    Ran s cs live rest (c.eval cur s) (c.outs s.wraps (cur.map (wires s.heap live)))
      (c.acts s.wraps (cur.map (wires s.heap live))) := by
  induction c with
  | ret outs =>
    intro s cs env live cur rest hc l hp hu hone hf
    have hpos : PosOK outs cur.length := by
      have : PosOK outs (cur.map (wires s.heap live)).length := hf
      rwa [List.length_map] at this
    have hp' : live.Perm (cs ++ pick outs cur ++ (leave outs cur ++ rest)) := by
      refine hp.trans ?_
      have := pick_perm hpos
      rw [List.append_assoc, List.append_assoc, ← List.append_assoc (pick outs cur)]
      exact (this.append_right rest).append_left cs
    have e := Evolves.perm l hp' hu
    refine ⟨cs, pick outs cur, leave outs cur, s.heap, s.stack, rfl, rfl, hc.flat, ?_, ?_, ?_⟩
    · exact e.congr fun n v => rfl
    · exact e.map_wires fun x hx => hp.mem_iff.2 (by simp [hx])
    · rw [e.map_wires fun x hx => hp.mem_iff.2 (by simp [pick_mem hx])]
      exact (pick_map _ _ _).symm
  | op w pos k ih =>
    intro s cs env live cur rest hc l hp hu hone hf
    obtain ⟨f1, f2, f3, f4⟩ := hf
    rw [List.length_map] at f1
    rw [leave_map, pick_map] at f4
    rw [pick_map] at f3
    have hpick := pick_perm f1
    have hcur : ∀ x ∈ cur, x ∈ live := fun x hx => hp.mem_iff.2 (by simp [hx])
    have hsz := l.sizes (xs := pick pos cur) fun x hx => hcur x (pick_mem hx)
    have hp' : live.Perm (cs ++ pick pos cur ++ (leave pos cur ++ rest)) := by
      refine hp.trans ?_
      rw [List.append_assoc, List.append_assoc, ← List.append_assoc (pick pos cur)]
      exact (hpick.append_right rest).append_left cs
    rw [← hsz] at f3
    obtain ⟨cs1, o1, h1, st1, r1, a1, b1, c1, d1, stp⟩ := wrap_step (kw := []) hc l hp' hone (Or.inl f2) f3
    have e1 := Evolves.of_step l hp' hu stp
    have hw := stp.wires
    rw [List.map_append, List.map_append] at hw
    obtain ⟨hw1, hw2⟩ := List.append_inj hw (by simp [c1])
    have key := ran_step (ins := pick pos cur) (rest := rest) (drop1 := []) (cur1 := leave pos cur)
      (k := k.eval) (acts1 := [⟨[], opGate w.spec ((pick pos cur).map s.heap.n), (pick pos cur).map (wires s.heap live)⟩])
      (m := callWrapper w [] (pick pos cur)) (acts := k.acts s.wraps ((leave pos cur ++ pick pos cur).map (wires s.heap live)))
      (Wo := k.outs s.wraps ((leave pos cur ++ pick pos cur).map (wires s.heap live)))
      hc l hu r1 a1 b1 hone (fun x hx => hp.mem_iff.2 (by simp [hx])) (fun x hx => hcur x (by unfold leave at hx; exact pick_mem hx))
      (e1.congr fun n v => by simp [actAll, Act.more]) hw1 hw2 ?_
    · change Ran s cs live rest ((callWrapper w [] (pick pos cur) >>= fun r => k.eval (leave pos cur ++ r)) s)
        (k.outs s.wraps _) (_ :: k.acts s.wraps _)
      rw [leave_map, pick_map, ← hsz, ← List.map_append]
      exact key
    · intro s' env' live' hc' ht hwr hh l' hp2 hu' hone' hcw
      have := ih hc' l' hp2 hu' hone' (by rw [hcw, hwr]; exact f4)
      rw [hcw, hwr, ← List.map_append] at this
      exact this
  | split p bs k ih =>
    intro s cs env live cur rest hc l hp hu hone hf
    obtain ⟨f1, f2, f3, f4⟩ := hf
    rw [List.length_map] at f1
    have hget : (cur.map (wires s.heap live)).getD p [] = wires s.heap live (cur.getD p 0) := by
      rw [List.getD_eq_getElem _ _ (by simpa using f1), List.getD_eq_getElem _ _ f1, List.getElem_map]
    rw [hget] at f3 f4
    rw [leave_map] at f4
    have hpos : PosOK [p] cur.length := ⟨by simp, by simpa using f1⟩
    have hpick := pick_perm hpos
    rw [pick_one f1] at hpick
    have hcur : ∀ x ∈ cur, x ∈ live := fun x hx => hp.mem_iff.2 (by simp [hx])
    have hqc : cur.getD p 0 ∈ cur := by rw [List.getD_eq_getElem _ _ f1]; exact List.getElem_mem _
    have hp' : live.Perm ([cur.getD p 0] ++ (cs ++ (leave [p] cur ++ rest))) := by
      refine hp.trans ?_
      rw [List.perm_iff_count]
      intro a
      have := hpick.count_eq a
      simp only [List.count_append] at *
      omega
    obtain ⟨_, c0⟩ := l.circuit.ctx
    have hlenq := c0.len (.arg (hcur _ hqc))
    rw [hlenq] at f3
    obtain ⟨o1, h1, cuts, r1, hcuts, stp⟩ := split_step l hp' f3 f2
    have hcl := cutList_eq (fun b hb => (f3 b hb).2) hcuts
    have hW : ((List.range (cuts.length - 1)).map fun i =>
        slice (wires s.heap live (cur.getD p 0)) (cuts.getD i 0) (cuts.getD (i + 1) 0))
        = parts (wires s.heap live (cur.getD p 0)) bs := by
      unfold parts
      rw [hlenq, hcl]
    have e0 := Evolves.of_step l hp' hu stp
    have hp1 : (o1 ++ (cs ++ (leave [p] cur ++ rest))).Perm (cs ++ o1 ++ ([] ++ (leave [p] cur ++ rest))) := by
      rw [List.perm_iff_count]
      intro a
      simp only [List.count_append, List.count_nil]
      omega
    have e1 := e0.mem_perm hp1
    obtain ⟨env0, l0⟩ := e0.new
    have hw1 := e1.map_wires (xs := cs) fun x hx => hp.mem_iff.2 (by simp [hx])
    have hw2 : o1.map (wires h1 (cs ++ o1 ++ ([] ++ (leave [p] cur ++ rest))))
        = parts (wires s.heap live (cur.getD p 0)) bs := by
      rw [← hW, ← stp.wires]
      exact List.map_congr_left fun x hx => wires_perm l0 hp1 e0.unused x (by simp [hx])
    have key := ran_step (ins := [cur.getD p 0]) (rest := rest) (drop1 := []) (cur1 := leave [p] cur)
      (k := k.eval) (acts1 := []) (m := direct (.split (cur.getD p 0) (some bs)))
      (acts := k.acts s.wraps ((leave [p] cur).map (wires s.heap live) ++ parts (wires s.heap live (cur.getD p 0)) bs))
      (Wo := k.outs s.wraps ((leave [p] cur).map (wires s.heap live) ++ parts (wires s.heap live (cur.getD p 0)) bs))
      hc l hu (direct_ok r1) rfl hc.flat hone (fun x hx => hp.mem_iff.2 (by simp [hx])) (fun x hx => hcur x (by unfold leave at hx; exact pick_mem hx))
      (e1.congr fun n v => rfl) hw1 hw2 ?_
    · change Ran s cs live rest ((direct (.split (cur.getD p 0) (some bs)) >>= fun r => k.eval (leave [p] cur ++ r)) s)
        (k.outs s.wraps _) (k.acts s.wraps _)
      rw [hget, leave_map]
      exact key
    · intro s' env' live' hc' ht hwr hh l' hp2 hu' hone' hcw
      have := ih hc' l' hp2 hu' hone' (by rw [hcw, hwr]; exact f4)
      rw [hcw, hwr] at this
      exact this
  | join pos k ih =>
    intro s cs env live cur rest hc l hp hu hone hf
    obtain ⟨f1, f2, f4⟩ := hf
    rw [List.length_map] at f1
    rw [leave_map, pick_map] at f4
    have hpick := pick_perm f1
    have hcur : ∀ x ∈ cur, x ∈ live := fun x hx => hp.mem_iff.2 (by simp [hx])
    have hp' : live.Perm (pick pos cur ++ (cs ++ (leave pos cur ++ rest))) := by
      refine hp.trans ?_
      rw [List.perm_iff_count]
      intro a
      have := hpick.count_eq a
      simp only [List.count_append] at *
      omega
    obtain ⟨x, h1, r1, stp⟩ := join_step l hp' (pick_ne_nil f1.2 f2) (fun y hy => hu y (hcur y (pick_mem hy)))
    have e0 := Evolves.of_step l hp' hu stp
    have hp1 : ([x] ++ (cs ++ (leave pos cur ++ rest))).Perm (cs ++ [x] ++ ([] ++ (leave pos cur ++ rest))) := by
      rw [List.perm_iff_count]
      intro a
      simp only [List.count_append, List.count_nil]
      omega
    have e1 := e0.mem_perm hp1
    obtain ⟨env0, l0⟩ := e0.new
    have hw1 := e1.map_wires (xs := cs) fun x hx => hp.mem_iff.2 (by simp [hx])
    have hw2 : [x].map (wires h1 (cs ++ [x] ++ ([] ++ (leave pos cur ++ rest))))
        = [((pick pos cur).map (wires s.heap live)).flatten] := by
      rw [← stp.wires]
      exact List.map_congr_left fun y hy => wires_perm l0 hp1 e0.unused y (List.mem_append_left _ hy)
    have key := ran_step (ins := pick pos cur) (rest := rest) (drop1 := []) (cur1 := leave pos cur)
      (k := k.eval) (acts1 := []) (m := direct (.qubit (pick pos cur) none none))
      (acts := k.acts s.wraps ((leave pos cur).map (wires s.heap live) ++ [((pick pos cur).map (wires s.heap live)).flatten]))
      (Wo := k.outs s.wraps ((leave pos cur).map (wires s.heap live) ++ [((pick pos cur).map (wires s.heap live)).flatten]))
      hc l hu (direct_ok r1) rfl hc.flat hone (fun x hx => hp.mem_iff.2 (by simp [hx])) (fun x hx => hcur x (by unfold leave at hx; exact pick_mem hx))
      (e1.congr fun n v => rfl) hw1 hw2 ?_
    · change Ran s cs live rest ((direct (.qubit (pick pos cur) none none) >>= fun r => k.eval (leave pos cur ++ r)) s)
        (k.outs s.wraps _) (k.acts s.wraps _)
      rw [leave_map, pick_map]
      exact key
    · intro s' env' live' hc' ht hwr hh l' hp2 hu' hone' hcw
      have := ih hc' l' hp2 hu' hone' (by rw [hcw, hwr]; exact f4)
      rw [hcw, hwr] at this
      exact this
  | call f body pos k ihb ih =>
    intro s cs env live cur rest hc l hp hu hone hf
    obtain ⟨f1, f2, f3, f4, f5⟩ := hf
    rw [List.length_map] at f1
    rw [pick_map, ← List.map_take] at f3
    rw [pick_map, ← List.map_drop] at f4
    rw [leave_map, pick_map, ← List.map_drop, ← List.map_take] at f5
    have hpick := pick_perm f1
    have hcur : ∀ x ∈ cur, x ∈ live := fun x hx => hp.mem_iff.2 (by simp [hx])
    set ins := pick pos cur with hins
    have hinsl : ins.length = pos.length := pick_length f1.2
    have hp' : live.Perm (cs ++ ins ++ (leave pos cur ++ rest)) := by
      refine hp.trans ?_
      rw [List.append_assoc, List.append_assoc, ← List.append_assoc ins]
      exact (hpick.append_right rest).append_left cs
    have hones : ∀ x ∈ ins.take (s.wraps f), s.heap.n x = 1 := by
      intro x hx
      have hxl := hcur x (pick_mem (List.mem_of_mem_take hx))
      obtain ⟨_, c0⟩ := l.circuit.ctx
      rw [← c0.len (.arg hxl)]
      exact f3 _ (List.mem_map.2 ⟨x, hx, rfl⟩)
    have R := call_ok (f := f) (body := body.eval) (live := live) (rest := leave pos cur ++ rest) hc
      (by rw [hinsl]; exact f2)
      (fun s1 hc1 hh hwr => by
        have := ihb (s := s1) (live := live) (cur := ins.drop (s.wraps f)) (rest := leave pos cur ++ rest) (env := env)
          hc1 (by rw [hh]; exact l)
          (hp'.trans (by
            rw [List.perm_iff_count]
            intro a
            have h1 := congrArg (List.count a) (List.take_append_drop (s.wraps f) ins)
            simp only [List.count_append, List.count_reverse] at *
            omega)) (by rw [hh]; exact hu)
          (by
            intro x hx
            rw [hh]
            rcases List.mem_append.1 hx with hx | hx
            · exact hone x hx
            · exact hones x (List.mem_reverse.1 hx))
          (by rw [hh, hwr]; exact f4)
        rw [hwr, hh] at this
        exact this)
    obtain ⟨cs1, o1, drop1, h1, st1, r1, a1, b1, e1, w1, w2⟩ := R.ran
    have key := ran_step (ins := ins) (rest := rest) (drop1 := drop1) (cur1 := leave pos cur)
      (k := k.eval) (m := callFunc f body.eval ins)
      (acts := k.acts s.wraps ((leave pos cur).map (wires s.heap live) ++
        (((ins.take (s.wraps f)).map (wires s.heap live)).reverse ++ body.outs s.wraps ((ins.drop (s.wraps f)).map (wires s.heap live)))))
      (Wo := k.outs s.wraps ((leave pos cur).map (wires s.heap live) ++
        (((ins.take (s.wraps f)).map (wires s.heap live)).reverse ++ body.outs s.wraps ((ins.drop (s.wraps f)).map (wires s.heap live)))))
      hc l hu r1 a1 b1 hone (fun x hx => hp.mem_iff.2 (by simp [hx])) (fun x hx => hcur x (by unfold leave at hx; exact pick_mem hx))
      e1 w1 w2 ?_
    · change Ran s cs live rest ((callFunc f body.eval ins >>= fun r => k.eval (leave pos cur ++ r)) s)
        (k.outs s.wraps _) (List.map _ (body.acts s.wraps _) ++ k.acts s.wraps _)
      rw [leave_map, pick_map, ← List.map_drop, ← List.map_take]
      exact key
    · intro s' env' live' hc' ht hwr hh l' hp2 hu' hone' hcw
      have := ih hc' l' hp2 hu' hone' (by rw [hcw, hwr]; exact f5)
      rw [hcw, hwr] at this
      exact this

end QIP
