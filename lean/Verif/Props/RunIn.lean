import Verif.Props.Repr
import Verif.Props.Graph
import Verif.Props.Run

/-!
# Running circuits of any size: C119
-/

namespace QIP.Props

open QIP Spec Heap

theorem reads_eq (frames : Nat) (h : Heap) (args : List Nat) (feed : List (List Nat × InitState)) :
    reads frames h args feed = (((feed.map (·.1)).flatten ++ needed h args).all (h.can frames) &&
      (needed h args).all fun x => (h.sinks x).all (h.can frames)) := by
  have : reads frames h args feed = ((feed.map (·.1)).flatten ++ around h args).all (h.can frames) := rfl
  rw [this, List.all_append, all_around, List.all_append, Bool.and_assoc]

/-- **C119**: where `frames` nested calls are allowed, `run` succeeds exactly if it succeeds without a limit and the text
of every node it hashes can be computed, and then the result is the same. -/
theorem C119_success {h : Heap} {env args : List Nat} (c : Circuit h env args) (frames : Nat) (ms : MsTable)
    (feed : List (List Nat × InitState)) (strict : Bool) (state : Option StateKw) (e : Env)
    (he : ∀ l, (e.shuffle l).Perm l) (r : List ℂ × List (Nat × Classic) × MsTable) :
    runIn frames h ms args feed strict state e.pick e.shuffle e.orc e.arena = .ok r ↔
      run h ms args feed strict state e.pick e.shuffle e.orc e.arena = .ok r ∧ reads frames h args feed = true := by
  obtain ⟨V, c⟩ := c.ctx
  obtain ⟨deps, h1, h2⟩ := runIn_pre c e.pick e.shuffle he frames ms feed strict state e.orc e.arena
  rw [h1, h2, reads_eq]
  by_cases hall : ((feed.map (·.1)).flatten ++ needed h args).all (h.can frames) = true
  · rw [if_pos hall, hall, Bool.true_and]
    rcases runPre h args feed strict state deps e.arena with err | b
    · simp [bind, Except.bind]
    · simp only [bind, Except.bind]
      obtain ⟨k1, k2, -⟩ := foldlM_checked (F := fun a x => nodeFeed h e.orc a (groups h args x) (wires h args x) x)
        (e := .recursionError) (p := fun x => (h.sinks x).all (h.can frames)) (needed h args) ⟨b, ms, []⟩
      simp only [bind, Except.bind] at k1 k2
      constructor
      · intro hr
        split at hr
        · cases hr
        · rename_i acc hacc
          obtain ⟨j1, j2⟩ := k1 acc hacc
          rw [j2]
          exact ⟨hr, j1⟩
      · rintro ⟨hr, hs⟩
        rw [k2 hs]
        exact hr
  · rw [if_neg hall]
    simp [hall]

/-- **C119** (exceptions): if the text of a node given in `feed`, or of one the outputs depend on, cannot be computed,
`run` raises RecursionError whatever else; a run that would succeed raises RecursionError if the text of any node it
hashes cannot be computed; and with all of these texts, `run` does what it does without a limit. -/
theorem C119_exceptions {h : Heap} {env args : List Nat} (c : Circuit h env args) (frames : Nat) (ms : MsTable)
    (feed : List (List Nat × InitState)) (strict : Bool) (state : Option StateKw) (e : Env)
    (he : ∀ l, (e.shuffle l).Perm l) :
    (∀ x, x ∈ (feed.map (·.1)).flatten ∨ x ∈ needed h args → h.repr frames x = none →
      runIn frames h ms args feed strict state e.pick e.shuffle e.orc e.arena = .error .recursionError) ∧
    (∀ r, run h ms args feed strict state e.pick e.shuffle e.orc e.arena = .ok r → reads frames h args feed = false →
      runIn frames h ms args feed strict state e.pick e.shuffle e.orc e.arena = .error .recursionError) ∧
    (reads frames h args feed = true → runIn frames h ms args feed strict state e.pick e.shuffle e.orc e.arena
      = run h ms args feed strict state e.pick e.shuffle e.orc e.arena) := by
  obtain ⟨V, c⟩ := c.ctx
  obtain ⟨deps, h1, h2⟩ := runIn_pre c e.pick e.shuffle he frames ms feed strict state e.orc e.arena
  refine ⟨fun x hx hn => ?_, fun r hr hb => ?_, fun hb => ?_⟩
  · rw [h2, if_neg]
    intro hall
    have := List.all_eq_true.1 hall x (List.mem_append.2 hx)
    unfold Heap.can at this
    rw [hn] at this
    cases this
  · rw [reads_eq] at hb
    rw [h2]
    by_cases hall : ((feed.map (·.1)).flatten ++ needed h args).all (h.can frames) = true
    · rw [hall, Bool.true_and] at hb
      rw [if_pos hall]
      rw [h1] at hr
      revert hr
      rcases runPre h args feed strict state deps e.arena with err | b <;> intro hr
      · cases hr
      · simp only [bind, Except.bind] at hr ⊢
        obtain ⟨-, -, k3⟩ := foldlM_checked (F := fun a x => nodeFeed h e.orc a (groups h args x) (wires h args x) x)
          (e := .recursionError) (p := fun x => (h.sinks x).all (h.can frames)) (needed h args) ⟨b, ms, []⟩
        simp only [bind, Except.bind] at k3
        split at hr
        · cases hr
        · rename_i acc hacc
          rw [k3 hb acc hacc]
    · rw [if_neg hall]
  · rw [reads_eq, Bool.and_eq_true] at hb
    rw [h1, h2, if_pos hb.1]
    rcases runPre h args feed strict state deps e.arena with err | b
    · rfl
    · simp only [bind, Except.bind]
      have k2 := (foldlM_checked (F := fun a x => nodeFeed h e.orc a (groups h args x) (wires h args x) x)
        (e := .recursionError) (p := fun x => (h.sinks x).all (h.can frames)) (needed h args) ⟨b, ms, []⟩).2.1 hb.2
      simp only [bind, Except.bind] at k2
      rw [k2]

/-- **C119** (part): with at least as many nested calls allowed as nodes have been made, `run` does what it does without
a limit. -/
theorem C119_enough_partial {h : Heap} {env args : List Nat} (c : Circuit h env args) {frames : Nat}
    (hf : h.nodes.length ≤ frames) (ms : MsTable) (feed : List (List Nat × InitState))
    (hkeys : ∀ x ∈ (feed.map (·.1)).flatten, x ∈ env) (strict : Bool) (state : Option StateKw) (e : Env)
    (he : ∀ l, (e.shuffle l).Perm l) :
    runIn frames h ms args feed strict state e.pick e.shuffle e.orc e.arena
      = run h ms args feed strict state e.pick e.shuffle e.orc e.arena := by
  refine (C119_exceptions c frames ms feed strict state e he).2.2 (List.all_eq_true.2 fun x hx => ?_)
  have hd := built_deep c.built
  obtain ⟨V, hw, -, hV⟩ := built_wf c.built
  obtain ⟨V', c'⟩ := c.ctx
  have hlt : x < h.nodes.length := by
    rcases List.mem_append.1 hx with hx | hx
    · exact hw.vlt x (hV x (hkeys x hx))
    · exact around_lt c' hx
  obtain ⟨s, hs⟩ := repr_some hd (f := frames) hlt (by omega)
  rw [hs]; rfl

/-- **C119**: a run that succeeds succeeds with more nested calls allowed as well, with the same result. -/
theorem C119_more {h : Heap} {env args : List Nat} (c : Circuit h env args) {f g : Nat} (hfg : f ≤ g) (ms : MsTable)
    (feed : List (List Nat × InitState)) (strict : Bool) (state : Option StateKw) (e : Env)
    (he : ∀ l, (e.shuffle l).Perm l) {r : List ℂ × List (Nat × Classic) × MsTable}
    (hr : runIn f h ms args feed strict state e.pick e.shuffle e.orc e.arena = .ok r) :
    runIn g h ms args feed strict state e.pick e.shuffle e.orc e.arena = .ok r := by
  rw [C119_success c _ _ _ _ _ _ he] at hr ⊢
  refine ⟨hr.1, List.all_eq_true.2 fun x hx => ?_⟩
  obtain ⟨s, hs⟩ := Option.isSome_iff_exists.1 (List.all_eq_true.1 hr.2 x hx)
  rw [repr_mono hs hfg]; rfl

/-- **C119** (negation for the depth): however many nested calls are allowed, there is a circuit of that many `R` gates on
one qubit that runs without a limit, but with this limit every run of it ends with RecursionError. -/
theorem C119_deep_false (phi : ℝ) (frames : Nat) :
    ∃ s x env, manyTurns phi frames fresh = (.ok [x], s) ∧ Circuit s.heap env [x] ∧
      (∀ e, EnvOK s.heap [x] e → ∃ r, run s.heap (fun _ => none) [x] [] false none e.pick e.shuffle e.orc e.arena = .ok r) ∧
      ∀ ms feed strict state e, (∀ l, ((e : Env).shuffle l).Perm l) →
        runIn frames s.heap ms [x] feed strict state e.pick e.shuffle e.orc e.arena = .error .recursionError := by
  obtain ⟨s, x, env, e, lv, d, -, df⟩ := manyTurns_deep phi frames
  obtain ⟨V, c⟩ := lv.circuit.ctx
  have hmem : x ∈ needed s.heap [x] := (mem_needed c.wf c.vargs).2 (.arg (by simp))
  refine ⟨s, x, env, e, lv.circuit, fun e he => ?_, fun ms feed strict state e he => ?_⟩
  · obtain ⟨out, cl, ms', hr, -⟩ := C35_run_computes_partial lv.circuit lv.ok lv.nomeasure (feed := [])
      ⟨by simp, by simp, by simp⟩ (fun q hq _ => by
        unfold DefaultOK
        rw [df q (c.wf.vlt q (c.vis ((mem_leaves c.wf c.vargs).1 hq).1))]
        trivial) he
    exact ⟨_, hr⟩
  · exact (C119_exceptions lv.circuit frames ms feed strict state e he).1 x (Or.inr hmem) d

/-- **C119** (negation: something the outputs do not depend on): however many nested calls are allowed, there is a circuit
that runs, and after one more operation has been made from its output, running the same output ends with RecursionError
– although without a limit nothing would have changed. -/
theorem C119_bystander_false (phi : ℝ) (k : Nat) :
    ∃ s x env, manyTurns phi k fresh = (.ok [x], s) ∧ Circuit s.heap env [x] ∧
      ∃ h' y, s.heap.exec (.op (.gate (.r phi)) false [x]) = (.ok [y], h') ∧ Circuit h' (env ++ [y]) [x] ∧
      y ∉ needed h' [x] ∧ ∀ e, EnvOK s.heap [x] e →
        ∃ r, runIn (k + 1) s.heap (fun _ => none) [x] [] false none e.pick e.shuffle e.orc e.arena = .ok r ∧
          run h' (fun _ => none) [x] [] false none e.pick e.shuffle e.orc e.arena = .ok r ∧
          runIn (k + 1) h' (fun _ => none) [x] [] false none e.pick e.shuffle e.orc e.arena = .error .recursionError := by
  obtain ⟨s, x, env, e, lv, d, len, df⟩ := manyTurns_deep phi k
  obtain ⟨V, hw, hk, hV⟩ := built_wf lv.circuit.built
  have hx : x ∈ env := lv.circuit.held x (by simp)
  have hxl := hw.vlt x (hV x hx)
  have hpos : 0 < s.heap.n x := lv.pos (.arg (by simp))
  obtain ⟨h', hi, ext, w', cr⟩ := initQubit_ok hw (kind := .gate (.r phi) false) (inputs := [x]) (n := none) (qid := none)
    (by simpa using hV x hx) qidOK_none (by simp) (initN_pos (by simp) (by simpa using hpos))
  have hex : s.heap.exec (.op (.gate (.r phi)) false [x]) = (.ok [s.heap.nodes.length], h') := by
    have : s.heap.exec (.op (.gate (.r phi)) false [x])
      = ((s.heap.initQubit (.gate (.r phi) false) [x] none none none).1.map ([·]),
        (s.heap.initQubit (.gate (.r phi) false) [x] none none none).2) := rfl
    rw [this, hi]; rfl
  have hb' : Built h' (env ++ [s.heap.nodes.length]) := by
    have := Built.call (.op (.gate (.r phi)) false [x]) lv.circuit.built (by simpa [Cmd.args] using hx)
    rw [hex] at this
    exact this
  have hl : Later s.heap env h' (env ++ [s.heap.nodes.length]) := by
    have := Later.call (h := s.heap) (env := env) (.op (.gate (.r phi)) false [x]) .refl (by simpa [Cmd.args] using hx)
    rw [hex] at this
    exact this
  obtain ⟨V0, c0⟩ := lv.circuit.ctx
  obtain ⟨W, b1, b2, b3⟩ := built_wf hb'
  have ctx0 : Ctx s.heap (fun x => x ∈ env) [x] :=
    ⟨wf_mono hw hV (env_closed lv.circuit.built), fun x hx => hk x (hV x hx), lv.circuit.held, lv.circuit.size, lv.circuit.split⟩
  have c' := ctx0.ext ext b1 b2 (fun x hx => b3 x (by simp [hx]))
  have circ' : Circuit h' (env ++ [s.heap.nodes.length]) [x] := ⟨hb', by simp [hx], c'.size, c'.split⟩
  have hmem : x ∈ needed h' [x] := (mem_needed c'.wf c'.vargs).2 (.arg (by simp))
  have hnone : h'.repr (k + 1) s.heap.nodes.length = none := by
    have := repr_step h' k s.heap.nodes.length
    rw [cr.kindx, cr.inputsx] at this
    rw [show k + 1 = k + 1 + (Kind.gate (.r phi) false).inner from rfl, this]
    simp only [Kind.shown, Gate.shown, List.mapM_cons]
    rw [repr_ext hw ext hxl, d]
    rfl
  refine ⟨s, x, env, e, lv.circuit, h', s.heap.nodes.length, hex, circ', ?_, fun e he => ?_⟩
  · intro hy
    have := ctx0.lt ((reach_ext ctx0 ext _).1 ((mem_needed c'.wf c'.vargs).1 hy))
    omega
  · have hdef : ∀ q ∈ leaves s.heap [x], q ∉ (([] : List (List Nat × List ℂ)).map (·.1)).flatten → DefaultOK s.heap q := by
      intro q hq _
      unfold DefaultOK
      rw [df q (c0.wf.vlt q (c0.vis ((mem_leaves c0.wf c0.vargs).1 hq).1))]
      trivial
    have hf : FeedOK s.heap [x] [] := ⟨by simp, by simp, by simp⟩
    obtain ⟨out, cl, ms', hr, -⟩ := C35_run_computes_partial lv.circuit lv.ok lv.nomeasure hf hdef he
    have hr' := (C45_later_calls lv.circuit hl hf hdef (fun _ => none) e he.shuffle).trans hr
    refine ⟨_, (C119_enough_partial lv.circuit (by omega) _ [] (by simp) _ _ e he.shuffle).trans hr, hr', ?_⟩
    refine (C119_exceptions circ' (k + 1) _ [] false none e he.shuffle).2.1 _ hr' ?_
    rw [Bool.eq_false_iff]
    intro hall
    have := List.all_eq_true.1 hall s.heap.nodes.length (List.mem_append_right _ (List.mem_append_right _
      (List.mem_flatMap.2 ⟨x, hmem, b1.link _ (b3 _ (by simp)) x (by rw [cr.inputsx]; simp)⟩)))
    rw [hnone] at this
    cases this

/-- **C119** (negation for the work): every run of an output of `k` successive `F` operations on two one-qubit registers
that succeeds has computed a text of at least `2 ** k` characters: that of the output, to hash it. -/
theorem C119_long_false {f : Nat → Except PyErr Int} (hf : ∀ i < 2, ∃ y, f i = .ok y ∧ -2 ^ 31 ≤ y ∧ y < 2 ^ 31) (k : Nat) :
    ∃ s a b env, manyOracles f k fresh = (.ok [a, b], s) ∧ Circuit s.heap env [a, b] ∧
      ∀ frames ms feed strict state e r, (∀ l, ((e : Env).shuffle l).Perm l) →
        runIn frames s.heap ms [a, b] feed strict state e.pick e.shuffle e.orc e.arena = .ok r →
          ∃ t, s.heap.repr frames a = some t ∧ 2 ^ k ≤ t.length := by
  obtain ⟨s, a, b, env, h1, c, hmem, -, hlong⟩ := C109_long_false hf k
  refine ⟨s, a, b, env, h1, c, fun frames ms feed strict state e r he hr => ?_⟩
  have hall := ((C119_success c frames ms feed strict state e he r).1 hr).2
  obtain ⟨t, ht⟩ := Option.isSome_iff_exists.1 (List.all_eq_true.1 hall a (List.mem_append_right _ (List.mem_append_left _ hmem)))
  exact ⟨t, ht, hlong frames t ht⟩

/-! ## Examples -/

/-- Too few nested calls for the measurement of the demonstration circuit. -/
example (ms : MsTable) (feed : List (List Nat × InitState)) (e : Env) (he : ∀ l, (e.shuffle l).Perm l) :
    runIn 2 demo ms [5] feed false none e.pick e.shuffle e.orc e.arena = .error .recursionError :=
  (C119_exceptions demo_circuit 2 ms feed false none e he).1 5 (Or.inr (by rw [demo_needed]; simp)) rfl

/-- Three are enough: for `SM(CNot(3))` a call each for the measurement, the `COp` and the `Not`. -/
example (ms : MsTable) (e : Env) (he : ∀ l, (e.shuffle l).Perm l) :
    runIn 3 demo ms [5] [] false none e.pick e.shuffle e.orc e.arena
      = run demo ms [5] [] false none e.pick e.shuffle e.orc e.arena :=
  (C119_exceptions demo_circuit 3 ms [] false none e he).2.2 (by
    rw [reads, around, demo_needed]
    decide +kernel)

example (ms : MsTable) (e : Env) (he : ∀ l, (e.shuffle l).Perm l) (r : List ℂ × List (Nat × Classic) × MsTable)
    (hr : runIn 3 demo ms [5] [([0], .int 2)] false none e.pick e.shuffle e.orc e.arena = .ok r) :
    runIn 1000 demo ms [5] [([0], .int 2)] false none e.pick e.shuffle e.orc e.arena = .ok r :=
  C119_more demo_circuit (by norm_num) ms _ false none e he hr

example (ms : MsTable) (e : Env) (he : ∀ l, (e.shuffle l).Perm l) :
    runIn 6 demo ms [5] [([0], .int 2)] true none e.pick e.shuffle e.orc e.arena
      = run demo ms [5] [([0], .int 2)] true none e.pick e.shuffle e.orc e.arena :=
  C119_enough_partial demo_circuit demo_nodes.le ms _ (by simp) true none e he

/-- A thousand rotations of one qubit, and Python's default limit. -/
noncomputable example : ∃ s x env, manyTurns 1 1000 fresh = (.ok [x], s) ∧ Circuit s.heap env [x] ∧
    (∀ e, EnvOK s.heap [x] e → ∃ r, run s.heap (fun _ => none) [x] [] false none e.pick e.shuffle e.orc e.arena = .ok r) ∧
    ∀ ms feed strict state e, (∀ l, ((e : Env).shuffle l).Perm l) →
      runIn 1000 s.heap ms [x] feed strict state e.pick e.shuffle e.orc e.arena = .error .recursionError :=
  C119_deep_false 1 1000

example : ∃ s a b env, manyOracles (fun _ => .ok 1) 40 fresh = (.ok [a, b], s) ∧ Circuit s.heap env [a, b] ∧
    ∀ frames ms feed strict state e r, (∀ l, ((e : Env).shuffle l).Perm l) →
      runIn frames s.heap ms [a, b] feed strict state e.pick e.shuffle e.orc e.arena = .ok r →
        ∃ t, s.heap.repr frames a = some t ∧ 2 ^ 40 ≤ t.length :=
  C119_long_false (fun i _ => ⟨1, rfl, by norm_num, by norm_num⟩) 40

end QIP.Props
