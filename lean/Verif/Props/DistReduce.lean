import Verif.Lemmas.Short
import Verif.Lemmas.OpAlgebra
import Verif.Props.DistMeasure

/-!
# C66: `reduce_measure` on a grid of workers
-/

namespace QIP.Props

open QIP QIP.Spec

variable {prm : Wid → WParam} {K N C M n : Nat} {ws : List Wid} {st : Wid → Wid → Nat} {v : List ℂ} {f : Wid → WSt}
  {indices : List Nat}

/-! ## Rows needed for an output -/

theorem subIndex_le_mod {n : Nat} (c : Nat) : ∀ {g : List Nat} {b : Nat}, g.Pairwise (· < ·) → (∀ q ∈ g, q < n ∧ n ≤ q + b) →
    subIndex n g c ≤ c % 2 ^ b := by
  intro g
  induction g with
  | nil => intro b _ _; simp [subIndex, bitsVal]
  | cons q g ih =>
    intro b hs hb
    obtain ⟨h1, h2⟩ := hb q (by simp)
    rw [List.pairwise_cons] at hs
    have hg : subIndex n g c ≤ c % 2 ^ (n - 1 - q) :=
      ih hs.2 fun x hx => ⟨(hb x (by simp [hx])).1, by have := hs.1 x hx; have := (hb x (by simp [hx])).1; omega⟩
    have hlen : g.length ≤ n - 1 - q := by
      have hsub : g ⊆ List.range' (q + 1) (n - 1 - q) := by
        intro x hx
        rw [List.mem_range'_1]
        have := hs.1 x hx
        have := (hb x (by simp [hx])).1
        omega
      have := (List.subperm_of_subset (hs.2.imp (fun h => Nat.ne_of_lt h)) hsub).length_le
      simpa using this
    have hpow : 2 ^ g.length ≤ 2 ^ (n - 1 - q) := Nat.pow_le_pow_right (by norm_num) hlen
    have hsplit : c % 2 ^ (n - 1 - q + 1) = 2 ^ (n - 1 - q) * (qbit n c q).toNat + c % 2 ^ (n - 1 - q) := by
      rw [Nat.mod_pow_succ]
      unfold qbit
      rw [Nat.toNat_testBit, Nat.add_comm]
    have hmono : c % 2 ^ (n - 1 - q + 1) ≤ c % 2 ^ b := by
      have hd : 2 ^ (n - 1 - q + 1) ∣ 2 ^ b := Nat.pow_dvd_pow 2 (by omega)
      rw [← Nat.mod_mod_of_dvd c hd]
      exact Nat.mod_le _ _
    rw [subIndex_cons]
    refine le_trans ?_ hmono
    rw [hsplit]
    cases qbit n c q <;> simp <;> omega

theorem le_redRow (h : IdxOK n indices) (m : Nat) {i : Nat} (hi : i < 2 ^ (n - indices.length)) :
    i ≤ redRow n indices m i := by
  have h1 := subIndex_remaining_redRow h m hi
  have h2 := subIndex_le_mod (n := n) (redRow n indices m i) (g := remaining n indices) (b := n)
    (List.pairwise_lt_range.filter _) (fun q hq => ⟨List.mem_range.1 (List.mem_filter.1 hq).1, by omega⟩)
  rw [h1, Nat.mod_eq_of_lt (redRow_lt _ _ _ _)] at h2
  exact h2

/-- A reduction whose output needs rows after the end of the input fails. -/
theorem reduce_fails (hIdx : IdxOK n indices) {b : BState} (hn : b.n = n) {inOff outOff : Nat} {m : Nat} {p u g : ℝ}
    (hrow : ∃ i, outOff ≤ i ∧ i < outOff + b.arena.length ∧ inOff + b.state.length ≤ redRow n indices m i) :
    ∃ e, b.reduceMeasure indices (some (m : Int)) (some p) inOff outOff u g = (.error e, b) := by
  unfold BState.reduceMeasure
  subst hn
  by_cases hp : 0 < p ∧ p ≤ 1
  · by_cases hm : m < 2 ^ indices.length
    · rw [reduceMeasure_ub hIdx _ _ _ _ hrow (chooseOutcome_both indices b.n b.state inOff hm hp u g)]
      exact ⟨_, rfl⟩
    · have hm' : ¬ (0 ≤ (m : Int) ∧ (m : Int) < 2 ^ indices.length) := by
        rintro ⟨-, h2⟩
        exact hm (by exact_mod_cast h2)
      have := chooseOutcome_bad_measured indices b.n b.state inOff hm' (some p) u g
      unfold QIP.reduceMeasure
      rw [this]
      exact ⟨_, rfl⟩
  · have := chooseOutcome_bad_prob indices b.n b.state inOff hp (some (m : Int)) u g
    unfold QIP.reduceMeasure
    rw [this]
    exact ⟨_, rfl⟩

theorem mem_allReduction {l : List Wid} {w : Wid} (h : w ∈ l) : w ∈ allReduction l := by
  unfold allReduction reductionKeys
  rw [List.mem_flatMap]
  refine ⟨w.1, ?_, List.mem_filter.2 ⟨h, by simp⟩⟩
  rw [List.mem_eraseDups]
  exact List.mem_map.2 ⟨w, h, rfl⟩

/-! ## A worker that cannot do its reduction -/

/-- Reports: all operations but reductions. -/
def ansNotReduce : WOp → Nat
  | .reduce _ _ => 0
  | _ => 1

/-- The operations before the synchronisation. -/
def ReduceOps (indices : List Nat) (o : WOp) : Prop :=
  o = .totalProb ∨ (∃ b, o = .soft indices b) ∨ ∃ b, o = .reduce indices (some b)

/-- Worker `w` has its range and is not in a synchronisation. -/
def HasRange (n N : Nat) (w : Wid) (loc : Wid → NLoc) (_ : Wid → Wid → List NMsg) : Prop :=
  ∃ s, loc w = .wkr s ∧ s.b.n = n ∧ s.b.state.length = N ∧ s.b.arena.length = N ∧
    (s.pc = .idle ∨ (∃ m, s.pc = .reply m) ∨ s.pc = .crashed)

theorem never_of_beyond (hg : GridOK prm K N C M ws) (hIdx : IdxOK n indices) {w : Wid} (hwK : w.1 < K ∧ w.2 < K)
    (hout : w.2 * N ≤ reduceThreshold n indices)
    (hbeyond : ∀ m, ∃ i, w.2 * N ≤ i ∧ i < w.2 * N + N ∧ w.1 * N + N ≤ redRow n indices m i) {r : ℝ}
    {c : Cfg Pid NMsg NLoc} (hD : Distributed K N n v C M st (sendReduceMeasure n N indices r ws) c) {t : List Pid}
    {c' : Cfg Pid NMsg NLoc} (h : exec (netAct prm) t c = some c') (res : Option (Nat × ℝ)) :
    c'.loc none ≠ .mgr (.done (.ok res)) := by
  have hmem : w ∈ allReduction (upToOutput N (reduceThreshold n indices) ws) :=
    mem_allReduction (List.mem_filter.2 ⟨(hg.mem w).2 hwK, by simpa using hout⟩)
  obtain ⟨b, cnt, e1, e2, e3, e4, e5⟩ := hD.workers w.1 hwK.1 w.2 hwK.2
  refine shortInv_exec (prm := prm) (A := fun _ o => ReduceOps indices o) (w := w) (ans := ansNotReduce)
    (J := HasRange n N w) ?_ ?_ ?_ h res
  · -- the worker keeps its range
    intro c c' x hc hs
    obtain ⟨-, hops, s, l1, l2, l3, l4, l5⟩ := hc
    unfold stepP at hs
    by_cases hx : x = w
    · subst hx
      simp only at l1
      rw [l1] at hs
      rcases l5 with l5 | ⟨m, l5⟩ | l5
      · simp only [netAct, workerAct, l5] at hs
        rcases hb : c.buf (none, some x) with _ | ⟨m, rest⟩ <;> rw [hb] at hs <;> simp only at hs
        · cases hs
        simp only [Option.some.injEq] at hs
        subst hs
        obtain ⟨o, rfl, ho⟩ := hops x m (by rw [hb]; simp)
        refine ⟨_, Function.update_self .., ?_⟩
        dsimp only
        rcases ho with rfl | ⟨q, rfl⟩ | ⟨⟨m, p⟩, rfl⟩
        · exact ⟨l2, l3, l4, Or.inr (Or.inl ⟨_, rfl⟩)⟩
        · simp only [handleOp]
          split
          · exact ⟨l2, l3, l4, Or.inr (Or.inl ⟨_, rfl⟩)⟩
          · exact ⟨l2, l3, l4, Or.inr (Or.inr rfl)⟩
        · obtain ⟨e, he⟩ := reduce_fails hIdx l2 (inOff := x.1 * N) (outOff := x.2 * N) (m := m) (p := p)
            (u := (prm x).draw s.cnt) (g := (prm x).garbage s.cnt) (by rw [l3, l4]; exact hbeyond m)
          simp only [handleOp, Option.map_some, hg.size, he]
          exact ⟨l2, l3, l4, Or.inr (Or.inr trivial)⟩
      · simp only [netAct, workerAct, l5, Option.some.injEq] at hs
        subst hs
        exact ⟨_, Function.update_self .., l2, l3, l4, Or.inl rfl⟩
      · simp only [netAct, workerAct, l5] at hs
        cases hs
    · have hloc : c'.loc (some w) = c.loc (some w) := by
        rcases ha : netAct prm (some x) (c.loc (some x)) with _ | ⟨y, m, s'⟩ | ⟨y, k⟩ <;> rw [ha] at hs <;> simp only at hs
        · cases hs
        · simp only [Option.some.injEq] at hs
          subst hs
          simp [Function.update_of_ne, Ne.symm hx]
        · rcases hb : c.buf (y, some x) with _ | ⟨m, rest⟩ <;> rw [hb] at hs <;> simp only at hs
          · cases hs
          simp only [Option.some.injEq] at hs
          subst hs
          simp [Function.update_of_ne, Ne.symm hx]
      exact ⟨s, by simp only [hloc]; exact l1, l2, l3, l4, l5⟩
  · -- and does not report a reduction
    intro c c' hc hs
    obtain ⟨-, hops, s, l1, l2, l3, l4, l5⟩ := hc
    unfold stepP at hs
    simp only at l1
    rw [l1] at hs
    rcases l5 with l5 | ⟨m, l5⟩ | l5
    · simp only [netAct, workerAct, l5] at hs
      rcases hb : c.buf (none, some w) with _ | ⟨m, rest⟩ <;> rw [hb] at hs <;> simp only at hs
      · cases hs
      simp only [Option.some.injEq] at hs
      subst hs
      obtain ⟨o, rfl, ho⟩ := hops w m (by rw [hb]; simp)
      unfold toCome
      dsimp only
      rw [Function.update_self, Function.update_self, Function.update_of_ne (by simp), hb, List.map_cons, List.sum_cons]
      rcases ho with rfl | ⟨q, rfl⟩ | ⟨⟨m, p⟩, rfl⟩
      · simp only [handleOp, replying, ansMsg, ansNotReduce]
        omega
      · simp only [ansMsg, ansNotReduce]
        have : ∀ l : NLoc, replying l ≤ 1 := by
          intro l
          unfold replying
          split <;> omega
        have := this (.wkr ⟨(handleOp (prm w) w s (.soft indices q)).1, (handleOp (prm w) w s (.soft indices q)).2, s.cnt + 1⟩)
        omega
      · obtain ⟨e, he⟩ := reduce_fails hIdx l2 (inOff := w.1 * N) (outOff := w.2 * N) (m := m) (p := p)
          (u := (prm w).draw s.cnt) (g := (prm w).garbage s.cnt) (by rw [l3, l4]; exact hbeyond m)
        simp only [handleOp, Option.map_some, hg.size, he, replying, ansMsg, ansNotReduce]
        omega
    · simp only [netAct, workerAct, l5, Option.some.injEq] at hs
      subst hs
      unfold toCome
      dsimp only
      rw [Function.update_self, Function.update_self, Function.update_of_ne (by simp), l1]
      obtain ⟨sb, spc, scnt⟩ := s
      simp only at l5
      subst l5
      simp only [List.length_append, List.length_cons, List.length_nil, replying]
      omega
    · simp only [netAct, workerAct, l5] at hs
      cases hs
  · -- at the start
    refine ⟨⟨_, hD.manager, ?_⟩, ?_, ⟨_, e1, e2, e3, e5, Or.inl rfl⟩⟩
    · have h0 : toCome ansNotReduce w c = 0 := by
        unfold toCome
        rw [hD.toManager, hD.fromManager, e1]
        rfl
      rw [h0]
      exact short_reduce (fun _ _ h => h) (fun o => by cases o <;> simp [ansNotReduce]) (fun _ => rfl) hmem
    · intro x m hm
      rw [hD.fromManager] at hm
      simp at hm

/-! ## A worker that waits for another one in the synchronisation -/

/-- Reports: all operations but synchronisations. -/
def ansNotSync : WOp → Nat
  | .sync _ _ => 0
  | _ => 1

/-- A transfer to `y` has still to be done. -/
def Needs (y : Wid) : Pc → Prop
  | .xfer cur ts => cur = .sAccept y ∨ .sendTo y ∈ ts
  | _ => True

theorem needs_next {y : Wid} {ts : List Task} (h : .sendTo y ∈ ts) :
    Needs y (nextTask ts) ∧ ∀ b cnt, replying (.wkr ⟨b, nextTask ts, cnt⟩) = 0 := by
  cases ts with
  | nil => simp at h
  | cons t ts =>
    cases t with
    | sendTo q =>
      refine ⟨?_, fun _ _ => rfl⟩
      rcases List.mem_cons.1 h with h | h
      · injection h with h; subst h; exact Or.inl rfl
      · exact Or.inr h
    | recvFrom q ow =>
      refine ⟨?_, fun _ _ => rfl⟩
      rcases List.mem_cons.1 h with h | h
      · cases h
      · exact Or.inr h

/-- What such a worker does. -/
theorem needs_act {x y : Wid} {A : WOp → Prop} (hx : ∀ o, A o → ∀ s : WSt, Needs y (handleOp (prm x) x s o).2 ∧
      replying (.wkr ⟨(handleOp (prm x) x s o).1, (handleOp (prm x) x s o).2, s.cnt + 1⟩) ≤ ansNotSync o)
    {s : WSt} (hs : Needs y s.pc) :
    (∀ q m s', workerAct (prm x) x s = .send q m s' → Needs y s'.pc ∧ replying (.wkr s') = 0 ∧
      (q = none → replying (.wkr s) = 1)) ∧
    ∀ q k, workerAct (prm x) x s = .recv q k → q ≠ some y →
      ∀ m, (q = none → ∃ o, m = .op o ∧ A o) → Needs y (k m).pc ∧ (q = none → ∀ o, m = .op o → replying (.wkr (k m)) ≤ ansNotSync o) ∧
        (q ≠ none → replying (.wkr (k m)) = 0) := by
  obtain ⟨b, pc, cnt⟩ := s
  rcases pc with _ | m | ⟨cur, ts⟩ | _ | _
  · constructor
    · intro q m s' he
      simp only [workerAct] at he
      cases he
    · intro q k he hq m hm
      simp only [workerAct, Act.recv.injEq] at he
      obtain ⟨rfl, rfl⟩ := he
      obtain ⟨o, rfl, ho⟩ := hm rfl
      refine ⟨(hx o ho _).1, fun _ o' ho' => ?_, fun h => absurd rfl h⟩
      injection ho' with ho'
      subst ho'
      exact (hx o ho _).2
  · constructor
    · intro q m' s' he
      simp only [workerAct, Act.send.injEq] at he
      obtain ⟨rfl, rfl, rfl⟩ := he
      exact ⟨trivial, rfl, fun _ => rfl⟩
    · intro q k he
      simp only [workerAct] at he
      cases he
  · have hy : ∀ t, (∃ q, cur = .sAccept q ∧ q ≠ y) ∨ (∀ q, cur ≠ .sAccept q) → (t = ts → .sendTo y ∈ t) := by
      rintro t hc rfl
      rcases hs with rfl | hs
      · rcases hc with ⟨q, h1, h2⟩ | h
        · injection h1 with h1; exact absurd h1.symm h2
        · exact absurd rfl (h y)
      · exact hs
    cases cur with
    | sAccept q' =>
      constructor
      · intro q m s' he
        simp only [workerAct] at he
        cases he
      · intro q k he hq m hm
        simp only [workerAct, Act.recv.injEq] at he
        obtain ⟨rfl, rfl⟩ := he
        have ht := hy ts (Or.inl ⟨q', rfl, fun h => hq (by rw [h])⟩) rfl
        have hn := needs_next ht
        cases m with
        | accept ch mx =>
          simp only
          split
          · exact ⟨Or.inr ht, (fun h => by cases h), fun _ => rfl⟩
          · exact ⟨hn.1, (fun h => by cases h), fun _ => hn.2 _ _⟩
        | _ => exact ⟨trivial, (fun h => by cases h), fun _ => rfl⟩
    | sLoop q' last infl ch mx =>
      have ht := hy ts (Or.inr (by simp)) rfl
      have hn := needs_next ht
      by_cases hl : infl < mx ∧ last < b.state.length
      · constructor
        · intro q m s' he
          simp only [workerAct, if_pos hl, Act.send.injEq] at he
          obtain ⟨rfl, rfl, rfl⟩ := he
          exact ⟨Or.inr ht, rfl, fun h => by cases h⟩
        · intro q k he
          simp only [workerAct, if_pos hl] at he
          cases he
      · constructor
        · intro q m s' he
          simp only [workerAct, if_neg hl] at he
          cases he
        · intro q k he hq m hm
          simp only [workerAct, if_neg hl, Act.recv.injEq] at he
          obtain ⟨rfl, rfl⟩ := he
          cases m with
          | accept ch mx =>
            simp only
            split
            · exact ⟨Or.inr ht, (fun h => by cases h), fun _ => rfl⟩
            · exact ⟨hn.1, (fun h => by cases h), fun _ => hn.2 _ _⟩
          | _ => exact ⟨trivial, (fun h => by cases h), fun _ => rfl⟩
    | rAccept q' ow =>
      have ht := hy ts (Or.inr (by simp)) rfl
      constructor
      · intro q m s' he
        simp only [workerAct, Act.send.injEq] at he
        obtain ⟨rfl, rfl, rfl⟩ := he
        exact ⟨Or.inr ht, rfl, fun h => by cases h⟩
      · intro q k he
        simp only [workerAct] at he
        cases he
    | rData q' ow =>
      have ht := hy ts (Or.inr (by simp)) rfl
      constructor
      · intro q m s' he
        simp only [workerAct] at he
        cases he
      · intro q k he hq m hm
        simp only [workerAct, Act.recv.injEq] at he
        obtain ⟨rfl, rfl⟩ := he
        cases m with
        | data start amps d =>
          simp only
          generalize (if ow = true then _ else _ : Except PyErr BState) = e
          cases e with
          | ok b => exact ⟨Or.inr ht, (fun h => by cases h), fun _ => rfl⟩
          | error e => exact ⟨trivial, (fun h => by cases h), fun _ => rfl⟩
        | _ => exact ⟨trivial, (fun h => by cases h), fun _ => rfl⟩
    | rAck q' ow d =>
      have ht := hy ts (Or.inr (by simp)) rfl
      have hn := needs_next ht
      constructor
      · intro q m s' he
        simp only [workerAct, Act.send.injEq] at he
        obtain ⟨rfl, rfl, rfl⟩ := he
        split
        · exact ⟨hn.1, hn.2 _ _, fun h => by cases h⟩
        · exact ⟨Or.inr ht, rfl, fun h => by cases h⟩
      · intro q k he
        simp only [workerAct] at he
        cases he
  · constructor <;> intros <;> simp_all [workerAct]
  · constructor <;> intros <;> simp_all [workerAct]

/-- `x` has a transfer to `y` to do, which `y` does not take part in. -/
def WaitsIn (x y : Wid) (loc : Wid → NLoc) (wb : Wid → Wid → List NMsg) : Prop :=
  (∃ s, loc x = .wkr s ∧ Needs y s.pc) ∧ (∃ s, loc y = .wkr s ∧ Avoids x s.pc) ∧ wb y x = []

/-- All operations of `send_reduce_measure` but `close`. -/
def ReduceSyncOps (upTo : Nat) (indices : List Nat) (o : WOp) : Prop :=
  o = .totalProb ∨ (∃ b, o = .soft indices b) ∨ (∃ b, o = .reduce indices (some b)) ∨ o = .sync upTo false

theorem never_of_waiting {upTo : Nat} (hup : reduceThreshold n indices = upTo) {x y : Wid} (hxy : x ≠ y)
    (hmem : x ∈ allReduction (upToOutput N (reduceThreshold n indices) ws))
    (hx : Task.sendTo y ∈ syncTasks (prm x) x upTo false) (hy : ∀ t ∈ syncTasks (prm y) y upTo false, t.partner ≠ x) {r : ℝ}
    {c : Cfg Pid NMsg NLoc} (hm0 : c.loc none = .mgr (sendReduceMeasure n N indices r ws))
    (hx0 : ∃ s, c.loc (some x) = .wkr s ∧ s.pc = .idle) (hy0 : ∃ s, c.loc (some y) = .wkr s ∧ s.pc = .idle)
    (hb0 : ∀ w, c.buf (none, some w) = []) (hb1 : c.buf (some x, none) = []) (hb2 : c.buf (some y, some x) = [])
    {t : List Pid} {c' : Cfg Pid NMsg NLoc} (h : exec (netAct prm) t c = some c') (res : Option (Nat × ℝ)) :
    c'.loc none ≠ .mgr (.done (.ok res)) := by
  have hxo : ∀ o, ReduceSyncOps upTo indices o → ∀ s : WSt, Needs y (handleOp (prm x) x s o).2 ∧
      replying (.wkr ⟨(handleOp (prm x) x s o).1, (handleOp (prm x) x s o).2, s.cnt + 1⟩) ≤ ansNotSync o := by
    intro o ho s
    rcases ho with rfl | ⟨b, rfl⟩ | ⟨b, rfl⟩ | rfl
    · exact ⟨trivial, le_rfl⟩
    · simp only [handleOp]
      split <;> exact ⟨trivial, by simp [replying, ansNotSync]⟩
    · simp only [handleOp]
      split <;> exact ⟨trivial, by simp [replying, ansNotSync]⟩
    · have := needs_next hx
      exact ⟨this.1, (this.2 _ _).le⟩
  have hyo : ∀ o, ReduceSyncOps upTo indices o → ∀ s : WSt, Avoids x (handleOp (prm y) y s o).2 := by
    intro o ho s
    rcases ho with rfl | ⟨b, rfl⟩ | ⟨b, rfl⟩ | rfl
    · trivial
    · simp only [handleOp]
      split <;> trivial
    · simp only [handleOp]
      split <;> trivial
    · exact avoids_next hy
  refine shortInv_exec (prm := prm) (A := fun _ o => ReduceSyncOps upTo indices o) (w := x) (ans := ansNotSync)
    (J := WaitsIn x y) ?_ ?_ ?_ h res
  · intro c c' z hc hs
    obtain ⟨-, hops, ⟨sx, x1, x2⟩, ⟨sy, y1, y2⟩, hb⟩ := hc
    simp only at x1 y1 hb
    unfold stepP at hs
    by_cases hzx : z = x
    · subst hzx
      rw [x1] at hs
      obtain ⟨a1, a2⟩ := needs_act hxo x2
      rcases ha : workerAct (prm z) z sx with _ | ⟨q, m, s'⟩ | ⟨q, k⟩
      · simp only [netAct, ha] at hs
        cases hs
      · simp only [netAct, ha, Option.some.injEq] at hs
        subst hs
        refine ⟨⟨s', by simp, (a1 q m s' ha).1⟩, ⟨sy, ?_, y2⟩, ?_⟩
        · dsimp only; rw [Function.update_of_ne (by simpa using Ne.symm hxy)]; exact y1
        · dsimp only; rw [Function.update_of_ne (by simp [Ne.symm hxy])]; exact hb
      · simp only [netAct, ha] at hs
        rcases hq : c.buf (q, some z) with _ | ⟨m, rest⟩ <;> rw [hq] at hs <;> simp only at hs
        · cases hs
        simp only [Option.some.injEq] at hs
        subst hs
        have hqy : q ≠ some y := by
          rintro rfl
          rw [hb] at hq
          cases hq
        refine ⟨⟨k m, by simp, (a2 q k ha hqy m ?_).1⟩, ⟨sy, ?_, y2⟩, ?_⟩
        · rintro rfl
          exact hops z m (by rw [hq]; simp)
        · dsimp only; rw [Function.update_of_ne (by simpa using Ne.symm hxy)]; exact y1
        · dsimp only; rw [Function.update_of_ne (by simp [Ne.symm hqy])]; exact hb
    · by_cases hzy : z = y
      · subst hzy
        rw [y1] at hs
        obtain ⟨a1, a2⟩ := avoids_act hyo y2
        rcases ha : workerAct (prm z) z sy with _ | ⟨q, m, s'⟩ | ⟨q, k⟩
        · simp only [netAct, ha] at hs
          cases hs
        · simp only [netAct, ha, Option.some.injEq] at hs
          subst hs
          obtain ⟨b1, b2⟩ := a1 q m s' ha
          refine ⟨⟨sx, ?_, x2⟩, ⟨s', by simp, b2⟩, ?_⟩
          · dsimp only; rw [Function.update_of_ne (by simpa using hxy)]; exact x1
          · dsimp only; rw [Function.update_of_ne (by simp [Ne.symm b1])]; exact hb
        · simp only [netAct, ha] at hs
          rcases hq : c.buf (q, some z) with _ | ⟨m, rest⟩ <;> rw [hq] at hs <;> simp only at hs
          · cases hs
          simp only [Option.some.injEq] at hs
          subst hs
          refine ⟨⟨sx, ?_, x2⟩, ⟨k m, by simp, a2 q k ha m ?_⟩, ?_⟩
          · dsimp only; rw [Function.update_of_ne (by simpa using hxy)]; exact x1
          · rintro rfl
            exact hops z m (by rw [hq]; simp)
          · dsimp only; rw [Function.update_of_ne (by simp [hxy])]; exact hb
      · have hkeep : c'.loc (some x) = c.loc (some x) ∧ c'.loc (some y) = c.loc (some y) ∧
            c'.buf (some y, some x) = c.buf (some y, some x) := by
          rcases ha : netAct prm (some z) (c.loc (some z)) with _ | ⟨q, m, s'⟩ | ⟨q, k⟩ <;> rw [ha] at hs <;> simp only at hs
          · cases hs
          · simp only [Option.some.injEq] at hs
            subst hs
            dsimp only
            refine ⟨?_, ?_, ?_⟩ <;> rw [Function.update_of_ne] <;> simp [Ne.symm hzx, Ne.symm hzy]
          · rcases hq : c.buf (q, some z) with _ | ⟨m, rest⟩ <;> rw [hq] at hs <;> simp only at hs
            · cases hs
            simp only [Option.some.injEq] at hs
            subst hs
            dsimp only
            refine ⟨?_, ?_, ?_⟩ <;> rw [Function.update_of_ne] <;> simp [Ne.symm hzx, Ne.symm hzy]
        obtain ⟨k1, k2, k3⟩ := hkeep
        exact ⟨⟨sx, by simp only [k1]; exact x1, x2⟩, ⟨sy, by simp only [k2]; exact y1, y2⟩, by simp only [k3]; exact hb⟩
  · intro c c' hc hs
    obtain ⟨-, hops, ⟨sx, x1, x2⟩, ⟨sy, y1, y2⟩, hb⟩ := hc
    simp only at x1 y1 hb
    unfold stepP at hs
    rw [x1] at hs
    obtain ⟨a1, a2⟩ := needs_act hxo x2
    unfold toCome
    rw [x1]
    rcases ha : workerAct (prm x) x sx with _ | ⟨q, m, s'⟩ | ⟨q, k⟩
    · simp only [netAct, ha] at hs
      cases hs
    · simp only [netAct, ha, Option.some.injEq] at hs
      subst hs
      obtain ⟨-, b2, b3⟩ := a1 q m s' ha
      dsimp only
      rw [Function.update_self, b2, Function.update_of_ne (by simp : ((none : Pid), (some x : Pid)) ≠ (some x, q))]
      by_cases hq : q = none
      · subst hq
        rw [Function.update_self, b3 rfl, List.length_append]
        simp
      · rw [Function.update_of_ne (by simp [Ne.symm hq])]
        omega
    · simp only [netAct, ha] at hs
      rcases hq : c.buf (q, some x) with _ | ⟨m, rest⟩ <;> rw [hq] at hs <;> simp only at hs
      · cases hs
      simp only [Option.some.injEq] at hs
      subst hs
      have hqy : q ≠ some y := by
        rintro rfl
        rw [hb] at hq
        cases hq
      obtain ⟨-, b2, b3⟩ := a2 q k ha hqy m (by rintro rfl; exact hops x m (by rw [hq]; simp))
      dsimp only
      rw [Function.update_self, Function.update_of_ne (by simp : ((some x : Pid), (none : Pid)) ≠ (q, some x))]
      by_cases hqn : q = none
      · subst hqn
        obtain ⟨o, rfl, -⟩ := hops x m (by rw [hq]; simp)
        have := b2 rfl o rfl
        rw [Function.update_self, hq, List.map_cons, List.sum_cons]
        simp only [ansMsg]
        omega
      · rw [Function.update_of_ne (by simp [Ne.symm hqn]), b3 hqn]
        omega
  · obtain ⟨sx, x1, x2⟩ := hx0
    obtain ⟨sy, y1, y2⟩ := hy0
    refine ⟨⟨_, hm0, ?_⟩, ?_, ⟨_, x1, by rw [x2]; trivial⟩, ⟨_, y1, by rw [y2]; trivial⟩, hb2⟩
    · have h0 : toCome ansNotSync x c = 0 := by
        unfold toCome
        rw [hb0, hb1, x1]
        obtain ⟨sb, spc, scnt⟩ := sx
        simp only at x2
        subst x2
        rfl
      rw [h0]
      subst hup
      exact short_reduce_sync (fun _ _ h => h) (fun o => by cases o <;> simp [ansNotSync]) rfl hmem
    · intro w m hm
      rw [hb0] at hm
      simp at hm

/-! ## C66 -/

/-- C66 (negation of the full property): if the reduced state is larger than a worker's range, `send_reduce_measure` never
finishes: worker (0, 1) needs rows after the end of its input range (it reads beyond the end of its vector; what
happens then is not defined, in the model the worker stops). -/
theorem C66_beyond_never (hg : GridOK prm K N C M ws) (hIdx : IdxOK n indices) (hlarge : N < 2 ^ (n - indices.length)) {r : ℝ}
    {c : Cfg Pid NMsg NLoc} (hD : Distributed K N n v C M st (sendReduceMeasure n N indices r ws) c) {t : List Pid}
    {c' : Cfg Pid NMsg NLoc} (h : exec (netAct prm) t c = some c') (res : Option (Nat × ℝ)) :
    c'.loc none ≠ .mgr (.done (.ok res)) := by
  have hK : 1 < K := by
    have h1 := hD.cover
    have h2 : 2 ^ (n - indices.length) ≤ 2 ^ n := Nat.pow_le_pow_right (by norm_num) (by omega)
    by_contra hK
    have : K ≤ 1 := by omega
    have : K * N ≤ 1 * N := Nat.mul_le_mul_right _ this
    omega
  refine never_of_beyond (w := (0, 1)) hg hIdx ⟨by have := hg.posK; omega, hK⟩ ?_ ?_ hD h res
  · simp only [reduceThreshold, Nat.one_mul]
    exact hlarge.le
  · intro m
    have := hg.posN
    refine ⟨N, by simp, by simp only [Nat.one_mul]; omega, ?_⟩
    simp only [Nat.zero_mul, Nat.zero_add]
    exact le_redRow hIdx m hlarge

/-- The same for worker (0, 1) alone: given any outcome and probability, its reduction reads beyond its vector (or the
outcome or probability is rejected). -/
theorem C66_reads_beyond (hIdx : IdxOK n indices) (hlarge : N < 2 ^ (n - indices.length)) {b : BState} (hn : b.n = n)
    (hs : b.state.length = N) (ha : b.arena.length = N) (hN : 0 < N) {m : Nat} (hm : m < 2 ^ indices.length) {p : ℝ}
    (hp : 0 < p ∧ p ≤ 1) (u g : ℝ) :
    b.reduceMeasure indices (some (m : Int)) (some p) 0 N u g = (.error .ub, b) := by
  unfold BState.reduceMeasure
  subst hn
  rw [reduceMeasure_ub hIdx _ _ _ _ ⟨N, le_rfl, by omega, by
    have := le_redRow hIdx m hlarge; omega⟩ (chooseOutcome_both indices b.n b.state 0 hm hp u g)]

/-- C66 (negation of the full property): if the reduced state is as large as a worker's range, and no acknowledgements of
earlier operations are left in the sockets, `send_reduce_measure` never finishes: worker (1, 1), which is wrongly included
(`>` in get_workers_up_to_output), waits in the synchronisation for worker (1, 0), which does not take part. -/
theorem C66_equal_never (hg : GridOK prm K N C M ws) (hIdx : IdxOK n indices) (hne : indices ≠ [])
    (heq : 2 ^ (n - indices.length) = N) {r : ℝ} {c : Cfg Pid NMsg NLoc}
    (hD : Distributed K N n v C M st (sendReduceMeasure n N indices r ws) c) (hfresh : st (1, 0) (1, 1) = 0) {t : List Pid}
    {c' : Cfg Pid NMsg NLoc} (h : exec (netAct prm) t c = some c') (res : Option (Nat × ℝ)) :
    c'.loc none ≠ .mgr (.done (.ok res)) := by
  have hlen : 0 < indices.length := List.length_pos_iff.2 hne
  have hle := hIdx.length_le
  have hN := hg.posN
  have hK : 1 < K := by
    have h1 := hD.cover
    have h2 : 2 ^ (n - indices.length) < 2 ^ n := Nat.pow_lt_pow_right (by norm_num) (by omega)
    by_contra hK
    have : K ≤ 1 := by omega
    have : K * N ≤ 1 * N := Nat.mul_le_mul_right _ this
    omega
  obtain ⟨b1, cnt1, e1, -⟩ := hD.workers 1 hK 1 hK
  obtain ⟨b2, cnt2, e2, -⟩ := hD.workers 1 hK 0 (by omega)
  have hreg : ((1, 0) : Wid) ∈ (prm (1, 1)).regs :=
    (hg.regs 1 hK (1, 0)).2 ⟨hK, by simp only; omega, by simp, Or.inl rfl⟩
  refine never_of_waiting (prm := prm) (upTo := N) (x := (1, 1)) (y := (1, 0)) heq (by simp) ?_ ?_ ?_ hD.manager
    ⟨_, e1, rfl⟩ ⟨_, e2, rfl⟩ hD.fromManager (hD.toManager _) ?_ h res
  · refine mem_allReduction (List.mem_filter.2 ⟨(hg.mem _).2 ⟨hK, hK⟩, ?_⟩)
    simp only [reduceThreshold, heq, Nat.one_mul]
    simp
  · simp only [syncTasks, if_true]
    rw [if_pos (by omega : N ≠ 0)]
    refine List.mem_append_right _ (List.mem_map.2 ⟨(1, 0), ?_, rfl⟩)
    refine List.mem_filter.2 ⟨List.mem_filter.2 ⟨hreg, by simp⟩, ?_⟩
    rw [hg.size]
    simpa using hN
  · intro t ht
    have e : syncTasks (prm (1, 0)) (1, 0) N false = [.sendTo (0, 0)] := by
      unfold syncTasks
      rw [if_neg (by simp), if_neg (by simp), if_pos ⟨by omega, fun h => by
        have := h.1
        rw [hg.size] at this
        simp only at this
        omega⟩]
      rfl
    rw [e, List.mem_singleton] at ht
    subst ht
    simp [Task.partner]
  · rw [hD.acks, hfresh]
    rfl

/-- C66 (negation of the full property): if the reduced state is smaller than a worker's range, all workers are closed and
handed back, whatever happens before: no worker is left to hold the reduced state. -/
theorem C66_none_left (hsmall : 2 ^ (n - indices.length) < N) (ws : List Wid) :
    remainingWorkers N (reduceThreshold n indices) ws = [] ∧ doneWorkers N (reduceThreshold n indices) ws = ws := by
  have hs : ∀ w : Wid, stays N (reduceThreshold n indices) w = false := by
    intro w
    unfold stays reduceThreshold
    refine decide_eq_false fun h => ?_
    have h1 := h.1
    have : 1 * N ≤ (w.1 + 1) * N := Nat.mul_le_mul_right _ (by omega)
    omega
  simp [remainingWorkers, doneWorkers, hs]

/-- C66 (negation of the full property, summary): when the qubits of a new job are measured with reduction, on any grid of
workers, whatever the draws, schedule, state and (non-empty) set of measured qubits: it never happens that the operation
finishes and any worker is left to hold the reduced state. -/
theorem C66_false (hg : GridOK prm K N C M ws) (hIdx : IdxOK n indices) (hne : indices ≠ []) {r : ℝ}
    {c : Cfg Pid NMsg NLoc} (hD : Distributed K N n v C M (fun _ _ => 0) (sendReduceMeasure n N indices r ws) c)
    {t : List Pid} {c' : Cfg Pid NMsg NLoc} (h : exec (netAct prm) t c = some c') {res : Option (Nat × ℝ)}
    (hdone : c'.loc none = .mgr (.done (.ok res))) : remainingWorkers N (reduceThreshold n indices) ws = [] := by
  rcases lt_trichotomy N (2 ^ (n - indices.length)) with hlt | heq | hgt
  · exact absurd hdone (C66_beyond_never hg hIdx hlt hD h res)
  · exact absurd hdone (C66_equal_never hg hIdx hne heq.symm hD rfl h res)
  · exact (C66_none_left hgt ws).1

/-- C66 (the part that holds; accumulators 0 and draws not 0 as in C65; missing: more than one worker, and that the reduced
state can be used afterwards): with a single worker the operation ends under every schedule, reports a possible outcome
with its probability, the worker computes the state that the local backend has after `reduce_measure` with this outcome,
and is closed. -/
theorem C66_one_worker_partial (hg : GridOK prm 1 N C M ws) (hIdx : IdxOK n indices) (hne : indices ≠ [])
    (hgarb : ∀ w c, (prm w).garbage c = 0) (hu : ∀ i c, 0 < (prm (i, i)).draw c ∧ (prm (i, i)).draw c < 1)
    (hT : Spec.totalProb n (fun c => v.getD c 0) = 1) {r : ℝ} (hr : 0 < r ∧ r < 1)
    {c : Cfg Pid NMsg NLoc} (hD : Distributed 1 N n v C M st (sendReduceMeasure n N indices r ws) c) :
    ∃ m p s c', m < 2 ^ indices.length ∧ p = outcomeProb n indices (fun c => v.getD c 0) m ∧ 0 < p ∧
      AlwaysEnds (netAct prm) c c' ∧ c'.loc none = .mgr (.done (.ok (some (m, p)))) ∧ c'.loc (some (0, 0)) = .wkr s ∧
      s.pc = .closed ∧ ∃ arena : List ℂ, arena.length = 2 ^ n ∧ ∀ u' g',
        BState.reduceMeasure ⟨n, v, arena⟩ indices (some (m : Int)) none 0 0 u' g' = (.ok (m, p), s.b) := by
  obtain ⟨f, rfl, hR, hst⟩ := hD.cfg
  have hN : N = 2 ^ n := by have := hD.cover; omega
  have hws : ws = [(0, 0)] := by
    have h1 : ∀ w, w ∈ ws ↔ w = (0, 0) := by
      rintro ⟨a, b⟩
      rw [hg.mem]
      simp only [Prod.mk.injEq]
      omega
    have h2 : ws.Perm [(0, 0)] := (List.perm_ext_iff_of_nodup hg.nodup (by simp)).2 fun w => by rw [h1]; simp
    exact List.perm_singleton.1 h2
  have hlen : 0 < indices.length := List.length_pos_iff.2 hne
  have hle := hIdx.length_le
  have hsmall : 2 ^ (n - indices.length) < N := by
    rw [hN]; exact Nat.pow_lt_pow_right (by norm_num) (by omega)
  have hdone : doneWorkers N (reduceThreshold n indices) ws = [(0, 0)] := by rw [(C66_none_left hsmall ws).2, hws]
  have hup : upToOutput N (reduceThreshold n indices) ws = [(0, 0)] := by simp [upToOutput, hws]
  have hkeys : reductionKeys [((0, 0) : Wid)] = [0] := by simp [reductionKeys, List.eraseDups_cons]
  have hfirst : firstWorkers [((0, 0) : Wid)] = [(0, 0)] := by simp [firstWorkers, hkeys]
  have hall : allReduction [((0, 0) : Wid)] = [(0, 0)] := by simp [allReduction, hkeys]
  have eprog : sendReduceMeasure n N indices r ws
      = chooseProg indices r ((List.range 1).map fun i => (i, i)) .keyError fun m p =>
          mapWorkers (.reduce indices (some (m, p))) [(0, 0)] fun _ =>
            mapWorkers (.sync (reduceThreshold n indices) false) [(0, 0)] fun _ =>
              sendEach .close [(0, 0)] (.done (.ok (some (m, p)))) := by
    unfold sendReduceMeasure
    simp only [hup, hfirst, hall, hdone]
    rfl
  obtain ⟨s, hs, m, hm, k, -, h1, h2, h3, h4, f1, hR1, -, hrun⟩ := chooseProg_runs (prm := prm) (st := st) hg hIdx hD.cover hD.size hgarb
    hR .keyError (fun m p =>
          mapWorkers (.reduce indices (some (m, p))) [(0, 0)] fun _ =>
            mapWorkers (.sync (reduceThreshold n indices) false) [(0, 0)] fun _ =>
              sendEach .close [(0, 0)] (.done (.ok (some (m, p))))) (r := r) (by rw [hT]; exact hr.2.le)
  rw [← eprog] at hrun
  have hTs : 0 < Spec.totalProb n (sl N v s) := by
    have e := before_succ n N v s
    have hb : before n N v s < r := by
      cases s with
      | zero => simpa [before] using hr.1
      | succ j => exact h1 j (by omega)
    have : r ≤ before n N v (s + 1) := h2
    linarith
  have hp : 0 < outcomeProb n indices (fun c => v.getD c 0) m :=
    (cum_lt_pos hIdx hm (hu s k).1 (hu s k).2 hTs h3 h4).trans_le (outcome_part_le hD.cover hD.size hs m)
  have hp1 : outcomeProb n indices (fun c => v.getD c 0) m ≤ 1 := by
    rw [← hT, ← hIdx.sum_outcomeProb]
    exact Finset.single_le_sum (f := fun j => outcomeProb n indices (fun c => v.getD c 0) j)
      (fun j _ => outcomeProb_nonneg _ _ _ _) (Finset.mem_range.2 hm)
  generalize hpe : outcomeProb n indices (fun c => v.getD c 0) m = p at hp hp1 hrun
  obtain ⟨hidle, hbn, hbs, hba⟩ := hR1.grid 0 (by omega) 0 (by omega)
  have hbs' : (f1 (0, 0)).b.state = v := by
    rw [hbs]
    have := hD.size
    simp [part, hN, this, List.take_of_length_le]
  have hb : (f1 (0, 0)).b = ⟨n, v, (f1 (0, 0)).b.arena⟩ := by rw [← hbs', ← hbn]
  -- the reduction of the local backend
  have hred : ∀ measured mp u' g', chooseOutcome indices n v 0 measured mp u' g' = .ok (m, p, √(1 / p)) →
      BState.reduceMeasure (f1 (0, 0)).b indices measured mp 0 0 u' g' = (.ok (m, p),
        ⟨n, (List.range (2 ^ n)).map fun j => v.getD (redRow n indices m j) 0 * ((√(1 / p) : ℝ) : ℂ), v⟩) := by
    intro measured mp u' g' hc
    obtain ⟨out', e1, e2, e3⟩ := reduceMeasure_eq hIdx v (f1 (0, 0)).b.arena 0 0 (fun i _ _ => by
      rw [hD.size, Nat.zero_add]; exact redRow_lt _ _ _ _) hc
    rw [hb]
    unfold BState.reduceMeasure
    simp only [e1]
    have : out' = (List.range (2 ^ n)).map fun j => v.getD (redRow n indices m j) 0 * ((√(1 / p) : ℝ) : ℂ) := by
      apply List.ext_getElem?
      intro j
      by_cases hj : j < 2 ^ n
      · rw [e3 j (by omega), sliceAt_zero']
        simp [hj]
      · rw [List.getElem?_eq_none (by omega), List.getElem?_eq_none (by simp; omega)]
    rw [this]
  have hboth := chooseOutcome_both indices n v 0 hm ⟨hp, hp1⟩
  have hop : handleOp (prm (0, 0)) (0, 0) (f1 (0, 0)) (.reduce indices (some (m, p))) = (⟨n, (List.range (2 ^ n)).map fun j =>
      v.getD (redRow n indices m j) 0 * ((√(1 / p) : ℝ) : ℂ), v⟩, .reply (.result (some m) p)) := by
    unfold handleOp
    simp only [Nat.zero_mul, Option.map_some]
    rw [hred _ _ _ _ (hboth _ _)]
  have hr1 := mapWorkers_local (prm := prm) (C := C) (M := M) (st := st) (f := f1) (o := .reduce indices (some (m, p)))
    (l := [(0, 0)]) (by simp) (fun _ => mapWorkers (.sync (reduceThreshold n indices) false) [(0, 0)] fun _ =>
              sendEach .close [(0, 0)] (.done (.ok (some (m, p))))) (by simpa using hidle) (m := fun _ => .result (some m) p)
    (by simp [hop])
  generalize hf2 : (fun w => if w ∈ [((0, 0) : Wid)] then (⟨(handleOp (prm w) w (f1 w) (.reduce indices (some (m, p)))).1, .idle,
    (f1 w).cnt + 1⟩ : WSt) else f1 w) = f2 at hr1
  have hregs : (prm (0, 0)).regs = [] := List.eq_nil_iff_forall_not_mem.2 fun w hw => by
    have := (hg.regs 0 (by omega) w).1 hw
    omega
  have hsync : handleOp (prm (0, 0)) (0, 0) (f2 (0, 0)) (.sync (reduceThreshold n indices) false)
      = ((f2 (0, 0)).b, .reply .conf) := by
    simp [handleOp, syncTasks, hregs, nextTask]
  have hr2 := mapWorkers_local (prm := prm) (C := C) (M := M) (st := st) (f := f2)
    (o := .sync (reduceThreshold n indices) false)
    (l := [(0, 0)]) (by simp) (fun _ => sendEach .close [(0, 0)] (.done (.ok (some (m, p))))) (by simp [← hf2])
    (m := fun _ => .conf) (by simp [hsync])
  generalize hf3 : (fun w => if w ∈ [((0, 0) : Wid)] then (⟨(handleOp (prm w) w (f2 w)
    (.sync (reduceThreshold n indices) false)).1, .idle, (f2 w).cnt + 1⟩ : WSt) else f2 w) = f3 at hr2
  have hr3 := sendEach_runs (prm := prm) (C := C) (M := M) (st := st) (f := f3) (ops := noMsg) (cf := noMsg) .close
    (.done (.ok (some (m, p)))) (l := [(0, 0)]) (by simp)
  have hr4 := deliver_runs (prm := prm) (C := C) (M := M) (st := st) (f := f3) (cf := noMsg)
    (pm := .done (.ok (some (m, p)))) .close (l := [(0, 0)]) (by simp) (by simp [← hf3])
  have hr34 := hr3.trans hr4
  generalize hf4 : (fun w => if w ∈ [((0, 0) : Wid)] then handled prm .close w (f3 w) else f3 w) = f4 at hr34
  have hstate : (f4 (0, 0)).b = ⟨n, (List.range (2 ^ n)).map fun j =>
      v.getD (redRow n indices m j) 0 * ((√(1 / p) : ℝ) : ℂ), v⟩ := by
    have e4 : (f4 (0, 0)).b = (f3 (0, 0)).b := by simp [← hf4, handled, handleOp]
    have e3 : (f3 (0, 0)).b = (f2 (0, 0)).b := by simp [← hf3, hsync]
    have e2 : (f2 (0, 0)).b = (handleOp (prm (0, 0)) (0, 0) (f1 (0, 0)) (.reduce indices (some (m, p)))).1 := by simp [← hf2]
    rw [e4, e3, e2, hop]
  have hclosed : (f4 (0, 0)).pc = .closed := by simp [← hf4, handled, handleOp]
  refine ⟨m, p, f4 (0, 0), _, hm, hpe.symm, hp, (((hrun.trans hr1).trans hr2).trans hr34).alwaysEnds (stuck_of fun w => ?_),
    rfl, rfl, hclosed, (f1 (0, 0)).b.arena, by rw [hba, hN], fun u' g' => ?_⟩
  · left
    by_cases hw : w = (0, 0)
    · rw [hw, hclosed]
    · have e : f4 w = f1 w := by simp [← hf4, ← hf3, ← hf2, hw]
      rw [e]
      refine hR1.others w fun h => hw ?_
      ext <;> simp only <;> omega
  · rw [hstate, ← hb]
    refine hred _ _ _ _ ?_
    have hs := softMeasure_forced hIdx v 0 hm u' g'
    rw [sliceAt_zero', hpe] at hs
    have hc := chooseOutcome_soft indices n v 0 (some m) (by simpa using hm) u' g' hs
    rw [if_neg hp.ne'] at hc
    exact hc

/-! ## Cases -/

/-- Measuring qubit 0 of two with reduction, on the grid of four workers: the reduced state is as large as a range. -/
example {t : List Pid} {c' : Cfg Pid NMsg NLoc} (h : exec (netAct gridPrm) t
    (netCfg (sendReduceMeasure 2 2 [0] (1 / 2) [(0, 0), (0, 1), (1, 0), (1, 1)]) bellSt (nbuf 1 2 (fun _ _ => 0) noMsg noMsg))
      = some c') (res : Option (Nat × ℝ)) : c'.loc none ≠ .mgr (.done (.ok res)) :=
  C66_equal_never (prm := gridPrm) gridOK (by constructor <;> simp) (by simp) (by norm_num) (bellStart _) rfl h res

/-- Measuring both qubits: nothing is left. -/
example : remainingWorkers 2 (reduceThreshold 2 [0, 1]) [(0, 0), (0, 1), (1, 0), (1, 1)] = [] :=
  (C66_none_left (by norm_num) _).1

/-- Three qubits on sixteen workers with ranges of two amplitudes, one qubit measured: the reduced state takes two ranges. -/
def wideWs : List Wid := (List.range 4).flatMap fun i => (List.range 4).map fun j => (i, j)

noncomputable def widePrm : Wid → WParam := fun w =>
  ⟨2, wideWs.filter fun r => r.1 ≠ r.2 ∧ (r.1 = w.1 ∨ r.2 = w.1), 1, 2, fun _ => [0, 1, 2, 3], fun _ => 1 / 2, fun _ => 0⟩

theorem mem_wideWs (w : Wid) : w ∈ wideWs ↔ w.1 < 4 ∧ w.2 < 4 := by
  obtain ⟨a, b⟩ := w
  simp [wideWs]

theorem wideOK : GridOK widePrm 4 2 1 2 wideWs where
  posK := by decide
  posN := by decide
  posC := by decide
  posM := by decide
  size := fun _ => rfl
  chunk := fun _ => rfl
  inflight := fun _ => rfl
  nodup := by decide
  mem := mem_wideWs
  regs_nodup := fun j _ => by
    have h : wideWs.Nodup := by decide
    simp only [widePrm]
    exact h.filter _
  regs := by
    rintro j hj r
    simp only [widePrm, List.mem_filter, mem_wideWs, decide_eq_true_eq]
    tauto

/-- The state `|000>`. -/
noncomputable def wideV : List ℂ := [1, 0, 0, 0, 0, 0, 0, 0]

noncomputable def wideSt : Wid → WSt := fun w =>
  if w.1 < 4 ∧ w.2 < 4 then ⟨⟨3, part 2 wideV w.1, [0, 0]⟩, .idle, 0⟩ else ⟨⟨0, [], []⟩, .closed, 0⟩

theorem wideStart (pm : MProg) : Distributed 4 2 3 wideV 1 2 (fun _ _ => 0) pm
    (netCfg pm wideSt (nbuf 1 2 (fun _ _ => 0) noMsg noMsg)) :=
  Distributed.of_ready (by norm_num) (by norm_num [wideV]) ⟨fun i hi j hj => by simp [wideSt, hi, hj], fun w hw => by
    simp only [wideSt, if_neg hw]⟩ ⟨fun _ _ _ => rfl, fun _ _ _ => rfl⟩ pm

example {t : List Pid} {c' : Cfg Pid NMsg NLoc} (h : exec (netAct widePrm) t
    (netCfg (sendReduceMeasure 3 2 [1] (1 / 2) wideWs) wideSt (nbuf 1 2 (fun _ _ => 0) noMsg noMsg)) = some c')
    (res : Option (Nat × ℝ)) : c'.loc none ≠ .mgr (.done (.ok res)) :=
  C66_beyond_never (prm := widePrm) wideOK (by constructor <;> simp) (by norm_num) (wideStart _) h res

/-- One worker with the state `(3/5) |00> + (4/5) |11>`. -/
noncomputable def lonePrm : Wid → WParam := fun _ => ⟨4, [], 1, 2, fun _ => [0], fun _ => 1 / 2, fun _ => 0⟩

theorem loneOK : GridOK lonePrm 1 4 1 2 [(0, 0)] where
  posK := by decide
  posN := by decide
  posC := by decide
  posM := by decide
  size := fun _ => rfl
  chunk := fun _ => rfl
  inflight := fun _ => rfl
  nodup := by decide
  mem := by
    rintro ⟨a, b⟩
    simp
  regs_nodup := fun j _ => by simp [lonePrm]
  regs := by
    rintro j hj ⟨a, b⟩
    simp only [lonePrm, List.not_mem_nil, false_iff]
    omega

noncomputable def loneSt : Wid → WSt := fun w =>
  if w.1 < 1 ∧ w.2 < 1 then ⟨⟨2, bellV, [0, 0, 0, 0]⟩, .idle, 0⟩ else ⟨⟨0, [], []⟩, .closed, 0⟩

theorem loneStart (pm : MProg) : Distributed 1 4 2 bellV 1 2 (fun _ _ => 0) pm
    (netCfg pm loneSt (nbuf 1 2 (fun _ _ => 0) noMsg noMsg)) :=
  Distributed.of_ready (by norm_num) (by norm_num [bellV]) ⟨fun i hi j hj => by
      have hi' : i = 0 := by omega
      have hj' : j = 0 := by omega
      subst hi' hj'
      simp [loneSt, part, bellV], fun w hw => by simp only [loneSt, if_neg hw]⟩ ⟨fun _ _ _ => rfl, fun _ _ _ => rfl⟩ pm

example : ∃ m p c', 0 < p ∧ AlwaysEnds (netAct lonePrm) (netCfg (sendReduceMeasure 2 4 [1] (1 / 2) [(0, 0)]) loneSt
    (nbuf 1 2 (fun _ _ => 0) noMsg noMsg)) c' ∧ c'.loc none = .mgr (.done (.ok (some (m, p)))) := by
  obtain ⟨m, p, s, c', -, -, h1, h2, h3, -⟩ := C66_one_worker_partial (prm := lonePrm) loneOK (n := 2) (indices := [1])
    (by constructor <;> simp) (by simp) (fun _ _ => rfl) (fun _ _ => by norm_num [lonePrm]) bell_norm
    (r := 1 / 2) (by norm_num) (loneStart _)
  exact ⟨m, p, c', h1, h2, h3⟩

end QIP.Props
