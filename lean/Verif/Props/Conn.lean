import Mathlib.Data.List.Induction
import Mathlib.Data.List.Nodup
import Verif.Spec.Conn
import Verif.Model.Worker

/-!
# C100: connections of different jobs
-/

namespace QIP.Props

open QIP QIP.Spec

variable {α β : Type} [DecidableEq α]

theorem dictGet_cons (e : α × β) (d : List (α × β)) (k : α) :
    dictGet (e :: d) k = if e.1 = k then some e.2 else dictGet d k := by
  unfold dictGet
  rw [List.find?_cons]
  by_cases h : e.1 = k <;> simp [h]

theorem dictGet_set (d : List (α × β)) (k k' : α) (v : β) :
    dictGet (dictSet d k v) k' = if k = k' then some v else dictGet d k' := by
  induction d with
  | nil => rw [dictSet, dictGet_cons]
  | cons e d ih =>
    rw [dictSet]
    by_cases h : e.1 = k
    · rw [if_pos h, dictGet_cons, dictGet_cons]
      by_cases h' : k = k'
      · simp [h']
      · rw [if_neg h', if_neg h', if_neg (by rw [h]; exact h')]
    · rw [if_neg h, dictGet_cons, dictGet_cons, ih]
      by_cases h' : k = k'
      · rw [if_pos h', if_pos h', if_neg (by rw [← h']; exact h)]
      · rw [if_neg h', if_neg h']

theorem dictGet_append (d : List (α × List β)) (k k' : α) (v : β) :
    dictGet (dictAppend d k v) k' = if k = k' then some ((dictGet d k).getD [] ++ [v]) else dictGet d k' :=
  dictGet_set d k k' _

theorem dictGet_filter (d : List (α × β)) (P : α → Bool) (k : α) :
    dictGet (d.filter fun e => P e.1) k = if P k then dictGet d k else none := by
  induction d with
  | nil => simp [dictGet]
  | cons e d ih =>
    rw [List.filter_cons, dictGet_cons]
    by_cases h : e.1 = k
    · rw [if_pos h]
      by_cases hp : P e.1
      · rw [if_pos hp, dictGet_cons, if_pos h, if_pos (by rw [← h]; exact hp)]
      · rw [if_neg hp, ih, if_neg (by rw [← h]; exact hp), if_neg (by rw [← h]; exact hp)]
    · rw [if_neg h]
      by_cases hp : P e.1
      · rw [if_pos hp, dictGet_cons, if_neg h, ih]
      · rw [if_neg hp, ih]

/-- What the dictionaries hold. -/
structure Holds (p : ConnPool) (job : Nat) (l : List (Ends × Nat)) : Prop where
  one : ∀ e, dictGet p.workers (job, e) = (l.reverse.find? fun c => decide (c.1 = e)).map (·.2)
  inp : ∀ r, (dictGet p.byInput (job, r)).getD [] = (l.filter fun c => decide (c.1.inp = r)).map fun c => (c.2, c.1.out)
  out : ∀ r, (dictGet p.byOutput (job, r)).getD [] = (l.filter fun c => decide (c.1.out = r)).map fun c => (c.2, c.1.inp)
  /-- no empty lists -/
  left : ∀ r, (dictGet p.byInput (job, r) = none ↔ ∀ c ∈ l, c.1.inp ≠ r) ∧ (dictGet p.byOutput (job, r) = none ↔ ∀ c ∈ l, c.1.out ≠ r)

theorem holds_add {p : ConnPool} {job : Nat} {l : List (Ends × Nat)} (h : Holds p job l) (j : Nat) (e : Ends) (s : Nat) :
    Holds (p.add j e s) job (if j = job then l ++ [(e, s)] else l) := by
  by_cases hj : j = job
  · subst hj
    rw [if_pos rfl]
    refine ⟨fun e' => ?_, fun r => ?_, fun r => ?_, fun r => ⟨?_, ?_⟩⟩
    · rw [ConnPool.add, dictGet_set, List.reverse_append, List.reverse_singleton, List.singleton_append, List.find?_cons]
      by_cases he : e = e'
      · simp [he]
      · rw [if_neg (by simpa using he)]
        simp [he, h.one]
    · rw [ConnPool.add, dictGet_append, List.filter_append, List.map_append, ← h.inp]
      by_cases he : e.inp = r
      · subst he
        simp
      · rw [if_neg (by simpa using he)]
        simp [he]
    · rw [ConnPool.add, dictGet_append, List.filter_append, List.map_append, ← h.out]
      by_cases he : e.out = r
      · subst he
        simp
      · rw [if_neg (by simpa using he)]
        simp [he]
    · rw [ConnPool.add, dictGet_append]
      by_cases he : e.inp = r
      · subst he
        simp only [if_true, List.mem_append, List.mem_singleton]
        constructor
        · intro hc
          cases hc
        · intro hc
          exact absurd rfl (hc (e, s) (.inr rfl))
      · rw [if_neg (by simpa using he), (h.left r).1]
        simp only [List.mem_append, List.mem_singleton]
        constructor
        · rintro H c (hc | rfl)
          · exact H c hc
          · exact he
        · exact fun H c hc => H c (.inl hc)
    · rw [ConnPool.add, dictGet_append]
      by_cases he : e.out = r
      · subst he
        simp only [if_true, List.mem_append, List.mem_singleton]
        constructor
        · intro hc
          cases hc
        · intro hc
          exact absurd rfl (hc (e, s) (.inr rfl))
      · rw [if_neg (by simpa using he), (h.left r).2]
        simp only [List.mem_append, List.mem_singleton]
        constructor
        · rintro H c (hc | rfl)
          · exact H c hc
          · exact he
        · exact fun H c hc => H c (.inl hc)
  · rw [if_neg hj]
    have hn : ∀ {γ : Type} (a b : γ), (j, a) ≠ (job, b) := fun a b hc => hj (by simpa using congrArg Prod.fst hc)
    refine ⟨fun e' => ?_, fun r => ?_, fun r => ?_, fun r => ?_⟩ <;>
      simp only [ConnPool.add, dictGet_set, dictGet_append, if_neg (hn _ _)]
    · exact h.one e'
    · exact h.inp r
    · exact h.out r
    · exact h.left r

theorem holds_close {p : ConnPool} {job : Nat} {l : List (Ends × Nat)} (h : Holds p job l) (j : Option Nat) :
    Holds (p.close j) job (if closes j job then [] else l) := by
  have h1 := fun e => dictGet_filter p.workers (fun k => ! closes j k.1) (job, e)
  have h2 := fun e => dictGet_filter p.byInput (fun k => ! closes j k.1) (job, e)
  have h3 := fun e => dictGet_filter p.byOutput (fun k => ! closes j k.1) (job, e)
  by_cases hc : closes j job
  · rw [if_pos hc]
    simp only [hc, Bool.not_true, Bool.false_eq_true, if_false] at h1 h2 h3
    refine ⟨fun e => ?_, fun r => ?_, fun r => ?_, fun r => ⟨?_, ?_⟩⟩ <;> simp only [ConnPool.close, h1, h2, h3] <;> simp
  · rw [if_neg hc]
    simp only [hc, Bool.not_false, if_true] at h1 h2 h3
    refine ⟨fun e => ?_, fun r => ?_, fun r => ?_, fun r => ?_⟩ <;> simp only [ConnPool.close, h1, h2, h3]
    · exact h.one e
    · exact h.inp r
    · exact h.out r
    · exact h.left r

theorem openConns_snoc (job : Nat) (es : List ConnEvent) (ev : ConnEvent) :
    openConns job (es ++ [ev]) = match ev with
      | .add j e s => if j = job then openConns job es ++ [(e, s)] else openConns job es
      | .close j => if closes j job then [] else openConns job es := by
  unfold openConns
  rw [List.reverse_append, List.reverse_singleton, List.singleton_append]
  rcases ev with ⟨j, e, s⟩ | ⟨_ | j⟩
  · rfl
  · rfl
  · simp [openSince, closes]

theorem connRun_snoc (es : List ConnEvent) (ev : ConnEvent) : connRun (es ++ [ev]) = match ev with
    | .add j e s => (connRun es).add j e s
    | .close j => (connRun es).close j := by
  unfold connRun
  rw [List.foldl_append]
  rfl

theorem connRun_holds (job : Nat) (es : List ConnEvent) : Holds (connRun es) job (openConns job es) := by
  induction es using List.reverseRecOn with
  | nil => refine ⟨?_, ?_, ?_, ?_⟩ <;> simp [connRun, ConnPool.init, openConns, openSince, dictGet]
  | append_singleton es ev ih =>
    rw [openConns_snoc, connRun_snoc]
    rcases ev with ⟨j, e, s⟩ | j
    · exact holds_add ih j e s
    · exact holds_close ih j

/-- C100: after every history of connections and closings of any jobs, a transfer of `job` uses exactly the connections made for
this job since it was last closed, in the order in which they were made: those with the given input range, with the given
output range, with the given input range and an output range starting below the threshold, and the last one with the given
pair of ranges. -/
theorem C100_connections (es : List ConnEvent) (job : Nat) :
    (∀ r, (connRun es).all job r true = ((openConns job es).filter fun c => decide (c.1.inp = r)).map (·.2)) ∧
    (∀ r, (connRun es).all job r false = ((openConns job es).filter fun c => decide (c.1.out = r)).map (·.2)) ∧
    (∀ r t, (connRun es).upTo job r t
      = ((openConns job es).filter fun c => decide (c.1.inp = r ∧ c.1.out.1 < t)).map (·.2)) ∧
    ∀ e, (connRun es).one job e = ((openConns job es).reverse.find? fun c => decide (c.1 = e)).map (·.2) := by
  have h := connRun_holds job es
  refine ⟨fun r => ?_, fun r => ?_, fun r t => ?_, h.one⟩
  · simp [ConnPool.all, h.inp]
  · simp [ConnPool.all, h.out]
  · have hi := h.inp r
    have : (connRun es).upTo job r t
        = (((dictGet (connRun es).byInput (job, r)).getD []).filter fun e => ! decide (e.2.1 ≥ t)).map (·.1) := by
      unfold ConnPool.upTo
      split <;> rename_i hd <;> simp [hd]
    rw [this, hi, List.filter_map, List.map_map, List.filter_filter]
    have : ∀ c : Ends × Nat, (((fun e : Nat × Range => ! decide (e.2.1 ≥ t)) ∘ fun c : Ends × Nat => (c.2, c.1.out)) c && decide (c.1.inp = r))
        = decide (c.1.inp = r ∧ c.1.out.1 < t) := by
      intro c
      rw [Bool.eq_iff_iff]
      simp [and_comm]
    simp only [this]
    rfl

/-- C100: what other jobs do makes no difference. -/
theorem C100_isolation (es : List ConnEvent) (job : Nat) :
    (∀ r b, (connRun es).all job r b = (connRun (es.filter (concerns job))).all job r b) ∧
    (∀ r t, (connRun es).upTo job r t = (connRun (es.filter (concerns job))).upTo job r t) ∧
    ∀ e, (connRun es).one job e = (connRun (es.filter (concerns job))).one job e := by
  have key : openConns job (es.filter (concerns job)) = openConns job es := by
    induction es using List.reverseRecOn with
    | nil => rfl
    | append_singleton es ev ih =>
      rw [List.filter_append, openConns_snoc]
      rcases ev with ⟨j, e, s⟩ | ⟨_ | j⟩
      · by_cases hj : j = job <;> simp [concerns, hj, openConns_snoc, ih]
      · have hf : [ConnEvent.close none].filter (concerns job) = [.close none] := rfl
        rw [hf, openConns_snoc]
        simp [closes]
      · by_cases hj : j = job <;> simp [concerns, hj, openConns_snoc, ih, closes]
  obtain ⟨a1, a2, a3, a4⟩ := C100_connections es job
  obtain ⟨b1, b2, b3, b4⟩ := C100_connections (es.filter (concerns job)) job
  rw [key] at b1 b2 b3 b4
  refine ⟨fun r b => ?_, fun r t => by rw [a3, b3], fun e => by rw [a4, b4]⟩
  rcases b with _ | _
  · rw [a2, b2]
  · rw [a1, b1]

/-! ## Closing -/

theorem dictGet_mem {d : List (α × β)} (hd : (d.map (·.1)).Nodup) {k : α} {v : β} : (k, v) ∈ d ↔ dictGet d k = some v := by
  induction d with
  | nil => simp [dictGet]
  | cons e d ih =>
    rw [List.map_cons, List.nodup_cons] at hd
    rw [dictGet_cons, List.mem_cons]
    by_cases h : e.1 = k
    · rw [if_pos h]
      constructor
      · rintro (rfl | hm)
        · rfl
        · exact absurd (List.mem_map_of_mem (f := (·.1)) hm) (by rw [← h]; exact hd.1)
      · intro he
        injection he with he
        exact .inl (by rw [← h, ← he])
    · rw [if_neg h, ← ih hd.2]
      constructor
      · rintro (rfl | hm)
        · exact absurd rfl h
        · exact hm
      · exact .inr

theorem dictSet_keys (d : List (α × β)) (k : α) (v : β) (hd : (d.map (·.1)).Nodup) :
    ((dictSet d k v).map (·.1)).Nodup ∧ ∀ x ∈ (dictSet d k v).map (·.1), x = k ∨ x ∈ d.map (·.1) := by
  induction d with
  | nil => simp [dictSet]
  | cons e d ih =>
    rw [List.map_cons, List.nodup_cons] at hd
    obtain ⟨i1, i2⟩ := ih hd.2
    rw [dictSet]
    by_cases h : e.1 = k
    · rw [if_pos h]
      subst h
      exact ⟨by simpa using hd, by simp⟩
    · rw [if_neg h]
      refine ⟨?_, ?_⟩
      · rw [List.map_cons, List.nodup_cons]
        exact ⟨fun hc => (i2 _ hc).elim h hd.1, i1⟩
      · intro x hx
        rw [List.map_cons, List.mem_cons] at hx
        rcases hx with rfl | hx
        · exact .inr (by simp)
        · rcases i2 x hx with h' | h'
          · exact .inl h'
          · exact .inr (by rw [List.map_cons, List.mem_cons]; exact .inr h')

theorem connRun_keys (es : List ConnEvent) : ((connRun es).workers.map (·.1)).Nodup := by
  induction es using List.reverseRecOn with
  | nil => exact List.nodup_nil
  | append_singleton es ev ih =>
    rw [connRun_snoc]
    rcases ev with ⟨j, e, s⟩ | j
    · exact (dictSet_keys _ _ _ ih).1
    · exact ih.sublist (List.filter_sublist.map _)

/-- C100: when a job is closed on a worker, the sockets of all its connections are closed, and no others; then no transfer finds a
connection for it. -/
theorem C100_closed (es : List ConnEvent) (job : Nat) (hd : ((openConns job es).map (·.1)).Nodup) :
    (∀ s, s ∈ (connRun (es ++ [.close (some job)])).closed ↔ s ∈ (connRun es).closed ∨ s ∈ (openConns job es).map (·.2)) ∧
    openConns job (es ++ [.close (some job)]) = [] ∧
    ∀ j ≠ job, openConns j (es ++ [.close (some job)]) = openConns j es := by
  refine ⟨fun s => ?_, ?_, fun j hj => ?_⟩
  · rw [connRun_snoc]
    simp only [ConnPool.close, List.mem_append]
    refine or_congr Iff.rfl ?_
    have h := (connRun_holds job es).one
    have hk := connRun_keys es
    have key : ∀ e s, dictGet (connRun es).workers (job, e) = some s ↔ (e, s) ∈ openConns job es := by
      intro e s
      rw [h e]
      have hr : ((openConns job es).reverse.map (·.1)).Nodup := by rw [List.map_reverse]; exact List.nodup_reverse.2 hd
      rw [← List.mem_reverse]
      exact (dictGet_mem hr).symm
    constructor
    · intro hs
      obtain ⟨⟨⟨j, e⟩, s'⟩, hm, rfl⟩ := List.mem_map.1 hs
      obtain ⟨hm, hc⟩ := List.mem_filter.1 hm
      have hj : job = j := by simpa [closes] using hc
      subst hj
      exact List.mem_map.2 ⟨(e, s'), (key e s').1 ((dictGet_mem hk).1 hm), rfl⟩
    · intro hs
      obtain ⟨⟨e, s'⟩, hm, rfl⟩ := List.mem_map.1 hs
      exact List.mem_map.2 ⟨((job, e), s'), List.mem_filter.2 ⟨(dictGet_mem hk).2 ((key e s').2 hm), by simp [closes]⟩, rfl⟩
  · simp [openConns_snoc, closes]
  · simp [openConns_snoc, closes, Ne.symm hj]

/-! ## The transfers of a synchronisation -/

/-- The range with this number. -/
def rangeNo (size i : Nat) : Range := (i * size, (i + 1) * size)

/-- The ranges of a worker. -/
def endsOf (size : Nat) (r : Wid) : Ends := ⟨rangeNo size r.1, rangeNo size r.2⟩

theorem rangeNo_inj {size : Nat} (h : 0 < size) {i j : Nat} : rangeNo size i = rangeNo size j ↔ i = j := by
  constructor
  · intro he
    exact Nat.eq_of_mul_eq_mul_right h (congrArg Prod.fst he)
  · rintro rfl; rfl

/-- The transfer over the socket of the partner. -/
def taskTransfer (sock : Wid → Nat) : Task → Transfer
  | .sendTo q => .send (sock q)
  | .recvFrom q ow => .recv (sock q) ow

/-- C100: during a synchronisation of a job every worker of the grid transfers over the sockets of the partners named in
`syncTasks` (the model of C61 to C66), in this order, whatever the worker has done and is doing for other jobs: on a diagonal worker
the connections that have arrived for this job, on the others those made to the two diagonal workers. -/
theorem C100_sync {size : Nat} (hsize : 0 < size) {prm : WParam} (hp : prm.size = size) (w : Wid) (sock : Wid → Nat) (job : Nat)
    (es : List ConnEvent)
    (hdiag : w.1 = w.2 → openConns job es = prm.regs.map fun r => (endsOf size r, sock r))
    (hoff : w.1 ≠ w.2 → (openConns job es).Perm [(endsOf size (w.1, w.1), sock (w.1, w.1)), (endsOf size (w.2, w.2), sock (w.2, w.2))])
    (upTo : Nat) (d : Bool) :
    (connRun es).sync job (rangeNo size w.1) (rangeNo size w.2) upTo d
      = (syncTasks prm w upTo d).map (taskTransfer sock) := by
  obtain ⟨c1, c2, c3, c4⟩ := C100_connections es job
  unfold ConnPool.sync syncTasks
  have hiff : ((rangeNo size w.1).1 = (rangeNo size w.2).1 ∧ (rangeNo size w.1).2 = (rangeNo size w.2).2) ↔ w.1 = w.2 := by
    refine ⟨fun h => Nat.eq_of_mul_eq_mul_right hsize h.1, fun h => ?_⟩
    rw [h]
    exact ⟨rfl, rfl⟩
  by_cases hw : w.1 = w.2
  · rw [if_pos (hiff.2 hw), if_pos hw, c1, c2, c3, hdiag hw, List.map_append]
    have f1 : ∀ i, ((prm.regs.map fun r => (endsOf size r, sock r)).filter fun c => decide (c.1.out = rangeNo size i)).map (·.2)
        = (prm.regs.filter fun r => decide (r.2 = i)).map sock := by
      intro i
      rw [List.filter_map, List.map_map]
      congr 1
      refine List.filter_congr fun r _ => ?_
      simp [endsOf, rangeNo_inj hsize]
    have f2 : ∀ i, ((prm.regs.map fun r => (endsOf size r, sock r)).filter fun c => decide (c.1.inp = rangeNo size i)).map (·.2)
        = (prm.regs.filter fun r => decide (r.1 = i)).map sock := by
      intro i
      rw [List.filter_map, List.map_map]
      congr 1
      refine List.filter_congr fun r _ => ?_
      simp [endsOf, rangeNo_inj hsize]
    have f3 : ∀ i, ((prm.regs.map fun r => (endsOf size r, sock r)).filter fun c =>
          decide (c.1.inp = rangeNo size i ∧ c.1.out.1 < upTo)).map (·.2)
        = ((prm.regs.filter fun r => decide (r.1 = i)).filter fun r => decide (r.2 * prm.size < upTo)).map sock := by
      intro i
      rw [List.filter_map, List.map_map, List.filter_filter]
      congr 1
      refine List.filter_congr fun r _ => ?_
      rw [Bool.eq_iff_iff]
      have h1 : (rangeNo size r.2).1 = r.2 * size := rfl
      simp [endsOf, rangeNo_inj hsize, hp, h1, and_comm]
    rw [f1, f2, f3]
    congr 1
    · cases d <;> simp [taskTransfer, Function.comp_def]
    · by_cases hu : upTo ≠ 0
      · rw [if_pos hu, if_pos hu, List.map_map, List.map_map]
        rfl
      · rw [if_neg hu, if_neg hu, List.map_map, List.map_map]
        rfl
  · rw [if_neg (fun h => hw (hiff.1 h)), if_neg hw, c4, c4, List.map_append]
    have hp' := hoff hw
    have hends : endsOf size (w.1, w.1) ≠ endsOf size (w.2, w.2) := fun h =>
      hw ((rangeNo_inj hsize).1 (congrArg Ends.inp h))
    have hnd : ((openConns job es).reverse.map (·.1)).Nodup := by
      rw [List.map_reverse, List.nodup_reverse]
      exact (hp'.map _).nodup_iff.2 (by simpa using hends)
    have hone : ∀ i, i = w.1 ∨ i = w.2 →
        ((openConns job es).reverse.find? fun c => decide (c.1 = ⟨rangeNo size i, rangeNo size i⟩)).map (·.2) = some (sock (i, i)) := by
      intro i hi
      refine (dictGet_mem (k := (⟨rangeNo size i, rangeNo size i⟩ : Ends)) hnd).1 ?_
      rw [List.mem_reverse, hp'.mem_iff]
      rcases hi with rfl | rfl
      · exact List.mem_cons_self
      · exact List.mem_cons_of_mem _ List.mem_cons_self
    rw [hone _ (.inl rfl), hone _ (.inr rfl)]
    congr 1
    · cases d <;> rfl
    · by_cases hc : upTo ≠ 0 ∧ ¬ (upTo ≥ (w.1 + 1) * prm.size ∧ upTo ≥ (w.2 + 1) * prm.size)
      · rw [if_pos hc, if_pos (by rw [hp] at hc; exact hc)]
        rfl
      · rw [if_neg hc, if_neg (by rw [hp] at hc; exact hc)]
        rfl

/-- Two jobs with the same ranges, the first closed while the second runs: the second transfers over its own connections. -/
example : (connRun [.add 1 (endsOf 2 (1, 0)) 10, .add 2 (endsOf 2 (1, 0)) 20, .add 1 (endsOf 2 (0, 1)) 11, .close (some 1),
    .add 2 (endsOf 2 (0, 1)) 21]).sync 2 (rangeNo 2 0) (rangeNo 2 0) 0 false = [.recv 20 false, .send 21] := by
  rw [C100_sync (size := 2) (by norm_num) (prm := ⟨2, [(1, 0), (0, 1)], 1, 1, fun _ => [], fun _ => 0, fun _ => 0⟩) rfl (0, 0)
    (fun r => if r = (1, 0) then 20 else 21) 2 _ (fun _ => by decide) (fun h => absurd rfl h)]
  decide

end QIP.Props
