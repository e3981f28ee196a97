import Verif.Model.Client
import Verif.Props.Session

/-!
# C117: the calls of a client end
-/

namespace QIP.Props

open QIP

/-- A call that needs the manager. -/
def _root_.QIP.CCall.asks : CCall → Prop
  | .kron _ => True
  | .measure _ => True
  | .unsupported => False
  | .close _ => False

/-- The manager can go on after this call: it is no closing, and if it asks for an operation then that one succeeds (and a
measurement has a result). -/
def _root_.QIP.CCall.goesOn : CCall → Prop
  | .kron res => ∃ t d, res = .ok t d
  | .measure res => ∃ t d, res = .ok t (some d)
  | .unsupported => True
  | .close _ => False

/-- What a call should give. -/
def _root_.QIP.CCall.due : CCall → CallRes
  | .measure (.ok _ d) => .returned d
  | .unsupported => .typeError
  | _ => .returned none

/-- What an operation gives that does not succeed, or comes too late. -/
def _root_.QIP.CallRes.raises : CallRes → Prop
  | .failed => True
  | .lost => True
  | _ => False

/-- Nothing can be got from this connection any more. -/
def _root_.QIP.CConn.dead (c : CConn) : Prop := c.opened = false ∨ (c.inbox = [] ∧ c.eof = true)

theorem clientClose_dead {c : CConn} (hc : c.dead) (ok : Bool) : (clientClose ok c).2.dead ∧ (clientClose ok c).1 ≠ .waits := by
  unfold clientClose
  split
  · exact ⟨.inl rfl, by simp⟩
  · exact ⟨hc, by simp⟩

theorem clientCall_dead {c : CConn} (hc : c.dead) (ok ok' : Bool) (call : CCall) :
    (clientCall ok ok' call c).2.dead ∧ (clientCall ok ok' call c).1 ≠ .waits ∧
      (call.asks → (clientCall ok ok' call c).1.raises) ∧ (call = .unsupported → (clientCall ok ok' call c).1 = .typeError) := by
  have hs : c.sends ok = true → c.inbox = [] ∧ c.eof = true := by
    intro h
    rcases hc with h1 | h1
    · simp [CConn.sends, h1] at h
    · exact h1
  cases call with
  | unsupported => exact ⟨hc, by simp [clientCall], by simp [CCall.asks], fun _ => rfl⟩
  | close sent => exact ⟨(clientClose_dead hc ok).1, (clientClose_dead hc ok).2, by simp [CCall.asks], by simp⟩
  | kron res =>
    simp only [clientCall]
    split
    · rename_i h
      obtain ⟨h1, h2⟩ := hs h
      simp only [h1, h2, if_true]
      exact ⟨hc, by simp, fun _ => trivial, by simp⟩
    · exact ⟨hc, by simp, fun _ => trivial, by simp⟩
  | measure res =>
    simp only [clientCall]
    split
    · rename_i h
      obtain ⟨h1, h2⟩ := hs h
      simp only [h1, h2, if_true]
      exact ⟨hc, by simp, fun _ => trivial, by simp⟩
    · exact ⟨hc, by simp, fun _ => trivial, by simp⟩

theorem clientRun_cons {ok ok' : Nat → Bool} {call : CCall} {calls : List CCall} {c : CConn}
    (h : (clientCall (ok 0) (ok' 0) call c).1 ≠ .waits) : clientRun ok ok' (call :: calls) c
      = (clientCall (ok 0) (ok' 0) call c).1
        :: clientRun (fun k => ok (k + 1)) (fun k => ok' (k + 1)) calls (clientCall (ok 0) (ok' 0) call c).2 := by
  rw [clientRun]
  split
  · rename_i h1
    rw [h1] at h
    exact absurd rfl h
  · rename_i h1
    rw [h1]

theorem clientRun_dead {c : CConn} (hc : c.dead) (ok ok' : Nat → Bool) (calls : List CCall) :
    List.Forall₂ (fun call r => r ≠ .waits ∧ (call.asks → CallRes.raises r) ∧ (call = .unsupported → r = .typeError)) calls
      (clientRun ok ok' calls c) := by
  induction calls generalizing c ok ok' with
  | nil => exact .nil
  | cons call calls ih =>
    obtain ⟨h1, h2, h3, h4⟩ := clientCall_dead hc (ok 0) (ok' 0) call
    rw [clientRun_cons h2]
    exact .cons ⟨h2, h3, h4⟩ (ih h1 ..)

/-- What the results of calls should be. -/
inductive Answered : List CCall → List CallRes → Prop where
  /-- no calls -/
  | nil : Answered [] []
  /-- a call that succeeds gives its own result -/
  | next {call : CCall} {calls : List CCall} {rs : List CallRes} (h : call.goesOn) (hr : Answered calls rs) :
    Answered (call :: calls) (call.due :: rs)
  /-- an operation that fails raises, and so do all operations after it; `close` returns or raises -/
  | fails {call : CCall} {calls : List CCall} {r : CallRes} {rs : List CallRes} (ha : call.asks) (h : ¬ call.goesOn) (hr : r.raises)
    (hrs : List.Forall₂ (fun call r => r ≠ CallRes.waits ∧ (CCall.asks call → CallRes.raises r) ∧ (call = .unsupported → r = .typeError)) calls rs) :
    Answered (call :: calls) (r :: rs)
  /-- closing returns, and all operations after it raise -/
  | closes {sent : Bool} {calls : List CCall} {rs : List CallRes}
    (hrs : List.Forall₂ (fun call r => r ≠ CallRes.waits ∧ (CCall.asks call → CallRes.raises r) ∧ (call = .unsupported → r = .typeError)) calls rs) :
    Answered (.close sent :: calls) (.returned none :: rs)

/-- No measurement succeeds without a result (`send_measure`, `send_measure_top` and `send_reduce_measure` return one,
manager.py:204-211). -/
def HasResults (calls : List CCall) : Prop := ∀ call ∈ calls, ∀ t, call ≠ .measure (.ok t none)

theorem sends_of {c : CConn} (ho : c.opened = true) (ok : Bool) (hi : c.inbox ≠ []) : c.sends ok = true := by
  simp [CConn.sends, ho, hi]

theorem kron_confirm {c : CConn} (ho : c.opened = true) (ok ok' : Bool) (t : Option Nat) (d : Option (Nat × ℝ)) :
    clientCall ok ok' (.kron (.ok t d)) { c with inbox := .confirm d :: c.inbox } = (.returned none, c) := by
  have h : CConn.sends { c with inbox := .confirm d :: c.inbox } ok = true := by simp [CConn.sends, ho]
  simp only [clientCall, h, if_true]

theorem measure_confirm {c : CConn} (ho : c.opened = true) (ok ok' : Bool) (t : Option Nat) (d : Option (Nat × ℝ)) :
    clientCall ok ok' (.measure (.ok t d)) { c with inbox := .confirm d :: c.inbox } = (.returned (some (d.getD (0, 0))), c) := by
  have h : CConn.sends { c with inbox := .confirm d :: c.inbox } ok = true := by simp [CConn.sends, ho]
  simp only [clientCall, h, if_true]

theorem serveLoop_confirm {h : Nat} {told : Bool} {t : Option Nat} {d : Option (Nat × ℝ)} {reqs : List Request} {s : MState} {later : Bool} :
    clientConn later (serveLoop h told true (.op (.ok t d) true :: reqs) s)
      = { clientConn later (serveLoop h told true reqs (afterOp h t s)) with
          inbox := .confirm d :: (clientConn later (serveLoop h told true reqs (afterOp h t s))).inbox } := rfl

theorem serveLoop_error {h : Nat} {told : Bool} {b : Bool} {reqs : List Request} {s : MState} {later : Bool} (htl : told = true ∨ later = true) :
    clientConn later (serveLoop h told true (.op .ioError b :: reqs) s) = ⟨true, [.error], true⟩ := by
  cases told <;> cases later <;> simp_all [clientConn, serveLoop, sessionFails, sessionEnd]

theorem serveLoop_raises {h : Nat} {told : Bool} {b : Bool} {e : PyErr} {reqs : List Request} {s : MState} {later : Bool}
    (htl : told = true ∨ later = true) : clientConn later (serveLoop h told true (.op (.raises e) b :: reqs) s) = ⟨true, [], true⟩ := by
  cases told <;> cases later <;> simp_all [clientConn, serveLoop, sessionEnd]

theorem clientRun_served {h : Nat} {told later : Bool} (htl : told = true ∨ later = true) {calls : List CCall} (hm : HasResults calls)
    (ok ok' : Nat → Bool) (s : MState) :
    Answered calls (clientRun ok ok' calls (clientConn later (serveLoop h told true (clientRequests calls) s))) := by
  induction calls generalizing s ok ok' with
  | nil => exact .nil
  | cons call calls ih =>
    have hm' : HasResults calls := fun c hc => hm c (List.mem_cons_of_mem _ hc)
    cases call with
    | unsupported =>
      rw [clientRun_cons (by simp [clientCall])]
      exact .next trivial (ih hm' ..)
    | close sent =>
      have : (clientConn later (serveLoop h told true (clientRequests (.close sent :: calls)) s)).sends (ok 0) = true := by
        apply sends_of rfl
        cases sent <;> cases told <;> simp [clientConn, clientRequests, serveLoop, sessionEnd, sessionFails]
      have hc : clientCall (ok 0) (ok' 0) (.close sent) (clientConn later (serveLoop h told true (clientRequests (.close sent :: calls)) s))
          = (.returned none, { clientConn later (serveLoop h told true (clientRequests (.close sent :: calls)) s) with opened := false }) := by
        simp only [clientCall, clientClose, this, if_true]
      rw [clientRun_cons (by rw [hc]; simp), hc]
      exact .closes (clientRun_dead (.inl rfl) ..)
    | kron res =>
      cases res with
      | ok t d =>
        simp only [clientRequests]
        rw [serveLoop_confirm]
        have hc := fun (c : CConn) (ho : c.opened = true) => kron_confirm ho (ok 0) (ok' 0) t d
        rw [clientRun_cons (by rw [hc _ rfl]; simp), hc _ rfl]
        exact .next ⟨t, d, rfl⟩ (ih hm' ..)
      | ioError =>
        simp only [clientRequests]
        rw [serveLoop_error htl]
        have hc : (clientCall (ok 0) (ok' 0) (.kron .ioError) ⟨true, [.error], true⟩).1.raises ∧
            (clientCall (ok 0) (ok' 0) (.kron .ioError) ⟨true, [.error], true⟩).2.dead := by
          cases ok 0 <;> cases ok' 0 <;> simp [clientCall, CConn.sends, clientClose, CallRes.raises, CConn.dead]
        rw [clientRun_cons (by intro h1; rw [h1] at hc; exact hc.1)]
        exact .fails trivial (by simp [CCall.goesOn]) hc.1 (clientRun_dead hc.2 ..)
      | raises e =>
        simp only [clientRequests]
        rw [serveLoop_raises htl]
        have hc := clientCall_dead (c := ⟨true, [], true⟩) (.inr ⟨rfl, rfl⟩) (ok 0) (ok' 0) (.kron (.raises e))
        rw [clientRun_cons hc.2.1]
        exact .fails trivial (by simp [CCall.goesOn]) (hc.2.2.1 trivial) (clientRun_dead hc.1 ..)
    | measure res =>
      cases res with
      | ok t d =>
        simp only [clientRequests]
        rw [serveLoop_confirm]
        have hc := fun (c : CConn) (ho : c.opened = true) => measure_confirm ho (ok 0) (ok' 0) t d
        rw [clientRun_cons (by rw [hc _ rfl]; simp), hc _ rfl]
        cases d with
        | none => exact absurd rfl (hm _ (by simp) t)
        | some d => exact .next ⟨t, d, rfl⟩ (ih hm' ..)
      | ioError =>
        simp only [clientRequests]
        rw [serveLoop_error htl]
        have hc : (clientCall (ok 0) (ok' 0) (.measure .ioError) ⟨true, [.error], true⟩).1.raises ∧
            (clientCall (ok 0) (ok' 0) (.measure .ioError) ⟨true, [.error], true⟩).2.dead := by
          cases ok 0 <;> cases ok' 0 <;> simp [clientCall, CConn.sends, CallRes.raises, CConn.dead]
        rw [clientRun_cons (by intro h1; rw [h1] at hc; exact hc.1)]
        exact .fails trivial (by simp [CCall.goesOn]) hc.1 (clientRun_dead hc.2 ..)
      | raises e =>
        simp only [clientRequests]
        rw [serveLoop_raises htl]
        have hc := clientCall_dead (c := ⟨true, [], true⟩) (.inr ⟨rfl, rfl⟩) (ok 0) (ok' 0) (.measure (.raises e))
        rw [clientRun_cons hc.2.1]
        exact .fails trivial (by simp [CCall.goesOn]) (hc.2.2.1 trivial) (clientRun_dead hc.1 ..)

/-- C117 (partial: enough workers; the workers can be told of the end of the session, or another connection is made later): the job is
set up, every call ends, those before a failure with the results of their own requests, and no operation after a failure or the closing
of the connection seems to succeed. -/
theorem C117_calls_partial {s : MState} {n h : Nat} (hen : ∃ S, List.Subperm S s.free ∧ Enough n S) {told later : Bool}
    (htl : told = true ∨ later = true) {calls : List CCall} (hm : HasResults calls) (ok ok' : Nat → Bool) :
    ∃ rs, clientSession ok ok' later told s n h .ok calls = (.returned none, rs) ∧ Answered calls rs := by
  obtain ⟨s', hs⟩ := serveClient_good (h := h) hen told true (clientRequests calls)
  refine ⟨clientRun ok ok' calls (clientConn later (serveLoop h told true (clientRequests calls) s')), ?_, clientRun_served htl hm ..⟩
  simp only [clientSession, hs, clientConn]

/-- C117 is false if the free workers do not suffice: `make_state` waits until somebody else connects to the manager, for ever if
nobody does. -/
theorem C117_refused_false {s : MState} {n h : Nat} (hen : ¬ ∃ S, List.Subperm S s.free ∧ Enough n S) (alloc : AllocEnd)
    (told later : Bool) (calls : List CCall) (ok ok' : Nat → Bool) :
    clientSession ok ok' later told s n h alloc calls = (if later then .lost else .waits, []) := by
  simp only [clientSession, C101_refused_silently hen, clientConn]
  cases later <;> rfl

/-- C117 if the setup fails while the workers are told of the job: a ValueError reaches the caller; after another exception `make_state`
waits until somebody else connects to the manager, for ever if nobody does. -/
theorem C117_failed_setup {s : MState} {n h : Nat} (hen : ∃ S, List.Subperm S s.free ∧ Enough n S) (told later : Bool) (calls : List CCall)
    (ok ok' : Nat → Bool) : clientSession ok ok' later told s n h .valueError calls = (.failed, []) ∧
      clientSession ok ok' later told s n h .raises calls = (if later then .lost else .waits, []) := by
  obtain ⟨⟨un, rest, wn⟩, hd⟩ := (C59_draw_iff n s.free).2 hen
  obtain ⟨placed, hp, -⟩ := C60_tiles hd
  refine ⟨?_, ?_⟩
  · simp only [clientSession, clientConn, serveClient, hd, hp, if_true]
  · simp only [clientSession, clientConn, serveClient, hd]
    cases later <;> rfl

/-- Calls before a failure, and what is left of the session. -/
theorem clientRun_good {h : Nat} {told later : Bool} {pre : List CCall} (hpre : ∀ call ∈ pre, call.goesOn) (calls : List CCall)
    (ok ok' : Nat → Bool) (s : MState) : ∃ s',
    clientRun ok ok' (pre ++ calls) (clientConn later (serveLoop h told true (clientRequests (pre ++ calls)) s))
      = pre.map CCall.due ++ clientRun (fun k => ok (k + pre.length)) (fun k => ok' (k + pre.length)) calls
          (clientConn later (serveLoop h told true (clientRequests calls) s')) := by
  induction pre generalizing s ok ok' with
  | nil => exact ⟨s, rfl⟩
  | cons call pre ih =>
    have hpre' : ∀ call ∈ pre, call.goesOn := fun c hc => hpre c (List.mem_cons_of_mem _ hc)
    have hcall := hpre call (by simp)
    cases call with
    | close sent => exact absurd hcall id
    | unsupported =>
      obtain ⟨s', hs⟩ := ih hpre' (fun k => ok (k + 1)) (fun k => ok' (k + 1)) s
      refine ⟨s', ?_⟩
      rw [List.cons_append, clientRun_cons (by simp [clientCall])]
      simp only [clientRequests, clientCall, hs, List.map_cons, CCall.due, List.cons_append, List.length_cons, Nat.add_assoc,
        Nat.add_comm 1]
    | kron res =>
      obtain ⟨t, d, rfl⟩ := hcall
      obtain ⟨s', hs⟩ := ih hpre' (fun k => ok (k + 1)) (fun k => ok' (k + 1)) (afterOp h t s)
      refine ⟨s', ?_⟩
      rw [List.cons_append]
      simp only [clientRequests]
      rw [serveLoop_confirm]
      have hc := fun (c : CConn) (ho : c.opened = true) => kron_confirm ho (ok 0) (ok' 0) t d
      rw [clientRun_cons (by rw [hc _ rfl]; simp), hc _ rfl]
      simp only [hs, List.map_cons, CCall.due, List.cons_append, List.length_cons, Nat.add_assoc, Nat.add_comm 1]
    | measure res =>
      obtain ⟨t, d, rfl⟩ := hcall
      obtain ⟨s', hs⟩ := ih hpre' (fun k => ok (k + 1)) (fun k => ok' (k + 1)) (afterOp h t s)
      refine ⟨s', ?_⟩
      rw [List.cons_append]
      simp only [clientRequests]
      rw [serveLoop_confirm]
      have hc := fun (c : CConn) (ho : c.opened = true) => measure_confirm ho (ok 0) (ok' 0) t (some d)
      rw [clientRun_cons (by rw [hc _ rfl]; simp), hc _ rfl]
      simp only [hs, Option.getD_some, List.map_cons, CCall.due, List.cons_append, List.length_cons, Nat.add_assoc, Nat.add_comm 1]

/-- C117 is false if a worker cannot be told of the end of the session and nobody else connects: an operation that raises something
else than a lost connection never ends for the client; a measurement that fails because a connection is lost raises, but the
operation after it never ends. -/
theorem C117_untold_false {s : MState} {n h : Nat} (hen : ∃ S, List.Subperm S s.free ∧ Enough n S) {pre : List CCall}
    (hpre : ∀ call ∈ pre, call.goesOn) (post : List CCall) (ok ok' : Nat → Bool) :
    (∀ e call, call = .kron (.raises e) ∨ call = .measure (.raises e) →
      clientSession ok ok' false false s n h .ok (pre ++ call :: post) = (.returned none, pre.map CCall.due ++ [.waits])) ∧
    ∀ call, call.asks →
      clientSession ok ok' false false s n h .ok (pre ++ .measure .ioError :: call :: post)
        = (.returned none, pre.map CCall.due ++ [.failed, .waits]) := by
  refine ⟨?_, ?_⟩
  · intro e call hcall
    obtain ⟨s', hs⟩ := serveClient_good (h := h) hen false true (clientRequests (pre ++ call :: post))
    obtain ⟨s2, h2⟩ := clientRun_good (h := h) (told := false) (later := false) hpre (call :: post) ok ok' s'
    have : clientSession ok ok' false false s n h .ok (pre ++ call :: post) = (.returned none,
        clientRun ok ok' (pre ++ call :: post) (clientConn false (serveLoop h false true (clientRequests (pre ++ call :: post)) s'))) := by
      simp only [clientSession, hs, clientConn]
    rw [this, h2]
    rcases hcall with rfl | rfl <;>
      simp [clientRequests, clientRun, serveLoop, sessionEnd, clientConn, clientCall, CConn.sends]
  · intro call hcall
    obtain ⟨s', hs⟩ := serveClient_good (h := h) hen false true (clientRequests (pre ++ .measure .ioError :: call :: post))
    obtain ⟨s2, h2⟩ := clientRun_good (h := h) (told := false) (later := false) hpre (.measure .ioError :: call :: post) ok ok' s'
    have : clientSession ok ok' false false s n h .ok (pre ++ .measure .ioError :: call :: post) = (.returned none,
        clientRun ok ok' (pre ++ .measure .ioError :: call :: post)
          (clientConn false (serveLoop h false true (clientRequests (pre ++ .measure .ioError :: call :: post)) s'))) := by
      simp only [clientSession, hs, clientConn]
    rw [this, h2]
    cases call <;> first | exact absurd hcall id |
      simp [clientRequests, clientRun, serveLoop, sessionEnd, sessionFails, clientConn, clientCall, CConn.sends]

/-- C117 is false of `close`: after a failed `kronselect_dot`, whose own closing of the connection succeeded, and after a first `close`, it
raises. -/
theorem C117_close_false {s : MState} {n h : Nat} (hen : ∃ S, List.Subperm S s.free ∧ Enough n S) {told later : Bool} {pre : List CCall}
    (hpre : ∀ call ∈ pre, call.goesOn) (b : Bool) (post : List CCall) {ok ok' : Nat → Bool} :
    (ok' pre.length = true → ∃ rs, clientSession ok ok' later told s n h .ok (pre ++ .kron .ioError :: .close b :: post)
      = (.returned none, pre.map CCall.due ++ .failed :: .lost :: rs)) ∧
    ∀ b', ∃ rs, clientSession ok ok' later told s n h .ok (pre ++ .close b' :: .close b :: post)
      = (.returned none, pre.map CCall.due ++ .returned none :: .lost :: rs) := by
  have key : ∀ calls, ∃ s', clientSession ok ok' later told s n h .ok (pre ++ calls) = (.returned none,
      pre.map CCall.due ++ clientRun (fun k => ok (k + pre.length)) (fun k => ok' (k + pre.length)) calls
        (clientConn later (serveLoop h told true (clientRequests calls) s'))) := by
    intro calls
    obtain ⟨s', hs⟩ := serveClient_good (h := h) hen told true (clientRequests (pre ++ calls))
    obtain ⟨s2, h2⟩ := clientRun_good (h := h) (told := told) (later := later) hpre calls ok ok' s'
    refine ⟨s2, ?_⟩
    rw [← h2]
    simp only [clientSession, hs, clientConn]
  refine ⟨fun hok => ?_, fun b' => ?_⟩
  · obtain ⟨s', h1⟩ := key (.kron .ioError :: .close b :: post)
    rw [h1]
    cases told <;>
      simp [clientRequests, clientRun, serveLoop, sessionEnd, sessionFails, clientConn, clientCall, clientClose, CConn.sends, hok]
  · obtain ⟨s', h1⟩ := key (.close b' :: .close b :: post)
    rw [h1]
    cases told <;> cases b' <;>
      simp [clientRequests, clientRun, serveLoop, sessionEnd, sessionFails, clientConn, clientCall, clientClose, CConn.sends]

/-- C117: calls of unsupported methods raise TypeError and change nothing: the other calls give what they would give without them. -/
theorem C117_unsupported (ok ok' : Bool) (c : CConn) (pre post : List CCall) :
    clientCall ok ok' .unsupported c = (.typeError, c) ∧ clientRequests (pre ++ .unsupported :: post) = clientRequests (pre ++ post) := by
  refine ⟨rfl, ?_⟩
  induction pre with
  | nil => rfl
  | cons call pre ih => cases call <;> simp [clientRequests, ih]

/-- A manager with two free workers of 3 and 2 qubits. -/
def twoWorkers : MState := ⟨[⟨0, 3⟩, ⟨1, 2⟩], [⟨0, 3⟩, ⟨1, 2⟩], fun _ => [], []⟩

theorem twoWorkers_enough : ∃ S, List.Subperm S twoWorkers.free ∧ Enough 2 S :=
  ⟨[⟨0, 3⟩], (List.singleton_sublist.2 (by simp [twoWorkers])).subperm, by simp, by simp⟩

example (calls : List CCall) (ok ok' : Nat → Bool) : clientSession ok ok' false true twoWorkers 2 7 .valueError calls = (.failed, []) :=
  (C117_failed_setup twoWorkers_enough true false calls ok ok').1

/-- A gate, a function, a measurement, a measurement that fails, and calls after that. -/
example (ok ok' : Nat → Bool) : ∃ rs, clientSession ok ok' false true twoWorkers 2 7 .ok
      [.kron (.ok none none), .unsupported, .measure (.ok none (some (1, 1 / 2))), .measure (.raises .exception), .measure .ioError, .close true]
      = (.returned none, rs) ∧ ∃ r1 r2 r3, rs = [.returned none, .typeError, .returned (some (1, 1 / 2)), r1, r2, r3] ∧ r1.raises ∧ r2.raises ∧ r3 ≠ .waits := by
  obtain ⟨rs, h1, h2⟩ := C117_calls_partial (h := 7) twoWorkers_enough (told := true) (later := false) (.inl rfl)
    (calls := [.kron (.ok none none), .unsupported, .measure (.ok none (some (1, 1 / 2))), .measure (.raises .exception), .measure .ioError,
      .close true]) (by simp [HasResults]) ok ok'
  refine ⟨rs, h1, ?_⟩
  cases h2 with
  | fails _ h => exact absurd ⟨_, _, rfl⟩ h
  | next _ h2 =>
  cases h2 with
  | fails h => exact absurd h id
  | next _ h2 =>
  cases h2 with
  | fails _ h => exact absurd ⟨_, _, rfl⟩ h
  | next _ h2 =>
  cases h2 with
  | next h => exact absurd h (by simp [CCall.goesOn])
  | fails _ _ hr hrs =>
  cases hrs with
  | cons h3 hrs =>
  cases hrs with
  | cons h4 hrs =>
  cases hrs
  exact ⟨_, _, _, rfl, hr, h3.2.1 trivial, h4.1⟩

/-- Three qubits on two workers with two qubits each: `make_state` waits for ever if nobody else connects. -/
example (calls : List CCall) (ok ok' : Nat → Bool) :
    clientSession ok ok' false true ⟨[⟨0, 2⟩, ⟨1, 2⟩], [⟨0, 2⟩, ⟨1, 2⟩], fun _ => [], []⟩ 3 7 .ok calls = (.waits, []) := by
  rw [C117_refused_false]
  · rfl
  rintro ⟨S, h1, h2, h3⟩
  obtain ⟨w, hw⟩ := List.exists_mem_of_ne_nil S h2
  have hl := h1.length_le
  have h4 := h3 w hw
  have hn : w.nq = 2 := by
    have := h1.subset hw
    simp only [List.mem_cons, List.not_mem_nil, or_false] at this
    rcases this with rfl | rfl <;> rfl
  rw [hn] at h4
  simp at hl
  omega

example (ok ok' : Nat → Bool) : clientSession ok ok' false false twoWorkers 2 7 .ok [.kron (.ok none none), .measure .ioError, .kron (.ok none none)]
    = (.returned none, [.returned none, .failed, .waits]) :=
  (C117_untold_false twoWorkers_enough (pre := [.kron (.ok none none)]) (by simp [CCall.goesOn]) [] ok ok').2 _ trivial

example : ∃ rs, clientSession (fun _ => true) (fun _ => true) false true twoWorkers 2 7 .ok [.kron (.ok none none), .kron .ioError, .close true]
    = (.returned none, .returned none :: .failed :: .lost :: rs) :=
  (C117_close_false twoWorkers_enough (pre := [.kron (.ok none none)]) (by simp [CCall.goesOn]) true []).1 rfl

end QIP.Props
