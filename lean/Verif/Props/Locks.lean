import Verif.Model.Locks
import Verif.Props.Frame

/-!
# C103: several threads on one connection
-/

namespace QIP.Props

open QIP QIP.Spec Relation

/-! ## Sending -/

/-- The messages of one thread. -/
def ofThread (l : List (Nat × Bytes)) (t : Nat) : List Bytes := (l.filter fun e => decide (e.1 = t)).map (·.2)

theorem ofThread_append (l l' : List (Nat × Bytes)) (t : Nat) : ofThread (l ++ l') t = ofThread l t ++ ofThread l' t := by
  simp [ofThread]

theorem ofThread_one (t u : Nat) (m : Bytes) : ofThread [(t, m)] u = if t = u then [m] else [] := by
  by_cases h : t = u <;> simp [ofThread, h]

theorem stream_append {ms ms' : List Bytes} {a b : Bytes} (h : stream ms = .ok a) (h' : stream ms' = .ok b) :
    stream (ms ++ ms') = .ok (a ++ b) := by
  unfold stream at *
  rw [List.mapM_append]
  rcases h1 : ms.mapM frameSend with e | x
  · simp [h1, bind, Except.bind] at h
  rcases h2 : ms'.mapM frameSend with e | y
  · simp [h2, bind, Except.bind] at h'
  simp only [h1, h2, bind, Except.bind, pure, Except.pure, Except.ok.injEq] at h h' ⊢
  rw [List.flatten_append, h, h']

theorem stream_one {m f : Bytes} (h : frameSend m = .ok f) : stream [m] = .ok f := by
  unfold stream
  simp [h, bind, Except.bind, pure, Except.pure]

/-- C103 (sending): whatever the threads do, the bytes written are those of whole messages, one after the other, except that the last
one may not yet be complete (it never will be if the connection failed); each thread's messages are sent in its order, all of them
as long as the socket is open and none is too long. -/
theorem C103_sent {todo : Nat → List Bytes} {s : SendSt} (h : ReflTransGen SendStep (.init todo) s) :
    (∃ bs, stream (s.order.map (·.2)) = .ok bs ∧ ∃ rest, bs = s.wire ++ rest ∧ (s.broken = false → rest = s.cur) ∧
      (s.lock = none → s.broken = false → rest = [])) ∧
    (∀ t, (ofThread s.order t).Sublist (todo t)) ∧
    (s.closed = false → (∀ t, ∀ m ∈ todo t, m.length < 2 ^ 31) → ∀ t, todo t = ofThread s.order t ++ s.todo t) := by
  have key : (∃ bs, stream (s.order.map (·.2)) = .ok bs ∧ ∃ rest, bs = s.wire ++ rest ∧ (s.broken = false → rest = s.cur)) ∧
      (s.lock = none → s.cur = []) ∧ (s.broken = true → s.closed = true ∧ s.lock = none) ∧
      (∀ t, ∃ gone, (ofThread s.order t).Sublist gone ∧ todo t = gone ++ s.todo t) ∧
      (s.closed = false → (∀ t, ∀ m ∈ todo t, m.length < 2 ^ 31) → ∀ t, todo t = ofThread s.order t ++ s.todo t) := by
    induction h with
    | refl => exact ⟨⟨[], rfl, [], rfl, fun _ => rfl⟩, fun _ => rfl, by simp [SendSt.init], fun t => ⟨[], by simp [SendSt.init, ofThread]⟩,
        by simp [SendSt.init, ofThread]⟩
    | @tail s s' _ hstep ih =>
      obtain ⟨⟨bs, h1, rest, h2, h3⟩, h4, hb, h5, h6⟩ := ih
      cases hstep with
      | @start t m ms f hl hc ht hf =>
        have hbr : s.broken = false := by
          rcases hbb : s.broken with _ | _
          · rfl
          · rw [(hb hbb).1] at hc; cases hc
        have hr : rest = [] := by rw [h3 hbr, h4 hl]
        refine ⟨⟨bs ++ f, ?_, f, ?_, fun _ => rfl⟩, ?_, ?_, ?_, ?_⟩
        · show stream ((s.order ++ [(t, m)]).map (·.2)) = _
          rw [List.map_append]
          exact stream_append h1 (stream_one hf)
        · show bs ++ f = s.wire ++ f
          rw [h2, hr, List.append_nil]
        · intro h; cases h
        · intro h
          rw [hbr] at h; cases h
        · intro u
          obtain ⟨gone, g1, g2⟩ := h5 u
          by_cases hu : t = u
          · subst hu
            refine ⟨gone ++ [m], ?_, ?_⟩
            · show (ofThread (s.order ++ [(t, m)]) t).Sublist _
              rw [ofThread_append, ofThread_one, if_pos rfl]
              exact g1.append (.refl _)
            · show todo t = gone ++ [m] ++ Function.update s.todo t ms t
              rw [g2, ht, Function.update_self]
              simp
          · refine ⟨gone, ?_, ?_⟩
            · show (ofThread (s.order ++ [(t, m)]) u).Sublist _
              rw [ofThread_append, ofThread_one, if_neg hu, List.append_nil]
              exact g1
            · show todo u = gone ++ Function.update s.todo t ms u
              rw [Function.update_of_ne (Ne.symm hu)]
              exact g2
        · intro _ hm u
          have := h6 hc hm u
          show todo u = ofThread (s.order ++ [(t, m)]) u ++ Function.update s.todo t ms u
          rw [ofThread_append, ofThread_one]
          by_cases hu : t = u
          · subst hu
            rw [if_pos rfl, Function.update_self, this, ht]
            simp
          · rw [if_neg hu, Function.update_of_ne (Ne.symm hu), List.append_nil]
            exact this
      | @write t k hl hk =>
        have hbr : s.broken = false := by
          rcases hbb : s.broken with _ | _
          · rfl
          · rw [(hb hbb).2] at hl; cases hl
        refine ⟨⟨bs, h1, s.cur.drop k, ?_, fun _ => rfl⟩, ?_, hb, h5, h6⟩
        · show bs = s.wire ++ s.cur.take k ++ s.cur.drop k
          rw [List.append_assoc, List.take_append_drop, h2, h3 hbr]
        · intro h
          have h : s.lock = none := h
          rw [hl] at h; cases h
      | @release t hl hd =>
        refine ⟨⟨bs, h1, rest, h2, h3⟩, fun _ => hd, ?_, h5, h6⟩
        intro h
        exact ⟨(hb h).1, rfl⟩
      | @fail t hl =>
        refine ⟨⟨bs, h1, rest, h2, fun h => by cases h⟩, fun _ => rfl, fun _ => ⟨rfl, rfl⟩, h5, fun h => by cases h⟩
      | close hl =>
        exact ⟨⟨bs, h1, rest, h2, h3⟩, h4, fun _ => ⟨rfl, hl⟩, h5, fun h => by cases h⟩
      | @refuse t m ms hl ht hr =>
        refine ⟨⟨bs, h1, rest, h2, h3⟩, h4, hb, ?_, ?_⟩
        · intro u
          obtain ⟨gone, g1, g2⟩ := h5 u
          by_cases hu : t = u
          · subst hu
            refine ⟨gone ++ [m], g1.trans (List.sublist_append_left _ _), ?_⟩
            show todo t = gone ++ [m] ++ Function.update s.todo t ms t
            rw [g2, ht, Function.update_self]
            simp
          · refine ⟨gone, g1, ?_⟩
            show todo u = gone ++ Function.update s.todo t ms u
            rw [Function.update_of_ne (Ne.symm hu)]
            exact g2
        · intro hc hm u
          have hc : s.closed = false := hc
          rcases hr with hr | ⟨e, he⟩
          · rw [hr] at hc; cases hc
          · have : m.length < 2 ^ 31 := by
              obtain ⟨gone, -, g2⟩ := h5 t
              exact hm t m (by rw [g2, ht]; simp)
            obtain ⟨hd, e', -⟩ := frameSend_ok this
            rw [e'] at he
            cases he
  obtain ⟨⟨bs, h1, rest, h2, h3⟩, h4, hb, h5, h6⟩ := key
  refine ⟨⟨bs, h1, rest, h2, h3, fun hl hbr => by rw [h3 hbr, h4 hl]⟩, fun t => ?_, h6⟩
  obtain ⟨gone, g1, g2⟩ := h5 t
  rw [g2]
  exact g1.trans (List.sublist_append_left _ _)

/-! ## Receiving -/

theorem recvMany_add {last : Bytes} {chunks : List Bytes} {n : Nat} {ms : List Bytes} {l : Bytes} {c : List Bytes}
    (h : recvMany last chunks n = (ms, .got [] l c)) (k : Nat) :
    recvMany last chunks (n + k) = (ms ++ (recvMany l c k).1, (recvMany l c k).2) := by
  induction n generalizing last chunks ms with
  | zero =>
    simp only [recvMany, Prod.mk.injEq, Recv.got.injEq, true_and] at h
    obtain ⟨rfl, rfl, rfl⟩ := h
    rw [Nat.zero_add, List.nil_append]
  | succ n ih =>
    rw [show n + 1 + k = (n + k) + 1 by omega, recvMany]
    rw [recvMany] at h
    rcases hf : frameRecv last chunks with ⟨m1, l1, c1⟩ | _ | _
    · rw [hf] at h
      simp only [Prod.mk.injEq] at h
      obtain ⟨rfl, h2⟩ := h
      simp only [ih (last := l1) (chunks := c1) (ms := (recvMany l1 c1 n).1) (Prod.ext rfl h2), List.cons_append]
    · rw [hf] at h; simp at h
    · rw [hf] at h; simp at h

/-- C103 (receiving): as long as the connection lasts, the messages returned to the threads, in order, are those that one thread alone
would get from the same chunks; a call in progress will return what that thread's next call would. -/
theorem C103_received {want : Nat → Nat} {chunks : List Bytes} {s : RecvSt} (h : ReflTransGen RecvStep (.init want chunks) s)
    (hb : s.broken = false) :
    ∃ last rest, recvMany [] chunks s.got.length = (s.got.map (·.2), .got [] last rest) ∧
      (s.lock = none → last = s.last ∧ rest = s.chunks) ∧
      (s.lock ≠ none → frameRecv last rest = recvLoop s.total s.msg s.expected s.chunks) := by
  induction h with
  | refl => exact ⟨[], chunks, rfl, fun _ => ⟨rfl, rfl⟩, fun h => absurd rfl h⟩
  | @tail s s' _ hstep ih =>
    cases hstep with
    | @enter t k hl hw =>
      obtain ⟨last, rest, h1, h2, -⟩ := ih hb
      obtain ⟨rfl, rfl⟩ := h2 hl
      refine ⟨s.last, s.chunks, h1, (fun h => nomatch h), fun _ => ?_⟩
      show frameRecv s.last s.chunks = recvLoop s.last _ _ s.chunks
      unfold frameRecv
      split <;> rfl
    | @chunk t c cs hl hm hc hne =>
      have hb' : s.broken = false := by
        split at hb <;> exact hb
      obtain ⟨last, rest, h1, -, h3⟩ := ih hb'
      have h4 := h3 (by rw [hl]; simp)
      rw [hc, recvLoop, if_pos hm, if_neg hne] at h4
      split
      · next hx =>
        rw [if_pos hx] at h4
        refine ⟨last, rest, h1, fun h => ?_, fun _ => h4⟩
        have h : s.lock = none := h
        rw [hl] at h; cases h
      · next hx =>
        rw [if_neg hx] at h4
        refine ⟨last, rest, h1, fun h => ?_, fun _ => h4⟩
        have h : s.lock = none := h
        rw [hl] at h; cases h
    | fail hl hm hc he => cases hb
    | timeout hl hm => cases hb
    | swap hl => cases hb
    | @done t hl hm =>
      obtain ⟨last, rest, h1, -, h3⟩ := ih hb
      have h4 := h3 (by rw [hl]; simp)
      have h5 : frameRecv last rest = .got (pyTake s.msg s.expected) (pyDrop s.msg s.expected) s.chunks := by
        rw [h4]
        cases s.chunks <;> rw [recvLoop, if_neg hm]
      have h6 := recvMany_add h1 1
      have h7 : recvMany last rest 1 = ([pyTake s.msg s.expected], .got [] (pyDrop s.msg s.expected) s.chunks) := by
        rw [recvMany, h5]
        rfl
      rw [h7] at h6
      refine ⟨_, _, ?_, fun _ => ⟨rfl, rfl⟩, fun h => absurd rfl h⟩
      show recvMany [] chunks (s.got ++ [(t, pyTake s.msg s.expected)]).length = _
      rw [List.length_append, List.length_singleton, List.map_append]
      exact h6

theorem stream_lengths {ms : List Bytes} {bs : Bytes} (h : stream ms = .ok bs) : ∀ m ∈ ms, m.length < 2 ^ 31 := by
  intro m hm
  by_contra hc
  unfold stream at h
  rcases hx : ms.mapM frameSend with e | fs
  · simp [hx, bind, Except.bind] at h
  obtain ⟨f, hf⟩ : ∃ f, frameSend m = .ok f := by
    clear h
    induction ms generalizing fs with
    | nil => cases hm
    | cons a ms ih =>
      rw [List.mapM_cons] at hx
      rcases ha : frameSend a with e | fa
      · simp [ha, bind, Except.bind] at hx
      rcases hb : ms.mapM frameSend with e | fb
      · simp [ha, hb, bind, Except.bind] at hx
      rcases List.mem_cons.1 hm with rfl | hm
      · exact ⟨fa, ha⟩
      · exact ih hm fb hb
  simp only [frameSend, packI, if_neg hc, bind, Except.bind] at hf
  cases hf

/-- A call of `recv` that can return does so, whatever is going on: the thread in the lock can go on to the end. -/
theorem recv_finishes {s : RecvSt} {t : Nat} (hl : s.lock = some t) {m l : Bytes} {c : List Bytes}
    (h : recvLoop s.total s.msg s.expected s.chunks = .got m l c) :
    ∃ s', ReflTransGen RecvStep s s' ∧ s'.lock = none ∧ s'.broken = s.broken ∧ s'.got = s.got ++ [(t, m)] ∧ s'.want = s.want := by
  generalize hc : s.chunks = cs at h
  induction cs generalizing s with
  | nil =>
    by_cases hm : (s.msg.length : Int) < s.expected
    · rw [recvLoop, if_pos hm] at h; cases h
    · rw [recvLoop, if_neg hm] at h
      injection h with h1 h2 h3
      exact ⟨_, .single (.done hl hm), rfl, rfl, by rw [← h1], rfl⟩
  | cons c' cs ih =>
    by_cases hm : (s.msg.length : Int) < s.expected
    · rw [recvLoop, if_pos hm] at h
      by_cases hz : c'.length = 0
      · rw [if_pos hz] at h; cases h
      rw [if_neg hz] at h
      have hst := RecvStep.chunk hl hm hc hz
      by_cases hx : s.expected = maxsize ∧ (s.total ++ c').length > 4
      · rw [if_pos hx] at h hst
        obtain ⟨s', g1, g2, g3, g4, g5⟩ := ih (s := { s with
          chunks := cs, total := s.total ++ c', msg := s.msg ++ (s.total ++ c').drop 4, expected := unpackI ((s.total ++ c').take 4) }) hl rfl h
        exact ⟨s', .head hst g1, g2, g3, g4, g5⟩
      · rw [if_neg hx] at h hst
        obtain ⟨s', g1, g2, g3, g4, g5⟩ := ih (s := { s with
          chunks := cs, total := s.total ++ c', msg := s.msg ++ c' }) hl rfl h
        exact ⟨s', .head hst g1, g2, g3, g4, g5⟩
    · rw [recvLoop, if_neg hm] at h
      injection h with h1 h2 h3
      exact ⟨_, .single (.done hl hm), rfl, rfl, by rw [← h1], rfl⟩

/-- The chunks hold `n` messages for one thread alone. -/
def HoldsMsgs (chunks : List Bytes) (n : Nat) : Prop := ∃ ms l c, recvMany [] chunks n = (ms, .got [] l c)

/-- C103 (receiving, progress): if fewer messages have been returned than one thread alone would get, a thread in a call of `recv`
(or else any thread that calls it) can get the next one; no thread waits for a lock for ever. -/
theorem C103_recv_progress {want : Nat → Nat} {chunks : List Bytes} {s : RecvSt} (h : ReflTransGen RecvStep (.init want chunks) s)
    (hb : s.broken = false) (hn : HoldsMsgs chunks (s.got.length + 1)) {t : Nat} (ht : s.lock = some t ∨ s.lock = none ∧ 0 < s.want t) :
    ∃ s' m, ReflTransGen RecvStep s s' ∧ s'.lock = none ∧ s'.broken = false ∧ s'.got = s.got ++ [(t, m)] := by
  obtain ⟨ms, l, c, hn⟩ := hn
  have key : ∀ {s : RecvSt}, ReflTransGen RecvStep (.init want chunks) s → s.broken = false → s.lock = some t →
      recvMany [] chunks (s.got.length + 1) = (ms, .got [] l c) →
      ∃ s' m, ReflTransGen RecvStep s s' ∧ s'.lock = none ∧ s'.broken = false ∧ s'.got = s.got ++ [(t, m)] := by
    intro s h hb hl hn
    obtain ⟨last, rest, h1, -, h3⟩ := C103_received h hb
    have h4 := h3 (by rw [hl]; simp)
    have h5 := recvMany_add h1 1
    rw [hn, recvMany] at h5
    rcases hf : frameRecv last rest with ⟨m1, l1, c1⟩ | _ | _
    · obtain ⟨s', g1, g2, g3, g4, -⟩ := recv_finishes hl (h4.symm.trans hf)
      exact ⟨s', m1, g1, g2, g3.trans hb, g4⟩
    · rw [hf] at h5; simp at h5
    · rw [hf] at h5; simp at h5
  rcases ht with hl | ⟨hl, hw⟩
  · exact key h hb hl hn
  · have hst := RecvStep.enter (t := t) (k := s.want t - 1) hl (by omega)
    obtain ⟨s', m, g1, g2⟩ := key (h.tail hst) hb rfl hn
    exact ⟨s', m, .head hst g1, g2⟩

/-- C103 (sending, progress): whatever is going on, every thread can finish sending its messages; no thread waits for the lock for
ever. -/
theorem C103_send_progress (s : SendSt) (t : Nat) :
    ∃ s', ReflTransGen SendStep s s' ∧ s'.lock = none ∧ s'.closed = s.closed ∧ s'.todo t = [] := by
  have free : ∀ s : SendSt, ∃ s', ReflTransGen SendStep s s' ∧ s'.lock = none ∧ s'.closed = s.closed ∧ s'.todo = s.todo := by
    intro s
    rcases hl : s.lock with _ | u
    · exact ⟨s, .refl, hl, rfl, rfl⟩
    · refine ⟨{ s with cur := s.cur.drop (s.cur.length + 1), wire := s.wire ++ s.cur.take (s.cur.length + 1), lock := none },
        .tail (.single (.write (k := s.cur.length + 1) hl (by omega))) (.release (t := u) hl ?_), rfl, rfl, rfl⟩
      exact List.drop_eq_nil_of_le (by omega)
  generalize hk : (s.todo t).length = k
  induction k generalizing s with
  | zero =>
    obtain ⟨s', g1, g2, g3, g4⟩ := free s
    exact ⟨s', g1, g2, g3, by rw [g4]; exact List.eq_nil_of_length_eq_zero hk⟩
  | succ k ih =>
    obtain ⟨s1, g1, g2, g3, g4⟩ := free s
    rcases hm : s1.todo t with _ | ⟨m, ms⟩
    · rw [← g4, hm] at hk; cases hk
    have hlen : ms.length = k := by
      rw [← g4, hm, List.length_cons] at hk
      omega
    have hone : ∃ s2, SendStep s1 s2 ∧ s2.closed = s1.closed ∧ s2.todo t = ms := by
      rcases hc : s1.closed with _ | _
      · rcases hf : frameSend m with e | f
        · exact ⟨_, .refuse g2 hm (.inr ⟨e, hf⟩), hc, Function.update_self ..⟩
        · exact ⟨_, .start g2 hc hm hf, hc, Function.update_self ..⟩
      · exact ⟨_, .refuse g2 hm (.inl hc), hc, Function.update_self ..⟩
    obtain ⟨s2, k1, k2, k3⟩ := hone
    obtain ⟨s3, j1, j2, j3, j4⟩ := ih s2 (by rw [k3, hlen])
    exact ⟨s3, g1.trans (.head k1 j1), j2, by rw [j3, k2, g3], j4⟩

/-- C103: several threads send over a connection and several threads receive at the other end; everything sent has been written.  As
long as no chunk ends inside a header (C57), the messages received, in order, are the first ones of those sent, in order.  Missing:
a last message that is empty (C57: it is delivered with the next one). -/
theorem C103_connection_partial {todo : Nat → List Bytes} {s : SendSt} (hs : ReflTransGen SendStep (.init todo) s)
    (hl : s.lock = none) (hb : s.broken = false) {want : Nat → Nat} {chunks : List Bytes} {r : RecvSt}
    (hr : ReflTransGen RecvStep (.init want chunks) r) (hrb : r.broken = false) (hne : ∀ c ∈ chunks, c ≠ []) (hc : chunks.flatten = s.wire)
    (hh : NoHeaderChunk (s.order.map (·.2)) chunks) (hlast : ∀ h : s.order.map (·.2) ≠ [], (s.order.map (·.2)).getLast h ≠ []) :
    r.got.map (·.2) <+: s.order.map (·.2) ∧ HoldsMsgs chunks s.order.length := by
  obtain ⟨⟨bs, h1, rest, h2, -, h3⟩, -, -⟩ := C103_sent hs
  rw [h3 hl hb, List.append_nil] at h2
  obtain ⟨last, rest', h4, -, -⟩ := C103_received hr hrb
  obtain ⟨bs', h5, h6⟩ := C57_framing_partial (s.order.map (·.2)) (stream_lengths h1) hlast
  rw [h1] at h5
  injection h5 with h5
  have h7 := h6 chunks hne (by rw [hc, ← h5, h2]) hh
  rw [List.length_map] at h7
  refine ⟨?_, _, _, _, h7⟩
  rcases Nat.lt_or_ge s.order.length r.got.length with hlt | hge
  · have h8 := recvMany_add h7 (r.got.length - s.order.length - 1 + 1)
    rw [show s.order.length + (r.got.length - s.order.length - 1 + 1) = r.got.length by omega, h4, recvMany] at h8
    simp [frameRecv, recvLoop, maxsize] at h8
  · have h8 := recvMany_add h4 (s.order.length - r.got.length)
    rw [show r.got.length + (s.order.length - r.got.length) = s.order.length by omega, h7] at h8
    simp only [Prod.mk.injEq] at h8
    exact ⟨_, h8.1.symm⟩

/-! ## What breaks it -/

/-- C103 fails after a timeout: the bytes read so far are thrown away, and the next call of `recv` begins in the middle of a message.
Here `[7, 8, 0, 0, 0, 1, 9]` is sent as one message and a thread gets `[9]`, which nobody sent. -/
theorem C103_timeout :
    ∃ s, ReflTransGen RecvStep (.init (fun _ => 2) [[0, 0, 0, 7, 7, 8], [0, 0, 0, 1, 9]]) s ∧ s.got = [(1, [9])] ∧
      stream [[7, 8, 0, 0, 0, 1, 9]] = .ok [0, 0, 0, 7, 7, 8, 0, 0, 0, 1, 9] := by
  refine ⟨_, .tail (.tail (.tail (.tail (.tail (.tail .refl (.enter (t := 0) (k := 1) rfl rfl)) (.chunk (t := 0) rfl (by decide) rfl
    (by decide))) (.timeout (t := 0) rfl (by decide))) (.enter (t := 1) (k := 1) rfl rfl)) (.chunk (t := 1) rfl (by decide) rfl
    (by decide))) (.done (t := 1) rfl (by decide)), rfl, rfl⟩

/-- C103 fails after `closeswapsock`: bytes of the old connection are taken for the beginning of the first message of the new one.
Here `[5]` and the beginning of a further message came over the old connection; `[6]` is sent over the new one; a thread gets
`[0, 0]`. -/
theorem C103_swap :
    ∃ s, ReflTransGen RecvStep (.init (fun _ => 2) [[0, 0, 0, 1, 5, 0, 0, 0, 2]]) s ∧ s.got = [(0, [5]), (0, [0, 0])] ∧
      stream [[6]] = .ok [0, 0, 0, 1, 6] := by
  refine ⟨_, .tail (.tail (.tail (.tail (.tail (.tail (.tail .refl (.enter (t := 0) (k := 1) rfl rfl)) (.chunk (t := 0) rfl (by decide)
    rfl (by decide))) (.done (t := 0) rfl (by decide))) (.swap (cs := [[0, 0, 0, 1, 6]]) rfl)) (.enter (t := 0) (k := 0) rfl rfl))
    (.chunk (t := 0) rfl (by decide) rfl (by decide))) (.done (t := 0) rfl (by decide)), rfl, rfl⟩

/-! ## Cases: two threads send `[7]` and `[8, 9]`, two receive -/

theorem two_sent : ∃ s, ReflTransGen SendStep (.init fun t => if t = 0 then [[7]] else if t = 1 then [[8, 9]] else []) s ∧
    s.lock = none ∧ s.broken = false ∧ s.closed = false ∧ s.order = [(1, [8, 9]), (0, [7])] ∧
    s.wire = [0, 0, 0, 2, 8, 9, 0, 0, 0, 1, 7] := by
  refine ⟨_, .tail (.tail (.tail (.tail (.tail (.tail (.tail .refl (.start (t := 1) rfl rfl rfl rfl)) (.write (k := 3) rfl (by decide)))
    (.write (k := 3) rfl (by decide))) (.release rfl rfl)) (.start (t := 0) rfl rfl rfl rfl)) (.write (k := 8) rfl (by decide)))
    (.release rfl rfl), rfl, rfl, rfl, rfl, rfl⟩

theorem two_received : ∃ s, ReflTransGen RecvStep (.init (fun _ => 1) [[0, 0, 0, 2, 8], [9, 0, 0, 0, 1, 7]]) s ∧ s.broken = false ∧
    s.got = [(4, [8, 9]), (3, [7])] := by
  refine ⟨_, .tail (.tail (.tail (.tail (.tail (.tail .refl (.enter (t := 4) (k := 0) rfl rfl)) (.chunk (t := 4) rfl (by decide) rfl
    (by decide))) (.chunk (t := 4) rfl (by decide) rfl (by decide))) (.done (t := 4) rfl (by decide))) (.enter (t := 3) (k := 0) rfl rfl))
    (.done (t := 3) rfl (by decide)), rfl, rfl⟩

example : ∃ s, ReflTransGen SendStep (.init fun t => if t = 0 then [[7]] else if t = 1 then [[8, 9]] else []) s ∧
    ∃ r, ReflTransGen RecvStep (.init (fun _ => 1) [[0, 0, 0, 2, 8], [9, 0, 0, 0, 1, 7]]) r ∧
      r.got.map (·.2) <+: s.order.map (·.2) ∧ HoldsMsgs [[0, 0, 0, 2, 8], [9, 0, 0, 0, 1, 7]] s.order.length := by
  obtain ⟨s, h1, h2, h3, -, h4, h5⟩ := two_sent
  obtain ⟨r, g1, g2, -⟩ := two_received
  refine ⟨s, h1, r, g1, C103_connection_partial h1 h2 h3 g1 g2 (by simp) h5.symm ?_ ?_⟩
  · rw [h4]
    intro pre c post hp ms₁ m ms₂ hms
    have hp' : pre = [] ∨ pre = [[0, 0, 0, 2, 8]] := by
      rcases pre with _ | ⟨a, _ | ⟨b, _⟩⟩ <;> simp_all
    have hms' : ms₁ = [] ∨ ms₁ = [[8, 9]] := by
      rcases ms₁ with _ | ⟨a, _ | ⟨b, _⟩⟩ <;> simp_all
    rcases hp' with rfl | rfl <;> simp at hp <;> rcases hms' with rfl | rfl <;> simp [streamLen, ← hp.1]
  · rw [h4]
    simp

example : ∃ s, ReflTransGen RecvStep (.init (fun _ => 1) [[0, 0, 0, 2, 8], [9, 0, 0, 0, 1, 7]]) s ∧ s.lock = none ∧ s.broken = false ∧
    ∃ m, s.got = [(5, m)] := by
  obtain ⟨s, m, h1, h2, h3, h4⟩ := C103_recv_progress (want := fun _ => 1)
    (chunks := [[0, 0, 0, 2, 8], [9, 0, 0, 0, 1, 7]]) (t := 5) (.refl) rfl ⟨_, _, _, rfl⟩ (.inr ⟨rfl, Nat.one_pos⟩)
  exact ⟨s, h1, h2, h3, m, h4⟩

end QIP.Props
