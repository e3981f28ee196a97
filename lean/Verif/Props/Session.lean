import Verif.Model.Session
import Verif.Props.Manager

/-!
# C101: the session of a client with the manager
-/

namespace QIP.Props

open QIP

/-- The events of `Model/Manager` that a session of the client with handle `h` can cause. -/
def OfSession (n h : Nat) : MEvent → Prop
  | .setup n' h' _ => n' = n ∧ h' = h
  | .reduce h' _ => h' = h
  | .finish h' _ => h' = h
  | .connect _ => False

theorem serveLoop_history (n h : Nat) (told excuse : Bool) (reqs : List Request) (s : MState) :
    ∃ es, (serveLoop h told excuse reqs s).mgr = mgrRun s es ∧ ∀ e ∈ es, OfSession n h e := by
  have hend : ∀ s a e, ∃ es, (sessionEnd h told s a e).mgr = mgrRun s es ∧ ∀ e ∈ es, OfSession n h e := by
    intro s a e
    refine ⟨[.finish h told], ?_, by simp [OfSession]⟩
    cases told <;> rfl
  induction reqs generalizing s with
  | nil => exact ⟨[], rfl, by simp⟩
  | cons r rest ih =>
    rcases r with ⟨res, sent⟩ | sent | _
    · rcases res with ⟨t, d⟩ | _ | e
      · have hs : ∃ es, (afterOp h t s) = mgrRun s es ∧ ∀ e ∈ es, OfSession n h e := by
          rcases t with _ | t
          · exact ⟨[], rfl, by simp⟩
          · exact ⟨[.reduce h t], rfl, by simp [OfSession]⟩
        obtain ⟨es, h1, h2⟩ := hs
        have happ : ∀ es', mgrRun (mgrRun s es) es' = mgrRun s (es ++ es') := fun es' => (List.foldl_append ..).symm
        rw [serveLoop]
        cases sent with
        | true =>
          obtain ⟨es', h3, h4⟩ := ih (afterOp h t s)
          refine ⟨es ++ es', ?_, ?_⟩
          · rw [← happ, ← h1]
            exact h3
          · intro e he
            rcases List.mem_append.1 he with he | he
            · exact h2 e he
            · exact h4 e he
        | false =>
          obtain ⟨es', h3, h4⟩ := hend (afterOp h t s) (if excuse then [.error] else []) .returned
          refine ⟨es ++ es', ?_, ?_⟩
          · rw [← happ, ← h1]
            exact h3
          · intro e he
            rcases List.mem_append.1 he with he | he
            · exact h2 e he
            · exact h4 e he
      · exact hend ..
      · exact hend ..
    · rw [serveLoop]
      cases sent
      · exact hend ..
      · exact hend ..
    · exact hend ..

/-- C101: whatever the client asks and whatever fails, a session changes the manager's free and allocated workers by events of the
history of C67 that belong to this session. -/
theorem C101_history (s : MState) (n h : Nat) (alloc : AllocEnd) (sent told excuse : Bool) (reqs : List Request) :
    ∃ es, (serveClient s n h alloc sent told excuse reqs).mgr = mgrRun s es ∧ ∀ e ∈ es, OfSession n h e := by
  have hset : ∀ o, OfSession n h (.setup n h o) := fun o => ⟨rfl, rfl⟩
  unfold serveClient
  rcases hd : drawWorkers n s.free with e | ⟨un, rest, wn⟩
  · exact ⟨[], rfl, by simp⟩
  obtain ⟨placed, hp, -⟩ := C60_tiles hd
  have hno : ∀ reqs, (serveNothing excuse { s with free := rest } reqs).mgr = { s with free := rest } := by
    intro reqs
    rcases reqs with _ | ⟨r, _⟩
    · rfl
    · rcases r with _ | _ | _ <;> rfl
  have hfail : { s with free := rest } = mgrRun s [.setup n h .allocateFails] := by
    simp [mgrRun, mgrStep, hd]
  cases alloc with
  | ok =>
    simp only [hp]
    cases sent with
    | true =>
      obtain ⟨es, h1, h2⟩ := serveLoop_history n h told excuse reqs
        { s with free := rest, pools := Function.update s.pools h placed, live := s.live ++ [h] }
      refine ⟨.setup n h .ok :: es, ?_, ?_⟩
      · simp only [if_true]
        rw [h1]
        change _ = mgrRun (mgrStep s _) es
        congr 1
        simp [mgrStep, hd, hp]
      · intro e he
        rcases List.mem_cons.1 he with rfl | he
        · exact hset _
        · exact h2 e he
    | false =>
      refine ⟨[.setup n h .replyFails], ?_, by simp [OfSession]⟩
      simp [mgrRun, mgrStep, hd, hp]
  | valueError =>
    simp only [hp]
    refine ⟨[.setup n h .allocateFails], ?_, by simp [OfSession]⟩
    cases sent with
    | true =>
      simp only [if_true]
      rw [hno]
      exact hfail
    | false => exact hfail
  | raises => exact ⟨[.setup n h .allocateFails], hfail, by simp [OfSession]⟩

/-- An operation that succeeds and whose reply can be sent. -/
def served (d : Option Nat × Option (Nat × ℝ)) : Request := .op (.ok d.1 d.2) true

theorem serveLoop_served (h : Nat) (told excuse : Bool) (ds : List (Option Nat × Option (Nat × ℝ))) (reqs : List Request)
    (s : MState) : ∃ s', serveLoop h told excuse (ds.map served ++ reqs) s
      = { serveLoop h told excuse reqs s' with
          answers := ds.map (fun d => .confirm d.2) ++ (serveLoop h told excuse reqs s').answers } := by
  induction ds generalizing s with
  | nil => exact ⟨s, rfl⟩
  | cons d ds ih =>
    obtain ⟨s', hs⟩ := ih (afterOp h d.1 s)
    refine ⟨s', ?_⟩
    rw [List.map_cons, List.cons_append, served, serveLoop]
    simp only [if_true]
    rw [hs]
    rfl

theorem serveClient_good {s : MState} {n h : Nat} (hen : ∃ S, List.Subperm S s.free ∧ Enough n S) (told excuse : Bool)
    (reqs : List Request) : ∃ s', serveClient s n h .ok true told excuse reqs
      = { serveLoop h told excuse reqs s' with answers := .handle h :: (serveLoop h told excuse reqs s').answers } := by
  obtain ⟨⟨un, rest, wn⟩, hd⟩ := (C59_draw_iff n s.free).2 hen
  obtain ⟨placed, hp, -⟩ := C60_tiles hd
  refine ⟨{ s with free := rest, pools := Function.update s.pools h placed, live := s.live ++ [h] }, ?_⟩
  unfold serveClient
  simp only [hd, hp, if_true]

/-- C101 (partial: enough workers, which can be told; operations fail only by lost connections; what can be sent to the client is
sent): the client gets its handle and one reply per request, in order: the result of the operation, the confirmation of
the closing request, or an error, after which the session is over and the connection closed. -/
theorem C101_answers_partial {s : MState} {n h : Nat} (hen : ∃ S, List.Subperm S s.free ∧ Enough n S)
    (ds : List (Option Nat × Option (Nat × ℝ))) (excuse : Bool) :
    (∀ told, (serveClient s n h .ok true told excuse (ds.map served)).answers = .handle h :: ds.map (fun d => .confirm d.2) ∧
      (serveClient s n h .ok true told excuse (ds.map served)).ending = .waiting) ∧
    (∀ later, (serveClient s n h .ok true true excuse (ds.map served ++ .close true :: later)).answers
        = .handle h :: ds.map (fun d => .confirm d.2) ++ [.confirm none] ∧
      (serveClient s n h .ok true true excuse (ds.map served ++ .close true :: later)).ending = .returned ∧
      (serveClient s n h .ok true true excuse (ds.map served ++ .close true :: later)).closed = true) ∧
    ∀ later b, (serveClient s n h .ok true true true (ds.map served ++ .op .ioError b :: later)).answers
        = .handle h :: ds.map (fun d => .confirm d.2) ++ [.error] ∧
      (serveClient s n h .ok true true true (ds.map served ++ .op .ioError b :: later)).ending = .returned ∧
      (serveClient s n h .ok true true true (ds.map served ++ .op .ioError b :: later)).closed = true := by
  refine ⟨fun told => ?_, fun later => ?_, fun later b => ?_⟩
  · obtain ⟨s1, h1⟩ := serveClient_good (h := h) hen told excuse (ds.map served)
    obtain ⟨s2, h2⟩ := serveLoop_served h told excuse ds [] s1
    rw [List.append_nil] at h2
    rw [h1, h2]
    simp [serveLoop]
  · obtain ⟨s1, h1⟩ := serveClient_good (h := h) hen true excuse (ds.map served ++ .close true :: later)
    obtain ⟨s2, h2⟩ := serveLoop_served h true excuse ds (.close true :: later) s1
    rw [h1, h2]
    simp [serveLoop, sessionEnd]
  · obtain ⟨s1, h1⟩ := serveClient_good (h := h) hen true true (ds.map served ++ .op .ioError b :: later)
    obtain ⟨s2, h2⟩ := serveLoop_served h true true ds (.op .ioError b :: later) s1
    rw [h1, h2]
    simp [serveLoop, sessionFails, sessionEnd]

/-- C101 is false if the workers do not suffice: the client gets no message at all, and its connection is not closed. -/
theorem C101_refused_silently {s : MState} {n h : Nat} (hen : ¬ ∃ S, List.Subperm S s.free ∧ Enough n S) (alloc : AllocEnd)
    (sent told excuse : Bool) (reqs : List Request) :
    serveClient s n h alloc sent told excuse reqs = ⟨[], s, .escaped, false⟩ := by
  unfold serveClient
  rcases hd : drawWorkers n s.free with e | r
  · rfl
  · exact absurd ((C59_draw_iff n s.free).1 ⟨r, hd⟩) hen

/-- C101 is false of operations that raise something else than a lost connection (for instance the refusal of a large `top_k`): the
request gets no reply, not even an error; the connection is closed. -/
theorem C101_exception_unanswered {s : MState} {n h : Nat} (hen : ∃ S, List.Subperm S s.free ∧ Enough n S)
    (ds : List (Option Nat × Option (Nat × ℝ))) (e : PyErr) (b excuse : Bool) (later : List Request) :
    (serveClient s n h .ok true true excuse (ds.map served ++ .op (.raises e) b :: later)).answers
        = .handle h :: ds.map (fun d => .confirm d.2) ∧
      (serveClient s n h .ok true true excuse (ds.map served ++ .op (.raises e) b :: later)).ending = .escaped ∧
      (serveClient s n h .ok true true excuse (ds.map served ++ .op (.raises e) b :: later)).closed = true := by
  obtain ⟨s1, h1⟩ := serveClient_good (h := h) hen true excuse (ds.map served ++ .op (.raises e) b :: later)
  obtain ⟨s2, h2⟩ := serveLoop_served h true excuse ds (.op (.raises e) b :: later) s1
  rw [h1, h2]
  simp [serveLoop, sessionEnd]

theorem serveLoop_back (h : Nat) (excuse : Bool) (reqs : List Request) {s : MState} (hl : h ∈ s.live)
    (hw : (serveLoop h true excuse reqs s).ending ≠ .waiting) (w : Wkr) :
    (serveLoop h true excuse reqs s).mgr.free.count w = s.free.count w + ((s.pools h).map Placed.worker).count w := by
  have hend : ∀ (s : MState) a e, h ∈ s.live →
      (sessionEnd h true s a e).mgr.free.count w = s.free.count w + ((s.pools h).map Placed.worker).count w := by
    intro s a e hl
    simp [sessionEnd, mgrStep, hl]
  induction reqs generalizing s with
  | nil => exact absurd rfl hw
  | cons r rest ih =>
    rcases r with ⟨res, sent⟩ | sent | _
    · rcases res with ⟨t, d⟩ | _ | e
      · have hs : h ∈ (afterOp h t s).live ∧
            (afterOp h t s).free.count w
              + (((afterOp h t s).pools h).map Placed.worker).count w
              = s.free.count w + ((s.pools h).map Placed.worker).count w := by
          rcases t with _ | t
          · exact ⟨hl, rfl⟩
          · have hsplit : (((s.pools h).filter fun p => !keeps t p).map Placed.worker).count w
                + (((s.pools h).filter (keeps t)).map Placed.worker).count w = ((s.pools h).map Placed.worker).count w := by
              rw [← List.count_append, ← List.map_append]
              refine (List.Perm.map _ ?_).count_eq w
              exact (List.perm_append_comm).trans (List.filter_append_perm _ _)
            refine ⟨by simp [afterOp, mgrStep, hl], ?_⟩
            simp only [afterOp, mgrStep, hl, if_true, Function.update_self, List.count_append]
            omega
        rw [serveLoop] at hw ⊢
        rw [← hs.2]
        cases sent with
        | true => exact ih hs.1 hw
        | false => exact hend _ _ _ hs.1
      · exact hend _ _ _ hl
      · exact hend _ _ _ hl
    · rw [serveLoop]
      cases sent
      · exact hend _ _ _ hl
      · exact hend _ _ _ hl
    · exact hend _ _ _ hl

/-- C101: once a session has started and the workers can be told of its end, all its workers are free again when it is over:
whatever the client asked, however its operations ended (also by exceptions), whether or not it closed the session. -/
theorem C101_workers_back {s : MState} {n h : Nat} (hen : ∃ S, List.Subperm S s.free ∧ Enough n S) (excuse : Bool)
    (reqs : List Request) (hw : (serveClient s n h .ok true true excuse reqs).ending ≠ .waiting) :
    (serveClient s n h .ok true true excuse reqs).mgr.free.Perm s.free ∧
      (serveClient s n h .ok true true excuse reqs).closed = true := by
  obtain ⟨⟨un, rest, wn⟩, hd⟩ := (C59_draw_iff n s.free).2 hen
  obtain ⟨placed, hp, hperm, -⟩ := C60_tiles hd
  unfold serveClient at hw ⊢
  simp only [hd, hp, if_true] at hw ⊢
  constructor
  · rw [List.perm_iff_count]
    intro w
    rw [serveLoop_back h excuse reqs (by simp) hw w]
    have hc := count_draw hd w
    have hpc : (placed.map Placed.worker).count w = un.count w := hperm.count_eq w
    simp only [Function.update_self]
    omega
  · clear hp hperm hd hen
    generalize ({ s with free := rest, pools := Function.update s.pools h placed, live := s.live ++ [h] } : MState) = s' at hw ⊢
    induction reqs generalizing s' with
    | nil => exact absurd rfl hw
    | cons r rest ih =>
      rcases r with ⟨res, sent⟩ | sent | _
      · rcases res with ⟨t, d⟩ | _ | e
        · rw [serveLoop] at hw ⊢
          cases sent with
          | true => exact ih _ hw
          | false => rfl
        · rfl
        · rfl
      · rw [serveLoop]
        cases sent <;> rfl
      · rfl

/-- C101 is false if the setup fails with a ValueError (a number that does not fit into its field of the message to the workers): the client
gets the error message, but the workers drawn are lost, no operation gets a reply, and the connection is never closed; only a
closing request is confirmed. -/
theorem C101_failed_setup {s : MState} {n h : Nat} (hen : ∃ S, List.Subperm S s.free ∧ Enough n S) (told : Bool) :
    (∀ excuse reqs, (serveClient s n h .valueError true told excuse reqs).mgr.free.length < s.free.length ∧
      (serveClient s n h .valueError true told excuse reqs).closed = false ∧
      (serveClient s n h .valueError true told excuse reqs).ending = if reqs = [] then .waiting else .escaped) ∧
    (∀ excuse res b later, (serveClient s n h .valueError true told excuse (.op res b :: later)).answers = [.noState]) ∧
    (∀ excuse later, (serveClient s n h .valueError true told excuse (.close true :: later)).answers = [.noState, .confirm none]) ∧
    ∀ later, (serveClient s n h .valueError true told true (.gone :: later)).answers = [.noState, .error] := by
  obtain ⟨⟨un, rest, wn⟩, hd⟩ := (C59_draw_iff n s.free).2 hen
  obtain ⟨placed, hp, -⟩ := C60_tiles hd
  have hlen : rest.length < s.free.length := by
    have h1 := (C59_drawn hd).1.length_eq
    rw [List.length_append] at h1
    have h2 : un ≠ [] := by
      intro e
      have := (C59_drawn hd).2.1
      rw [e, List.length_nil] at this
      exact absurd this (Nat.pow_pos (by norm_num)).ne
    have := List.length_pos_of_ne_nil h2
    omega
  refine ⟨?_, ?_, ?_, ?_⟩
  · intro excuse reqs
    unfold serveClient
    simp only [hd, hp, if_true]
    refine ⟨?_, ?_, ?_⟩
    · have : (serveNothing excuse { s with free := rest } reqs).mgr.free = rest := by
        rcases reqs with _ | ⟨_ | _ | _, _⟩ <;> rfl
      simp only [this]
      exact hlen
    · rcases reqs with _ | ⟨_ | _ | _, _⟩ <;> rfl
    · rcases reqs with _ | ⟨_ | _ | _, _⟩ <;> rfl
  all_goals
    intros
    unfold serveClient
    simp only [hd, hp, if_true]
    rfl

/-- C101 is false if a worker cannot be told of the end of the session: whatever the client asked, once the session is over its
connection stays open and an exception escapes; the workers it still held are not free.  The same if the handle cannot be sent. -/
theorem C101_left_open {s : MState} {n h : Nat} (hen : ∃ S, List.Subperm S s.free ∧ Enough n S) (excuse : Bool) :
    (∀ reqs, (serveClient s n h .ok true false excuse reqs).ending ≠ .waiting →
      (serveClient s n h .ok true false excuse reqs).ending = .escaped ∧
      (serveClient s n h .ok true false excuse reqs).closed = false) ∧
    (∀ ds : List (Option (Nat × ℝ)), ∀ r, (r = .gone ∨ ∃ b, r = .close b) → ∀ later,
      (serveClient s n h .ok true false excuse (ds.map (fun d => served (none, d)) ++ r :: later)).mgr.free.length < s.free.length) ∧
    ∀ told reqs, (serveClient s n h .ok false told excuse reqs).answers = [] ∧
      (serveClient s n h .ok false told excuse reqs).ending = .escaped ∧
      (serveClient s n h .ok false told excuse reqs).closed = false ∧
      (serveClient s n h .ok false told excuse reqs).mgr.free.length < s.free.length := by
  obtain ⟨⟨un, rest, wn⟩, hd⟩ := (C59_draw_iff n s.free).2 hen
  obtain ⟨placed, hp, hperm, -⟩ := C60_tiles hd
  have hlen : rest.length < s.free.length := by
    have h1 := (C59_drawn hd).1.length_eq
    rw [List.length_append] at h1
    have h2 : un ≠ [] := by
      intro e
      have := (C59_drawn hd).2.1
      rw [e, List.length_nil] at this
      exact absurd this (Nat.pow_pos (by norm_num)).ne
    have := List.length_pos_of_ne_nil h2
    omega
  refine ⟨?_, ?_, ?_⟩
  · intro reqs hw
    unfold serveClient at hw ⊢
    simp only [hd, hp, if_true] at hw ⊢
    clear hp hperm hd hen
    generalize ({ s with free := rest, pools := Function.update s.pools h placed, live := s.live ++ [h] } : MState) = s' at hw ⊢
    induction reqs generalizing s' with
    | nil => exact absurd rfl hw
    | cons r rest ih =>
      rcases r with ⟨res, sent⟩ | sent | _
      · rcases res with ⟨t, d⟩ | _ | e
        · rw [serveLoop] at hw ⊢
          cases sent with
          | true => exact ih _ hw
          | false => exact ⟨rfl, rfl⟩
        · exact ⟨rfl, rfl⟩
        · exact ⟨rfl, rfl⟩
      · rw [serveLoop]
        cases sent <;> exact ⟨rfl, rfl⟩
      · exact ⟨rfl, rfl⟩
  · intro ds r hr later
    unfold serveClient
    simp only [hd, hp, if_true]
    have hfin : ∀ s' : MState, (mgrStep s' (.finish h false)).free = s'.free := by
      intro s'
      simp only [mgrStep]
      split <;> rfl
    have key : ∀ s' : MState, (serveLoop h false excuse (ds.map (fun d => served (none, d)) ++ r :: later) s').mgr.free = s'.free := by
      intro s'
      induction ds with
      | nil =>
        rcases hr with rfl | ⟨b, rfl⟩
        · exact hfin s'
        · rw [List.map_nil, List.nil_append, serveLoop]
          cases b <;> exact hfin s'
      | cons d ds ih => exact ih
    rw [key]
    exact hlen
  · intro told reqs
    unfold serveClient
    simp only [hd, hp]
    exact ⟨rfl, rfl, rfl, hlen⟩

/-- A session on two workers: a measurement, then the client disappears. -/
example : let r := serveClient ⟨[⟨0, 3⟩, ⟨1, 2⟩], [⟨0, 3⟩, ⟨1, 2⟩], fun _ => [], []⟩ 2 7 .ok true true true ([(none, some (1, (1 / 2 : ℝ)))].map served ++ [Request.op .ioError true])
    r.answers = [.handle 7, .confirm (some (1, 1 / 2)), .error] ∧ r.mgr.free.Perm [⟨0, 3⟩, ⟨1, 2⟩] := by
  have hen : ∃ S, List.Subperm S [(⟨0, 3⟩ : Wkr), ⟨1, 2⟩] ∧ Enough 2 S :=
    ⟨[⟨0, 3⟩], (List.singleton_sublist.2 (by simp)).subperm, by simp, by simp⟩
  have h1 := (C101_answers_partial (s := ⟨[⟨0, 3⟩, ⟨1, 2⟩], [⟨0, 3⟩, ⟨1, 2⟩], fun _ => [], []⟩) (h := 7) hen
    [(none, some (1, (1 / 2 : ℝ)))] true).2.2 [] true
  exact ⟨h1.1, (C101_workers_back (s := ⟨[⟨0, 3⟩, ⟨1, 2⟩], [⟨0, 3⟩, ⟨1, 2⟩], fun _ => [], []⟩) hen true _ (by rw [h1.2.1]; decide)).1⟩

/-- Three qubits on two workers with two qubits each: no reply. -/
example (reqs : List Request) : (serveClient ⟨[⟨0, 2⟩, ⟨1, 2⟩], [⟨0, 2⟩, ⟨1, 2⟩], fun _ => [], []⟩ 3 7 .ok true true true reqs).answers
    = [] := by
  rw [C101_refused_silently]
  rintro ⟨S, h1, h2, h3⟩
  obtain ⟨w, hw⟩ := List.exists_mem_of_ne_nil S h2
  have hl := h1.length_le
  have h4 := h3 w hw
  have hn : w.nq = 2 := by
    have := h1.subset hw
    simp only [List.mem_cons, List.not_mem_nil, or_false] at this
    rcases this with rfl | rfl <;> rfl
  rw [hn] at h4
  simp at hl
  omega

/-- One of the workers is gone when the client closes the session. -/
example (later : List Request) :
    (serveClient ⟨[⟨0, 3⟩, ⟨1, 2⟩], [⟨0, 3⟩, ⟨1, 2⟩], fun _ => [], []⟩ 2 7 .ok true false true
      ([some (1, (1 / 2 : ℝ))].map (fun d => served (none, d)) ++ .close true :: later)).closed = false ∧
    (serveClient ⟨[⟨0, 3⟩, ⟨1, 2⟩], [⟨0, 3⟩, ⟨1, 2⟩], fun _ => [], []⟩ 2 7 .ok true false true
      ([some (1, (1 / 2 : ℝ))].map (fun d => served (none, d)) ++ .close true :: later)).mgr.free.length < 2 := by
  have hen : ∃ S, List.Subperm S [(⟨0, 3⟩ : Wkr), ⟨1, 2⟩] ∧ Enough 2 S :=
    ⟨[⟨0, 3⟩], (List.singleton_sublist.2 (by simp)).subperm, by simp, by simp⟩
  have h1 := C101_left_open (s := ⟨[⟨0, 3⟩, ⟨1, 2⟩], [⟨0, 3⟩, ⟨1, 2⟩], fun _ => [], []⟩) (h := 7) hen true
  refine ⟨(h1.1 _ ?_).2, h1.2.1 _ _ (.inr ⟨true, rfl⟩) later⟩
  obtain ⟨s', hs⟩ := serveClient_good (h := 7) (s := ⟨[⟨0, 3⟩, ⟨1, 2⟩], [⟨0, 3⟩, ⟨1, 2⟩], fun _ => [], []⟩) hen false true
    ([some (1, (1 / 2 : ℝ))].map (fun d => served (none, d)) ++ .close true :: later)
  rw [hs]
  simp [served, serveLoop, sessionEnd]

/-- A client of two qubits whose setup fails: a gate gets no reply. -/
example : (serveClient ⟨[⟨0, 3⟩, ⟨1, 2⟩], [⟨0, 3⟩, ⟨1, 2⟩], fun _ => [], []⟩ 2 7 .valueError true true true [.op (.ok none none) true]).answers
    = [.noState] :=
  (C101_failed_setup ⟨[⟨0, 3⟩], (List.singleton_sublist.2 (by simp)).subperm, by simp, by simp⟩ true).2.1 _ _ _ _

end QIP.Props
