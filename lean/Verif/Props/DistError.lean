import Verif.Props.DistRun

/-!
# C99: errors reported by the manager
-/

namespace QIP.Props

open QIP QIP.Spec Heap

/-- A step either asks nothing, or asks once. -/
theorem distFeed_asks {h : Heap} {st st' : DFeeder} {gs : List (List Nat)} {own : List Nat} {x : Nat}
    (hr : distFeed h st gs own x = .ok st') :
    (st'.replies = st.replies ∧ st'.sent = st.sent ∧
      ∀ R, distFeed h { st with replies := R } gs own x = .ok { st' with replies := R }) ∨
    ∃ r q, st.replies = r :: st'.replies ∧ st'.sent = st.sent ++ [q] ∧
      (∀ R, distFeed h { st with replies := r :: R } gs own x = .ok { st' with replies := R }) ∧
      (∀ R, distFeed h { st with replies := .failed :: R } gs own x = .error .exception) ∧
      distFeed h { st with replies := [] } gs own x = .error .diverges := by
  obtain ⟨ms, cl, sent, replies⟩ := st
  rcases hk : h.kind x with _ | is | ⟨g, d⟩ | f | _ | k
  · left
    simp only [distFeed, hk] at hr ⊢
    injection hr with hr
    subst hr
    exact ⟨rfl, rfl, fun R => rfl⟩
  · left
    simp only [distFeed, hk] at hr ⊢
    injection hr with hr
    subst hr
    exact ⟨rfl, rfl, fun R => rfl⟩
  · right
    simp only [distFeed, hk, bind, Except.bind] at hr ⊢
    rcases hm : opMats (ms x) g d gs with e | m
    · simp [hm] at hr
    rcases hp : matsToPb m with e | pb
    · simp [hm, hp] at hr
    rcases replies with _ | ⟨r, rest⟩
    · simp [hm, hp, ask] at hr
    rcases r with _ | ⟨a, b⟩ | ⟨a, b⟩ | _ <;> simp only [hm, hp, ask] at hr ⊢
    · injection hr with hr; subst hr
      exact ⟨.confirm, _, rfl, rfl, fun R => rfl, fun R => trivial, trivial⟩
    · injection hr with hr; subst hr
      exact ⟨.measured a b, _, rfl, rfl, fun R => rfl, fun R => trivial, trivial⟩
    · injection hr with hr; subst hr
      exact ⟨.top a b, _, rfl, rfl, fun R => rfl, fun R => trivial, trivial⟩
    · cases hr
  · simp [distFeed, hk] at hr
  · right
    simp only [distFeed, hk, bind, Except.bind] at hr ⊢
    rcases hp : indicesToPb (.tup gs.flatten) with e | pb
    · simp [hp] at hr
    rcases replies with _ | ⟨r, rest⟩
    · simp [hp, ask] at hr
    rcases r with _ | ⟨a, b⟩ | ⟨a, b⟩ | _ <;> simp only [hp, ask] at hr ⊢
    · cases hr
    · injection hr with hr; subst hr
      exact ⟨.measured a b, _, rfl, rfl, fun R => rfl, fun R => trivial, trivial⟩
    · cases hr
    · cases hr
  · right
    simp only [distFeed, hk, bind, Except.bind] at hr ⊢
    rcases hp : indicesToPb (.tup gs.flatten) with e | pb
    · simp [hp] at hr
    rcases replies with _ | ⟨r, rest⟩
    · simp [hp, ask] at hr
    rcases r with _ | ⟨a, b⟩ | ⟨a, b⟩ | _ <;> simp only [hp, ask] at hr ⊢
    · cases hr
    · cases hr
    · injection hr with hr; subst hr
      exact ⟨.top a b, _, rfl, rfl, fun R => rfl, fun R => trivial, trivial⟩
    · cases hr

theorem distFold_asks {h : Heap} {args : List Nat} (L : List Nat) {st acc : DFeeder}
    (hr : L.foldlM (fun a x => distFeed h a (groups h args x) (wires h args x) x) st = .ok acc) :
    ∃ used suf, st.replies = used ++ acc.replies ∧ acc.sent = st.sent ++ suf ∧ suf.length = used.length ∧
      (∀ R, L.foldlM (fun a x => distFeed h a (groups h args x) (wires h args x) x) { st with replies := used ++ R }
        = .ok { acc with replies := R }) ∧
      ∀ j < used.length,
        (∀ R, L.foldlM (fun a x => distFeed h a (groups h args x) (wires h args x) x)
          { st with replies := used.take j ++ .failed :: R } = .error .exception) ∧
        L.foldlM (fun a x => distFeed h a (groups h args x) (wires h args x) x) { st with replies := used.take j }
          = .error .diverges := by
  induction L generalizing st with
  | nil =>
    cases hr
    exact ⟨[], [], by simp, by simp, rfl, fun R => rfl, by simp⟩
  | cons x L ih =>
    rw [List.foldlM_cons] at hr
    rcases h1 : distFeed h st (groups h args x) (wires h args x) x with e | s
    · rw [h1] at hr; cases hr
    rw [h1] at hr
    simp only [bind, Except.bind] at hr
    obtain ⟨used, suf, i1, i2, i3, i4, i5⟩ := ih hr
    simp only [List.foldlM_cons]
    rcases distFeed_asks h1 with ⟨a1, a2, a3⟩ | ⟨r, q, a1, a2, a3, a4, a5⟩
    · refine ⟨used, suf, by rw [← a1, i1], by rw [i2, a2], i3, ?_, ?_⟩
      · intro R
        rw [a3]
        exact i4 R
      · intro j hj
        refine ⟨fun R => ?_, ?_⟩
        · rw [a3]
          exact (i5 j hj).1 R
        · rw [a3]
          exact (i5 j hj).2
    · refine ⟨r :: used, q :: suf, by rw [a1, i1]; rfl, by rw [i2, a2]; simp, by simp [i3], ?_, ?_⟩
      · intro R
        rw [List.cons_append, a3]
        exact i4 R
      · intro j hj
        rcases j with _ | j
        · refine ⟨fun R => ?_, ?_⟩
          · rw [List.take_zero, List.nil_append, a4]
            rfl
          · rw [List.take_zero, a5]
            rfl
        · have hj' : j < used.length := by simpa using hj
          rw [List.take_succ_cons]
          refine ⟨fun R => ?_, ?_⟩
          · rw [List.cons_append, a3]
            exact (i5 j hj').1 R
          · rw [a3]
            exact (i5 j hj').2

/-- A successful run, and what it would be with other replies. -/
theorem distRun_replies {h : Heap} {env args : List Nat} (c : Circuit h env args) {ms : MsTable}
    {feed : List (List Nat × InitState)} {strict : Bool} {state : Option StateKw} {pick : List Nat → Nat}
    {shuffle : List Nat → List Nat} (hsh : ∀ l, (shuffle l).Perm l) {handle : Option String} {replies : List Reply}
    {r : DistResult} (hr : distRun h ms args feed strict state pick shuffle handle replies = .ok r) :
    ∃ (order : List Nat) (acc : DFeeder),
      order.foldlM (fun a x => distFeed h a (groups h args x) (wires h args x) x) ⟨ms, [], [], replies⟩ = .ok acc ∧
      r.sent = acc.sent ∧
      (∀ R, distRun h ms args feed strict state pick shuffle none R = .error .exception) ∧
      ∀ R, distRun h ms args feed strict state pick shuffle handle R = (do
        let acc ← order.foldlM (fun a x => distFeed h a (groups h args x) (wires h args x) x) ⟨ms, [], [], R⟩
        .ok { r with classic := acc.classic, ms := acc.ms, sent := acc.sent }) := by
  obtain ⟨deps, nodes, order, e1, e2, e3, -⟩ := C32_run_graph c pick shuffle hsh
  refine ⟨order, ?_⟩
  unfold distRun at hr ⊢
  simp only [e1, bind, Except.bind] at hr ⊢
  split at hr
  · cases hr
  next h1 =>
  simp only [if_neg h1]
  split at hr
  · cases hr
  split at hr
  · cases hr
  split at hr
  · cases hr
  rcases handle with _ | hd
  · cases hr
  simp only [e2] at hr ⊢
  split at hr
  · cases hr
  next acc h5 =>
  injection hr with hr
  refine ⟨acc, h5, by rw [← hr], fun _ => trivial, fun R => ?_⟩
  rw [← hr]

/-- C99 (errors of the manager): let `run` with the distributed backend succeed and have sent `k` requests.  It has read
exactly `k` replies: what comes afterwards changes nothing.  If instead the manager answers any of these requests with an
error, or the setup, then `run` raises an exception; if it never answers one of them, `run` waits forever. -/
theorem C99_errors {h : Heap} {env args : List Nat} (c : Circuit h env args) {ms : MsTable}
    {feed : List (List Nat × InitState)} {strict : Bool} {state : Option StateKw} {pick : List Nat → Nat}
    {shuffle : List Nat → List Nat} (hsh : ∀ l, (shuffle l).Perm l) {handle : Option String} {replies : List Reply}
    {r : DistResult} (hr : distRun h ms args feed strict state pick shuffle handle replies = .ok r) :
    r.sent.length ≤ replies.length ∧
    (∀ R, distRun h ms args feed strict state pick shuffle handle (replies.take r.sent.length ++ R) = .ok r) ∧
    (∀ j < r.sent.length, ∀ R,
      distRun h ms args feed strict state pick shuffle handle (replies.take j ++ .failed :: R) = .error .exception) ∧
    (∀ j < r.sent.length,
      distRun h ms args feed strict state pick shuffle handle (replies.take j) = .error .diverges) ∧
    ∀ R, distRun h ms args feed strict state pick shuffle none R = .error .exception := by
  obtain ⟨order, acc, f1, f2, f3, f4⟩ := distRun_replies c hsh hr
  obtain ⟨used, suf, u1, u2, u3, u4, u5⟩ := distFold_asks order f1
  have hk : r.sent.length = used.length := by rw [f2, u2]; simpa using u3
  have u1' : replies = used ++ acc.replies := u1
  rw [hk, u1']
  have hrr := f4 replies
  rw [hr, f1] at hrr
  refine ⟨by simp, fun R => ?_, fun j hj R => ?_, fun j hj => ?_, f3⟩
  · rw [List.take_left, f4]
    have := u4 R
    dsimp only at this
    rw [this]
    exact hrr.symm
  · rw [List.take_append_of_le_length hj.le, f4]
    have := (u5 j hj).1 R
    dsimp only at this
    rw [this]
    rfl
  · rw [List.take_append_of_le_length hj.le, f4]
    have := (u5 j hj).2
    dsimp only at this
    rw [this]
    rfl

/-- The distribution of `Props/DistRun`: one request, whose error is raised. -/
example : distRun sides (fun _ => none) [4] [([3], .vec [3 / 5, 4 / 5])] false none (fun _ => 0) id (some "job")
    [.failed] = .error .exception ∧
    distRun sides (fun _ => none) [4] [([3], .vec [3 / 5, 4 / 5])] false none (fun _ => 0) id (some "job") []
      = .error .diverges := by
  obtain ⟨r, h1, h2, -⟩ := sides_run
  have h := C99_errors (sides_circuit (.inr rfl)) (fun _ => .refl _) h1
  exact ⟨h.2.2.1 0 (by rw [h2]; simp) [], h.2.2.2.1 0 (by rw [h2]; simp)⟩

end QIP.Props
