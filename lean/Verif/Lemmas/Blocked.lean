import Verif.Lemmas.Parts

/-!
# A worker that waits for another worker that does not know it
-/

namespace QIP

variable {prm : Wid → WParam} {ws : List Wid}

/-- The manager sends nothing but synchronisations, and cannot finish before `p` has reported. -/
inductive WaitsFor (p : Wid) : MProg → Prop where
  | send (w : Wid) (k : MProg) : WaitsFor p k → WaitsFor p (.send w (.sync 0 false) k)
  | here (k : NMsg → MProg) : WaitsFor p (.recv p k)
  | recv (w : Wid) (k : NMsg → MProg) : (∀ m, WaitsFor p (k m)) → WaitsFor p (.recv w k)

theorem waitsFor_sync {p : Wid} (hp : p ∈ ws) (k : List NMsg → MProg) : WaitsFor p (mapWorkers (.sync 0 false) ws k) := by
  have h1 : ∀ (l : List Wid) (k : List NMsg → MProg), p ∈ l → WaitsFor p (recvEach l k) := by
    intro l
    induction l with
    | nil => intro k h; simp at h
    | cons w l ih =>
      intro k h
      by_cases hw : w = p
      · subst hw; exact .here _
      · exact .recv w _ fun m => ih _ (by simpa [Ne.symm hw] using h)
  have h2 : ∀ (l : List Wid) (k : MProg), WaitsFor p k → WaitsFor p (sendEach (.sync 0 false) l k) := by
    intro l
    induction l with
    | nil => intro k h; exact h
    | cons w l ih => intro k h; exact .send w _ (ih k h)
  exact h2 _ _ (h1 _ _ hp)

/-- The worker with which a transfer is done. -/
def Task.partner : Task → Wid
  | .sendTo q => q
  | .recvFrom q _ => q

def Cur.partner : Cur → Wid
  | .sAccept q => q
  | .sLoop q _ _ _ _ => q
  | .rAccept q _ => q
  | .rData q _ => q
  | .rAck q _ _ => q

/-- A worker has no transfer with `p` to do. -/
def Avoids (p : Wid) : Pc → Prop
  | .xfer cur todo => cur.partner ≠ p ∧ ∀ t ∈ todo, t.partner ≠ p
  | _ => True

theorem avoids_next {p : Wid} {ts : List Task} (h : ∀ t ∈ ts, t.partner ≠ p) : Avoids p (nextTask ts) := by
  cases ts with
  | nil => trivial
  | cons t ts =>
    have h1 := h t (by simp)
    have h2 : ∀ t ∈ ts, t.partner ≠ p := fun t ht => h t (by simp [ht])
    cases t <;> exact ⟨h1, h2⟩

/-- Only synchronisations. -/
def OnlySync (l : List NMsg) : Prop := ∀ m ∈ l, m = .op (.sync 0 false)

/-- Worker `p` is, or will be, waiting for `q`, which does not know it. -/
structure Blocked (prm : Wid → WParam) (p q : Wid) (c : Cfg Pid NMsg NLoc) : Prop where
  mgr : ∃ pm, c.loc none = .mgr pm ∧ WaitsFor p pm
  pst : ∃ s, c.loc (some p) = .wkr s ∧ (s.pc = .idle ∨ ∃ ts, s.pc = .xfer (.sAccept q) ts)
  qst : ∃ s, c.loc (some q) = .wkr s ∧ Avoids p s.pc
  toP : OnlySync (c.buf (none, some p))
  toQ : OnlySync (c.buf (none, some q))
  fromP : c.buf (some p, none) = []
  fromQ : c.buf (some q, some p) = []

/-- A worker that has no transfer with `p` to do, and does not get one by the operations it receives, never sends to `p`, and
stays so. -/
theorem avoids_act {p q : Wid} {A : WOp → Prop} (hq : ∀ o, A o → ∀ s, Avoids p (handleOp (prm q) q s o).2) {s : WSt}
    (hs : Avoids p s.pc) :
    (∀ y m s', workerAct (prm q) q s = .send y m s' → y ≠ some p ∧ Avoids p s'.pc) ∧
    ∀ y k, workerAct (prm q) q s = .recv y k → ∀ m, (y = none → ∃ o, m = .op o ∧ A o) → Avoids p (k m).pc := by
  rcases hpc : s.pc with _ | m | ⟨cur, ts⟩ | _ | _
  · constructor
    · intro y m s' he
      simp only [workerAct, hpc] at he
      cases he
    · intro y k he m hm
      simp only [workerAct, hpc, Act.recv.injEq] at he
      obtain ⟨rfl, rfl⟩ := he
      obtain ⟨o, rfl, ho⟩ := hm rfl
      exact hq o ho s
  · constructor
    · intro y m' s' he
      simp only [workerAct, hpc, Act.send.injEq] at he
      obtain ⟨rfl, rfl, rfl⟩ := he
      exact ⟨by simp, trivial⟩
    · intro y k he
      simp only [workerAct, hpc] at he
      cases he
  · rw [hpc] at hs
    obtain ⟨a1, a2⟩ := hs
    have hx := avoids_next a2
    cases cur with
    | sAccept y' =>
      constructor
      · intro y m s' he
        simp only [workerAct, hpc] at he
        cases he
      · intro y k he m hm
        simp only [workerAct, hpc, Act.recv.injEq] at he
        obtain ⟨rfl, rfl⟩ := he
        cases m with
        | accept ch mx =>
          simp only
          split
          · exact ⟨a1, a2⟩
          · exact hx
        | _ => trivial
    | sLoop y' last infl ch mx =>
      by_cases hl : infl < mx ∧ last < s.b.state.length
      · constructor
        · intro y m s' he
          simp only [workerAct, hpc, if_pos hl, Act.send.injEq] at he
          obtain ⟨rfl, rfl, rfl⟩ := he
          exact ⟨fun h => a1 (by injection h), a1, a2⟩
        · intro y k he
          simp only [workerAct, hpc, if_pos hl] at he
          cases he
      · constructor
        · intro y m s' he
          simp only [workerAct, hpc, if_neg hl] at he
          cases he
        · intro y k he m hm
          simp only [workerAct, hpc, if_neg hl, Act.recv.injEq] at he
          obtain ⟨rfl, rfl⟩ := he
          cases m with
          | accept ch mx =>
            simp only
            split
            · exact ⟨a1, a2⟩
            · exact hx
          | _ => trivial
    | rAccept y' ow =>
      constructor
      · intro y m s' he
        simp only [workerAct, hpc, Act.send.injEq] at he
        obtain ⟨rfl, rfl, rfl⟩ := he
        exact ⟨fun h => a1 (by injection h), a1, a2⟩
      · intro y k he
        simp only [workerAct, hpc] at he
        cases he
    | rData y' ow =>
      constructor
      · intro y m s' he
        simp only [workerAct, hpc] at he
        cases he
      · intro y k he m hm
        simp only [workerAct, hpc, Act.recv.injEq] at he
        obtain ⟨rfl, rfl⟩ := he
        cases m with
        | data start amps d =>
          simp only
          generalize (if ow = true then _ else _ : Except PyErr BState) = e
          cases e with
          | ok b => exact ⟨a1, a2⟩
          | error e => trivial
        | _ => trivial
    | rAck y' ow d =>
      constructor
      · intro y m s' he
        simp only [workerAct, hpc, Act.send.injEq] at he
        obtain ⟨rfl, rfl, rfl⟩ := he
        refine ⟨fun h => a1 (by injection h), ?_⟩
        split
        · exact hx
        · exact ⟨a1, a2⟩
      · intro y k he
        simp only [workerAct, hpc] at he
        cases he
  · constructor <;> intros <;> simp_all [workerAct]
  · constructor <;> intros <;> simp_all [workerAct]

theorem blocked_step {p q : Wid} (hpq : p ≠ q) (hp : ∃ ts, syncTasks (prm p) p 0 false = .sendTo q :: ts)
    (hq : ∀ t ∈ syncTasks (prm q) q 0 false, t.partner ≠ p) {c c' : Cfg Pid NMsg NLoc} {x : Pid}
    (hc : Blocked prm p q c) (h : stepP (netAct prm) x c = some c') : Blocked prm p q c' := by
  obtain ⟨⟨pm, m1, m2⟩, ⟨sp, p1, p2⟩, ⟨sq, q1, q2⟩, h1, h2, h3, h4⟩ := hc
  have hqp : (some q : Pid) ≠ some p := by simpa using Ne.symm hpq
  unfold stepP at h
  cases x with
  | none =>
    rw [m1] at h
    cases m2 with
    | send w k hk =>
      simp only [netAct, Option.some.injEq] at h
      subst h
      refine ⟨⟨k, by simp, hk⟩, ⟨sp, by simpa using p1, p2⟩, ⟨sq, by simpa using q1, q2⟩, ?_, ?_, ?_, ?_⟩
      · intro m hm
        by_cases hw : w = p
        · subst hw
          simp only [Function.update_self, List.mem_append, List.mem_singleton] at hm
          rcases hm with hm | hm
          · exact h1 m hm
          · exact hm
        · dsimp only at hm; rw [Function.update_of_ne (by simpa using Ne.symm hw)] at hm
          exact h1 m hm
      · intro m hm
        by_cases hw : w = q
        · subst hw
          simp only [Function.update_self, List.mem_append, List.mem_singleton] at hm
          rcases hm with hm | hm
          · exact h2 m hm
          · exact hm
        · dsimp only at hm; rw [Function.update_of_ne (by simpa using Ne.symm hw)] at hm
          exact h2 m hm
      · (try dsimp only); rw [Function.update_of_ne (by simp)]; exact h3
      · (try dsimp only); rw [Function.update_of_ne (by simp)]; exact h4
    | here k =>
      simp only [netAct, h3] at h
      cases h
    | recv w k hk =>
      simp only [netAct] at h
      rcases hb : c.buf (some w, none) with _ | ⟨m, rest⟩ <;> rw [hb] at h <;> simp only at h
      · cases h
      simp only [Option.some.injEq] at h
      subst h
      have hwp : w ≠ p := by
        rintro rfl
        rw [h3] at hb
        cases hb
      refine ⟨⟨k m, by simp, hk m⟩, ⟨sp, by simpa using p1, p2⟩, ⟨sq, by simpa using q1, q2⟩, ?_, ?_, ?_, ?_⟩
      · (try dsimp only); rw [Function.update_of_ne (by simp)]; exact h1
      · (try dsimp only); rw [Function.update_of_ne (by simp)]; exact h2
      · (try dsimp only); rw [Function.update_of_ne (by simpa using Ne.symm hwp)]; exact h3
      · (try dsimp only); rw [Function.update_of_ne (by simp)]; exact h4
  | some w =>
    by_cases hwp : w = p
    · subst hwp
      rw [p1] at h
      rcases p2 with p2 | ⟨ts, p2⟩
      · simp only [netAct, workerAct, p2] at h
        rcases hb : c.buf (none, some w) with _ | ⟨m, rest⟩ <;> rw [hb] at h <;> simp only at h
        · cases h
        simp only [Option.some.injEq] at h
        subst h
        have hm : m = .op (.sync 0 false) := h1 m (by rw [hb]; simp)
        subst hm
        obtain ⟨ts, hts⟩ := hp
        refine ⟨⟨pm, by simpa using m1, m2⟩, ⟨_, Function.update_self .., Or.inr ⟨ts, ?_⟩⟩,
          ⟨sq, by dsimp only; rw [Function.update_of_ne hqp]; exact q1, q2⟩, ?_, ?_, ?_, ?_⟩
        · simp only [handleOp, hts, nextTask]
        · intro m hm
          simp only [Function.update_self] at hm
          exact h1 m (by rw [hb]; simp [hm])
        · (try dsimp only); rw [Function.update_of_ne (by simpa using Ne.symm hpq)]; exact h2
        · (try dsimp only); rw [Function.update_of_ne (by simp)]; exact h3
        · (try dsimp only); rw [Function.update_of_ne (by simp)]; exact h4
      · simp only [netAct, workerAct, p2, h4] at h
        cases h
    · by_cases hwq : w = q
      · subst hwq
        rw [q1] at h
        have keep : ∀ (loc : Pid → NLoc) (s' : WSt), loc = Function.update c.loc (some w) (.wkr s') → Avoids p s'.pc →
            ∀ buf : Pid × Pid → List NMsg, OnlySync (buf (none, some p)) → OnlySync (buf (none, some w)) →
            buf (some p, none) = [] → buf (some w, some p) = [] → Blocked prm p w ⟨loc, buf⟩ := by
          intro loc s' hl ha buf b1 b2 b3 b4
          subst hl
          exact ⟨⟨pm, by simpa using m1, m2⟩, ⟨sp, by simp [Function.update_of_ne hqp.symm, p1], p2⟩,
            ⟨s', by simp, ha⟩, b1, b2, b3, b4⟩
        -- reception from `y`
        have hrecv : ∀ (y : Pid) (k : NMsg → WSt), (y = none → ∀ m, m = .op (.sync 0 false) → Avoids p (k m).pc) →
            (y ≠ none → ∀ m, Avoids p (k m).pc) → workerAct (prm w) w sq = .recv y k → Blocked prm p w c' := by
          intro y k hk1 hk2 he
          simp only [netAct, he] at h
          rcases hb : c.buf (y, some w) with _ | ⟨m, rest⟩ <;> rw [hb] at h <;> simp only at h
          · cases h
          simp only [Option.some.injEq] at h
          subst h
          refine keep _ _ rfl ?_ _ ?_ ?_ ?_ ?_
          · by_cases hy : y = none
            · subst hy
              exact hk1 rfl m (h2 m (by rw [hb]; simp))
            · exact hk2 hy m
          · (try dsimp only); rw [Function.update_of_ne (by simp [Ne.symm hwp])]; exact h1
          · by_cases hy : y = none
            · subst hy
              intro m' hm'
              simp only [Function.update_self] at hm'
              exact h2 m' (by rw [hb]; simp [hm'])
            · (try dsimp only); rw [Function.update_of_ne (by simp [Ne.symm hy])]; exact h2
          · (try dsimp only); rw [Function.update_of_ne (by simp)]; exact h3
          · (try dsimp only); rw [Function.update_of_ne (by simp [Ne.symm hwp])]; exact h4
        have hsend : ∀ (y : Pid) (m : NMsg) (s' : WSt), y ≠ some p → Avoids p s'.pc →
            workerAct (prm w) w sq = .send y m s' → Blocked prm p w c' := by
          intro y m s' hy ha he
          simp only [netAct, he, Option.some.injEq] at h
          subst h
          refine keep _ _ rfl ha _ ?_ ?_ ?_ ?_
          · (try dsimp only); rw [Function.update_of_ne (by simp)]; exact h1
          · (try dsimp only); rw [Function.update_of_ne (by simp)]; exact h2
          · (try dsimp only); rw [Function.update_of_ne (by simp [hpq])]; exact h3
          · (try dsimp only); rw [Function.update_of_ne (by simp [Ne.symm hy])]; exact h4
        obtain ⟨hs1, hs2⟩ := avoids_act (prm := prm) (A := fun o => o = .sync 0 false)
          (fun o ho s => by subst ho; exact avoids_next hq) q2
        rcases ha : workerAct (prm w) w sq with _ | ⟨y, m, s'⟩ | ⟨y, k⟩
        · simp only [netAct, ha] at h
          cases h
        · exact hsend y m s' (hs1 y m s' ha).1 (hs1 y m s' ha).2 ha
        · exact hrecv y k (fun hy m hm => hs2 y k ha m fun _ => ⟨_, hm, rfl⟩) (fun hy m => hs2 y k ha m fun h => absurd h hy) ha
      · -- another worker
        have other : ∀ (l : NLoc) (buf : Pid × Pid → List NMsg), buf (none, some p) = c.buf (none, some p) →
            buf (none, some q) = c.buf (none, some q) → buf (some p, none) = c.buf (some p, none) →
            buf (some q, some p) = c.buf (some q, some p) →
            Blocked prm p q ⟨Function.update c.loc (some w) l, buf⟩ := by
          intro l buf b1 b2 b3 b4
          exact ⟨⟨pm, by simpa using m1, m2⟩, ⟨sp, by simp [Function.update_of_ne, Ne.symm hwp, p1], p2⟩,
            ⟨sq, by simp [Function.update_of_ne, Ne.symm hwq, q1], q2⟩, by dsimp only; rw [b1]; exact h1,
            by dsimp only; rw [b2]; exact h2, by dsimp only; rw [b3]; exact h3, by dsimp only; rw [b4]; exact h4⟩
        rcases ha : netAct prm (some w) (c.loc (some w)) with _ | ⟨y, m, s'⟩ | ⟨y, k⟩ <;> rw [ha] at h <;> simp only at h
        · cases h
        · simp only [Option.some.injEq] at h
          subst h
          apply other <;> (try dsimp only) <;> rw [Function.update_of_ne] <;> simp [Ne.symm hwp, Ne.symm hwq]
        · rcases hb : c.buf (y, some w) with _ | ⟨m, rest⟩ <;> rw [hb] at h <;> simp only at h
          · cases h
          simp only [Option.some.injEq] at h
          subst h
          apply other <;> (try dsimp only) <;> rw [Function.update_of_ne] <;> simp [Ne.symm hwp, Ne.symm hwq]

end QIP
