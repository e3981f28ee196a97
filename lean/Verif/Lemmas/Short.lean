import Verif.Model.Reduce
import Verif.Lemmas.Blocked

/-!
# A manager that waits for a report that never comes
-/

namespace QIP

variable {prm : Wid → WParam} {A : Wid → WOp → Prop} {w : Wid} {ans : WOp → Nat}

/-- With at most `k` reports of worker `w` to come, and `ans o` more for every operation `o` sent to it, the manager
cannot finish without an exception; it sends only operations allowed by `A`. -/
def Short (A : Wid → WOp → Prop) (w : Wid) (ans : WOp → Nat) : MProg → Nat → Prop
  | .done (.ok _), _ => False
  | .done (.error _), _ => True
  | .doneTop (.ok _), _ => False
  | .doneTop (.error _), _ => True
  | .send w' o pm, k => A w' o ∧ Short A w ans pm (if w' = w then k + ans o else k)
  | .recv w' kk, k => if w' = w then k = 0 ∨ ∀ m, Short A w ans (kk m) (k - 1) else ∀ m, Short A w ans (kk m) k

theorem Short.mono {pm : MProg} : ∀ {k k' : Nat}, Short A w ans pm k → k' ≤ k → Short A w ans pm k' := by
  induction pm with
  | done r => intro k k' h _; cases r <;> exact h
  | doneTop r => intro k k' h _; cases r <;> exact h
  | send w' o pm ih =>
    intro k k' h hk
    refine ⟨h.1, ih h.2 ?_⟩
    split <;> omega
  | recv w' kk ih =>
    intro k k' h hk
    unfold Short at h ⊢
    split at h
    · next hw =>
      rw [if_pos hw]
      rcases h with h | h
      · left; omega
      · right; intro m; exact ih m (h m) (by omega)
    · next hw =>
      rw [if_neg hw]
      intro m; exact ih m (h m) hk

theorem short_send {o : WOp} {l : List Wid} {pm : MProg} {k : Nat} (hA : ∀ w' ∈ l, A w' o)
    (h : Short A w ans pm (k + l.count w * ans o)) : Short A w ans (sendEach o l pm) k := by
  induction l generalizing k with
  | nil => simpa [sendEach] using h
  | cons x l ih =>
    refine ⟨hA x (by simp), ?_⟩
    apply ih (fun w' hw' => hA w' (by simp [hw']))
    refine h.mono ?_
    by_cases hx : x = w
    · subst hx
      rw [if_pos rfl, List.count_cons_self, Nat.succ_mul]
      omega
    · rw [if_neg hx, List.count_cons_of_ne hx]

theorem short_recv {l : List Wid} : ∀ {kk : List NMsg → MProg} {k : Nat}, (∀ ms, Short A w ans (kk ms) k) →
    Short A w ans (recvEach l kk) (k + l.count w) := by
  induction l with
  | nil => intro kk k h; simpa [recvEach] using h []
  | cons x l ih =>
    intro kk k h
    unfold recvEach Short
    by_cases hx : x = w
    · subst hx
      rw [if_pos rfl, List.count_cons_self]
      right
      intro m
      exact (ih fun ms => h (m :: ms)).mono (by omega)
    · rw [if_neg hx, List.count_cons_of_ne hx]
      intro m
      exact ih fun ms => h (m :: ms)

theorem short_recv_zero {l : List Wid} (hw : w ∈ l) : ∀ {kk : List NMsg → MProg}, Short A w ans (recvEach l kk) 0 := by
  induction l with
  | nil => simp at hw
  | cons x l ih =>
    intro kk
    unfold recvEach Short
    by_cases hx : x = w
    · subst hx
      rw [if_pos rfl]
      exact Or.inl rfl
    · rw [if_neg hx]
      intro m
      exact ih (by simpa [Ne.symm hx] using hw)

theorem short_map {o : WOp} {l : List Wid} {kk : List NMsg → MProg} (hA : ∀ w' ∈ l, A w' o) (ho : ans o ≤ 1)
    (h : ∀ ms, Short A w ans (kk ms) 0) : Short A w ans (mapWorkers o l kk) 0 := by
  apply short_send hA
  refine (short_recv h).mono ?_
  nlinarith [Nat.zero_le (l.count w)]

theorem short_map_zero {o : WOp} {l : List Wid} {kk : List NMsg → MProg} (hA : ∀ w' ∈ l, A w' o) (ho : ans o = 0)
    (hw : w ∈ l) : Short A w ans (mapWorkers o l kk) 0 := by
  apply short_send hA
  rw [ho, Nat.mul_zero]
  exact short_recv_zero hw

/-- `send_reduce_measure` does not finish if `w` answers none of the reductions. -/
theorem short_reduce {n size : Nat} {indices : List Nat} {r : ℝ} {ws : List Wid}
    (hA : ∀ w' o, o = .totalProb ∨ (∃ b, o = .soft indices b) ∨ (∃ b, o = .reduce indices (some b)) → A w' o)
    (hans : ∀ o, ans o ≤ 1) (h0 : ∀ b, ans (.reduce indices b) = 0)
    (hw : w ∈ allReduction (upToOutput size (reduceThreshold n indices) ws)) :
    Short A w ans (sendReduceMeasure n size indices r ws) 0 := by
  unfold sendReduceMeasure
  refine short_map (fun w' _ => hA w' _ (Or.inl rfl)) (hans _) fun confs => ?_
  split
  · trivial
  · next i _ =>
    refine ⟨hA _ _ (Or.inr (Or.inl ⟨_, rfl⟩)), ?_⟩
    have h : ∀ conf : NMsg, Short A w ans (mapWorkers (.soft indices (some conf.bits))
        ((firstWorkers (upToOutput size (reduceThreshold n indices) ws)).eraseIdx i) fun confs =>
          mapWorkers (.reduce indices (some (conf.bits, conf.prob + (confs.map NMsg.prob).sum)))
            (allReduction (upToOutput size (reduceThreshold n indices) ws)) fun _ =>
            mapWorkers (.sync (reduceThreshold n indices) false)
              (allReduction (upToOutput size (reduceThreshold n indices) ws)) fun _ =>
              sendEach .close (doneWorkers size (reduceThreshold n indices) ws)
                (.done (.ok (some (conf.bits, conf.prob + (confs.map NMsg.prob).sum))))) 0 := by
      intro conf
      refine short_map (fun w' _ => hA w' _ (Or.inr (Or.inl ⟨_, rfl⟩))) (hans _) fun confs => ?_
      exact short_map_zero (fun w' _ => hA w' _ (Or.inr (Or.inr ⟨_, rfl⟩))) (h0 _) hw
    unfold Short
    split
    · right
      intro conf
      refine (h conf).mono ?_
      have := hans (.soft indices none)
      omega
    · exact h

/-- `send_reduce_measure` does not finish if `w` does not answer the synchronisation. -/
theorem short_reduce_sync {n size : Nat} {indices : List Nat} {r : ℝ} {ws : List Wid}
    (hA : ∀ w' o, o = .totalProb ∨ (∃ b, o = .soft indices b) ∨ (∃ b, o = .reduce indices (some b)) ∨
      o = .sync (reduceThreshold n indices) false → A w' o)
    (hans : ∀ o, ans o ≤ 1) (h0 : ans (.sync (reduceThreshold n indices) false) = 0)
    (hw : w ∈ allReduction (upToOutput size (reduceThreshold n indices) ws)) :
    Short A w ans (sendReduceMeasure n size indices r ws) 0 := by
  unfold sendReduceMeasure
  refine short_map (fun w' _ => hA w' _ (Or.inl rfl)) (hans _) fun confs => ?_
  split
  · trivial
  · next i _ =>
    refine ⟨hA _ _ (Or.inr (Or.inl ⟨_, rfl⟩)), ?_⟩
    have h : ∀ conf : NMsg, Short A w ans (mapWorkers (.soft indices (some conf.bits))
        ((firstWorkers (upToOutput size (reduceThreshold n indices) ws)).eraseIdx i) fun confs =>
          mapWorkers (.reduce indices (some (conf.bits, conf.prob + (confs.map NMsg.prob).sum)))
            (allReduction (upToOutput size (reduceThreshold n indices) ws)) fun _ =>
            mapWorkers (.sync (reduceThreshold n indices) false)
              (allReduction (upToOutput size (reduceThreshold n indices) ws)) fun _ =>
              sendEach .close (doneWorkers size (reduceThreshold n indices) ws)
                (.done (.ok (some (conf.bits, conf.prob + (confs.map NMsg.prob).sum))))) 0 := by
      intro conf
      refine short_map (fun w' _ => hA w' _ (Or.inr (Or.inl ⟨_, rfl⟩))) (hans _) fun confs => ?_
      refine short_map (fun w' _ => hA w' _ (Or.inr (Or.inr (Or.inl ⟨_, rfl⟩)))) (hans _) fun _ => ?_
      exact short_map_zero (fun w' _ => hA w' _ (Or.inr (Or.inr (Or.inr rfl)))) h0 hw
    unfold Short
    split
    · right
      intro conf
      refine (h conf).mono ?_
      have := hans (.soft indices none)
      omega
    · exact h

/-- Reports that a message to a worker can cause. -/
def ansMsg (ans : WOp → Nat) : NMsg → Nat
  | .op o => ans o
  | _ => 0

/-- A worker about to report. -/
def replying : NLoc → Nat
  | .wkr ⟨_, .reply _, _⟩ => 1
  | _ => 0

/-- Bound on the reports of `w` the manager can still receive for what it has sent. -/
def toCome (ans : WOp → Nat) (w : Wid) (c : Cfg Pid NMsg NLoc) : Nat :=
  (c.buf (some w, none)).length + replying (c.loc (some w)) + ((c.buf (none, some w)).map (ansMsg ans)).sum

/-- The invariant: the manager is short of reports of `w`, and `J` holds of the workers and the messages between
them. -/
structure ShortInv (A : Wid → WOp → Prop) (w : Wid) (ans : WOp → Nat)
    (J : (Wid → NLoc) → (Wid → Wid → List NMsg) → Prop) (c : Cfg Pid NMsg NLoc) : Prop where
  mgr : ∃ pm, c.loc none = .mgr pm ∧ Short A w ans pm (toCome ans w c)
  ops : ∀ x, ∀ m ∈ c.buf (none, some x), ∃ o, m = .op o ∧ A x o
  workers : J (fun x => c.loc (some x)) fun x y => c.buf (some x, some y)

variable {J : (Wid → NLoc) → (Wid → Wid → List NMsg) → Prop}

theorem shortInv_step
    (hJ : ∀ c c' x, ShortInv A w ans J c → stepP (netAct prm) (some x) c = some c' →
      J (fun x => c'.loc (some x)) fun x y => c'.buf (some x, some y))
    (hw : ∀ c c', ShortInv A w ans J c → stepP (netAct prm) (some w) c = some c' → toCome ans w c' ≤ toCome ans w c)
    {c c' : Cfg Pid NMsg NLoc} {x : Pid} (hc : ShortInv A w ans J c) (h : stepP (netAct prm) x c = some c') :
    ShortInv A w ans J c' := by
  obtain ⟨⟨pm, m1, m2⟩, hops, hj⟩ := id hc
  cases x with
  | none =>
    unfold stepP at h
    rw [m1] at h
    cases pm with
    | done r => simp only [netAct] at h; cases h
    | doneTop r => simp only [netAct] at h; cases h
    | send y o pm =>
      simp only [netAct, Option.some.injEq] at h
      subst h
      obtain ⟨hA, hs⟩ := m2
      refine ⟨⟨pm, by simp, hs.mono ?_⟩, ?_, ?_⟩
      · unfold toCome
        dsimp only
        rw [Function.update_of_ne (by simp : ((some w : Pid), (none : Pid)) ≠ (none, some y)),
          Function.update_of_ne (by simp : (some w : Pid) ≠ none)]
        by_cases hy : y = w
        · subst hy
          rw [if_pos rfl, Function.update_self, List.map_append, List.sum_append]
          simp only [List.map_cons, List.map_nil, List.sum_cons, List.sum_nil, ansMsg]
          omega
        · rw [if_neg hy, Function.update_of_ne (by simpa using Ne.symm hy)]
      · intro x m hm
        by_cases hx : x = y
        · subst hx
          simp only [Function.update_self, List.mem_append, List.mem_singleton] at hm
          rcases hm with hm | hm
          · exact hops x m hm
          · exact ⟨o, hm, hA⟩
        · dsimp only at hm
          rw [Function.update_of_ne (by simpa using hx)] at hm
          exact hops x m hm
      · refine Eq.mp ?_ hj
        congr 1
    | recv y kk =>
      simp only [netAct] at h
      rcases hb : c.buf (some y, none) with _ | ⟨m, rest⟩ <;> rw [hb] at h <;> simp only at h
      · cases h
      simp only [Option.some.injEq] at h
      subst h
      refine ⟨⟨kk m, by simp, ?_⟩, ?_, ?_⟩
      · unfold Short at m2
        by_cases hy : y = w
        · subst hy
          rw [if_pos rfl] at m2
          unfold toCome at m2 ⊢
          rw [hb] at m2
          dsimp only
          rw [Function.update_self, Function.update_of_ne (by simp), Function.update_of_ne (by simp)]
          rcases m2 with m2 | m2
          · simp at m2
          · refine (m2 m).mono ?_
            simp only [List.length_cons]
            omega
        · rw [if_neg hy] at m2
          refine (m2 m).mono (le_of_eq ?_)
          unfold toCome
          dsimp only
          rw [Function.update_of_ne (by simpa using Ne.symm hy), Function.update_of_ne (by simp),
            Function.update_of_ne (by simp)]
      · intro x m' hm
        dsimp only at hm
        rw [Function.update_of_ne (by simp)] at hm
        exact hops x m' hm
      · refine Eq.mp ?_ hj
        congr 1
        funext a
        simp
  | some x =>
    have hj' := hJ c c' x hc h
    have hle : toCome ans w c' ≤ toCome ans w c ∧ c'.loc none = c.loc none ∧
        ∀ y, ∀ m ∈ c'.buf (none, some y), m ∈ c.buf (none, some y) := by
      refine ⟨?_, ?_⟩
      · by_cases hx : x = w
        · subst hx; exact hw c c' hc h
        · unfold stepP at h
          rcases ha : netAct prm (some x) (c.loc (some x)) with _ | ⟨y, m, s'⟩ | ⟨y, k⟩ <;> rw [ha] at h <;> simp only at h
          · cases h
          · simp only [Option.some.injEq] at h
            subst h
            unfold toCome
            dsimp only
            rw [Function.update_of_ne (by simp [Ne.symm hx]), Function.update_of_ne (by simp [Ne.symm hx]),
              Function.update_of_ne (by simp)]
          · rcases hb : c.buf (y, some x) with _ | ⟨m, rest⟩ <;> rw [hb] at h <;> simp only at h
            · cases h
            simp only [Option.some.injEq] at h
            subst h
            unfold toCome
            dsimp only
            rw [Function.update_of_ne (by simp), Function.update_of_ne (by simp [Ne.symm hx]),
              Function.update_of_ne (by simp [Ne.symm hx])]
      · unfold stepP at h
        rcases ha : netAct prm (some x) (c.loc (some x)) with _ | ⟨y, m, s'⟩ | ⟨y, k⟩ <;> rw [ha] at h <;> simp only at h
        · cases h
        · simp only [Option.some.injEq] at h
          subst h
          refine ⟨by simp, ?_⟩
          intro z m' hm'
          dsimp only at hm'
          rw [Function.update_of_ne (by simp)] at hm'
          exact hm'
        · rcases hb : c.buf (y, some x) with _ | ⟨m, rest⟩ <;> rw [hb] at h <;> simp only at h
          · cases h
          simp only [Option.some.injEq] at h
          subst h
          refine ⟨by simp, ?_⟩
          intro z m' hm'
          dsimp only at hm'
          by_cases hz : ((none : Pid), (some z : Pid)) = (y, some x)
          · rw [hz, Function.update_self] at hm'
            rw [hz, hb]
            simp [hm']
          · rw [Function.update_of_ne hz] at hm'
            exact hm'
    obtain ⟨h1, h2, h3⟩ := hle
    exact ⟨⟨pm, h2 ▸ m1, m2.mono h1⟩, fun y m hm => hops y m (h3 y m hm), hj'⟩

/-- So the manager never finishes without an exception. -/
theorem shortInv_exec
    (hJ : ∀ c c' x, ShortInv A w ans J c → stepP (netAct prm) (some x) c = some c' →
      J (fun x => c'.loc (some x)) fun x y => c'.buf (some x, some y))
    (hw : ∀ c c', ShortInv A w ans J c → stepP (netAct prm) (some w) c = some c' → toCome ans w c' ≤ toCome ans w c)
    {c c' : Cfg Pid NMsg NLoc} {t : List Pid} (hc : ShortInv A w ans J c) (h : exec (netAct prm) t c = some c')
    (r : Option (Nat × ℝ)) : c'.loc none ≠ .mgr (.done (.ok r)) := by
  induction t generalizing c with
  | nil =>
    simp only [exec, Option.some.injEq] at h
    subst h
    obtain ⟨⟨pm, m1, m2⟩, -⟩ := hc
    rw [m1]
    intro he
    injection he with he
    subst he
    exact m2
  | cons x t ih =>
    simp only [exec] at h
    rcases hs : stepP (netAct prm) x c with _ | c1 <;> rw [hs] at h <;> simp only at h
    · cases h
    exact ih (shortInv_step hJ hw hc hs) h

end QIP
