import Verif.Lemmas.Net
import Verif.Model.Bounded

/-!
# Executions with bounded sockets
-/

namespace QIP

theorem hasRoom_mono {k : Option Nat} {m n : Nat} (h : hasRoom k n = true) (hmn : m ≤ n) : hasRoom k m = true := by
  cases k with
  | none => rfl
  | some k =>
    simp only [hasRoom, decide_eq_true_eq] at h ⊢
    omega

variable {P M S : Type} [DecidableEq P] {act : P → S → Act P M S} {cap : P × P → Option Nat}

/-- A step with bounded sockets is a step. -/
theorem stepB_stepP {p : P} {c d : Cfg P M S} (h : stepB act cap p c = some d) : stepP act p c = some d := by
  unfold stepB at h
  unfold stepP
  rcases ha : act p (c.loc p) with _ | ⟨q, m, s⟩ | ⟨q, k⟩ <;> rw [ha] at h <;> simp only at h ⊢
  · exact h
  · split at h
    · exact h
    · cases h
  · exact h

theorem execB_exec {t : List P} {c d : Cfg P M S} (h : execB act cap t c = some d) : exec act t c = some d := by
  induction t generalizing c with
  | nil => exact h
  | cons p t ih =>
    simp only [execB] at h
    simp only [exec]
    rcases hs : stepB act cap p c with _ | c1 <;> rw [hs] at h <;> simp only at h
    · cases h
    rw [stepB_stepP hs]
    exact ih h

/-- A step is possible with bounded sockets if what has been sent fits. -/
theorem stepB_of_room {p : P} {c d : Cfg P M S} (h : stepP act p c = some d)
    (hr : ∀ q, (d.buf (p, q)).length ≤ (c.buf (p, q)).length ∨ hasRoom (cap (p, q)) (d.buf (p, q)).length = true) :
    stepB act cap p c = some d := by
  unfold stepP at h
  unfold stepB
  rcases ha : act p (c.loc p) with _ | ⟨q, m, s⟩ | ⟨q, k⟩ <;> rw [ha] at h <;> simp only at h ⊢
  · exact h
  · injection h with h
    subst h
    rw [if_pos]
    rcases hr q with h | h
    · simp only [Function.update_self, List.length_append, List.length_singleton] at h
      omega
    · simpa only [Function.update_self, List.length_append, List.length_singleton] using h
  · exact h

/-- No socket ever holds more than its capacity, if it does not at the beginning. -/
theorem stepB_fits {p : P} {c d : Cfg P M S} (h : stepB act cap p c = some d)
    (hc : ∀ e, hasRoom (cap e) (c.buf e).length = true) : ∀ e, hasRoom (cap e) (d.buf e).length = true := by
  unfold stepB at h
  rcases ha : act p (c.loc p) with _ | ⟨q, m, s⟩ | ⟨q, k⟩ <;> rw [ha] at h <;> simp only at h
  · cases h
  · split at h
    · rename_i hr
      injection h with h
      subst h
      intro e
      by_cases he : e = (p, q)
      · subst he
        simpa using hr
      · simp only [Function.update_of_ne he]
        exact hc e
    · cases h
  · rcases hb : c.buf (q, p) with _ | ⟨m, rest⟩ <;> rw [hb] at h <;> simp only at h
    · cases h
    injection h with h
    subst h
    intro e
    by_cases he : e = (q, p)
    · subst he
      refine hasRoom_mono (hc (q, p)) ?_
      rw [hb]
      simp
    · simp only [Function.update_of_ne he]
      exact hc e

theorem execB_fits {t : List P} {c d : Cfg P M S} (h : execB act cap t c = some d)
    (hc : ∀ e, hasRoom (cap e) (c.buf e).length = true) : ∀ e, hasRoom (cap e) (d.buf e).length = true := by
  induction t generalizing c with
  | nil =>
    simp only [execB, Option.some.injEq] at h
    exact h ▸ hc
  | cons p t ih =>
    simp only [execB] at h
    rcases hs : stepB act cap p c with _ | c1 <;> rw [hs] at h <;> simp only at h
    · cases h
    exact ih h (stepB_fits hs hc)

/-- A step changes what is on the way from `q` only if `q` made it, except that there may be less. -/
theorem stepP_buf_le {p q r : P} (hpq : q ≠ p) {c d : Cfg P M S} (h : stepP act p c = some d) :
    (d.buf (q, r)).length ≤ (c.buf (q, r)).length := by
  unfold stepP at h
  rcases ha : act p (c.loc p) with _ | ⟨q', m, s⟩ | ⟨q', k⟩ <;> rw [ha] at h <;> simp only at h
  · cases h
  · injection h with h
    subst h
    have hne : (q, r) ≠ (p, q') := fun e => hpq (Prod.ext_iff.1 e).1
    simp only [Function.update_of_ne hne]
    exact Nat.le_refl _
  · rcases hb : c.buf (q', p) with _ | ⟨m, rest⟩ <;> rw [hb] at h <;> simp only at h
    · cases h
    injection h with h
    subst h
    by_cases he : (q, r) = (q', p)
    · rw [he]
      simp only [Function.update_self, hb, List.length_cons]
      omega
    · simp only [Function.update_of_ne he]
      exact Nat.le_refl _

theorem stepP_loc {p q : P} (hpq : q ≠ p) {c d : Cfg P M S} (h : stepP act p c = some d) : d.loc q = c.loc q := by
  unfold stepP at h
  rcases ha : act p (c.loc p) with _ | ⟨q', m, s⟩ | ⟨q', k⟩ <;> rw [ha] at h <;> simp only at h
  · cases h
  · injection h with h
    subst h
    exact Function.update_of_ne hpq _ _
  · rcases hb : c.buf (q', p) with _ | ⟨m, rest⟩ <;> rw [hb] at h <;> simp only at h
    · cases h
    injection h with h
    subst h
    exact Function.update_of_ne hpq _ _

/-- A process that can send still can after a step of another one. -/
theorem stepB_keep {p q : P} (hpq : q ≠ p) {c c1 c2 c3 : Cfg P M S} (h1 : stepP act p c = some c1)
    (h2 : stepB act cap q c = some c2) (h3 : stepP act q c1 = some c3) : stepB act cap q c1 = some c3 := by
  have hl := stepP_loc hpq h1
  unfold stepB at h2 ⊢
  unfold stepP at h3
  rw [hl] at h3 ⊢
  rcases ha : act q (c.loc q) with _ | ⟨q', m, s⟩ | ⟨q', k⟩ <;> rw [ha] at h2 h3 <;> simp only at h2 h3 ⊢
  · exact h3
  · split at h2
    · rename_i hr
      rw [if_pos (hasRoom_mono hr (Nat.add_le_add_right (stepP_buf_le hpq h1) 1))]
      exact h3
    · cases h2
  · exact h3

theorem stepB_diamond {p q : P} (hpq : p ≠ q) {c c1 c2 : Cfg P M S} (h1 : stepB act cap p c = some c1)
    (h2 : stepB act cap q c = some c2) : ∃ c3, stepB act cap q c1 = some c3 ∧ stepB act cap p c2 = some c3 := by
  obtain ⟨c3, h3, h4⟩ := step_diamond hpq (stepB_stepP h1) (stepB_stepP h2)
  exact ⟨c3, stepB_keep hpq.symm (stepB_stepP h1) h2 h3, stepB_keep hpq (stepB_stepP h2) h1 h4⟩

theorem execB_append (s t : List P) (c : Cfg P M S) :
    execB act cap (s ++ t) c = (execB act cap s c).bind (execB act cap t) := by
  induction s generalizing c with
  | nil => rfl
  | cons p s ih =>
    simp only [List.cons_append, execB]
    cases stepB act cap p c with
    | none => rfl
    | some c' => exact ih c'

theorem execB_step {s : List P} {c c1 f : Cfg P M S} (hf : StuckB act cap f) (h : execB act cap s c = some f) {q : P}
    (hq : stepB act cap q c = some c1) : ∃ s', execB act cap s' c1 = some f ∧ s'.length + 1 = s.length := by
  induction s generalizing c c1 with
  | nil =>
    simp only [execB, Option.some.injEq] at h
    subst h
    rw [hf q] at hq
    cases hq
  | cons p s ih =>
    simp only [execB] at h
    rcases hp : stepB act cap p c with _ | c2 <;> rw [hp] at h <;> simp only at h
    · cases h
    by_cases hpq : p = q
    · subst hpq
      rw [hp] at hq
      injection hq with hq
      subst hq
      exact ⟨s, h, rfl⟩
    · obtain ⟨c3, h3, h4⟩ := stepB_diamond hpq hp hq
      obtain ⟨s', hs', hl⟩ := ih h h3
      exact ⟨p :: s', by simp only [execB, h4, hs'], by simp only [List.length_cons]; omega⟩

/-- If one execution ends, all executions end, in the same configuration. -/
theorem alwaysEndsB_of_exec {s : List P} {c f : Cfg P M S} (hf : StuckB act cap f) (h : execB act cap s c = some f) :
    AlwaysEndsB act cap c f := by
  refine ⟨hf, s.length, ?_⟩
  intro t
  induction t generalizing s c with
  | nil =>
    intro c' hc'
    simp only [execB, Option.some.injEq] at hc'
    subst hc'
    exact ⟨s, h, by simp⟩
  | cons q t ih =>
    intro c' hc'
    simp only [execB] at hc'
    rcases hq : stepB act cap q c with _ | c1 <;> rw [hq] at hc' <;> simp only at hc'
    · cases hc'
    obtain ⟨s', hs', hl⟩ := execB_step hf h hq
    obtain ⟨t', ht', hl'⟩ := ih hs' c' hc'
    exact ⟨t', ht', by simp only [List.length_cons]; omega⟩

theorem Stuck.bounded {c : Cfg P M S} (h : Stuck act c) : StuckB act cap c := by
  intro p
  rcases hs : stepB act cap p c with _ | d
  · rfl
  · rw [← h p, stepB_stepP hs]

/-- If executions with unbounded sockets end, then so do executions with bounded ones, somewhere. -/
theorem AlwaysEnds.someEnd {c f : Cfg P M S} (h : AlwaysEnds act c f) {t : List P} {c' : Cfg P M S}
    (hc : execB act cap t c = some c') : ∃ t' g, execB act cap t' c' = some g ∧ StuckB act cap g := by
  obtain ⟨-, n, hn⟩ := h
  have key : ∀ m (t : List P) (c' : Cfg P M S), execB act cap t c = some c' → n ≤ t.length + m →
      ∃ t' g, execB act cap t' c' = some g ∧ StuckB act cap g := by
    intro m
    induction m with
    | zero =>
      intro t c' hc hm
      refine ⟨[], c', rfl, ?_⟩
      intro p
      rcases hs : stepB act cap p c' with _ | d
      · rfl
      · exfalso
        have : execB act cap (t ++ [p]) c = some d := by
          rw [execB_append, hc]
          simp only [Option.bind, execB, hs]
        obtain ⟨t', -, hl⟩ := hn _ _ (execB_exec this)
        simp only [List.length_append, List.length_singleton] at hl
        omega
    | succ m ih =>
      intro t c' hc hm
      by_cases hst : StuckB act cap c'
      · exact ⟨[], c', rfl, hst⟩
      · obtain ⟨p, hp⟩ := not_forall.1 hst
        obtain ⟨d, hd⟩ := Option.ne_none_iff_exists'.1 hp
        obtain ⟨t', g, h1, h2⟩ := ih (t ++ [p]) d (by
          rw [execB_append, hc]
          simp only [Option.bind, execB, hd]) (by simp only [List.length_append, List.length_singleton]; omega)
        exact ⟨p :: t', g, by simp only [execB, hd, h1], h2⟩
  exact key n t c' hc (by omega)

/-- Some schedule leads from `c` to `d`. -/
def RunsB (act : P → S → Act P M S) (cap : P × P → Option Nat) (c d : Cfg P M S) : Prop := ∃ t, execB act cap t c = some d

theorem RunsB.refl (c : Cfg P M S) : RunsB act cap c c := ⟨[], rfl⟩

theorem RunsB.trans {c d e : Cfg P M S} (h1 : RunsB act cap c d) (h2 : RunsB act cap d e) : RunsB act cap c e := by
  obtain ⟨s, hs⟩ := h1
  obtain ⟨t, ht⟩ := h2
  exact ⟨s ++ t, by rw [execB_append, hs]; exact ht⟩

theorem RunsB.single {c d : Cfg P M S} {p : P} (h : stepB act cap p c = some d) : RunsB act cap c d :=
  ⟨[p], by simp only [execB, h]⟩

theorem RunsB.runs {c d : Cfg P M S} (h : RunsB act cap c d) : Runs act c d := by
  obtain ⟨s, hs⟩ := h
  exact ⟨s, execB_exec hs⟩

theorem RunsB.alwaysEnds {c f : Cfg P M S} (h : RunsB act cap c f) (hf : Stuck act f) : AlwaysEndsB act cap c f := by
  obtain ⟨s, hs⟩ := h
  exact alwaysEndsB_of_exec hf.bounded hs

/-- No capacity. -/
def noCap : P × P → Option Nat := fun _ => none

theorem Runs.bounded {c d : Cfg P M S} (h : Runs act c d) : RunsB act noCap c d := by
  obtain ⟨s, hs⟩ := h
  refine ⟨s, ?_⟩
  induction s generalizing c with
  | nil => exact hs
  | cons p s ih =>
    simp only [exec] at hs
    rcases hp : stepP act p c with _ | c1 <;> rw [hp] at hs <;> simp only at hs
    · cases hs
    simp only [execB, stepB_of_room (cap := noCap) hp fun q => Or.inr rfl]
    exact ih hs

end QIP
