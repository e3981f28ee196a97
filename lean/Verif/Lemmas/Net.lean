import Mathlib.Logic.Function.Basic
import Verif.Model.Net

/-!
# The order of steps does not matter
-/

namespace QIP

variable {P M S : Type} [DecidableEq P] {act : P → S → Act P M S}

theorem cfg_ext {c d : Cfg P M S} (h1 : c.loc = d.loc) (h2 : c.buf = d.buf) : c = d := by
  cases c; cases d; simp_all

/-- Steps of different processes commute. -/
theorem step_diamond {p q : P} (hpq : p ≠ q) {c c1 c2 : Cfg P M S} (h1 : stepP act p c = some c1)
    (h2 : stepP act q c = some c2) : ∃ c3, stepP act q c1 = some c3 ∧ stepP act p c2 = some c3 := by
  unfold stepP at h1 h2
  rcases hp : act p (c.loc p) with _ | ⟨dp, mp, sp⟩ | ⟨rp, kp⟩ <;> rw [hp] at h1 <;> simp only at h1
  · cases h1
  · injection h1 with h1
    rcases hq : act q (c.loc q) with _ | ⟨dq, mq, sq⟩ | ⟨rq, kq⟩ <;> rw [hq] at h2 <;> simp only at h2
    · cases h2
    · injection h2 with h2
      subst h1 h2
      have hne : (p, dp) ≠ (q, dq) := fun e => hpq (Prod.ext_iff.1 e).1
      refine ⟨⟨Function.update (Function.update c.loc p sp) q sq,
        Function.update (Function.update c.buf (p, dp) (c.buf (p, dp) ++ [mp])) (q, dq) (c.buf (q, dq) ++ [mq])⟩, ?_, ?_⟩
      · unfold stepP
        simp only [Function.update_of_ne hpq.symm, hq, Function.update_of_ne hne.symm]
      · unfold stepP
        simp only [Function.update_of_ne hpq, hp, Option.some.injEq]
        apply cfg_ext
        · exact Function.update_comm hpq.symm _ _ _
        · simp only [Function.update_of_ne hne]
          exact Function.update_comm hne.symm _ _ _
    · rcases hb : c.buf (rq, q) with _ | ⟨m, rest⟩ <;> rw [hb] at h2 <;> simp only at h2
      · cases h2
      injection h2 with h2
      subst h1 h2
      by_cases he : (p, dp) = (rq, q)
      · obtain ⟨rfl, rfl⟩ := Prod.ext_iff.1 he
        refine ⟨⟨Function.update (Function.update c.loc p sp) dp (kq m), Function.update c.buf (p, dp) (rest ++ [mp])⟩,
          ?_, ?_⟩
        · unfold stepP
          simp only [Function.update_of_ne hpq.symm, hq, Function.update_self]
          simp only [hb, List.cons_append, Option.some.injEq]
          apply cfg_ext
          · rfl
          · exact Function.update_idem _ _ _
        · unfold stepP
          simp only [Function.update_of_ne hpq, hp, Option.some.injEq]
          apply cfg_ext
          · exact Function.update_comm hpq.symm _ _ _
          · simp only [Function.update_self]
            exact Function.update_idem _ _ _
      · refine ⟨⟨Function.update (Function.update c.loc p sp) q (kq m),
          Function.update (Function.update c.buf (p, dp) (c.buf (p, dp) ++ [mp])) (rq, q) rest⟩, ?_, ?_⟩
        · unfold stepP
          simp only [Function.update_of_ne hpq.symm, hq, Function.update_of_ne (Ne.symm he), hb]
        · unfold stepP
          simp only [Function.update_of_ne hpq, hp, Option.some.injEq]
          apply cfg_ext
          · exact Function.update_comm hpq.symm _ _ _
          · simp only [Function.update_of_ne he]
            exact Function.update_comm (Ne.symm he) _ _ _
  · rcases hbp : c.buf (rp, p) with _ | ⟨mp, restp⟩ <;> rw [hbp] at h1 <;> simp only at h1
    · cases h1
    injection h1 with h1
    rcases hq : act q (c.loc q) with _ | ⟨dq, mq, sq⟩ | ⟨rq, kq⟩ <;> rw [hq] at h2 <;> simp only at h2
    · cases h2
    · injection h2 with h2
      subst h1 h2
      by_cases he : (q, dq) = (rp, p)
      · obtain ⟨rfl, rfl⟩ := Prod.ext_iff.1 he
        refine ⟨⟨Function.update (Function.update c.loc dq (kp mp)) q sq, Function.update c.buf (q, dq) (restp ++ [mq])⟩,
          ?_, ?_⟩
        · unfold stepP
          simp only [Function.update_of_ne hpq.symm, hq, Option.some.injEq]
          apply cfg_ext
          · rfl
          · simp only [Function.update_self]
            exact Function.update_idem _ _ _
        · unfold stepP
          simp only [Function.update_of_ne hpq, hp, Function.update_self]
          simp only [hbp, List.cons_append, Option.some.injEq]
          apply cfg_ext
          · exact Function.update_comm hpq.symm _ _ _
          · exact Function.update_idem _ _ _
      · refine ⟨⟨Function.update (Function.update c.loc p (kp mp)) q sq,
          Function.update (Function.update c.buf (rp, p) restp) (q, dq) (c.buf (q, dq) ++ [mq])⟩, ?_, ?_⟩
        · unfold stepP
          simp only [Function.update_of_ne hpq.symm, hq, Function.update_of_ne he]
        · unfold stepP
          simp only [Function.update_of_ne hpq, hp, Function.update_of_ne (Ne.symm he), hbp, Option.some.injEq]
          apply cfg_ext
          · exact Function.update_comm hpq.symm _ _ _
          · exact Function.update_comm he _ _ _
    · rcases hbq : c.buf (rq, q) with _ | ⟨mq, restq⟩ <;> rw [hbq] at h2 <;> simp only at h2
      · cases h2
      injection h2 with h2
      subst h1 h2
      have hne : (rp, p) ≠ (rq, q) := fun e => hpq (Prod.ext_iff.1 e).2
      refine ⟨⟨Function.update (Function.update c.loc p (kp mp)) q (kq mq),
          Function.update (Function.update c.buf (rp, p) restp) (rq, q) restq⟩, ?_, ?_⟩
      · unfold stepP
        simp only [Function.update_of_ne hpq.symm, hq, Function.update_of_ne (Ne.symm hne), hbq]
      · unfold stepP
        simp only [Function.update_of_ne hpq, hp, Function.update_of_ne hne, hbp, Option.some.injEq]
        apply cfg_ext
        · exact Function.update_comm hpq.symm _ _ _
        · exact Function.update_comm (Ne.symm hne) _ _ _

theorem exec_append (s t : List P) (c : Cfg P M S) :
    exec act (s ++ t) c = (exec act s c).bind (exec act t) := by
  induction s generalizing c with
  | nil => rfl
  | cons p s ih =>
    simp only [List.cons_append, exec]
    cases stepP act p c with
    | none => rfl
    | some c' => exact ih c'

/-- After one step of the schedule has been made by another process first, the remaining length is one less. -/
theorem exec_step {s : List P} {c c1 f : Cfg P M S} (hf : Stuck act f) (h : exec act s c = some f) {q : P}
    (hq : stepP act q c = some c1) : ∃ s', exec act s' c1 = some f ∧ s'.length + 1 = s.length := by
  induction s generalizing c c1 with
  | nil =>
    simp only [exec, Option.some.injEq] at h
    subst h
    rw [hf q] at hq
    cases hq
  | cons p s ih =>
    simp only [exec] at h
    rcases hp : stepP act p c with _ | c2 <;> rw [hp] at h <;> simp only at h
    · cases h
    by_cases hpq : p = q
    · subst hpq
      rw [hp] at hq
      injection hq with hq
      subst hq
      exact ⟨s, h, rfl⟩
    · obtain ⟨c3, h3, h4⟩ := step_diamond hpq hp hq
      obtain ⟨s', hs', hl⟩ := ih h h3
      exact ⟨p :: s', by simp only [exec, h4, hs'], by simp only [List.length_cons]; omega⟩

/-- If one execution ends, all executions end, in the same configuration. -/
theorem alwaysEnds_of_exec {s : List P} {c f : Cfg P M S} (hf : Stuck act f) (h : exec act s c = some f) :
    AlwaysEnds act c f := by
  refine ⟨hf, s.length, ?_⟩
  intro t
  induction t generalizing s c with
  | nil =>
    intro c' hc'
    simp only [exec, Option.some.injEq] at hc'
    subst hc'
    exact ⟨s, h, by simp⟩
  | cons q t ih =>
    intro c' hc'
    simp only [exec] at hc'
    rcases hq : stepP act q c with _ | c1 <;> rw [hq] at hc' <;> simp only at hc'
    · cases hc'
    obtain ⟨s', hs', hl⟩ := exec_step hf h hq
    obtain ⟨t', ht', hl'⟩ := ih hs' c' hc'
    exact ⟨t', ht', by simp only [List.length_cons]; omega⟩

/-- Some schedule leads from `c` to `d`. -/
def Runs (act : P → S → Act P M S) (c d : Cfg P M S) : Prop := ∃ t, exec act t c = some d

theorem Runs.refl (c : Cfg P M S) : Runs act c c := ⟨[], rfl⟩

theorem Runs.trans {c d e : Cfg P M S} (h1 : Runs act c d) (h2 : Runs act d e) : Runs act c e := by
  obtain ⟨s, hs⟩ := h1
  obtain ⟨t, ht⟩ := h2
  exact ⟨s ++ t, by rw [exec_append, hs]; exact ht⟩

theorem Runs.single {c d : Cfg P M S} {p : P} (h : stepP act p c = some d) : Runs act c d :=
  ⟨[p], by simp only [exec, h]⟩

theorem Runs.alwaysEnds {c f : Cfg P M S} (h : Runs act c f) (hf : Stuck act f) : AlwaysEnds act c f := by
  obtain ⟨s, hs⟩ := h
  exact alwaysEnds_of_exec hf hs

/-- Two final configurations of the same start are equal. -/
theorem AlwaysEnds.unique {c f g : Cfg P M S} (h : AlwaysEnds act c f) (hr : Runs act c g) (hg : Stuck act g) : g = f := by
  obtain ⟨-, n, hn⟩ := h
  obtain ⟨s, hs⟩ := hr
  obtain ⟨t', ht', -⟩ := hn s g hs
  cases t' with
  | nil => simpa [exec] using ht'
  | cons p t' =>
    simp only [exec, hg p] at ht'
    cases ht'

end QIP
