import Mathlib.Data.Fintype.Basic
import Mathlib.Algebra.BigOperators.Group.Finset.Basic
import Verif.Lemmas.Net
import Verif.Spec.Jobs

/-!
# Independent networks side by side
-/

namespace QIP

open Spec

variable {J P Q M S : Type} [DecidableEq J] [DecidableEq P] [DecidableEq Q] {place : J → P → Q}
  {act : J → P → S → Act P M S}

theorem together_step (hinj : ∀ j p j' p', place j p = place j' p' → j = j' ∧ p = p') {C : Cfg Q M (Option (J × P × S))}
    {c : J → Cfg P M S} (h : Together place C c) (j : J) (p : P) {d : Cfg P M S} (hd : stepP (act j) p (c j) = some d) :
    ∃ D, stepP (sharedAct place act) (place j p) C = some D ∧ Together place D (Function.update c j d) := by
  unfold stepP at hd ⊢
  rw [h.loc j p]
  simp only [sharedAct]
  rcases ha : act j p ((c j).loc p) with _ | ⟨q, m, s⟩ | ⟨q, k⟩ <;> rw [ha] at hd <;> simp only at hd ⊢
  · cases hd
  · injection hd with hd
    subst hd
    refine ⟨_, rfl, ?_, ?_, ?_⟩
    · intro j' p'
      by_cases hj : j' = j
      · subst hj
        by_cases hp : p' = p
        · subst hp; simp
        · have : place j' p' ≠ place j' p := fun he => hp (hinj _ _ _ _ he).2
          simp [Function.update_of_ne this, Function.update_of_ne hp, h.loc]
      · have : place j' p' ≠ place j p := fun he => hj (hinj _ _ _ _ he).1
        simp [Function.update_of_ne this, Function.update_of_ne hj, h.loc]
    · intro j' p' q'
      by_cases hj : j' = j
      · subst hj
        by_cases hp : (p', q') = (p, q)
        · obtain ⟨rfl, rfl⟩ := Prod.mk.inj hp
          simp [h.buf]
        · have : (place j' p', place j' q') ≠ (place j' p, place j' q) := fun he => hp (by
            obtain ⟨h1, h2⟩ := Prod.mk.inj he
            rw [(hinj _ _ _ _ h1).2, (hinj _ _ _ _ h2).2])
          simp [Function.update_of_ne this, Function.update_of_ne hp, h.buf]
      · have : (place j' p', place j' q') ≠ (place j p, place j q) := fun he => hj (hinj _ _ _ _ (Prod.mk.inj he).1).1
        simp [Function.update_of_ne this, Function.update_of_ne hj, h.buf]
    · intro x hx
      have : x ≠ place j p := fun he => hx j p he.symm
      simp [Function.update_of_ne this, h.others x hx]
  · rw [h.buf]
    rcases hb : (c j).buf (q, p) with _ | ⟨m, rest⟩ <;> rw [hb] at hd <;> simp only at hd ⊢
    · cases hd
    injection hd with hd
    subst hd
    refine ⟨_, rfl, ?_, ?_, ?_⟩
    · intro j' p'
      by_cases hj : j' = j
      · subst hj
        by_cases hp : p' = p
        · subst hp; simp
        · have : place j' p' ≠ place j' p := fun he => hp (hinj _ _ _ _ he).2
          simp [Function.update_of_ne this, Function.update_of_ne hp, h.loc]
      · have : place j' p' ≠ place j p := fun he => hj (hinj _ _ _ _ he).1
        simp [Function.update_of_ne this, Function.update_of_ne hj, h.loc]
    · intro j' p' q'
      by_cases hj : j' = j
      · subst hj
        by_cases hp : (p', q') = (q, p)
        · obtain ⟨rfl, rfl⟩ := Prod.mk.inj hp
          simp
        · have : (place j' p', place j' q') ≠ (place j' q, place j' p) := fun he => hp (by
            obtain ⟨h1, h2⟩ := Prod.mk.inj he
            rw [(hinj _ _ _ _ h1).2, (hinj _ _ _ _ h2).2])
          simp [Function.update_of_ne this, Function.update_of_ne hp, h.buf]
      · have : (place j' p', place j' q') ≠ (place j q, place j p) := fun he => hj (hinj _ _ _ _ (Prod.mk.inj he).1).1
        simp [Function.update_of_ne this, Function.update_of_ne hj, h.buf]
    · intro x hx
      have : x ≠ place j p := fun he => hx j p he.symm
      simp [Function.update_of_ne this, h.others x hx]

/-- A step of the whole system is a step of one job. -/
theorem together_step_inv (hinj : ∀ j p j' p', place j p = place j' p' → j = j' ∧ p = p') {C D : Cfg Q M (Option (J × P × S))}
    {c : J → Cfg P M S} (h : Together place C c) {x : Q} (hd : stepP (sharedAct place act) x C = some D) :
    ∃ j p d, x = place j p ∧ stepP (act j) p (c j) = some d ∧ Together place D (Function.update c j d) := by
  by_cases hx : ∃ j p, place j p = x
  · obtain ⟨j, p, rfl⟩ := hx
    rcases hs : stepP (act j) p (c j) with _ | d
    · exfalso
      unfold stepP at hs hd
      rw [h.loc j p] at hd
      simp only [sharedAct] at hd
      rcases ha : act j p ((c j).loc p) with _ | ⟨q, m, s⟩ | ⟨q, k⟩ <;> rw [ha] at hs hd <;> simp only at hs hd
      · cases hd
      · cases hs
      · rw [h.buf] at hd
        rcases hb : (c j).buf (q, p) with _ | ⟨m, rest⟩ <;> rw [hb] at hs hd <;> simp only at hs hd
        · cases hd
        · cases hs
    · obtain ⟨D', h1, h2⟩ := together_step hinj h j p hs
      rw [hd] at h1
      injection h1 with h1
      subst h1
      exact ⟨j, p, d, rfl, hs, h2⟩
  · push Not at hx
    have := h.others x hx
    unfold stepP at hd
    rw [this] at hd
    simp [sharedAct] at hd

/-- Every job can go on as if it were alone. -/
theorem together_lift (hinj : ∀ j p j' p', place j p = place j' p' → j = j' ∧ p = p') (j : J) {d : Cfg P M S} (t : List P) :
    ∀ {C : Cfg Q M (Option (J × P × S))} {c : J → Cfg P M S}, Together place C c → exec (act j) t (c j) = some d →
      ∃ D, exec (sharedAct place act) (t.map (place j)) C = some D ∧ Together place D (Function.update c j d) := by
  induction t with
  | nil =>
    intro C c h hd
    simp only [exec, Option.some.injEq] at hd
    subst hd
    exact ⟨C, rfl, by rwa [Function.update_eq_self]⟩
  | cons p t ih =>
    intro C c h hd
    rw [exec] at hd
    rcases hs : stepP (act j) p (c j) with _ | c1 <;> rw [hs] at hd <;> simp only at hd
    · cases hd
    obtain ⟨C1, h1, h2⟩ := together_step hinj h j p hs
    obtain ⟨D, h3, h4⟩ := ih h2 (by rw [Function.update_self]; exact hd)
    refine ⟨D, ?_, by rwa [Function.update_idem] at h4⟩
    rw [List.map_cons, exec, h1]
    exact h3

/-- Any execution of the whole system consists of executions of the jobs. -/
theorem together_project [Fintype J] (hinj : ∀ j p j' p', place j p = place j' p' → j = j' ∧ p = p') (t : List Q) :
    ∀ {C D : Cfg Q M (Option (J × P × S))} {c : J → Cfg P M S}, Together place C c → exec (sharedAct place act) t C = some D →
      ∃ (d : J → Cfg P M S) (ts : J → List P), Together place D d ∧ (∀ j, exec (act j) (ts j) (c j) = some (d j)) ∧
        (∀ j, ((ts j).map (place j)).Sublist t) ∧ t.length = ∑ j, (ts j).length := by
  induction t with
  | nil =>
    intro C D c h hd
    simp only [exec, Option.some.injEq] at hd
    subst hd
    exact ⟨c, fun _ => [], h, fun _ => rfl, fun _ => by simp, by simp⟩
  | cons x t ih =>
    intro C D c h hd
    rw [exec] at hd
    rcases hs : stepP (sharedAct place act) x C with _ | C1 <;> rw [hs] at hd <;> simp only at hd
    · cases hd
    obtain ⟨j, p, c1, rfl, h1, h2⟩ := together_step_inv hinj h hs
    obtain ⟨d, ts, h3, h4, h5, h6⟩ := ih h2 hd
    refine ⟨d, Function.update ts j (p :: ts j), h3, fun i => ?_, fun i => ?_, ?_⟩
    · by_cases hi : i = j
      · subst hi
        have := h4 i
        rw [Function.update_self] at this ⊢
        rw [exec, h1]
        exact this
      · have := h4 i
        rw [Function.update_of_ne hi] at this ⊢
        exact this
    · by_cases hi : i = j
      · subst hi
        rw [Function.update_self, List.map_cons]
        exact (h5 i).cons_cons _
      · rw [Function.update_of_ne hi]
        exact (h5 i).cons _
    · rw [List.length_cons, h6, ← Finset.add_sum_erase _ _ (Finset.mem_univ j),
        ← Finset.add_sum_erase (f := fun i => (Function.update ts j (p :: ts j) i).length) _ (Finset.mem_univ j)]
      rw [Function.update_self, List.length_cons]
      have : ∑ i ∈ Finset.univ.erase j, (Function.update ts j (p :: ts j) i).length = ∑ i ∈ Finset.univ.erase j, (ts i).length :=
        Finset.sum_congr rfl fun i hi => by rw [Function.update_of_ne (Finset.ne_of_mem_erase hi)]
      rw [this]
      omega

/-- All jobs go on to their ends. -/
theorem together_all [Fintype J] (hinj : ∀ j p j' p', place j p = place j' p' → j = j' ∧ p = p') {f : J → Cfg P M S}
    {C : Cfg Q M (Option (J × P × S))} {c : J → Cfg P M S} (h : Together place C c) {ts : J → List P}
    (hd : ∀ j, exec (act j) (ts j) (c j) = some (f j)) :
    ∃ t D, exec (sharedAct place act) t C = some D ∧ Together place D f ∧ t.length = ∑ j, (ts j).length := by
  classical
  have key : ∀ A : Finset J, ∃ t D, exec (sharedAct place act) t C = some D ∧
      Together place D (fun j => if j ∈ A then f j else c j) ∧ t.length = ∑ j ∈ A, (ts j).length := by
    intro A
    induction A using Finset.induction_on with
    | empty => exact ⟨[], C, rfl, by simpa using h, by simp⟩
    | insert j A hj ih =>
      obtain ⟨t, D, h1, h2, h3⟩ := ih
      obtain ⟨E, h4, h5⟩ := together_lift (act := act) hinj j (ts j) h2 (d := f j) (by rw [if_neg hj]; exact hd j)
      refine ⟨t ++ (ts j).map (place j), E, ?_, ?_, ?_⟩
      · rw [exec_append, h1]; exact h4
      · convert h5 using 1
        funext i
        by_cases hi : i = j
        · subst hi; simp
        · rw [Function.update_of_ne hi]
          simp [Finset.mem_insert, hi]
      · rw [List.length_append, List.length_map, h3, Finset.sum_insert hj]
        omega
  obtain ⟨t, D, h1, h2, h3⟩ := key Finset.univ
  exact ⟨t, D, h1, by simpa using h2, h3⟩

theorem together_stuck (hinj : ∀ j p j' p', place j p = place j' p' → j = j' ∧ p = p') {f : J → Cfg P M S}
    {D : Cfg Q M (Option (J × P × S))} (h : Together place D f) (hf : ∀ j, Stuck (act j) (f j)) :
    Stuck (sharedAct place act) D := by
  intro x
  by_contra hcon
  obtain ⟨E, hE⟩ := Option.ne_none_iff_exists'.1 hcon
  obtain ⟨j, p, d, -, h1, -⟩ := together_step_inv hinj h hE
  rw [hf j p] at h1
  cases h1

/-- If every job always ends, so does the whole system, with every job at its own end. -/
theorem together_ends [Fintype J] (hinj : ∀ j p j' p', place j p = place j' p' → j = j' ∧ p = p') {c f : J → Cfg P M S}
    {C : Cfg Q M (Option (J × P × S))} (h : Together place C c) (hends : ∀ j, AlwaysEnds (act j) (c j) (f j)) :
    ∃ F, AlwaysEnds (sharedAct place act) C F ∧ Together place F f := by
  have hr : ∀ j, ∃ t, exec (act j) t (c j) = some (f j) := fun j => by
    obtain ⟨-, n, hn⟩ := hends j
    obtain ⟨t, ht, -⟩ := hn [] (c j) rfl
    exact ⟨t, ht⟩
  choose ts hts using hr
  obtain ⟨t, F, h1, h2, -⟩ := together_all hinj h hts
  exact ⟨F, alwaysEnds_of_exec (together_stuck hinj h2 fun j => (hends j).1) h1, h2⟩

end QIP
