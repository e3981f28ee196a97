import Mathlib.Algebra.BigOperators.Group.Finset.Basic
import Mathlib.Data.List.Perm.Basic
import Mathlib.Data.List.Nodup

/-! # Generic lemmas about folds, used to obtain closed forms of loops -/

namespace QIP

/-- A loop that carries a state and appends one value per iteration. -/
theorem foldl_collect {σ ι α : Type} (f : σ → ι → σ) (g : σ → ι → α) (h : ι → α) (Inv : σ → Prop)
    (L : List ι) (hstep : ∀ s i, i ∈ L → Inv s → Inv (f s i) ∧ g (f s i) i = h i) (s0 : σ) (hs0 : Inv s0)
    (acc : List α) :
    (L.foldl (fun (st : σ × List α) i => (f st.1 i, st.2 ++ [g (f st.1 i) i])) (s0, acc)).2 = acc ++ L.map h := by
  induction L generalizing s0 acc with
  | nil => simp
  | cons i L ih =>
    obtain ⟨h1, h2⟩ := hstep s0 i (by simp) hs0
    simp only [List.foldl_cons, List.map_cons]
    rw [ih (fun s j hj => hstep s j (by simp [hj])) _ h1, h2]
    simp

theorem foldlM_ok {ε σ α : Type} (f : σ → α → Except ε σ) (g : σ → α → σ) (L : List α)
    (h : ∀ s x, x ∈ L → f s x = .ok (g s x)) (s0 : σ) : L.foldlM f s0 = .ok (L.foldl g s0) := by
  induction L generalizing s0 with
  | nil => rfl
  | cons x L ih =>
    rw [List.foldlM_cons, h s0 x (by simp)]
    exact ih (fun s y hy => h s y (by simp [hy])) _

theorem mapM_ok {ε α β : Type} (f : α → Except ε β) (g : α → β) (L : List α)
    (h : ∀ x ∈ L, f x = .ok (g x)) : L.mapM f = .ok (L.map g) := by
  induction L with
  | nil => rfl
  | cons x L ih =>
    rw [List.mapM_cons, h x (by simp), ih fun y hy => h y (by simp [hy])]
    rfl

theorem foldl_add_eq {M ι : Type} [AddCommMonoid M] (h : ι → M) (L : List ι) (a : M) :
    L.foldl (fun s x => s + h x) a = a + (L.map h).sum := by
  induction L generalizing a with
  | nil => simp
  | cons x L ih => simp [ih, add_assoc]

theorem sum_map_range {M : Type} [AddCommMonoid M] (h : Nat → M) (k : Nat) :
    ((List.range k).map h).sum = ∑ i ∈ Finset.range k, h i := by
  induction k with
  | zero => simp
  | succ k ih => simp [List.range_succ, Finset.sum_range_succ, ih]

/-- Assigning entry `i` the value `h i` for every `i` in any order. -/
theorem foldl_set_getElem {α : Type} (h : Nat → α) (sched : List Nat) (o : List α) (j : Nat)
    (hj : j < o.length) :
    (sched.foldl (fun o i => o.set i (h i)) o)[j]? = if j ∈ sched then some (h j) else o[j]? := by
  induction sched generalizing o with
  | nil => simp
  | cons i L ih =>
    rw [List.foldl_cons, ih (o.set i (h i)) (by simpa using hj)]
    by_cases h1 : j ∈ L
    · simp [h1]
    · by_cases h2 : j = i
      · subst h2; simp [h1, hj]
      · simp [h1, h2, List.getElem?_set, Ne.symm h2]

theorem length_foldl_set {α ι : Type} (f : ι → Nat) (h : ι → α) (L : List ι) (o : List α) :
    (L.foldl (fun o i => o.set (f i) (h i)) o).length = o.length := by
  induction L generalizing o with
  | nil => rfl
  | cons i L ih => rw [List.foldl_cons, ih]; simp

theorem foldl_set_all {α : Type} (h : Nat → α) (sched : List Nat) (o : List α)
    (hp : sched.Perm (List.range o.length)) :
    sched.foldl (fun o i => o.set i (h i)) o = (List.range o.length).map h := by
  apply List.ext_getElem?
  intro j
  by_cases hj : j < o.length
  · rw [foldl_set_getElem h sched o j hj, if_pos (hp.mem_iff.2 (by simpa using hj))]
    simp [hj]
  · rw [List.getElem?_eq_none (by rw [length_foldl_set (fun i => i) h]; omega),
      List.getElem?_eq_none (by simp; omega)]

end QIP
