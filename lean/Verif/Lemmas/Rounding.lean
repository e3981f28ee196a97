import Mathlib.Analysis.InnerProductSpace.PiL2
import Mathlib.Algebra.Order.BigOperators.Ring.Finset
import Verif.Lemmas.Gates
import Verif.Spec.Rounding

/-! # Rounding errors of the compiled kernel -/

namespace QIP

open Spec Finset

variable {A : Arith} {t k n : Nat}

/-! ## Single operations -/

theorem one_le_pow_u (A : Arith) (k : Nat) : 1 ≤ (1 + A.u) ^ k := one_le_pow₀ (by linarith [A.u_nonneg])

theorem near_mono {k l : Nat} (h : k ≤ l) {x : FC A} {y : ℂ} (hx : Near k x y) : Near l x y := by
  unfold Near at *
  refine hx.trans (mul_le_mul_of_nonneg_right ?_ (norm_nonneg _))
  have := pow_le_pow_right₀ (by linarith [A.u_nonneg] : 1 ≤ 1 + A.u) h
  linarith

theorem near_exact (k : Nat) {x : FC A} {y : ℂ} (h : x.val = y) : Near k x y := by
  unfold Near
  rw [h, sub_self, norm_zero]
  exact mul_nonneg (by linarith [one_le_pow_u A k]) (norm_nonneg _)

/-- The value is at most `(1 + u) ^ k` times as large. -/
theorem near_norm {x : FC A} {y : ℂ} (h : Near k x y) : ‖x.val‖ ≤ (1 + A.u) ^ k * ‖y‖ := by
  unfold Near at h
  have h1 : ‖x.val‖ ≤ ‖x.val - y‖ + ‖y‖ := by simpa using norm_add_le (x.val - y) y
  linarith

section Ideal

variable [A.Ideal]

theorem near_mul {k l : Nat} {x x' : FC A} {y y' : ℂ} (h : Near k x y) (h' : Near l x' y') :
    Near (k + l + 1) (x * x') (y * y') := by
  have e : (x * x').val = A.mul x.val x'.val := rfl
  have h1 := Arith.Ideal.mul_err (A := A) x.val x'.val
  have h2 := near_norm h
  have h3 := near_norm h'
  unfold Near at *
  rw [e, norm_mul]
  have e1 : A.mul x.val x'.val - y * y'
      = (A.mul x.val x'.val - x.val * x'.val) + (x.val * (x'.val - y') + (x.val - y) * y') := by ring
  have hu := A.u_nonneg
  have ha := one_le_pow_u A k
  have hb := one_le_pow_u A l
  set a := (1 + A.u) ^ k
  set b := (1 + A.u) ^ l
  have hy := norm_nonneg y
  have hy' := norm_nonneg y'
  calc ‖A.mul x.val x'.val - y * y'‖ ≤ A.u * (‖x.val‖ * ‖x'.val‖) + (‖x.val‖ * ‖x'.val - y'‖ + ‖x.val - y‖ * ‖y'‖) := by
        rw [e1, ← norm_mul]
        refine (norm_add_le _ _).trans (add_le_add h1 ((norm_add_le _ _).trans ?_))
        rw [norm_mul, norm_mul]
    _ ≤ A.u * ((a * ‖y‖) * (b * ‖y'‖)) + ((a * ‖y‖) * ((b - 1) * ‖y'‖) + ((a - 1) * ‖y‖) * ‖y'‖) := by gcongr
    _ = ((1 + A.u) ^ (k + l + 1) - 1) * (‖y‖ * ‖y'‖) := by
        rw [pow_succ, pow_add]
        ring

/-- One step of a rounded sum. -/
theorem near_sum_step {k l : Nat} {s x : FC A} {z y : ℂ} {S : ℝ} (hz : ‖z‖ ≤ S) (h : ‖s.val - z‖ ≤ ((1 + A.u) ^ (k + l) - 1) * S)
    (hx : Near k x y) : ‖(s + x).val - (z + y)‖ ≤ ((1 + A.u) ^ (k + (l + 1)) - 1) * (S + ‖y‖) := by
  have e : (s + x).val = A.add s.val x.val := rfl
  have h1 := Arith.Ideal.add_err (A := A) s.val x.val
  have hx' := near_mono (Nat.le_add_right k l) hx
  unfold Near at hx'
  have hu := A.u_nonneg
  have ha := one_le_pow_u A (k + l)
  rw [e, ← Nat.add_assoc, pow_succ]
  set a := (1 + A.u) ^ (k + l)
  have e1 : A.add s.val x.val - (z + y) = (A.add s.val x.val - (s.val + x.val)) + ((s.val - z) + (x.val - y)) := by ring
  have h2 : ‖s.val + x.val‖ ≤ ‖s.val - z‖ + ‖x.val - y‖ + (S + ‖y‖) := by
    have : s.val + x.val = ((s.val - z) + (x.val - y)) + (z + y) := by ring
    rw [this]
    exact (norm_add_le _ _).trans (add_le_add (norm_add_le _ _) ((norm_add_le _ _).trans (by linarith)))
  have hS : 0 ≤ S := (norm_nonneg _).trans hz
  have hy := norm_nonneg y
  calc ‖A.add s.val x.val - (z + y)‖ ≤ A.u * ‖s.val + x.val‖ + (‖s.val - z‖ + ‖x.val - y‖) := by
        rw [e1]
        exact (norm_add_le _ _).trans (add_le_add h1 (norm_add_le _ _))
    _ ≤ A.u * ((a - 1) * S + (a - 1) * ‖y‖ + (S + ‖y‖)) + ((a - 1) * S + (a - 1) * ‖y‖) := by
        have := h2.trans (add_le_add (add_le_add h hx') le_rfl)
        gcongr
    _ = (a * (1 + A.u) - 1) * (S + ‖y‖) := by ring

end Ideal

/-! ## Matrix entries and their products -/

theorem matNear_shape {m : Mat (FC A)} {m' : Mat ℂ} (h : MatNear t m m') : m.shape = m'.shape ∧ (m.WF ↔ m'.WF) := by
  induction m generalizing m' with
  | dense r c d =>
    cases m' with
    | dense r' c' d' =>
      obtain ⟨rfl, rfl, h⟩ := h
      simp [Mat.shape, Mat.WF, h.length_eq]
    | _ => exact h.elim
  | cmat m ih =>
    cases m' with
    | cmat m' => exact ⟨by simp [Mat.shape, (ih h).1], (ih h).2⟩
    | _ => exact h.elim
  | swap n =>
    cases m' with
    | swap n' =>
      have h : n = n' := h
      subst h
      exact ⟨rfl, Iff.rfl⟩
    | _ => exact h.elim

theorem near_ite {P : Prop} [Decidable P] : Near t (if P then 1 else 0 : FC A) (if P then 1 else 0) := by
  apply near_exact
  split <;> rfl

theorem matNear_entry {m : Mat (FC A)} {m' : Mat ℂ} (h : MatNear t m m') {i j : Nat} {e : ℂ} (he : m'.calcEntry i j = .ok e) :
    ∃ e', m.calcEntry i j = .ok e' ∧ Near t e' e := by
  induction m generalizing m' i j with
  | dense r c d =>
    cases m' with
    | dense r' c' d' =>
      obtain ⟨rfl, rfl, h⟩ := h
      simp only [Mat.calcEntry] at he ⊢
      rcases hd : d'[i * r + j]? with _ | x
      · rw [hd] at he; cases he
      rw [hd] at he
      injection he with he
      subst he
      obtain ⟨hlt, hx⟩ := List.getElem?_eq_some_iff.1 hd
      have hlt' : i * r + j < d.length := by rw [h.length_eq]; exact hlt
      rw [List.getElem?_eq_getElem hlt']
      refine ⟨_, rfl, ?_⟩
      rw [← hx]
      exact h.get hlt' hlt
    | _ => exact h.elim
  | cmat m ih =>
    cases m' with
    | cmat m' =>
      have hs := (matNear_shape h).1
      simp only [Mat.calcEntry] at he ⊢
      rw [hs]
      split at he
      · next h1 =>
        rw [if_pos h1]
        injection he with he
        exact ⟨_, rfl, he ▸ near_ite⟩
      · next h1 =>
        rw [if_neg h1]
        split at he
        · next h2 =>
          rw [if_pos h2]
          exact ih h he
        · next h2 =>
          rw [if_neg h2]
          injection he with he
          exact ⟨_, rfl, near_exact _ he⟩
    | _ => exact h.elim
  | swap n =>
    cases m' with
    | swap n' =>
      have h : n = n' := h
      subst h
      simp only [Mat.calcEntry] at he ⊢
      injection he with he
      exact ⟨_, rfl, he ▸ near_ite⟩
    | _ => exact h.elim

/-- If 0 is right up to `k` roundings for a number that is not 0, everything is. -/
theorem near_zero_ge {x y : ℂ} (h : Near k (0 : FC A) x) (hx : x ≠ 0) {l : Nat} (hl : k ≤ l) : Near l (0 : FC A) y := by
  unfold Near at *
  have e : (0 : FC A).val = 0 := rfl
  rw [e, zero_sub, norm_neg] at h ⊢
  have h1 : 0 < ‖x‖ := norm_pos_iff.2 hx
  have h2 : 1 ≤ (1 + A.u) ^ k - 1 := by
    by_contra hc
    push Not at hc
    nlinarith
  have h3 := pow_le_pow_right₀ (by linarith [A.u_nonneg] : 1 ≤ 1 + A.u) hl
  have := norm_nonneg y
  nlinarith

section Ideal

variable [A.Ideal]

theorem near_product {mats : List (List Nat × Mat (FC A))} {mats' : List (List Nat × Mat ℂ)}
    (h : List.Forall₂ (fun a b => a.1 = b.1 ∧ MatNear t a.2 b.2) mats mats') {row col : Nat} {p : FC A} {p' q : ℂ}
    (hp : Near k p p') (hq : cEntryProduct n row col mats' p' = .ok q) :
    ∃ q', cEntryProduct n row col mats p = .ok q' ∧ Near (k + (t + 1) * mats.length) q' q := by
  induction h generalizing p p' k with
  | nil =>
    simp only [cEntryProduct] at hq
    injection hq with hq
    exact ⟨p, rfl, by simpa [← hq] using hp⟩
  | @cons a b mats mats' hab hrest ih =>
    obtain ⟨h1, h2⟩ := hab
    simp only [cEntryProduct, bind, Except.bind] at hq ⊢
    rcases he : b.2.calcEntry (cSubIndex n b.1 row) (cSubIndex n b.1 col) with _ | e
    · simp [he] at hq
    obtain ⟨e', he', hn⟩ := matNear_entry h2 he
    rw [h1, he']
    simp only [he] at hq
    have hm := near_mul hp hn
    have hlen : k + (t + 1) * (a :: mats).length = (k + t + 1) + (t + 1) * mats.length := by
      simp only [List.length_cons]; ring
    rw [hlen]
    dsimp only
    by_cases h0 : p' * e = 0
    · rw [if_pos h0] at hq
      injection hq with hq
      have : p * e' = 0 := by
        unfold Near at hm
        rw [h0, norm_zero, mul_zero, sub_zero] at hm
        exact FC.ext (norm_le_zero_iff.1 hm)
      rw [if_pos this]
      refine ⟨_, rfl, ?_⟩
      rw [← hq]
      exact near_mono (by omega) hm
    · rw [if_neg h0] at hq
      by_cases h0' : p * e' = 0
      · rw [if_pos h0']
        refine ⟨_, rfl, ?_⟩
        rw [h0'] at hm ⊢
        exact near_zero_ge hm h0 (by omega)
      · rw [if_neg h0']
        exact ih hm hq

end Ideal

/-! ## Rows -/

theorem near_terms (L : List Nat) (f : List (FC A × FC A) → Nat → Except PyErr (List (FC A × FC A))) (x : Nat → FC A × FC A)
    (h : ∀ c ∈ L, ∀ ts, f ts c = .ok (ts ++ [x c])) (ts : List (FC A × FC A)) : L.foldlM f ts = .ok (ts ++ L.map x) := by
  induction L generalizing ts with
  | nil => simp [pure, Except.pure]
  | cons c L ih =>
    rw [List.foldlM_cons, h c (by simp)]
    have := ih (fun c hc => h c (by simp [hc])) (ts ++ [x c])
    simpa [bind, Except.bind] using this

/-- The sum of a row: the factors up to `k` roundings, then the roundings of the sum. -/
theorem near_dot (L : List Nat) (p : Nat → FC A) (q v : Nat → ℂ) (h : ∀ c ∈ L, Near k (p c) (q c)) {d : ℂ} {m : Nat}
    (hd : ‖d - ((L.map fun c => ((p c).val, v c)).map fun t => t.1 * t.2).sum‖
      ≤ ((1 + A.u) ^ (m + 1) - 1) * ((L.map fun c => ((p c).val, v c)).map fun t => ‖t.1‖ * ‖t.2‖).sum) :
    ‖d - (L.map fun c => q c * v c).sum‖ ≤ ((1 + A.u) ^ (k + 1 + m) - 1) * (L.map fun c => ‖q c‖ * ‖v c‖).sum := by
  rw [List.map_map, List.map_map] at hd
  simp only [Function.comp_def] at hd
  have h1 : ‖(L.map fun c => (p c).val * v c).sum - (L.map fun c => q c * v c).sum‖
      ≤ ((1 + A.u) ^ k - 1) * (L.map fun c => ‖q c‖ * ‖v c‖).sum := by
    clear hd
    induction L with
    | nil => simp
    | cons c L ih =>
      simp only [List.map_cons, List.sum_cons, mul_add]
      have h1 := ih fun c hc => h c (by simp [hc])
      have h2 := h c (by simp)
      unfold Near at h2
      have e : (p c).val * v c + (L.map fun c => (p c).val * v c).sum - (q c * v c + (L.map fun c => q c * v c).sum)
          = ((p c).val - q c) * v c + ((L.map fun c => (p c).val * v c).sum - (L.map fun c => q c * v c).sum) := by ring
      rw [e]
      refine (norm_add_le _ _).trans (add_le_add ?_ h1)
      rw [norm_mul, ← mul_assoc]
      exact mul_le_mul_of_nonneg_right h2 (norm_nonneg _)
  have h2 : (L.map fun c => ‖(p c).val‖ * ‖v c‖).sum ≤ (1 + A.u) ^ k * (L.map fun c => ‖q c‖ * ‖v c‖).sum := by
    clear hd h1
    induction L with
    | nil => simp
    | cons c L ih =>
      simp only [List.map_cons, List.sum_cons, mul_add]
      refine add_le_add ?_ (ih fun c hc => h c (by simp [hc]))
      rw [← mul_assoc]
      exact mul_le_mul_of_nonneg_right (near_norm (h c (by simp))) (norm_nonneg _)
  have hm := one_le_pow_u A (m + 1)
  have h3 := mul_le_mul_of_nonneg_left h2 (by linarith : 0 ≤ (1 + A.u) ^ (m + 1) - 1)
  have h4 := norm_add_le (d - (L.map fun c => (p c).val * v c).sum)
    ((L.map fun c => (p c).val * v c).sum - (L.map fun c => q c * v c).sum)
  rw [sub_add_sub_cancel] at h4
  have e : (1 + A.u) ^ (k + 1 + m) = (1 + A.u) ^ (m + 1) * (1 + A.u) ^ k := by
    rw [← pow_add]
    congr 1
    omega
  rw [e]
  nlinarith

theorem sum_norm_entries {ops : List (List Nat × (Nat → Nat → ℂ))} {S : List Nat} (hS : S.Nodup)
    (hmem : ∀ q, q ∈ S ↔ q ∈ ops.flatMap (·.1)) (hn : ∀ q ∈ S, q < n) (v : Nat → ℂ) (r : Nat) :
    ∑ c ∈ range (2 ^ n), ‖kronEntry n ops r c‖ * ‖v c‖ = ∑ i ∈ range (2 ^ S.length),
      ‖(ops.map fun gm => gm.2 (subIndex n gm.1 r) (subIndex n gm.1 (spread n S r i))).prod * v (spread n S r i)‖ := by
  rw [← sum_agreeOff hS hn r fun c => ‖(ops.map fun gm => gm.2 (subIndex n gm.1 r) (subIndex n gm.1 c)).prod * v c‖,
    Finset.sum_filter]
  apply Finset.sum_congr rfl
  intro c _
  unfold kronEntry
  by_cases h : AgreeOff n S r c
  · rw [if_pos h, if_pos ((agreeOff_congr hmem r c).1 h), norm_mul]
  · rw [if_neg h, if_neg fun h' => h ((agreeOff_congr hmem r c).2 h'), norm_zero, zero_mul]

/-- The terms of a row, if the products of the entries succeed. -/
theorem row_terms {S : List Nat} {mats : List (List Nat × Mat (FC A))} {vec : List (FC A)} (hvec : vec.length = 2 ^ n) {row : Nat}
    {p : Nat → FC A} (hp1 : ∀ c, cEntryProduct n row c mats 1 = .ok (p c)) :
    ((List.range (2 ^ S.length)).map fun i => spread n S row i).foldlM (fun (ts : List (FC A × FC A)) col =>
      if col < 0 ∨ col - 0 ≥ vec.length then pure ts
      else do
        let p ← cEntryProduct n row col mats 1
        pure (ts ++ [(p, vec.getD (col - 0) 0)])) []
      = .ok (((List.range (2 ^ S.length)).map fun i => spread n S row i).map fun c => (p c, vec.getD c 0)) := by
  refine near_terms _ _ _ ?_ []
  intro c hc ts
  obtain ⟨i, -, rfl⟩ := List.mem_map.1 hc
  have hlt : spread n S row i < 2 ^ n := spread_lt ..
  rw [if_neg (by omega), hp1]
  rfl

theorem near_row [A.Ideal] (run : Nat) {mats : List (List Nat × Mat (FC A))} {mats' : List (List Nat × Mat ℂ)}
    (h : List.Forall₂ (fun a b => a.1 = b.1 ∧ MatNear t a.2 b.2) mats mats') (hv : ValidMats n mats') {vec : List (FC A)}
    (hvec : vec.length = 2 ^ n) {row : Nat} (hr : row < 2 ^ n) :
    ∃ s, cdotRowF run mats vec n 0 row = .ok s ∧
      ‖s.val - kronApply n (denote mats') (fun c => (vec.getD c 0).val) row‖
        ≤ ((1 + A.u) ^ ((t + 1) * mats.length + 1 + 2 ^ (sortedSet (mats'.flatMap (·.1))).length) - 1)
          * ∑ c ∈ range (2 ^ n), ‖kronEntry n (denote mats') row c‖ * ‖(vec.getD c 0).val‖ := by
  have hflat : mats.flatMap (·.1) = mats'.flatMap (·.1) := by
    clear hv
    induction h with
    | nil => rfl
    | cons hab _ ih => simp only [List.flatMap_cons, hab.1, ih]
  have hS := nodup_sortedSet (mats'.flatMap (·.1))
  have hn : ∀ q ∈ sortedSet (mats'.flatMap (·.1)), q < n := by
    intro q hq
    obtain ⟨gm, hgm, hq⟩ := List.mem_flatMap.1 (mem_sortedSet.1 hq)
    exact (hv gm hgm).1 q hq
  have hmem : ∀ q, q ∈ sortedSet (mats'.flatMap (·.1)) ↔ q ∈ (denote mats').flatMap (·.1) := by
    intro q
    rw [mem_sortedSet]
    simp [denote]
  rw [sum_norm_entries hS hmem hn, kronApply_eq_sum (denote mats') hS hmem hn]
  unfold cdotRowF rowTerms
  rw [hflat, cdotCols_eq _ n row hS hn hr]
  set S := sortedSet (mats'.flatMap (·.1))
  set q : Nat → ℂ := fun c => ((denote mats').map fun gm => gm.2 (subIndex n gm.1 row) (subIndex n gm.1 c)).prod
  have hp : ∀ c, ∃ p : FC A, cEntryProduct n row c mats 1 = .ok p ∧ Near ((t + 1) * mats.length) p (q c) := by
    intro c
    obtain ⟨p, hp1, hp2⟩ := near_product (A := A) (k := 0) h (p := 1) (near_exact 0 rfl) (cEntryProduct_eq mats' hv row c 1)
    refine ⟨p, hp1, ?_⟩
    simpa [q] using hp2
  choose p hp1 hp2 using hp
  set cols := (List.range (2 ^ S.length)).map fun i => spread n S row i with hcols
  have hterms := row_terms (S := S) hvec hp1
  refine ⟨_, by rw [hterms]; rfl, ?_⟩
  have hd := Arith.Ideal.dot_err (A := A) run row (cols.map fun c => ((p c).val, (vec.getD c 0).val))
  have hd' := near_dot (k := (t + 1) * mats.length) cols p q (fun c => (vec.getD c 0).val) (fun c _ => hp2 c) hd
  have hl : cols.length = 2 ^ S.length := by simp [hcols]
  rw [List.length_map, hl] at hd'
  simp only [hcols, List.map_map, Function.comp_def, sum_map_range] at hd' ⊢
  refine hd'.trans (le_of_eq ?_)
  congr 1
  apply Finset.sum_congr rfl
  intro i _
  rw [norm_mul]

/-- The kernel succeeds if every row does. -/
theorem kron_rows (run : Nat) {mats : List (Key × Mat (FC A))} {mats' : List (Key × Mat ℂ)}
    (h : List.Forall₂ (fun a b => a.1 = b.1 ∧ MatNear t a.2 b.2) mats mats') {vec out : List (FC A)}
    (hvec : vec.length = 2 ^ n) (hout : out.length = 2 ^ n) {sched : List Nat} (hs : sched.Perm (List.range (2 ^ n)))
    (hk : (mats'.map fun km => km.1.qubits).Nodup)
    (hsh : ∀ km ∈ mats', km.2.shape = (2 ^ km.1.qubits.length, 2 ^ km.1.qubits.length))
    (hr : ∀ km ∈ mats', ∀ q ∈ km.1.qubits, q < n) (hne : mats' ≠ [])
    (hlen : ∀ km ∈ mats', ∀ km' ∈ mats', km.1.qubits.length = km'.1.qubits.length) {P : Nat → FC A → Prop}
    (hrow : ∀ row < 2 ^ n, ∃ s, cdotRowF run (normed mats) vec n 0 row = .ok s ∧ P row s) :
    ∃ w, kronselectDotF run mats vec n out 0 0 sched = .ok w ∧ w.length = 2 ^ n ∧ ∀ r < 2 ^ n, P r (w.getD r 0) := by
  have hkeys : mats.map (fun km => km.1.qubits) = mats'.map fun km => km.1.qubits := by
    clear hk hsh hr hne hlen hrow
    induction h with
    | nil => rfl
    | cons hab _ ih => simp only [List.map_cons, hab.1, ih]
  have hsh' : ∀ km ∈ mats, km.2.shape = (2 ^ km.1.qubits.length, 2 ^ km.1.qubits.length) := by
    clear hkeys hk hr hne hlen hrow
    induction h with
    | nil => simp
    | cons hab _ ih =>
      intro km hkm
      rcases List.mem_cons.1 hkm with rfl | hkm
      · rw [(matNear_shape hab.2).1, hab.1]
        exact hsh _ (by simp)
      · exact ih (fun km hkm => hsh km (by simp [hkm])) km hkm
  have hrow' : ∀ row, ∃ s, row < 2 ^ n → cdotRowF run (normed mats) vec n 0 row = .ok s ∧ P row s := by
    intro row
    by_cases hlt : row < 2 ^ n
    · obtain ⟨s, h1, h2⟩ := hrow row hlt
      exact ⟨s, fun _ => ⟨h1, h2⟩⟩
    · exact ⟨0, fun h => absurd h hlt⟩
  clear hrow
  rename' hrow' => hrow
  choose row hrow using hrow
  refine ⟨(List.range (2 ^ n)).map row, ?_, by simp, ?_⟩
  · unfold kronselectDotF
    rw [if_neg (by omega), if_neg (by omega), normMats_ok mats (hkeys ▸ hk) hsh']
    simp only [bind, Except.bind]
    rw [if_neg]
    · unfold cdotLoopF
      rw [if_neg]
      · rw [foldlM_ok _ (fun o i => o.set i (row i))]
        · rw [foldl_set_all row sched out (by rw [hout]; exact hs), hout]
        · intro o i hi
          have : i < 2 ^ n := by simpa using hs.mem_iff.1 hi
          rw [Nat.add_zero, (hrow i this).1]
          rfl
      · rintro ⟨_, q, hq, hnq⟩
        obtain ⟨gm, hgm, hq⟩ := List.mem_flatMap.1 hq
        obtain ⟨km, hkm, rfl⟩ := List.mem_map.1 hgm
        have : km.1.qubits ∈ mats'.map fun km => km.1.qubits := hkeys ▸ List.mem_map.2 ⟨km, hkm, rfl⟩
        obtain ⟨km', hkm', e⟩ := List.mem_map.1 this
        have := hr km' hkm' q (by rw [e]; exact hq)
        omega
    · rintro (h1 | ⟨gm, hgm, gm', hgm', h1⟩)
      · apply hne
        have : mats = [] := by simpa [normed] using h1
        rw [this] at hkeys
        simpa using hkeys.symm
      · obtain ⟨km, hkm, rfl⟩ := List.mem_map.1 hgm
        obtain ⟨km', hkm', rfl⟩ := List.mem_map.1 hgm'
        have m1 : km.1.qubits ∈ mats'.map fun km => km.1.qubits := hkeys ▸ List.mem_map.2 ⟨km, hkm, rfl⟩
        have m2 : km'.1.qubits ∈ mats'.map fun km => km.1.qubits := hkeys ▸ List.mem_map.2 ⟨km', hkm', rfl⟩
        obtain ⟨a, ha, ea⟩ := List.mem_map.1 m1
        obtain ⟨b, hb, eb⟩ := List.mem_map.1 m2
        apply h1
        show km.1.qubits.length = km'.1.qubits.length
        rw [← ea, ← eb]
        exact hlen a ha b hb
  · intro r hr
    have e : ((List.range (2 ^ n)).map row).getD r 0 = row r := by simp [hr]
    rw [e]
    exact (hrow r hr).2

/-- The kernel in rounded arithmetic: it succeeds, and every amplitude is right up to the roundings of its row. -/
theorem near_kron [A.Ideal] (run : Nat) {mats : List (Key × Mat (FC A))} {mats' : List (Key × Mat ℂ)}
    (h : List.Forall₂ (fun a b => a.1 = b.1 ∧ MatNear t a.2 b.2) mats mats') {vec out : List (FC A)}
    (hvec : vec.length = 2 ^ n) (hout : out.length = 2 ^ n) {sched : List Nat} (hs : sched.Perm (List.range (2 ^ n)))
    (hk : (mats'.map fun km => km.1.qubits).Nodup)
    (hsh : ∀ km ∈ mats', km.2.shape = (2 ^ km.1.qubits.length, 2 ^ km.1.qubits.length))
    (hr : ∀ km ∈ mats', ∀ q ∈ km.1.qubits, q < n) (hwf : ∀ km ∈ mats', km.2.WF) (hne : mats' ≠ [])
    (hlen : ∀ km ∈ mats', ∀ km' ∈ mats', km.1.qubits.length = km'.1.qubits.length) :
    ∃ w, kronselectDotF run mats vec n out 0 0 sched = .ok w ∧ w.length = 2 ^ n ∧ ∀ r < 2 ^ n,
      ‖(w.getD r 0).val - kronApply n (opsOf mats') (fun c => (vec.getD c 0).val) r‖
        ≤ ((1 + A.u) ^ ((t + 1) * mats.length + 1 + 2 ^ (sortedSet (mats'.flatMap (·.1.qubits))).length) - 1)
          * ∑ c ∈ range (2 ^ n), ‖kronEntry n (opsOf mats') r c‖ * ‖(vec.getD c 0).val‖ := by
  have hN : List.Forall₂ (fun (a : List Nat × Mat (FC A)) b => a.1 = b.1 ∧ MatNear t a.2 b.2) (normed mats) (normed mats') := by
    clear hk hsh hr hwf hne hlen
    induction h with
    | nil => exact .nil
    | cons hab _ ih => exact .cons ⟨congrArg Key.qubits hab.1, hab.2⟩ ih
  have hv : ValidMats n (normed mats') := by
    intro gm hgm
    obtain ⟨km, hkm, rfl⟩ := List.mem_map.1 hgm
    exact ⟨hr km hkm, hwf km hkm, hsh km hkm⟩
  refine kron_rows (P := fun row s => ‖s.val - kronApply n (opsOf mats') (fun c => (vec.getD c 0).val) row‖
        ≤ ((1 + A.u) ^ ((t + 1) * mats.length + 1 + 2 ^ (sortedSet (mats'.flatMap (·.1.qubits))).length) - 1)
          * ∑ c ∈ range (2 ^ n), ‖kronEntry n (opsOf mats') row c‖ * ‖(vec.getD c 0).val‖) run h hvec hout hs hk hsh hr hne hlen
    fun row hlt => ?_
  obtain ⟨s, h1, h2⟩ := near_row run hN hv hvec hlt
  refine ⟨s, h1, ?_⟩
  rw [denote_normed] at h2
  have e : (normed mats').flatMap (·.1) = mats'.flatMap (·.1.qubits) := by simp [normed, List.flatMap_map]
  have e' : (normed mats).length = mats.length := by simp [normed]
  rw [e, e'] at h2
  exact h2

/-! ## Norms -/

/-- The absolute values of a unitary operator on `w` qubits increase the norm at most by `√(2 ^ w)`. -/
theorem abs_norm {ops : List (List Nat × (Nat → Nat → ℂ))} {S : List Nat} (hS : S.Nodup)
    (hmem : ∀ q, q ∈ S ↔ q ∈ ops.flatMap (·.1)) (hn : ∀ q ∈ S, q < n)
    (huni : opMat n ops * opMat n (adjOps ops) = 1) (v : Nat → ℂ) :
    ∑ r ∈ range (2 ^ n), (∑ c ∈ range (2 ^ n), ‖kronEntry n ops r c‖ * ‖v c‖) ^ 2
      ≤ 2 ^ S.length * ∑ c ∈ range (2 ^ n), ‖v c‖ ^ 2 := by
  have hrow : ∀ r < 2 ^ n, ∑ c ∈ range (2 ^ n), ‖kronEntry n ops r c‖ ^ 2 = 1 := by
    intro r hr
    have h1 := congrFun (congrFun huni ⟨r, hr⟩) ⟨r, hr⟩
    rw [opMat_adjOps, Matrix.one_apply_eq, Matrix.mul_apply] at h1
    simp only [Matrix.conjTranspose_apply, opMat] at h1
    rw [sum_fin_range (2 ^ n) fun c => kronEntry n ops r c * star (kronEntry n ops r c)] at h1
    have h2 : ((∑ c ∈ range (2 ^ n), ‖kronEntry n ops r c‖ ^ 2 : ℝ) : ℂ) = 1 := by
      rw [← h1, Complex.ofReal_sum]
      apply Finset.sum_congr rfl
      intro c _
      rw [← Complex.normSq_eq_norm_sq, ← Complex.mul_conj]
      rfl
    exact_mod_cast h2
  have hcs : ∀ r < 2 ^ n, (∑ c ∈ range (2 ^ n), ‖kronEntry n ops r c‖ * ‖v c‖) ^ 2
      ≤ ∑ c ∈ range (2 ^ n), if AgreeOff n S r c then ‖v c‖ ^ 2 else 0 := by
    intro r hr
    have e : ∑ c ∈ range (2 ^ n), ‖kronEntry n ops r c‖ * ‖v c‖
        = ∑ c ∈ range (2 ^ n), ‖kronEntry n ops r c‖ * (if AgreeOff n S r c then ‖v c‖ else 0) := by
      apply Finset.sum_congr rfl
      intro c _
      by_cases h : AgreeOff n S r c
      · rw [if_pos h]
      · rw [if_neg h]
        unfold kronEntry
        rw [if_neg fun h' => h ((agreeOff_congr hmem r c).2 h'), norm_zero, zero_mul, zero_mul]
    rw [e]
    refine (Finset.sum_mul_sq_le_sq_mul_sq _ _ _).trans ?_
    rw [hrow r hr, one_mul]
    apply Finset.sum_le_sum
    intro c _
    split <;> simp
  calc _ ≤ ∑ r ∈ range (2 ^ n), ∑ c ∈ range (2 ^ n), (if AgreeOff n S r c then ‖v c‖ ^ 2 else 0) :=
        Finset.sum_le_sum fun r hr => hcs r (Finset.mem_range.1 hr)
    _ = ∑ c ∈ range (2 ^ n), ∑ r ∈ range (2 ^ n), (if AgreeOff n S c r then ‖v c‖ ^ 2 else 0) := by
        rw [Finset.sum_comm]
        apply Finset.sum_congr rfl
        intro c _
        apply Finset.sum_congr rfl
        intro r _
        exact if_congr ⟨AgreeOff.symm, AgreeOff.symm⟩ rfl rfl
    _ = 2 ^ S.length * ∑ c ∈ range (2 ^ n), ‖v c‖ ^ 2 := by
        rw [Finset.mul_sum]
        apply Finset.sum_congr rfl
        intro c _
        rw [← Finset.sum_filter, sum_agreeOff hS hn c fun _ => ‖v c‖ ^ 2]
        simp
    _ ≤ _ := le_rfl

theorem dist2_eq (n : Nat) (v w : Nat → ℂ) :
    dist2 n v w = ‖(WithLp.toLp 2 fun i : Fin (2 ^ n) => v i - w i : EuclideanSpace ℂ (Fin (2 ^ n)))‖ := by
  rw [EuclideanSpace.norm_eq, dist2, ← sum_fin_range]

theorem dist2_triangle (n : Nat) (a b c : Nat → ℂ) : dist2 n a c ≤ dist2 n a b + dist2 n b c := by
  rw [dist2_eq, dist2_eq, dist2_eq]
  refine le_trans (le_of_eq ?_) (norm_add_le _ _)
  congr 1
  ext i
  simp

theorem dist2_nonneg (n : Nat) (a b : Nat → ℂ) : 0 ≤ dist2 n a b := Real.sqrt_nonneg _

theorem dist2_norm2 (n : Nat) (v w : Nat → ℂ) : dist2 n v w = √(norm2 ((List.range (2 ^ n)).map fun r => v r - w r)) := by
  unfold dist2 norm2
  rw [List.map_map, sum_map_range]
  congr 1
  apply Finset.sum_congr rfl
  intro r _
  rw [Function.comp, Complex.normSq_eq_norm_sq]

/-- A unitary operator does not change distances. -/
theorem dist2_unitary {ops : List (List Nat × (Nat → Nat → ℂ))} {T : (Nat → ℂ) → Nat → ℂ}
    (huni : opMat n (adjOps ops) * opMat n ops = 1) (hsem : ∀ v r, r < 2 ^ n → kronApply n ops v r = T v r) (v w : Nat → ℂ) :
    dist2 n (T v) (T w) = dist2 n v w := by
  rw [dist2_norm2, dist2_norm2, ← norm2_act huni ((List.range (2 ^ n)).map fun r => v r - w r) (by simp)]
  congr 2
  unfold act
  apply List.map_congr_left
  intro r hr
  have hr : r < 2 ^ n := by simpa using hr
  rw [← hsem v r hr, ← hsem w r hr]
  unfold kronApply
  rw [← Finset.sum_sub_distrib]
  apply Finset.sum_congr rfl
  intro c hc
  have hc : c < 2 ^ n := by simpa using hc
  simp [hc, mul_sub]

/-- A gate does not change distances. -/
theorem dist2_gate {g : Gate} {gs : List (List Nat)} (hf : Fits g gs) (hgs : GroupsOK n gs) (v w : Nat → ℂ) :
    dist2 n (gateApply n g gs v) (gateApply n g gs w) = dist2 n v w := by
  obtain ⟨mats, hgm⟩ := gm_exists g gs hf hgs
  exact dist2_unitary hgm.uni hgm.sem v w

theorem dist2_gates {gates : List (Gate × List (List Nat))} (hf : ∀ g ∈ gates, Fits g.1 g.2 ∧ GroupsOK n g.2)
    (v w : Nat → ℂ) : dist2 n (exactGates n gates v) (exactGates n gates w) = dist2 n v w := by
  induction gates generalizing v w with
  | nil => rfl
  | cons g gates ih =>
    rw [exactGates, exactGates, ih (fun g hg => hf g (by simp [hg]))]
    exact dist2_gate (hf g (by simp)).1 (hf g (by simp)).2 v w

theorem length_dictInsert {α β : Type} [DecidableEq α] (d : List (α × β)) (k : α) (v : β) :
    (dictInsert d k v).length ≤ d.length + 1 := by
  unfold dictInsert
  split <;> simp

/-- A gate has at most as many matrices as qubits (one without qubits). -/
theorem makemats_length {g : Gate} {gs : List (List Nat)} (hf : Fits g gs) (hgs : GroupsOK n gs)
    {mats : List (Key × Mat ℂ)} (h : g.makemats gs = .ok mats) : mats.length ≤ gs.flatten.length + 1 := by
  induction g generalizing gs mats with
  | swap k =>
    obtain ⟨a, b, rfl, ha, hb⟩ := hf
    simp only [Gate.makemats] at h
    injection h with h
    subst h
    simp
  | c op ih =>
    obtain ⟨q, rest, rfl, hf⟩ := hf
    simp only [Gate.makemats, bind, Except.bind, List.tail_cons] at h
    rcases ho : op.makemats rest with _ | opm
    · simp [ho] at h
    simp only [ho] at h
    have h1 := ih hf hgs.tail ho
    have key : ∀ (l : List (Key × Mat ℂ)) (d d' : List (Key × Mat ℂ)), l.foldlM (fun d km =>
        (.ok (dictInsert d (.tup ([q] ++ km.1.qubits)) (.cmat km.2)) : Except PyErr (List (Key × Mat ℂ)))) d = .ok d' →
        d'.length ≤ d.length + l.length := by
      intro l
      induction l with
      | nil =>
        intro d d' h
        injection h with h
        simp [h]
      | cons x l ih =>
        intro d d' h
        rw [List.foldlM_cons] at h
        have := ih _ _ h
        have := length_dictInsert d (.tup ([q] ++ x.1.qubits)) (.cmat x.2)
        simp only [List.length_cons]
        omega
    have := key opm [] mats h
    simp only [List.flatten_cons, List.length_append, List.length_cons, List.length_nil] at *
    omega
  | _ =>
    simp only [Gate.makemats] at h
    injection h with h
    subst h
    rw [perQubit_eq _ _ hgs.1, List.length_map]
    exact Nat.le_succ _

/-- The kernel in rounded arithmetic with matrices of a unitary operator `T` on the qubits `L`. -/
theorem mats_rounding [A.Ideal] (run : Nat) {L : List Nat} {T : (Nat → ℂ) → Nat → ℂ} {mats : List (Key × Mat ℂ)} {matsF : List (Key × Mat (FC A))}
    (hlt : ∀ q ∈ L, q < n) (hne : mats ≠ []) (hlen : ∀ km ∈ mats, ∀ km' ∈ mats, km.1.qubits.length = km'.1.qubits.length)
    (hkeys : (mats.map fun km => km.1.qubits).Nodup)
    (hshapes : ∀ km ∈ mats, km.2.shape = (2 ^ km.1.qubits.length, 2 ^ km.1.qubits.length))
    (hsub : ∀ km ∈ mats, ∀ q ∈ km.1.qubits, q ∈ L) (hwf : ∀ km ∈ mats, km.2.WF) (hlength : mats.length ≤ L.length + 1)
    (hsem : ∀ v r, r < 2 ^ n → kronApply n (opsOf mats) v r = T v r)
    (huni : opMat n (opsOf mats) * opMat n (adjOps (opsOf mats)) = 1)
    (hF : List.Forall₂ (fun (a : Key × Mat (FC A)) (b : Key × Mat ℂ) => a.1 = b.1 ∧ MatNear t a.2 b.2) matsF mats)
    {sched : List Nat} (hs : sched.Perm (List.range (2 ^ n))) {v arena : List (FC A)} (hv : v.length = 2 ^ n)
    (ha : arena.length = 2 ^ n) :
    ∃ w, kronselectDotF run matsF v n arena 0 0 sched = .ok w ∧ w.length = 2 ^ n ∧
      dist2 n (fun c => (w.getD c 0).val) (T fun c => (v.getD c 0).val)
        ≤ gateErr A.u t L.length * dist2 n (fun c => (v.getD c 0).val) 0 := by
  have hr : ∀ km ∈ mats, ∀ q ∈ km.1.qubits, q < n := fun km hkm q hq => hlt q (hsub km hkm q hq)
  obtain ⟨w, h1, h2, h3⟩ := near_kron run hF hv ha hs hkeys hshapes hr hwf hne hlen
  refine ⟨w, h1, h2, ?_⟩
  set S := sortedSet (mats.flatMap (·.1.qubits)) with hSdef
  have hS : S.Nodup := nodup_sortedSet _
  have hmem : ∀ q, q ∈ S ↔ q ∈ (opsOf mats).flatMap (·.1) := by
    intro q
    rw [hSdef, mem_sortedSet]
    simp [opsOf]
  have hn : ∀ q ∈ S, q < n := by
    intro q hq
    obtain ⟨km, hkm, hq⟩ := List.mem_flatMap.1 (mem_sortedSet.1 hq)
    exact hr km hkm q hq
  have hSlen : S.length ≤ L.length := by
    apply (hS.subperm ?_).length_le
    intro q hq
    obtain ⟨km, hkm, hq⟩ := List.mem_flatMap.1 (mem_sortedSet.1 hq)
    exact hsub km hkm q hq
  have hmlen : matsF.length ≤ L.length + 1 := hF.length_eq ▸ hlength
  set W := L.length
  set γ := (1 + A.u) ^ ((t + 1) * matsF.length + 1 + 2 ^ S.length) - 1
  set v' : Nat → ℂ := fun c => (v.getD c 0).val
  have hγ0 : 0 ≤ γ := by linarith [one_le_pow_u A ((t + 1) * matsF.length + 1 + 2 ^ S.length)]
  have hγ : γ ≤ (1 + A.u) ^ ((t + 1) * (W + 1) + 1 + 2 ^ W) - 1 := by
    have : (t + 1) * matsF.length + 1 + 2 ^ S.length ≤ (t + 1) * (W + 1) + 1 + 2 ^ W := by
      gcongr
      · norm_num
    have := pow_le_pow_right₀ (by linarith [A.u_nonneg] : 1 ≤ 1 + A.u) this
    linarith
  have h4 : dist2 n (fun c => (w.getD c 0).val) (T v') ≤ γ * (√(2 ^ S.length) * dist2 n v' 0) := by
    unfold dist2
    rw [← Real.sqrt_mul (by positivity), ← Real.sqrt_sq hγ0, ← Real.sqrt_mul (by positivity)]
    apply Real.sqrt_le_sqrt
    calc ∑ r ∈ range (2 ^ n), ‖(w.getD r 0).val - T v' r‖ ^ 2
        ≤ ∑ r ∈ range (2 ^ n), (γ * ∑ c ∈ range (2 ^ n), ‖kronEntry n (opsOf mats) r c‖ * ‖v' c‖) ^ 2 := by
          apply Finset.sum_le_sum
          intro r hr
          have hr : r < 2 ^ n := by simpa using hr
          rw [← hsem v' r hr]
          exact pow_le_pow_left₀ (norm_nonneg _) (h3 r hr) 2
      _ = γ ^ 2 * ∑ r ∈ range (2 ^ n), (∑ c ∈ range (2 ^ n), ‖kronEntry n (opsOf mats) r c‖ * ‖v' c‖) ^ 2 := by
          rw [Finset.mul_sum]
          simp only [mul_pow]
      _ ≤ γ ^ 2 * (2 ^ S.length * ∑ r ∈ range (2 ^ n), ‖v' r - (0 : Nat → ℂ) r‖ ^ 2) := by
          have := abs_norm hS hmem hn huni v'
          simp only [Pi.zero_apply, sub_zero]
          gcongr
  refine h4.trans ?_
  unfold gateErr
  rw [← mul_assoc]
  have h5 : √((2 : ℝ) ^ S.length) ≤ √(2 ^ W) := Real.sqrt_le_sqrt (pow_le_pow_right₀ (by norm_num) hSlen)
  have := dist2_nonneg n v' 0
  have := hγ0.trans hγ
  gcongr

/-- One gate in rounded arithmetic. -/
theorem gate_rounding [A.Ideal] (run : Nat) {g : Gate} {gs : List (List Nat)} (hf : Fits g gs) (hgs : GroupsOK n gs)
    {mats : List (Key × Mat ℂ)} {matsF : List (Key × Mat (FC A))} (hm : g.feedMats false gs = .ok mats)
    (hF : List.Forall₂ (fun (a : Key × Mat (FC A)) (b : Key × Mat ℂ) => a.1 = b.1 ∧ MatNear t a.2 b.2) matsF mats)
    {sched : List Nat} (hs : sched.Perm (List.range (2 ^ n))) {v arena : List (FC A)} (hv : v.length = 2 ^ n)
    (ha : arena.length = 2 ^ n) :
    ∃ w, kronselectDotF run matsF v n arena 0 0 sched = .ok w ∧ w.length = 2 ^ n ∧
      dist2 n (fun c => (w.getD c 0).val) (gateApply n g gs fun c => (v.getD c 0).val)
        ≤ gateErr A.u t gs.flatten.length * dist2 n (fun c => (v.getD c 0).val) 0 := by
  obtain ⟨mats', hgm⟩ := gm_exists g gs hf hgs
  have e : mats' = mats := by
    have := hgm.ok
    simp only [Gate.feedMats, this, bind, Except.bind, Bool.false_eq_true, if_false, pure, Except.pure] at hm
    injection hm
  subst e
  exact mats_rounding run hgs.2 hgm.ne hgm.len hgm.keys hgm.shapes hgm.sub hgm.wf (makemats_length hf hgs hgm.ok) hgm.sem hgm.uni'
    hF hs hv ha

end QIP
