import Mathlib.LinearAlgebra.Matrix.ConjTranspose
import Mathlib.Algebra.BigOperators.Fin
import Verif.Lemmas.Spread

/-! # Algebra of tensor product operators -/

namespace QIP

open Spec Finset

variable {R : Type} [CommSemiring R]

/-- Qubits touched by an operator. -/
def touched (ops : List (List Nat × (Nat → Nat → R))) : List Nat := ops.flatMap (·.1)

/-- The operator as a matrix. -/
def opMat (n : Nat) (ops : List (List Nat × (Nat → Nat → R))) : Matrix (Fin (2 ^ n)) (Fin (2 ^ n)) R :=
  fun r c => kronEntry n ops r c

theorem sum_fin_range {M : Type} [AddCommMonoid M] (m : Nat) (f : Nat → M) :
    ∑ i : Fin m, f i = ∑ i ∈ range m, f i := by
  rw [Finset.sum_range]

theorem opMat_mul_apply (n : Nat) (A B : List (List Nat × (Nat → Nat → R))) (r c : Fin (2 ^ n)) :
    (opMat n A * opMat n B) r c = ∑ k ∈ range (2 ^ n), kronEntry n A r k * kronEntry n B k c := by
  rw [Matrix.mul_apply, ← sum_fin_range (2 ^ n) fun k => kronEntry n A r k * kronEntry n B k c]
  rfl

theorem kronApply_eq_mulVec (n : Nat) (A : List (List Nat × (Nat → Nat → R))) (v : Nat → R) (r : Fin (2 ^ n)) :
    kronApply n A v r = (opMat n A).mulVec (fun c => v c) r := by
  rw [kronApply, ← sum_fin_range (2 ^ n) fun c => kronEntry n A r c * v c]
  rfl

/-- Two operators with equal matrices act equally. -/
theorem kronApply_congr {n : Nat} {A B : List (List Nat × (Nat → Nat → R))} (h : opMat n A = opMat n B)
    (v : Nat → R) (r : Nat) (hr : r < 2 ^ n) : kronApply n A v r = kronApply n B v r := by
  have := kronApply_eq_mulVec n A v ⟨r, hr⟩
  rw [h, ← kronApply_eq_mulVec] at this
  exact this

theorem kronApply_congr_vec {n : Nat} (A : List (List Nat × (Nat → Nat → R))) {v w : Nat → R}
    (h : ∀ c < 2 ^ n, v c = w c) (r : Nat) : kronApply n A v r = kronApply n A w r := by
  unfold kronApply
  exact sum_congr rfl fun c hc => by rw [h c (by simpa using hc)]

/-- Composition of actions is the matrix product. -/
theorem kronApply_kronApply {n : Nat} (A B : List (List Nat × (Nat → Nat → R))) (v : Nat → R)
    (r : Fin (2 ^ n)) :
    kronApply n A (kronApply n B v) r = (opMat n A * opMat n B).mulVec (fun c => v c) r := by
  rw [kronApply_eq_mulVec, ← Matrix.mulVec_mulVec]
  congr 1
  funext c
  exact kronApply_eq_mulVec n B v c

theorem opMat_nil (n : Nat) : opMat n ([] : List (List Nat × (Nat → Nat → R))) = 1 := by
  funext r c
  simp only [opMat, kronEntry, List.flatMap_nil, List.map_nil, List.prod_nil, Matrix.one_apply]
  by_cases h : r = c
  · subst h
    rw [if_pos (AgreeOff.refl _ _ _), if_pos rfl]
  · rw [if_neg, if_neg h]
    intro h'
    apply h
    apply Fin.ext
    exact qbit_ext r.2 c.2 fun q hq => h' q hq (by simp)

/-- Operators on disjoint sets of qubits: the joint operator is the product. -/
theorem opMat_append {n : Nat} (A B : List (List Nat × (Nat → Nat → R)))
    (hd : ∀ q ∈ touched A, q ∉ touched B) (hA : ∀ q ∈ touched A, q < n) (hB : ∀ q ∈ touched B, q < n) :
    opMat n (A ++ B) = opMat n A * opMat n B := by
  funext r c
  rw [opMat_mul_apply]
  -- the only intermediate state that can contribute
  let k := ofQbits n fun q => if q ∈ touched A then qbit n c q else qbit n r q
  have hk : ∀ q < n, qbit n k q = if q ∈ touched A then qbit n c q else qbit n r q := fun q hq => qbit_ofQbits _ hq
  have hklt : k < 2 ^ n := ofQbits_lt _ _
  rw [Finset.sum_eq_single k]
  · have hsubA : ∀ gm ∈ A, subIndex n gm.1 k = subIndex n gm.1 c := by
      intro gm hgm
      apply subIndex_congr
      intro q hq
      have hqA : q ∈ touched A := List.mem_flatMap.2 ⟨gm, hgm, hq⟩
      rw [hk q (hA q hqA), if_pos hqA]
    have hsubB : ∀ gm ∈ B, subIndex n gm.1 k = subIndex n gm.1 r := by
      intro gm hgm
      apply subIndex_congr
      intro q hq
      have hqB : q ∈ touched B := List.mem_flatMap.2 ⟨gm, hgm, hq⟩
      rw [hk q (hB q hqB), if_neg fun hqA => hd q hqA hqB]
    have h1 : AgreeOff n (touched A) r k := by
      intro q hq hn
      rw [hk q hq, if_neg hn]
    simp only [opMat, kronEntry]
    change (if AgreeOff n (touched (A ++ B)) r c then _ else _) = (if AgreeOff n (touched A) r k then _ else _) *
      (if AgreeOff n (touched B) k c then _ else _)
    rw [if_pos h1]
    by_cases h2 : AgreeOff n (touched (A ++ B)) r c
    · have h3 : AgreeOff n (touched B) k c := by
        intro q hq hn
        rw [hk q hq]
        split
        · rfl
        · next hqA => exact h2 q hq (by simp [touched] at hqA hn ⊢; tauto)
      rw [if_pos h2, if_pos h3, List.map_append, List.prod_append]
      congr 2
      · apply List.map_congr_left
        intro gm hgm
        rw [hsubA gm hgm]
      · apply List.map_congr_left
        intro gm hgm
        rw [hsubB gm hgm]
    · rw [if_neg h2, if_neg, mul_zero]
      intro h3
      apply h2
      intro q hq hn
      have hqA : q ∉ touched A := by simp [touched] at hn ⊢; tauto
      have hqB : q ∉ touched B := by simp [touched] at hn ⊢; tauto
      have := h3 q hq hqB
      rwa [hk q hq, if_neg hqA] at this
  · intro k' hk' hne
    have hk'lt : k' < 2 ^ n := by simpa using hk'
    simp only [kronEntry]
    by_cases h1 : AgreeOff n (touched A) r k'
    · by_cases h3 : AgreeOff n (touched B) k' c
      · exfalso
        apply hne
        apply qbit_ext hk'lt hklt
        intro q hq
        rw [hk q hq]
        split
        · next hqA => exact h3 q hq (hd q hqA)
        · next hqA => exact (h1 q hq hqA).symm
      · have : ¬ AgreeOff n (B.flatMap (·.1)) k' c := h3
        rw [if_neg this, mul_zero]
    · have : ¬ AgreeOff n (A.flatMap (·.1)) r k' := h1
      rw [if_neg this, zero_mul]
  · intro h; simp at h; omega

theorem opMat_perm {n : Nat} {A B : List (List Nat × (Nat → Nat → R))} (h : A.Perm B) : opMat n A = opMat n B := by
  funext r c
  unfold opMat kronEntry
  have hmem : ∀ q, q ∈ A.flatMap (·.1) ↔ q ∈ B.flatMap (·.1) := fun q => (h.flatMap_right _).mem_iff
  by_cases hA : AgreeOff n (A.flatMap (·.1)) r c
  · rw [if_pos hA, if_pos ((agreeOff_congr hmem r c).1 hA)]
    exact (h.map _).prod_eq
  · rw [if_neg hA, if_neg fun h' => hA ((agreeOff_congr hmem r c).2 h')]

/-- Disjoint operators commute. -/
theorem opMat_comm {n : Nat} (A B : List (List Nat × (Nat → Nat → R)))
    (hd : ∀ q ∈ touched A, q ∉ touched B) (hA : ∀ q ∈ touched A, q < n) (hB : ∀ q ∈ touched B, q < n) :
    opMat n A * opMat n B = opMat n B * opMat n A := by
  rw [← opMat_append A B hd hA hB, ← opMat_append B A (fun q hB' hA' => hd q hA' hB') hB hA]
  exact opMat_perm List.perm_append_comm

/-- Matrix product of two matrices of size `d` given as functions. -/
def mulN (d : Nat) (M N : Nat → Nat → R) (i j : Nat) : R := ∑ k ∈ range d, M i k * N k j

/-- Two matrices on the same qubits: the operator of the product. -/
theorem opMat_single_mul {n : Nat} {g : List Nat} (hg : g.Nodup) (hn : ∀ q ∈ g, q < n) (M N : Nat → Nat → R) :
    opMat n [(g, M)] * opMat n [(g, N)] = opMat n [(g, mulN (2 ^ g.length) M N)] := by
  funext r c
  rw [opMat_mul_apply]
  have e : ∀ (X : Nat → Nat → R) (a b : Nat), kronEntry n [(g, X)] a b
      = if AgreeOff n g a b then X (subIndex n g a) (subIndex n g b) else 0 := by
    intro X a b
    simp [kronEntry]
  simp only [opMat, e]
  have h1 : ∀ k : Nat, ((if AgreeOff n g r k then M (subIndex n g r) (subIndex n g k) else 0) *
      if AgreeOff n g k c then N (subIndex n g k) (subIndex n g c) else 0)
      = if AgreeOff n g r k then (if AgreeOff n g r c then
          M (subIndex n g r) (subIndex n g k) * N (subIndex n g k) (subIndex n g c) else 0) else 0 := by
    intro k
    by_cases h : AgreeOff n g r k
    · rw [if_pos h, if_pos h]
      by_cases h' : AgreeOff n g k c
      · rw [if_pos h', if_pos (h.trans h')]
      · rw [if_neg h', if_neg fun h'' => h' (h.symm.trans h''), mul_zero]
    · rw [if_neg h, if_neg h, zero_mul]
  rw [Finset.sum_congr rfl fun k _ => h1 k, ← Finset.sum_filter, sum_agreeOff hg hn]
  by_cases h : AgreeOff n g r c
  · simp only [if_pos h, mulN]
    apply Finset.sum_congr rfl
    intro i hi
    rw [subIndex_spread _ hg hn (by simpa using hi)]
  · simp [if_neg h]

/-- Only the entries below `2^|g|` matter. -/
theorem opMat_single_congr {n : Nat} {g : List Nat} {M N : Nat → Nat → R}
    (h : ∀ i < 2 ^ g.length, ∀ j < 2 ^ g.length, M i j = N i j) : opMat n [(g, M)] = opMat n [(g, N)] := by
  funext r c
  simp [opMat, kronEntry, h _ (subIndex_lt n g r) _ (subIndex_lt n g c)]

/-- The identity matrix on any group is the identity operator. -/
theorem opMat_single_one {n : Nat} (g : List Nat) :
    opMat n [(g, fun i j => if i = j then (1 : R) else 0)] = 1 := by
  funext r c
  simp only [opMat, kronEntry, List.flatMap_cons, List.flatMap_nil, List.append_nil, List.map_cons, List.map_nil,
    List.prod_cons, List.prod_nil, mul_one, Matrix.one_apply]
  by_cases h : r = c
  · subst h; rw [if_pos (AgreeOff.refl _ _ _), if_pos rfl, if_pos rfl]
  · rw [if_neg h]
    by_cases h1 : AgreeOff n g r c
    · rw [if_pos h1]
      by_cases h2 : subIndex n g r = subIndex n g c
      · exfalso
        apply h
        apply Fin.ext
        have := spread_subIndex c.2 h1
        rw [← h2, spread_subIndex r.2 (AgreeOff.refl n g r)] at this
        exact this
      · rw [if_neg h2]
    · rw [if_neg h1]

/-- Pairwise disjoint, repetition-free groups below `n`. -/
def GroupsOK (n : Nat) (gs : List (List Nat)) : Prop := gs.flatten.Nodup ∧ ∀ q ∈ gs.flatten, q < n

theorem GroupsOK.tail {n : Nat} {g : List Nat} {gs : List (List Nat)} (h : GroupsOK n (g :: gs)) : GroupsOK n gs := by
  unfold GroupsOK at *
  simp only [List.flatten_cons, List.nodup_append] at h
  exact ⟨h.1.2.1, fun q hq => h.2 q (List.mem_append_right _ hq)⟩

theorem GroupsOK.head {n : Nat} {g : List Nat} {gs : List (List Nat)} (h : GroupsOK n (g :: gs)) :
    g.Nodup ∧ (∀ q ∈ g, q < n) ∧ ∀ q ∈ g, q ∉ gs.flatten := by
  unfold GroupsOK at *
  simp only [List.flatten_cons, List.nodup_append] at h
  exact ⟨h.1.1, fun q hq => h.2 q (List.mem_append_left _ hq), fun q hq hq' => h.1.2.2 q hq q hq' rfl⟩

theorem touched_map {ι : Type} (L : List ι) (g : ι → List Nat) (M : ι → Nat → Nat → R) :
    touched (L.map fun t => (g t, M t)) = (L.map g).flatten := by
  simp [touched, List.flatMap_def, Function.comp_def]

theorem touched_cons (g : List Nat) (M : Nat → Nat → R) (A : List (List Nat × (Nat → Nat → R))) :
    touched ((g, M) :: A) = g ++ touched A := rfl

/-- An operator with disjoint groups is the product of its parts. -/
theorem opMat_cons {n : Nat} {g : List Nat} {M : Nat → Nat → R} {A : List (List Nat × (Nat → Nat → R))}
    (h : GroupsOK n (g :: A.map (·.1))) : opMat n ((g, M) :: A) = opMat n [(g, M)] * opMat n A := by
  have ht : touched A = (A.map (·.1)).flatten := by
    simp [touched, List.flatMap_def]
  obtain ⟨_, h2, h3⟩ := h.head
  have := opMat_append (n := n) [(g, M)] A (by simpa [touched_cons, touched, ht] using h3)
    (by simpa [touched] using h2) (by rw [ht]; exact h.tail.2)
  simpa using this

/-- Groupwise products. -/
theorem opMat_mul_groupwise {n : Nat} (L : List (List Nat × (Nat → Nat → R) × (Nat → Nat → R)))
    (h : GroupsOK n (L.map (·.1))) :
    opMat n (L.map fun t => (t.1, t.2.1)) * opMat n (L.map fun t => (t.1, t.2.2))
      = opMat n (L.map fun t => (t.1, mulN (2 ^ t.1.length) t.2.1 t.2.2)) := by
  induction L with
  | nil => simp [opMat_nil]
  | cons t L ih =>
    obtain ⟨g, M, N⟩ := t
    simp only [List.map_cons] at h ⊢
    have hm : ∀ f : (List Nat × (Nat → Nat → R) × (Nat → Nat → R)) → Nat → Nat → R,
        GroupsOK n (g :: (L.map fun t => (t.1, f t)).map (·.1)) := by
      intro f
      simpa [List.map_map, Function.comp_def] using h
    rw [opMat_cons (hm fun t => t.2.1), opMat_cons (hm fun t => t.2.2),
      opMat_cons (hm fun t => mulN (2 ^ t.1.length) t.2.1 t.2.2), ← ih h.tail,
      ← opMat_single_mul h.head.1 h.head.2.1]
    have hc := opMat_comm (n := n) (L.map fun t => (t.1, t.2.1)) [(g, N)]
      (by
        rw [touched_map]
        intro q hq hq'
        simp only [touched, List.flatMap_cons, List.flatMap_nil, List.append_nil] at hq'
        exact h.head.2.2 q hq' hq)
      (by rw [touched_map]; exact h.tail.2) (by simpa [touched] using h.head.2.1)
    calc opMat n [(g, M)] * opMat n (L.map fun t => (t.1, t.2.1)) *
          (opMat n [(g, N)] * opMat n (L.map fun t => (t.1, t.2.2)))
        = opMat n [(g, M)] * (opMat n (L.map fun t => (t.1, t.2.1)) * opMat n [(g, N)]) *
            opMat n (L.map fun t => (t.1, t.2.2)) := by simp only [Matrix.mul_assoc]
      _ = _ := by rw [hc]; simp only [Matrix.mul_assoc]

/-- Groupwise identity. -/
theorem opMat_groupwise_one {n : Nat} (L : List (List Nat × (Nat → Nat → R))) (h : GroupsOK n (L.map (·.1)))
    (h1 : ∀ t ∈ L, ∀ i < 2 ^ t.1.length, ∀ j < 2 ^ t.1.length, t.2 i j = if i = j then 1 else 0) :
    opMat n L = 1 := by
  induction L with
  | nil => exact opMat_nil n
  | cons t L ih =>
    obtain ⟨g, M⟩ := t
    rw [opMat_cons (by simpa using h), ih h.tail fun t ht => h1 t (List.mem_cons_of_mem _ ht),
      opMat_single_congr (h1 (g, M) (by simp)), opMat_single_one, Matrix.mul_one]

/-- Adding a control qubit to every group. -/
def ctrlOps (q : Nat) (A : List (List Nat × (Nat → Nat → R))) : List (List Nat × (Nat → Nat → R)) :=
  A.map fun gm => (q :: gm.1, ctrlEntry (2 ^ gm.1.length) gm.2)

theorem subIndex_cons (n q : Nat) (g : List Nat) (r : Nat) :
    subIndex n (q :: g) r = (if qbit n r q then 2 ^ g.length else 0) + subIndex n g r := by
  unfold subIndex
  have h := bitsVal_append [qbit n r q] (g.map (qbit n r))
  simp only [List.singleton_append, List.length_map] at h
  rw [List.map_cons, h]
  cases qbit n r q <;> simp [bitsVal]

theorem ctrl_entry_cases (n q : Nat) (g : List Nat) (M : Nat → Nat → R) (r c : Nat) :
    ctrlEntry (2 ^ g.length) M (subIndex n (q :: g) r) (subIndex n (q :: g) c)
      = if qbit n r q = qbit n c q then
          if qbit n r q then M (subIndex n g r) (subIndex n g c)
          else if subIndex n g r = subIndex n g c then 1 else 0
        else 0 := by
  rw [subIndex_cons, subIndex_cons]
  have h1 := subIndex_lt n g r
  have h2 := subIndex_lt n g c
  unfold ctrlEntry
  cases hr : qbit n r q <;> cases hc : qbit n c q <;> simp <;> omega

/-- Entries of a controlled operator: control bit 0 acts as the identity, control bit 1 as the operator. -/
theorem kronEntry_ctrl {n q : Nat} (hq : q < n) (A : List (List Nat × (Nat → Nat → R))) (hqA : q ∉ touched A)
    {r c : Nat} (hr : r < 2 ^ n) (hc : c < 2 ^ n) :
    kronEntry n (ctrlOps q A) r c = if qbit n r q then kronEntry n A r c else if r = c then 1 else 0 := by
  have hprod : ((ctrlOps q A).map fun gm => gm.2 (subIndex n gm.1 r) (subIndex n gm.1 c)).prod
      = (A.map fun gm => if qbit n r q = qbit n c q then
          if qbit n r q then gm.2 (subIndex n gm.1 r) (subIndex n gm.1 c)
          else if subIndex n gm.1 r = subIndex n gm.1 c then 1 else 0
        else 0).prod := by
    unfold ctrlOps
    rw [List.map_map]
    congr 1
    apply List.map_congr_left
    intro gm _
    exact ctrl_entry_cases n q gm.1 gm.2 r c
  unfold kronEntry
  rw [hprod]
  by_cases hA : A = []
  · subst hA
    simp only [ctrlOps, List.map_nil, List.flatMap_nil, List.prod_nil]
    by_cases h : r = c
    · subst h; rw [if_pos (AgreeOff.refl _ _ _)]; simp
    · rw [if_neg fun h' => h (qbit_ext hr hc fun q hq => h' q hq (by simp))]; simp [h]
  · have hmem : ∀ p, p ∈ (ctrlOps q A).flatMap (·.1) ↔ p = q ∨ p ∈ touched A := by
      intro p
      simp only [ctrlOps, List.flatMap_map, List.mem_flatMap, touched, List.mem_cons]
      constructor
      · rintro ⟨gm, hgm, rfl | hp⟩
        · exact Or.inl rfl
        · exact Or.inr ⟨gm, hgm, hp⟩
      · rintro (rfl | ⟨gm, hgm, hp⟩)
        · obtain ⟨gm, hgm⟩ := List.exists_mem_of_ne_nil A hA
          exact ⟨gm, hgm, Or.inl rfl⟩
        · exact ⟨gm, hgm, Or.inr hp⟩
    by_cases hb : qbit n r q = qbit n c q
    · have hag : AgreeOff n ((ctrlOps q A).flatMap (·.1)) r c ↔ AgreeOff n (A.flatMap (·.1)) r c := by
        constructor
        · intro h p hp hn
          by_cases hpq : p = q
          · rw [hpq]; exact hb
          · exact h p hp (by rw [hmem]; simp only [hpq, false_or]; exact hn)
        · intro h
          exact h.mono fun p hp => (hmem p).2 (Or.inr hp)
      simp only [hb, if_true]
      cases hcq : qbit n c q
      · simp only [Bool.false_eq_true, if_false]
        by_cases h : r = c
        · subst h
          rw [if_pos (AgreeOff.refl _ _ _), if_pos rfl]
          simp
        · rw [if_neg h]
          by_cases h1 : AgreeOff n ((ctrlOps q A).flatMap (·.1)) r c
          · rw [if_pos h1]
            have h2 := hag.1 h1
            -- some group differs
            have : ∃ gm ∈ A, subIndex n gm.1 r ≠ subIndex n gm.1 c := by
              by_contra hcon
              push Not at hcon
              apply h
              apply qbit_ext hr hc
              intro p hp
              by_cases hpA : p ∈ A.flatMap (·.1)
              · obtain ⟨gm, hgm, hpg⟩ := List.mem_flatMap.1 hpA
                have hi := List.idxOf_lt_length_iff.2 hpg
                have t1 := testBit_subIndex n gm.1 r (gm.1.idxOf p) hi
                have t2 := testBit_subIndex n gm.1 c (gm.1.idxOf p) hi
                rw [hcon gm hgm, t2] at t1
                simpa using t1.symm
              · exact h2 p hp hpA
            obtain ⟨gm, hgm, hne⟩ := this
            apply List.prod_eq_zero
            exact List.mem_map.2 ⟨gm, hgm, by simp [hne]⟩
          · rw [if_neg h1]
      · simp only [if_true]
        by_cases h1 : AgreeOff n ((ctrlOps q A).flatMap (·.1)) r c
        · rw [if_pos h1, if_pos (hag.1 h1)]
        · rw [if_neg h1, if_neg fun h => h1 (hag.2 h)]
    · simp only [hb, if_false]
      have hz : (A.map fun _ => (0 : R)).prod = 0 := by
        obtain ⟨gm, hgm⟩ := List.exists_mem_of_ne_nil A hA
        exact List.prod_eq_zero (List.mem_map.2 ⟨gm, hgm, rfl⟩)
      have hrc : r ≠ c := fun h => hb (by rw [h])
      have hnA : ¬ AgreeOff n (A.flatMap (·.1)) r c := fun h => hb (h q hq hqA)
      simp only [hz, if_neg hrc, if_neg hnA, ite_self]

/-- Action of a controlled operator. -/
theorem kronApply_ctrl {n q : Nat} (hq : q < n) (A : List (List Nat × (Nat → Nat → R))) (hqA : q ∉ touched A)
    (v : Nat → R) {r : Nat} (hr : r < 2 ^ n) :
    kronApply n (ctrlOps q A) v r = if qbit n r q then kronApply n A v r else v r := by
  unfold kronApply
  have : ∀ c ∈ range (2 ^ n), kronEntry n (ctrlOps q A) r c * v c
      = if qbit n r q then kronEntry n A r c * v c else if r = c then v c else 0 := by
    intro c hc
    rw [kronEntry_ctrl hq A hqA hr (by simpa using hc)]
    split
    · rfl
    · split <;> simp
  rw [Finset.sum_congr rfl this]
  split
  · rfl
  · rw [Finset.sum_ite_eq]
    simp [hr]

end QIP
