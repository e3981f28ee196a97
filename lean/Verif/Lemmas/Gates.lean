import Mathlib.Data.Complex.BigOperators
import Mathlib.Analysis.SpecialFunctions.Trigonometric.Basic
import Mathlib.Tactic.IntervalCases
import Verif.Lemmas.KronSelect
import Verif.Lemmas.OpAlgebra
import Verif.Spec.Gates

/-! # Gates: matrices, adjoints, unitarity -/

namespace QIP

open Spec Finset

/-! ## Actions on lists -/

section Act
variable {R : Type} [CommSemiring R]

/-- The operator applied to a state vector given as a list. -/
def act (n : Nat) (ops : List (List Nat × (Nat → Nat → R))) (v : List R) : List R :=
  (List.range (2 ^ n)).map fun r => kronApply n ops (fun c => v.getD c 0) r

theorem length_act (n : Nat) (ops : List (List Nat × (Nat → Nat → R))) (v : List R) : (act n ops v).length = 2 ^ n := by
  simp [act]

theorem getD_act {n : Nat} (ops : List (List Nat × (Nat → Nat → R))) (v : List R) {r : Nat} (hr : r < 2 ^ n) :
    (act n ops v).getD r 0 = kronApply n ops (fun c => v.getD c 0) r := by
  simp [act, hr]

theorem act_congr {n : Nat} {A B : List (List Nat × (Nat → Nat → R))} (h : opMat n A = opMat n B) (v : List R) :
    act n A v = act n B v := by
  apply List.map_congr_left
  intro r hr
  exact kronApply_congr h _ r (by simpa using hr)

theorem kronApply_act {n : Nat} (A B : List (List Nat × (Nat → Nat → R))) (v : List R) (r : Nat) :
    kronApply n A (fun c => (act n B v).getD c 0) r = kronApply n A (kronApply n B fun c => v.getD c 0) r :=
  kronApply_congr_vec A (fun _ hc => getD_act B v hc) r

theorem act_act_of_mul {n : Nat} {A B C : List (List Nat × (Nat → Nat → R))} (h : opMat n A * opMat n B = opMat n C)
    (v : List R) : act n A (act n B v) = act n C v := by
  apply List.map_congr_left
  intro r hr
  have hr' : r < 2 ^ n := by simpa using hr
  rw [kronApply_act]
  have := kronApply_kronApply A B (fun c => v.getD c 0) ⟨r, hr'⟩
  rw [h] at this
  exact this.trans (kronApply_eq_mulVec n C (fun c => v.getD c 0) ⟨r, hr'⟩).symm

theorem act_act_comm {n : Nat} {A B : List (List Nat × (Nat → Nat → R))}
    (h : opMat n A * opMat n B = opMat n B * opMat n A) (v : List R) : act n A (act n B v) = act n B (act n A v) := by
  apply List.map_congr_left
  intro r hr
  have hr' : r < 2 ^ n := by simpa using hr
  rw [kronApply_act, kronApply_act]
  have h1 := kronApply_kronApply A B (fun c => v.getD c 0) ⟨r, hr'⟩
  have h2 := kronApply_kronApply B A (fun c => v.getD c 0) ⟨r, hr'⟩
  rw [h] at h1
  exact h1.trans h2.symm

theorem act_nil {n : Nat} (v : List R) (hv : v.length = 2 ^ n) : act n [] v = v := by
  apply List.ext_getElem (by simp [act, hv])
  intro r h1 h2
  have hr : r < 2 ^ n := by omega
  simp only [act, List.getElem_map, List.getElem_range]
  have := kronApply_eq_mulVec n ([] : List (List Nat × (Nat → Nat → R))) (fun c => v.getD c 0) ⟨r, hr⟩
  rw [opMat_nil, Matrix.one_mulVec] at this
  simpa [h2] using this

theorem act_act_of_one {n : Nat} {A B : List (List Nat × (Nat → Nat → R))} (h : opMat n A * opMat n B = 1)
    (v : List R) (hv : v.length = 2 ^ n) : act n A (act n B v) = v := by
  rw [act_act_of_mul (C := []) (by rw [h, opMat_nil]), act_nil v hv]

theorem kronselectDot_act [DecidableEq R] {n : Nat} {mats : List (Key × Mat R)} {vec out : List R}
    (h : CallOK n mats vec out 0 0) (ho : out.length = 2 ^ n) {impl : DotImpl} (hi : ImplOK mats out impl) :
    kronselectDot mats vec n out 0 0 impl = .ok (act n (opsOf mats) vec) := by
  rw [kronselectDot_eq h hi, ho]
  simp only [act, Nat.add_zero, Except.ok.injEq]
  apply List.map_congr_left
  intro r _
  congr 1

end Act

/-! ## Adjoints -/

/-- Conjugate transpose of every matrix of an operator. -/
noncomputable def adjOps (A : List (List Nat × (Nat → Nat → ℂ))) : List (List Nat × (Nat → Nat → ℂ)) :=
  A.map fun gm => (gm.1, fun i j => (starRingEnd ℂ) (gm.2 j i))

theorem touched_adjOps (A : List (List Nat × (Nat → Nat → ℂ))) : touched (adjOps A) = touched A := by
  simp [touched, adjOps, List.flatMap_map]

theorem opMat_adjOps (n : Nat) (A : List (List Nat × (Nat → Nat → ℂ))) :
    opMat n (adjOps A) = (opMat n A).conjTranspose := by
  funext r c
  simp only [opMat, Matrix.conjTranspose_apply, kronEntry]
  have ht : (adjOps A).flatMap (·.1) = A.flatMap (·.1) := touched_adjOps A
  rw [ht]
  by_cases h : AgreeOff n (A.flatMap (·.1)) r c
  · rw [if_pos h, if_pos h.symm]
    change _ = (starRingEnd ℂ) _
    rw [map_list_prod, adjOps, List.map_map, List.map_map]
    rfl
  · rw [if_neg h, if_neg fun h' => h h'.symm, star_zero]

theorem ctrlOps_adjOps (q : Nat) (A : List (List Nat × (Nat → Nat → ℂ))) :
    adjOps (ctrlOps q A) = ctrlOps q (adjOps A) := by
  simp only [adjOps, ctrlOps, List.map_map]
  apply List.map_congr_left
  intro gm _
  simp only [Function.comp, Prod.mk.injEq, true_and]
  funext i j
  unfold ctrlEntry
  by_cases h1 : i < 2 ^ gm.1.length <;> by_cases h2 : j < 2 ^ gm.1.length
  · simp only [h1, h2, and_self, if_true]
    by_cases h3 : i = j
    · simp [h3]
    · simp [h3, Ne.symm h3]
  · have h1' : ¬ 2 ^ gm.1.length ≤ i := by omega
    simp [h1, h2, h1']
  · have h2' : ¬ 2 ^ gm.1.length ≤ j := by omega
    simp [h1, h2, h2']
  · have h1' : 2 ^ gm.1.length ≤ i := by omega
    have h2' : 2 ^ gm.1.length ≤ j := by omega
    simp [h1, h2, h1', h2']

theorem touched_ctrlOps {R : Type} [CommSemiring R] (q : Nat) (A : List (List Nat × (Nat → Nat → R))) :
    ∀ p ∈ touched (ctrlOps q A), p = q ∨ p ∈ touched A := by
  intro p hp
  simp only [touched, ctrlOps, List.flatMap_map, List.mem_flatMap, List.mem_cons] at hp ⊢
  obtain ⟨gm, hgm, rfl | h⟩ := hp
  · exact Or.inl rfl
  · exact Or.inr ⟨gm, hgm, h⟩

/-- Inverse operators have inverse controlled operators. -/
theorem opMat_ctrl_mul_one {R : Type} [CommSemiring R] {n q : Nat} (hq : q < n)
    {A B : List (List Nat × (Nat → Nat → R))} (hA : q ∉ touched A) (hB : q ∉ touched B)
    (h : opMat n A * opMat n B = 1) : opMat n (ctrlOps q A) * opMat n (ctrlOps q B) = 1 := by
  funext r c
  rw [opMat_mul_apply]
  have h1 : ∀ k ∈ range (2 ^ n), kronEntry n (ctrlOps q A) r k * kronEntry n (ctrlOps q B) k c
      = if qbit n r q then kronEntry n A r k * kronEntry n B k c
        else (if (r : Nat) = k then kronEntry n (ctrlOps q B) k c else 0) := by
    intro k hk
    have hk' : k < 2 ^ n := by simpa using hk
    rw [kronEntry_ctrl hq A hA r.2 hk', kronEntry_ctrl hq B hB hk' c.2]
    cases hr : qbit n r q
    · simp only [Bool.false_eq_true, if_false]
      by_cases hrk : (r : Nat) = k
      · simp [hrk]
      · simp [hrk]
    · simp only [if_true]
      by_cases hz : AgreeOff n (A.flatMap (·.1)) r k
      · have : qbit n k q = true := by rw [← hz q hq hA, hr]
        simp [this]
      · simp [kronEntry, hz]
  rw [Finset.sum_congr rfl h1]
  cases hr : qbit n r q
  · simp only [Bool.false_eq_true, if_false]
    rw [Finset.sum_ite_eq, if_pos (by simp), kronEntry_ctrl hq B hB r.2 c.2, hr]
    simp [Matrix.one_apply, Fin.ext_iff]
  · simp only [if_true]
    rw [← opMat_mul_apply, h]

/-- Norm preservation by an operator with `Aᴴ A = 1`. -/
theorem norm2_act {n : Nat} {A : List (List Nat × (Nat → Nat → ℂ))} (h : opMat n (adjOps A) * opMat n A = 1)
    (v : List ℂ) (hv : v.length = 2 ^ n) : norm2 (act n A v) = norm2 v := by
  have hsum : ∀ w : List ℂ, w.length = 2 ^ n →
      ((norm2 w : ℝ) : ℂ) = dotProduct (star fun i : Fin (2 ^ n) => w.getD i 0) (fun i : Fin (2 ^ n) => w.getD i 0) := by
    intro w hw
    have hw' : w = (List.range (2 ^ n)).map fun i => w.getD i 0 := by
      apply List.ext_getElem (by simp [hw])
      intro i h1 h2
      simp [h1]
    unfold norm2
    conv_lhs => rw [hw']
    rw [List.map_map, sum_map_range, ← sum_fin_range]
    simp only [dotProduct, Function.comp, Pi.star_apply, Complex.ofReal_sum]
    apply Finset.sum_congr rfl
    intro i _
    rw [Complex.normSq_eq_conj_mul_self]
    rfl
  have h1 := hsum (act n A v) (length_act n A v)
  have h2 := hsum v hv
  have hmv : (fun i : Fin (2 ^ n) => (act n A v).getD i 0) = (opMat n A).mulVec fun i => v.getD i 0 := by
    funext i
    rw [getD_act A v i.2, kronApply_eq_mulVec]
  rw [hmv, Matrix.star_mulVec, Matrix.dotProduct_mulVec, Matrix.vecMul_vecMul, ← opMat_adjOps, h,
    Matrix.vecMul_one] at h1
  exact_mod_cast h1.trans h2.symm

/-! ## The matrices of each gate -/

theorem perQubit_eq (mat : Mat ℂ) (gs : List (List Nat)) (h : gs.flatten.Nodup) :
    perQubit mat gs = gs.flatten.map fun i => (.int i, mat) := by
  unfold perQubit
  have key : ∀ (l : List Nat) (acc : List (Key × Mat ℂ)),
      (acc.map (·.1) ++ l.map Key.int).Nodup →
      l.foldl (fun d i => dictInsert d (.int i) mat) acc = acc ++ l.map fun i => (.int i, mat) := by
    intro l
    induction l with
    | nil => intro acc _; simp
    | cons i l ih =>
      intro acc hn
      rw [List.foldl_cons, dictInsert_new, ih]
      · simp
      · simpa using hn
      · intro hmem
        simp only [List.map_cons] at hn
        exact (List.nodup_append.1 hn).2.2 _ hmem _ (List.mem_cons_self ..) rfl
  have h' : (gs.flatten.map Key.int).Nodup := h.map fun a b hab => by simpa using hab
  simpa using key gs.flatten [] (by simpa using h')

/-- Everything needed about the matrices a gate produces. -/
structure GM (n : Nat) (g : Gate) (gs : List (List Nat)) (mats : List (Key × Mat ℂ)) : Prop where
  ok : g.makemats gs = .ok mats
  ne : mats ≠ []
  len : ∀ km ∈ mats, ∀ km' ∈ mats, km.1.qubits.length = km'.1.qubits.length
  keys : (mats.map fun km => km.1.qubits).Nodup
  shapes : ∀ km ∈ mats, km.2.shape = (2 ^ km.1.qubits.length, 2 ^ km.1.qubits.length)
  sub : ∀ km ∈ mats, ∀ q ∈ km.1.qubits, q ∈ gs.flatten
  wf : ∀ km ∈ mats, km.2.WF
  sem : ∀ v r, r < 2 ^ n → kronApply n (opsOf mats) v r = gateApply n g gs v r
  uni : opMat n (adjOps (opsOf mats)) * opMat n (opsOf mats) = 1
  uni' : opMat n (opsOf mats) * opMat n (adjOps (opsOf mats)) = 1

theorem flatten_singletons (l : List Nat) : (l.map fun q => [q]).flatten = l := by
  induction l with
  | nil => rfl
  | cons a l ih => simp [ih]

theorem subIndex_single (n q r : Nat) : subIndex n [q] r = (qbit n r q).toNat := by
  simp [subIndex, bitsVal]

theorem kronApply_single1 (n q : Nat) (M : Nat → Nat → ℂ) (U : Bool → Bool → ℂ)
    (hU : ∀ i j, M i.toNat j.toNat = U i j) (v : Nat → ℂ) (r : Nat) :
    kronApply n [([q], M)] v r = apply1 n q U v r := by
  unfold kronApply apply1
  rw [Finset.sum_filter]
  apply Finset.sum_congr rfl
  intro c _
  simp only [kronEntry, List.flatMap_cons, List.flatMap_nil, List.append_nil, List.map_cons, List.map_nil,
    List.prod_cons, List.prod_nil, mul_one, subIndex_single, hU]
  split <;> simp

theorem apply1_congr {n q : Nat} {U : Bool → Bool → ℂ} {v w : Nat → ℂ} (h : ∀ c < 2 ^ n, v c = w c) (r : Nat) :
    apply1 n q U v r = apply1 n q U w r := by
  unfold apply1
  apply Finset.sum_congr rfl
  intro c hc
  simp only [mem_filter, mem_range] at hc
  rw [h c hc.1]

theorem kronApply_cons {n : Nat} {g : List Nat} {M : Nat → Nat → ℂ} {A : List (List Nat × (Nat → Nat → ℂ))}
    (h : GroupsOK n (g :: A.map (·.1))) (v : Nat → ℂ) {r : Nat} (hr : r < 2 ^ n) :
    kronApply n ((g, M) :: A) v r = kronApply n [(g, M)] (kronApply n A v) r := by
  have h1 := kronApply_eq_mulVec n ((g, M) :: A) v ⟨r, hr⟩
  rw [opMat_cons h] at h1
  exact h1.trans (kronApply_kronApply _ _ _ ⟨r, hr⟩).symm

theorem kronApply_perQubit {n : Nat} (M : Nat → Nat → ℂ) (U : Bool → Bool → ℂ)
    (hU : ∀ i j, M i.toNat j.toNat = U i j) (v : Nat → ℂ) (l : List Nat) (hl : l.Nodup) (hn : ∀ q ∈ l, q < n)
    {r : Nat} (hr : r < 2 ^ n) :
    kronApply n (l.map fun q => ([q], M)) v r = l.foldr (fun q w => apply1 n q U w) v r := by
  induction l generalizing r with
  | nil =>
    have := kronApply_eq_mulVec n ([] : List (List Nat × (Nat → Nat → ℂ))) v ⟨r, hr⟩
    rw [opMat_nil, Matrix.one_mulVec] at this
    exact this
  | cons q l ih =>
    have hg : GroupsOK n ([q] :: (l.map fun q => ([q], M)).map (·.1)) := by
      have e : (l.map fun q => ([q], M)).map (·.1) = l.map fun q => [q] := by simp [List.map_map, Function.comp_def]
      rw [e]
      have e2 : ([q] :: l.map fun q => [q]).flatten = q :: l := by
        simp [← List.flatMap_def]
      exact ⟨by rw [e2]; exact hl, by rw [e2]; exact hn⟩
    rw [List.map_cons, kronApply_cons hg v hr, kronApply_single1 n q M U hU, List.foldr_cons]
    apply apply1_congr
    intro c hc
    exact ih hl.tail (fun q hq => hn q (List.mem_cons_of_mem _ hq)) hc

/-- One-qubit gates. -/
theorem gm_simple {n : Nat} {g : Gate} {gs : List (List Nat)} {d : List ℂ} (hd : d.length = 4)
    (hmk : g.makemats gs = .ok (perQubit (.dense 2 2 d) gs)) (hgs : GroupsOK n gs) (hne : gs.flatten ≠ [])
    (happ : ∀ v, gateApply n g gs v = gs.flatten.foldr (fun q w => apply1 n q (gateU g) w) v)
    (hU : ∀ i j : Bool, d.getD (i.toNat * 2 + j.toNat) 0 = gateU g i j)
    (hun : ∀ i j : Bool, (starRingEnd ℂ) (gateU g false i) * gateU g false j
      + (starRingEnd ℂ) (gateU g true i) * gateU g true j = if i = j then 1 else 0)
    (hun' : ∀ i j : Bool, gateU g i false * (starRingEnd ℂ) (gateU g j false)
      + gateU g i true * (starRingEnd ℂ) (gateU g j true) = if i = j then 1 else 0) :
    ∃ mats, GM n g gs mats := by
  have hops : opsOf (gs.flatten.map fun i => (Key.int i, Mat.dense 2 2 d))
      = gs.flatten.map fun q => ([q], fun i j => d.getD (i * 2 + j) 0) := by
    simp [opsOf, List.map_map, Function.comp_def, Key.qubits, matEntry]
  have hgr : ∀ f : Nat → Nat → Nat → ℂ, GroupsOK n ((gs.flatten.map fun q => ([q], f q)).map (·.1)) := by
    intro f
    have e : (gs.flatten.map fun q => ([q], f q)).map (·.1) = gs.flatten.map fun q => [q] := by
      simp [List.map_map, Function.comp_def]
    rw [e]
    have e2 := flatten_singletons gs.flatten
    exact ⟨by rw [e2]; exact hgs.1, by rw [e2]; exact hgs.2⟩
  have hone : ∀ F G : Nat → Nat → ℂ, (∀ i j : Bool, F i.toNat 0 * G 0 j.toNat + F i.toNat 1 * G 1 j.toNat
      = if i = j then 1 else 0) →
      opMat n (gs.flatten.map fun q => ([q], F)) * opMat n (gs.flatten.map fun q => ([q], G)) = 1 := by
    intro F G hFG
    have h1 := opMat_mul_groupwise (n := n) (gs.flatten.map fun q => ([q], F, G)) (by
      have := hgr fun _ => F
      simpa [List.map_map, Function.comp_def] using this)
    simp only [List.map_map, Function.comp_def] at h1
    rw [h1]
    apply opMat_groupwise_one
    · exact hgr fun _ => mulN (2 ^ 1) F G
    · intro t ht i hi j hj
      obtain ⟨q, _, rfl⟩ := List.mem_map.1 ht
      simp only [List.length_singleton, pow_one] at hi hj ⊢
      have hb : ∀ k < 2, ∃ b : Bool, k = b.toNat := by
        intro k hk
        interval_cases k
        · exact ⟨false, rfl⟩
        · exact ⟨true, rfl⟩
      obtain ⟨bi, rfl⟩ := hb i hi
      obtain ⟨bj, rfl⟩ := hb j hj
      simp only [mulN, Finset.sum_range_succ, Finset.sum_range_zero, zero_add]
      rw [hFG]
      cases bi <;> cases bj <;> simp
  refine ⟨gs.flatten.map fun i => (.int i, .dense 2 2 d), ?_, ?_, ?_, ?_, ?_, ?_, ?_, ?_, ?_, ?_⟩
  · rw [hmk, perQubit_eq _ _ hgs.1]
  · simpa using hne
  · intro km hkm km' hkm'
    obtain ⟨_, _, rfl⟩ := List.mem_map.1 hkm
    obtain ⟨_, _, rfl⟩ := List.mem_map.1 hkm'
    rfl
  · rw [List.map_map]
    exact hgs.1.map fun a b hab => by simpa [Key.qubits] using hab
  · intro km hkm
    obtain ⟨_, _, rfl⟩ := List.mem_map.1 hkm
    simp [Mat.shape, Key.qubits]
  · intro km hkm
    obtain ⟨q, hq, rfl⟩ := List.mem_map.1 hkm
    intro p hp
    simp only [Key.qubits, List.mem_singleton] at hp
    exact hp ▸ hq
  · intro km hkm
    obtain ⟨_, _, rfl⟩ := List.mem_map.1 hkm
    simp [Mat.WF, hd]
  · intro v r hr
    rw [hops, happ, kronApply_perQubit _ (gateU g) hU v gs.flatten hgs.1 hgs.2 hr]
  · have := hone (fun i j => (starRingEnd ℂ) (d.getD (j * 2 + i) 0)) (fun i j => d.getD (i * 2 + j) 0) (by
      intro i j
      have := hun i j
      rw [← hU, ← hU, ← hU, ← hU] at this
      simpa only [Bool.toNat_false, Bool.toNat_true, zero_mul, zero_add] using this)
    rw [hops, adjOps, List.map_map]
    exact this
  · have := hone (fun i j => d.getD (i * 2 + j) 0) (fun i j => (starRingEnd ℂ) (d.getD (j * 2 + i) 0)) (by
      intro i j
      have := hun' i j
      rw [← hU, ← hU, ← hU, ← hU] at this
      simpa only [Bool.toNat_false, Bool.toNat_true, add_zero] using this)
    rw [hops, adjOps, List.map_map]
    exact this

theorem subIndex_append (n : Nat) (a b : List Nat) (r : Nat) :
    subIndex n (a ++ b) r = subIndex n a r * 2 ^ b.length + subIndex n b r := by
  unfold subIndex
  rw [List.map_append, bitsVal_append, List.length_map]

theorem swap_mul (k : Nat) : ∀ i < 2 ^ (k + k), ∀ j < 2 ^ (k + k),
    mulN (2 ^ (k + k)) (swapEntry (R := ℂ) k) (swapEntry k) i j = if i = j then 1 else 0 := by
  intro i hi j hj
  rw [pow_add] at hi hj
  have hp : 0 < 2 ^ k := by positivity
  have hid : i / 2 ^ k < 2 ^ k := Nat.div_lt_of_lt_mul hi
  unfold mulN
  rw [Finset.sum_eq_single (i % 2 ^ k * 2 ^ k + i / 2 ^ k)]
  · have e1 : (i % 2 ^ k * 2 ^ k + i / 2 ^ k) / 2 ^ k = i % 2 ^ k := by
      rw [Nat.add_comm, Nat.add_mul_div_right _ _ hp, Nat.div_eq_of_lt hid, Nat.zero_add]
    have e2 : (i % 2 ^ k * 2 ^ k + i / 2 ^ k) % 2 ^ k = i / 2 ^ k := by
      rw [Nat.add_comm, Nat.add_mul_mod_self_right, Nat.mod_eq_of_lt hid]
    unfold swapEntry
    rw [e1, e2, if_pos ⟨rfl, rfl⟩, one_mul]
    by_cases h : i = j
    · subst h; simp
    · rw [if_neg h, if_neg]
      rintro ⟨h1, h2⟩
      apply h
      rw [← Nat.div_add_mod i (2 ^ k), ← Nat.div_add_mod j (2 ^ k), h1, h2]
  · intro m hm hne
    have : swapEntry (R := ℂ) k i m = 0 := by
      unfold swapEntry
      rw [if_neg]
      rintro ⟨h1, h2⟩
      apply hne
      rw [h1, h2, Nat.mul_comm, Nat.div_add_mod]
    rw [this, zero_mul]
  · intro h
    exfalso
    apply h
    rw [mem_range, pow_add]
    have : i % 2 ^ k < 2 ^ k := Nat.mod_lt _ hp
    nlinarith

theorem gm_swap {n k : Nat} {a b : List Nat} (ha : a.length = k) (hb : b.length = k) (hgs : GroupsOK n [a, b]) :
    ∃ mats, GM n (.swap k) [a, b] mats := by
  have hnd : (a ++ b).Nodup := by simpa using hgs.1
  have hlt : ∀ q ∈ a ++ b, q < n := by simpa using hgs.2
  have hlen : (a ++ b).length = k + k := by simp [ha, hb]
  have hadj : adjOps [(a ++ b, swapEntry (R := ℂ) k)] = [(a ++ b, swapEntry k)] := by
    simp only [adjOps, List.map_cons, List.map_nil, List.cons.injEq, Prod.mk.injEq, true_and, and_true]
    funext i j
    unfold swapEntry
    by_cases h : i / 2 ^ k = j % 2 ^ k ∧ i % 2 ^ k = j / 2 ^ k
    · rw [if_pos h, if_pos ⟨h.2.symm, h.1.symm⟩, map_one]
    · rw [if_neg h, if_neg fun h' => h ⟨h'.2.symm, h'.1.symm⟩, map_zero]
  have hmul : opMat n [(a ++ b, swapEntry (R := ℂ) k)] * opMat n [(a ++ b, swapEntry k)] = 1 := by
    rw [opMat_single_mul hnd hlt, hlen, opMat_single_congr (N := fun i j => if i = j then 1 else 0)
      (by rw [hlen]; exact swap_mul k), opMat_single_one]
  refine ⟨[(.tup (a ++ b), .swap k)], rfl, by simp, by simp, by simp, ?_, ?_, ?_, ?_, ?_, ?_⟩
  · simp [Mat.shape, Key.qubits, ha, hb, two_mul]
  · simp [Key.qubits]
  · simp [Mat.WF]
  · intro v r hr
    simp only [gateApply, List.getD_cons_zero, List.getD_cons_succ]
    rw [Finset.sum_filter]
    unfold kronApply
    apply Finset.sum_congr rfl
    intro c hc
    simp only [opsOf, List.map_cons, List.map_nil, Key.qubits, matEntry, kronEntry, List.flatMap_cons,
      List.flatMap_nil, List.append_nil, List.prod_cons, List.prod_nil, mul_one]
    by_cases h : AgreeOff n (a ++ b) r c
    · rw [if_pos h, subIndex_append, subIndex_append, hb]
      have h1 : ∀ x, subIndex n b x < 2 ^ k := fun x => hb ▸ subIndex_lt n b x
      have e1 : ∀ x, (subIndex n a x * 2 ^ k + subIndex n b x) / 2 ^ k = subIndex n a x := by
        intro x
        rw [Nat.add_comm, Nat.add_mul_div_right _ _ (by positivity), Nat.div_eq_of_lt (h1 x), Nat.zero_add]
      have e2 : ∀ x, (subIndex n a x * 2 ^ k + subIndex n b x) % 2 ^ k = subIndex n b x := by
        intro x
        rw [Nat.add_comm, Nat.add_mul_mod_self_right, Nat.mod_eq_of_lt (h1 x)]
      unfold swapEntry
      rw [e1, e1, e2, e2]
      by_cases h2 : subIndex n a r = subIndex n b c ∧ subIndex n b r = subIndex n a c
      · rw [if_pos h2, if_pos ⟨h, h2.2.symm, h2.1.symm⟩, one_mul]
      · rw [if_neg h2, if_neg fun h' => h2 ⟨h'.2.2.symm, h'.2.1.symm⟩, zero_mul]
    · rw [if_neg h, if_neg fun h' => h h'.1, zero_mul]
  · have e : opsOf [(Key.tup (a ++ b), (Mat.swap k : Mat ℂ))] = [(a ++ b, swapEntry k)] := by
      simp only [opsOf, List.map_cons, List.map_nil, Key.qubits]
      rfl
    rw [e, hadj, hmul]
  · have e : opsOf [(Key.tup (a ++ b), (Mat.swap k : Mat ℂ))] = [(a ++ b, swapEntry k)] := by
      simp only [opsOf, List.map_cons, List.map_nil, Key.qubits]
      rfl
    rw [e, hadj, hmul]

theorem touched_opsOf {mats : List (Key × Mat ℂ)} {gs : List (List Nat)}
    (h : ∀ km ∈ mats, ∀ q ∈ km.1.qubits, q ∈ gs.flatten) : ∀ q ∈ touched (opsOf mats), q ∈ gs.flatten := by
  intro q hq
  simp only [touched, opsOf, List.flatMap_map, List.mem_flatMap] at hq
  obtain ⟨km, hkm, hq⟩ := hq
  exact h km hkm q hq

theorem opsOf_ctrl (q : Nat) (mats : List (Key × Mat ℂ))
    (h : ∀ km ∈ mats, km.2.shape = (2 ^ km.1.qubits.length, 2 ^ km.1.qubits.length)) :
    opsOf (mats.map fun km => (Key.tup ([q] ++ km.1.qubits), Mat.cmat km.2)) = ctrlOps q (opsOf mats) := by
  simp only [opsOf, ctrlOps, List.map_map]
  apply List.map_congr_left
  intro km hkm
  simp only [Function.comp, Key.qubits, List.singleton_append, Prod.mk.injEq, true_and]
  funext i j
  rw [matEntry, matSize_eq, h km hkm]
  rfl

theorem gm_ctrl {n q : Nat} {g : Gate} {rest : List (List Nat)} (hgs : GroupsOK n ([q] :: rest))
    {mats : List (Key × Mat ℂ)} (h : GM n g rest mats) :
    GM n (.c g) ([q] :: rest) (mats.map fun km => (Key.tup ([q] ++ km.1.qubits), Mat.cmat km.2)) := by
  have hq : q < n := hgs.2 q (by simp)
  have hqr : q ∉ rest.flatten := by
    have := hgs.1
    simp only [List.flatten_cons, List.singleton_append] at this
    exact (List.nodup_cons.1 this).1
  have hqt : q ∉ touched (opsOf mats) := fun hh => hqr (touched_opsOf h.sub q hh)
  have hqt' : q ∉ touched (adjOps (opsOf mats)) := by rw [touched_adjOps]; exact hqt
  have hops := opsOf_ctrl q mats h.shapes
  refine ⟨?_, ?_, ?_, ?_, ?_, ?_, ?_, ?_, ?_, ?_⟩
  · unfold Gate.makemats
    simp only [List.tail_cons, h.ok, bind, Except.bind]
    have key : ∀ (l : List (Key × Mat ℂ)) (acc : List (Key × Mat ℂ)),
        (acc.map (·.1) ++ l.map fun km => Key.tup ([q] ++ km.1.qubits)).Nodup →
        l.foldlM (m := Except PyErr) (fun d km => .ok (dictInsert d (Key.tup ([q] ++ km.1.qubits)) (Mat.cmat km.2))) acc
          = .ok (acc ++ l.map fun km => (Key.tup ([q] ++ km.1.qubits), Mat.cmat km.2)) := by
      intro l
      induction l with
      | nil => intro acc _; simp; rfl
      | cons km l ih =>
        intro acc hn
        rw [List.foldlM_cons]
        simp only [bind, Except.bind]
        rw [dictInsert_new, ih]
        · simp
        · simpa using hn
        · intro hmem
          simp only [List.map_cons] at hn
          exact (List.nodup_append.1 hn).2.2 _ hmem _ (List.mem_cons_self ..) rfl
    have := key mats [] (by
      simp only [List.map_nil, List.nil_append]
      have := h.keys.map (f := fun l => Key.tup ([q] ++ l)) fun a b hab => by simpa using hab
      rwa [List.map_map] at this)
    simpa using this
  · simpa using h.ne
  · intro km hkm km' hkm'
    obtain ⟨x, hx, rfl⟩ := List.mem_map.1 hkm
    obtain ⟨y, hy, rfl⟩ := List.mem_map.1 hkm'
    simpa [Key.qubits] using h.len x hx y hy
  · rw [List.map_map]
    have := h.keys.map (f := fun l => [q] ++ l) fun a b hab => by simpa using hab
    rwa [List.map_map] at this
  · intro km hkm
    obtain ⟨x, hx, rfl⟩ := List.mem_map.1 hkm
    simp [Mat.shape, h.shapes x hx, Key.qubits, pow_succ]
  · intro km hkm p hp
    obtain ⟨x, hx, rfl⟩ := List.mem_map.1 hkm
    simp only [Key.qubits, List.singleton_append, List.mem_cons] at hp
    rcases hp with rfl | hp
    · simp
    · have := h.sub x hx p hp
      simp only [List.flatten_cons, List.singleton_append, List.mem_cons]
      exact Or.inr this
  · intro km hkm
    obtain ⟨x, hx, rfl⟩ := List.mem_map.1 hkm
    exact h.wf x hx
  · intro v r hr
    rw [hops, kronApply_ctrl hq _ hqt v hr, gateApply]
    simp only [List.getD_cons_zero, List.tail_cons]
    rw [h.sem v r hr]
  · rw [hops, ctrlOps_adjOps]
    exact opMat_ctrl_mul_one hq hqt' hqt h.uni
  · rw [hops, ctrlOps_adjOps]
    exact opMat_ctrl_mul_one hq hqt hqt' h.uni'

theorem sqrt2_sq : ((√2 : ℝ) : ℂ) * ((√2 : ℝ) : ℂ) = 2 := by
  rw [← Complex.ofReal_mul, Real.mul_self_sqrt (by norm_num)]; norm_num

theorem sqrt2_ne : ((√2 : ℝ) : ℂ) ≠ 0 := by
  intro h
  have := sqrt2_sq
  rw [h] at this
  norm_num at this

theorem expI_conj_mul (phi : ℝ) : (starRingEnd ℂ) (Complex.exp (Complex.I * phi)) * Complex.exp (Complex.I * phi) = 1 := by
  rw [← Complex.exp_conj, ← Complex.exp_add]
  simp

theorem rmPhi_eq (m : ℤ) (b : Bool) :
    expI (rmPhi m b) = Complex.exp (Complex.I * ((if b then -1 else 1) * (2 * Real.pi / (2 : ℝ) ^ m) : ℝ)) := by
  unfold expI rmPhi
  congr 3
  cases b <;> simp <;> ring

/-- Every gate whose inputs fit has matrices with all the required properties. -/
theorem gm_exists {n : Nat} (g : Gate) (gs : List (List Nat)) (hf : Fits g gs) (hgs : GroupsOK n gs) :
    ∃ mats, GM n g gs mats := by
  induction g generalizing gs with
  | not =>
    refine gm_simple (d := [0, 1, 1, 0]) rfl rfl hgs hf (fun _ => rfl) ?_ ?_ ?_ <;>
      (intro i j; cases i <;> cases j <;> simp [gateU])
  | x =>
    refine gm_simple (d := [0, 1, 1, 0]) rfl rfl hgs hf (fun _ => rfl) ?_ ?_ ?_ <;>
      (intro i j; cases i <;> cases j <;> simp [gateU])
  | y =>
    refine gm_simple (d := [0, -Complex.I, Complex.I, 0]) rfl rfl hgs hf (fun _ => rfl) ?_ ?_ ?_ <;>
      (intro i j; cases i <;> cases j <;> simp [gateU])
  | z =>
    refine gm_simple (d := [1, 0, 0, -1]) rfl rfl hgs hf (fun _ => rfl) ?_ ?_ ?_ <;>
      (intro i j; cases i <;> cases j <;> simp [gateU])
  | h =>
    have h2 := sqrt2_sq
    have hi : ((√2 : ℝ) : ℂ)⁻¹ * ((√2 : ℝ) : ℂ)⁻¹ = 1 / 2 := by
      rw [← mul_inv, h2]; norm_num
    refine gm_simple (d := [1 / (√2 : ℝ) * 1, 1 / (√2 : ℝ) * 1, 1 / (√2 : ℝ) * 1, 1 / (√2 : ℝ) * -1]) rfl rfl hgs hf
      (fun _ => rfl) ?_ ?_ ?_
    · intro i j; cases i <;> cases j <;> simp [gateU, div_eq_mul_inv]
    · intro i j
      cases i <;> cases j <;> simp [gateU, div_eq_mul_inv] <;>
        first | ring1 | linear_combination (2 : ℂ) * hi
    · intro i j
      cases i <;> cases j <;> simp [gateU, div_eq_mul_inv] <;>
        first | ring1 | linear_combination (2 : ℂ) * hi
  | r phi =>
    refine gm_simple (d := [1, 0, 0, expI phi]) rfl rfl hgs hf (fun _ => rfl) ?_ ?_ ?_
    · intro i j; cases i <;> cases j <;> simp [gateU, expI]
    · intro i j; cases i <;> cases j <;> simp [gateU]
      exact expI_conj_mul phi
    · intro i j; cases i <;> cases j <;> simp [gateU]
      rw [mul_comm]
      exact expI_conj_mul phi
  | rm m b =>
    refine gm_simple (d := [1, 0, 0, expI (rmPhi m b)]) rfl rfl hgs hf (fun _ => rfl) ?_ ?_ ?_
    · intro i j; cases i <;> cases j <;> simp only [rmPhi_eq] <;> simp [gateU]
    · intro i j; cases i <;> cases j <;> simp only [gateU, if_true, if_false, Bool.false_eq_true, map_one, map_zero,
        mul_one, mul_zero, zero_mul, add_zero, zero_add, reduceCtorEq]
      exact expI_conj_mul _
    · intro i j; cases i <;> cases j <;> simp only [gateU, if_true, if_false, Bool.false_eq_true, map_one, map_zero,
        mul_one, mul_zero, zero_mul, add_zero, zero_add, reduceCtorEq]
      rw [mul_comm]
      exact expI_conj_mul _
  | swap k =>
    obtain ⟨a, b, rfl, ha, hb⟩ := hf
    exact gm_swap ha hb hgs
  | c op ih =>
    obtain ⟨q, rest, rfl, hf⟩ := hf
    obtain ⟨mats, hm⟩ := ih rest hf hgs.tail
    exact ⟨_, gm_ctrl hgs hm⟩

/-! ## Dagger -/

theorem opMat_map_congr {R ι : Type} [CommSemiring R] {n : Nat} (L : List ι) (g : ι → List Nat) (M N : ι → Nat → Nat → R)
    (h : ∀ t ∈ L, ∀ i < 2 ^ (g t).length, ∀ j < 2 ^ (g t).length, M t i j = N t i j) :
    opMat n (L.map fun t => (g t, M t)) = opMat n (L.map fun t => (g t, N t)) := by
  funext r c
  have ht : ∀ F : ι → Nat → Nat → R, (L.map fun t => (g t, F t)).flatMap (·.1) = (L.map g).flatten :=
    fun F => touched_map L g F
  simp only [opMat, kronEntry, ht, List.map_map]
  congr 2
  apply List.map_congr_left
  intro t htm
  exact h t htm _ (subIndex_lt _ _ _) _ (subIndex_lt _ _ _)

/-- A matrix object that contains no `SwapMat`. -/
def noSwapMat {R : Type} : Mat R → Bool
  | .dense .. => true
  | .cmat m => noSwapMat m
  | .swap _ => false

/-- `m.conj().T`. -/
noncomputable def matDagger (m : Mat ℂ) : Except PyErr (Mat ℂ) := do
  let m ← m.conj
  m.T

theorem matDagger_ok (m : Mat ℂ) {s : Nat} (hs : m.shape = (s, s)) (hw : m.WF) (hn : noSwapMat m = true) :
    ∃ m', matDagger m = .ok m' ∧ m'.shape = (s, s) ∧ m'.WF ∧
      ∀ i < s, ∀ j < s, matEntry m' i j = (starRingEnd ℂ) (matEntry m j i) := by
  induction m generalizing s with
  | dense r c d =>
    simp only [Mat.shape, Prod.mk.injEq] at hs
    obtain ⟨rfl, rfl⟩ := hs
    refine ⟨_, rfl, rfl, by simp [Mat.WF], ?_⟩
    intro i hi j hj
    have hlt : i * c + j < c * c := by nlinarith
    have e1 : (i * c + j) % c = j := by
      rw [Nat.add_comm, Nat.add_mul_mod_self_right, Nat.mod_eq_of_lt hj]
    have e2 : (i * c + j) / c = i := by
      rw [Nat.add_comm, Nat.add_mul_div_right _ _ (by omega), Nat.div_eq_of_lt hj, Nat.zero_add]
    have hlt2 : j * c + i < d.length := by
      rw [show d.length = c * c from hw]; nlinarith
    simp only [matEntry]
    rw [List.getD_eq_getElem _ _ (by simpa using hlt), List.getElem_map, List.getElem_range, e1, e2,
      List.getD_eq_getElem _ _ (by simpa using hlt2), List.getElem_map, List.getD_eq_getElem _ _ hlt2]
  | cmat m ih =>
    rcases hsm : m.shape with ⟨a, b⟩
    simp only [Mat.shape, hsm, Prod.mk.injEq] at hs
    have hab : a = b := by omega
    subst hab
    obtain ⟨m', h1, h2, h3, h4⟩ := ih hsm hw hn
    have hc : ∃ m1, m.conj = .ok m1 ∧ m1.T = .ok m' := by
      unfold matDagger at h1
      rcases hh : m.conj with e | m1
      · rw [hh] at h1; cases h1
      · rw [hh] at h1; exact ⟨m1, rfl, h1⟩
    obtain ⟨m1, hc1, hc2⟩ := hc
    refine ⟨.cmat m', ?_, ?_, h3, ?_⟩
    · simp only [matDagger, Mat.conj, hc1, bind, Except.bind, pure, Except.pure, Mat.T, hc2]
    · simp only [Mat.shape, h2]; rw [Prod.mk.injEq]; omega
    · intro i hi j hj
      simp only [matEntry, matSize_eq, h2, hsm]
      unfold ctrlEntry
      by_cases hia : i < a <;> by_cases hja : j < a
      · simp only [hia, hja, and_self, if_true]
        by_cases hij : i = j
        · simp [hij]
        · simp [hij, Ne.symm hij]
      · have : ¬ a ≤ i := by omega
        simp [hia, hja, this]
      · have : ¬ a ≤ j := by omega
        simp [hia, hja, this]
      · have h5 : a ≤ i := by omega
        have h6 : a ≤ j := by omega
        simp only [hia, hja, h5, h6, and_self, if_true, if_false]
        exact h4 _ (by omega) _ (by omega)
  | swap k => simp [noSwapMat] at hn

theorem matDagger_swap (m : Mat ℂ) (hn : noSwapMat m = false) : matDagger m = .error .attributeError := by
  have : m.conj = .error .attributeError := by
    induction m with
    | dense r c d => simp [noSwapMat] at hn
    | cmat m ih => simp only [Mat.conj, ih hn, bind, Except.bind]
    | swap k => rfl
  simp [matDagger, this, bind, Except.bind]

theorem noSwapMat_gate {n : Nat} (g : Gate) (gs : List (List Nat)) (hf : Fits g gs) (hgs : GroupsOK n gs)
    (mats : List (Key × Mat ℂ)) (hm : g.makemats gs = .ok mats) : ∀ km ∈ mats, noSwapMat km.2 = !hasSwap g := by
  have hpq : ∀ d : List ℂ, ∀ km ∈ perQubit (.dense 2 2 d) gs, noSwapMat km.2 = true := by
    intro d km hkm
    rw [perQubit_eq _ _ hgs.1] at hkm
    obtain ⟨_, _, rfl⟩ := List.mem_map.1 hkm
    rfl
  induction g generalizing gs mats with
  | swap k =>
    obtain ⟨a, b, rfl, _, _⟩ := hf
    simp only [Gate.makemats, Except.ok.injEq] at hm
    subst hm
    simp [noSwapMat, hasSwap]
  | c op ih =>
    obtain ⟨q, rest, rfl, hf⟩ := hf
    obtain ⟨mats0, h0⟩ := gm_exists op rest hf hgs.tail
    have h1 := gm_ctrl hgs h0
    rw [h1.ok, Except.ok.injEq] at hm
    subst hm
    intro km hkm
    obtain ⟨x, hx, rfl⟩ := List.mem_map.1 hkm
    exact ih rest hf hgs.tail mats0 h0.ok (fun d km hkm => by
      rw [perQubit_eq _ _ hgs.tail.1] at hkm
      obtain ⟨_, _, rfl⟩ := List.mem_map.1 hkm
      rfl) x hx
  | _ =>
    simp only [Gate.makemats, Except.ok.injEq] at hm
    subst hm
    intro km hkm
    rw [hpq _ km hkm]; rfl

/-- The mapping applied by a daggered gate. -/
theorem feedMats_dagger {n : Nat} {g : Gate} {gs : List (List Nat)} (hf : Fits g gs) (hgs : GroupsOK n gs)
    {mats : List (Key × Mat ℂ)} (h : GM n g gs mats) (hs : hasSwap g = false) :
    ∃ dm, g.feedMats true gs = .ok dm ∧ dm.map (·.1) = mats.map (·.1) ∧
      (∀ km ∈ dm, km.2.shape = (2 ^ km.1.qubits.length, 2 ^ km.1.qubits.length)) ∧ (∀ km ∈ dm, km.2.WF) ∧
      opMat n (opsOf dm) = opMat n (adjOps (opsOf mats)) := by
  have hno := noSwapMat_gate g gs hf hgs mats h.ok
  rw [hs] at hno
  have hch : ∀ km : Key × Mat ℂ, ∃ m', km ∈ mats → matDagger km.2 = .ok m' ∧
      m'.shape = (2 ^ km.1.qubits.length, 2 ^ km.1.qubits.length) ∧ m'.WF ∧
      ∀ i < 2 ^ km.1.qubits.length, ∀ j < 2 ^ km.1.qubits.length,
        matEntry m' i j = (starRingEnd ℂ) (matEntry km.2 j i) := by
    intro km
    by_cases hkm : km ∈ mats
    · obtain ⟨m', hm⟩ := matDagger_ok km.2 (h.shapes km hkm) (h.wf km hkm) (hno km hkm)
      exact ⟨m', fun _ => hm⟩
    · exact ⟨.swap 0, fun h => absurd h hkm⟩
  choose f hf' using hch
  refine ⟨mats.map fun km => (km.1, f km), ?_, ?_, ?_, ?_, ?_⟩
  · unfold Gate.feedMats
    simp only [h.ok, bind, Except.bind, if_true]
    have := mapM_ok (ε := PyErr) (fun km : Key × Mat ℂ => do
      let m ← km.2.conj
      let m ← m.T
      pure (km.1, m)) (fun km => (km.1, f km)) mats (by
        intro km hkm
        have := (hf' km hkm).1
        unfold matDagger at this
        rcases hc : km.2.conj with e | m1
        · rw [hc] at this; cases this
        · rw [hc] at this
          have h2 : m1.T = .ok (f km) := this
          simp only [bind, Except.bind, h2]; rfl)
    exact this
  · simp [List.map_map, Function.comp_def]
  · intro km hkm
    obtain ⟨x, hx, rfl⟩ := List.mem_map.1 hkm
    exact (hf' x hx).2.1
  · intro km hkm
    obtain ⟨x, hx, rfl⟩ := List.mem_map.1 hkm
    exact (hf' x hx).2.2.1
  · simp only [opsOf, adjOps, List.map_map]
    exact opMat_map_congr mats (fun km => km.1.qubits) (fun km => matEntry (f km))
      (fun km i j => (starRingEnd ℂ) (matEntry km.2 j i)) fun km hkm => (hf' km hkm).2.2.2

theorem feedMats_dagger_swap {n : Nat} {g : Gate} {gs : List (List Nat)} (hf : Fits g gs) (hgs : GroupsOK n gs)
    (hs : hasSwap g = true) : g.feedMats true gs = .error .attributeError := by
  obtain ⟨mats, h⟩ := gm_exists g gs hf hgs
  have hno := noSwapMat_gate g gs hf hgs mats h.ok
  rw [hs] at hno
  unfold Gate.feedMats
  simp only [h.ok, bind, Except.bind, if_true]
  have hne := h.ne
  clear h
  cases mats with
  | nil => exact absurd rfl hne
  | cons km rest =>
    rw [List.mapM_cons]
    have := matDagger_swap km.2 (by simpa using hno km (by simp))
    unfold matDagger at this
    rcases hc : km.2.conj with e | m1
    · rw [hc] at this
      have he : e = .attributeError := by simpa [bind, Except.bind] using this
      simp [bind, Except.bind, he]
    · rw [hc] at this
      have h2 : m1.T = .error .attributeError := this
      simp [bind, Except.bind, h2]

/-- The schedule of the compiled kernel runs every row once. -/
def SchedOK (n : Nat) : DotImpl → Prop
  | .python => True
  | .cython sched => sched.Perm (List.range (2 ^ n))

/-- A gate applied to a state, for `dagger=False`. -/
theorem gate_apply_eq {n : Nat} {g : Gate} {gs : List (List Nat)} (hgs : GroupsOK n gs)
    {mats : List (Key × Mat ℂ)} (h : GM n g gs mats) {state arena : List ℂ} (hs : state.length = 2 ^ n)
    (ha : arena.length = 2 ^ n) {impl : DotImpl} (hi : SchedOK n impl) :
    g.apply false gs n state arena impl = .ok (act n (opsOf mats) state) := by
  unfold Gate.apply Gate.feedMats
  simp only [h.ok, bind, Except.bind, Bool.false_eq_true, if_false, pure, Except.pure]
  apply kronselectDot_act _ ha
  · cases impl with
    | python => trivial
    | cython sched => exact ⟨by rw [ha]; exact hi, h.ne, h.len⟩
  · exact ⟨h.keys, h.shapes, fun km hkm q hq => hgs.2 q (h.sub km hkm q hq), h.wf, by omega, by omega⟩

/-- A gate applied to a state, for `dagger=True`. -/
theorem gate_apply_dagger_eq {n : Nat} {g : Gate} {gs : List (List Nat)} (hf : Fits g gs) (hgs : GroupsOK n gs)
    {mats : List (Key × Mat ℂ)} (h : GM n g gs mats) (hsw : hasSwap g = false) {state arena : List ℂ}
    (hs : state.length = 2 ^ n) (ha : arena.length = 2 ^ n) {impl : DotImpl} (hi : SchedOK n impl) :
    g.apply true gs n state arena impl = .ok (act n (adjOps (opsOf mats)) state) := by
  obtain ⟨dm, h1, h2, h3, h4, h5⟩ := feedMats_dagger hf hgs h hsw
  have hmem : ∀ km ∈ dm, ∃ km' ∈ mats, km'.1 = km.1 := by
    intro km hkm
    have : km.1 ∈ mats.map (·.1) := by rw [← h2]; exact List.mem_map_of_mem hkm
    obtain ⟨x, hx, hxe⟩ := List.mem_map.1 this
    exact ⟨x, hx, hxe⟩
  have hkeys : (dm.map fun km => km.1.qubits) = mats.map fun km => km.1.qubits := by
    have := congrArg (List.map Key.qubits) h2
    simpa [List.map_map, Function.comp_def] using this
  unfold Gate.apply
  simp only [h1, bind, Except.bind]
  rw [kronselectDot_act _ ha]
  · rw [act_congr h5]
  · cases impl with
    | python => trivial
    | cython sched =>
      refine ⟨by rw [ha]; exact hi, ?_, ?_⟩
      · intro hnil
        apply h.ne
        rw [hnil] at h2
        simpa using h2.symm
      · intro km hkm km' hkm'
        obtain ⟨x, hx, hxe⟩ := hmem km hkm
        obtain ⟨y, hy, hye⟩ := hmem km' hkm'
        rw [← hxe, ← hye]
        exact h.len x hx y hy
  · refine ⟨by rw [hkeys]; exact h.keys, h3, ?_, h4, by omega, by omega⟩
    intro km hkm q hq
    obtain ⟨x, hx, hxe⟩ := hmem km hkm
    exact hgs.2 q (h.sub x hx q (by rw [hxe]; exact hq))

end QIP
