import Mathlib.Algebra.BigOperators.Intervals
import Verif.Lemmas.KronSelect

/-!
# C04 – C10, C71: the tensor product kernels
-/

namespace QIP.Props

open QIP QIP.Spec Finset

variable {R : Type}

/-! ## C04 -/

/-- C04: `kronselect_dot` writes the tensor product operator applied to the vector (full vectors, Python kernel). -/
theorem C04_kronselect_dot [CommSemiring R] [DecidableEq R] {n : Nat} {mats : List (Key × Mat R)}
    {vec out : List R} (h : CallOK n mats vec out 0 0) (ho : out.length = 2 ^ n) :
    ∃ res, kronselectDot mats vec n out 0 0 .python = .ok res ∧ res.length = 2 ^ n ∧
      ∀ r < 2 ^ n, res[r]? = some (∑ c ∈ range (2 ^ n), kronEntry n (opsOf mats) r c * vec.getD c 0) := by
  refine ⟨_, kronselectDot_eq h (impl := .python) trivial, by simp [ho], ?_⟩
  intro r hr
  rw [List.getElem?_map, List.getElem?_range (by omega)]
  simp only [Option.map_some, Nat.add_zero, kronApply, sliceAt_zero]

/-- C04 (adequacy of the specification): one matrix on all qubits, in order, is that matrix. -/
theorem C04_spec_single [CommSemiring R] (n : Nat) (M : Nat → Nat → R) (r c : Nat) (hr : r < 2 ^ n)
    (hc : c < 2 ^ n) : kronEntry n [(List.range n, M)] r c = M r c := by
  unfold kronEntry
  rw [if_pos (by intro q hq hn; simp at hn; omega)]
  simp [subIndex_range hr, subIndex_range hc]

/-- C04 (adequacy of the specification): two matrices on the leading `a` and the trailing `b` qubits give the ordinary
Kronecker product. -/
theorem C04_spec_kronecker [CommSemiring R] (a b : Nat) (A B : Nat → Nat → R) (r c : Nat) (hr : r < 2 ^ (a + b))
    (hc : c < 2 ^ (a + b)) :
    kronEntry (a + b) [(List.range a, A), ((List.range b).map (a + ·), B)] r c
      = A (r / 2 ^ b) (c / 2 ^ b) * B (r % 2 ^ b) (c % 2 ^ b) := by
  have hi : ∀ x < 2 ^ (a + b), subIndex (a + b) (List.range a) x = x / 2 ^ b := by
    intro x hx
    have h1 := subIndex_range hx
    rw [List.range_add] at h1
    unfold subIndex at h1 ⊢
    rw [List.map_append, bitsVal_append] at h1
    have h2 := bitsVal_lt (((List.range b).map (a + ·)).map (qbit (a + b) x))
    simp only [List.length_map, List.length_range] at h1 h2
    conv_rhs => rw [← h1]
    rw [Nat.mul_comm, Nat.mul_add_div (by positivity), Nat.div_eq_of_lt h2, Nat.add_zero]
  have hj : ∀ x < 2 ^ (a + b), subIndex (a + b) ((List.range b).map (a + ·)) x = x % 2 ^ b := by
    intro x hx
    have h1 := subIndex_range hx
    rw [List.range_add] at h1
    unfold subIndex at h1 ⊢
    rw [List.map_append, bitsVal_append] at h1
    have h2 := bitsVal_lt (((List.range b).map (a + ·)).map (qbit (a + b) x))
    simp only [List.length_map, List.length_range] at h1 h2
    conv_rhs => rw [← h1]
    rw [Nat.mul_comm, Nat.mul_add_mod, Nat.mod_eq_of_lt h2]
  unfold kronEntry
  rw [if_pos]
  · simp [hi r hr, hi c hc, hj r hr, hj c hc]
  · intro q hq hn
    exfalso
    apply hn
    simp only [List.flatMap_cons, List.flatMap_nil, List.append_nil, List.mem_append, List.mem_range,
      List.mem_map]
    by_cases h : q < a
    · exact Or.inl h
    · exact Or.inr ⟨q - a, by omega, by omega⟩

-- a call on 3 qubits: CNOT(2 → 0) given as a CMat on the tuple (2, 0), and a dense matrix on qubit 1
example : CallOK (R := Int) 3
    [(.tup [2, 0], .cmat (.dense 2 2 [0, 1, 1, 0])), (.int 1, .dense 2 2 [1, 2, 3, 4])]
    [1, 2, 3, 4, 5, 6, 7, 8] (List.replicate 8 0) 0 0 where
  keys := by decide
  shapes := by simp [Mat.shape, Key.qubits]
  range := by simp [Key.qubits]
  wf := by simp [Mat.WF]
  input := by simp
  output := by simp

/-! ## C05 -/

/-- C05: on the same arguments the compiled kernel, under every schedule of its parallel loop, writes exactly what the
Python kernel writes; this includes SwapMats and CMats nested to any depth, and all offsets. -/
theorem C05_kernels_agree [CommSemiring R] [DecidableEq R] {n : Nat} (mats : List (List Nat × Mat R))
    (hrange : ∀ gm ∈ mats, ∀ q ∈ gm.1, q < n) (hwf : ∀ gm ∈ mats, gm.2.WF)
    (hshape : ∀ gm ∈ mats, gm.2.shape = (2 ^ gm.1.length, 2 ^ gm.1.length))
    (vec out : List R) (inOff outOff : Nat) (hout : out.length + outOff ≤ 2 ^ n) (sched : List Nat)
    (hs : sched.Perm (List.range out.length)) :
    cdotLoop sched mats vec n out inOff outOff = dotLoop mats vec n out.length inOff outOff ∧
      ∃ res, dotLoop mats vec n out.length inOff outOff = .ok res := by
  have hv : ValidMats n mats := fun gm hgm => ⟨hrange gm hgm, hwf gm hgm, hshape gm hgm⟩
  rw [cdotLoop_eq sched mats hv vec out inOff outOff hout hs, dotLoop_eq mats hv]
  exact ⟨rfl, _, rfl⟩

/-- C05: entry by entry, `calc_mat_entry` of the C struct is `mat[i, j]` of the Python object. -/
theorem C05_entry [CommSemiring R] {s : Nat} (m : Mat R) (hwf : m.WF) (hs : m.shape = (s, s)) (i j : Nat)
    (hi : i < s) (hj : j < s) : m.calcEntry i j = m.get i j ∧ m.get i j = .ok (matEntry m i j) :=
  ⟨by rw [Mat.calcEntry_eq m hwf hs hi hj, Mat.get_eq m hs hi hj], Mat.get_eq m hs hi hj⟩

example : (Mat.cmat (.cmat (.swap 1)) : Mat Int).shape = (16, 16) ∧ (Mat.cmat (.cmat (.swap 1)) : Mat Int).WF := by
  simp [Mat.shape, Mat.WF]
example : (Mat.cmat (.cmat (.swap 1)) : Mat Int).calcEntry 13 14 = .ok 1 := by decide

/-! ## C06 -/

/-- Start offsets of consecutive pieces (specification). -/
def offsets : Nat → List (List R) → List Nat
  | _, [] => []
  | o, p :: ps => o :: offsets (o + p.length) ps

theorem sliceAt_append [AddMonoid R] (o : Nat) (p q : List R) (c : Nat) :
    sliceAt o (p ++ q) c = sliceAt o p c + sliceAt (o + p.length) q c := by
  unfold sliceAt
  by_cases h1 : o ≤ c
  · rw [if_pos h1, if_pos h1]
    by_cases h2 : c - o < p.length
    · rw [if_neg (by omega), List.getD_append _ _ _ _ h2, add_zero]
    · rw [if_pos (by omega), List.getD_append_right _ _ _ _ (by omega)]
      have : p.getD (c - o) 0 = 0 := by simp [Nat.le_of_not_lt h2]
      rw [this, zero_add]
      congr 1; omega
  · rw [if_neg h1, if_neg h1, if_neg (by omega), add_zero]

theorem kronApply_add [CommSemiring R] (n : Nat) (ops : List (List Nat × (Nat → Nat → R))) (v w : Nat → R) (r : Nat) :
    kronApply n ops (fun c => v c + w c) r = kronApply n ops v r + kronApply n ops w r := by
  simp [kronApply, mul_add, Finset.sum_add_distrib]

theorem kronApply_smul [CommSemiring R] (n : Nat) (ops : List (List Nat × (Nat → Nat → R))) (a : R) (v : Nat → R)
    (r : Nat) : kronApply n ops (fun c => a * v c) r = a * kronApply n ops v r := by
  simp only [kronApply, Finset.mul_sum]
  exact Finset.sum_congr rfl fun c _ => by ring

theorem kronApply_zero [CommSemiring R] (n : Nat) (ops : List (List Nat × (Nat → Nat → R))) (r : Nat) :
    kronApply n ops (fun _ => 0) r = 0 := by simp [kronApply]

theorem sum_slices [CommSemiring R] (n : Nat) (ops : List (List Nat × (Nat → Nat → R))) (parts : List (List R))
    (o r : Nat) :
    (((offsets o parts).zip parts).map fun op => kronApply n ops (sliceAt op.1 op.2) r).sum
      = kronApply n ops (sliceAt o parts.flatten) r := by
  induction parts generalizing o with
  | nil =>
    have : sliceAt o ([] : List R) = fun _ => 0 := by funext c; simp [sliceAt]
    simp [offsets, this, kronApply_zero]
  | cons p ps ih =>
    simp only [offsets, List.zip_cons_cons, List.map_cons, List.sum_cons, List.flatten_cons, ih]
    rw [← kronApply_add]
    congr 1
    funext c
    rw [sliceAt_append]

theorem mem_offsets_bound (parts : List (List R)) (o : Nat) :
    ∀ op ∈ (offsets o parts).zip parts, op.2.length + op.1 ≤ o + parts.flatten.length := by
  induction parts generalizing o with
  | nil => intro op h; simp [offsets] at h
  | cons p ps ih =>
    intro op h
    simp only [offsets, List.zip_cons_cons, List.mem_cons] at h
    simp only [List.flatten_cons, List.length_append]
    rcases h with rfl | h
    · simp only; omega
    · have := ih (o + p.length) op h
      omega

/-- C06: cut the input vector into consecutive pieces, run the kernel on every piece with its offset, for any output
window; the partial results add up to that window of the result on the whole vector.  Both kernels. -/
theorem C06_slices [CommSemiring R] [DecidableEq R] {n : Nat} {mats : List (Key × Mat R)} (parts : List (List R))
    {outFull outWin : List R} {outOff : Nat} (hfull : CallOK n mats parts.flatten outFull 0 0)
    (hflen : outFull.length = 2 ^ n) (hwin : outWin.length + outOff ≤ 2 ^ n) {impl implW : DotImpl}
    (hi : ImplOK mats outFull impl) (hiW : ImplOK mats outWin implW) :
    ∃ full pieces, kronselectDot mats parts.flatten n outFull 0 0 impl = .ok full ∧
      ((offsets 0 parts).zip parts).mapM (fun op => kronselectDot mats op.2 n outWin op.1 outOff implW) = .ok pieces ∧
      (∀ p ∈ pieces, p.length = outWin.length) ∧
      ∀ o < outWin.length, full[o + outOff]? = some ((pieces.map fun p => p.getD o 0).sum) := by
  refine ⟨_, _, kronselectDot_eq hfull hi,
    mapM_ok _ (fun op => (List.range outWin.length).map fun o =>
      kronApply n (opsOf mats) (sliceAt op.1 op.2) (o + outOff)) _ ?_, ?_, ?_⟩
  · intro op hop
    have hb := mem_offsets_bound parts 0 op hop
    have hb2 := hfull.input
    exact kronselectDot_eq ⟨hfull.keys, hfull.shapes, hfull.range, hfull.wf, by omega, hwin⟩ hiW
  · intro p hp
    obtain ⟨op, _, rfl⟩ := List.mem_map.1 hp
    simp
  · intro o ho
    rw [List.getElem?_map, List.getElem?_range (by omega), List.map_map]
    simp only [Option.map_some, Nat.add_zero, Option.some.injEq]
    rw [← sum_slices]
    congr 1
    apply List.map_congr_left
    intro op _
    simp [ho]

-- a two-piece input and a one-entry output window for a 2-qubit call
example : CallOK (R := Int) 2 [(.int 0, .dense 2 2 [1, 2, 3, 4])] ([[5], [6, 7, 8]] : List (List Int)).flatten
    (List.replicate 4 0) 0 0 := ⟨by decide, by simp [Mat.shape, Key.qubits], by simp [Key.qubits], by simp [Mat.WF],
    by simp, by simp⟩
example : ImplOK (R := Int) [(.int 0, .dense 2 2 [1, 2, 3, 4])] (List.replicate 4 0) (.cython [2, 0, 3, 1]) := by
  refine ⟨?_, by simp, by simp⟩
  decide

/-! ## C07 -/

/-- C07 (Python kernel): the call raises exactly when a vector does not fit, a matrix has the wrong shape, or (for a
non-empty output) an index is out of range. -/
theorem C07_rejects_iff [CommSemiring R] [DecidableEq R] (n : Nat) (mats : List (Key × Mat R)) (vec out : List R)
    (inOff outOff : Nat) (hk : (mats.map fun km => km.1.qubits).Nodup) (hwf : ∀ km ∈ mats, km.2.WF) :
    (∃ e, kronselectDot mats vec n out inOff outOff .python = .error e) ↔
      2 ^ n < vec.length + inOff ∨ 2 ^ n < out.length + outOff ∨
      (∃ km ∈ mats, km.2.shape ≠ (2 ^ km.1.qubits.length, 2 ^ km.1.qubits.length)) ∨
      (out ≠ [] ∧ ∃ km ∈ mats, ∃ q ∈ km.1.qubits, n ≤ q) := by
  by_cases h1 : 2 ^ n < vec.length + inOff
  · simp [kronselectDot, h1]
  by_cases h2 : 2 ^ n < out.length + outOff
  · simp [kronselectDot, h1, h2]
  by_cases h3 : ShapesOK mats
  · have h3' : ¬ ∃ km ∈ mats, km.2.shape ≠ (2 ^ km.1.qubits.length, 2 ^ km.1.qubits.length) := by
      rintro ⟨km, hkm, h⟩; exact h (h3 km hkm)
    by_cases h4 : out ≠ [] ∧ ∃ km ∈ mats, ∃ q ∈ km.1.qubits, n ≤ q
    · have : kronselectDot mats vec n out inOff outOff .python = .error .indexError := by
        unfold kronselectDot
        rw [if_neg h1, if_neg h2, normMats_ok mats hk h3]
        simp only [bind, Except.bind]
        obtain ⟨ho, km, hkm, q, hq, hnq⟩ := h4
        exact dotLoop_range _ (List.mem_flatMap.2 ⟨_, List.mem_map_of_mem hkm, hq⟩) hnq _ (by simpa using ho) _ _
      exact ⟨fun _ => Or.inr (Or.inr (Or.inr h4)), fun _ => ⟨_, this⟩⟩
    · have hno : ¬ ∃ e, kronselectDot mats vec n out inOff outOff .python = .error e := by
        rintro ⟨e, he⟩
        by_cases ho : out = []
        · subst ho
          unfold kronselectDot at he
          rw [if_neg h1, if_neg h2, normMats_ok mats hk h3] at he
          simp only [bind, Except.bind] at he
          unfold dotLoop at he
          cases he
        · have hr : ∀ km ∈ mats, ∀ q ∈ km.1.qubits, q < n := by
            intro km hkm q hq
            by_contra hc
            exact h4 ⟨ho, km, hkm, q, hq, by omega⟩
          rw [kronselectDot_eq ⟨hk, h3, hr, hwf, by omega, by omega⟩ (impl := .python) trivial] at he
          cases he
      constructor
      · intro h; exact absurd h hno
      · rintro (h | h | h | h)
        · exact absurd h h1
        · exact absurd h h2
        · exact absurd h h3'
        · exact absurd h h4
  · have h3' : ∃ km ∈ mats, km.2.shape ≠ (2 ^ km.1.qubits.length, 2 ^ km.1.qubits.length) := by
      by_contra hc
      push Not at hc
      exact h3 hc
    have : kronselectDot mats vec n out inOff outOff .python = .error .exception := by
      unfold kronselectDot
      rw [if_neg h1, if_neg h2, normMats_bad mats h3]; rfl
    exact ⟨fun _ => Or.inr (Or.inr (Or.inl h3')), fun _ => ⟨_, this⟩⟩

/-- C07 (compiled kernel, negative part): an index outside the register is not rejected; the kernel shifts by a
negative amount (undefined behaviour).  Concrete call: Not on qubit 5 of a 1-qubit state. -/
theorem C07_compiled_out_of_range_unchecked :
    kronselectDot (R := Int) [(.int 5, .dense 2 2 [0, 1, 1, 0])] [1, 0] 1 [0, 0] 0 0 (.cython [0, 1])
      = .error .ub := by decide

/-- C07 (compiled kernel, positive part): wrong sizes and shapes are rejected before anything is written. -/
theorem C07_compiled_partial [CommSemiring R] [DecidableEq R] (n : Nat) (mats : List (Key × Mat R)) (vec out : List R)
    (inOff outOff : Nat) (sched : List Nat)
    (h : 2 ^ n < vec.length + inOff ∨ 2 ^ n < out.length + outOff ∨
      (∃ km ∈ mats, km.2.shape ≠ (2 ^ km.1.qubits.length, 2 ^ km.1.qubits.length))) :
    kronselectDot mats vec n out inOff outOff (.cython sched) = .error .valueError ∨
      kronselectDot mats vec n out inOff outOff (.cython sched) = .error .exception := by
  unfold kronselectDot
  by_cases h1 : 2 ^ n < vec.length + inOff
  · simp [h1]
  by_cases h2 : 2 ^ n < out.length + outOff
  · simp [h2, h1]
  rw [if_neg h1, if_neg h2]
  rcases h with h | h | ⟨km, hkm, h⟩
  · exact absurd h h1
  · exact absurd h h2
  · rw [normMats_bad mats fun hs => h (hs km hkm)]
    exact Or.inr rfl

/-! ## C08 -/

theorem kronEntry_perm [CommSemiring R] (n : Nat) {ops ops' : List (List Nat × (Nat → Nat → R))} (h : ops.Perm ops')
    (r c : Nat) : kronEntry n ops r c = kronEntry n ops' r c := by
  unfold kronEntry
  have hmem : ∀ q, q ∈ ops.flatMap (·.1) ↔ q ∈ ops'.flatMap (·.1) := fun q => (h.flatMap_right _).mem_iff
  by_cases hA : AgreeOff n (ops.flatMap (·.1)) r c
  · rw [if_pos hA, if_pos ((agreeOff_congr hmem r c).1 hA)]
    exact (h.map _).prod_eq
  · rw [if_neg hA, if_neg fun h' => hA ((agreeOff_congr hmem r c).2 h')]

/-- C08: the result does not depend on the order of the mapping, for either kernel. -/
theorem C08_order_irrelevant [CommSemiring R] [DecidableEq R] {n : Nat} {mats mats' : List (Key × Mat R)}
    {vec out : List R} {inOff outOff : Nat} (h : CallOK n mats vec out inOff outOff) (hp : mats.Perm mats')
    {impl : DotImpl} (hi : ImplOK mats out impl) :
    kronselectDot mats vec n out inOff outOff impl = kronselectDot mats' vec n out inOff outOff impl := by
  have h' : CallOK n mats' vec out inOff outOff :=
    ⟨(hp.map _).nodup_iff.1 h.keys, fun km hkm => h.shapes km (hp.mem_iff.2 hkm),
      fun km hkm => h.range km (hp.mem_iff.2 hkm), fun km hkm => h.wf km (hp.mem_iff.2 hkm), h.input, h.output⟩
  have hi' : ImplOK mats' out impl := by
    cases impl with
    | python => trivial
    | cython sched =>
      exact ⟨hi.1, fun hnil => hi.2.1 (by rw [hnil] at hp; exact hp.eq_nil),
        fun km hkm km' hkm' => hi.2.2 km (hp.mem_iff.2 hkm) km' (hp.mem_iff.2 hkm')⟩
  rw [kronselectDot_eq h hi, kronselectDot_eq h' hi']
  congr 2
  funext o
  unfold kronApply
  exact Finset.sum_congr rfl fun c _ => by rw [kronEntry_perm n (hp.map _)]

example : ([(.int 0, .dense 2 2 [1, 2, 3, 4]), (.int 1, .swap 0)] : List (Key × Mat Int)).Perm
    [(.int 1, .swap 0), (.int 0, .dense 2 2 [1, 2, 3, 4])] := List.Perm.swap _ _ _

/-! ## C09 -/

/-- Specification: `matrix.dot(v)` of a matrix given by rows. -/
def matVec [CommSemiring R] (rows : List (List R)) (v : List R) (r : Nat) : R :=
  ∑ c ∈ range v.length, (rows.getD r []).getD c 0 * v.getD c 0

/-- Hypotheses on the arguments of `expand_kron_matrix`. -/
structure ExpandOK (n : Nat) (mats : List (Key × Mat R)) : Prop where
  keys : (mats.map fun km => km.1.qubits).Nodup
  shapes : ∀ km ∈ mats, km.2.shape = (2 ^ km.1.qubits.length, 2 ^ km.1.qubits.length)
  range : ∀ km ∈ mats, ∀ q ∈ km.1.qubits, q < n
  wf : ∀ km ∈ mats, km.2.WF
  dense : ∀ km ∈ mats, km.2.isDense

theorem expandKronMatrix_eq [CommSemiring R] [DecidableEq R] {n : Nat} {mats : List (Key × Mat R)}
    (h : ExpandOK n mats) :
    expandKronMatrix mats n = .ok ((List.range (2 ^ n)).map fun i => (List.range (2 ^ n)).map fun r =>
      kronEntry n (opsOf mats) r i) := by
  unfold expandKronMatrix
  rw [if_pos (List.all_eq_true.2 h.dense)]
  apply mapM_ok
  intro i hi
  have hi' : i < 2 ^ n := by simpa using hi
  rw [kronselectDot_eq ⟨h.keys, h.shapes, h.range, h.wf, by simp, by simp⟩ (impl := .python) trivial]
  simp only [List.length_replicate, Nat.add_zero, Except.ok.injEq]
  apply List.map_congr_left
  intro r _
  unfold kronApply
  rw [Finset.sum_eq_single i]
  · simp [sliceAt, hi']
  · intro c _ hci
    have : sliceAt 0 ((List.replicate (2 ^ n) (0 : R)).set i 1) c = 0 := by
      rw [sliceAt_zero]
      simp only [List.getD_eq_getElem?_getD, List.getElem?_set, Ne.symm hci, if_false]
      by_cases hc : c < 2 ^ n
      · simp [List.getElem?_replicate, hc]
      · simp [List.getElem?_replicate, hc]
    rw [this, mul_zero]
  · intro h'; simp at h'; omega

/-- C09, what the code does: the returned matrix is the transpose of the operator's matrix. -/
theorem C09_returns_transpose [CommSemiring R] [DecidableEq R] {n : Nat} {mats : List (Key × Mat R)}
    (h : ExpandOK n mats) :
    ∃ M, expandKronMatrix mats n = .ok M ∧
      ∀ i < 2 ^ n, ∀ j < 2 ^ n, (M.getD i []).getD j 0 = kronEntry n (opsOf mats) j i := by
  refine ⟨_, expandKronMatrix_eq h, ?_⟩
  intro i hi j hj
  simp [hi, hj]

/-- C09 (partial): the claimed property holds when the operator's matrix is symmetric. -/
theorem C09_expand_partial [CommSemiring R] [DecidableEq R] {n : Nat} {mats : List (Key × Mat R)}
    (h : ExpandOK n mats)
    (hsym : ∀ i < 2 ^ n, ∀ j < 2 ^ n, kronEntry n (opsOf mats) i j = kronEntry n (opsOf mats) j i) :
    ∃ M, expandKronMatrix mats n = .ok M ∧ ∀ v : List R, v.length = 2 ^ n → ∀ r < 2 ^ n,
      matVec M v r = kronApply n (opsOf mats) (fun c => v.getD c 0) r := by
  refine ⟨_, expandKronMatrix_eq h, ?_⟩
  intro v hv r hr
  unfold matVec kronApply
  rw [hv]
  apply Finset.sum_congr rfl
  intro c hc
  have hc' : c < 2 ^ n := by simpa using hc
  simp [hr, hc', hsym r hr c hc']

/-- C09 (negation of the full property): for the matrix [[0,1],[0,0]] on one qubit the returned matrix, applied to
`|1⟩`, differs from `kronselect_dot`. -/
theorem C09_expand_not_operator :
    ∃ (mats : List (Key × Mat Int)) (n : Nat) (v : List Int) (M : List (List Int)), ExpandOK n mats ∧
      v.length = 2 ^ n ∧ expandKronMatrix mats n = .ok M ∧
      ∃ r < 2 ^ n, matVec M v r ≠ kronApply n (opsOf mats) (fun c => v.getD c 0) r := by
  have hok : ExpandOK (R := Int) 1 [(.int 0, .dense 2 2 [0, 1, 0, 0])] :=
    ⟨by decide, by simp [Mat.shape, Key.qubits], by simp [Key.qubits], by simp [Mat.WF], by simp [Mat.isDense]⟩
  refine ⟨[(.int 0, .dense 2 2 [0, 1, 0, 0])], 1, [0, 1], _, hok, rfl, expandKronMatrix_eq hok, 0, by norm_num, ?_⟩
  decide

/-- C09: `CMat` and `SwapMat` objects are not accepted. -/
theorem C09_rejects_objects [CommSemiring R] [DecidableEq R] {n : Nat} {mats : List (Key × Mat R)}
    (h : ∃ km ∈ mats, (∃ m, km.2 = .cmat m) ∨ ∃ k, km.2 = .swap k) :
    expandKronMatrix mats n = .error .typeError := by
  unfold expandKronMatrix
  rw [if_neg]
  intro hall
  obtain ⟨km, hkm, h⟩ := h
  have := List.all_eq_true.1 hall km hkm
  rcases h with ⟨m, h⟩ | ⟨k, h⟩ <;> rw [h] at this <;> simp [Mat.isDense] at this

-- the symmetric case: a 2-qubit symmetric matrix on the reversed pair (1, 0), and one on qubit 2
example : ExpandOK (R := Int) 3
    [(.tup [1, 0], .dense 4 4 [1, 2, 0, 0, 2, 1, 0, 0, 0, 0, 5, 0, 0, 0, 0, 7]), (.int 2, .dense 2 2 [0, 1, 1, 0])] :=
  ⟨by decide, by simp [Mat.shape, Key.qubits], by simp [Key.qubits], by simp [Mat.WF], by simp [Mat.isDense]⟩

/-! ## C10 -/

/-- C10: `kronselect_dot` acts linearly (either kernel). -/
theorem C10_linear [CommSemiring R] [DecidableEq R] {n : Nat} {mats : List (Key × Mat R)} {v w out : List R}
    {inOff outOff : Nat} (h : CallOK n mats v out inOff outOff) (hl : w.length = v.length) {impl : DotImpl}
    (hi : ImplOK mats out impl) (a b : R) :
    ∃ ov ow, kronselectDot mats v n out inOff outOff impl = .ok ov ∧
      kronselectDot mats w n out inOff outOff impl = .ok ow ∧
      kronselectDot mats (List.zipWith (fun x y => a * x + b * y) v w) n out inOff outOff impl
        = .ok (List.zipWith (fun x y => a * x + b * y) ov ow) := by
  have hw : CallOK n mats w out inOff outOff := ⟨h.keys, h.shapes, h.range, h.wf, by rw [hl]; exact h.input, h.output⟩
  have hc : CallOK n mats (List.zipWith (fun x y => a * x + b * y) v w) out inOff outOff :=
    ⟨h.keys, h.shapes, h.range, h.wf, by simp [hl, h.input], h.output⟩
  refine ⟨_, _, kronselectDot_eq h hi, kronselectDot_eq hw hi, ?_⟩
  rw [kronselectDot_eq hc hi]
  congr 1
  apply List.ext_getElem (by simp)
  intro o h1 h2
  simp only [List.getElem_map, List.getElem_range, List.getElem_zipWith]
  rw [← kronApply_smul, ← kronApply_smul, ← kronApply_add]
  congr 1
  funext c
  unfold sliceAt
  split
  · by_cases hcv : c - inOff < v.length
    · simp [hcv, hl]
    · simp [hl, Nat.le_of_not_lt hcv]
  · simp

/-! ## C71 -/

/-- C71 (negation of the full property): the compiled kernel rejects a mapping that the Python kernel accepts, because
its index groups have different sizes. -/
theorem C71_compiled_rejects_mixed_sizes :
    ∃ (mats : List (Key × Mat Int)) (vec out res : List Int), CallOK 3 mats vec out 0 0 ∧
      kronselectDot mats vec 3 out 0 0 .python = .ok res ∧
      ∀ sched, kronselectDot mats vec 3 out 0 0 (.cython sched) = .error .valueError := by
  have hok : CallOK (R := Int) 3 [(.int 0, .dense 2 2 [0, 1, 1, 0]), (.tup [1, 2], .swap 1)]
      (List.replicate 8 1) (List.replicate 8 0) 0 0 :=
    ⟨by decide, by simp [Mat.shape, Key.qubits], by simp [Key.qubits], by simp [Mat.WF], by simp, by simp⟩
  refine ⟨_, _, _, _, hok, kronselectDot_eq hok (impl := .python) trivial, ?_⟩
  intro sched
  unfold kronselectDot
  rw [if_neg (by simp), if_neg (by simp), normMats_ok _ hok.keys hok.shapes]
  simp only [bind, Except.bind]
  rw [if_pos]
  right
  exact ⟨([0], .dense 2 2 [0, 1, 1, 0]), by simp [normed, Key.qubits], ([1, 2], .swap 1),
    by simp [normed, Key.qubits], by simp⟩

/-- C71 (partial): a non-empty mapping with groups of one size is accepted by both, with equal results. -/
theorem C71_compiled_partial [CommSemiring R] [DecidableEq R] {n : Nat} {mats : List (Key × Mat R)}
    {vec out : List R} {inOff outOff : Nat} (h : CallOK n mats vec out inOff outOff) (sched : List Nat)
    (hs : sched.Perm (List.range out.length)) (hne : mats ≠ [])
    (hu : ∀ km ∈ mats, ∀ km' ∈ mats, km.1.qubits.length = km'.1.qubits.length) :
    ∃ res, kronselectDot mats vec n out inOff outOff (.cython sched) = .ok res ∧
      kronselectDot mats vec n out inOff outOff .python = .ok res :=
  ⟨_, kronselectDot_eq h (impl := .cython sched) ⟨hs, hne, hu⟩, kronselectDot_eq h (impl := .python) trivial⟩

/-- C71, exactly: the Python kernel accepts every well-formed mapping, the compiled one those that are not empty and have groups of
one size; it rejects all others with ValueError. -/
theorem C71_compiled_iff [CommSemiring R] [DecidableEq R] {n : Nat} {mats : List (Key × Mat R)}
    {vec out : List R} {inOff outOff : Nat} (h : CallOK n mats vec out inOff outOff) {sched : List Nat}
    (hs : sched.Perm (List.range out.length)) :
    (∃ res, kronselectDot mats vec n out inOff outOff .python = .ok res) ∧
    ((∃ res, kronselectDot mats vec n out inOff outOff (.cython sched) = .ok res) ↔
      mats ≠ [] ∧ ∀ km ∈ mats, ∀ km' ∈ mats, km.1.qubits.length = km'.1.qubits.length) ∧
    ((mats = [] ∨ ∃ km ∈ mats, ∃ km' ∈ mats, km.1.qubits.length ≠ km'.1.qubits.length) →
      kronselectDot mats vec n out inOff outOff (.cython sched) = .error .valueError) := by
  have hrej : (mats = [] ∨ ∃ km ∈ mats, ∃ km' ∈ mats, km.1.qubits.length ≠ km'.1.qubits.length) →
      kronselectDot mats vec n out inOff outOff (.cython sched) = .error .valueError := by
    intro hm
    unfold kronselectDot
    rw [if_neg (by have := h.input; omega), if_neg (by have := h.output; omega), normMats_ok _ h.keys h.shapes]
    simp only [bind, Except.bind]
    rw [if_pos]
    rcases hm with rfl | ⟨km, h1, km', h2, h3⟩
    · exact .inl rfl
    · exact .inr ⟨_, List.mem_map.2 ⟨km, h1, rfl⟩, _, List.mem_map.2 ⟨km', h2, rfl⟩, h3⟩
  refine ⟨⟨_, kronselectDot_eq h (impl := .python) trivial⟩, ⟨?_, fun ⟨h1, h2⟩ =>
    ⟨_, kronselectDot_eq h (impl := .cython sched) ⟨hs, h1, h2⟩⟩⟩, hrej⟩
  rintro ⟨res, hr⟩
  by_contra hn
  rw [hrej ?_] at hr
  · cases hr
  · by_cases h0 : mats = []
    · exact .inl h0
    · right
      by_contra hu
      push Not at hu
      exact hn ⟨h0, hu⟩

end QIP.Props
