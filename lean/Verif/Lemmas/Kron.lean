import Verif.Lemmas.Spread
import Verif.Lemmas.Fold
import Verif.Model.Kron
import Verif.Spec.Matrices

/-! # Closed forms of the tensor product kernels -/

namespace QIP

open Spec Finset

variable {R : Type}

/-! ## Sorted index sets -/

theorem mem_sortedSet {l : List Nat} {q : Nat} : q ∈ sortedSet l ↔ q ∈ l := by
  simp [sortedSet]

theorem nodup_sortedSet (l : List Nat) : (sortedSet l).Nodup :=
  (List.mergeSort_perm _ _).nodup_iff.2 l.nodup_dedup

/-! ## Matrix entries -/

theorem matSize_eq [CommSemiring R] (m : Mat R) : matSize m = m.shape.1 := by
  induction m with
  | dense r c d => rfl
  | cmat m ih => simp [matSize, Mat.shape, ih, Nat.mul_comm]
  | swap n => rfl

theorem Mat.get_eq [CommSemiring R] {s : Nat} (m : Mat R) (hs : m.shape = (s, s)) {i j : Nat} (hi : i < s)
    (hj : j < s) : m.get i j = .ok (matEntry m i j) := by
  induction m generalizing s i j with
  | dense r c d =>
    simp only [Mat.shape, Prod.mk.injEq] at hs
    simp [Mat.get, matEntry, hs, hi, hj]
  | cmat m ih =>
    rcases hab : m.shape with ⟨a, b⟩
    simp only [Mat.shape, hab, Prod.mk.injEq] at hs
    have hb : b = a := by omega
    subst hb
    simp only [Mat.get, matEntry, matSize_eq, ctrlEntry, hab]
    split
    · rfl
    · split
      · exact ih hab (by omega) (by omega)
      · rfl
  | swap n =>
    simp only [Mat.get, matEntry, swapEntry, Nat.shiftRight_eq_div_pow, Except.ok.injEq]
    congr 1
    simp only [eq_iff_iff]
    omega

theorem Mat.calcEntry_eq [CommSemiring R] {s : Nat} (m : Mat R) (hwf : m.WF) (hs : m.shape = (s, s)) {i j : Nat}
    (hi : i < s) (hj : j < s) : m.calcEntry i j = .ok (matEntry m i j) := by
  induction m generalizing s i j with
  | dense r c d =>
    simp only [Mat.shape, Prod.mk.injEq] at hs
    obtain ⟨h1, h2⟩ := hs
    subst h1; subst h2
    simp only [Mat.WF] at hwf
    have hlt : i * c + j < d.length := by
      rw [hwf]
      calc i * c + j < i * c + c := by omega
        _ = (i + 1) * c := by ring
        _ ≤ c * c := Nat.mul_le_mul_right _ hi
    simp [Mat.calcEntry, matEntry, hlt]
  | cmat m ih =>
    rcases hab : m.shape with ⟨a, b⟩
    have hcs : (Mat.cmat m).shape = (a * 2, b * 2) := by simp [Mat.shape, hab]
    rw [hcs] at hs
    simp only [Prod.mk.injEq] at hs
    have hb : b = a := by omega
    subst hb
    have hh : (b * 2) >>> 1 = b := by rw [Nat.shiftRight_eq_div_pow]; omega
    simp only [Mat.calcEntry, matEntry, matSize_eq, ctrlEntry, hab, hcs, hh]
    split
    · rfl
    · split
      · exact ih hwf hab (by omega) (by omega)
      · rfl
  | swap n =>
    simp only [Mat.calcEntry, matEntry, swapEntry, Nat.shiftRight_eq_div_pow, Except.ok.injEq]
    congr 1
    simp only [eq_iff_iff]
    omega

/-! ## Columns of the Python kernel -/

theorem bitarrayToUint_ofQbits {n : Nat} (cb : List Bool) (h : cb.length = n) :
    bitarrayToUint cb = ofQbits n fun q => cb.getD q false := by
  rw [bitarrayToUint_eq, ofQbits]
  congr 1
  apply List.ext_getElem (by simpa using h)
  intro i h1 h2
  simp [h1]

theorem foldl_set_zip (S : List Nat) (vals : List Bool) (hl : vals.length = S.length) (hS : S.Nodup)
    (cb : List Bool) (q : Nat) (hq : q < cb.length) :
    ((S.zip vals).foldl (fun cb p => cb.set p.1 p.2) cb).getD q false
      = if q ∈ S then vals.getD (S.idxOf q) false else cb.getD q false := by
  induction S generalizing vals cb with
  | nil => simp
  | cons s S ih =>
    cases vals with
    | nil => simp at hl
    | cons x vals =>
      simp only [List.zip_cons_cons, List.foldl_cons]
      obtain ⟨hs, hS⟩ := List.nodup_cons.1 hS
      rw [ih vals (by simpa using hl) hS _ (by simpa using hq)]
      by_cases h1 : q = s
      · subst h1
        simp [hs, hq]
      · have h2 : (s == q) = false := by simpa using Ne.symm h1
        simp [h1, List.idxOf_cons, h2, List.getElem?_set, Ne.symm h1]

theorem getD_uintToBitarray_idx {n : Nat} {S : List Nat} {q : Nat} (hq : q ∈ S) (row i : Nat) (hn : q < n) :
    (uintToBitarray (i : Int) S.length).getD (S.idxOf q) false = qbit n (spread n S row i) q := by
  rw [uintToBitarray_nat_get _ _ _ (List.idxOf_lt_length_iff.2 hq), qbit_spread _ _ _ hn, if_pos hq]
  rfl

theorem bitAt_ok {bits : List Bool} {q : Nat} (h : q < bits.length) : bitAt bits q = .ok (bits.getD q false) := by
  unfold bitAt
  rw [List.getElem?_eq_getElem h, List.getD_eq_getElem _ _ h]

theorem genValidCols_eq (row : Nat) (S : List Nat) (n : Nat) (hS : S.Nodup) (hn : ∀ q ∈ S, q < n) :
    genValidCols row S n = .ok ((List.range (2 ^ S.length)).map fun i =>
      (spread n S row i,
        mijsDict S (S.map fun indx => (uintToBitarray (row : Int) n).getD indx false)
          (uintToBitarray (i : Int) S.length))) := by
  unfold genValidCols
  dsimp only
  rw [mapM_ok _ (fun indx => (uintToBitarray (row : Int) n).getD indx false) _ fun q hq => bitAt_ok (by simpa using hn q hq)]
  simp only [bind, Except.bind]
  congr 1
  have := foldl_collect
    (σ := List Bool) (ι := Nat) (α := Nat × List (Nat × (Bool × Bool)))
    (fun cb i => (S.zip (uintToBitarray (i : Int) S.length)).foldl (fun cb p => cb.set p.1 p.2) cb)
    (fun cb i => (bitarrayToUint cb,
      mijsDict S (S.map fun indx => (uintToBitarray (row : Int) n).getD indx false)
        (uintToBitarray (i : Int) S.length)))
    (fun i => (spread n S row i,
        mijsDict S (S.map fun indx => (uintToBitarray (row : Int) n).getD indx false)
          (uintToBitarray (i : Int) S.length)))
    (fun cb => cb.length = n ∧ ∀ q < n, q ∉ S → cb.getD q false = qbit n row q)
    (List.range (2 ^ S.length)) ?_ (uintToBitarray (row : Int) n) ?_ []
  · rw [List.nil_append] at this; exact this
  · intro cb i _ ⟨hlen, hoff⟩
    have hlen' : ((S.zip (uintToBitarray (i : Int) S.length)).foldl (fun cb p => cb.set p.1 p.2) cb).length = n := by
      rw [length_foldl_set (fun p : Nat × Bool => p.1) (fun p => p.2), hlen]
    have hget : ∀ q < n, ((S.zip (uintToBitarray (i : Int) S.length)).foldl (fun cb p => cb.set p.1 p.2) cb).getD q false
        = qbit n (spread n S row i) q := by
      intro q hq
      rw [foldl_set_zip S _ (by simp) hS cb q (by omega), qbit_spread _ _ _ hq]
      split
      · next h =>
        rw [uintToBitarray_nat_get _ _ _ (List.idxOf_lt_length_iff.2 h)]; rfl
      · next h => exact hoff q hq h
    refine ⟨⟨hlen', fun q hq hqS => ?_⟩, ?_⟩
    · rw [hget q hq, qbit_spread _ _ _ hq, if_neg hqS]
    · simp only [Prod.mk.injEq, and_true]
      rw [bitarrayToUint_ofQbits _ hlen', ofQbits_congr hget, ofQbits_qbit (spread_lt _ _ _ _)]
  · exact ⟨by simp, fun q hq _ => uintToBitarray_nat_get _ _ _ hq⟩

theorem lookup_zip {β : Type} (S : List Nat) (V : List β) (hl : V.length = S.length) (q : Nat) (hq : q ∈ S) :
    (S.zip V).lookup q = V[S.idxOf q]? := by
  induction S generalizing V with
  | nil => simp at hq
  | cons s S ih =>
    cases V with
    | nil => simp at hl
    | cons x V =>
      by_cases h : q = s
      · subst h; simp
      · have h2 : (s == q) = false := by simpa using Ne.symm h
        have h3 : (q == s) = false := by simpa using h
        have hq' : q ∈ S := by simpa [h] using hq
        simp [List.lookup_cons, h3, List.idxOf_cons, h2, ih V (by simpa using hl) hq']

theorem lookupMij_eq {n : Nat} {S : List Nat} (hn : ∀ q ∈ S, q < n) (row i q : Nat) (hq : q ∈ S) :
    lookupMij (mijsDict S (S.map fun indx => (uintToBitarray (row : Int) n).getD indx false)
          (uintToBitarray (i : Int) S.length)) q
      = .ok (qbit n row q, qbit n (spread n S row i) q) := by
  unfold lookupMij mijsDict
  have hidx := List.idxOf_lt_length_iff.2 hq
  rw [lookup_zip S _ (by simp) q hq]
  have h1 := uintToBitarray_nat_get row n q (hn q hq)
  have h2 := getD_uintToBitarray_idx hq row i (hn q hq)
  rw [List.getD_eq_getElem _ _ (by simpa using hidx)] at h2
  rw [List.getElem?_eq_getElem (by simpa using hidx)]
  simp only [List.getElem_zip, List.getElem_map, List.getElem_idxOf, h1, h2]

/-- Well-formed index groups and matrices: indices in range, square of the right size. -/
def ValidMats (n : Nat) (mats : List (List Nat × Mat R)) : Prop :=
  ∀ gm ∈ mats, (∀ q ∈ gm.1, q < n) ∧ gm.2.WF ∧ gm.2.shape = (2 ^ gm.1.length, 2 ^ gm.1.length)

theorem foldl_mul_eq {ι : Type} [CommSemiring R] (h : ι → R) (L : List ι) (a : R) :
    L.foldl (fun s x => s * h x) a = a * (L.map h).prod := by
  induction L generalizing a with
  | nil => simp
  | cons x L ih => simp [ih, mul_assoc]

theorem entryProduct_eq [CommSemiring R] {n : Nat} {S : List Nat} (hn : ∀ q ∈ S, q < n)
    (mats : List (List Nat × Mat R)) (hv : ValidMats n mats) (hmem : ∀ gm ∈ mats, ∀ q ∈ gm.1, q ∈ S)
    (row i : Nat) :
    entryProduct mats (mijsDict S (S.map fun indx => (uintToBitarray (row : Int) n).getD indx false)
          (uintToBitarray (i : Int) S.length))
      = .ok ((denote mats).map fun gm => gm.2 (subIndex n gm.1 row) (subIndex n gm.1 (spread n S row i))).prod := by
  unfold entryProduct
  rw [foldlM_ok _ (fun p gm => p * matEntry gm.2 (subIndex n gm.1 row) (subIndex n gm.1 (spread n S row i)))]
  · rw [foldl_mul_eq, one_mul]
    simp [denote, List.map_map, Function.comp_def]
  · intro p gm hgm
    obtain ⟨_, _, hsh⟩ := hv gm hgm
    rw [mapM_ok _ (qbit n row), mapM_ok _ (qbit n (spread n S row i))]
    · simp only [bitarrayToUint_eq, bind, Except.bind]
      have := Mat.get_eq gm.2 hsh (subIndex_lt n gm.1 row) (subIndex_lt n gm.1 (spread n S row i))
      unfold subIndex at this
      rw [this]
      rfl
    · intro q hq
      rw [lookupMij_eq hn row i q (hmem gm hgm q hq)]; rfl
    · intro q hq
      rw [lookupMij_eq hn row i q (hmem gm hgm q hq)]; rfl

/-- The part of the state held in `vec` when it starts at basis index `off`. -/
def sliceAt [Zero R] (off : Nat) (vec : List R) (c : Nat) : R :=
  if off ≤ c then vec.getD (c - off) 0 else 0

theorem sliceAt_zero [Zero R] (vec : List R) (c : Nat) : sliceAt 0 vec c = vec.getD c 0 := by
  simp [sliceAt]

theorem sliceAt_zero' [Zero R] (vec : List R) : sliceAt 0 vec = fun c => vec.getD c 0 :=
  funext (sliceAt_zero vec)

theorem dotRow_eq [CommSemiring R] {n : Nat} (mats : List (List Nat × Mat R)) (hv : ValidMats n mats)
    (vec : List R) (inOff row : Nat) :
    dotRow mats vec n inOff row = .ok (kronApply n (denote mats) (sliceAt inOff vec) row) := by
  have hS := nodup_sortedSet (mats.flatMap (·.1))
  have hn : ∀ q ∈ sortedSet (mats.flatMap (·.1)), q < n := by
    intro q hq
    obtain ⟨gm, hgm, hq⟩ := List.mem_flatMap.1 (mem_sortedSet.1 hq)
    exact (hv gm hgm).1 q hq
  have hmem : ∀ q, q ∈ sortedSet (mats.flatMap (·.1)) ↔ q ∈ (denote mats).flatMap (·.1) := by
    intro q
    rw [mem_sortedSet]
    simp [denote]
  rw [kronApply_eq_sum (denote mats) hS hmem hn]
  unfold dotRow
  dsimp only
  rw [genValidCols_eq row _ n hS hn]
  simp only [bind, Except.bind]
  rw [foldlM_ok _ (fun s (cm : Nat × List (Nat × (Bool × Bool))) => s +
      (match entryProduct mats cm.2 with | .ok p => p | .error _ => 0) * sliceAt inOff vec cm.1)]
  · rw [foldl_add_eq, zero_add, List.map_map, sum_map_range]
    congr 1
    apply Finset.sum_congr rfl
    intro i _
    simp only [Function.comp]
    rw [entryProduct_eq hn mats hv (fun gm hgm q hq => mem_sortedSet.2 (List.mem_flatMap.2 ⟨gm, hgm, hq⟩))]
  · intro s cm hcm
    obtain ⟨i, _, rfl⟩ := List.mem_map.1 hcm
    dsimp only
    rw [entryProduct_eq hn mats hv (fun gm hgm q hq => mem_sortedSet.2 (List.mem_flatMap.2 ⟨gm, hgm, hq⟩))]
    set c := spread n (sortedSet (mats.flatMap (·.1))) row i
    by_cases h : c < inOff ∨ c - inOff ≥ vec.length
    · have h0 : sliceAt inOff vec c = 0 := by
        unfold sliceAt
        split
        · rcases h with h | h
          · omega
          · simp [h]
        · rfl
      rw [if_pos h, h0, mul_zero, add_zero]; rfl
    · rw [if_neg h]
      have h0 : sliceAt inOff vec c = vec.getD (c - inOff) 0 := by
        unfold sliceAt; rw [if_pos (by omega)]
      rw [h0]; rfl

theorem dotLoop_eq [CommSemiring R] {n : Nat} (mats : List (List Nat × Mat R)) (hv : ValidMats n mats)
    (vec : List R) (outLen inOff outOff : Nat) :
    dotLoop mats vec n outLen inOff outOff
      = .ok ((List.range outLen).map fun o => kronApply n (denote mats) (sliceAt inOff vec) (o + outOff)) := by
  unfold dotLoop
  exact mapM_ok _ _ _ fun o _ => dotRow_eq mats hv vec inOff (o + outOff)

/-- An index outside the register: IndexError at the first row. -/
theorem dotLoop_range [CommSemiring R] {n : Nat} (mats : List (List Nat × Mat R)) {q : Nat} (hq : q ∈ mats.flatMap (·.1)) (hn : n ≤ q)
    (vec : List R) {outLen : Nat} (ho : outLen ≠ 0) (inOff outOff : Nat) :
    dotLoop mats vec n outLen inOff outOff = .error .indexError := by
  obtain ⟨k, rfl⟩ := Nat.exists_eq_succ_of_ne_zero ho
  have hm : ∀ (L : List Nat) (bits : List Bool), (∃ q ∈ L, bits.length ≤ q) → L.mapM (bitAt bits) = .error .indexError := by
    intro L bits
    induction L with
    | nil => rintro ⟨q, hq, -⟩; simp at hq
    | cons a L ih =>
      rintro ⟨q, hq, hle⟩
      rw [List.mapM_cons]
      by_cases ha : a < bits.length
      · rw [bitAt_ok ha]
        rcases List.mem_cons.1 hq with rfl | hq
        · omega
        · rw [ih ⟨q, hq, hle⟩]
          rfl
      · unfold bitAt
        rw [List.getElem?_eq_none (by omega)]
        rfl
  unfold dotLoop
  rw [List.range_succ_eq_map, List.mapM_cons]
  have : dotRow mats vec n inOff (0 + outOff) = .error .indexError := by
    unfold dotRow genValidCols
    dsimp only
    rw [hm _ _ ⟨q, mem_sortedSet.2 hq, by simpa using hn⟩]
    rfl
  rw [this]
  rfl

/-! ## The C kernel -/

theorem testBit_setBit (num i j : Nat) (v : Bool) :
    (setBit num i v).testBit j = if j = i then v else num.testBit j := by
  unfold setBit
  cases v
  · by_cases h : j = i
    · subst h; simp
    · rw [if_neg h, Nat.one_shiftLeft]
      simp [Nat.testBit_xor, Nat.testBit_and, Nat.testBit_two_pow, Ne.symm h]
  · by_cases h : j = i
    · subst h; simp
    · rw [if_neg h, Nat.one_shiftLeft]
      simp [Nat.testBit_or, Nat.testBit_two_pow, Ne.symm h]

theorem getBit_eq (num i : Nat) : getBit num i = num.testBit i := by
  simp [getBit, Nat.testBit, Nat.and_comm]

theorem testBit_foldl_setBit (n : Nat) (S : List Nat) (vals : Nat → Bool) (hS : S.Nodup) (hn : ∀ q ∈ S, q < n)
    (k : Nat) (hk : k ≤ S.length) (cb q : Nat) (hq : q < n) :
    qbit n ((List.range k).foldl (fun cb j => setBit cb ((n - 1) - S.getD j 0) (vals j)) cb) q
      = if q ∈ S.take k then vals (S.idxOf q) else qbit n cb q := by
  induction k with
  | zero => simp
  | succ k ih =>
    have hk' : k < S.length := by omega
    rw [List.range_succ, List.foldl_append, List.foldl_cons, List.foldl_nil]
    unfold qbit at ih ⊢
    rw [testBit_setBit, ih (by omega)]
    have hsk : S.getD k 0 = S[k] := List.getD_eq_getElem _ _ hk'
    have hlt := hn _ (List.getElem_mem hk')
    rw [hsk, List.take_succ_eq_append_getElem hk']
    by_cases h : q = S[k]
    · rw [if_pos (by rw [h]), if_pos (by rw [h]; exact List.mem_append_right _ (List.mem_singleton_self _))]
      rw [h, hS.idxOf_getElem]
    · have h1 : ¬ (n - 1 - q = n - 1 - S[k]) := by omega
      rw [if_neg h1]
      have h2 : q ∈ S.take k ++ [S[k]] ↔ q ∈ S.take k := by
        rw [List.mem_append, List.mem_singleton]; exact ⟨fun H => H.resolve_right h, Or.inl⟩
      simp only [h2]

theorem setBit_foldl_high (n : Nat) (S : List Nat) (vals : Nat → Bool) (hn : ∀ q ∈ S, q < n)
    (k : Nat) (hk : k ≤ S.length) (cb b : Nat) (hb : n ≤ b) :
    ((List.range k).foldl (fun cb j => setBit cb ((n - 1) - S.getD j 0) (vals j)) cb).testBit b = cb.testBit b := by
  induction k with
  | zero => simp
  | succ k ih =>
    have hk' : k < S.length := by omega
    rw [List.range_succ, List.foldl_append, List.foldl_cons, List.foldl_nil]
    rw [testBit_setBit, ih (by omega)]
    have hlt := hn _ (List.getElem_mem hk')
    rw [if_neg (by omega)]

theorem lt_two_pow_of_high {n x : Nat} (h : ∀ b, n ≤ b → x.testBit b = false) : x < 2 ^ n := by
  apply Nat.lt_pow_two_of_testBit
  intro i hi
  exact h i hi

theorem high_of_lt_two_pow {n x b : Nat} (h : x < 2 ^ n) (hb : n ≤ b) : x.testBit b = false := by
  have : 2 ^ n ≤ 2 ^ b := Nat.pow_le_pow_right (by norm_num) hb
  exact Nat.testBit_lt_two_pow (by omega)

theorem cdotCols_eq (S : List Nat) (n row : Nat) (hS : S.Nodup) (hn : ∀ q ∈ S, q < n) (hr : row < 2 ^ n) :
    cdotCols S n row = (List.range (2 ^ S.length)).map fun i => spread n S row i := by
  unfold cdotCols
  have := foldl_collect (σ := Nat) (ι := Nat) (α := Nat)
    (fun cb i => (List.range S.length).foldl
        (fun cb j => setBit cb ((n - 1) - S.getD j 0) (getBit i ((S.length - 1) - j))) cb)
    (fun cb _ => cb) (fun i => spread n S row i)
    (fun cb => cb < 2 ^ n ∧ AgreeOff n S row cb)
    (List.range (2 ^ S.length)) ?_ row ⟨hr, AgreeOff.refl _ _ _⟩ []
  · simpa using this
  · intro cb i _ ⟨hlt, hag⟩
    have hq : ∀ q < n, qbit n ((List.range S.length).foldl
        (fun cb j => setBit cb ((n - 1) - S.getD j 0) (getBit i ((S.length - 1) - j))) cb) q
        = qbit n (spread n S row i) q := by
      intro q hq
      rw [testBit_foldl_setBit n S (fun j => getBit i ((S.length - 1) - j)) hS hn S.length le_rfl cb q hq,
        qbit_spread _ _ _ hq, List.take_length]
      split
      · rw [getBit_eq]
      · next h => exact (hag q hq h).symm
    have hlt' : (List.range S.length).foldl
        (fun cb j => setBit cb ((n - 1) - S.getD j 0) (getBit i ((S.length - 1) - j))) cb < 2 ^ n := by
      apply lt_two_pow_of_high
      intro b hb
      rw [setBit_foldl_high n S (fun j => getBit i ((S.length - 1) - j)) hn S.length le_rfl cb b hb]
      exact high_of_lt_two_pow hlt hb
    have heq := qbit_ext hlt' (spread_lt n S row i) hq
    refine ⟨⟨hlt', ?_⟩, heq⟩
    rw [heq]; exact agreeOff_spread _ _ _ _

theorem cSubIndex_eq (n : Nat) (g : List Nat) (row : Nat) : cSubIndex n g row = subIndex n g row := by
  unfold cSubIndex
  have key : ∀ k ≤ g.length, ∀ b, ((List.range k).foldl
      (fun acc t => setBit acc ((g.length - 1) - t) (getBit row ((n - 1) - g.getD t 0))) 0).testBit b
      = (decide (g.length - k ≤ b ∧ b < g.length) && (subIndex n g row).testBit b) := by
    intro k hk
    induction k with
    | zero => intro b; simp
    | succ k ih =>
      intro b
      rw [List.range_succ, List.foldl_append, List.foldl_cons, List.foldl_nil, testBit_setBit, ih (by omega),
        getBit_eq]
      by_cases h : b = g.length - 1 - k
      · subst h
        rw [if_pos rfl, testBit_subIndex n g row k (by omega), List.getD_eq_getElem _ _ (by omega)]
        have : g.length - (k + 1) ≤ g.length - 1 - k ∧ g.length - 1 - k < g.length := by omega
        simp [this, qbit]
      · rw [if_neg h]
        have : (g.length - k ≤ b ∧ b < g.length) ↔ (g.length - (k + 1) ≤ b ∧ b < g.length) := by omega
        rw [decide_eq_decide.2 this]
  apply Nat.eq_of_testBit_eq
  intro b
  rw [key g.length le_rfl]
  by_cases h : b < g.length
  · simp [h]
  · simp [h, high_of_lt_two_pow (subIndex_lt n g row) (by omega : g.length ≤ b)]

theorem cEntryProduct_eq [CommSemiring R] [DecidableEq R] {n : Nat} (mats : List (List Nat × Mat R))
    (hv : ValidMats n mats) (row col : Nat) (p : R) :
    cEntryProduct n row col mats p
      = .ok (p * ((denote mats).map fun gm => gm.2 (subIndex n gm.1 row) (subIndex n gm.1 col)).prod) := by
  induction mats generalizing p with
  | nil => simp [cEntryProduct, denote]
  | cons gm mats ih =>
    obtain ⟨_, hwf, hsh⟩ := hv gm (by simp)
    have ih' := ih fun x hx => hv x (by simp [hx])
    rw [cEntryProduct, cSubIndex_eq, cSubIndex_eq,
      Mat.calcEntry_eq gm.2 hwf hsh (subIndex_lt _ _ _) (subIndex_lt _ _ _)]
    simp only [bind, Except.bind]
    split
    · next h =>
      simp only [denote, List.map_cons, List.prod_cons, ← mul_assoc]
      simp only [h, zero_mul]; rfl
    · rw [ih']
      simp [denote, mul_assoc]

theorem cdotRow_eq [CommSemiring R] [DecidableEq R] {n : Nat} (mats : List (List Nat × Mat R))
    (hv : ValidMats n mats) (vec : List R) (inOff row : Nat) (hr : row < 2 ^ n) :
    cdotRow mats vec n inOff row = .ok (kronApply n (denote mats) (sliceAt inOff vec) row) := by
  have hS := nodup_sortedSet (mats.flatMap (·.1))
  have hn : ∀ q ∈ sortedSet (mats.flatMap (·.1)), q < n := by
    intro q hq
    obtain ⟨gm, hgm, hq⟩ := List.mem_flatMap.1 (mem_sortedSet.1 hq)
    exact (hv gm hgm).1 q hq
  have hmem : ∀ q, q ∈ sortedSet (mats.flatMap (·.1)) ↔ q ∈ (denote mats).flatMap (·.1) := by
    intro q
    rw [mem_sortedSet]
    simp [denote]
  rw [kronApply_eq_sum (denote mats) hS hmem hn]
  unfold cdotRow
  rw [cdotCols_eq _ n row hS hn hr]
  rw [foldlM_ok _ (fun s c => s +
      ((denote mats).map fun gm => gm.2 (subIndex n gm.1 row) (subIndex n gm.1 c)).prod * sliceAt inOff vec c)]
  · rw [foldl_add_eq, zero_add, List.map_map, sum_map_range]
    rfl
  · intro s c _
    rw [cEntryProduct_eq mats hv, one_mul]
    by_cases h : c < inOff ∨ c - inOff ≥ vec.length
    · have h0 : sliceAt inOff vec c = 0 := by
        unfold sliceAt
        split
        · rcases h with h | h
          · omega
          · simp [h]
        · rfl
      rw [if_pos h, h0, mul_zero, add_zero]; rfl
    · rw [if_neg h]
      have h0 : sliceAt inOff vec c = vec.getD (c - inOff) 0 := by
        unfold sliceAt; rw [if_pos (by omega)]
      rw [h0]; rfl

theorem cdotLoop_eq [CommSemiring R] [DecidableEq R] {n : Nat} (sched : List Nat)
    (mats : List (List Nat × Mat R)) (hv : ValidMats n mats) (vec out : List R) (inOff outOff : Nat)
    (hout : out.length + outOff ≤ 2 ^ n) (hs : sched.Perm (List.range out.length)) :
    cdotLoop sched mats vec n out inOff outOff
      = .ok ((List.range out.length).map fun o => kronApply n (denote mats) (sliceAt inOff vec) (o + outOff)) := by
  unfold cdotLoop
  rw [if_neg]
  · rw [foldlM_ok _ (fun o i => o.set i (kronApply n (denote mats) (sliceAt inOff vec) (i + outOff)))]
    · rw [foldl_set_all _ sched out hs]
    · intro o i hi
      have : i < out.length := by simpa using hs.mem_iff.1 hi
      rw [cdotRow_eq mats hv vec inOff (i + outOff) (by omega)]; rfl
  · rintro ⟨_, q, hq, hnq⟩
    obtain ⟨gm, hgm, hq⟩ := List.mem_flatMap.1 hq
    have := (hv gm hgm).1 q hq
    omega

end QIP
