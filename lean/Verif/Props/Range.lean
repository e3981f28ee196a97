import Verif.Lemmas.CMeasure
import Verif.Props.CKernel
import Verif.Props.Kron

/-!
# C07: indices outside the register in the compiled kernel
-/

namespace QIP.Props

open QIP QIP.Spec QIP.C32

variable {R : Type}

/-- The only failure is undefined behaviour. -/
def OnlyUb {α : Type} (x : Except PyErr α) : Prop := ∀ e, x = .error e → e = .ub

theorem OnlyUb.bind {α β : Type} {x : Except PyErr α} (hx : OnlyUb x) {f : α → Except PyErr β} (hf : ∀ a, OnlyUb (f a)) :
    OnlyUb (x >>= f) := by
  intro e h
  rcases x with e' | a
  · have := hx e' rfl
    subst this
    cases h
    rfl
  · exact hf a e h

theorem onlyUb_ok {α : Type} (a : α) : OnlyUb (.ok a : Except PyErr α) := fun e h => by cases h

theorem onlyUb_err {α : Type} : OnlyUb (.error .ub : Except PyErr α) := fun e h => by cases h; rfl

theorem onlyUb_ite {α : Type} {c : Prop} [Decidable c] {x y : Except PyErr α} (hx : OnlyUb x) (hy : OnlyUb y) :
    OnlyUb (if c then x else y) := by split <;> assumption

theorem onlyUb_sub (a b : CInt) : OnlyUb (sub a b) := onlyUb_ite (onlyUb_ok _) onlyUb_err
theorem onlyUb_add (a b : CInt) : OnlyUb (add a b) := onlyUb_ite (onlyUb_ok _) onlyUb_err
theorem onlyUb_setBitI (a b c : CInt) : OnlyUb (setBitI a b c) := onlyUb_ite (onlyUb_ok _) onlyUb_err
theorem onlyUb_getBitI (a b : CInt) : OnlyUb (getBitI a b) := onlyUb_ite (onlyUb_ok _) onlyUb_err

theorem onlyUb_read {α : Type} (a : List α) (i : CInt) : OnlyUb (read a i) := by
  unfold C32.read
  refine onlyUb_ite onlyUb_err ?_
  split
  · exact onlyUb_ok _
  · exact onlyUb_err

/-- A loop one of whose rounds is undefined, all others being undefined or fine. -/
theorem foldlM_ub {σ α : Type} {L : List α} {f : σ → α → Except PyErr σ} (hf : ∀ s, ∀ a ∈ L, OnlyUb (f s a)) {a : α} (ha : a ∈ L)
    (h : ∀ s, f s a = .error .ub) (x : σ) : L.foldlM f x = .error .ub := by
  induction L generalizing x with
  | nil => simp at ha
  | cons b L ih =>
    rw [List.foldlM_cons]
    rcases List.mem_cons.1 ha with rfl | ha
    · rw [h]; rfl
    · rcases hb : f x b with e | y
      · rw [hf x b (by simp) e hb]; rfl
      · exact ih (fun s a ha => hf s a (by simp [ha])) ha y

theorem toInt_sub_ok {a b w : CInt} (h : sub a b = .ok w) : w.toInt = a.toInt - b.toInt := by
  unfold sub fits at h
  split at h
  · rename_i hr
    cases h
    rw [BitVec.toInt_sub]
    apply Int.bmod_eq_of_le <;> omega
  · cases h

theorem nextCol_ub {flat : List Nat} {n : Nat} (hn : n < 2 ^ 31) (hf : ∀ q ∈ flat, q < 2 ^ 31) (hl : flat.length < 2 ^ 31) {q : Nat}
    (hq : q ∈ flat) (hqn : n ≤ q) (i col : CInt) : nextCol (flat.map I) (I n) i col = .error .ub := by
  unfold nextCol
  rw [List.length_map, trunc_eq, cRange_I hl]
  obtain ⟨j, hj, rfl⟩ := List.getElem_of_mem hq
  refine foldlM_ub (fun s a _ => ?_) (a := I j) (List.mem_map_of_mem (by simpa using hj)) (fun s => ?_) _
  · exact (onlyUb_read _ _).bind fun _ => (onlyUb_sub _ _).bind fun _ => (onlyUb_sub _ _).bind fun _ =>
      (onlyUb_sub _ _).bind fun _ => (onlyUb_sub _ _).bind fun _ => (onlyUb_getBitI _ _).bind fun _ => onlyUb_setBitI _ _ _
  · rw [read_I (by omega) (by simpa using hj)]
    simp only [bind, Except.bind, List.getElem_map]
    rcases h1 : sub (I n) 1 with e | w1
    · rw [onlyUb_sub _ _ e h1]
    dsimp only
    rcases h2 : sub w1 (I flat[j]) with e | w2
    · rw [onlyUb_sub _ _ e h2]
    dsimp only
    have hneg : w2.toInt < 0 := by
      rw [toInt_sub_ok h2, toInt_sub_ok h1, toInt_I hn, toInt_I (hf _ (List.getElem_mem hj))]
      have : (1 : CInt).toInt = 1 := by decide
      omega
    rcases h3 : sub (I flat.length) 1 with e | w3
    · rw [onlyUb_sub _ _ e h3]
    dsimp only
    rcases h4 : sub w3 (I j) with e | w4
    · rw [onlyUb_sub _ _ e h4]
    dsimp only
    rcases h5 : getBitI i w4 with e | w5
    · rw [onlyUb_getBitI _ _ e h5]
    dsimp only
    unfold setBitI
    rw [if_neg (by omega)]

/-- C07 (compiled kernel, negative part): an index outside the register is never rejected.  The kernel shifts by a negative
amount, which is undefined behaviour, for all matrices, states, slices and schedules. -/
theorem C07_compiled_range_false [Zero R] [One R] [Add R] [Mul R] [DecidableEq R] {n : Nat} {mats : List (Key × Mat R)}
    (hn : n ≤ 30) (hk : (mats.map fun km => km.1.qubits).Nodup)
    (hs : ∀ km ∈ mats, km.2.shape = (2 ^ km.1.qubits.length, 2 ^ km.1.qubits.length))
    (hlen : ∀ km ∈ mats, ∀ km' ∈ mats, km.1.qubits.length = km'.1.qubits.length) (hd : ∀ km ∈ mats, IntsOK km.2)
    (h31 : ∀ km ∈ mats, ∀ q ∈ km.1.qubits, q < 2 ^ 31) {km : Key × Mat R} (hkm : km ∈ mats) {q : Nat} (hq : q ∈ km.1.qubits)
    (hqn : n ≤ q) (hfew : (mats.flatMap fun km => km.1.qubits).length < 2 ^ 31) {vec out : List R} {inOff outOff : Nat}
    (hin : vec.length + inOff ≤ 2 ^ n) (hout : out.length + outOff ≤ 2 ^ n)
    (hne : out ≠ []) {sched : List Nat → List Nat} (hsch : ∀ l, (sched l).Perm l) :
    kronselectDotC sched mats vec n out inOff outOff = .error .ub ∧
      kronselectDot mats vec n out inOff outOff (.cython (sched (List.range out.length))) = .error .ub := by
  have h30 : 2 ^ n ≤ 2 ^ 30 := Nat.pow_le_pow_right (by norm_num) hn
  have hq' : q ∈ (normed mats).flatMap (·.1) := List.mem_flatMap.2 ⟨_, List.mem_map_of_mem hkm, hq⟩
  have hc : ¬ (normed mats = [] ∨ ∃ gm ∈ normed mats, ∃ gm' ∈ normed mats, gm.1.length ≠ gm'.1.length) := by
    rintro (h | ⟨gm, h1, gm', h2, h3⟩)
    · have : (km.1.qubits, km.2) ∈ normed mats := List.mem_map_of_mem hkm
      rw [h] at this
      simp at this
    · obtain ⟨a, ha, rfl⟩ := List.mem_map.1 h1
      obtain ⟨b, hb, rfl⟩ := List.mem_map.1 h2
      exact h3 (hlen a ha b hb)
  constructor
  · unfold kronselectDotC
    rw [if_neg (by omega), if_neg (by omega), normMats_ok mats hk hs]
    simp only [bind, Except.bind]
    rw [if_neg hc]
    unfold cdotLoopC
    obtain ⟨mem, hb, -⟩ := build_spec (ms := (normed mats).map (·.2)) (by
      intro m hm
      obtain ⟨gm, hgm, rfl⟩ := List.mem_map.1 hm
      obtain ⟨a, ha, rfl⟩ := List.mem_map.1 hgm
      exact (hd a ha).params)
    have hr31 : ∀ gm ∈ normed mats, ∀ q ∈ gm.1, q < 2 ^ 31 := by
      intro gm hgm
      obtain ⟨a, ha, rfl⟩ := List.mem_map.1 hgm
      exact h31 a ha
    rw [mapM_groups hr31, ofPy_ok (show n < 2 ^ 31 by omega), ofPy_ok (by omega), ofPy_ok (by omega), hb]
    simp only [bind, Except.bind]
    rcases hp : pow2 (trunc ((sortedSet ((normed mats).flatMap (·.1))).map (BitVec.ofNat 32)).length) with e | two
    · have : OnlyUb (pow2 (trunc ((sortedSet ((normed mats).flatMap (·.1))).map (BitVec.ofNat 32)).length)) :=
        onlyUb_ite (onlyUb_ok _) onlyUb_err
      rw [hp, this e hp]
    rw [hp]
    dsimp only
    have hfl : (sortedSet ((normed mats).flatMap (·.1))).length < 2 ^ 31 := by
      have h1 : (sortedSet ((normed mats).flatMap (·.1))).length ≤ ((normed mats).flatMap (·.1)).length := by
        unfold sortedSet
        rw [List.length_mergeSort]
        exact (List.dedup_sublist _).length_le
      have h2 : (normed mats).flatMap (·.1) = mats.flatMap fun km => km.1.qubits := by
        unfold normed
        rw [List.flatMap_map]
      rw [h2] at h1 ⊢
      omega
    have htwo : ∃ k, cRange two = I 0 :: k := by
      unfold pow2 at hp
      split at hp
      · rename_i hr
        rw [List.length_map] at hr hp
        change 0 ≤ (I _).toInt ∧ (I _).toInt < 31 at hr
        change Except.ok (1#32 <<< (I _).toNat) = _ at hp
        rw [toInt_I hfl] at hr
        rw [toNat_I hfl] at hp
        cases hp
        have h2 : (1#32 <<< (sortedSet ((normed mats).flatMap (·.1))).length) = I (2 ^ (sortedSet ((normed mats).flatMap (·.1))).length) := by
          apply BitVec.eq_of_toNat_eq
          rw [toNat_one_shiftLeft (by omega), toNat_I (Nat.pow_lt_pow_right (by norm_num) (by omega)), Nat.one_shiftLeft]
        rw [h2, cRange_I (Nat.pow_lt_pow_right (by norm_num) (by omega))]
        obtain ⟨m, hm⟩ := Nat.exists_eq_succ_of_ne_zero (show 2 ^ (sortedSet ((normed mats).flatMap (·.1))).length ≠ 0 by positivity)
        rw [hm, List.range_succ_eq_map, List.map_cons]
        exact ⟨_, rfl⟩
      · cases hp
    obtain ⟨ks, hks⟩ := htwo
    have hrow : ∀ r, rowC mem ((normed mats).map fun gm => gm.1.map I) ((sortedSet ((normed mats).flatMap (·.1))).map (BitVec.ofNat 32))
        vec (I n) (I inOff) (I outOff) two r = .error .ub := by
      intro r
      unfold rowC
      rw [hks]
      simp only [bind, Except.bind]
      rcases ha : add r (I outOff) with e | w
      · rw [onlyUb_add _ _ e ha]
      dsimp only
      rw [List.foldlM_cons]
      have := nextCol_ub (flat := sortedSet ((normed mats).flatMap (·.1))) (by omega : n < 2 ^ 31) (fun q hq => by
        obtain ⟨gm, hgm, hq⟩ := List.mem_flatMap.1 (mem_sortedSet.1 hq)
        exact hr31 gm hgm q hq) hfl (mem_sortedSet.2 hq') hqn (I 0) w
      change nextCol ((sortedSet ((normed mats).flatMap (·.1))).map (BitVec.ofNat 32)) _ _ _ = _ at this
      rw [this]
      rfl
    have hto : (trunc out.length).toInt.toNat = out.length := by
      unfold trunc
      rw [toInt_I (by omega)]
      simp
    rw [hto]
    rcases hS : sched (List.range out.length) with - | ⟨r, L⟩
    · have := hsch (List.range out.length)
      rw [hS] at this
      have := this.symm.eq_nil
      simp at this
      exact absurd this hne
    · rw [List.foldlM_cons]
      simp only [bind, Except.bind]
      rw [hrow]
  · unfold kronselectDot
    rw [if_neg (by omega), if_neg (by omega), normMats_ok mats hk hs]
    simp only [bind, Except.bind]
    rw [if_neg hc]
    unfold cdotLoop
    rw [if_pos ⟨hne, q, hq', hqn⟩]

-- Not on qubit 2 of a 2-qubit state
example : kronselectDotC List.reverse [(.int 2, .dense 2 2 [0, 1, 1, 0])] ([1, 0, 0, 0] : List ℤ) 2 [0, 0, 0, 0] 0 0 = .error .ub :=
  (C07_compiled_range_false (by norm_num) (by simp) (by simp [Mat.shape, Key.qubits]) (by simp) (by simp [IntsOK])
    (by simp [Key.qubits]) (List.mem_singleton.2 rfl) (by simp [Key.qubits]) (le_refl 2) (by simp [Key.qubits]) (by simp) (by simp)
    (by simp) fun l => List.reverse_perm l).1

end QIP.Props
