import Verif.Lemmas.CGate

/-!
# C91: the compiled kernel on C ints
-/

namespace QIP.Props

open QIP QIP.Spec QIP.C32

variable {R : Type}

/-- C91: on registers of at most 30 qubits, with numpy matrices on at most 15 qubits, the compiled kernel with its 32-bit ints,
structs and pointers does what the kernel on unbounded numbers does: nothing overflows, no memory outside the arrays is
touched, for every slice of the state and every schedule of the parallel loop. -/
theorem C91_refines [Zero R] [One R] [Add R] [Mul R] [DecidableEq R] {n : Nat} {mats : List (Key × Mat R)} {vec out : List R}
    {inOff outOff : Nat} (h : CallOK n mats vec out inOff outOff) (hn : n ≤ 30) (hnd : ∀ km ∈ mats, km.1.qubits.Nodup)
    (hd : ∀ km ∈ mats, DenseSmall km.2) (hfew : mats.length < 2 ^ 31)
    {sched : List Nat → List Nat} (hs : ∀ l, (sched l).Perm l) :
    kronselectDotC sched mats vec n out inOff outOff
      = kronselectDot mats vec n out inOff outOff (.cython (sched (List.range out.length))) := by
  have h30 : 2 ^ n ≤ 2 ^ 30 := Nat.pow_le_pow_right (by norm_num) hn
  have h1 := h.input
  have h2 := h.output
  unfold kronselectDotC kronselectDot
  rw [if_neg (by omega), if_neg (by omega), if_neg (by omega), if_neg (by omega), normMats_ok mats h.keys h.shapes]
  simp only [bind, Except.bind]
  rw [cdotLoopC_spec (validMats_normed h) (callInts h hn hnd hd hfew) (by omega) (by omega) (by omega) h2 (by omega) hs]

/-- C91: and so it computes the slice of the Kronecker product. -/
theorem C91_kernel [CommSemiring R] [DecidableEq R] {n : Nat} {mats : List (Key × Mat R)} {vec out : List R}
    {inOff outOff : Nat} (h : CallOK n mats vec out inOff outOff) (hn : n ≤ 30) (hnd : ∀ km ∈ mats, km.1.qubits.Nodup)
    (hd : ∀ km ∈ mats, DenseSmall km.2) (hfew : mats.length < 2 ^ 31) (hne : mats ≠ [])
    (hlen : ∀ km ∈ mats, ∀ km' ∈ mats, km.1.qubits.length = km'.1.qubits.length)
    {sched : List Nat → List Nat} (hs : ∀ l, (sched l).Perm l) :
    kronselectDotC sched mats vec n out inOff outOff
      = .ok ((List.range out.length).map fun o =>
          kronApply n (mats.map fun km => (km.1.qubits, matEntry km.2)) (sliceAt inOff vec) (o + outOff)) := by
  rw [C91_refines h hn hnd hd hfew hs]
  exact kronselectDot_eq h ⟨hs _, hne, hlen⟩

-- a slice of the product of two matrices on 3 qubits
example : kronselectDotC List.reverse [(.int 0, .dense 2 2 [0, 1, 1, 0]), (.int 2, .dense 2 2 [1, 2, 3, 4])]
    ([5, 6, 7, 8] : List ℤ) 3 [0, 0] 4 1 = .ok ((List.range 2).map fun o =>
      kronApply 3 [([0], matEntry (.dense 2 2 [0, 1, 1, 0])), ([2], matEntry (.dense 2 2 [1, 2, 3, 4]))]
        (sliceAt 4 [5, 6, 7, 8]) (o + 1)) :=
  C91_kernel ⟨by decide, by decide, by decide, by simp [Mat.WF], by decide, by decide⟩ (by norm_num) (by decide)
    (by simp [DenseSmall]) (by norm_num) (by simp) (by decide) fun l => List.reverse_perm l

/-! ## Gates -/

/-- `Gate.apply` with the compiled kernel. -/
noncomputable def applyC (sched : List Nat → List Nat) (g : Gate) (dagger : Bool) (gs : List (List Nat)) (n : Nat)
    (state arena : List ℂ) : Except PyErr (List ℂ) := do
  let ms ← g.feedMats dagger gs
  kronselectDotC sched ms state n arena 0 0

/-- C91: every gate, forwards or backwards, on a register of at most 30 qubits is computed by the compiled kernel as by the
kernel on unbounded numbers (which C14 and C72 are about). -/
theorem C91_gates {n : Nat} (g : Gate) (gs : List (List Nat)) (hf : Fits g gs) (hnd : gs.flatten.Nodup)
    (hlt : ∀ q ∈ gs.flatten, q < n) (hn : n ≤ 30) (dagger : Bool) (state arena : List ℂ) (hs : state.length = 2 ^ n)
    (ha : arena.length = 2 ^ n) {sched : List Nat → List Nat} (hp : ∀ l, (sched l).Perm l) :
    applyC sched g dagger gs n state arena = g.apply dagger gs n state arena (.cython (sched (List.range (2 ^ n)))) := by
  unfold applyC Gate.apply
  rcases hm : g.feedMats dagger gs with e | ms
  · rfl
  · obtain ⟨h1, h2, h3, h4⟩ := feed_call hf ⟨hnd, hlt⟩ dagger hm hs ha
    simp only [bind, Except.bind]
    rw [C91_refines h1 hn h2 h3 (by omega) hp, ha]

/-- C91: in particular the compiled kernel computes what the gate stands for. -/
theorem C91_gate_semantics {n : Nat} (g : Gate) (gs : List (List Nat)) (hf : Fits g gs) (hnd : gs.flatten.Nodup)
    (hlt : ∀ q ∈ gs.flatten, q < n) (hn : n ≤ 30) (state arena : List ℂ) (hs : state.length = 2 ^ n)
    (ha : arena.length = 2 ^ n) {sched : List Nat → List Nat} (hp : ∀ l, (sched l).Perm l) :
    ∃ res, applyC sched g false gs n state arena = .ok res ∧ res.length = 2 ^ n ∧
      ∀ r < 2 ^ n, res[r]? = some (gateApply n g gs (fun c => state.getD c 0) r) := by
  obtain ⟨mats, h⟩ := gm_exists (n := n) g gs hf ⟨hnd, hlt⟩
  rw [C91_gates g gs hf hnd hlt hn false state arena hs ha hp]
  refine ⟨_, gate_apply_eq ⟨hnd, hlt⟩ h hs ha (hp _), length_act _ _ _, ?_⟩
  intro r hr
  rw [← h.sem _ _ hr]
  simp [act, hr]

-- C(Swap) on 30 qubits, the iterations in reverse order
example (state arena : List ℂ) (hs : state.length = 2 ^ 30) (ha : arena.length = 2 ^ 30) :
    ∃ res, applyC List.reverse (.c (.swap 1)) false [[29], [0], [13]] 30 state arena = .ok res :=
  let ⟨res, h, _⟩ := C91_gate_semantics (.c (.swap 1)) [[29], [0], [13]] ⟨29, _, rfl, [0], [13], rfl, rfl, rfl⟩ (by decide)
    (by decide) (le_refl 30) state arena hs ha (fun l => List.reverse_perm l)
  ⟨res, h⟩

/-! ## Outside these limits -/

/-- C91 fails on larger registers: with at least 31 qubits the length of the output does not fit an `int` and becomes negative
or 0, so the loop does nothing: the call succeeds and leaves the output buffer as it was, whatever the state and matrices. -/
theorem C91_large_false [Zero R] [One R] [Add R] [Mul R] [DecidableEq R] {n : Nat} (hn : 31 ≤ n) (hn' : n < 2 ^ 31) {q : Nat}
    (hq : q < n) {d : List R} {vec out : List R} (hv : vec.length = 2 ^ n) (ho : out.length = 2 ^ n)
    {sched : List Nat → List Nat} (hs : ∀ l, (sched l).Perm l) :
    kronselectDotC sched [(.int q, .dense 2 2 d)] vec n out 0 0 = .ok out := by
  have hnil : sched [] = [] := List.Perm.eq_nil (hs [])
  have hq31 : q < 2 ^ 31 := by omega
  have hb : build [Mat.dense 2 2 d] = .ok [some ⟨.numpy, I 2, .data d⟩] := rfl
  have hfl : sortedSet [q] = [q] := by simp [sortedSet]
  have hnm : normMats [(Key.int q, Mat.dense 2 2 d)] = .ok [([q], Mat.dense 2 2 d)] := rfl
  unfold kronselectDotC
  rw [if_neg (by omega), if_neg (by omega), hnm]
  simp only [bind, Except.bind]
  rw [if_neg (by simp)]
  unfold cdotLoopC
  have hg : ([([q], Mat.dense 2 2 d)].mapM fun (gm : List Nat × Mat R) => gm.1.mapM ofPy) = .ok [[I q]] :=
    mapM_groups (by simpa using hq31)
  rw [hg, ofPy_ok hn', ofPy_ok (show 0 < 2 ^ 31 by norm_num), ho, trunc_big hn]
  have hb' : build ([([q], Mat.dense 2 2 d)].map (·.2)) = .ok [some ⟨.numpy, I 2, .data d⟩] := hb
  rw [hb']
  have hp : pow2 (trunc ((sortedSet ([([q], Mat.dense 2 2 d)].flatMap (·.1))).map (BitVec.ofNat 32)).length) = .ok 2 := by
    simp only [List.flatMap_cons, List.flatMap_nil, List.append_nil, hfl]
    rfl
  simp only [bind, Except.bind, List.range_zero, hnil, hp]
  rfl

-- the X gate applied to |0…0⟩ of 31 qubits leaves a cleared output buffer cleared, so the state becomes the zero vector
example (vec : List ℂ) (hv : vec.length = 2 ^ 31) :
    kronselectDotC id [(.int 0, .dense 2 2 [0, 1, 1, 0])] vec 31 (List.replicate (2 ^ 31) 0) 0 0
      = .ok (List.replicate (2 ^ 31) 0) :=
  C91_large_false (le_refl 31) (by norm_num) (by norm_num) hv (List.length_replicate ..) fun l => List.Perm.refl l

/-- C91 fails for large matrices: the offset of an entry in the second half of a numpy matrix on 16 qubits overflows. -/
theorem C91_entry_overflow [Zero R] [One R] (mem : Mem R) (fuel : Nat) (d : List R) (i j : Nat) (hi : 2 ^ 15 ≤ i)
    (hi' : i < 2 ^ 16) :
    calcMatEntry mem (fuel + 1) ⟨.numpy, I (2 ^ 16), .data d⟩ (I i) (I j) = .error .ub := by
  unfold calcMatEntry
  have : mul (I i) (I (2 ^ 16)) = .error .ub := by
    unfold mul fits
    rw [toInt_I (by omega), toInt_I (by norm_num), if_neg (by push_cast; omega)]
  simp only [this, bind, Except.bind]

/-- … that is, of the row 2 ^ 15 of the output. -/
theorem C91_row_overflow [Zero R] [One R] [Add R] [Mul R] [DecidableEq R] {d vec : List R} (hv : vec.length = 2 ^ 16) :
    rowC [some ⟨.numpy, I (2 ^ 16), .data d⟩] [(List.range 16).map I] ((List.range 16).map I) vec (I 16) (I 0) (I 0)
      (I (2 ^ 16)) (I (2 ^ 15)) = .error .ub := by
  unfold rowC
  have h1 : add (I (2 ^ 15)) (I 0) = .ok (I (2 ^ 15)) := by decide
  obtain ⟨L, h2⟩ : ∃ L, cRange (I (2 ^ 16)) = I 0 :: L := by
    rw [cRange_I (by norm_num)]
    generalize hm : 2 ^ 16 = m
    obtain ⟨k, rfl⟩ : ∃ k, m = k + 1 := ⟨m - 1, by omega⟩
    exact ⟨_, by rw [List.range_succ_eq_map, List.map_cons]⟩
  have h3 : nextCol ((List.range 16).map I) (I 16) (I 0) (I (2 ^ 15)) = .ok (I 0) := by decide
  have h4 : sub (I 0) (I 0) = .ok (I 0) := by decide
  have h5 : subIndexC ((List.range 16).map I) (I 16) (I (2 ^ 15)) = .ok (I (2 ^ 15)) := by decide
  have h6 : subIndexC ((List.range 16).map I) (I 16) (I 0) = .ok (I 0) := by decide
  have h7 : (trunc vec.length).toInt = 65536 := by rw [hv]; decide
  have h8 : (I 0).toInt = 0 := by decide
  have h9 : cRange (trunc [(List.range 16).map I].length) = [I 0] := by decide
  have h10 : prodC [some ⟨.numpy, I (2 ^ 16), .data d⟩] [(List.range 16).map I] (I 16) (I (2 ^ 15)) (I 0) [I 0] 1
      = .error .ub := by
    unfold prodC
    have r1 : read [(List.range 16).map I] (I 0) = .ok ((List.range 16).map I) := by decide
    have r2 : read [some (⟨.numpy, I (2 ^ 16), .data d⟩ : MStruct R)] (I 0) = .ok (some ⟨.numpy, I (2 ^ 16), .data d⟩) := rfl
    rw [r1, r2]
    simp only [bind, Except.bind, h5, h6]
    rw [C91_entry_overflow _ _ d _ _ (le_refl _) (by norm_num)]
  rw [h1, h2]
  simp only [bind, Except.bind, List.foldlM_cons, h3, h4, h7, h8, h9, h10]
  rw [if_neg (by omega)]

/-- C91 fails for large matrices: applying a numpy matrix to all 16 qubits of a register is undefined behaviour. -/
theorem C91_dense_false [Zero R] [One R] [Add R] [Mul R] [DecidableEq R] {d vec out : List R} (hv : vec.length = 2 ^ 16)
    (ho : out.length = 2 ^ 16) {sched : List Nat → List Nat} (hs : ∀ l, (sched l).Perm l) (res : List R) :
    kronselectDotC sched [(.tup (List.range 16), .dense (2 ^ 16) (2 ^ 16) d)] vec 16 out 0 0 ≠ .ok res := by
  have hb : build ([(List.range 16, Mat.dense (2 ^ 16) (2 ^ 16) d)].map (·.2)) = .ok [some ⟨.numpy, I (2 ^ 16), .data d⟩] := rfl
  have hnm : normMats [(Key.tup (List.range 16), Mat.dense (2 ^ 16) (2 ^ 16) d)]
      = .ok [(List.range 16, Mat.dense (2 ^ 16) (2 ^ 16) d)] := by rfl
  rw [kronselectDotC_norm (by omega) (by omega) hnm (by simp)]
  unfold cdotLoopC
  have hg : ([(List.range 16, Mat.dense (2 ^ 16) (2 ^ 16) d)].mapM fun (gm : List Nat × Mat R) => gm.1.mapM ofPy)
      = .ok [(List.range 16).map I] :=
    mapM_groups (by simp; omega)
  rw [hg, ofPy_ok (show 16 < 2 ^ 31 by norm_num), ofPy_ok (show 0 < 2 ^ 31 by norm_num), ho, hb]
  have hto : (trunc (2 ^ 16)).toInt.toNat = 2 ^ 16 := by decide
  have hfl : (sortedSet ([(List.range 16, Mat.dense (2 ^ 16) (2 ^ 16) d)].flatMap (·.1))).map (BitVec.ofNat 32)
      = (List.range 16).map I := by
    simp only [List.flatMap_cons, List.flatMap_nil, List.append_nil]
    have : sortedSet (List.range 16) = List.range 16 := by
      unfold sortedSet
      rw [List.Nodup.dedup List.nodup_range]
      exact List.mergeSort_of_pairwise (by decide)
    rw [this]
  simp only [hto, hfl, bind, Except.bind]
  have hp : pow2 (trunc ((List.range 16).map I).length) = .ok (I (2 ^ 16)) := by decide
  rw [hp]
  have hmem : 2 ^ 15 ∈ sched (List.range (2 ^ 16)) := (hs _).mem_iff.2 (by simp)
  generalize sched (List.range (2 ^ 16)) = S at hmem
  refine foldlM_not_ok hmem ?_ out res
  intro o r
  have hrow := C91_row_overflow (d := d) hv
  have hI : ∀ k, (BitVec.ofNat 32 k : CInt) = I k := fun _ => rfl
  simp only [hI, hrow]
  intro h
  cases h

end QIP.Props
