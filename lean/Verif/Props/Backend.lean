import Verif.Lemmas.Backend

/-!
# C30, C31: initial states
-/

namespace QIP.Props

open QIP QIP.Spec

/-- C30: the initial state is the product of the fed states, unfed qubits at 0 (any number of disjoint groups, none
included). -/
theorem C30_initial_state {n : Nat} {groups : List (List Nat)} {vecs : List (List ℂ)} (hS : groups.flatten.Nodup)
    (hn : ∀ q ∈ groups.flatten, q < n) (hl : groups.length = vecs.length)
    (hs : ∀ gv ∈ groups.zip vecs, gv.2.length = 2 ^ gv.1.length) (arena : List ℂ) :
    ∃ b, makeState n groups (vecs.map .vec) 0 (2 ^ n) arena = .ok b ∧ b.n = n ∧ b.arena = arena ∧
      b.state.length = 2 ^ n ∧ ∀ r < 2 ^ n, b.state[r]? = some (initAmp n groups vecs r) := by
  by_cases hg : groups = []
  · subst hg
    have hv : vecs = [] := List.length_eq_zero_iff.1 hl.symm
    subst hv
    refine ⟨_, makeState_empty n (by positivity) arena, rfl, rfl, by simp, ?_⟩
    intro r hr
    rw [initAmp_empty hr]
    simp only [List.getElem?_set, Nat.sub_zero, List.length_replicate]
    by_cases h0 : r = 0
    · subst h0; simp
    · simp [h0, Ne.symm h0, hr]
  · refine ⟨_, makeState_eq hg hS hn ⟨rfl, hl, fun gv h => (hs gv h).ge⟩ (Nat.zero_le _) le_rfl arena, rfl, rfl,
      by simp, ?_⟩
    intro r hr
    simp [hr]

-- qubits (2,0) and (3) of 4 fed
example : ([[2, 0], [3]] : List (List Nat)).flatten.Nodup ∧ (∀ q ∈ ([[2, 0], [3]] : List (List Nat)).flatten, q < 4) := by
  decide

/-- C30: a basis state fed to one register: checks the specification on a concrete shape of circuit, for every
register, value and `n`. -/
theorem C30_spec_basis {n : Nat} {g : List Nat} {k : Nat} (hk : k < 2 ^ g.length) {r : Nat} :
    initAmp n [g] [(List.replicate (2 ^ g.length) 0).set k 1] r
      = if (∀ q < n, q ∉ g → qbit n r q = false) ∧ subIndex n g r = k then 1 else 0 := by
  unfold initAmp
  have hlt := subIndex_lt n g r
  by_cases h : ∀ q < n, q ∉ g → qbit n r q = false
  · by_cases h2 : subIndex n g r = k
    · subst h2
      simp [h, hlt]
    · have h3 : ¬ k = subIndex n g r := fun e => h2 e.symm
      simp [h, h2, h3, List.getElem?_set, hlt]
  · have h' : ¬ ∀ q < n, q ∉ [g].flatten → qbit n r q = false := by simpa using h
    rw [if_neg h', if_neg (fun H => h H.1)]

/-- C31 (partial: some state is fed, or the window starts at 0): a window of the initial state. -/
theorem C31_windows_partial {n : Nat} {groups : List (List Nat)} {vecs : List (List ℂ)} (hS : groups.flatten.Nodup)
    (hn : ∀ q ∈ groups.flatten, q < n) (hl : groups.length = vecs.length)
    (hs : ∀ gv ∈ groups.zip vecs, gv.2.length = 2 ^ gv.1.length) {start stop : Nat} (hw : start < stop)
    (hstop : stop ≤ 2 ^ n) (hfed : groups ≠ [] ∨ start = 0) (arena arena' : List ℂ) :
    ∃ full, makeState n groups (vecs.map .vec) 0 (2 ^ n) arena = .ok full ∧
      makeState n groups (vecs.map .vec) start stop arena' = .ok ⟨n, full.getRange start stop, arena'⟩ := by
  obtain ⟨b, hb, hbn, _, hlen, hget⟩ := C30_initial_state hS hn hl hs arena
  refine ⟨b, hb, ?_⟩
  have key : ∀ f : Nat → ℂ, (∀ r < 2 ^ n, f r = initAmp n groups vecs r) →
      (List.range (stop - start)).map (fun j => f (j + start)) = b.getRange start stop := by
    intro f hf
    apply List.ext_getElem?
    intro j
    unfold BState.getRange
    rw [List.getElem?_drop, List.getElem?_take]
    by_cases hj : j < stop - start
    · rw [if_pos (by omega), hget _ (by omega), List.getElem?_map, List.getElem?_range hj, Option.map_some,
        hf _ (by omega), Nat.add_comm]
    · rw [if_neg (by omega), List.getElem?_eq_none (by simp; omega)]
  by_cases hg : groups = []
  · subst hg
    have hv : vecs = [] := List.length_eq_zero_iff.1 hl.symm
    subst hv
    have h0 : start = 0 := by simpa using hfed
    subst h0
    rw [List.map_nil, makeState_empty n hw arena', ← key (fun r => if r = 0 then 1 else 0)
      (fun r hr => (initAmp_empty hr).symm)]
    congr 2
    apply List.ext_getElem?
    intro j
    by_cases hj : j < stop
    · by_cases h0 : j = 0
      · subst h0; simp [hj]
      · simp [h0, Ne.symm h0, hj, List.getElem?_set]
    · rw [List.getElem?_eq_none (by simp; omega), List.getElem?_eq_none (by simp; omega)]
  · rw [makeState_eq hg hS hn ⟨rfl, hl, fun gv h => (hs gv h).ge⟩ hw.le hstop arena', key _ fun _ _ => rfl]

/-- C31 (negation of the full property): without any fed state, every window starts with amplitude 1, also the
windows whose first basis state is not `|0…0⟩`, where the initial state is 0. -/
theorem C31_empty_feed_wrong {n start stop : Nat} (h0 : 0 < start) (hw : start < stop) (hstop : stop ≤ 2 ^ n)
    (arena arena' : List ℂ) :
    ∃ full win, makeState n [] [] 0 (2 ^ n) arena = .ok full ∧ makeState n [] [] start stop arena' = .ok win ∧
      win.state[0]? = some 1 ∧ full.state[start]? = some 0 := by
  refine ⟨_, _, makeState_empty n (by positivity) arena, makeState_empty n hw arena', ?_, ?_⟩
  · simp [List.getElem?_set, hw]
  · simp [h0.ne, show start < 2 ^ n by omega]

example : (0 : Nat) < 2 ∧ 2 < 4 ∧ 4 ≤ 2 ^ 2 := by decide

/-- **C74**: `get_relative_range` returns the amplitudes of the range. -/
theorem C74_get (b : BState) {start stop : Nat} (h1 : start ≤ stop) (h2 : stop ≤ b.state.length) :
    (b.getRange start stop).length = stop - start ∧
      ∀ i < stop - start, (b.getRange start stop)[i]? = b.state[start + i]? := by
  unfold BState.getRange
  refine ⟨by simp; omega, ?_⟩
  intro i hi
  rw [List.getElem?_drop, List.getElem?_take, if_pos (by omega)]

theorem broadcast_other {len : Nat} {data : List ℂ} (h : data.length ≠ 1) : broadcast len data = data := by
  unfold broadcast
  split
  · simp at h
  · rfl

/-- **C74**: `overwrite_relative_range` replaces the amplitudes of the range and keeps all others; data of another length
is rejected.  Partial: except data of length 1, see `C74_broadcast_false`. -/
theorem C74_overwrite_partial (b : BState) {start stop : Nat} (h1 : start ≤ stop) (h2 : stop ≤ b.state.length) (data : List ℂ) :
    (data.length = stop - start → ∃ b', b.overwriteRange start stop data = .ok b' ∧ b'.n = b.n ∧
      b'.state.length = b.state.length ∧ ∀ i < b.state.length, b'.state[i]? =
        if start ≤ i ∧ i < stop then data[i - start]? else b.state[i]?) ∧
    (data.length ≠ stop - start → data.length ≠ 1 → b.overwriteRange start stop data = .error .valueError) := by
  have hl := (C74_get b h1 h2).1
  constructor
  · intro hd
    refine ⟨{ b with state := b.state.take start ++ data ++ b.state.drop (start + data.length) }, ?_, rfl, ?_, ?_⟩
    · unfold BState.overwriteRange
      rw [broadcast_same (hl.trans hd.symm)]
      simp only [if_pos (hl.trans hd.symm)]
    · simp; omega
    · intro i hi
      simp only
      by_cases h : start ≤ i ∧ i < stop
      · rw [if_pos h, List.getElem?_append_left (by simp; omega), List.getElem?_append_right (by simp; omega)]
        congr 1
        simp; omega
      · rw [if_neg h]
        by_cases h' : i < start
        · rw [List.getElem?_append_left (by simp; omega), List.getElem?_append_left (by simp; omega),
            List.getElem?_take, if_pos h']
        · rw [List.getElem?_append_right (by simp; omega), List.getElem?_drop]
          congr 1
          simp; omega
  · intro hd h1
    unfold BState.overwriteRange
    rw [broadcast_other h1]
    simp only [if_neg (show ¬ (b.getRange start stop).length = data.length by omega)]

/-- **C74**: `addto_relative_range` adds to the amplitudes of the range and keeps all others.  Partial in the same way. -/
theorem C74_addto_partial (b : BState) {start stop : Nat} (h1 : start ≤ stop) (h2 : stop ≤ b.state.length) (data : List ℂ) :
    (data.length = stop - start → ∃ b', b.addtoRange start stop data = .ok b' ∧ b'.n = b.n ∧
      b'.state.length = b.state.length ∧ ∀ i < b.state.length, b'.state.getD i 0 =
        if start ≤ i ∧ i < stop then b.state.getD i 0 + data.getD (i - start) 0 else b.state.getD i 0) ∧
    (data.length ≠ stop - start → data.length ≠ 1 → b.addtoRange start stop data = .error .valueError) := by
  have hl := (C74_get b h1 h2).1
  have hg := (C74_get b h1 h2).2
  constructor
  · intro hd
    refine ⟨{ b with state := b.state.take start ++ List.zipWith (· + ·) (b.getRange start stop) data
      ++ b.state.drop (start + data.length) }, ?_, rfl, ?_, ?_⟩
    · unfold BState.addtoRange
      rw [broadcast_same (hl.trans hd.symm)]
      simp only [if_pos (hl.trans hd.symm)]
    · simp [hl]; omega
    · intro i hi
      simp only [List.getD_eq_getElem?_getD]
      by_cases h : start ≤ i ∧ i < stop
      · rw [if_pos h, List.getElem?_append_left (by simp [hl]; omega), List.getElem?_append_right (by simp; omega)]
        have e : i - (b.state.take start).length = i - start := by simp; omega
        rw [e, List.getElem?_zipWith, hg (i - start) (by omega), Nat.add_sub_cancel' h.1,
          List.getElem?_eq_getElem hi, List.getElem?_eq_getElem (show i - start < data.length by omega)]
        simp
      · rw [if_neg h]
        congr 1
        by_cases h' : i < start
        · rw [List.getElem?_append_left (by simp; omega), List.getElem?_append_left (by simp; omega),
            List.getElem?_take, if_pos h']
        · rw [List.getElem?_append_right (by simp [hl]; omega), List.getElem?_drop]
          congr 1
          simp [hl]; omega
  · intro hd h1
    unfold BState.addtoRange
    rw [broadcast_other h1]
    simp only [if_neg (show ¬ (b.getRange start stop).length = data.length by omega)]

/-- **C74** is false for a single value given for a range of any other length: it is not rejected, all amplitudes of the range
are set to it (or it is added to all of them). -/
theorem C74_broadcast_false (b : BState) {start stop : Nat} (h1 : start ≤ stop) (h2 : stop ≤ b.state.length) (x : ℂ) :
    ∃ b' b'', b.overwriteRange start stop [x] = .ok b' ∧ b.addtoRange start stop [x] = .ok b'' ∧
      ∀ i < b.state.length, b'.state[i]? = (if start ≤ i ∧ i < stop then some x else b.state[i]?) ∧
        b''.state.getD i 0 = if start ≤ i ∧ i < stop then b.state.getD i 0 + x else b.state.getD i 0 := by
  have hl := (C74_get b h1 h2).1
  obtain ⟨b', i1, -, -, i2⟩ := (C74_overwrite_partial b h1 h2 (List.replicate (stop - start) x)).1 (by simp)
  obtain ⟨b'', j1, -, -, j2⟩ := (C74_addto_partial b h1 h2 (List.replicate (stop - start) x)).1 (by simp)
  have e : broadcast (b.getRange start stop).length [x] = List.replicate (stop - start) x := by rw [hl]; rfl
  have e' : broadcast (b.getRange start stop).length (List.replicate (stop - start) x) = List.replicate (stop - start) x :=
    broadcast_same (by simp [hl])
  refine ⟨b', b'', ?_, ?_, fun i hi => ⟨?_, ?_⟩⟩
  · unfold BState.overwriteRange at i1 ⊢
    rw [e, ← i1, e']
  · unfold BState.addtoRange at j1 ⊢
    rw [e, ← j1, e']
  · rw [i2 i hi]
    split
    · rw [List.getElem?_replicate, if_pos (by omega)]
    · rfl
  · rw [j2 i hi]
    split
    · congr 1
      simp only [List.getD_eq_getElem?_getD, List.getElem?_replicate]
      rw [if_pos (by omega)]
      rfl
    · rfl

example : ∃ b', (⟨2, [1, 2, 3, 4], []⟩ : BState).overwriteRange 1 3 [7, 8] = .ok b' ∧ b'.state.length = 4 := by
  obtain ⟨b', h, -, hl, -⟩ := (C74_overwrite_partial ⟨2, [1, 2, 3, 4], []⟩ (start := 1) (stop := 3) (by norm_num) (by simp)
    [7, 8]).1 rfl
  exact ⟨b', h, hl⟩

example : ∃ b', (⟨2, [1, 2, 3, 4], []⟩ : BState).addtoRange 1 3 [7, 8] = .ok b' ∧ b'.state.length = 4 := by
  obtain ⟨b', h, -, hl, -⟩ := (C74_addto_partial ⟨2, [1, 2, 3, 4], []⟩ (start := 1) (stop := 3) (by norm_num) (by simp)
    [7, 8]).1 rfl
  exact ⟨b', h, hl⟩

example : ∃ b', (⟨2, [1, 2, 3, 4], []⟩ : BState).overwriteRange 1 3 [7] = .ok b' ∧ b'.state[2]? = some 7 := by
  obtain ⟨b', _, h, _, hl⟩ := C74_broadcast_false ⟨2, [1, 2, 3, 4], []⟩ (start := 1) (stop := 3) (by norm_num) (by simp) 7
  exact ⟨b', h, (hl 2 (by simp)).1⟩

end QIP.Props
