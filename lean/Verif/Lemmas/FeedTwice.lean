import Verif.Lemmas.Feeds

/-!
# Qubits that are fed more than once
-/

namespace QIP

open Spec Heap

/-! ## The last value wins -/

/-- The bit at the last place where the qubit is listed. -/
def lastVal : List Nat → List Bool → Nat → Bool
  | q' :: S, b :: bs, q => if q = q' ∧ q ∉ S then b else lastVal S bs q
  | _, _, _ => false

theorem foldl_set_last (S : List Nat) (bits : List Bool) (hl : bits.length = S.length) (cb : List Bool) {q : Nat}
    (hq : q < cb.length) :
    ((S.zip bits).foldl (fun cb p => cb.set p.1 p.2) cb).getD q false = if q ∈ S then lastVal S bits q else cb.getD q false := by
  induction S generalizing bits cb with
  | nil => simp
  | cons q' S ih =>
    cases bits with
    | nil => simp at hl
    | cons b bits =>
      rw [List.zip_cons_cons, List.foldl_cons, ih bits (by simpa using hl) _ (by simpa using hq)]
      simp only [lastVal, List.mem_cons]
      by_cases hS : q ∈ S
      · simp [hS]
      · by_cases he : q = q'
        · subst he
          simp [hS, List.getD_eq_getElem?_getD, hq]
        · simp [hS, he, List.getD_eq_getElem?_getD, List.getElem?_set, Ne.symm he]

/-- The basis state an iteration writes to. -/
def lastIndex (n : Nat) (S : List Nat) (bits : List Bool) : Nat :=
  ofQbits n fun q => if q ∈ S then lastVal S bits q else false

theorem genEditIndices_repeat {n : Nat} {groups : List (List Nat)} (hg : groups ≠ []) (hn : ∀ q ∈ groups.flatten, q < n) :
    genEditIndices groups n = .ok ((List.range (2 ^ groups.flatten.length)).map fun i : Nat =>
      (lastIndex n groups.flatten (uintToBitarray (i : Int) groups.flatten.length),
        groupFlips (uintToBitarray (i : Int) groups.flatten.length) groups 0)) := by
  unfold genEditIndices
  rw [if_neg hg]
  simp only
  rw [if_neg (by rintro ⟨q, hq, hq'⟩; have := hn q hq; omega)]
  congr 1
  set S := groups.flatten with hSdef
  have := foldl_collect
    (σ := List Bool) (ι := Nat) (α := Nat × List Nat)
    (fun cb i => (S.zip (uintToBitarray (i : Int) S.length)).foldl (fun cb p => cb.set p.1 p.2) cb)
    (fun cb i => (bitarrayToUint cb, groupFlips (uintToBitarray (i : Int) S.length) groups 0))
    (fun i => (lastIndex n S (uintToBitarray (i : Int) S.length), groupFlips (uintToBitarray (i : Int) S.length) groups 0))
    (fun cb => cb.length = n ∧ ∀ q < n, q ∉ S → cb.getD q false = false)
    (List.range (2 ^ S.length)) ?_ (List.replicate n false) ?_ []
  · rw [List.nil_append] at this; exact this
  · intro cb i _ ⟨hlen, hoff⟩
    have hlen' : ((S.zip (uintToBitarray (i : Int) S.length)).foldl (fun cb p => cb.set p.1 p.2) cb).length = n := by
      rw [← hlen]
      generalize S.zip (uintToBitarray (i : Int) S.length) = L
      clear hlen hoff
      induction L generalizing cb with
      | nil => rfl
      | cons p L ih => rw [List.foldl_cons, ih]; simp
    have hget : ∀ q < n, ((S.zip (uintToBitarray (i : Int) S.length)).foldl (fun cb p => cb.set p.1 p.2) cb).getD q false
        = if q ∈ S then lastVal S (uintToBitarray (i : Int) S.length) q else false := by
      intro q hq
      rw [foldl_set_last S _ (by simp) cb (by omega)]
      split
      · rfl
      · next hm => exact hoff q hq hm
    refine ⟨⟨hlen', ?_⟩, ?_⟩
    · intro q hq hm
      rw [hget q hq, if_neg hm]
    · simp only [Prod.mk.injEq, and_true]
      rw [bitarrayToUint_ofQbits _ hlen']
      exact ofQbits_congr hget
  · refine ⟨by simp, ?_⟩
    intro q hq _
    simp [hq]

theorem length_lastBits (n : Nat) (S : List Nat) (r : Nat) : (lastBits n S r).length = S.length := by
  induction S with
  | nil => rfl
  | cons q S ih => simp [lastBits, ih]

theorem lastVal_lastBits {n : Nat} {S : List Nat} {r q : Nat} (hq : q ∈ S) : lastVal S (lastBits n S r) q = qbit n r q := by
  induction S with
  | nil => simp at hq
  | cons q' S ih =>
    simp only [lastBits, lastVal]
    by_cases h : q = q' ∧ q ∉ S
    · rw [if_pos h, if_neg (h.1 ▸ h.2), h.1]
    · rw [if_neg h]
      refine ih ?_
      rcases List.mem_cons.1 hq with h1 | h1
      · by_contra h2; exact h ⟨h1, h2⟩
      · exact h1

/-- Among the counters that write to `r`, the one of `lastBits` is the last. -/
theorem bitsVal_le_lastBits {n : Nat} {S : List Nat} {r : Nat} (bits : List Bool) (hl : bits.length = S.length)
    (h : ∀ q ∈ S, lastVal S bits q = qbit n r q) : bitsVal bits ≤ bitsVal (lastBits n S r) := by
  induction S generalizing bits with
  | nil => cases bits <;> simp_all
  | cons q' S ih =>
    cases bits with
    | nil => simp
    | cons b bits =>
      have hl' : bits.length = S.length := by simpa using hl
      have h1 := ih bits hl' fun q hq => by
        have := h q (by simp [hq])
        simpa [lastVal, hq] using this
      simp only [lastBits]
      rw [bitsVal_cons, bitsVal_cons, length_lastBits, hl']
      by_cases hS : q' ∈ S
      · rw [if_pos hS]
        have : b.toNat * 2 ^ S.length ≤ true.toNat * 2 ^ S.length := Nat.mul_le_mul_right _ (by cases b <;> simp)
        omega
      · have := h q' (by simp)
        simp only [lastVal, hS, not_false_eq_true, and_self, if_true] at this
        rw [if_neg hS, this]
        omega

theorem lastIndex_lastBits {n : Nat} {S : List Nat} {r : Nat} (hr : r < 2 ^ n) (h0 : ∀ q < n, q ∉ S → qbit n r q = false) :
    lastIndex n S (lastBits n S r) = r := by
  unfold lastIndex
  rw [ofQbits_congr (g := qbit n r), ofQbits_qbit hr]
  intro q hq
  split
  · next h => exact lastVal_lastBits h
  · next h => exact (h0 q hq h).symm

theorem foldl_set_hit (a : Nat → Nat) (p : Nat → ℂ) (M : Nat) (st : List ℂ) {r i : Nat} (hr : r < st.length) (hi : i < M)
    (ha : a i = r) (hlast : ∀ k < M, a k = r → k ≤ i) :
    ((List.range M).foldl (fun st k => st.set (a k) (p k)) st)[r]? = some (p i) := by
  have hlen : ∀ M, ((List.range M).foldl (fun st k => st.set (a k) (p k)) st).length = st.length := by
    intro M
    induction M with
    | zero => rfl
    | succ M ih => rw [List.range_succ, List.foldl_append]; simpa using ih
  induction M with
  | zero => omega
  | succ M ih =>
    rw [List.range_succ, List.foldl_append]
    simp only [List.foldl_cons, List.foldl_nil]
    rw [List.getElem?_set]
    by_cases he : a M = r
    · have : M = i := by have := hlast M (by omega) he; omega
      subst this
      rw [if_pos ha, if_pos (by rw [ha, hlen]; exact hr)]
    · rw [if_neg he]
      have : i ≠ M := by rintro rfl; exact he ha
      exact ih (by omega) fun k hk => hlast k (by omega)

theorem foldl_set_miss (a : Nat → Nat) (p : Nat → ℂ) (M : Nat) (st : List ℂ) {r : Nat} (hno : ∀ k < M, a k ≠ r) :
    ((List.range M).foldl (fun st k => st.set (a k) (p k)) st)[r]? = st[r]? := by
  induction M with
  | zero => rfl
  | succ M ih =>
    rw [List.range_succ, List.foldl_append]
    simp only [List.foldl_cons, List.foldl_nil]
    rw [List.getElem?_set, if_neg (hno M (by omega))]
    exact ih fun k hk => hno k (by omega)

/-! ## The products -/

theorem feedFold_val {feeds : List InitState} (flips : List Nat) (vecs : List (List ℂ)) (k : Nat) (acc : ℂ)
    (hf : ∀ j (hj : j < vecs.length), feeds[k + j]? = some (.vec vecs[j])) (hl : flips.length = vecs.length)
    (hs : ∀ xv ∈ flips.zip vecs, xv.1 < xv.2.length) :
    ((flips.zipIdx k).foldlM (fun acc fq => do
      let a ← feedGet feeds fq.2 fq.1
      pure (acc * a)) acc : Except PyErr ℂ) = .ok (acc * ((flips.zip vecs).map fun xv => xv.2.getD xv.1 0).prod) := by
  induction flips generalizing vecs k acc with
  | nil => simp; rfl
  | cons x flips ih =>
    cases vecs with
    | nil => simp at hl
    | cons v vs =>
      rw [List.zipIdx_cons, List.foldlM_cons]
      have h0 := hf 0 (by simp)
      have hlt : x < v.length := hs (x, v) (by simp)
      have e : feedGet feeds k x = .ok (v.getD x 0) := by
        unfold feedGet
        rw [Nat.add_zero] at h0
        simp only [h0, List.getElem_cons_zero]
        rw [List.getElem?_eq_getElem hlt]
        simp [hlt]
      rw [e]
      simp only [bind, Except.bind, pure, Except.pure]
      have := ih vs (k + 1) (acc * v.getD x 0) (by
        intro j hj
        have := hf (j + 1) (by simpa using hj)
        rw [← Nat.add_assoc, Nat.add_right_comm] at this
        simpa using this) (by simpa using hl) (fun gv hgv => hs gv (by simp [hgv]))
      simp only [bind, Except.bind, pure, Except.pure] at this
      rw [this, List.zip_cons_cons, List.map_cons, List.prod_cons, mul_assoc]

theorem lastBits_drop (n : Nat) (g S : List Nat) (r : Nat) : (lastBits n (g ++ S) r).drop g.length = lastBits n S r := by
  induction g with
  | nil => rfl
  | cons q g ih => simpa [lastBits] using ih

theorem groupFlips_repeat (n r : Nat) (groups : List (List Nat)) (vecs : List (List ℂ)) (hl : groups.length = vecs.length)
    (pre : List Bool) :
    (((groupFlips (pre ++ lastBits n groups.flatten r) groups pre.length).zip vecs).map fun xv => xv.2.getD xv.1 0).prod
      = repeatAmp n (groups.zip vecs) r := by
  induction groups generalizing vecs pre with
  | nil => simp [groupFlips, repeatAmp]
  | cons g gs ih =>
    cases vecs with
    | nil => simp at hl
    | cons v vs =>
      have hl' : gs.length = vs.length := by simpa using hl
      have hk : (gs.zip vs).map (·.1) = gs := List.map_fst_zip (by omega)
      simp only [groupFlips, List.zip_cons_cons, List.map_cons, List.prod_cons, repeatAmp]
      rw [hk, List.flatten_cons, bitarrayToUint_eq, List.drop_left]
      congr 1
      have := ih vs hl' (pre ++ (lastBits n (g ++ gs.flatten) r).take g.length)
      rw [List.append_assoc, ← lastBits_drop n g gs.flatten r, List.take_append_drop, List.length_append, List.length_take,
        length_lastBits, List.length_append, Nat.min_eq_left (by omega)] at this
      exact this

theorem lastBits_nodup {n : Nat} {S : List Nat} (hS : S.Nodup) (r : Nat) : lastBits n S r = S.map (qbit n r) := by
  induction S with
  | nil => rfl
  | cons q S ih =>
    obtain ⟨h1, h2⟩ := List.nodup_cons.1 hS
    simp [lastBits, h1, ih h2]

/-- Without repetitions, the entries are those of the values of the qubits. -/
theorem repeatAmp_nodup {n : Nat} {gvs : List (List Nat × List ℂ)} (hS : (gvs.map (·.1)).flatten.Nodup) (r : Nat) :
    repeatAmp n gvs r = (gvs.map fun gv => gv.2.getD (subIndex n gv.1 r) 0).prod := by
  induction gvs with
  | nil => rfl
  | cons gv gvs ih =>
    rcases gv with ⟨g, v⟩
    rw [List.map_cons, List.flatten_cons] at hS
    rw [List.map_cons, List.prod_cons, repeatAmp, lastBits_nodup hS, ih (List.nodup_append.1 hS).2.1, List.map_append,
      List.take_left' (by simp)]
    rfl

/-! ## `make_state` for any groups -/

theorem makeState_repeat {n : Nat} {groups : List (List Nat)} {feeds : List InitState} {vecs : List (List ℂ)}
    (hg : groups ≠ []) (hn : ∀ q ∈ groups.flatten, q < n) (hf : FeedsOK groups feeds vecs) (arena : List ℂ) :
    makeState n groups feeds 0 (2 ^ n) arena
      = .ok ⟨n, (List.range (2 ^ n)).map fun r =>
          if ∀ q < n, q ∉ groups.flatten → qbit n r q = false then repeatAmp n (groups.zip vecs) r else 0, arena⟩ := by
  obtain ⟨rfl, hl, hs⟩ := hf
  have hfe : vecs.map InitState.vec ≠ [] := by
    intro h
    have hv : vecs = [] := by simpa using h
    subst hv
    exact hg (List.length_eq_zero_iff.1 (by simpa using hl))
  unfold makeState
  rw [if_neg (Nat.not_lt_zero _), if_neg hfe, genEditIndices_repeat hg hn]
  simp only [bind, Except.bind]
  set S := groups.flatten with hSdef
  set u : Nat → List Bool := fun i => uintToBitarray (i : Int) S.length with hu
  set p : Nat → ℂ := fun i => (((groupFlips (u i) groups 0).zip vecs).map fun xv => xv.2.getD xv.1 0).prod with hp
  have hstep : ∀ (L : List Nat) (st : List ℂ),
      (L.map fun i => (lastIndex n S (u i), groupFlips (u i) groups 0)).foldlM (editStep (vecs.map .vec) 0 (2 ^ n)) st
      = (Except.ok (L.foldl (fun st k => st.set (lastIndex n S (u k)) (p k)) st) : Except PyErr (List ℂ)) := by
    intro L
    induction L with
    | nil => intro st; rfl
    | cons i L ih =>
      intro st
      rw [List.map_cons, List.foldlM_cons, List.foldl_cons]
      have hprod : feedProduct (vecs.map .vec) (groupFlips (u i) groups 0) = .ok (p i) := by
        unfold feedProduct
        rw [feedFold_val _ vecs 0 1 (by intro j hj; simp [hj]) (by rw [length_groupFlips, hl]), one_mul]
        intro xv hxv
        obtain ⟨j, hj, rfl⟩ := List.mem_iff_getElem.1 hxv
        have hj' : j < groups.length ∧ j < vecs.length := by
          rw [List.length_zip, length_groupFlips] at hj
          omega
        rw [List.getElem_zip]
        refine lt_of_lt_of_le (groupFlips_lt (flips := u i) (s := 0) (List.getElem?_eq_getElem hj'.1)
          (List.getElem?_eq_getElem (by rw [length_groupFlips]; exact hj'.1))) (hs (groups[j], vecs[j]) ?_)
        rw [← List.getElem_zip (h := by rw [List.length_zip]; omega)]
        exact List.getElem_mem _
      have : editStep (vecs.map .vec) 0 (2 ^ n) st (lastIndex n S (u i), groupFlips (u i) groups 0)
          = .ok (st.set (lastIndex n S (u i)) (p i)) := by
        unfold editStep
        have := ofQbits_lt n fun q => if q ∈ S then lastVal S (u i) q else false
        rw [if_neg (by simp only [lastIndex]; omega), hprod]
        rfl
      rw [this]
      exact ih _
  rw [hstep]
  simp only
  congr 2
  apply List.ext_getElem?
  intro r
  by_cases hr : r < 2 ^ n
  · rw [List.getElem?_map, List.getElem?_range hr, Option.map_some]
    by_cases h0 : ∀ q < n, q ∉ S → qbit n r q = false
    · rw [if_pos h0]
      have hui : u (bitsVal (lastBits n S r)) = lastBits n S r := by
        have := uintToBitarray_bitsVal (lastBits n S r)
        rwa [length_lastBits] at this
      rw [foldl_set_hit (fun k => lastIndex n S (u k)) p _ _ (i := bitsVal (lastBits n S r)) (by simpa using hr)
        (by have := bitsVal_lt (lastBits n S r); rwa [length_lastBits] at this)
        (by simp only [hui]; exact lastIndex_lastBits hr h0)]
      · simp only [hp, hui]
        rw [← groupFlips_repeat n r groups vecs hl []]
        rfl
      · intro k hk hkr
        have hkv : bitsVal (u k) = k := by
          have := bitsVal_uintToBitarray (k : Int) S.length
          rw [Int.emod_eq_of_lt (by omega) (by exact_mod_cast hk)] at this
          exact_mod_cast this
        rw [← hkv]
        refine bitsVal_le_lastBits (u k) (by simp [hu]) ?_
        intro q hq
        have hqn := hn q hq
        rw [← hkr]
        unfold lastIndex
        rw [qbit_ofQbits _ hqn, if_pos hq]
    · rw [if_neg h0, foldl_set_miss (fun k => lastIndex n S (u k)) p]
      · simp [hr]
      · intro k _ hkr
        apply h0
        intro q hq hqS
        rw [← hkr]
        unfold lastIndex
        rw [qbit_ofQbits _ hq, if_neg hqS]
  · have hlen : ∀ (L : List Nat) (st : List ℂ),
        (L.foldl (fun st k => st.set (lastIndex n S (u k)) (p k)) st).length = st.length := by
      intro L
      induction L with
      | nil => intro st; rfl
      | cons i L ih => intro st; rw [List.foldl_cons, ih]; simp
    rw [List.getElem?_eq_none (by rw [hlen]; simp; omega), List.getElem?_eq_none (by simp; omega)]

/-! ## The state a run starts from -/

theorem lastBits_take {n : Nat} {A T : List Nat} (hd : ∀ k ∈ A, k ∉ T) (r : Nat) :
    (lastBits n (A ++ T) r).take A.length = lastBits n A r := by
  induction A with
  | nil => rfl
  | cons q A ih =>
    have hq : q ∉ T := hd q (by simp)
    simp [lastBits, hq, ih fun k hk => hd k (by simp [hk])]

theorem repeatAmp_append {n : Nat} {gvs gvs' : List (List Nat × List ℂ)}
    (hd : ∀ k ∈ (gvs.map (·.1)).flatten, k ∉ (gvs'.map (·.1)).flatten) (r : Nat) :
    repeatAmp n (gvs ++ gvs') r = repeatAmp n gvs r * repeatAmp n gvs' r := by
  induction gvs with
  | nil => simp [repeatAmp]
  | cons gv gvs ih =>
    rcases gv with ⟨g, v⟩
    rw [List.map_cons, List.flatten_cons] at hd
    have hb : (lastBits n (g ++ ((gvs ++ gvs').map (·.1)).flatten) r).take g.length
        = (lastBits n (g ++ (gvs.map (·.1)).flatten) r).take g.length := by
      rw [List.map_append, List.flatten_append, ← List.append_assoc, ← lastBits_take hd r, List.take_take,
        Nat.min_eq_left (by simp)]
    rw [List.cons_append, repeatAmp, repeatAmp, hb, ih fun k hk => hd k (List.mem_append_right _ hk), mul_assoc]

theorem defaultVec_congr {h : Heap} {fed fed' : List Nat} (hm : ∀ q, q ∈ fed ↔ q ∈ fed') (q : Nat) :
    defaultVec h fed q = defaultVec h fed' q := by
  unfold defaultVec
  simp only [hm]

theorem repeatAmp_allFeed {h : Heap} {V : Nat → Prop} {args : List Nat} (c : Ctx h V args)
    {feed : List (List Nat × List ℂ)} (hmem : ∀ q ∈ (feed.map (·.1)).flatten, q ∈ leaves h args) {deps : List Nat}
    (hdp : deps.Perm (leaves h args))
    (hdef : ∀ q ∈ leaves h args, q ∉ (feed.map (·.1)).flatten → DefaultOK h q) :
    (∀ kv ∈ deps.flatMap (defaultVec h (feed.map (·.1)).flatten), kv.2.length = 2 ^ (kv.1.map h.n).sum) ∧
    ∀ r, (if ∀ k < width h args, k ∉ ((allFeed h feed deps).map fun kv => (kv.1.map (wires h args)).flatten).flatten →
          qbit (width h args) r k = false
        then repeatAmp (width h args) ((allFeed h feed deps).map fun kv => ((kv.1.map (wires h args)).flatten, kv.2)) r else 0)
      = startRepeat h args feed r := by
  set n := width h args with hn
  set fed := (feed.map (·.1)).flatten with hfed
  -- a feed of the same qubits without repetitions, by vectors of ones
  set ones : List (List Nat × List ℂ) := fed.dedup.map fun q => ([q], List.replicate (2 ^ h.n q) 1) with hones
  have hok : (ones.map (·.1)).flatten = fed.dedup := by
    rw [hones, List.map_map]
    change (fed.dedup.map fun q => [q]).flatten = _
    induction fed.dedup with
    | nil => rfl
    | cons q l ih => simp [ih]
  have hf1 : FeedOK h args ones := by
    refine ⟨by rw [hok]; exact List.nodup_dedup _, ?_, ?_⟩
    · intro q hq
      rw [hok, List.mem_dedup] at hq
      exact hmem q hq
    · intro kv hkv
      obtain ⟨q, -, rfl⟩ := List.mem_map.1 hkv
      simp
  have hdef1 : ∀ q ∈ leaves h args, q ∉ (ones.map (·.1)).flatten → DefaultOK h q := by
    intro q hq hq'
    rw [hok, List.mem_dedup] at hq'
    exact hdef q hq hq'
  have hdefd : ∀ q ∈ deps, q ∉ (ones.map (·.1)).flatten → DefaultOK h q := fun q hq => hdef1 q (hdp.mem_iff.1 hq)
  have hnd : deps.Nodup := hdp.nodup_iff.2 ((leaves_asc h args).imp fun h => Nat.ne_of_lt h)
  set D := deps.flatMap (defaultVec h fed) with hD
  have hall1 : allFeed h ones deps = ones ++ D := by
    unfold allFeed
    rw [hok, hD]
    congr 2
    funext q
    exact defaultVec_congr (fun q => List.mem_dedup) q
  have hall : allFeed h feed deps = feed ++ D := rfl
  have hsize := size_allFeed hf1 hdefd
  rw [hall1] at hsize
  refine ⟨fun kv hkv => hsize kv (List.mem_append_right _ hkv), ?_⟩
  intro r
  have hamp := initAmp_allFeed c hf1 hdp hdef1 r
  have hkn := nodup_keys hf1.nodup hnd hdefd
  have hkl : ∀ q ∈ ((ones ++ D).map (·.1)).flatten, Reach h args q ∧ h.inputs q = [] := by
    intro q hq
    rw [← hall1] at hq
    refine (mem_leaves c.wf c.vargs).1 ?_
    rcases (mem_keys hdefd).1 hq with h1 | h1
    · exact hf1.mem q h1
    · exact hdp.mem_iff.1 h1.1
  rw [hall1] at hkn hamp
  have hS : ((((ones ++ D).map (·.1)).flatten).map (wires h args)).flatten.Nodup := by
    apply Ctx.nodup_flatten_of hkn
    · intro q hq
      rw [wires_leaf (hkl q hq).2]
      exact List.Nodup.map (fun a b h => Nat.add_left_cancel h) List.nodup_range
    · intro x hx y hy hne k hk hk'
      exact hne (c.leaf_unique (hkl x hx).1 (hkl y hy).1 (hkl x hx).2 (hkl y hy).2 hk hk')
  rw [List.map_append, List.flatten_append, hok, List.map_append, List.flatten_append] at hS
  obtain ⟨-, hSD, hdis⟩ := List.nodup_append.1 hS
  have hmw : ∀ k, k ∈ (fed.dedup.map (wires h args)).flatten ↔ k ∈ (fed.map (wires h args)).flatten := by
    intro k
    simp [List.mem_flatten, List.mem_map]
  -- both conditions are the same
  have hcond : (∀ k < n, k ∉ ((allFeed h feed deps).map fun kv => (kv.1.map (wires h args)).flatten).flatten → qbit n r k = false) ↔
      ∀ k < n, k ∉ ((ones ++ D).map fun kv => (kv.1.map (wires h args)).flatten).flatten → qbit n r k = false := by
    have : ∀ k, k ∈ ((allFeed h feed deps).map fun kv => (kv.1.map (wires h args)).flatten).flatten ↔
        k ∈ ((ones ++ D).map fun kv => (kv.1.map (wires h args)).flatten).flatten := by
      intro k
      rw [flatten_groups, flatten_groups, hall, List.map_append, List.map_append, List.flatten_append, List.flatten_append, hok,
        List.map_append, List.map_append, List.flatten_append, List.flatten_append, List.mem_append, List.mem_append, hmw]
    simp only [this]
  have hone : (ones.map fun kv => kv.2.getD (subIndex n (kv.1.map (wires h args)).flatten r) 0).prod = 1 := by
    apply List.prod_eq_one
    intro x hx
    obtain ⟨kv, hkv, rfl⟩ := List.mem_map.1 hx
    obtain ⟨q, hq, rfl⟩ := List.mem_map.1 hkv
    have hlt := subIndex_lt n (wires h args q) r
    rw [c.len (hkl q (by rw [List.map_append, List.flatten_append, hok]; exact List.mem_append_left _ hq)).1] at hlt
    simp [List.getD_eq_getElem?_getD, List.getElem?_replicate, hlt]
  have hstart : startAmp h args ones r = (((leaves h args).filter fun q => q ∉ fed).map fun q =>
      (startVec h q).getD (subIndex n (wires h args q) r) 0).prod := by
    unfold startAmp
    simp only
    rw [← hn, hone, one_mul, hok]
    simp only [List.mem_dedup]
  rw [hstart] at hamp
  unfold startRepeat
  simp only
  rw [← hn, ← hfed, ← hamp]
  unfold initAmp
  have hprod : ((ones ++ D).map ((fun gv : List Nat × List ℂ => gv.2.getD (subIndex n gv.1 r) 0) ∘
      fun kv : List Nat × List ℂ => ((kv.1.map (wires h args)).flatten, kv.2))).prod
      = (D.map ((fun gv : List Nat × List ℂ => gv.2.getD (subIndex n gv.1 r) 0) ∘
      fun kv : List Nat × List ℂ => ((kv.1.map (wires h args)).flatten, kv.2))).prod := by
    rw [List.map_append, List.prod_append]
    have : (ones.map ((fun gv : List Nat × List ℂ => gv.2.getD (subIndex n gv.1 r) 0) ∘
      fun kv : List Nat × List ℂ => ((kv.1.map (wires h args)).flatten, kv.2))).prod = 1 := hone
    rw [this, one_mul]
  rw [if_congr hcond rfl rfl, List.zip_map', List.map_map, ← hn, hprod]
  split
  · have hDn : ((D.map fun kv => ((kv.1.map (wires h args)).flatten, kv.2)).map (·.1)).flatten.Nodup := by
      rw [List.map_map]
      change ((D.map fun kv => (kv.1.map (wires h args)).flatten)).flatten.Nodup
      rw [flatten_groups]
      exact hSD
    rw [hall, List.map_append, repeatAmp_append, repeatAmp_nodup hDn, List.map_map]
    · rw [List.map_map, List.map_map]
      change ∀ k ∈ (feed.map fun kv => (kv.1.map (wires h args)).flatten).flatten,
        k ∉ (D.map fun kv => (kv.1.map (wires h args)).flatten).flatten
      rw [flatten_groups, flatten_groups]
      intro k hk hk'
      exact hdis k ((hmw k).2 hk) k hk' rfl
  · rw [mul_zero]

end QIP
