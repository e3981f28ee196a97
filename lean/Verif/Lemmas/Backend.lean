import Verif.Lemmas.FuncApply
import Verif.Lemmas.Kron
import Verif.Model.Backend
import Verif.Spec.Backend

/-! # Closed form of `make_state` -/

namespace QIP

open Spec

theorem groupFlips_eq {n c : Nat} (pre : List Nat) (groups : List (List Nat)) :
    groupFlips ((pre ++ groups.flatten).map (qbit n c)) groups pre.length = groups.map fun g => subIndex n g c := by
  induction groups generalizing pre with
  | nil => rfl
  | cons g gs ih =>
    simp only [groupFlips, List.map_cons]
    congr 1
    · rw [bitarrayToUint_eq, subIndex]
      congr 1
      simp
    · have := ih (pre ++ g)
      rw [List.length_append] at this
      rw [← this]
      congr 2
      simp

theorem uintToBitarray_spread {n : Nat} {S : List Nat} (hS : S.Nodup) (hn : ∀ q ∈ S, q < n) (i : Nat) :
    uintToBitarray (i : Int) S.length = S.map (qbit n (spread n S 0 i)) := by
  apply List.ext_getElem
  · simp [uintToBitarray, length_uintBitsLoop]
  · intro j h1 h2
    have hj : j < S.length := by simpa using h2
    have := getD_uintToBitarray_idx (n := n) (S := S) (List.getElem_mem hj) 0 i (hn _ (List.getElem_mem hj))
    rw [hS.idxOf_getElem, List.getD_eq_getElem _ _ h1] at this
    rw [this, List.getElem_map]

theorem genEditIndices_eq {n : Nat} {groups : List (List Nat)} (hg : groups ≠ []) (hS : groups.flatten.Nodup)
    (hn : ∀ q ∈ groups.flatten, q < n) :
    genEditIndices groups n = .ok ((List.range (2 ^ groups.flatten.length)).map fun i =>
      (spread n groups.flatten 0 i, groups.map fun g => subIndex n g (spread n groups.flatten 0 i))) := by
  unfold genEditIndices
  rw [if_neg hg]
  simp only
  rw [if_neg (by rintro ⟨q, hq, hq'⟩; have := hn q hq; omega)]
  congr 1
  set S := groups.flatten with hSdef
  have := foldl_collect
    (σ := List Bool) (ι := Nat) (α := Nat × List Nat)
    (fun cb i => (S.zip (uintToBitarray (i : Int) S.length)).foldl (fun cb p => cb.set p.1 p.2) cb)
    (fun cb i => (bitarrayToUint cb, groupFlips (uintToBitarray (i : Int) S.length) groups 0))
    (fun i => (spread n S 0 i, groups.map fun g => subIndex n g (spread n S 0 i)))
    (fun cb => cb.length = n ∧ ∀ q < n, q ∉ S → cb.getD q false = false)
    (List.range (2 ^ S.length)) ?_ (List.replicate n false) ?_ []
  · rw [List.nil_append] at this; exact this
  · intro cb i _ ⟨hlen, hoff⟩
    have hlen' : ((S.zip (uintToBitarray (i : Int) S.length)).foldl (fun cb p => cb.set p.1 p.2) cb).length = n := by
      rw [← hlen]
      generalize S.zip (uintToBitarray (i : Int) S.length) = L
      clear hlen hoff
      induction L generalizing cb with
      | nil => rfl
      | cons p L ih => rw [List.foldl_cons, ih]; simp
    have hget : ∀ q < n, ((S.zip (uintToBitarray (i : Int) S.length)).foldl (fun cb p => cb.set p.1 p.2) cb).getD q false
        = qbit n (spread n S 0 i) q := by
      intro q hq
      rw [foldl_set_zip S _ (by simp [uintToBitarray, length_uintBitsLoop]) hS cb q (by omega)]
      split
      · next hm => exact getD_uintToBitarray_idx hm 0 i hq
      · next hm => rw [hoff q hq hm, qbit_spread _ _ _ hq, if_neg hm, qbit_zero]
    refine ⟨⟨hlen', ?_⟩, ?_⟩
    · intro q hq hm
      rw [hget q hq, qbit_spread _ _ _ hq, if_neg hm, qbit_zero]
    · simp only [Prod.mk.injEq]
      constructor
      · rw [bitarrayToUint_ofQbits _ hlen', ofQbits_congr hget, ofQbits_qbit (spread_lt _ _ _ _)]
      · rw [uintToBitarray_spread hS hn]
        exact groupFlips_eq [] groups
  · refine ⟨by simp, ?_⟩
    intro q hq _
    simp [hq]

/-- The feeds are vectors of the right sizes. -/
def FeedsOK (groups : List (List Nat)) (feeds : List InitState) (vecs : List (List ℂ)) : Prop :=
  feeds = vecs.map .vec ∧ groups.length = vecs.length ∧
    ∀ gv ∈ groups.zip vecs, 2 ^ gv.1.length ≤ gv.2.length

theorem feedProduct_go {n c : Nat} (feeds : List InitState) (groups : List (List Nat)) (vecs : List (List ℂ)) (k : Nat)
    (acc : ℂ) (hf : ∀ j (hj : j < vecs.length), feeds[k + j]? = some (.vec vecs[j]))
    (hl : groups.length = vecs.length) (hs : ∀ gv ∈ groups.zip vecs, 2 ^ gv.1.length ≤ gv.2.length) :
    ((groups.map fun g => subIndex n g c).zipIdx k).foldlM (fun acc fq => do
      let a ← feedGet feeds fq.2 fq.1
      pure (acc * a)) acc
      = (Except.ok (acc * ((groups.zip vecs).map fun gv => gv.2.getD (subIndex n gv.1 c) 0).prod) : Except PyErr ℂ) := by
  induction groups generalizing vecs k acc with
  | nil => simp; rfl
  | cons g gs ih =>
    cases vecs with
    | nil => simp at hl
    | cons v vs =>
      simp only [List.map_cons, List.zipIdx_cons, List.foldlM_cons]
      have h0 := hf 0 (by simp)
      have hlt : subIndex n g c < v.length := lt_of_lt_of_le (subIndex_lt n g c) (hs (g, v) (by simp))
      have e : feedGet feeds k (subIndex n g c) = .ok (v.getD (subIndex n g c) 0) := by
        unfold feedGet
        rw [Nat.add_zero] at h0
        simp only [h0, List.getElem_cons_zero]
        rw [List.getElem?_eq_getElem hlt]
        simp [hlt]
      rw [e]
      simp only [bind, Except.bind, pure, Except.pure]
      have := ih vs (k + 1) (acc * v.getD (subIndex n g c) 0) (by
        intro j hj
        have := hf (j + 1) (by simpa using hj)
        rw [← Nat.add_assoc, Nat.add_right_comm] at this
        simpa using this) (by simpa using hl) (fun gv hgv => hs gv (by simp [hgv]))
      simp only [bind, Except.bind, pure, Except.pure] at this
      rw [this, List.zip_cons_cons, List.map_cons, List.prod_cons, mul_assoc]

theorem feedProduct_eq {n c : Nat} {groups : List (List Nat)} {feeds : List InitState} {vecs : List (List ℂ)}
    (hf : FeedsOK groups feeds vecs) :
    feedProduct feeds (groups.map fun g => subIndex n g c)
      = .ok (((groups.zip vecs).map fun gv => gv.2.getD (subIndex n gv.1 c) 0).prod) := by
  obtain ⟨rfl, hl, hs⟩ := hf
  have := feedProduct_go (n := n) (c := c) (vecs.map .vec) groups vecs 0 1 (by
    intro j hj; simp [hj]) hl hs
  unfold feedProduct
  rw [this, one_mul]

theorem foldl_window {α : Type} (L : List Nat) (f : Nat → α) (start : Nat) (st : List α) (j : Nat) (hj : j < st.length) :
    (L.foldl (fun st i => if i < start ∨ i ≥ start + st.length then st else st.set (i - start) (f i)) st)[j]?
      = if j + start ∈ L then some (f (j + start)) else st[j]? := by
  induction L generalizing st with
  | nil => simp
  | cons i L ih =>
    rw [List.foldl_cons]
    by_cases hw : i < start ∨ i ≥ start + st.length
    · rw [if_pos hw, ih _ hj]
      have : j + start ≠ i := by omega
      simp [this]
    · rw [if_neg hw, ih _ (by simpa using hj), List.getElem?_set]
      by_cases hm : j + start ∈ L
      · simp [hm]
      · by_cases he : j + start = i
        · subst he
          simp [hj]
        · simp [hm, he, show ¬ (i - start = j) by omega]

theorem mem_map_spread {n : Nat} {S : List Nat} {r : Nat} (hr : r < 2 ^ n) :
    r ∈ (List.range (2 ^ S.length)).map (fun i => spread n S 0 i) ↔ ∀ q < n, q ∉ S → qbit n r q = false := by
  rw [List.mem_map]
  constructor
  · rintro ⟨i, _, rfl⟩ q hq hm
    rw [qbit_spread _ _ _ hq, if_neg hm, qbit_zero]
  · intro h
    refine ⟨subIndex n S r, List.mem_range.2 (subIndex_lt _ _ _), spread_subIndex hr ?_⟩
    intro q hq hm
    rw [qbit_zero, h q hq hm]

/-- `make_state` with a non-empty feed. -/
theorem makeState_eq {n : Nat} {groups : List (List Nat)} {feeds : List InitState} {vecs : List (List ℂ)}
    (hg : groups ≠ []) (hS : groups.flatten.Nodup) (hn : ∀ q ∈ groups.flatten, q < n) (hf : FeedsOK groups feeds vecs)
    {start stop : Nat} (hw : start ≤ stop) (hstop : stop ≤ 2 ^ n) (arena : List ℂ) :
    makeState n groups feeds start stop arena
      = .ok ⟨n, (List.range (stop - start)).map fun j => initAmp n groups vecs (j + start), arena⟩ := by
  have hfe : feeds ≠ [] := by
    obtain ⟨rfl, hl, _⟩ := hf
    intro h
    have hv : vecs = [] := by simpa using h
    subst hv
    exact hg (List.length_eq_zero_iff.1 (by simpa using hl))
  unfold makeState
  rw [if_neg (by omega), if_neg hfe, genEditIndices_eq hg hS hn]
  simp only [bind, Except.bind]
  set S := groups.flatten with hSdef
  have hstep : ∀ (L : List Nat) (st : List ℂ), st.length = stop - start →
      (L.map fun i => (spread n S 0 i, groups.map fun g => subIndex n g (spread n S 0 i))).foldlM
        (editStep feeds start stop) st
      = (Except.ok ((L.map fun i => spread n S 0 i).foldl (fun st i =>
          if i < start ∨ i ≥ start + st.length then st else st.set (i - start)
            (((groups.zip vecs).map fun gv => gv.2.getD (subIndex n gv.1 i) 0).prod)) st) : Except PyErr (List ℂ)) := by
    intro L
    induction L with
    | nil => intro st _; rfl
    | cons i L ih =>
      intro st hst
      simp only [List.map_cons, List.foldlM_cons, List.foldl_cons]
      have hstop' : start + st.length = stop := by omega
      rw [hstop']
      by_cases hc : spread n S 0 i < start ∨ spread n S 0 i ≥ stop
      · rw [if_pos hc]
        unfold editStep
        rw [if_pos hc]
        exact ih st hst
      · rw [if_neg hc]
        unfold editStep
        rw [if_neg hc, feedProduct_eq hf]
        exact ih _ (by simpa using hst)
  rw [hstep _ _ (by simp)]
  simp only
  congr 2
  apply List.ext_getElem?
  intro j
  by_cases hj : j < stop - start
  · rw [foldl_window _ (fun i => ((groups.zip vecs).map fun gv => gv.2.getD (subIndex n gv.1 i) 0).prod) start _ j
      (by simpa using hj), List.getElem?_map, List.getElem?_range hj, Option.map_some]
    unfold initAmp
    rw [if_congr (mem_map_spread (by omega)) rfl rfl]
    split
    · rfl
    · simp [hj]
  · have hlen : ∀ (L : List Nat) (st : List ℂ), (L.foldl (fun st i =>
          if i < start ∨ i ≥ start + st.length then st else st.set (i - start)
            (((groups.zip vecs).map fun gv => gv.2.getD (subIndex n gv.1 i) 0).prod)) st).length = st.length := by
      intro L
      induction L with
      | nil => intro st; rfl
      | cons i L ih => intro st; rw [List.foldl_cons, ih]; split <;> simp
    rw [List.getElem?_eq_none (by rw [hlen]; simp; omega), List.getElem?_eq_none (by simp; omega)]

/-- `make_state` with an empty feed. -/
theorem makeState_empty (n : Nat) {start stop : Nat} (hw : start < stop) (arena : List ℂ) :
    makeState n [] [] start stop arena = .ok ⟨n, (List.replicate (stop - start) 0).set 0 1, arena⟩ := by
  unfold makeState genEditIndices
  rw [if_neg (by omega), if_pos rfl, if_neg (by omega)]
  rfl

theorem initAmp_empty {n r : Nat} (hr : r < 2 ^ n) : initAmp n [] [] r = if r = 0 then 1 else 0 := by
  unfold initAmp
  have : (∀ q < n, q ∉ ([] : List (List Nat)).flatten → qbit n r q = false) ↔ r = 0 := by
    constructor
    · intro h
      apply qbit_ext hr (by positivity)
      intro q hq
      rw [h q hq (by simp), qbit_zero]
    · rintro rfl q _ _
      exact qbit_zero _ _
  rw [if_congr this rfl rfl]
  simp

end QIP
