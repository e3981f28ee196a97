import Verif.Lemmas.Backend
import Verif.Lemmas.Job

/-!
# Initial states given as ints
-/

namespace QIP

open Spec Props

theorem feedProduct_int {n c : Nat} (feeds : List InitState) (groups : List (List Nat)) (k : Nat) (acc : ℂ)
    (hk : k + groups.length = feeds.length)
    (hs : ∀ j (hj : j < groups.length) v, feeds[k + j]? = some (.vec v) → 2 ^ groups[j].length ≤ v.length)
    (hi : ∃ j i, k ≤ j ∧ feeds[j]? = some (.int i)) :
    ((groups.map fun g => subIndex n g c).zipIdx k).foldlM (fun acc fq => do
      let a ← feedGet feeds fq.2 fq.1
      pure (acc * a)) acc = (Except.error .typeError : Except PyErr ℂ) := by
  induction groups generalizing k acc with
  | nil =>
    obtain ⟨j, i, hj, h⟩ := hi
    have := (List.getElem?_eq_some_iff.1 h).1
    simp at hk
    omega
  | cons g gs ih =>
    simp only [List.length_cons] at hk
    rw [List.map_cons, List.zipIdx_cons, List.foldlM_cons]
    have hlt : k < feeds.length := by omega
    rcases hf : feeds[k] with v | i
    · have hf' : feeds[k]? = some (.vec v) := by rw [List.getElem?_eq_getElem hlt, hf]
      have hlen := hs 0 (by simp) v (by simpa using hf')
      have hsub : subIndex n g c < v.length := (subIndex_lt n g c).trans_le hlen
      have : feedGet feeds k (subIndex n g c) = .ok v[subIndex n g c] := by
        simp only [feedGet, hf', List.getElem?_eq_getElem hsub]
      simp only [this, bind, Except.bind, pure, Except.pure]
      apply ih
      · omega
      · intro j hj v' hv'
        have := hs (j + 1) (by simpa using hj) v' (by rw [← hv']; congr 1; omega)
        simpa using this
      · obtain ⟨j, i, hj, h⟩ := hi
        refine ⟨j, i, ?_, h⟩
        rcases Nat.lt_or_ge k j with h1 | h1
        · exact h1
        · have : j = k := by omega
          subst this
          rw [hf'] at h
          injection h with h
          cases h
    · have : feedGet feeds k (subIndex n g c) = .error .typeError := by
        simp only [feedGet, List.getElem?_eq_getElem hlt, hf]
      simp only [this, bind, Except.bind]

/-- An int among the initial states, and at least one edit in the window. -/
theorem makeState_int {n : Nat} {groups : List (List Nat)} {feeds : List InitState} (hS : groups.flatten.Nodup)
    (hn : ∀ q ∈ groups.flatten, q < n) (hl : groups.length = feeds.length)
    (hs : ∀ j (hj : j < groups.length) v, feeds[j]? = some (.vec v) → 2 ^ groups[j].length ≤ v.length)
    (hi : ∃ i, .int i ∈ feeds) {start stop r : Nat} (h1 : start ≤ r) (h2 : r < stop) (hr : r < 2 ^ n)
    (hz : ∀ q < n, q ∉ groups.flatten → qbit n r q = false) (arena : List ℂ) :
    makeState n groups feeds start stop arena = .error .typeError := by
  obtain ⟨i, hi⟩ := hi
  obtain ⟨j, hj, hji⟩ := List.mem_iff_getElem.1 hi
  have hfe : feeds ≠ [] := List.ne_nil_of_mem hi
  have hg : groups ≠ [] := by
    rintro rfl
    simp at hl
    exact hfe (List.length_eq_zero_iff.1 hl.symm)
  unfold makeState
  rw [if_neg (by omega), if_neg hfe, genEditIndices_eq hg hS hn]
  simp only [bind, Except.bind]
  have hp : ∀ c, feedProduct feeds (groups.map fun g => subIndex n g c) = .error .typeError := fun c =>
    feedProduct_int feeds groups 0 1 (by omega) (by simpa using hs) ⟨j, i, Nat.zero_le _, by rw [List.getElem?_eq_getElem hj, hji]⟩
  have key : ∀ (L : List Nat) (st : List ℂ), r ∈ L.map (fun i => spread n groups.flatten 0 i) →
      (L.map fun i => (spread n groups.flatten 0 i, groups.map fun g => subIndex n g (spread n groups.flatten 0 i))).foldlM
        (editStep feeds start stop) st = .error .typeError := by
    intro L
    induction L with
    | nil => simp
    | cons a L ih =>
      intro st hm
      rw [List.map_cons, List.foldlM_cons]
      simp only [editStep]
      by_cases hw : spread n groups.flatten 0 a < start ∨ spread n groups.flatten 0 a ≥ stop
      · rw [if_pos hw]
        simp only [bind, Except.bind]
        apply ih
        simp only [List.map_cons, List.mem_cons] at hm
        rcases hm with rfl | hm
        · omega
        · exact hm
      · rw [if_neg hw, hp]
        rfl
  rw [key _ _ ((mem_map_spread hr).2 hz)]

/-- What can be sent. -/
theorem setup_any {n : Nat} (hn : n < 2 ^ 31) {groups : List (List Nat)} {feeds : List InitState}
    (hq : ∀ q ∈ groups.flatten, q < 2 ^ 31) (hl : groups.length = feeds.length)
    (hi : ∀ i, .int i ∈ feeds → -2 ^ 63 ≤ i ∧ i < 2 ^ 63) :
    ∃ states, setupStates n groups feeds = .ok states ∧ states.map PbState.indices = groups ∧
      states.mapM pbStateValue = .ok feeds := by
  unfold setupStates
  rw [if_pos hn]
  induction groups generalizing feeds with
  | nil =>
    have : feeds = [] := List.length_eq_zero_iff.1 hl.symm
    subst this
    exact ⟨[], rfl, rfl, rfl⟩
  | cons g gs ih =>
    rcases feeds with _ | ⟨v, feeds⟩
    · simp at hl
    · have hq' : ∀ q ∈ gs.flatten, q < 2 ^ 31 := fun q h => hq q (by simp only [List.flatten_cons, List.mem_append]; exact Or.inr h)
      obtain ⟨states, h1, h2, h3⟩ := ih (feeds := feeds) hq' (by simpa using hl) fun i h => hi i (by simp [h])
      rcases v with v | i
      · refine ⟨⟨g, .vector (vecToPb v)⟩ :: states, ?_, by simp [h2], ?_⟩
        · rw [List.zip_cons_cons, List.mapM_cons, h1]
          simp only [stateToPb, C58_indices (is := g) (fun q h => hq q (by simp [h])), bind, Except.bind]
          rfl
        · rw [List.mapM_cons, h3]
          simp only [pbStateValue, C58_vector, bind, Except.bind]
          rfl
      · refine ⟨⟨g, .index i⟩ :: states, ?_, by simp [h2], ?_⟩
        · rw [List.zip_cons_cons, List.mapM_cons, h1]
          simp only [stateToPb, C58_indices (is := g) (fun q h => hq q (by simp [h])), if_pos (hi i (by simp)), bind, Except.bind]
          rfl
        · rw [List.mapM_cons, h3]
          rfl

/-- An int that does not fit. -/
theorem setup_refused {n : Nat} {groups : List (List Nat)} {feeds : List InitState} (hl : groups.length = feeds.length) {i : Int}
    (hi : .int i ∈ feeds) (hbad : ¬ (-2 ^ 63 ≤ i ∧ i < 2 ^ 63)) : setupStates n groups feeds = .error .valueError := by
  unfold setupStates
  split
  · induction groups generalizing feeds with
    | nil =>
      have : feeds = [] := List.length_eq_zero_iff.1 hl.symm
      subst this
      simp at hi
    | cons g gs ih =>
      rcases feeds with _ | ⟨v, feeds⟩
      · simp at hi
      · rw [List.zip_cons_cons, List.mapM_cons]
        have hv : (∃ s, stateToPb g v = .ok s) ∨ stateToPb g v = .error .valueError := by
          unfold stateToPb indicesToPb
          by_cases hg : ∀ q ∈ g, q < 2 ^ 31
          · simp only [if_pos hg, bind, Except.bind]
            rcases v with v | k
            · exact .inl ⟨_, rfl⟩
            · by_cases hk : -2 ^ 63 ≤ k ∧ k < 2 ^ 63
              · exact .inl ⟨_, if_pos hk⟩
              · exact .inr (if_neg hk)
          · simp only [if_neg hg, bind, Except.bind]
            exact .inr trivial
        rcases hv with ⟨s, hv⟩ | hv
        · have hne : v ≠ .int i := by
            rintro rfl
            unfold stateToPb indicesToPb at hv
            by_cases hg : ∀ q ∈ g, q < 2 ^ 31
            · simp only [if_pos hg, bind, Except.bind, if_neg hbad] at hv
              cases hv
            · simp only [if_neg hg, bind, Except.bind] at hv
              cases hv
          simp only [List.mem_cons] at hi
          have := ih (feeds := feeds) (by simpa using hl) (hi.resolve_left fun e => hne e.symm)
          simp only [hv, this, bind, Except.bind]
        · simp only [hv, bind, Except.bind]
  · rfl

end QIP
