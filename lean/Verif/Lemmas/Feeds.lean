import Verif.Lemmas.RunPre
import Verif.Spec.Feeds

/-!
# Feeds that do not fit
-/

namespace QIP

open Spec Heap

/-! ## The pieces of the counter -/

theorem bitsVal_ones (k : Nat) : bitsVal (List.replicate k true) = 2 ^ k - 1 := by
  induction k with
  | zero => rfl
  | succ k ih =>
    rw [List.replicate_succ, bitsVal_cons, ih, List.length_replicate, pow_succ]
    have : 0 < 2 ^ k := by positivity
    simp
    omega

theorem uintToBitarray_ones (k : Nat) : uintToBitarray ((2 ^ k - 1 : Nat) : Int) k = List.replicate k true := by
  have := uintToBitarray_bitsVal (List.replicate k true)
  rwa [bitsVal_ones, List.length_replicate] at this

theorem length_groupFlips (flips : List Bool) (groups : List (List Nat)) (s : Nat) :
    (groupFlips flips groups s).length = groups.length := by
  induction groups generalizing s with
  | nil => rfl
  | cons g gs ih => simp [groupFlips, ih]

theorem groupFlips_lt {flips : List Bool} {groups : List (List Nat)} {s j : Nat} {g : List Nat} (hg : groups[j]? = some g)
    {x : Nat} (hx : (groupFlips flips groups s)[j]? = some x) : x < 2 ^ g.length := by
  induction groups generalizing s j with
  | nil => simp at hg
  | cons g' gs ih =>
    cases j with
    | zero =>
      simp only [List.getElem?_cons_zero, Option.some.injEq] at hg
      subst hg
      simp only [groupFlips, List.getElem?_cons_zero, Option.some.injEq] at hx
      subst hx
      rw [bitarrayToUint_eq]
      refine (bitsVal_lt _).trans_le (Nat.pow_le_pow_right (by norm_num) ?_)
      simp
    | succ j =>
      rw [List.getElem?_cons_succ] at hg
      simp only [groupFlips, List.getElem?_cons_succ] at hx
      exact ih hg hx

theorem groupFlips_ones {N : Nat} {groups : List (List Nat)} {s j : Nat} {g : List Nat} (hN : s + groups.flatten.length ≤ N)
    (hg : groups[j]? = some g) : (groupFlips (List.replicate N true) groups s)[j]? = some (2 ^ g.length - 1) := by
  induction groups generalizing s j with
  | nil => simp at hg
  | cons g' gs ih =>
    rw [List.flatten_cons, List.length_append] at hN
    cases j with
    | zero =>
      simp only [List.getElem?_cons_zero, Option.some.injEq] at hg
      subst hg
      simp only [groupFlips, List.getElem?_cons_zero, Option.some.injEq]
      rw [bitarrayToUint_eq, List.drop_replicate, List.take_replicate, Nat.min_eq_left (by omega), bitsVal_ones]
    | succ j =>
      rw [List.getElem?_cons_succ] at hg
      simp only [groupFlips, List.getElem?_cons_succ]
      exact ih (by omega) hg

/-- What `gen_edit_indices` yields, whether indices are repeated or not. -/
theorem genEditIndices_any {groups : List (List Nat)} {n : Nat} {edits : List (Nat × List Nat)}
    (he : genEditIndices groups n = .ok edits) :
    (∀ e ∈ edits, e.1 < 2 ^ n ∧ ∃ i : Nat, e.2 = groupFlips (uintToBitarray (i : Int) groups.flatten.length) groups 0) ∧
      (groups ≠ [] → ∀ i : Nat, i < 2 ^ groups.flatten.length →
        ∃ e ∈ edits, e.2 = groupFlips (uintToBitarray (i : Int) groups.flatten.length) groups 0) := by
  unfold genEditIndices at he
  by_cases hg : groups = []
  · rw [if_pos hg] at he
    cases he
    exact ⟨by simp, fun h => absurd hg h⟩
  · rw [if_neg hg] at he
    simp only at he
    split at he
    · cases he
    · simp only [Except.ok.injEq] at he
      subst he
      set S := groups.flatten
      have key : ∀ (L : List Nat) (cb : List Bool) (acc : List (Nat × List Nat)), cb.length = n →
          (∀ e ∈ acc, e.1 < 2 ^ n ∧ ∃ i : Nat, e.2 = groupFlips (uintToBitarray (i : Int) S.length) groups 0) →
          (∀ e ∈ (L.foldl (fun (st : List Bool × List (Nat × List Nat)) (i : Nat) =>
              ((S.zip (uintToBitarray (i : Int) S.length)).foldl (fun cb p => cb.set p.1 p.2) st.1,
                st.2 ++ [(bitarrayToUint ((S.zip (uintToBitarray (i : Int) S.length)).foldl (fun cb p => cb.set p.1 p.2) st.1),
                  groupFlips (uintToBitarray (i : Int) S.length) groups 0)])) (cb, acc)).2,
            e.1 < 2 ^ n ∧ ∃ i : Nat, e.2 = groupFlips (uintToBitarray (i : Int) S.length) groups 0) ∧
          ∀ x, (x ∈ L ∨ ∃ e ∈ acc, e.2 = groupFlips (uintToBitarray (x : Int) S.length) groups 0) →
            ∃ e ∈ (L.foldl (fun (st : List Bool × List (Nat × List Nat)) (i : Nat) =>
              ((S.zip (uintToBitarray (i : Int) S.length)).foldl (fun cb p => cb.set p.1 p.2) st.1,
                st.2 ++ [(bitarrayToUint ((S.zip (uintToBitarray (i : Int) S.length)).foldl (fun cb p => cb.set p.1 p.2) st.1),
                  groupFlips (uintToBitarray (i : Int) S.length) groups 0)])) (cb, acc)).2,
              e.2 = groupFlips (uintToBitarray (x : Int) S.length) groups 0 := by
        intro L
        induction L with
        | nil => intro cb acc _ ha; exact ⟨ha, fun x hx => hx.resolve_left (by simp)⟩
        | cons i L ih =>
          intro cb acc hcb ha
          rw [List.foldl_cons]
          have hlen : ((S.zip (uintToBitarray (i : Int) S.length)).foldl (fun cb p => cb.set p.1 p.2) cb).length = n := by
            rw [← hcb]
            generalize S.zip (uintToBitarray (i : Int) S.length) = Z
            clear hcb
            induction Z generalizing cb with
            | nil => rfl
            | cons p Z ih => rw [List.foldl_cons, ih]; simp
          obtain ⟨k1, k2⟩ := ih _ (acc ++ [(bitarrayToUint ((S.zip (uintToBitarray (i : Int) S.length)).foldl
            (fun cb p => cb.set p.1 p.2) cb), groupFlips (uintToBitarray (i : Int) S.length) groups 0)]) hlen (by
              intro e he
              rcases List.mem_append.1 he with he | he
              · exact ha e he
              · rw [List.mem_singleton.1 he]
                refine ⟨?_, i, rfl⟩
                simp only
                rw [bitarrayToUint_eq]
                exact (bitsVal_lt _).trans_le (by rw [hlen]))
          refine ⟨k1, fun x hx => k2 x ?_⟩
          rcases hx with hx | ⟨e, he, hx⟩
          · rcases List.mem_cons.1 hx with rfl | hx
            · exact Or.inr ⟨_, List.mem_append_right _ (List.mem_singleton.2 rfl), rfl⟩
            · exact Or.inl hx
          · exact Or.inr ⟨e, List.mem_append_left _ he, hx⟩
      obtain ⟨k1, k2⟩ := key (List.range (2 ^ S.length)) (List.replicate n false) [] (by simp) (by simp)
      exact ⟨k1, fun _ i hi => k2 i (Or.inl (List.mem_range.2 hi))⟩

/-! ## Products that fail -/

theorem feedFold_fails {feeds : List InitState} {P : PyErr → Prop} (flips : List Nat) (k : Nat) (acc : ℂ)
    (hP : ∀ j x err, feedGet feeds j x = .error err → P err)
    (hbad : ∃ j x, flips[j]? = some x ∧ ∃ err, feedGet feeds (k + j) x = .error err) :
    ∃ err, ((flips.zipIdx k).foldlM (fun acc fq => do
      let a ← feedGet feeds fq.2 fq.1
      pure (acc * a)) acc : Except PyErr ℂ) = .error err ∧ P err := by
  induction flips generalizing k acc with
  | nil => obtain ⟨j, x, h, -⟩ := hbad; simp at h
  | cons y flips ih =>
    rw [List.zipIdx_cons, List.foldlM_cons]
    rcases hy : feedGet feeds k y with err | a
    · exact ⟨err, rfl, hP _ _ _ hy⟩
    · simp only [bind, Except.bind, pure, Except.pure] at ih ⊢
      refine ih (k + 1) _ ?_
      obtain ⟨j, x, hx, err, he⟩ := hbad
      cases j with
      | zero =>
        simp only [List.getElem?_cons_zero, Option.some.injEq] at hx
        subst hx
        rw [Nat.add_zero, hy] at he
        cases he
      | succ j => exact ⟨j, x, by simpa using hx, err, by rw [show k + 1 + j = k + (j + 1) by omega]; exact he⟩

theorem feedFold_congr {feeds feeds' : List InitState} (flips : List Nat) (k : Nat) (acc : ℂ)
    (h : ∀ j x, flips[j]? = some x → feedGet feeds (k + j) x = feedGet feeds' (k + j) x) :
    ((flips.zipIdx k).foldlM (fun acc fq => do
      let a ← feedGet feeds fq.2 fq.1
      pure (acc * a)) acc : Except PyErr ℂ) = (flips.zipIdx k).foldlM (fun acc fq => do
      let a ← feedGet feeds' fq.2 fq.1
      pure (acc * a)) acc := by
  induction flips generalizing k acc with
  | nil => rfl
  | cons y flips ih =>
    rw [List.zipIdx_cons, List.foldlM_cons, List.foldlM_cons]
    have h0 := h 0 y rfl
    rw [Nat.add_zero] at h0
    simp only [h0]
    rcases feedGet feeds' k y with err | a
    · rfl
    · exact ih (k + 1) _ fun j x hx => by
        have := h (j + 1) x (by simpa using hx)
        rwa [show k + (j + 1) = k + 1 + j by omega] at this

theorem feedFold_ok {feeds : List InitState} (flips : List Nat) (k : Nat) (acc : ℂ)
    (h : ∀ j x, flips[j]? = some x → ∃ a, feedGet feeds (k + j) x = .ok a) :
    ∃ v, ((flips.zipIdx k).foldlM (fun acc fq => do
      let a ← feedGet feeds fq.2 fq.1
      pure (acc * a)) acc : Except PyErr ℂ) = .ok v := by
  induction flips generalizing k acc with
  | nil => exact ⟨acc, rfl⟩
  | cons y flips ih =>
    rw [List.zipIdx_cons, List.foldlM_cons]
    obtain ⟨a, ha⟩ := h 0 y rfl
    rw [Nat.add_zero] at ha
    simp only [ha]
    exact ih (k + 1) _ fun j x hx => by
      have := h (j + 1) x (by simpa using hx)
      rwa [show k + (j + 1) = k + 1 + j by omega] at this

theorem foldlM_fails {σ ι : Type} {step : σ → ι → Except PyErr σ} {P : PyErr → Prop} (L : List ι)
    (hP : ∀ e ∈ L, ∀ st err, step st e = .error err → P err) (hbad : ∃ e ∈ L, ∀ st, ∃ err, step st e = .error err) (st : σ) :
    ∃ err, L.foldlM step st = .error err ∧ P err := by
  induction L generalizing st with
  | nil => obtain ⟨e, h, -⟩ := hbad; simp at h
  | cons e L ih =>
    rw [List.foldlM_cons]
    rcases he : step st e with err | st'
    · exact ⟨err, rfl, hP e (by simp) _ _ he⟩
    · refine ih (fun e he => hP e (by simp [he])) ?_ st'
      obtain ⟨e', h1, h2⟩ := hbad
      rcases List.mem_cons.1 h1 with rfl | h1
      · obtain ⟨err, h3⟩ := h2 st
        rw [he] at h3; cases h3
      · exact ⟨e', h1, h2⟩

theorem makeState_unfit {n : Nat} {groups : List (List Nat)} {feeds : List InitState} (hn : ∀ q ∈ groups.flatten, q < n)
    (hl : feeds.length = groups.length) {j : Nat} {g : List Nat} {f : InitState} (hg : groups[j]? = some g)
    (hf : feeds[j]? = some f) (hbad : ¬ FeedFits g.length f) (arena : List ℂ) :
    ∃ err, makeState n groups feeds 0 (2 ^ n) arena = .error err ∧
      (err = .indexError ∨ err = .typeError ∧ ∃ k, InitState.int k ∈ feeds) := by
  have hgne : groups ≠ [] := by rintro rfl; simp at hg
  have hfe : feeds ≠ [] := by rintro rfl; simp at hf
  have hP : ∀ j x err, feedGet feeds j x = .error err → err = .indexError ∨ err = .typeError ∧ ∃ k, InitState.int k ∈ feeds := by
    intro j x err he
    unfold feedGet at he
    split at he
    · cases he; exact Or.inl rfl
    · rename_i k hk
      cases he
      exact Or.inr ⟨rfl, k, List.mem_of_getElem? hk⟩
    · split at he
      · cases he; exact Or.inl rfl
      · cases he
  obtain ⟨edits, hed⟩ : ∃ edits, genEditIndices groups n = .ok edits := by
    unfold genEditIndices
    rw [if_neg hgne]
    simp only
    rw [if_neg (by rintro ⟨q, hq, hq'⟩; have := hn q hq; omega)]
    exact ⟨_, rfl⟩
  obtain ⟨k1, k2⟩ := genEditIndices_any hed
  obtain ⟨e, hem, he2⟩ := k2 hgne (2 ^ groups.flatten.length - 1) (by
    have : 0 < 2 ^ groups.flatten.length := by positivity
    omega)
  rw [uintToBitarray_ones] at he2
  have hval := groupFlips_ones (N := groups.flatten.length) (s := 0) (by omega) hg
  have hget : ∃ err, feedGet feeds j (2 ^ g.length - 1) = .error err := by
    unfold feedGet
    rw [hf]
    cases f with
    | int k => exact ⟨_, rfl⟩
    | vec amps =>
      simp only
      have : amps[2 ^ g.length - 1]? = none := by
        rw [List.getElem?_eq_none_iff]
        have h1 : ¬ 2 ^ g.length ≤ amps.length := hbad
        omega
      rw [this]
      exact ⟨_, rfl⟩
  obtain ⟨err, hfold, hperr⟩ := foldlM_fails (step := editStep feeds 0 (2 ^ n))
    (P := fun err => err = .indexError ∨ err = .typeError ∧ ∃ k, InitState.int k ∈ feeds) edits
    (by
      intro e he st err hst
      unfold editStep at hst
      split at hst
      · cases hst
      · rcases hp : feedProduct feeds e.2 with er | v
        · rw [hp] at hst
          simp only [bind, Except.bind, Except.error.injEq] at hst
          subst hst
          unfold feedProduct at hp
          by_cases hex : ∃ j x, e.2[j]? = some x ∧ ∃ err, feedGet feeds (0 + j) x = .error err
          · obtain ⟨err', h1, h2⟩ := feedFold_fails (P := fun err => err = .indexError ∨ err = .typeError ∧ ∃ k, InitState.int k ∈ feeds)
              e.2 0 1 hP hex
            rw [hp] at h1
            cases h1
            exact h2
          · exfalso
            obtain ⟨v, hv⟩ := feedFold_ok (feeds := feeds) e.2 0 1 (by
              intro j x hx
              rcases hfg : feedGet feeds (0 + j) x with er | a
              · exact absurd ⟨j, x, hx, er, hfg⟩ hex
              · exact ⟨a, rfl⟩)
            rw [hp] at hv
            cases hv
        · rw [hp] at hst
          cases hst)
    ⟨e, hem, fun st => by
      have hlt := (k1 e hem).1
      unfold editStep
      rw [if_neg (by omega)]
      obtain ⟨err, h1, -⟩ := feedFold_fails (P := fun _ => True) (feeds := feeds) e.2 0 1 (fun _ _ _ _ => trivial)
        ⟨j, 2 ^ g.length - 1, by rw [he2]; exact hval, by rw [Nat.zero_add]; exact hget⟩
      refine ⟨err, ?_⟩
      unfold feedProduct
      rw [h1]
      rfl⟩ (List.replicate (2 ^ n - 0) (0 : ℂ))
  refine ⟨err, ?_, hperr⟩
  unfold makeState
  rw [if_neg (Nat.not_lt_zero _), if_neg hfe, hed]
  simp only [bind, Except.bind, hfold]

theorem makeState_fits {n : Nat} {groups : List (List Nat)} {feeds : List InitState} (hn : ∀ q ∈ groups.flatten, q < n)
    (hl : feeds.length = groups.length)
    (hfit : ∀ (j : Nat) (g : List Nat) (f : InitState), groups[j]? = some g → feeds[j]? = some f → FeedFits g.length f)
    (arena : List ℂ) : ∃ st, makeState n groups feeds 0 (2 ^ n) arena = .ok ⟨n, st, arena⟩ ∧ st.length = 2 ^ n := by
  have h0 : (2 ^ n - 0 : Nat) ≠ 0 := by simp
  obtain ⟨edits, hed⟩ : ∃ edits, genEditIndices groups n = .ok edits := by
    unfold genEditIndices
    by_cases hg : groups = []
    · rw [if_pos hg]; exact ⟨_, rfl⟩
    · rw [if_neg hg]
      simp only
      rw [if_neg (by rintro ⟨q, hq, hq'⟩; have := hn q hq; omega)]
      exact ⟨_, rfl⟩
  obtain ⟨k1, -⟩ := genEditIndices_any hed
  have key : ∀ st : List ℂ, st.length = 2 ^ n → ∃ st', edits.foldlM (editStep feeds 0 (2 ^ n)) st = .ok st' ∧ st'.length = 2 ^ n := by
    clear hed
    induction edits with
    | nil => intro st h; exact ⟨st, rfl, h⟩
    | cons e L ih =>
      intro st hst
      obtain ⟨hlt, i, hi⟩ := k1 e (by simp)
      obtain ⟨v, hv⟩ := feedFold_ok (feeds := feeds) e.2 0 1 (by
        intro j x hx
        have hj : j < groups.length := by
          have := (List.getElem?_eq_some_iff.1 hx).1
          rwa [hi, length_groupFlips] at this
        have hxl := groupFlips_lt (List.getElem?_eq_getElem hj) (by rw [← hi]; exact hx)
        have hf := hfit j _ _ (List.getElem?_eq_getElem hj) (List.getElem?_eq_getElem (hl ▸ hj))
        rw [Nat.zero_add]
        unfold feedGet
        rw [List.getElem?_eq_getElem (hl ▸ hj)]
        revert hf
        rcases feeds[j] with amps | k
        · intro hf
          simp only
          rw [List.getElem?_eq_getElem (lt_of_lt_of_le hxl hf)]
          exact ⟨_, rfl⟩
        · intro hf
          exact absurd hf (by simp [FeedFits]))
      have hstep : editStep feeds 0 (2 ^ n) st e = .ok (st.set (e.1 - 0) v) := by
        unfold editStep feedProduct
        rw [if_neg (by omega), hv]
        rfl
      rw [List.foldlM_cons, hstep]
      exact ih (fun e he => k1 e (by simp [he])) _ (by simpa using hst)
  unfold makeState
  rw [if_neg (Nat.not_lt_zero _)]
  by_cases hf : feeds = []
  · obtain ⟨st, h1, h2⟩ := key ((List.replicate (2 ^ n - 0) (0 : ℂ)).set 0 1) (by simp)
    refine ⟨st, ?_, h2⟩
    simp only [if_pos hf, if_neg h0, hed, bind, Except.bind, h1]
  · obtain ⟨st, h1, h2⟩ := key (List.replicate (2 ^ n - 0) (0 : ℂ)) (by simp)
    refine ⟨st, ?_, h2⟩
    simp only [if_neg hf, hed, bind, Except.bind, h1]

theorem makeState_congr {n : Nat} {groups : List (List Nat)} {feeds feeds' : List InitState} (hne : feeds = [] ↔ feeds' = [])
    (h : ∀ (j : Nat) (g : List Nat), groups[j]? = some g → ∀ x < 2 ^ g.length, feedGet feeds j x = feedGet feeds' j x)
    (arena : List ℂ) : makeState n groups feeds 0 (2 ^ n) arena = makeState n groups feeds' 0 (2 ^ n) arena := by
  unfold makeState
  simp only [hne]
  rcases hed : genEditIndices groups n with err | edits
  · rfl
  · obtain ⟨k1, -⟩ := genEditIndices_any hed
    have : ∀ st, edits.foldlM (editStep feeds 0 (2 ^ n)) st = edits.foldlM (editStep feeds' 0 (2 ^ n)) st := by
      intro st
      clear hed
      induction edits generalizing st with
      | nil => rfl
      | cons e L ih =>
        rw [List.foldlM_cons, List.foldlM_cons]
        have hstep : editStep feeds 0 (2 ^ n) st e = editStep feeds' 0 (2 ^ n) st e := by
          unfold editStep feedProduct
          obtain ⟨-, i, hi⟩ := k1 e (by simp)
          rw [feedFold_congr e.2 0 1 (feeds' := feeds')]
          intro j x hx
          have hj : j < groups.length := by
            have := (List.getElem?_eq_some_iff.1 hx).1
            rwa [hi, length_groupFlips] at this
          rw [Nat.zero_add]
          exact h j groups[j] (List.getElem?_eq_getElem hj) x (groupFlips_lt (List.getElem?_eq_getElem hj) (by rw [← hi]; exact hx))
        rw [hstep]
        rcases editStep feeds' 0 (2 ^ n) st e with err | st'
        · rfl
        · exact ih (fun e he => k1 e (by simp [he])) st'
    simp only [bind, Except.bind] at this ⊢
    simp only [this]

/-! ## The state before `run_graph`, whatever is fed -/

/-- What is fed, with what the program adds for the other inputs. -/
noncomputable def withDefaults (h : Heap) (feed : List (List Nat × InitState)) (deps : List Nat) : List (List Nat × InitState) :=
  feed ++ deps.flatMap (defaultFeed h (feed.map (·.1)).flatten)

theorem mem_defaultFeed {h : Heap} {fed : List Nat} {q : Nat} {f : List Nat × InitState} (hf : f ∈ defaultFeed h fed q) :
    f.1 = [q] ∧ ∃ l, f.2 = .vec l := by
  unfold defaultFeed at hf
  split at hf
  · simp at hf
  · split at hf
    · simp at hf
    · split at hf
      · rw [List.mem_singleton.1 hf]; exact ⟨rfl, _, rfl⟩
      · simp at hf
    · rw [List.mem_singleton.1 hf]; exact ⟨rfl, _, rfl⟩
    · rw [List.mem_singleton.1 hf]; exact ⟨rfl, _, rfl⟩

theorem withDefaults_leaf {h : Heap} {args : List Nat} {feed : List (List Nat × InitState)} {deps : List Nat}
    (hmem : ∀ q ∈ (feed.map (·.1)).flatten, q ∈ leaves h args) (hdp : deps.Perm (leaves h args))
    {f : List Nat × InitState} (hf : f ∈ withDefaults h feed deps) : ∀ q ∈ f.1, q ∈ leaves h args := by
  intro q hq
  rcases List.mem_append.1 hf with h1 | h1
  · exact hmem q (List.mem_flatten.2 ⟨_, List.mem_map.2 ⟨f, h1, rfl⟩, hq⟩)
  · obtain ⟨y, hy, hfy⟩ := List.mem_flatMap.1 h1
    rw [(mem_defaultFeed hfy).1] at hq
    rw [List.mem_singleton.1 hq]
    exact hdp.mem_iff.1 hy

theorem runPre_any {h : Heap} {V : Nat → Prop} {args : List Nat} (c : Ctx h V args) {feed : List (List Nat × InitState)}
    (hmem : ∀ q ∈ (feed.map (·.1)).flatten, q ∈ leaves h args) {deps : List Nat} (hdp : deps.Perm (leaves h args))
    (arena : List ℂ) :
    runPre h args feed false none deps arena = makeState (width h args)
      ((withDefaults h feed deps).map fun f => (f.1.map (wires h args)).flatten) ((withDefaults h feed deps).map (·.2))
      0 (2 ^ width h args) arena := by
  unfold runPre
  rw [if_neg (by simp)]
  have hmap : (withDefaults h feed deps).mapM (fun f => do
      let gs ← f.1.mapM (lookup (blocks h (leaves h args) 0))
      pure gs.flatten : List Nat × InitState → Except PyErr (List Nat))
      = .ok ((withDefaults h feed deps).map fun f => (f.1.map (wires h args)).flatten) := by
    apply mapM_ok
    intro f hf
    rw [mapM_lookup (h := h) (args := args)]
    · rfl
    · intro q hq
      have hq' := withDefaults_leaf hmem hdp hf q hq
      rw [blocks_asc h _ (leaves_asc h args) 0 hq', wires_leaf ((mem_leaves c.wf c.vargs).1 hq').2, Nat.zero_add]
      rfl
  rw [show feed ++ deps.flatMap (defaultFeed h (feed.map (·.1)).flatten) = withDefaults h feed deps from rfl, hmap]
  rfl

theorem withDefaults_lt {h : Heap} {V : Nat → Prop} {args : List Nat} (c : Ctx h V args) {feed : List (List Nat × InitState)}
    (hmem : ∀ q ∈ (feed.map (·.1)).flatten, q ∈ leaves h args) {deps : List Nat} (hdp : deps.Perm (leaves h args)) :
    ∀ k ∈ ((withDefaults h feed deps).map fun f => (f.1.map (wires h args)).flatten).flatten, k < width h args := by
  intro k hk
  obtain ⟨_, hl, hk⟩ := List.mem_flatten.1 hk
  obtain ⟨f, hf, rfl⟩ := List.mem_map.1 hl
  obtain ⟨_, hl, hk⟩ := List.mem_flatten.1 hk
  obtain ⟨q, hq, rfl⟩ := List.mem_map.1 hl
  exact c.lt_width ((mem_leaves c.wf c.vargs).1 (withDefaults_leaf hmem hdp hf q hq)).1 hk

theorem group_length {h : Heap} {V : Nat → Prop} {args : List Nat} (c : Ctx h V args) {l : List Nat}
    (hl : ∀ q ∈ l, q ∈ leaves h args) : (l.map (wires h args)).flatten.length = (l.map h.n).sum := by
  rw [List.length_flatten, List.map_map]
  congr 1
  apply List.map_congr_left
  intro q hq
  exact c.len ((mem_leaves c.wf c.vargs).1 (hl q hq)).1

/-- An entry that does not fit makes the start state raise. -/
theorem runPre_unfit {h : Heap} {V : Nat → Prop} {args : List Nat} (c : Ctx h V args) {feed : List (List Nat × InitState)}
    (hmem : ∀ q ∈ (feed.map (·.1)).flatten, q ∈ leaves h args) {deps : List Nat} (hdp : deps.Perm (leaves h args))
    {f : List Nat × InitState} (hf : f ∈ withDefaults h feed deps) (hbad : ¬ FeedFits (f.1.map h.n).sum f.2) (arena : List ℂ) :
    ∃ err, runPre h args feed false none deps arena = .error err ∧
      (err = .indexError ∨ err = .typeError ∧ ∃ kv ∈ feed, ∃ k, kv.2 = .int k) := by
  obtain ⟨j, hj, rfl⟩ := List.mem_iff_getElem.1 hf
  obtain ⟨err, h1, h2⟩ := makeState_unfit (withDefaults_lt c hmem hdp) (feeds := (withDefaults h feed deps).map (·.2)) (by simp) (j := j)
    (g := ((withDefaults h feed deps)[j].1.map (wires h args)).flatten) (f := (withDefaults h feed deps)[j].2)
    (by simp [hj]) (by simp [hj])
    (by rw [group_length c (withDefaults_leaf hmem hdp hf)]; exact hbad) arena
  refine ⟨err, by rw [runPre_any c hmem hdp, h1], h2.imp_right ?_⟩
  rintro ⟨he, k, hk⟩
  refine ⟨he, ?_⟩
  obtain ⟨kv, hkv, hk⟩ := List.mem_map.1 hk
  rcases List.mem_append.1 hkv with h3 | h3
  · exact ⟨kv, h3, k, hk⟩
  · obtain ⟨y, -, hfy⟩ := List.mem_flatMap.1 h3
    obtain ⟨-, l, hl⟩ := mem_defaultFeed hfy
    rw [hl] at hk
    cases hk

/-- If all entries fit, there is a start state. -/
theorem runPre_fits {h : Heap} {V : Nat → Prop} {args : List Nat} (c : Ctx h V args) {feed : List (List Nat × InitState)}
    (hmem : ∀ q ∈ (feed.map (·.1)).flatten, q ∈ leaves h args) {deps : List Nat} (hdp : deps.Perm (leaves h args))
    (hfit : ∀ f ∈ withDefaults h feed deps, FeedFits (f.1.map h.n).sum f.2) (arena : List ℂ) :
    ∃ st, runPre h args feed false none deps arena = .ok ⟨width h args, st, arena⟩ ∧ st.length = 2 ^ width h args := by
  rw [runPre_any c hmem hdp]
  refine makeState_fits (withDefaults_lt c hmem hdp) (by simp) ?_ arena
  intro j g f hg hf
  rw [List.getElem?_map] at hg hf
  obtain ⟨kv, hkv, rfl⟩ := Option.map_eq_some_iff.1 hf
  rw [hkv] at hg
  simp only [Option.map_some, Option.some.injEq] at hg
  subst hg
  have hm := List.mem_of_getElem? hkv
  rw [group_length c (withDefaults_leaf hmem hdp hm)]
  exact hfit _ hm

theorem keys_cutFeed (h : Heap) (feed : List (List Nat × InitState)) : (cutFeed h feed).map (·.1) = feed.map (·.1) := by
  simp [cutFeed, List.map_map, Function.comp_def]

/-- Entries beyond the size of the fed qubits are not read. -/
theorem runPre_cut {h : Heap} {V : Nat → Prop} {args : List Nat} (c : Ctx h V args) {feed : List (List Nat × InitState)}
    (hmem : ∀ q ∈ (feed.map (·.1)).flatten, q ∈ leaves h args) {deps : List Nat} (hdp : deps.Perm (leaves h args))
    (arena : List ℂ) :
    runPre h args feed false none deps arena = runPre h args (cutFeed h feed) false none deps arena := by
  rw [runPre_any c hmem hdp, runPre_any c (by rw [keys_cutFeed]; exact hmem) hdp]
  have hw : withDefaults h (cutFeed h feed) deps = cutFeed h feed ++ deps.flatMap (defaultFeed h (feed.map (·.1)).flatten) := by
    rw [withDefaults, keys_cutFeed]
  have hg : ((withDefaults h (cutFeed h feed) deps).map fun f => (f.1.map (wires h args)).flatten)
      = (withDefaults h feed deps).map fun f => (f.1.map (wires h args)).flatten := by
    rw [hw, withDefaults, List.map_append, List.map_append]
    congr 1
    simp [cutFeed, List.map_map, Function.comp_def]
  rw [hg]
  apply makeState_congr
  · rw [hw, withDefaults]
    simp [cutFeed]
  · intro j g hj x hx
    have hfl : (cutFeed h feed).length = feed.length := by simp [cutFeed]
    rw [hw, withDefaults]
    unfold feedGet
    rw [List.map_append, List.map_append]
    by_cases hlt : j < feed.length
    · rw [List.getElem?_append_left (by simpa using hlt), List.getElem?_append_left (by simpa [hfl] using hlt)]
      have hgl : g.length = (feed[j].1.map h.n).sum := by
        rw [withDefaults, List.map_append, List.getElem?_append_left (by simpa using hlt), List.getElem?_map,
          List.getElem?_eq_getElem hlt] at hj
        simp only [Option.map_some, Option.some.injEq] at hj
        rw [← hj]
        exact group_length c fun q hq => hmem q (List.mem_flatten.2 ⟨_, List.mem_map.2 ⟨_, List.getElem_mem hlt, rfl⟩, hq⟩)
      have e1 : (feed.map (·.2))[j]? = some feed[j].2 := by simp [hlt]
      have e2 : ((cutFeed h feed).map (·.2))[j]? = some (cut (feed[j].1.map h.n).sum feed[j].2) := by simp [cutFeed, hlt]
      rw [e1, e2]
      rcases feed[j].2 with amps | k
      · simp only [cut]
        rw [List.getElem?_take, if_pos (by rw [← hgl]; exact hx)]
      · rfl
    · rw [List.getElem?_append_right (by simpa using hlt), List.getElem?_append_right (by simpa [hfl] using hlt)]
      simp [hfl]

end QIP
