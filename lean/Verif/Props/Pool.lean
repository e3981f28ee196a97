import Mathlib.Data.List.Sort
import Mathlib.Tactic.Linarith
import Mathlib.Tactic.Ring
import Mathlib.Tactic.NormNum
import Verif.Model.Pool

/-!
# C59, C60: drawing and placing workers
-/

namespace QIP.Props

open QIP

/-- Enough workers for `n` qubits: workers that can each hold `m` qubits are needed in number `4 ^ (n - m)` (one per
block of the operator). -/
def Enough (n : Nat) (S : List Wkr) : Prop := S ≠ [] ∧ ∀ w ∈ S, 4 ^ (n - w.nq) ≤ S.length

theorem requiredWorkers_eq (n wn : Nat) : requiredWorkers n wn = 4 ^ (n - wn) := by
  rw [requiredWorkers, pow_mul]; norm_num

theorem last_nq {un t sorted : List Wkr} (hs : sorted.Pairwise fun a b => b.nq ≤ a.nq) (hne : un ≠ [])
    (hsplit : un ++ t = sorted) (k : Nat) (hk : k < sorted.length) (hu : un.length ≤ k + 1) :
    sorted[k].nq ≤ (un.getLast hne).nq := by
  have hpos : 0 < un.length := List.length_pos_of_ne_nil hne
  subst hsplit
  rw [List.getLast_eq_getElem, ← List.getElem_append_left (as := un) (bs := t) (h' := by simp; omega)]
  rcases Nat.lt_or_ge (un.length - 1) k with h | h
  · exact List.pairwise_iff_getElem.1 hs _ _ _ hk h
  · have : un.length - 1 = k := by omega
    simp only [this, le_refl]

theorem required_mono {n a b : Nat} (h : b ≤ a) : requiredWorkers n a ≤ requiredWorkers n b := by
  rw [requiredWorkers_eq, requiredWorkers_eq]
  exact Nat.pow_le_pow_right (by norm_num) (by omega)

/-- The state of the loop: `un ++ reverse copy` is the list of all workers, largest first. -/
theorem drawLoop_spec {n : Nat} (sorted : List Wkr) (hs : sorted.Pairwise fun a b => b.nq ≤ a.nq) (un copy : List Wkr)
    (wn : Nat) (hne : un ≠ []) (hsplit : un ++ copy.reverse = sorted) (hwn : (un.getLast hne).nq = wn)
    (hmin : un.length ≤ requiredWorkers n wn) :
    (∀ un' copy' wn', drawLoop n un copy wn = .ok (un', copy', wn') → sorted.length < requiredWorkers n wn' ∨
      (∃ h : un' ≠ [], (un'.getLast h).nq = wn' ∧ un'.length = requiredWorkers n wn' ∧ un' ++ copy'.reverse = sorted)) ∧
    (∀ (k : Nat) (hk : k < sorted.length), un.length ≤ k + 1 → requiredWorkers n sorted[k].nq ≤ k + 1 →
      ∃ un' copy' wn', drawLoop n un copy wn = .ok (un', copy', wn') ∧ requiredWorkers n wn' ≤ sorted.length) := by
  induction hc : copy.length using Nat.strong_induction_on generalizing un copy wn with
  | _ c ih =>
    subst hc
    have hlen : un.length + copy.length = sorted.length := by rw [← hsplit]; simp
    have hpos : 0 < un.length := List.length_pos_of_ne_nil hne
    have hlast : ∀ (k : Nat) (hk : k < sorted.length), un.length ≤ k + 1 →
        requiredWorkers n wn ≤ requiredWorkers n sorted[k].nq := fun k hk hu =>
      required_mono (by rw [← hwn]; exact last_nq hs hne hsplit k hk hu)
    by_cases hcond : un.length < requiredWorkers n wn ∧ 0 < copy.length
    · by_cases hshort : copy.length < requiredWorkers n wn - un.length
      · have e : drawLoop n un copy wn = .error .indexError := by
          rw [drawLoop, if_pos hcond, dif_pos hshort]
        constructor
        · intro un' copy' wn' h
          rw [e] at h
          cases h
        · intro k hk huk hreq
          have := hlast k hk huk
          omega
      · set k₀ := copy.length - (requiredWorkers n wn - un.length) with hk₀
        have hne' : un ++ (copy.drop k₀).reverse ≠ [] := by simp [hne]
        have e : drawLoop n un copy wn = drawLoop n (un ++ (copy.drop k₀).reverse) (copy.take k₀)
            ((un ++ (copy.drop k₀).reverse).getLast hne').nq := by
          conv_lhs => rw [drawLoop, if_pos hcond, dif_neg hshort]
          simp only
          rw [List.getLast?_eq_some_getLast hne']
          rfl
        have hlen' : (un ++ (copy.drop k₀).reverse).length = requiredWorkers n wn := by
          simp; omega
        have hsplit' : (un ++ (copy.drop k₀).reverse) ++ (copy.take k₀).reverse = sorted := by
          rw [List.append_assoc, ← List.reverse_append, List.take_append_drop, hsplit]
        have hbound : requiredWorkers n wn - 1 < sorted.length := by omega
        have hge : ((un ++ (copy.drop k₀).reverse).getLast hne').nq ≤ wn := by
          have e2 : (un ++ (copy.drop k₀).reverse).getLast hne' = sorted[requiredWorkers n wn - 1]'hbound := by
            rw [List.getLast_eq_getElem, ← List.getElem_append_left (as := un ++ (copy.drop k₀).reverse)
              (bs := (copy.take k₀).reverse) (h' := by simp; omega)]
            simp only [hsplit', hlen']
          rw [e2]
          exact (last_nq hs hne hsplit _ hbound (by omega)).trans_eq hwn
        obtain ⟨i1, i2⟩ := ih (copy.take k₀).length (by simp; omega) (un ++ (copy.drop k₀).reverse) (copy.take k₀)
          _ hne' hsplit' rfl (by
            rw [hlen']
            exact required_mono hge) rfl
        rw [e]
        refine ⟨i1, ?_⟩
        intro k hk huk hreq
        refine i2 k hk ?_ hreq
        have := hlast k hk huk
        omega
    · have e : drawLoop n un copy wn = .ok (un, copy, wn) := by rw [drawLoop, if_neg hcond]
      constructor
      · intro un' copy' wn' h
        rw [e] at h
        injection h with h
        obtain ⟨rfl, rfl, rfl⟩ : un = un' ∧ copy = copy' ∧ wn = wn' := by simpa using h
        by_cases hlt : un.length < requiredWorkers n wn
        · left; omega
        · right; exact ⟨hne, hwn, by omega, hsplit⟩
      · intro k hk huk hreq
        refine ⟨un, copy, wn, e, ?_⟩
        have := hlast k hk huk
        omega

theorem sorted_desc (workers : List Wkr) :
    ((workers.mergeSort fun a b => decide (a.nq ≤ b.nq)).reverse).Pairwise fun a b => b.nq ≤ a.nq := by
  rw [List.pairwise_reverse]
  have := List.pairwise_mergeSort (le := fun (a b : Wkr) => decide (a.nq ≤ b.nq))
    (by intro a b c; simp; omega) (by intro a b; simp; omega) workers
  simpa using this

/-- `drawWorkers` in terms of the workers sorted by decreasing size. -/
theorem drawWorkers_eq (n : Nat) {workers : List Wkr} (hw : workers ≠ []) :
    ∃ (w : Wkr) (copy : List Wkr), [w] ++ copy.reverse = (workers.mergeSort fun a b => decide (a.nq ≤ b.nq)).reverse ∧
      drawWorkers n workers = (do
        let (un, rest, wn) ← drawLoop n [w] copy w.nq
        if workers.length < requiredWorkers n wn then .error .valueError
        else .ok (un, rest, wn)) := by
  have hne : (workers.mergeSort fun a b => decide (a.nq ≤ b.nq)) ≠ [] := by
    intro h
    have := congrArg List.length h
    simp at this
    exact hw this
  refine ⟨(workers.mergeSort fun a b => decide (a.nq ≤ b.nq)).getLast hne,
    (workers.mergeSort fun a b => decide (a.nq ≤ b.nq)).dropLast, ?_, ?_⟩
  · rw [← List.reverse_singleton, ← List.reverse_append, List.dropLast_append_getLast]
  · rw [drawWorkers]
    simp only
    rw [List.getLast?_eq_some_getLast hne]

/-- C59: workers are drawn exactly if enough of them are free. -/
theorem C59_draw_iff (n : Nat) (workers : List Wkr) :
    (∃ r, drawWorkers n workers = .ok r) ↔ ∃ S, List.Subperm S workers ∧ Enough n S := by
  by_cases hw : workers = []
  · subst hw
    constructor
    · rintro ⟨r, h⟩
      simp [drawWorkers] at h
    · rintro ⟨S, h1, h2, _⟩
      exact absurd (List.subperm_nil.1 h1) h2
  obtain ⟨w, copy, hsplit, he⟩ := drawWorkers_eq n hw
  have hs := sorted_desc workers
  have hperm : ((workers.mergeSort fun a b => decide (a.nq ≤ b.nq)).reverse).Perm workers :=
    (List.reverse_perm _).trans (List.mergeSort_perm _ _)
  generalize ((workers.mergeSort fun a b => decide (a.nq ≤ b.nq)).reverse) = sorted at hs hperm hsplit
  obtain ⟨h1, h2⟩ := drawLoop_spec (n := n) sorted hs [w] copy w.nq (by simp) hsplit rfl (by
    rw [requiredWorkers_eq]; exact Nat.one_le_pow _ _ (by norm_num))
  rw [he]
  constructor
  · rintro ⟨⟨un, rest, wn⟩, h⟩
    rcases hd : drawLoop n [w] copy w.nq with e | ⟨un', rest', wn'⟩
    · rw [hd] at h; cases h
    · rw [hd] at h
      simp only [bind, Except.bind] at h
      split at h
      · cases h
      · rename_i hlt
        rcases h1 _ _ _ hd with h' | ⟨hne, hl, hlen, hsp⟩
        · rw [hperm.length_eq] at h'; omega
        · refine ⟨un', ?_, hne, ?_⟩
          · exact (List.Sublist.subperm (hsp ▸ List.sublist_append_left _ _)).trans hperm.subperm
          · intro x hx
            rw [hlen, ← requiredWorkers_eq]
            apply required_mono
            rw [← hl]
            obtain ⟨i, hi, rfl⟩ := List.getElem_of_mem hx
            have hsub : un'.Pairwise fun a b => b.nq ≤ a.nq := by
              rw [← hsp] at hs
              exact (List.pairwise_append.1 hs).1
            rw [List.getLast_eq_getElem]
            rcases Nat.lt_or_ge i (un'.length - 1) with h | h
            · exact List.pairwise_iff_getElem.1 hsub _ _ hi _ h
            · have : i = un'.length - 1 := by omega
              simp only [this, le_refl]
  · rintro ⟨S, hS, hne, hen⟩
    have hlen : S.length ≤ sorted.length := by rw [hperm.length_eq]; exact hS.length_le
    have hpos : 0 < S.length := List.length_pos_of_ne_nil hne
    -- some member of `S` is no larger than the `S.length`-th largest worker
    have hex : ∃ x ∈ S, x.nq ≤ (sorted[S.length - 1]'(by omega)).nq := by
      by_contra hcon
      push Not at hcon
      have hS' : S.Subperm sorted := hS.trans hperm.symm.subperm
      set p : Wkr → Bool := fun x => decide ((sorted[S.length - 1]'(by omega)).nq < x.nq) with hp
      have hc1 : S.countP p = S.length := List.countP_eq_length.2 (by
        intro x hx
        simp only [hp, decide_eq_true_eq]
        exact hcon x hx)
      have hc2 : sorted.countP p ≤ S.length - 1 := by
        have e : sorted = sorted.take (S.length - 1) ++ sorted.drop (S.length - 1) := (List.take_append_drop _ _).symm
        rw [e, List.countP_append]
        have hz : (sorted.drop (S.length - 1)).countP p = 0 := by
          rw [List.countP_eq_zero]
          intro x hx
          simp only [hp, decide_eq_true_eq, not_lt]
          obtain ⟨i, hi, rfl⟩ := List.getElem_of_mem hx
          rw [List.getElem_drop]
          simp only [List.length_drop] at hi
          rcases Nat.eq_zero_or_pos i with h0 | h0
          · subst h0; simp
          · exact List.pairwise_iff_getElem.1 hs _ _ _ _ (by omega)
        rw [hz, Nat.add_zero]
        exact (List.countP_le_length).trans (by simp)
      have := hS'.countP_le p
      omega
    obtain ⟨x, hx, hxle⟩ := hex
    obtain ⟨un, rest, wn, hd, hreq⟩ := h2 (S.length - 1) (by omega) (by simp) (by
      have h3 := hen x hx
      rw [← requiredWorkers_eq] at h3
      have := required_mono (n := n) hxle
      omega)
    refine ⟨(un, rest, wn), ?_⟩
    rw [hd]
    simp only [bind, Except.bind]
    rw [if_neg (by rw [← hperm.length_eq]; omega)]

/-- C59: exactly the needed number of workers is drawn, all of them large enough, and no worker is lost or copied. -/
theorem C59_drawn {n : Nat} {workers un rest : List Wkr} {wn : Nat} (h : drawWorkers n workers = .ok (un, rest, wn)) :
    (un ++ rest).Perm workers ∧ un.length = 4 ^ (n - wn) ∧ (∃ w ∈ un, w.nq = wn) ∧ (∀ w ∈ un, wn ≤ w.nq) := by
  by_cases hw : workers = []
  · subst hw
    simp [drawWorkers] at h
  obtain ⟨w, copy, hsplit, he⟩ := drawWorkers_eq n hw
  have hs := sorted_desc workers
  have hperm : ((workers.mergeSort fun a b => decide (a.nq ≤ b.nq)).reverse).Perm workers :=
    (List.reverse_perm _).trans (List.mergeSort_perm _ _)
  generalize ((workers.mergeSort fun a b => decide (a.nq ≤ b.nq)).reverse) = sorted at hs hperm hsplit
  obtain ⟨h1, -⟩ := drawLoop_spec (n := n) sorted hs [w] copy w.nq (by simp) hsplit rfl (by
    rw [requiredWorkers_eq]; exact Nat.one_le_pow _ _ (by norm_num))
  rw [he] at h
  rcases hd : drawLoop n [w] copy w.nq with e | ⟨un', rest', wn'⟩
  · rw [hd] at h; cases h
  rw [hd] at h
  simp only [bind, Except.bind] at h
  split at h
  · cases h
  rename_i hlt
  injection h with h
  obtain ⟨rfl, rfl, rfl⟩ : un' = un ∧ rest' = rest ∧ wn' = wn := by simpa using h
  rcases h1 _ _ _ hd with h' | ⟨hne, hl, hlen, hsp⟩
  · rw [hperm.length_eq] at h'; omega
  refine ⟨?_, by rw [hlen, requiredWorkers_eq], ⟨_, List.getLast_mem hne, hl⟩, ?_⟩
  · refine List.Perm.trans ?_ hperm
    rw [← hsp]
    exact (List.Perm.refl _).append (List.reverse_perm _).symm
  · intro x hx
    rw [← hl]
    obtain ⟨i, hi, rfl⟩ := List.getElem_of_mem hx
    have hsub : un'.Pairwise fun a b => b.nq ≤ a.nq := by
      rw [← hsp] at hs
      exact (List.pairwise_append.1 hs).1
    rw [List.getLast_eq_getElem]
    rcases Nat.lt_or_ge i (un'.length - 1) with h | h
    · exact List.pairwise_iff_getElem.1 hsub _ _ hi _ h
    · have : i = un'.length - 1 := by omega
      simp only [this, le_refl]

-- four workers of 2 qubits serve 3 qubits; with three of them, or one large and two small ones, drawing fails
example : Enough 3 [⟨0, 2⟩, ⟨1, 2⟩, ⟨2, 2⟩, ⟨3, 5⟩] := ⟨by simp, by simp⟩
example : ∃ r, drawWorkers 3 [⟨0, 2⟩, ⟨1, 2⟩, ⟨4, 1⟩, ⟨2, 2⟩, ⟨3, 2⟩] = .ok r :=
  (C59_draw_iff _ _).2 ⟨[⟨0, 2⟩, ⟨1, 2⟩, ⟨2, 2⟩, ⟨3, 2⟩], by
    refine List.Sublist.subperm ?_
    decide, by simp, by simp⟩
example : ¬ ∃ S, List.Subperm S [⟨0, 2⟩, ⟨1, 2⟩] ∧ Enough 3 S := by
  rintro ⟨S, hS, hne, h⟩
  obtain ⟨x, hx⟩ := List.exists_mem_of_ne_nil _ hne
  have h1 := h x hx
  have h2 : x.nq = 2 := by
    have := hS.subset hx
    simp at this
    rcases this with rfl | rfl <;> rfl
  have h3 := hS.length_le
  rw [h2] at h1
  simp at h1 h3
  omega

/-! ## C60 -/

theorem workerRanges_eq (n wn : Nat) :
    workerRanges n wn = (List.range (2 ^ (n - wn))).map fun i => (i * 2 ^ min wn n, (i + 1) * 2 ^ min wn n) := by
  have e : n - min wn n = n - wn := by omega
  rw [workerRanges]
  simp only [e]
  apply List.ext_getElem
  · simp
  · intro i h1 h2
    simp [Nat.shiftLeft_eq]

theorem allocate_fold (un : List Wkr) (pairs : List (Range × Range)) (acc : List Placed)
    (hl : pairs.length ≤ un.length) :
    ∃ placed : List Placed, pairs.foldlM allocStep (un, acc)
        = .ok (un.take (un.length - pairs.length), acc ++ placed) ∧
      placed.map (fun p => (p.inp, p.out)) = pairs ∧
      placed.map Placed.worker = (un.drop (un.length - pairs.length)).reverse := by
  induction pairs generalizing un acc with
  | nil => exact ⟨[], by simp; rfl, rfl, by simp⟩
  | cons io pairs ih =>
    have hne : un ≠ [] := by rintro rfl; simp at hl
    simp only [List.length_cons] at hl
    obtain ⟨placed, h1, h2, h3⟩ := ih un.dropLast (acc ++ [⟨io.1, io.2, un.getLast hne⟩]) (by simp; omega)
    refine ⟨⟨io.1, io.2, un.getLast hne⟩ :: placed, ?_, by simp [h2], ?_⟩
    · rw [List.foldlM_cons]
      rw [show allocStep (un, acc) io = .ok (un.dropLast, acc ++ [⟨io.1, io.2, un.getLast hne⟩]) by
        rw [allocStep]; simp only [List.getLast?_eq_some_getLast hne]]
      simp only [bind, Except.bind]
      rw [h1]
      simp only [List.length_dropLast, List.append_assoc, List.singleton_append, List.length_cons, Except.ok.injEq,
        Prod.mk.injEq, and_true]
      rw [List.dropLast_eq_take, List.take_take]
      congr 1
      omega
    · rw [List.map_cons, h3]
      have e : un = un.dropLast ++ [un.getLast hne] := (List.dropLast_append_getLast hne).symm
      have e2 : un.length - (io :: pairs).length = un.dropLast.length - pairs.length := by simp; omega
      rw [e2]
      conv_rhs => enter [1, 2]; rw [e]
      rw [List.drop_append_of_le_length (by omega), List.reverse_append]
      simp

/-- How many ranges contain `c`. -/
theorem ranges_cover (N k c : Nat) (hc : c < N * 2 ^ k) :
    ((List.range N).map fun i => (i * 2 ^ k, (i + 1) * 2 ^ k)).countP (fun r => decide (r.1 ≤ c ∧ c < r.2)) = 1 := by
  rw [List.countP_map]
  have hp : 0 < 2 ^ k := by positivity
  have e : ∀ i, (decide (i * 2 ^ k ≤ c ∧ c < (i + 1) * 2 ^ k)) = (i == c / 2 ^ k) := by
    intro i
    rw [Bool.eq_iff_iff]
    simp only [decide_eq_true_eq, beq_iff_eq]
    constructor
    · rintro ⟨h1, h2⟩
      exact (Nat.div_eq_of_lt_le h1 h2).symm
    · rintro rfl
      exact ⟨Nat.div_mul_le_self c _, Nat.lt_mul_of_div_lt (Nat.lt_succ_self _) hp⟩
  have : ((fun r : Nat × Nat => decide (r.1 ≤ c ∧ c < r.2)) ∘ fun i => (i * 2 ^ k, (i + 1) * 2 ^ k))
      = fun i => i == c / 2 ^ k := by
    funext i
    exact e i
  rw [this]
  have hlt : c / 2 ^ k < N := Nat.div_lt_of_lt_mul (by rwa [Nat.mul_comm])
  change (List.range N).count (c / 2 ^ k) = 1
  exact List.count_eq_one_of_mem List.nodup_range (List.mem_range.2 hlt)

theorem countP_pairs {α : Type} (l l' : List α) (p q : α → Bool) :
    (l.flatMap fun i => l'.map fun o => (i, o)).countP (fun io => p io.1 && q io.2) = l.countP p * l'.countP q := by
  induction l with
  | nil => simp
  | cons a l ih =>
    rw [List.flatMap_cons, List.countP_append, ih, List.countP_cons, List.countP_map]
    have : ((fun io : α × α => p io.1 && q io.2) ∘ fun o => (a, o)) = fun o => p a && q o := rfl
    rw [this]
    cases h : p a
    · simp
    · simp; ring

/-- C60: the drawn workers tile the operator: square blocks that fit every worker, every entry in exactly one block,
exactly one diagonal worker for every basis index, every drawn worker used once. -/
theorem C60_tiles {n : Nat} {workers un rest : List Wkr} {wn : Nat} (h : drawWorkers n workers = .ok (un, rest, wn)) :
    ∃ placed, allocateWorkers n wn un = .ok placed ∧ (placed.map Placed.worker).Perm un ∧
      (∀ p ∈ placed, ∃ m, m ≤ n ∧ m ≤ p.worker.nq ∧ p.inp.2 = p.inp.1 + 2 ^ m ∧ p.out.2 = p.out.1 + 2 ^ m ∧
        p.inp.2 ≤ 2 ^ n ∧ p.out.2 ≤ 2 ^ n) ∧
      (∀ row < 2 ^ n, ∀ col < 2 ^ n, placed.countP (fun p =>
        decide (p.inp.1 ≤ col ∧ col < p.inp.2) && decide (p.out.1 ≤ row ∧ row < p.out.2)) = 1) ∧
      (∀ c < 2 ^ n, placed.countP (fun p => decide (p.inp.1 ≤ c ∧ c < p.inp.2) && decide (p.inp = p.out)) = 1) := by
  obtain ⟨-, hlen, -, hmin⟩ := C59_drawn h
  have hN : 2 ^ (n - wn) * 2 ^ min wn n = 2 ^ n := by rw [← pow_add]; congr 1; omega
  set pairs := (workerRanges n wn).flatMap fun i => (workerRanges n wn).map fun o => (i, o) with hpairs
  have hpl : pairs.length = un.length := by
    rw [hpairs, List.length_flatMap, hlen, workerRanges_eq]
    simp only [List.length_map, List.length_range, List.map_const', List.map_map, Function.comp_def]
    rw [show (4 : Nat) = 2 * 2 by norm_num, Nat.mul_pow]
    simp
  obtain ⟨placed, h1, h2, h3⟩ := allocate_fold un pairs [] (by omega)
  have hcount : ∀ q : Range × Range → Bool, placed.countP (fun p => q (p.inp, p.out)) = pairs.countP q := by
    intro q
    rw [← h2, List.countP_map]
    rfl
  refine ⟨placed, ?_, ?_, ?_, ?_, ?_⟩
  · rw [allocateWorkers]
    simp only [← hpairs, h1, bind, Except.bind, List.nil_append]
    rw [if_pos (by simp; omega)]
  · rw [h3, show un.length - pairs.length = 0 by omega, List.drop_zero]
    exact List.reverse_perm _
  · intro p hp
    have hm : (p.inp, p.out) ∈ pairs := by
      rw [← h2]
      exact List.mem_map.2 ⟨p, hp, rfl⟩
    have hw : p.worker ∈ un := by
      have : p.worker ∈ placed.map Placed.worker := List.mem_map_of_mem hp
      rw [h3] at this
      exact List.mem_of_mem_drop (List.mem_reverse.1 this)
    simp only [hpairs, workerRanges_eq, List.mem_flatMap, List.mem_map, List.mem_range, Prod.mk.injEq] at hm
    obtain ⟨a, ⟨i, hi, ea⟩, b, ⟨j, hj, eb⟩, e1, e2⟩ := hm
    refine ⟨min wn n, Nat.min_le_right _ _, (Nat.min_le_left _ _).trans (hmin _ hw), ?_, ?_, ?_, ?_⟩
    · rw [← e1, ← ea]; simp only; ring
    · rw [← e2, ← eb]; simp only; ring
    · rw [← e1, ← ea, ← hN]; exact Nat.mul_le_mul_right _ hi
    · rw [← e2, ← eb, ← hN]; exact Nat.mul_le_mul_right _ hj
  · intro row hrow col hcol
    have := hcount fun io => decide (io.1.1 ≤ col ∧ col < io.1.2) && decide (io.2.1 ≤ row ∧ row < io.2.2)
    simp only at this
    rw [this, hpairs, countP_pairs _ _ (fun r : Range => decide (r.1 ≤ col ∧ col < r.2))
      (fun r : Range => decide (r.1 ≤ row ∧ row < r.2)), workerRanges_eq,
      ranges_cover _ _ _ (by rw [hN]; exact hcol), ranges_cover _ _ _ (by rw [hN]; exact hrow)]
  · intro c hc
    have := hcount fun io => decide (io.1.1 ≤ c ∧ c < io.1.2) && decide (io.1 = io.2)
    simp only at this
    rw [this, hpairs]
    have hnd : (workerRanges n wn).Nodup := by
      rw [workerRanges_eq]
      refine List.nodup_range.map ?_
      intro i j hij
      simp only [Prod.mk.injEq] at hij
      exact Nat.eq_of_mul_eq_mul_right (by positivity) hij.1
    have hcov := ranges_cover (2 ^ (n - wn)) (min wn n) c (by rw [hN]; exact hc)
    rw [← workerRanges_eq] at hcov
    rw [← hcov]
    have key : ∀ l : List Range, (∀ x ∈ l, x ∈ workerRanges n wn) →
        (l.flatMap fun i => (workerRanges n wn).map fun o => (i, o)).countP
          (fun io => decide (io.1.1 ≤ c ∧ c < io.1.2) && decide (io.1 = io.2))
        = l.countP (fun r => decide (r.1 ≤ c ∧ c < r.2)) := by
      intro l
      induction l with
      | nil => simp
      | cons a l ih =>
        intro hl
        rw [List.flatMap_cons, List.countP_append, ih (fun x hx => hl x (by simp [hx])), List.countP_cons,
          List.countP_map]
        have hone : (workerRanges n wn).countP (fun o => decide (a = o)) = 1 := by
          have e : (fun o => decide (a = o)) = fun o => o == a := by
            funext o
            rw [Bool.eq_iff_iff]
            simp only [decide_eq_true_eq, beq_iff_eq]
            exact eq_comm
          rw [e]
          exact List.count_eq_one_of_mem hnd (hl a (by simp))
        have e : ((fun io : Range × Range => decide (io.1.1 ≤ c ∧ c < io.1.2) && decide (io.1 = io.2)) ∘ fun o => (a, o))
            = fun o => decide (a.1 ≤ c ∧ c < a.2) && decide (a = o) := rfl
        rw [e]
        by_cases hca : a.1 ≤ c ∧ c < a.2
        · simp only [hca, and_self, decide_true, Bool.true_and, hone, if_true]
          omega
        · simp only [hca, decide_false, Bool.false_and, List.countP_false]
          simp
    exact key _ fun _ hx => hx

-- four workers of one qubit for two qubits
example : ∃ un rest wn, drawWorkers 2 [⟨0, 1⟩, ⟨1, 1⟩, ⟨2, 1⟩, ⟨3, 1⟩, ⟨4, 0⟩] = .ok (un, rest, wn) := by
  obtain ⟨⟨un, rest, wn⟩, h⟩ := (C59_draw_iff 2 [⟨0, 1⟩, ⟨1, 1⟩, ⟨2, 1⟩, ⟨3, 1⟩, ⟨4, 0⟩]).2
    ⟨[⟨0, 1⟩, ⟨1, 1⟩, ⟨2, 1⟩, ⟨3, 1⟩], List.Sublist.subperm (by decide), by simp, by simp⟩
  exact ⟨un, rest, wn, h⟩
example : allocateWorkers 2 1 [⟨0, 1⟩, ⟨1, 1⟩, ⟨2, 1⟩, ⟨3, 1⟩] = .ok [⟨(0, 2), (0, 2), ⟨3, 1⟩⟩,
    ⟨(0, 2), (2, 4), ⟨2, 1⟩⟩, ⟨(2, 4), (0, 2), ⟨1, 1⟩⟩, ⟨(2, 4), (2, 4), ⟨0, 1⟩⟩] := by decide

end QIP.Props
