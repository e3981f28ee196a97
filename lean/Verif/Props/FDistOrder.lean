import Verif.Lemmas.FDist
import Verif.Props.FMeasure

/-!
# The order of the connections shows in the last bits: C113
-/

namespace QIP.Props

open QIP Spec Finset

namespace C113

/-- Double precision with the operations in the order of the source. -/
noncomputable abbrev dbl : Arith := binary64 (inOrder64 round53 (fl_zero_of round53_err))

/-- `N / 2 ^ 55`. -/
noncomputable def num (N : Nat) : FC dbl := ⟨⟨(N : ℝ) / 2 ^ 55, 0⟩⟩

theorem round53_zero : round53 0 = 0 := fl_zero_of round53_err

theorem num_add (a b : Nat) : num a + num b = num (roundNat (a + b)) := by
  have h := round53_nat (a + b) 55
  push_cast at h
  apply FC.ext
  change addWith round53 (num a).val (num b).val = (num _).val
  apply Complex.ext
  · simp only [addWith, num]
    rw [← add_div, h]
  · simp [addWith, num, round53_zero]

theorem one_mul_num (b : Nat) : mulWith round53 1 (num b).val = (num (roundNat (roundNat b))).val := by
  have h := round53_nat b 55
  have h' := round53_nat (roundNat b) 55
  apply Complex.ext
  · simp [mulWith, num, round53_zero, h, h']
  · simp [mulWith, num, round53_zero]

theorem dot_num {b : Nat} (hb : roundNat b = b) (run row : Nat) : dbl.dot run row [((1 : FC dbl).val, (num b).val)] = (num b).val := by
  change addWith round53 0 (mulWith round53 1 (num b).val) = _
  rw [one_mul_num, hb, hb]
  have h0 : (num 0).val = 0 := by
    apply Complex.ext <;> simp [num]
  have := congrArg FC.val (num_add 0 b)
  change addWith round53 (num 0).val (num b).val = _ at this
  rw [h0, Nat.zero_add, hb] at this
  exact this

theorem one_mul_one : (1 : FC dbl) * 1 = 1 := by
  have h1 : (1 : FC dbl) = num (2 ^ 55) := by
    apply FC.ext
    change (1 : ℂ) = _
    apply Complex.ext <;> norm_num [num]
  apply FC.ext
  have := one_mul_num (2 ^ 55)
  rw [← h1] at this
  change mulWith round53 1 (1 : FC dbl).val = _
  rw [this, h1]
  rfl

/-- The matrix of a user: every entry is 1. -/
noncomputable def ones : Mat (FC dbl) := .dense 4 4 (List.replicate 16 1)

noncomputable def tiny4 : List (FC dbl) := [num (2 ^ 55), num 3, num 3, num 0]

theorem ones_entry {r c : Nat} (hr : r < 4) (hc : c < 4) : ones.calcEntry r c = .ok 1 := by
  unfold ones
  interval_cases r <;> interval_cases c <;> rfl

theorem product_one {row col : Nat} : cEntryProduct 2 row col [([0, 1], ones)] (1 : FC dbl) = .ok 1 := by
  have h1 : (1 : FC dbl) ≠ 0 := by
    intro h
    have : (1 : ℂ) = 0 := congrArg FC.val h
    exact one_ne_zero this
  rw [cEntryProduct, cSubIndex_eq, cSubIndex_eq, ones_entry (subIndex_lt 2 [0, 1] row) (subIndex_lt 2 [0, 1] col)]
  simp only [bind, Except.bind, one_mul_one, if_neg h1, cEntryProduct]

theorem row_one {row i : Nat} (hrow : row < 4) (hi : i < 4) (run : Nat) :
    cdotRowF run (normed [(.tup [0, 1], ones)]) (rangeOf 1 tiny4 i) 2 (i * 1) row = .ok (tiny4.getD i 0) := by
  have hS : sortedSet [0, 1] = [0, 1] := by
    have : [0, 1].dedup = [0, 1] := rfl
    rw [sortedSet, this]
    exact List.mergeSort_of_pairwise (by simp)
  have hcols : ∀ row < 4, ((List.range (2 ^ [0, 1].length)).map fun i => spread 2 [0, 1] row i) = [0, 1, 2, 3] := by decide
  have hterms := slice_terms (A := dbl) (n := 2) (S := [0, 1]) (K := 4) (size := 1) (v := tiny4) (by norm_num) rfl hi (row := row)
    (p := fun _ => 1) fun c => product_one
  have hflat : (normed [(Key.tup [0, 1], ones)]).flatMap (fun x => x.1) = [0, 1] := rfl
  unfold cdotRowF rowTerms
  rw [hflat, hS, cdotCols_eq _ 2 row (by decide) (by decide) hrow]
  have hn : normed [(Key.tup [0, 1], ones)] = [([0, 1], ones)] := rfl
  rw [hn]
  rw [hterms, hcols row hrow]
  have hd : ∀ b, roundNat b = b → dbl.dot run row [((1 : FC dbl).val, (num b).val)] = (num b).val := fun b hb => dot_num hb run row
  interval_cases i
  · exact congrArg Except.ok (FC.ext (hd (2 ^ 55) rfl))
  · exact congrArg Except.ok (FC.ext (hd 3 rfl))
  · exact congrArg Except.ok (FC.ext (hd 3 rfl))
  · exact congrArg Except.ok (FC.ext (hd 0 rfl))

end C113

open C113 in
/-- C113 needs the error bound: the order in which the other workers have connected to a worker, which depends on the timing of
the network, decides the last bits of its amplitudes.  Four workers, a matrix given by the user
on two qubits, two orders in which worker 1 adds what
the others send. -/
theorem C113_order_false : ∃ (v : List (FC dbl)) (mats : List (Key × Mat (FC dbl))) (order order' : Nat → List Nat) (w w' : List (FC dbl)),
    (∀ j < 4, (j :: order j).Perm (List.range 4)) ∧ (∀ j < 4, (j :: order' j).Perm (List.range 4)) ∧
    (∀ j ≠ 1, order j = order' j) ∧
    distKronF (fun _ _ => 0) mats 2 4 1 v (fun _ _ => [0]) (fun _ _ => [0]) order = .ok w ∧
    distKronF (fun _ _ => 0) mats 2 4 1 v (fun _ _ => [0]) (fun _ _ => [0]) order' = .ok w' ∧
    (w.getD 1 0).val = 1 + 2 ^ (-52 : ℤ) ∧ (w'.getD 1 0).val = 1 := by
  have key : ∀ order : Nat → List Nat, (∀ j < 4, (j :: order j).Perm (List.range 4)) →
      ∃ w, distKronF (fun _ _ => 0) [(.tup [0, 1], ones)] 2 4 1 tiny4 (fun _ _ => [0]) (fun _ _ => [0]) order = .ok w ∧
        ∃ s : Nat → FC dbl, (∀ i < 4, s i = tiny4.getD i 0) ∧ w.getD 1 0 = (order 1).foldl (fun x i => x + s i) (s 1) := by
    intro order ho
    have hnear : Spec.Near (A := dbl) 0 1 (1 : ℂ) := by
      have : ((1 : FC dbl).val : ℂ) = 1 := rfl
      simp [Spec.Near, this]
    obtain ⟨w, h1, -, h3⟩ := dist_rows (t := 0) (K := 4) (size := 1) (n := 2) (fun _ _ => 0) (mats := [(.tup [0, 1], ones)])
      (mats' := [(.tup [0, 1], .dense 4 4 (List.replicate 16 1))])
      (.cons ⟨rfl, rfl, rfl, by
        simp only [List.replicate]
        repeat' first | exact .nil | refine .cons hnear ?_⟩ .nil) (by norm_num) (by norm_num) (v := tiny4) rfl (arena := fun _ _ => [0])
      (fun _ _ => rfl) (sched := fun _ _ => [0]) (fun _ _ => .refl _) ho (by simp) (by simp [Mat.shape, Key.qubits])
      (by simp [Key.qubits]) (by simp) (by simp) (Q := fun _ i s => s = tiny4.getD i 0)
      (fun row hr i hi run => ⟨_, row_one hr hi run, rfl⟩)
    obtain ⟨-, s, hs, h⟩ := h3 1 (by norm_num)
    exact ⟨w, h1, s, hs, h⟩
  have hperm : ∀ l : List Nat, l.Perm [2, 0, 3] → ∀ j < 4, (j :: (if j = 1 then l else (List.range 4).erase j)).Perm (List.range 4) := by
    intro l hl j hj
    split
    · next h =>
      subst h
      exact (hl.cons 1).trans (by decide)
    · exact (List.perm_cons_erase (List.mem_range.mpr hj)).symm
  have ho := hperm [2, 0, 3] (.refl _)
  have ho' := hperm [0, 2, 3] (by decide)
  obtain ⟨w, h1, s, hs, hw⟩ := key _ ho
  obtain ⟨w', h1', s', hs', hw'⟩ := key _ ho'
  refine ⟨tiny4, _, _, _, w, w', ho, ho', fun j hj => by simp [hj], h1, h1', ?_, ?_⟩
  · rw [hw]
    simp only [if_true, List.foldl_cons, List.foldl_nil, hs 0 (by norm_num), hs 1 (by norm_num), hs 2 (by norm_num), hs 3 (by norm_num)]
    change (num 3 + num 3 + num (2 ^ 55) + num 0).val = _
    rw [num_add, num_add, num_add]
    have : roundNat (roundNat (roundNat (3 + 3) + 2 ^ 55) + 0) = 2 ^ 55 + 8 := rfl
    rw [this]
    apply Complex.ext <;> norm_num [num]
  · rw [hw']
    simp only [if_true, List.foldl_cons, List.foldl_nil, hs' 0 (by norm_num), hs' 1 (by norm_num), hs' 2 (by norm_num), hs' 3 (by norm_num)]
    change (num 3 + num (2 ^ 55) + num 3 + num 0).val = _
    rw [num_add, num_add, num_add]
    have : roundNat (roundNat (roundNat (3 + 2 ^ 55) + 3) + 0) = 2 ^ 55 := rfl
    rw [this]
    apply Complex.ext <;> norm_num [num]

end QIP.Props
