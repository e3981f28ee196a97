import Mathlib.Algebra.BigOperators.Group.List.Basic
import Mathlib.Data.List.Nodup
import Mathlib.Tactic.Linarith
import Verif.Model.Top
import Verif.Spec.Top
import Verif.Lemmas.Fold

/-!
# C68: aggregation of the workers' top-k reports
-/

namespace QIP.Props

open QIP QIP.Spec

/-- Remaining report after taking outcome `m`. -/
noncomputable def dropM (m : Nat) (r : Report) : Report :=
  match r with
  | (i, q) :: t => if i = m then t else (i, q) :: t
  | [] => []

noncomputable def probM (m : Nat) (r : Report) : ℝ := ((r.filter fun e => e.1 = m).map Prod.snd).sum

/-- Increasing outcomes. -/
def Inc (r : Report) : Prop := r.Pairwise fun a b => a.1 < b.1

theorem reports_cons {i : Nat} {q : ℝ} {t : Report} {j : Nat} : Reports ((i, q) :: t) j ↔ j = i ∨ Reports t j := by
  unfold Reports
  constructor
  · rintro ⟨p, hp⟩
    rcases List.mem_cons.1 hp with h | h
    · left; exact (Prod.ext_iff.1 h).1
    · right; exact ⟨p, h⟩
  · rintro (rfl | ⟨p, hp⟩)
    · exact ⟨q, by simp⟩
    · exact ⟨p, by simp [hp]⟩

theorem not_reports_nil {j : Nat} : ¬ Reports [] j := by
  rintro ⟨p, hp⟩; cases hp

theorem inc_tail_gt {i : Nat} {q : ℝ} {t : Report} (h : Inc ((i, q) :: t)) {j : Nat} (hj : Reports t j) : i < j := by
  obtain ⟨p, hp⟩ := hj
  exact (List.pairwise_cons.1 h).1 _ hp

theorem probM_of_not {m : Nat} {r : Report} (h : ¬ Reports r m) : probM m r = 0 := by
  unfold probM
  rw [List.filter_eq_nil_iff.2]
  · rfl
  · rintro ⟨i, q⟩ hp
    simp only [decide_eq_true_eq]
    rintro rfl
    exact h ⟨q, hp⟩

theorem dropM_inc {m : Nat} {r : Report} (h : Inc r) : Inc (dropM m r) := by
  rcases r with _ | ⟨⟨i, q⟩, t⟩
  · exact h
  · simp only [dropM]
    split
    · exact (List.pairwise_cons.1 h).2
    · exact h

/-- The remaining outcomes are those other than `m`. -/
theorem reports_dropM {m : Nat} {r : Report} (h : Inc r) (hm : ∀ j, Reports r j → m ≤ j) (j : Nat) :
    Reports (dropM m r) j ↔ Reports r j ∧ j ≠ m := by
  rcases r with _ | ⟨⟨i, q⟩, t⟩
  · simp [dropM, not_reports_nil]
  · simp only [dropM]
    have hi := hm i (reports_cons.2 (Or.inl rfl))
    split
    · rename_i e
      subst e
      rw [reports_cons]
      constructor
      · intro hj; exact ⟨Or.inr hj, (inc_tail_gt h hj).ne'⟩
      · rintro ⟨hj | hj, hne⟩
        · exact absurd hj hne
        · exact hj
    · rename_i e
      constructor
      · intro hj
        refine ⟨hj, ?_⟩
        rcases reports_cons.1 hj with h' | h'
        · rw [h']; exact e
        · have := inc_tail_gt h h'
          omega
      · exact fun hj => hj.1

theorem probM_dropM {m : Nat} {r : Report} {j : Nat} (hj : j ≠ m) : probM j (dropM m r) = probM j r := by
  rcases r with _ | ⟨⟨i, q⟩, t⟩
  · rfl
  · simp only [dropM]
    split
    · rename_i e
      subst e
      unfold probM
      rw [List.filter_cons_of_neg (by simpa using Ne.symm hj)]
    · rfl

theorem dropM_length {m : Nat} {r : Report} (h : Inc r) (hm : ∀ j, Reports r j → m ≤ j) :
    (dropM m r).length ≤ r.length ∧ (Reports r m → (dropM m r).length + 1 = r.length) := by
  rcases r with _ | ⟨⟨i, q⟩, t⟩
  · simp [dropM, not_reports_nil]
  · simp only [dropM]
    split
    · simp
    · rename_i e
      refine ⟨le_rfl, fun hr => ?_⟩
      rcases reports_cons.1 hr with h' | h'
      · exact absurd h'.symm e
      · have := hm i (reports_cons.2 (Or.inl rfl))
        have := inc_tail_gt h h'
        omega

/-- The inner loop. -/
theorem aggFor_eq (m : Nat) (rs : List Report) (mins : List ℝ) (hl : rs.length = mins.length)
    (hinc : ∀ r ∈ rs, Inc r) (hm : ∀ r ∈ rs, ∀ j, Reports r j → m ≤ j) :
    aggFor m rs mins = (rs.map (dropM m), reportedProb rs m, hiddenProb (rs.zip mins) m) := by
  induction rs generalizing mins with
  | nil => simp [aggFor, reportedProb, hiddenProb]
  | cons r rs ih =>
    rcases mins with _ | ⟨mn, mins⟩
    · simp at hl
    have ih' := ih mins (by simpa using hl) (fun r hr => hinc r (by simp [hr])) (fun r hr => hm r (by simp [hr]))
    have hp : reportedProb (r :: rs) m = probM m r + reportedProb rs m := by simp [reportedProb, probM]
    have hh : hiddenProb ((r :: rs).zip (mn :: mins)) m
        = (@ite _ (Reports r m) (Classical.propDecidable _) 0 mn) + hiddenProb (rs.zip mins) m := by
      simp [hiddenProb]
    rw [hp, hh]
    unfold aggFor
    simp only [List.tail_cons, ih', List.headD_cons]
    rcases r with _ | ⟨⟨i, q⟩, t⟩
    · simp [dropM, not_reports_nil, probM]
    · simp only
      by_cases e : i = m
      · subst e
        have h1 : probM i ((i, q) :: t) = q := by
          have : probM i t = 0 := probM_of_not fun h => (inc_tail_gt (hinc _ List.mem_cons_self) h).ne rfl
          unfold probM at this ⊢
          rw [List.filter_cons_of_pos (by simp)]
          simp only [List.map_cons, List.sum_cons, this, add_zero]
        rw [if_pos rfl, h1, if_pos (reports_cons.2 (Or.inl rfl))]
        simp [dropM]
      · have hn : ¬ Reports ((i, q) :: t) m := by
          intro h
          rcases reports_cons.1 h with h' | h'
          · exact e h'.symm
          · have := hm _ (List.mem_cons_self) i (reports_cons.2 (Or.inl rfl))
            have := inc_tail_gt (hinc _ List.mem_cons_self) h'
            omega
        rw [if_neg e, probM_of_not hn, if_neg hn]
        simp [dropM, e]

theorem foldl_min_spec (l : List Nat) (a : Nat) : l.foldl min a ∈ a :: l ∧ ∀ x ∈ a :: l, l.foldl min a ≤ x := by
  induction l generalizing a with
  | nil => simp
  | cons b l ih =>
    obtain ⟨h1, h2⟩ := ih (min a b)
    simp only [List.foldl_cons]
    constructor
    · rcases List.mem_cons.1 h1 with h | h
      · rw [h]
        rcases Nat.le_total a b with h' | h'
        · rw [Nat.min_eq_left h']; simp
        · rw [Nat.min_eq_right h']; simp
      · simp [h]
    · intro x hx
      have hm := h2 (min a b) (by simp)
      rcases List.mem_cons.1 hx with rfl | hx
      · omega
      · rcases List.mem_cons.1 hx with rfl | hx
        · omega
        · exact h2 x (by simp [hx])

/-- The heads exist if no report is exhausted. -/
theorem heads_some (rs : List Report) (h : ∀ r ∈ rs, r ≠ []) :
    ∃ heads, (rs.mapM fun r => r.head?.map Prod.fst) = some heads ∧
      (∀ r ∈ rs, ∃ x ∈ heads, r.head?.map Prod.fst = some x) ∧
      (∀ x ∈ heads, ∃ r ∈ rs, r.head?.map Prod.fst = some x) ∧ heads.length = rs.length := by
  induction rs with
  | nil => exact ⟨[], rfl, by simp, by simp, rfl⟩
  | cons r rs ih =>
    obtain ⟨hs, h1, h2, h3, h4⟩ := ih fun r hr => h r (by simp [hr])
    rcases hr : r with _ | ⟨⟨i, q⟩, t⟩
    · exact absurd hr (h r (by simp))
    · refine ⟨i :: hs, ?_, ?_, ?_, by simp [h4]⟩
      · simp only [List.mapM_cons, List.head?_cons, Option.map_some, h1]
        rfl
      · intro r' hr'
        rcases List.mem_cons.1 hr' with rfl | hr'
        · exact ⟨i, by simp, by simp⟩
        · obtain ⟨x, hx, e⟩ := h2 r' hr'
          exact ⟨x, by simp [hx], e⟩
      · intro x hx
        rcases List.mem_cons.1 hx with rfl | hx
        · exact ⟨_, List.mem_cons_self, by simp⟩
        · obtain ⟨r', hr', e⟩ := h3 x hx
          exact ⟨r', by simp [hr'], e⟩

theorem heads_none (rs : List Report) (h : ∃ r ∈ rs, r = []) :
    (rs.mapM fun r => r.head?.map Prod.fst) = none := by
  induction rs with
  | nil => simp at h
  | cons r rs ih =>
    rcases hr : r with _ | ⟨⟨i, q⟩, t⟩
    · simp [List.mapM_cons]
    · obtain ⟨r', hr', e⟩ := h
      rcases List.mem_cons.1 hr' with rfl | hr'
      · rw [hr] at e; cases e
      · simp only [List.mapM_cons, List.head?_cons, Option.map_some, ih ⟨r', hr', e⟩]
        rfl

/-- One iteration of the `while` loop, no report exhausted. -/
theorem aggLoop_step (mins : List ℝ) (fuel : Nat) (rs : List Report) (hl : rs.length = mins.length) (hne : rs ≠ [])
    (hinc : ∀ r ∈ rs, Inc r) (hall : ∀ r ∈ rs, r ≠ []) :
    ∃ m, (∃ r ∈ rs, Reports r m) ∧ (∀ r ∈ rs, ∀ j, Reports r j → m ≤ j) ∧
      aggLoop mins (fuel + 1) rs = match aggLoop mins fuel (rs.map (dropM m)) with
        | .error er => .error er
        | .ok rest => .ok ((m, reportedProb rs m, hiddenProb (rs.zip mins) m) :: rest) := by
  obtain ⟨heads, h1, h2, h3, h4⟩ := heads_some rs hall
  have hhne : heads ≠ [] := by
    rintro rfl
    exact hne (List.length_eq_zero_iff.1 h4.symm)
  obtain ⟨a, hs, rfl⟩ := List.exists_cons_of_ne_nil hhne
  obtain ⟨hmem, hle⟩ := foldl_min_spec hs a
  have hmin : ∀ r ∈ rs, ∀ j, Reports r j → hs.foldl min a ≤ j := by
    intro r hr j hj
    obtain ⟨x, hx, e⟩ := h2 r hr
    have := hle x hx
    rcases r with _ | ⟨⟨i, q⟩, t⟩
    · simp at e
    · simp at e
      subst e
      rcases reports_cons.1 hj with rfl | hj
      · exact this
      · have := inc_tail_gt (hinc _ hr) hj
        omega
  refine ⟨hs.foldl min a, ?_, hmin, ?_⟩
  · obtain ⟨r, hr, e⟩ := h3 _ hmem
    refine ⟨r, hr, ?_⟩
    rcases r with _ | ⟨⟨i, q⟩, t⟩
    · simp at e
    · simp at e
      exact reports_cons.2 (Or.inl e.symm)
  · have hpos : ¬ (rs.map List.length).sum = 0 := by
      intro h0
      obtain ⟨r, rs', rfl⟩ := List.exists_cons_of_ne_nil hne
      have := hall r (by simp)
      simp only [List.map_cons, List.sum_cons, Nat.add_eq_zero_iff] at h0
      exact this (List.length_eq_zero_iff.1 h0.1)
    rw [aggLoop, if_neg hpos]
    simp only [h1, List.tail_cons, List.headD_cons, aggFor_eq _ rs mins hl hinc hmin]
    rcases aggLoop mins fuel (rs.map (dropM (hs.foldl min a))) with e | rest <;> rfl

theorem sum_drop_lt {m : Nat} {rs : List Report} (hinc : ∀ r ∈ rs, Inc r) (hm : ∀ r ∈ rs, ∀ j, Reports r j → m ≤ j)
    (hex : ∃ r ∈ rs, Reports r m) : ((rs.map (dropM m)).map List.length).sum < (rs.map List.length).sum := by
  have hle : ∀ l : List Report, (∀ r ∈ l, r ∈ rs) → ((l.map (dropM m)).map List.length).sum ≤ (l.map List.length).sum := by
    intro l hl
    induction l with
    | nil => simp
    | cons r l ih =>
      have h1 := (dropM_length (hinc r (hl r (by simp))) (hm r (hl r (by simp)))).1
      have h2 := ih fun r hr => hl r (by simp [hr])
      simp only [List.map_cons, List.sum_cons]
      omega
  obtain ⟨r, hr, hrm⟩ := hex
  obtain ⟨l1, l2, rfl⟩ := List.append_of_mem hr
  have h1 := hle l1 fun r hr => by simp [hr]
  have h2 := hle l2 fun r hr => by simp [hr]
  have h3 := (dropM_length (hinc r (by simp)) (hm r (by simp))).2 hrm
  simp only [List.map_append, List.sum_append, List.map_cons, List.sum_cons]
  omega

theorem ne_nil_iff {r : Report} : r ≠ [] ↔ ∃ j, Reports r j := by
  rcases r with _ | ⟨⟨i, q⟩, t⟩
  · simp [not_reports_nil]
  · simp only [ne_eq, reduceCtorEq, not_false_eq_true, true_iff]
    exact ⟨i, reports_cons.2 (Or.inl rfl)⟩

theorem reportedProb_dropM {m j : Nat} (rs : List Report) (hj : j ≠ m) :
    reportedProb (rs.map (dropM m)) j = reportedProb rs j := by
  unfold reportedProb
  rw [List.map_map]
  congr 1
  apply List.map_congr_left
  intro r _
  exact probM_dropM hj

theorem hiddenProb_dropM {m j : Nat} (rs : List Report) (mins : List ℝ) (hinc : ∀ r ∈ rs, Inc r)
    (hm : ∀ r ∈ rs, ∀ j, Reports r j → m ≤ j) (hj : j ≠ m) :
    hiddenProb ((rs.map (dropM m)).zip mins) j = hiddenProb (rs.zip mins) j := by
  unfold hiddenProb
  rw [List.zip_map_left, List.map_map]
  congr 1
  apply List.map_congr_left
  rintro ⟨r, mn⟩ hr
  have hr' := (List.of_mem_zip hr).1
  simp only [Function.comp_apply, Prod.map_apply, id_eq]
  congr 1
  rw [reports_dropM (hinc r hr') (hm r hr')]
  simp [hj]

theorem sum_length_zero {rs : List Report} (h : ∀ r ∈ rs, r = []) : (rs.map List.length).sum = 0 := by
  induction rs with
  | nil => rfl
  | cons r rs ih =>
    simp only [List.map_cons, List.sum_cons, ih fun r hr => h r (by simp [hr]), h r (by simp), List.length_nil]

theorem length_le_sum {rs : List Report} {r : Report} (h : r ∈ rs) : r.length ≤ (rs.map List.length).sum := by
  obtain ⟨l1, l2, rfl⟩ := List.append_of_mem h
  simp only [List.map_append, List.sum_append, List.map_cons, List.sum_cons]
  omega

/-- The `while` loop when all reports end with the same outcome. -/
theorem aggLoop_ok (mins : List ℝ) (fuel : Nat) (rs : List Report) (hl : rs.length = mins.length)
    (hinc : ∀ r ∈ rs, Inc r) (hmax : (∀ r ∈ rs, r = []) ∨ ∃ M, ∀ r ∈ rs, MaxOutcome r M)
    (hfuel : (rs.map List.length).sum ≤ fuel) :
    ∃ agg, aggLoop mins fuel rs = .ok agg ∧ (agg.map Prod.fst).Pairwise (· < ·) ∧
      (∀ i, i ∈ agg.map Prod.fst ↔ ∃ r ∈ rs, Reports r i) ∧
      ∀ t ∈ agg, t.2.1 = reportedProb rs t.1 ∧ t.2.2 = hiddenProb (rs.zip mins) t.1 := by
  by_cases h0 : ∀ r ∈ rs, r = []
  · refine ⟨[], ?_, by simp, ?_, by simp⟩
    · have hs : (rs.map List.length).sum = 0 := sum_length_zero h0
      cases fuel with
      | zero => rfl
      | succ fuel => rw [aggLoop, if_pos hs]
    · intro i
      simp only [List.map_nil, List.not_mem_nil, false_iff]
      rintro ⟨r, hr, hi⟩
      rw [h0 r hr] at hi
      exact not_reports_nil hi
  · obtain ⟨M, hM⟩ := hmax.resolve_left h0
    have hne : rs ≠ [] := by
      rintro rfl
      exact h0 (by simp)
    have hall : ∀ r ∈ rs, r ≠ [] := fun r hr => ne_nil_iff.2 ⟨M, (hM r hr).1⟩
    induction fuel generalizing rs M with
    | zero =>
      exfalso
      obtain ⟨r, rs', rfl⟩ := List.exists_cons_of_ne_nil hne
      have := hall r (by simp)
      simp only [List.map_cons, List.sum_cons, Nat.le_zero, Nat.add_eq_zero_iff] at hfuel
      exact this (List.length_eq_zero_iff.1 hfuel.1)
    | succ fuel ih =>
      obtain ⟨m, hmem, hmin, hstep⟩ := aggLoop_step mins fuel rs hl hne hinc hall
      have hinc' : ∀ r ∈ rs.map (dropM m), Inc r := by
        intro r hr
        obtain ⟨r', hr', rfl⟩ := List.mem_map.1 hr
        exact dropM_inc (hinc r' hr')
      have hlt := sum_drop_lt hinc hmin hmem
      -- the rest
      have hrest : ∃ agg, aggLoop mins fuel (rs.map (dropM m)) = .ok agg ∧ (agg.map Prod.fst).Pairwise (· < ·) ∧
          (∀ i, i ∈ agg.map Prod.fst ↔ ∃ r ∈ rs.map (dropM m), Reports r i) ∧
          ∀ t ∈ agg, t.2.1 = reportedProb (rs.map (dropM m)) t.1 ∧
            t.2.2 = hiddenProb ((rs.map (dropM m)).zip mins) t.1 := by
        by_cases hmM : m = M
        · subst hmM
          have h0' : ∀ r ∈ rs.map (dropM m), r = [] := by
            intro r hr
            obtain ⟨r', hr', rfl⟩ := List.mem_map.1 hr
            by_contra hne'
            obtain ⟨j, hj⟩ := ne_nil_iff.1 hne'
            obtain ⟨hj1, hj2⟩ := (reports_dropM (hinc r' hr') (hmin r' hr') j).1 hj
            have := hmin r' hr' j hj1
            have := (hM r' hr').2 j hj1
            omega
          refine ⟨[], ?_, by simp, ?_, by simp⟩
          · have hs : ((rs.map (dropM m)).map List.length).sum = 0 := sum_length_zero h0'
            cases fuel with
            | zero => rfl
            | succ fuel => rw [aggLoop, if_pos hs]
          · intro i
            simp only [List.map_nil, List.not_mem_nil, false_iff]
            rintro ⟨r, hr, hi⟩
            rw [h0' r hr] at hi
            exact not_reports_nil hi
        · have hM' : ∀ r ∈ rs.map (dropM m), MaxOutcome r M := by
            intro r hr
            obtain ⟨r', hr', rfl⟩ := List.mem_map.1 hr
            refine ⟨(reports_dropM (hinc r' hr') (hmin r' hr') M).2 ⟨(hM r' hr').1, Ne.symm hmM⟩, ?_⟩
            intro i hi
            exact (hM r' hr').2 i ((reports_dropM (hinc r' hr') (hmin r' hr') i).1 hi).1
          have hall' : ∀ r ∈ rs.map (dropM m), r ≠ [] := fun r hr => ne_nil_iff.2 ⟨M, (hM' r hr).1⟩
          have hne' : rs.map (dropM m) ≠ [] := by simpa using hne
          refine ih (rs.map (dropM m)) (by simpa using hl) hinc' (Or.inr ⟨M, hM'⟩) (by omega) ?_ M hM' hne' hall'
          intro h
          obtain ⟨r, hr⟩ := List.exists_mem_of_ne_nil _ hne'
          exact hall' r hr (h r hr)
      obtain ⟨agg, ha, hp, hi, ht⟩ := hrest
      have hgt : ∀ i ∈ agg.map Prod.fst, m < i := by
        intro i hi'
        obtain ⟨r, hr, hri⟩ := (hi i).1 hi'
        obtain ⟨r', hr', rfl⟩ := List.mem_map.1 hr
        obtain ⟨h1, h2⟩ := (reports_dropM (hinc r' hr') (hmin r' hr') i).1 hri
        have := hmin r' hr' i h1
        omega
      refine ⟨_, by rw [hstep, ha], ?_, ?_, ?_⟩
      · rw [List.map_cons]
        exact List.pairwise_cons.2 ⟨fun i hi' => hgt i hi', hp⟩
      · intro i
        rw [List.map_cons, List.mem_cons, hi]
        constructor
        · rintro (rfl | ⟨r, hr, hri⟩)
          · exact hmem
          · obtain ⟨r', hr', rfl⟩ := List.mem_map.1 hr
            exact ⟨r', hr', ((reports_dropM (hinc r' hr') (hmin r' hr') i).1 hri).1⟩
        · rintro ⟨r, hr, hri⟩
          by_cases e : i = m
          · exact Or.inl e
          · exact Or.inr ⟨dropM m r, List.mem_map_of_mem hr, (reports_dropM (hinc r hr) (hmin r hr) i).2 ⟨hri, e⟩⟩
      · intro t ht'
        rcases List.mem_cons.1 ht' with rfl | ht'
        · exact ⟨rfl, rfl⟩
        · have hne' : t.1 ≠ m := (hgt t.1 (List.mem_map_of_mem ht')).ne'
          rw [(ht t ht').1, (ht t ht').2, reportedProb_dropM rs hne', hiddenProb_dropM rs mins hinc hmin hne']
          exact ⟨rfl, rfl⟩

/-- The `while` loop when two reports end with different outcomes. -/
theorem aggLoop_fails (mins : List ℝ) (fuel : Nat) (rs : List Report) (hl : rs.length = mins.length)
    (hinc : ∀ r ∈ rs, Inc r) (hall : ∀ r ∈ rs, r ≠ []) {r s : Report} (hr : r ∈ rs) (hs : s ∈ rs) {M M' : Nat}
    (hM : MaxOutcome r M) (hM' : MaxOutcome s M') (hlt : M < M') (hfuel : (rs.map List.length).sum ≤ fuel) :
    aggLoop mins fuel rs = .error .indexError := by
  have hne : rs ≠ [] := List.ne_nil_of_mem hr
  induction fuel generalizing rs r s with
  | zero =>
    exfalso
    obtain ⟨r, rs', rfl⟩ := List.exists_cons_of_ne_nil hne
    have := hall r (by simp)
    simp only [List.map_cons, List.sum_cons, Nat.le_zero, Nat.add_eq_zero_iff] at hfuel
    exact this (List.length_eq_zero_iff.1 hfuel.1)
  | succ fuel ih =>
    obtain ⟨m, hmem, hmin, hstep⟩ := aggLoop_step mins fuel rs hl hne hinc hall
    have hinc' : ∀ r ∈ rs.map (dropM m), Inc r := by
      intro r hr
      obtain ⟨r', hr', rfl⟩ := List.mem_map.1 hr
      exact dropM_inc (hinc r' hr')
    have hlt' := sum_drop_lt hinc hmin hmem
    have hmle := hmin r hr M hM.1
    have hsM : Reports (dropM m s) M' := (reports_dropM (hinc s hs) (hmin s hs) M').2 ⟨hM'.1, by omega⟩
    have hpos : 0 < ((rs.map (dropM m)).map List.length).sum := by
      have h1 : 0 < (dropM m s).length := List.length_pos_iff.2 (ne_nil_iff.2 ⟨_, hsM⟩)
      have h2 : (dropM m s).length ≤ ((rs.map (dropM m)).map List.length).sum :=
        length_le_sum (List.mem_map_of_mem hs)
      omega
    rw [hstep]
    by_cases hex : ∃ r ∈ rs.map (dropM m), r = []
    · cases fuel with
      | zero => omega
      | succ fuel =>
        rw [aggLoop, if_neg (by omega), heads_none _ hex]
    · have hall' : ∀ r ∈ rs.map (dropM m), r ≠ [] := fun r hr e => hex ⟨r, hr, e⟩
      have hmM : m ≠ M := by
        rintro rfl
        refine hall' _ (List.mem_map_of_mem hr) ?_
        by_contra hne'
        obtain ⟨j, hj⟩ := ne_nil_iff.1 hne'
        obtain ⟨hj1, hj2⟩ := (reports_dropM (hinc r hr) (hmin r hr) j).1 hj
        have := hmin r hr j hj1
        have := hM.2 j hj1
        omega
      rw [ih (rs.map (dropM m)) (by simpa using hl) hinc' hall' (List.mem_map_of_mem hr) (List.mem_map_of_mem hs)
        ⟨(reports_dropM (hinc r hr) (hmin r hr) M).2 ⟨hM.1, Ne.symm hmM⟩,
          fun i hi => hM.2 i ((reports_dropM (hinc r hr) (hmin r hr) i).1 hi).1⟩
        ⟨hsM, fun i hi => hM'.2 i ((reports_dropM (hinc s hs) (hmin s hs) i).1 hi).1⟩ (by omega)
        (by simpa using hne)]

theorem sortReport_perm (r : Report) : (sortReport r).Perm r := List.mergeSort_perm _ _

theorem reports_sort (r : Report) (i : Nat) : Reports (sortReport r) i ↔ Reports r i := by
  unfold Reports
  simp only [(sortReport_perm r).mem_iff]

theorem sortReport_inc {r : Report} (h : (r.map Prod.fst).Nodup) : Inc (sortReport r) := by
  have h1 : (sortReport r).Pairwise fun a b => a.1 < b.1 ∨ a.1 = b.1 ∧ a.2 ≤ b.2 := by
    have := List.pairwise_mergeSort (le := fun a b : Nat × ℝ => @decide (a.1 < b.1 ∨ a.1 = b.1 ∧ a.2 ≤ b.2)
      (Classical.propDecidable _)) ?_ ?_ r
    · simpa [sortReport] using this
    · intro a b c hab hbc
      simp only [decide_eq_true_eq] at *
      rcases hab with h | ⟨h, h'⟩ <;> rcases hbc with h2 | ⟨h2, h2'⟩
      · left; omega
      · left; omega
      · left; omega
      · right; exact ⟨by omega, h'.trans h2'⟩
    · intro a b
      simp only [Bool.or_eq_true, decide_eq_true_eq]
      rcases Nat.lt_trichotomy a.1 b.1 with h | h | h
      · left; left; exact h
      · rcases le_total a.2 b.2 with h' | h'
        · left; right; exact ⟨h, h'⟩
        · right; right; exact ⟨h.symm, h'⟩
      · right; left; exact h
  have h2 : ((sortReport r).map Prod.fst).Nodup := ((sortReport_perm r).map _).nodup_iff.2 h
  rw [List.Nodup, List.pairwise_map] at h2
  exact (h1.and h2).imp fun {a b} hab => by
    rcases hab.1 with h | ⟨h, _⟩
    · exact h
    · exact absurd h hab.2

theorem foldl_min_real (l : List ℝ) (a : ℝ) : l.foldl min a ∈ a :: l ∧ ∀ x ∈ a :: l, l.foldl min a ≤ x := by
  induction l generalizing a with
  | nil => simp
  | cons b l ih =>
    obtain ⟨h1, h2⟩ := ih (min a b)
    simp only [List.foldl_cons]
    constructor
    · rcases List.mem_cons.1 h1 with h | h
      · rw [h]
        rcases le_total a b with h' | h'
        · rw [min_eq_left h']; simp
        · rw [min_eq_right h']; simp
      · simp [h]
    · intro x hx
      have hm := h2 (min a b) (by simp)
      rcases List.mem_cons.1 hx with rfl | hx
      · exact hm.trans (min_le_left _ _)
      · rcases List.mem_cons.1 hx with rfl | hx
        · exact hm.trans (min_le_right _ _)
        · exact h2 x (by simp [hx])

theorem reportMin_ok {r : Report} (h : r ≠ []) : ∃ m, reportMin r = .ok m ∧ MinProb r m := by
  obtain ⟨⟨i, q⟩, t, rfl⟩ := List.exists_cons_of_ne_nil h
  refine ⟨_, rfl, ?_⟩
  obtain ⟨h1, h2⟩ := foldl_min_real (t.map Prod.snd) q
  rw [← List.map_cons (f := Prod.snd) (a := (i, q))] at h1 h2
  refine ⟨?_, fun j p hp => h2 p (List.mem_map_of_mem (f := Prod.snd) hp)⟩
  obtain ⟨⟨j, p⟩, hj, e⟩ := List.mem_map.1 h1
  exact ⟨j, by rw [← e]; exact hj⟩

theorem mins_ok (reports : List Report) (h : ∀ r ∈ reports, r ≠ []) :
    ∃ mins, reports.mapM reportMin = .ok mins ∧ reports.length = mins.length ∧
      ∀ rm ∈ reports.zip mins, MinProb rm.1 rm.2 := by
  induction reports with
  | nil => exact ⟨[], rfl, rfl, by simp⟩
  | cons r rs ih =>
    obtain ⟨mins, h1, h2, h3⟩ := ih fun r hr => h r (by simp [hr])
    obtain ⟨m, hm, hm'⟩ := reportMin_ok (h r (by simp))
    refine ⟨m :: mins, ?_, by simp [h2], ?_⟩
    · simp only [List.mapM_cons, hm, h1, bind, Except.bind]
      rfl
    · intro rm hrm
      rcases List.mem_cons.1 hrm with rfl | hrm
      · exact hm'
      · exact h3 rm hrm

/-- **C68** (partial: all reports have the same largest outcome): every reported outcome once, with the sum of its
reported probabilities and the sum of the smallest probabilities of the workers that did not report it, by decreasing
probability, cut at `top_k`. -/
theorem C68_aggregate_partial {reports : List Report} (hne : reports ≠ []) (hnd : ∀ r ∈ reports, (r.map Prod.fst).Nodup)
    {M : Nat} (hM : ∀ r ∈ reports, MaxOutcome r M) (topK : Nat) :
    ∃ (mins : List ℝ) (full : List (Nat × ℝ × ℝ)), reports.length = mins.length ∧
      (∀ rm ∈ reports.zip mins, MinProb rm.1 rm.2) ∧
      measureTop topK reports = .ok (full.take topK) ∧ (full.map Prod.fst).Nodup ∧
      (∀ i, i ∈ full.map Prod.fst ↔ ∃ r ∈ reports, Reports r i) ∧
      (full.Pairwise fun a b => b.2.1 ≤ a.2.1) ∧
      ∀ t ∈ full, t.2.1 = reportedProb reports t.1 ∧ t.2.2 = hiddenProb (reports.zip mins) t.1 := by
  have hall : ∀ r ∈ reports, r ≠ [] := fun r hr => ne_nil_iff.2 ⟨M, (hM r hr).1⟩
  obtain ⟨mins, hm1, hm2, hm3⟩ := mins_ok reports hall
  obtain ⟨agg, ha, hp, hi, ht⟩ := aggLoop_ok mins (reports.map List.length).sum (reports.map sortReport)
    (by simpa using hm2)
    (by
      intro r hr
      obtain ⟨r', hr', rfl⟩ := List.mem_map.1 hr
      exact sortReport_inc (hnd r' hr'))
    (Or.inr ⟨M, by
      intro r hr
      obtain ⟨r', hr', rfl⟩ := List.mem_map.1 hr
      exact ⟨(reports_sort _ _).2 (hM r' hr').1, fun i hi => (hM r' hr').2 i ((reports_sort _ _).1 hi)⟩⟩)
    (by
      rw [List.map_map]
      apply le_of_eq
      congr 1
      apply List.map_congr_left
      intro r _
      exact (sortReport_perm r).length_eq)
  have hi' : ∀ i, i ∈ agg.map Prod.fst ↔ ∃ r ∈ reports, Reports r i := by
    intro i
    rw [hi]
    constructor
    · rintro ⟨r, hr, h⟩
      obtain ⟨r', hr', rfl⟩ := List.mem_map.1 hr
      exact ⟨r', hr', (reports_sort _ _).1 h⟩
    · rintro ⟨r, hr, h⟩
      exact ⟨sortReport r, List.mem_map_of_mem hr, (reports_sort _ _).2 h⟩
  have hprob : ∀ i, reportedProb (reports.map sortReport) i = reportedProb reports i := by
    intro i
    unfold reportedProb
    rw [List.map_map]
    congr 1
    apply List.map_congr_left
    intro r _
    exact (((sortReport_perm r).filter _).map _).sum_eq
  have hhid : ∀ i, hiddenProb ((reports.map sortReport).zip mins) i = hiddenProb (reports.zip mins) i := by
    intro i
    unfold hiddenProb
    rw [List.zip_map_left, List.map_map]
    congr 1
    apply List.map_congr_left
    rintro ⟨r, mn⟩ _
    simp only [Function.comp_apply, Prod.map_apply, id_eq]
    congr 1
    rw [reports_sort]
  have hperm := List.mergeSort_perm agg (fun a b => @decide (b.2.1 ≤ a.2.1) (Classical.propDecidable _))
  refine ⟨mins, agg.mergeSort fun a b => @decide (b.2.1 ≤ a.2.1) (Classical.propDecidable _), hm2, hm3, ?_, ?_, ?_, ?_, ?_⟩
  · unfold measureTop
    simp only [bind, Except.bind, hm1, ha]
    rw [if_neg]
    intro h0
    rw [h0] at hperm
    have : agg = [] := List.nil_perm.1 hperm
    obtain ⟨r, hr⟩ := List.exists_mem_of_ne_nil _ hne
    have := (hi' M).2 ⟨r, hr, (hM r hr).1⟩
    simp_all
  · refine ((hperm.map Prod.fst).nodup_iff).2 ?_
    exact hp.imp fun h => Nat.ne_of_lt h
  · intro i
    rw [(hperm.map Prod.fst).mem_iff]
    exact hi' i
  · have := List.pairwise_mergeSort (le := fun a b : Nat × ℝ × ℝ => @decide (b.2.1 ≤ a.2.1)
      (Classical.propDecidable _)) ?_ ?_ agg
    · simpa using this
    · intro a b c hab hbc
      simp only [decide_eq_true_eq] at *
      exact hbc.trans hab
    · intro a b
      simp only [Bool.or_eq_true, decide_eq_true_eq]
      exact le_total _ _
  · intro t ht'
    obtain ⟨h1, h2⟩ := ht t (hperm.mem_iff.1 ht')
    exact ⟨h1.trans (hprob _), h2.trans (hhid _)⟩

/-- **C68** (negation of the full property): if two workers report different largest outcomes, the aggregation raises
IndexError. -/
theorem C68_different_max_false {reports : List Report} (hnd : ∀ r ∈ reports, (r.map Prod.fst).Nodup)
    (hall : ∀ r ∈ reports, r ≠ []) {r s : Report} (hr : r ∈ reports) (hs : s ∈ reports) {M M' : Nat}
    (hM : MaxOutcome r M) (hM' : MaxOutcome s M') (hlt : M ≠ M') (topK : Nat) :
    measureTop topK reports = .error .indexError := by
  wlog hlt' : M < M' generalizing r s M M' with H
  · exact H hs hr hM' hM (Ne.symm hlt) (by omega)
  obtain ⟨mins, hm1, hm2, hm3⟩ := mins_ok reports hall
  have := aggLoop_fails mins (reports.map List.length).sum (reports.map sortReport)
    (by simpa using hm2)
    (by
      intro r hr
      obtain ⟨r', hr', rfl⟩ := List.mem_map.1 hr
      exact sortReport_inc (hnd r' hr'))
    (by
      intro r hr
      obtain ⟨r', hr', rfl⟩ := List.mem_map.1 hr
      obtain ⟨j, hj⟩ := ne_nil_iff.1 (hall r' hr')
      exact ne_nil_iff.2 ⟨j, (reports_sort _ _).2 hj⟩)
    (List.mem_map_of_mem hr) (List.mem_map_of_mem hs) (M := M) (M' := M')
    ⟨(reports_sort _ _).2 hM.1, fun i hi => hM.2 i ((reports_sort _ _).1 hi)⟩
    ⟨(reports_sort _ _).2 hM'.1, fun i hi => hM'.2 i ((reports_sort _ _).1 hi)⟩ hlt'
    (by
      rw [List.map_map]
      apply le_of_eq
      congr 1
      apply List.map_congr_left
      intro r _
      exact (sortReport_perm r).length_eq)
  unfold measureTop
  simp only [bind, Except.bind, hm1, this]

/-- **C68**: a worker that reports nothing makes the aggregation raise ValueError. -/
theorem C68_empty_report {reports : List Report} (h : [] ∈ reports) (topK : Nat) :
    measureTop topK reports = .error .valueError := by
  have : reports.mapM reportMin = .error .valueError := by
    induction reports with
    | nil => cases h
    | cons r rs ih =>
      rcases r with _ | ⟨⟨i, q⟩, t⟩
      · simp [List.mapM_cons, reportMin, bind, Except.bind]
      · have := ih (by simpa using h)
        simp [List.mapM_cons, reportMin, bind, Except.bind, this]
  unfold measureTop
  simp only [bind, Except.bind, this]

/-! ### Examples -/

/-- Two workers, both reporting outcome 3 as the largest. -/
example : ∀ r ∈ ([[(3, 0.25), (0, 0.125)], [(1, 0.5), (3, 0.125)]] : List Report),
    (r.map Prod.fst).Nodup ∧ MaxOutcome r 3 := by
  intro r hr
  simp only [List.mem_cons, List.not_mem_nil, or_false] at hr
  rcases hr with rfl | rfl
  · refine ⟨by simp, ⟨_, List.mem_cons_self⟩, ?_⟩
    rintro i ⟨p, hp⟩
    simp only [List.mem_cons, Prod.mk.injEq, List.not_mem_nil, or_false] at hp
    omega
  · refine ⟨by simp, ⟨0.125, by simp⟩, ?_⟩
    rintro i ⟨p, hp⟩
    simp only [List.mem_cons, Prod.mk.injEq, List.not_mem_nil, or_false] at hp
    omega

/-- Two workers with one outcome each, all probability in different outcomes: the top outcome cannot be asked. -/
example : measureTop 1 [[(0, 0.5)], [(1, 0.5)]] = .error .indexError := by
  refine C68_different_max_false (by simp) (by simp) (r := [(0, 0.5)]) (s := [(1, 0.5)]) (by simp) (by simp)
    (M := 0) (M' := 1) ⟨⟨_, List.mem_cons_self⟩, ?_⟩ ⟨⟨_, List.mem_cons_self⟩, ?_⟩ (by decide) 1 <;>
  · rintro i ⟨p, hp⟩
    simp only [List.mem_cons, Prod.mk.injEq, List.not_mem_nil, or_false] at hp
    omega

end QIP.Props
