import Verif.Lemmas.Grow
import Verif.Spec.Wrap

/-! # Constructing operations on the current qubits -/

namespace QIP

open Spec Heap

theorem opFits_ne {op : OpSpec} {ns : List Nat} (hf : OpFits op ns) : ns ≠ [] := by
  rcases op with g | f | op
  · cases g <;> simp only [OpFits] at hf
    case swap => obtain ⟨k, rfl⟩ := hf; simp
    all_goals exact hf
  · exact hf.elim
  · obtain ⟨rest, rfl, -⟩ := hf; simp

theorem initN_pos {h : Heap} {inputs : List Nat} (hne : inputs ≠ []) (hpos : ∀ x ∈ inputs, 0 < h.n x) :
    0 < h.initN inputs none := by
  match inputs, hne with
  | a :: l, _ =>
    have := hpos a (by simp)
    simp only [initN, List.length_cons, Nat.zero_lt_succ, gt_iff_lt, ↓reduceIte, List.map_cons, List.sum_cons]
    omega

theorem construct_ok {h : Heap} {V : Nat → Prop} (hw : WF h V) (op : OpSpec) (d : Bool) {inputs : List Nat}
    (hin : ∀ i ∈ inputs, V i) (hnd : inputs.Nodup) (hpos : ∀ x ∈ inputs, 0 < h.n x)
    (hf : OpFits op (inputs.map h.n)) :
    ∃ y h', h.construct op d inputs = (.ok y, h') ∧ h'.kind y = .gate (opGate op (inputs.map h.n)) d ∧
      (inputs.map h.n).sum = h'.n y := by
  induction op generalizing d inputs with
  | gate g =>
    have hne : inputs ≠ [] := by
      have := opFits_ne hf
      rintro rfl; simp at this
    have base : ∀ g' : Gate, ∃ y h', h.initQubit (.gate g' d) inputs none none none = (.ok y, h') ∧
        h'.kind y = .gate g' d ∧ (inputs.map h.n).sum = h'.n y ∧ Ext h h' := by
      intro g'
      obtain ⟨h', r, e, w, c⟩ := initQubit_ok hw (kind := .gate g' d) (inputs := inputs) (n := none) (qid := none) hin
        qidOK_none (by simp) (initN_pos hne hpos)
      have hl : 0 < inputs.length := List.length_pos_of_ne_nil hne
      refine ⟨_, h', r, c.kindx, ?_, e⟩
      rw [c.nx]
      simp only [initN, hl, gt_iff_lt, ↓reduceIte, Int.toNat_natCast]
    cases g
    case swap k =>
      obtain ⟨y, h', r, k1, k2, e⟩ := base (.swap (h.n (inputs.getD 0 0)))
      obtain ⟨k, hk⟩ := hf
      have hl : inputs.length = 2 := by have := congrArg List.length hk; simpa using this
      match inputs, hl with
      | [a, b], _ =>
        simp only [List.map_cons, List.map_nil, List.cons.injEq, and_true] at hk
        refine ⟨y, h', ?_, by simpa [opGate] using k1, k2⟩
        unfold construct mkSimple
        simp only
        rw [r]
        have ha := e.n a (hw.vlt a (hin a (by simp)))
        have hb := e.n b (hw.vlt b (hin b (by simp)))
        simp [ha, hb, hk]
    case c => exact hf.elim
    all_goals
      obtain ⟨y, h', r, k1, k2, -⟩ := base _
      exact ⟨y, h', r, k1, k2⟩
  | fop f => exact hf.elim
  | c op ih =>
    obtain ⟨rest, e1, e2, e3⟩ := hf
    match inputs, e1 with
    | [], e1 => simp at e1
    | a :: tl, e1 =>
      simp only [List.map_cons, List.cons.injEq] at e1
      obtain ⟨ha, rfl⟩ := e1
      have hin' : ∀ i ∈ tl, V i := fun i hi => hin i (by simp [hi])
      obtain ⟨y, h', r, k1, k2⟩ := ih false hin' (List.nodup_cons.1 hnd).2 (fun x hx => hpos x (by simp [hx])) e3
      have hco : h.controlOK (a :: tl) = true := by
        unfold controlOK
        rw [decide_eq_true_eq]
        refine ⟨?_, ha, hnd⟩
        rcases tl with _ | ⟨b, l⟩
        · simp at e2
        · simp
      obtain ⟨s1, s2, s3⟩ := construct_spec hw op false hin'
      rw [r] at s1 s2 s3
      simp only at s1 s2 s3
      have cy := s3 y rfl
      have hmap : (a :: tl).map h'.n = (a :: tl).map h.n := sum_append_node hw s1 hin
      have hq : QidOK h' V (.gate (.c (opGate op (tl.map h.n))) d) (a :: tl) (some (h'.qid y)) := by
        rintro q ⟨rfl⟩
        have hylt : y < h'.nodes.length := by have := cy.last; omega
        refine ⟨fun z hz => s2.qmono z y (by have := cy.last; omega) hylt, s2.qlt y hylt, ?_, ?_⟩
        · intro i hi
          have := hw.vlt i (hin i hi)
          rw [s1.qid i this]
          exact (hw.qlt i this).trans_le cy.fresh
        · intro z hz he
          exfalso
          have := hw.vlt z hz
          rw [s1.qid z this] at he
          have h1 := hw.qlt z this
          have h2 := cy.fresh
          omega
      obtain ⟨h'', r2, -, -, c2⟩ := initQubit_ok s2 (kind := .gate (.c (opGate op (tl.map h.n))) d)
        (inputs := a :: tl) (n := none) (qid := some (h'.qid y)) hin hq (by simp)
        (initN_pos (by simp) (fun x hx => by
          rw [s1.n x (hw.vlt x (hin x hx))]; exact hpos x hx))
      refine ⟨_, h'', ?_, by rw [c2.kindx]; simp [opGate], ?_⟩
      · unfold construct
        rw [if_neg (by simp [hco])]
        simp only [List.tail_cons]
        rw [r]
        simp only
        rw [k1]
        exact r2
      · rw [c2.nx]
        simp only [initN, List.length_cons, Nat.zero_lt_succ, gt_iff_lt, ↓reduceIte, Int.toNat_natCast]
        rw [hmap]

/-! ## Positional arguments -/

theorem allRefs_map (xs : List Nat) : allRefs (xs.map some) = some xs := by
  unfold allRefs
  induction xs with
  | nil => rfl
  | cons x xs ih => simp_all [List.mapM_cons]

theorem wrapperKw_nil (kw : List Kwd) : wrapperKw [] kw = [] := rfl

theorem constructArgs_closed {w : Ctor} (hw : w.Closed) (h : Heap) (xs : List Nat) :
    constructArgs h w [] (xs.map some) = h.construct w.spec false xs := by
  induction w generalizing xs h with
  | op g => simp only [constructArgs, allRefs_map, Ctor.spec, Heap.construct]; rfl
  | param g => exact hw.elim
  | fop f => exact hw.elim
  | bound g kw => simp only [constructArgs, allRefs_map, Ctor.spec, Heap.construct, wrapperKw_nil]; rfl
  | c w ih =>
    unfold constructArgs
    rcases xs with _ | ⟨a, _ | ⟨b, l⟩⟩
    · simp [Ctor.spec, Heap.construct, controlOK]
    · simp [Ctor.spec, Heap.construct, controlOK]
    · simp only [List.map_cons, Ctor.spec, Heap.construct]
      by_cases h1 : h.n a = 1
      · by_cases h2 : (a :: b :: l).Nodup
        · have h2' : (some a :: some b :: l.map some).Nodup := by
            have := List.Nodup.map (f := (some : Nat → Option Nat)) (fun _ _ e => Option.some.inj e) h2
            simpa using this
          have hco : h.controlOK (a :: b :: l) = true := by simp only [controlOK, decide_eq_true_eq]; exact ⟨by simp, h1, h2⟩
          rw [if_neg (by simpa using h1), if_neg (not_not.2 h2'), if_neg (by simpa using hco)]
          have := ih hw h (b :: l)
          simp only [List.map_cons] at this
          rw [this]
          simp only [List.tail_cons]
          have e2 : allRefs (some a :: some b :: l.map some) = some (a :: b :: l) := allRefs_map (a :: b :: l)
          rw [e2]
          simp only
          rfl
        · have h2' : ¬ (some a :: some b :: l.map some).Nodup := by
            intro hn
            apply h2
            have : ((a :: b :: l).map some).Nodup := by simpa using hn
            exact List.Nodup.of_map _ this
          have hco : ¬ h.controlOK (a :: b :: l) = true := by
            unfold controlOK
            rw [decide_eq_true_eq]
            exact fun h => h2 h.2.2
          rw [if_neg (by simpa using h1), if_pos h2', if_pos hco]
      · have hco : ¬ h.controlOK (a :: b :: l) = true := by
          unfold controlOK
          rw [decide_eq_true_eq]
          exact fun h => h1 h.2.1
        rw [if_pos h1, if_pos hco]

theorem positional_closed {w : Ctor} (hw : w.Closed) (xs : List Nat) : w.positional xs = xs.map some := by
  induction w generalizing xs with
  | op g => rfl
  | param g => exact hw.elim
  | fop f => exact hw.elim
  | bound g kw => rfl
  | c w ih =>
    rcases xs with _ | ⟨x, xs⟩
    · rfl
    · simp [Ctor.positional, ih hw xs]

/-- Outside contexts parameters may come first. -/
theorem constructArgs_positional (w : Ctor) (hw : w.Closed ∨ (∃ g, w = .param g) ∨ ∃ f, w = .fop f) (h : Heap)
    (xs : List Nat) : constructArgs h w [] (w.positional xs) = h.construct w.spec false xs := by
  rcases hw with hw | ⟨g, rfl⟩ | ⟨f, rfl⟩
  · rw [positional_closed hw, constructArgs_closed hw]
  · simp only [constructArgs, Ctor.positional, allRefs_map, Ctor.spec, Heap.construct]
    rfl
  · simp only [constructArgs, Ctor.positional, allRefs_map, Ctor.spec]

end QIP
