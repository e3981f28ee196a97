import Verif.Lemmas.Gates

/-!
# C11 – C16, C72: matrix gates
-/

namespace QIP.Props

open QIP QIP.Spec Finset

/-! ## C72: every gate acts as specified -/

/-- C72: every built-in gate (nested controls included) does to the state what `gateApply` says. -/
theorem C72_gate_semantics {n : Nat} (g : Gate) (gs : List (List Nat)) (hf : Fits g gs)
    (hnd : gs.flatten.Nodup) (hlt : ∀ q ∈ gs.flatten, q < n) (state arena : List ℂ) (hs : state.length = 2 ^ n)
    (ha : arena.length = 2 ^ n) (impl : DotImpl) (hi : SchedOK n impl) :
    ∃ res, g.apply false gs n state arena impl = .ok res ∧ res.length = 2 ^ n ∧
      ∀ r < 2 ^ n, res[r]? = some (gateApply n g gs (fun c => state.getD c 0) r) := by
  obtain ⟨mats, h⟩ := gm_exists (n := n) g gs hf ⟨hnd, hlt⟩
  refine ⟨_, gate_apply_eq ⟨hnd, hlt⟩ h hs ha hi, length_act _ _ _, ?_⟩
  intro r hr
  rw [← h.sem _ _ hr]
  simp [act, hr]

-- C(C(Swap)) on 6 qubits, controls 5 and 0, registers (4,1) and (2,3)
example : Fits (.c (.c (.swap 2))) [[5], [0], [4, 1], [2, 3]] :=
  ⟨5, _, rfl, 0, _, rfl, [4, 1], [2, 3], rfl, rfl, rfl⟩
-- H on the registers (2,0) and (1)
example : Fits .h [[2, 0], [1]] := by simp [Fits]
example : SchedOK 2 (.cython [3, 1, 0, 2]) := by unfold SchedOK; decide

/-! ## C11 -/

/-- C11: applying matrices `A` and then `B` on the same groups equals applying the products `BA`, for any kernels. -/
theorem C11_composition {R : Type} [CommSemiring R] [DecidableEq R] {n : Nat} (L : List (Key × Mat R × Mat R × Mat R))
    (hgs : (L.flatMap fun t => t.1.qubits).Nodup) (hkeys : (L.map fun t => t.1.qubits).Nodup)
    (hlt : ∀ t ∈ L, ∀ q ∈ t.1.qubits, q < n)
    (hshape : ∀ t ∈ L, ∀ m ∈ [t.2.1, t.2.2.1, t.2.2.2], m.WF ∧
      m.shape = (2 ^ t.1.qubits.length, 2 ^ t.1.qubits.length))
    (hprod : ∀ t ∈ L, ∀ i < 2 ^ t.1.qubits.length, ∀ j < 2 ^ t.1.qubits.length,
      matEntry t.2.2.2 i j = ∑ k ∈ range (2 ^ t.1.qubits.length), matEntry t.2.2.1 i k * matEntry t.2.1 k j)
    (v out1 out2 out3 : List R) (hv : v.length = 2 ^ n) (h1 : out1.length = 2 ^ n) (h2 : out2.length = 2 ^ n)
    (h3 : out3.length = 2 ^ n) {i1 i2 i3 : DotImpl}
    (hi1 : ImplOK (L.map fun t => (t.1, t.2.1)) out1 i1) (hi2 : ImplOK (L.map fun t => (t.1, t.2.2.1)) out2 i2)
    (hi3 : ImplOK (L.map fun t => (t.1, t.2.2.2)) out3 i3) :
    ∃ a b, kronselectDot (L.map fun t => (t.1, t.2.1)) v n out1 0 0 i1 = .ok a ∧
      kronselectDot (L.map fun t => (t.1, t.2.2.1)) a n out2 0 0 i2 = .ok b ∧
      kronselectDot (L.map fun t => (t.1, t.2.2.2)) v n out3 0 0 i3 = .ok b := by
  have hcall : ∀ (f : Mat R × Mat R × Mat R → Mat R) (w o : List R), (∀ t ∈ L, f t.2 ∈ [t.2.1, t.2.2.1, t.2.2.2]) →
      w.length = 2 ^ n → o.length = 2 ^ n → CallOK n (L.map fun t => (t.1, f t.2)) w o 0 0 := by
    intro f w o hf hw ho
    refine ⟨by simpa [List.map_map, Function.comp_def] using hkeys, ?_, ?_, ?_, by omega, by omega⟩
    · intro km hkm
      obtain ⟨t, ht, rfl⟩ := List.mem_map.1 hkm
      exact (hshape t ht _ (hf t ht)).2
    · intro km hkm
      obtain ⟨t, ht, rfl⟩ := List.mem_map.1 hkm
      exact hlt t ht
    · intro km hkm
      obtain ⟨t, ht, rfl⟩ := List.mem_map.1 hkm
      exact (hshape t ht _ (hf t ht)).1
  refine ⟨_, _, kronselectDot_act (hcall (·.1) v out1 (by simp) hv h1) h1 hi1,
    kronselectDot_act (hcall (·.2.1) _ out2 (by simp) (length_act _ _ _) h2) h2 hi2, ?_⟩
  rw [kronselectDot_act (hcall (·.2.2) v out3 (by simp) hv h3) h3 hi3]
  congr 1
  symm
  apply act_act_of_mul
  have hm := opMat_mul_groupwise (n := n) (L.map fun t => (t.1.qubits, matEntry t.2.2.1, matEntry t.2.1)) (by
    constructor
    · simpa [List.map_map, Function.comp_def, ← List.flatMap_def] using hgs
    · intro q hq
      simp only [List.map_map, Function.comp_def, List.mem_flatten, List.mem_map] at hq
      obtain ⟨_, ⟨t, ht, rfl⟩, hq⟩ := hq
      exact hlt t ht q hq)
  simp only [List.map_map, Function.comp_def] at hm
  simp only [opsOf, List.map_map, Function.comp_def]
  rw [hm]
  exact (opMat_map_congr L (fun t => t.1.qubits) (fun t => matEntry t.2.2.2)
    (fun t => mulN (2 ^ t.1.qubits.length) (matEntry t.2.2.1) (matEntry t.2.1)) hprod).symm

-- X then Z is the product ZX, on qubits 2 and 0 (two groups)
example : let L : List (Key × Mat Int × Mat Int × Mat Int) :=
      [(.int 2, .dense 2 2 [0, 1, 1, 0], .dense 2 2 [1, 0, 0, -1], .dense 2 2 [0, 1, -1, 0]),
       (.tup [0], .dense 2 2 [1, 2, 3, 4], .dense 2 2 [0, 1, 1, 0], .dense 2 2 [3, 4, 1, 2])]
    (L.flatMap fun t => t.1.qubits).Nodup ∧ (L.map fun t => t.1.qubits).Nodup ∧
    ∀ t ∈ L, ∀ i < 2 ^ t.1.qubits.length, ∀ j < 2 ^ t.1.qubits.length,
      matEntry t.2.2.2 i j = ∑ k ∈ range (2 ^ t.1.qubits.length), matEntry t.2.2.1 i k * matEntry t.2.1 k j := by
  decide

/-- Gates that are their own inverse, with any number of controls. -/
def selfInverse : Gate → Bool
  | .not | .x | .y | .z | .h | .swap _ => true
  | .c op => selfInverse op
  | _ => false

theorem gate_square {n : Nat} (g : Gate) (gs : List (List Nat)) (hf : Fits g gs) (hgs : GroupsOK n gs)
    (hg : selfInverse g = true) (mats : List (Key × Mat ℂ)) (h : GM n g gs mats) :
    opMat n (adjOps (opsOf mats)) = opMat n (opsOf mats) := by
  have hsimple : ∀ d : List ℂ, d.length = 4 → (∀ i < 2, ∀ j < 2, (starRingEnd ℂ) (d.getD (j * 2 + i) 0)
      = d.getD (i * 2 + j) 0) → g.makemats gs = .ok (perQubit (.dense 2 2 d) gs) →
      opMat n (adjOps (opsOf mats)) = opMat n (opsOf mats) := by
    intro d _ hd hmk
    have hm := h.ok
    rw [hmk, Except.ok.injEq, perQubit_eq _ _ hgs.1] at hm
    subst hm
    simp only [opsOf, adjOps, List.map_map, Function.comp_def]
    apply opMat_map_congr gs.flatten (fun i => Key.qubits (.int i))
      (fun _ i j => (starRingEnd ℂ) (matEntry (.dense 2 2 d) j i)) (fun _ => matEntry (.dense 2 2 d))
    intro q _ i hi j hj
    simp only [Key.qubits, List.length_singleton, pow_one] at hi hj
    exact hd i hi j hj
  induction g generalizing gs mats with
  | swap k =>
    obtain ⟨a, b, rfl, _, _⟩ := hf
    have hm := h.ok
    simp only [Gate.makemats, Except.ok.injEq] at hm
    subst hm
    congr 1
    simp only [opsOf, adjOps, List.map_cons, List.map_nil, List.cons.injEq, Prod.mk.injEq, true_and, and_true]
    funext i j
    simp only [matEntry]
    unfold swapEntry
    by_cases h : i / 2 ^ k = j % 2 ^ k ∧ i % 2 ^ k = j / 2 ^ k
    · rw [if_pos h, if_pos ⟨h.2.symm, h.1.symm⟩, map_one]
    · rw [if_neg h, if_neg fun h' => h ⟨h'.2.symm, h'.1.symm⟩, map_zero]
  | c op ih =>
    obtain ⟨q, rest, rfl, hf⟩ := hf
    obtain ⟨mats0, h0⟩ := gm_exists op rest hf hgs.tail
    have h1 := gm_ctrl hgs h0
    have hm := h.ok
    rw [h1.ok, Except.ok.injEq] at hm
    subst hm
    have hq : q < n := hgs.2 q (by simp)
    have hqr : q ∉ rest.flatten := by
      have := hgs.1
      simp only [List.flatten_cons, List.singleton_append] at this
      exact (List.nodup_cons.1 this).1
    have hqt : q ∉ touched (opsOf mats0) := fun hh => hqr (touched_opsOf h0.sub q hh)
    rw [opsOf_ctrl q mats0 h0.shapes, ctrlOps_adjOps]
    have hrec := ih rest hf hgs.tail hg mats0 h0 (by
      intro d _ hd hmk
      have hm := h0.ok
      rw [hmk, Except.ok.injEq, perQubit_eq _ _ hgs.tail.1] at hm
      subst hm
      simp only [opsOf, adjOps, List.map_map, Function.comp_def]
      apply opMat_map_congr rest.flatten (fun i => Key.qubits (.int i))
        (fun _ i j => (starRingEnd ℂ) (matEntry (.dense 2 2 d) j i)) (fun _ => matEntry (.dense 2 2 d))
      intro q _ i hi j hj
      simp only [Key.qubits, List.length_singleton, pow_one] at hi hj
      exact hd i hi j hj)
    funext r c
    simp only [opMat]
    rw [kronEntry_ctrl hq _ (by rw [touched_adjOps]; exact hqt) r.2 c.2, kronEntry_ctrl hq _ hqt r.2 c.2]
    have := congrFun (congrFun hrec r) c
    simp only [opMat] at this
    rw [this]
  | not | x =>
    refine hsimple [0, 1, 1, 0] rfl ?_ rfl
    intro i hi j hj
    interval_cases i <;> interval_cases j <;> simp
  | y =>
    refine hsimple [0, -Complex.I, Complex.I, 0] rfl ?_ rfl
    intro i hi j hj
    interval_cases i <;> interval_cases j <;> simp
  | z =>
    refine hsimple [1, 0, 0, -1] rfl ?_ rfl
    intro i hi j hj
    interval_cases i <;> interval_cases j <;> simp
  | h =>
    refine hsimple [1 / (√2 : ℝ) * 1, 1 / (√2 : ℝ) * 1, 1 / (√2 : ℝ) * 1, 1 / (√2 : ℝ) * -1] rfl ?_ rfl
    intro i hi j hj
    interval_cases i <;> interval_cases j <;> simp
  | r phi => simp [selfInverse] at hg
  | rm m b => simp [selfInverse] at hg

/-- C11: Not, X, Y, Z, H and Swap, also under any number of controls, undo themselves. -/
theorem C11_self_inverse {n : Nat} (g : Gate) (hg : selfInverse g = true) (gs : List (List Nat)) (hf : Fits g gs)
    (hnd : gs.flatten.Nodup) (hlt : ∀ q ∈ gs.flatten, q < n) (state arena arena' : List ℂ)
    (hs : state.length = 2 ^ n) (ha : arena.length = 2 ^ n) (ha' : arena'.length = 2 ^ n) (impl : DotImpl)
    (hi : SchedOK n impl) :
    ∃ mid, g.apply false gs n state arena impl = .ok mid ∧ g.apply false gs n mid arena' impl = .ok state := by
  obtain ⟨mats, h⟩ := gm_exists (n := n) g gs hf ⟨hnd, hlt⟩
  refine ⟨_, gate_apply_eq ⟨hnd, hlt⟩ h hs ha hi, ?_⟩
  rw [gate_apply_eq ⟨hnd, hlt⟩ h (length_act _ _ _) ha' hi]
  congr 1
  apply act_act_of_one _ state hs
  have := h.uni
  rwa [gate_square g gs hf ⟨hnd, hlt⟩ hg mats h] at this

theorem simple_inverse {n : Nat} {g g' : Gate} {d d' : List ℂ} (gs : List (List Nat)) (hgs : GroupsOK n gs)
    (h1 : g.makemats gs = .ok (perQubit (.dense 2 2 d) gs)) (h2 : g'.makemats gs = .ok (perQubit (.dense 2 2 d') gs))
    (hd : ∀ i < 2, ∀ j < 2, d'.getD (i * 2 + j) 0 = (starRingEnd ℂ) (d.getD (j * 2 + i) 0))
    {mats mats' : List (Key × Mat ℂ)} (h : GM n g gs mats) (h' : GM n g' gs mats') :
    opMat n (opsOf mats') = opMat n (adjOps (opsOf mats)) := by
  have e1 := h.ok
  have e2 := h'.ok
  rw [h1, Except.ok.injEq, perQubit_eq _ _ hgs.1] at e1
  rw [h2, Except.ok.injEq, perQubit_eq _ _ hgs.1] at e2
  subst e1; subst e2
  simp only [opsOf, adjOps, List.map_map, Function.comp_def]
  apply opMat_map_congr gs.flatten (fun i => Key.qubits (.int i)) (fun _ => matEntry (.dense 2 2 d'))
    (fun _ i j => (starRingEnd ℂ) (matEntry (.dense 2 2 d) j i))
  intro q _ i hi j hj
  simp only [Key.qubits, List.length_singleton, pow_one] at hi hj
  exact hd i hi j hj

theorem conj_expI (phi : ℝ) : (starRingEnd ℂ) (expI phi) = expI (-phi) := by
  unfold expI
  rw [← Complex.exp_conj]
  simp

/-- C11: the phase gates: `R(phi)` is undone by `R(-phi)`, `Rm(m)` by `Rm(m, negate=True)`. -/
theorem C11_phase_inverse {n : Nat} (g g' : Gate)
    (hg : (∃ phi, g = .r phi ∧ g' = .r (-phi)) ∨ (∃ m b, g = .rm m b ∧ g' = .rm m (!b)))
    (gs : List (List Nat)) (hne : gs.flatten ≠ []) (hnd : gs.flatten.Nodup) (hlt : ∀ q ∈ gs.flatten, q < n)
    (state arena arena' : List ℂ) (hs : state.length = 2 ^ n) (ha : arena.length = 2 ^ n)
    (ha' : arena'.length = 2 ^ n) (impl : DotImpl) (hi : SchedOK n impl) :
    ∃ mid, g.apply false gs n state arena impl = .ok mid ∧ g'.apply false gs n mid arena' impl = .ok state := by
  have hgs : GroupsOK n gs := ⟨hnd, hlt⟩
  have key : ∀ d d' : List ℂ, g.makemats gs = .ok (perQubit (.dense 2 2 d) gs) →
      g'.makemats gs = .ok (perQubit (.dense 2 2 d') gs) → Fits g gs → Fits g' gs →
      (∀ i < 2, ∀ j < 2, d'.getD (i * 2 + j) 0 = (starRingEnd ℂ) (d.getD (j * 2 + i) 0)) →
      ∃ mid, g.apply false gs n state arena impl = .ok mid ∧ g'.apply false gs n mid arena' impl = .ok state := by
    intro d d' h1 h2 f1 f2 hd
    obtain ⟨mats, h⟩ := gm_exists (n := n) g gs f1 hgs
    obtain ⟨mats', h'⟩ := gm_exists (n := n) g' gs f2 hgs
    refine ⟨_, gate_apply_eq hgs h hs ha hi, ?_⟩
    rw [gate_apply_eq hgs h' (length_act _ _ _) ha' hi]
    congr 1
    apply act_act_of_one _ state hs
    rw [simple_inverse gs hgs h1 h2 hd h h']
    exact h.uni
  rcases hg with ⟨phi, rfl, rfl⟩ | ⟨m, b, rfl, rfl⟩
  · refine key [1, 0, 0, expI phi] [1, 0, 0, expI (-phi)] rfl rfl hne hne ?_
    intro i hi j hj
    interval_cases i <;> interval_cases j <;> simp [conj_expI]
  · refine key [1, 0, 0, expI (rmPhi m b)] [1, 0, 0, expI (rmPhi m (!b))] rfl rfl hne hne ?_
    have e : rmPhi m (!b) = -rmPhi m b := by
      unfold rmPhi
      cases b <;> simp <;> ring
    intro i hi j hj
    interval_cases i <;> interval_cases j <;> simp [conj_expI, e]

/-! ## C12 -/

/-- C12: two well-formed operations on disjoint qubits give the same state in either order (any kernels). -/
theorem C12_disjoint_commute {R : Type} [CommSemiring R] [DecidableEq R] {n : Nat} {A B : List (Key × Mat R)}
    {v o1 o2 o3 o4 : List R} (hA : CallOK n A v o1 0 0) (hB : CallOK n B v o2 0 0) (hv : v.length = 2 ^ n)
    (h1 : o1.length = 2 ^ n) (h2 : o2.length = 2 ^ n) (h3 : o3.length = 2 ^ n) (h4 : o4.length = 2 ^ n)
    (hd : ∀ a ∈ A, ∀ b ∈ B, ∀ q ∈ a.1.qubits, q ∉ b.1.qubits) {i1 i2 i3 i4 : DotImpl}
    (hi1 : ImplOK A o1 i1) (hi2 : ImplOK B o2 i2) (hi3 : ImplOK B o3 i3) (hi4 : ImplOK A o4 i4) :
    ∃ a b res, kronselectDot A v n o1 0 0 i1 = .ok a ∧ kronselectDot B a n o3 0 0 i3 = .ok res ∧
      kronselectDot B v n o2 0 0 i2 = .ok b ∧ kronselectDot A b n o4 0 0 i4 = .ok res := by
  have c1 : CallOK n B (act n (opsOf A) v) o3 0 0 :=
    ⟨hB.keys, hB.shapes, hB.range, hB.wf, by simp [length_act], by omega⟩
  have c2 : CallOK n A (act n (opsOf B) v) o4 0 0 :=
    ⟨hA.keys, hA.shapes, hA.range, hA.wf, by simp [length_act], by omega⟩
  refine ⟨_, _, _, kronselectDot_act hA h1 hi1, kronselectDot_act c1 h3 hi3, kronselectDot_act hB h2 hi2, ?_⟩
  rw [kronselectDot_act c2 h4 hi4]
  congr 1
  apply act_act_comm
  apply opMat_comm
  · intro q hq hq'
    simp only [touched, opsOf, List.flatMap_map, List.mem_flatMap] at hq hq'
    obtain ⟨a, ha, hqa⟩ := hq
    obtain ⟨b, hb, hqb⟩ := hq'
    exact hd a ha b hb q hqa hqb
  · intro q hq
    simp only [touched, opsOf, List.flatMap_map, List.mem_flatMap] at hq
    obtain ⟨a, ha, hqa⟩ := hq
    exact hA.range a ha q hqa
  · intro q hq
    simp only [touched, opsOf, List.flatMap_map, List.mem_flatMap] at hq
    obtain ⟨a, ha, hqa⟩ := hq
    exact hB.range a ha q hqa

-- a controlled operation on (3,0) and a dense 2-qubit matrix on (1,2) are disjoint
example : ∀ a ∈ ([(.tup [3, 0], .cmat (.dense 2 2 [0, 1, 1, 0]))] : List (Key × Mat Int)),
    ∀ b ∈ ([(.tup [1, 2], .swap 1)] : List (Key × Mat Int)), ∀ q ∈ a.1.qubits, q ∉ b.1.qubits := by
  simp [Key.qubits]

/-! ## C13 -/

/-- C13: every gate preserves the sum of squared magnitudes. -/
theorem C13_norm_preserved {n : Nat} (g : Gate) (dagger : Bool) (hdag : dagger = true → hasSwap g = false)
    (gs : List (List Nat)) (hf : Fits g gs) (hnd : gs.flatten.Nodup) (hlt : ∀ q ∈ gs.flatten, q < n)
    (state arena : List ℂ) (hs : state.length = 2 ^ n) (ha : arena.length = 2 ^ n) (impl : DotImpl)
    (hi : SchedOK n impl) :
    ∃ res, g.apply dagger gs n state arena impl = .ok res ∧ res.length = 2 ^ n ∧ norm2 res = norm2 state := by
  obtain ⟨mats, h⟩ := gm_exists (n := n) g gs hf ⟨hnd, hlt⟩
  cases dagger with
  | false =>
    exact ⟨_, gate_apply_eq ⟨hnd, hlt⟩ h hs ha hi, length_act _ _ _, norm2_act h.uni state hs⟩
  | true =>
    refine ⟨_, gate_apply_dagger_eq hf ⟨hnd, hlt⟩ h (hdag rfl) hs ha hi, length_act _ _ _, norm2_act ?_ state hs⟩
    have : adjOps (adjOps (opsOf mats)) = opsOf mats := by
      simp [adjOps, List.map_map, Function.comp_def]
    rw [this]
    exact h.uni'

/-! ## C14 -/

/-- Inner product of two states (specification). -/
noncomputable def inner2 (n : Nat) (w v : List ℂ) : ℂ :=
  ∑ r ∈ range (2 ^ n), (starRingEnd ℂ) (w.getD r 0) * v.getD r 0

/-- C14 (partial: gates without a Swap): `dagger=True` applies the adjoint, `⟨w, U v⟩ = ⟨U† w, v⟩`. -/
theorem C14_dagger_adjoint_partial {n : Nat} (g : Gate) (hsw : hasSwap g = false) (gs : List (List Nat))
    (hf : Fits g gs) (hnd : gs.flatten.Nodup) (hlt : ∀ q ∈ gs.flatten, q < n) (v w arena arena' : List ℂ)
    (hv : v.length = 2 ^ n) (hw : w.length = 2 ^ n) (ha : arena.length = 2 ^ n) (ha' : arena'.length = 2 ^ n)
    (impl : DotImpl) (hi : SchedOK n impl) :
    ∃ Uv Udw, g.apply false gs n v arena impl = .ok Uv ∧ g.apply true gs n w arena' impl = .ok Udw ∧
      inner2 n w Uv = inner2 n Udw v := by
  obtain ⟨mats, h⟩ := gm_exists (n := n) g gs hf ⟨hnd, hlt⟩
  refine ⟨_, _, gate_apply_eq ⟨hnd, hlt⟩ h hv ha hi, gate_apply_dagger_eq hf ⟨hnd, hlt⟩ h hsw hw ha' hi, ?_⟩
  have key : ∀ (A : List (List Nat × (Nat → Nat → ℂ))), (fun i : Fin (2 ^ n) => (act n A v).getD i 0)
      = (opMat n A).mulVec fun i => v.getD i 0 := by
    intro A; funext i; rw [getD_act A v i.2, kronApply_eq_mulVec]
  have key' : ∀ (A : List (List Nat × (Nat → Nat → ℂ))), (fun i : Fin (2 ^ n) => (act n A w).getD i 0)
      = (opMat n A).mulVec fun i => w.getD i 0 := by
    intro A; funext i; rw [getD_act A w i.2, kronApply_eq_mulVec]
  have hin : ∀ a b : List ℂ, inner2 n a b
      = dotProduct (star fun i : Fin (2 ^ n) => a.getD i 0) (fun i : Fin (2 ^ n) => b.getD i 0) := by
    intro a b
    unfold inner2
    rw [← sum_fin_range]
    rfl
  rw [hin, hin, key, key', Matrix.star_mulVec, opMat_adjOps, Matrix.conjTranspose_conjTranspose,
    Matrix.dotProduct_mulVec]

/-- C14 (partial: gates without a Swap): a gate followed by its dagger restores the state, and vice versa. -/
theorem C14_dagger_inverse_partial {n : Nat} (g : Gate) (hsw : hasSwap g = false) (gs : List (List Nat))
    (hf : Fits g gs) (hnd : gs.flatten.Nodup) (hlt : ∀ q ∈ gs.flatten, q < n) (v arena arena' : List ℂ)
    (hv : v.length = 2 ^ n) (ha : arena.length = 2 ^ n) (ha' : arena'.length = 2 ^ n) (first : Bool)
    (impl : DotImpl) (hi : SchedOK n impl) :
    ∃ mid, g.apply first gs n v arena impl = .ok mid ∧ g.apply (!first) gs n mid arena' impl = .ok v := by
  obtain ⟨mats, h⟩ := gm_exists (n := n) g gs hf ⟨hnd, hlt⟩
  cases first with
  | false =>
    refine ⟨_, gate_apply_eq ⟨hnd, hlt⟩ h hv ha hi, ?_⟩
    rw [Bool.not_false, gate_apply_dagger_eq hf ⟨hnd, hlt⟩ h hsw (length_act _ _ _) ha' hi]
    congr 1
    exact act_act_of_one h.uni v hv
  | true =>
    refine ⟨_, gate_apply_dagger_eq hf ⟨hnd, hlt⟩ h hsw hv ha hi, ?_⟩
    rw [Bool.not_true, gate_apply_eq ⟨hnd, hlt⟩ h (length_act _ _ _) ha' hi]
    congr 1
    exact act_act_of_one h.uni' v hv

/-- C14 (negation of the full property): a daggered Swap, or a controlled one, raises AttributeError. -/
theorem C14_dagger_swap_fails {n : Nat} (g : Gate) (hsw : hasSwap g = true) (gs : List (List Nat))
    (hf : Fits g gs) (hnd : gs.flatten.Nodup) (hlt : ∀ q ∈ gs.flatten, q < n) (v arena : List ℂ) (impl : DotImpl) :
    g.apply true gs n v arena impl = .error .attributeError := by
  unfold Gate.apply
  rw [feedMats_dagger_swap (n := n) hf ⟨hnd, hlt⟩ hsw]
  rfl

example : hasSwap (.c (.c (.y))) = false ∧ Fits (.c (.c .y)) [[3], [1], [0], [2]] :=
  ⟨rfl, 3, _, rfl, 1, _, rfl, by simp [Fits]⟩
example : hasSwap (.c (.swap 1)) = true ∧ Fits (.c (.swap 1)) [[2], [1], [0]] :=
  ⟨rfl, 2, _, rfl, [1], [0], rfl, rfl, rfl⟩

/-! ## C15 -/

/-- C15: `C(op)(c, targets...)` leaves amplitudes with control bit 0 alone and acts as `op` on the others.  `op` may
itself be controlled, may have many targets, and may be daggered. -/
theorem C15_controlled {n : Nat} (op : Gate) (dagger : Bool) (hdag : dagger = true → hasSwap op = false) (q : Nat)
    (rest : List (List Nat)) (hf : Fits op rest) (hnd : (q :: rest.flatten).Nodup)
    (hlt : ∀ p ∈ q :: rest.flatten, p < n) (v arena arena' : List ℂ) (hv : v.length = 2 ^ n)
    (ha : arena.length = 2 ^ n) (ha' : arena'.length = 2 ^ n) (impl : DotImpl) (hi : SchedOK n impl) :
    ∃ res resOp, (Gate.c op).apply dagger ([q] :: rest) n v arena impl = .ok res ∧
      op.apply dagger rest n v arena' impl = .ok resOp ∧ res.length = 2 ^ n ∧
      ∀ r < 2 ^ n, res[r]? = if qbit n r q then resOp[r]? else v[r]? := by
  have hgs : GroupsOK n ([q] :: rest) := ⟨by simpa using hnd, by simpa using hlt⟩
  obtain ⟨mats, h⟩ := gm_exists (n := n) op rest hf hgs.tail
  have hc := gm_ctrl hgs h
  have hq : q < n := hlt q (by simp)
  have hqt : q ∉ touched (opsOf mats) := fun hh => (List.nodup_cons.1 hnd).1 (touched_opsOf h.sub q hh)
  have fin : ∀ A : List (List Nat × (Nat → Nat → ℂ)), q ∉ touched A → ∀ r < 2 ^ n,
      (act n (ctrlOps q A) v)[r]? = if qbit n r q then (act n A v)[r]? else v[r]? := by
    intro A hA r hr
    have hr' : r < v.length := by omega
    simp only [act, List.getElem?_map, List.getElem?_range hr, Option.map_some, kronApply_ctrl hq A hA _ hr]
    split
    · rfl
    · simp [hr']
  cases dagger with
  | false =>
    refine ⟨_, _, gate_apply_eq hgs hc hv ha hi, gate_apply_eq hgs.tail h hv ha' hi, length_act _ _ _, ?_⟩
    rw [opsOf_ctrl q mats h.shapes]
    exact fin _ hqt
  | true =>
    refine ⟨_, _, gate_apply_dagger_eq (g := .c op) (by exact ⟨q, rest, rfl, hf⟩) hgs hc (hdag rfl) hv ha hi,
      gate_apply_dagger_eq hf hgs.tail h (hdag rfl) hv ha' hi, length_act _ _ _, ?_⟩
    rw [opsOf_ctrl q mats h.shapes, ctrlOps_adjOps]
    exact fin _ (by rw [touched_adjOps]; exact hqt)

/-! ## C16 -/

/-- C16: `Swap(a, b)`: the new amplitude of `r` is the old amplitude of the basis state with the two registers
exchanged, and that state exists and is unique. -/
theorem C16_swap {n : Nat} (a b : List Nat) (hab : a.length = b.length) (hnd : (a ++ b).Nodup)
    (hlt : ∀ q ∈ a ++ b, q < n) (v arena : List ℂ) (hv : v.length = 2 ^ n) (ha : arena.length = 2 ^ n)
    (impl : DotImpl) (hi : SchedOK n impl) :
    ∃ res, (Gate.swap a.length).apply false [a, b] n v arena impl = .ok res ∧ res.length = 2 ^ n ∧
      ∀ r < 2 ^ n, ∃! c, c < 2 ^ n ∧ Swapped n a b r c ∧ res[r]? = v[c]? := by
  have hgs : GroupsOK n [a, b] := ⟨by simpa using hnd, by simpa using hlt⟩
  obtain ⟨res, h1, h2, h3⟩ := C72_gate_semantics (n := n) (.swap a.length) [a, b] (by exact ⟨a, b, rfl, rfl, hab.symm⟩) hgs.1 hgs.2 v
    arena hv ha impl hi
  refine ⟨res, h1, h2, ?_⟩
  intro r hr
  have hn := List.nodup_append.1 hnd
  -- the partner state
  let c := spread n a (spread n b r (subIndex n a r)) (subIndex n b r)
  have hclt : c < 2 ^ n := spread_lt _ _ _ _
  have hka : subIndex n a c = subIndex n b r :=
    subIndex_spread _ hn.1 (fun q hq => hlt q (by simp [hq])) (by rw [hab]; exact subIndex_lt _ _ _)
  have hkb : subIndex n b c = subIndex n a r := by
    have e : subIndex n b c = subIndex n b (spread n b r (subIndex n a r)) := by
      apply subIndex_congr
      intro q hq
      rw [qbit_spread _ _ _ (hlt q (by simp [hq])), if_neg]
      intro hqa
      exact hn.2.2 q hqa q hq rfl
    rw [e]
    exact subIndex_spread _ hn.2.1 (fun q hq => hlt q (by simp [hq])) (by rw [← hab]; exact subIndex_lt _ _ _)
  have hag : AgreeOff n (a ++ b) r c := by
    intro q hq hq'
    simp only [List.mem_append, not_or] at hq'
    rw [qbit_spread _ _ _ hq, if_neg hq'.1, qbit_spread _ _ _ hq, if_neg hq'.2]
  have huniq : ∀ c' < 2 ^ n, Swapped n a b r c' → c' = c := by
    rintro c' hc' ⟨h4, h5, h6⟩
    have e := spread_subIndex hc' h4
    have e' := spread_subIndex hclt hag
    have : subIndex n (a ++ b) c' = subIndex n (a ++ b) c := by
      rw [subIndex_append, subIndex_append, h5, h6, hka, hkb]
    rw [← e, this, e']
  refine ⟨c, ⟨hclt, ⟨hag, hka, hkb⟩, ?_⟩, fun c' hc' => huniq c' hc'.1 hc'.2.1⟩
  rw [h3 r hr]
  simp only [gateApply, List.getD_cons_zero, List.getD_cons_succ]
  have hsing : (range (2 ^ n)).filter (fun c => Swapped n a b r c) = {c} := by
    ext x
    simp only [mem_filter, mem_range, mem_singleton]
    constructor
    · rintro ⟨hx, hx'⟩; exact huniq x hx hx'
    · rintro rfl; exact ⟨hclt, hag, hka, hkb⟩
  rw [hsing, Finset.sum_singleton]
  have : c < v.length := by omega
  simp [this]

-- swap registers (3,0) and (1,2): index 0b1001 has the exchanged index 0b0110
example : Swapped 4 [3, 0] [1, 2] 9 6 := by decide
example : ¬ Swapped 4 [3, 0] [1, 2] 9 5 := by decide

end QIP.Props
