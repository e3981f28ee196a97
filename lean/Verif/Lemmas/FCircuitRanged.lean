import Verif.Lemmas.FCircuit
import Verif.Lemmas.CGate

/-! # Steps of circuits in rounded arithmetic, with underflow and overflow -/

namespace QIP

open Spec Finset

variable {A : Arith} {t n : Nat}

/-! ## Matrices of gates run backwards -/

theorem gateEntry_conj {z : ℂ} (h : GateEntry z) : GateEntry ((starRingEnd ℂ) z) := by
  rcases h with rfl | h
  · left
    simp
  · right
    rwa [Complex.norm_conj]

theorem gateEntry_getD {d : List ℂ} (h : ∀ z ∈ d, GateEntry z) (i : Nat) : GateEntry (d.getD i 0) := by
  rw [List.getD_eq_getElem?_getD]
  cases hi : d[i]? with
  | none => exact .inl rfl
  | some z => exact h z (List.mem_of_getElem? hi)

theorem conj_stored {m m' : Mat ℂ} (h : m.conj = .ok m') (hs : Props.Stored GateEntry m) : Props.Stored GateEntry m' := by
  induction m generalizing m' with
  | dense r c d =>
    simp only [Mat.conj, Except.ok.injEq] at h
    subst h
    intro z hz
    obtain ⟨x, hx, rfl⟩ := List.mem_map.1 hz
    exact gateEntry_conj (hs x hx)
  | cmat m ih =>
    simp only [Mat.conj, bind, Except.bind] at h
    cases hm : m.conj with
    | error e => rw [hm] at h; cases h
    | ok m1 =>
      rw [hm] at h
      simp only [pure, Except.pure, Except.ok.injEq] at h
      subst h
      exact show Props.Stored GateEntry m1 from ih hm hs
  | swap k => cases h

theorem T_stored {m m' : Mat ℂ} (h : m.T = .ok m') (hs : Props.Stored GateEntry m) : Props.Stored GateEntry m' := by
  induction m generalizing m' with
  | dense r c d =>
    simp only [Mat.T, Except.ok.injEq] at h
    subst h
    intro z hz
    obtain ⟨x, -, rfl⟩ := List.mem_map.1 hz
    exact gateEntry_getD hs _
  | cmat m ih =>
    simp only [Mat.T, bind, Except.bind] at h
    cases hm : m.T with
    | error e => rw [hm] at h; cases h
    | ok m1 =>
      rw [hm] at h
      simp only [pure, Except.pure, Except.ok.injEq] at h
      subst h
      exact show Props.Stored GateEntry m1 from ih hm hs
  | swap k => cases h

theorem feedMats_stored {g : Gate} {back : Bool} {gs : List (List Nat)} {mats : List (Key × Mat ℂ)} (h : g.feedMats back gs = .ok mats) :
    ∀ km ∈ mats, Props.Stored GateEntry km.2 := by
  unfold Gate.feedMats at h
  cases hm : g.makemats gs with
  | error e => rw [hm] at h; cases h
  | ok ms =>
    rw [hm] at h
    have hst := Props.makemats_stored hm
    cases back with
    | false =>
      simp only [bind, Except.bind, Bool.false_eq_true, if_false, pure, Except.pure, Except.ok.injEq] at h
      subst h
      exact hst
    | true =>
      simp only [bind, Except.bind, if_true] at h
      intro km hkm
      obtain ⟨x, hx, he⟩ := C32.mapM_mem h km hkm
      cases h1 : x.2.conj with
      | error e => rw [h1] at he; cases he
      | ok m1 =>
        rw [h1] at he
        dsimp only at he
        cases h2 : m1.T with
        | error e => rw [h2] at he; cases he
        | ok m2 =>
          rw [h2] at he
          simp only [pure, Except.pure, Except.ok.injEq] at he
          subst he
          exact T_stored h2 (conj_stored h1 (hst x hx))

theorem stored_small {m : Mat ℂ} (h : Props.Stored GateEntry m) (i j : Nat) : ‖matEntry m i j‖ ≤ 1 := by
  induction m generalizing i j with
  | dense r c d =>
    rcases gateEntry_getD h (i * c + j) with h | h
    · simp only [matEntry]
      rw [h]
      simp
    · exact h.2
  | cmat m ih =>
    simp only [matEntry, ctrlEntry]
    split
    · split <;> simp
    · split
      · exact ih h _ _
      · simp
  | swap k =>
    simp only [matEntry, swapEntry]
    split <;> simp

/-- `gate_ranged` for a gate run backwards. -/
theorem gate_ranged_back [A.Ranged] (run : Nat) {g : Gate} {gs : List (List Nat)} (hf : Fits g gs) (hgs : GroupsOK n gs) (hsw : hasSwap g = false)
    {mats : List (Key × Mat ℂ)} {matsF : List (Key × Mat (FC A))} (hm : g.feedMats true gs = .ok mats)
    (hF : List.Forall₂ (fun (a : Key × Mat (FC A)) (b : Key × Mat ℂ) => a.1 = b.1 ∧ MatNear t a.2 b.2) matsF mats)
    (hr : InRange A t gs.flatten.length)
    {sched : List Nat} (hs : sched.Perm (List.range (2 ^ n))) {v arena : List (FC A)} (hv : v.length = 2 ^ n)
    (hB : dist2 n (fun c => (v.getD c 0).val) 0 ≤ 2) (ha : arena.length = 2 ^ n) :
    ∃ w, kronselectDotF run matsF v n arena 0 0 sched = .ok w ∧ w.length = 2 ^ n ∧
      dist2 n (fun c => (w.getD c 0).val) (adjApply n g gs fun c => (v.getD c 0).val)
        ≤ gateErr A.u t gs.flatten.length * dist2 n (fun c => (v.getD c 0).val) 0 + gateTiny A.eta n gs.flatten.length := by
  obtain ⟨ms, hgm⟩ := gm_exists g gs hf hgs
  have hst := feedMats_stored hm
  obtain ⟨dm, d1, d2, d3, d4, d5⟩ := feedMats_dagger hf hgs hgm hsw
  rw [d1] at hm
  injection hm with hm
  subst hm
  have hmem : ∀ km ∈ dm, ∃ km' ∈ ms, km.1 = km'.1 := by
    intro km hkm
    have : km.1 ∈ ms.map (·.1) := by
      rw [← d2]
      exact List.mem_map_of_mem hkm
    obtain ⟨km', h1, h2⟩ := List.mem_map.1 this
    exact ⟨km', h1, h2.symm⟩
  have hlen : dm.length = ms.length := by simpa using congrArg List.length d2
  have hsmall : SmallEntries (normed dm) := by
    intro gm hgm'
    obtain ⟨km, hkm, rfl⟩ := List.mem_map.1 hgm'
    exact stored_small (hst km hkm)
  refine mats_ranged run hgs.2 ?_ ?_ ?_ d3 ?_ d4 (hlen ▸ makemats_length hf hgs hgm.ok) ?_ (adjOps_uni d5 hgm.uni hgm.uni').2 hsmall hF
    hr.1 hr.2.1 hr.2.2 hs hv hB ha
  · intro h
    rw [h] at hlen
    exact hgm.ne (List.length_eq_zero_iff.1 hlen.symm)
  · intro km hkm km' hkm'
    obtain ⟨a, ha, e⟩ := hmem km hkm
    obtain ⟨b, hb, e'⟩ := hmem km' hkm'
    rw [e, e']
    exact hgm.len a ha b hb
  · have e : (dm.map fun km => km.1.qubits) = (dm.map (·.1)).map Key.qubits := by simp
    have e' : (ms.map fun km => km.1.qubits) = (ms.map (·.1)).map Key.qubits := by simp
    rw [e, d2, ← e']
    exact hgm.keys
  · intro km hkm
    obtain ⟨a, ha, e⟩ := hmem km hkm
    rw [e]
    exact hgm.sub a ha
  · intro w r hr
    rw [opMat_apply d5 w hr, adjApply_eq hgm w hr]

theorem kron_step_ranged [A.Ranged] {g : Gate} {back : Bool} {gs : List (List Nat)} (hs : StepOK n (.gate g back gs))
    (hr : InRange A t gs.flatten.length) {matsF : List (Key × Mat (FC A))} {sched : List Nat} {call : Nat}
    (hp : Performs A t n (.kron matsF sched call) (.gate g back gs)) {b : FState A} (hb : b.Full n)
    (h1 : 1 / 2 ≤ dist2 n (ampsOf b) 0) (h2 : dist2 n (ampsOf b) 0 ≤ 2) :
    ∃ b', b.kron matsF sched call = .ok b' ∧ b'.Full n ∧
      dist2 n (ampsOf b') (stepApply n (.gate g back gs) (ampsOf b))
        ≤ (gateErr A.u t gs.flatten.length + 2 * gateTiny A.eta n gs.flatten.length) * dist2 n (ampsOf b) 0 := by
  obtain ⟨hf, hgs, hsw⟩ := hs
  cases hp with
  | @gate _ _ _ mats _ _ _ hm hF hs =>
  have key : ∃ w, kronselectDotF call matsF b.state n b.arena 0 0 sched = .ok w ∧ w.length = 2 ^ n ∧
      dist2 n (fun c => (w.getD c 0).val) (stepApply n (.gate g back gs) (ampsOf b))
        ≤ gateErr A.u t gs.flatten.length * dist2 n (ampsOf b) 0 + gateTiny A.eta n gs.flatten.length := by
    cases back with
    | false => exact gate_ranged call hf hgs hm hF hr.1 hr.2.1 hr.2.2 hs hb.state h2 hb.arena
    | true => exact gate_ranged_back call hf hgs (hsw rfl) hm hF hr hs hb.state h2 hb.arena
  obtain ⟨w, k1, k2, k3⟩ := key
  refine ⟨{ b with state := w, arena := b.state }, ?_, ⟨hb.size, k2, hb.state⟩, k3.trans ?_⟩
  · unfold FState.kron
    rw [hb.size, k1]
    rfl
  · have := Props.gateTiny_nonneg A.eta_nonneg n gs.flatten.length
    nlinarith

end QIP
