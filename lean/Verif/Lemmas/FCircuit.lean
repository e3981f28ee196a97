import Verif.Lemmas.Rounding
import Verif.Lemmas.RunState
import Verif.Lemmas.Born
import Verif.Lemmas.FMeasure
import Verif.Props.Rounding
import Verif.Spec.FCircuit

/-! # Circuits with measurements in rounded arithmetic -/

namespace QIP

open Spec Finset

variable {A : Arith} [A.Ideal] {t n : Nat}

/-! ## Gates run backwards -/

theorem adjOps_uni {mats dm : List (Key × Mat ℂ)} (h : opMat n (opsOf dm) = opMat n (adjOps (opsOf mats)))
    (hu : opMat n (adjOps (opsOf mats)) * opMat n (opsOf mats) = 1)
    (hu' : opMat n (opsOf mats) * opMat n (adjOps (opsOf mats)) = 1) :
    opMat n (adjOps (opsOf dm)) * opMat n (opsOf dm) = 1 ∧ opMat n (opsOf dm) * opMat n (adjOps (opsOf dm)) = 1 := by
  have e : opMat n (adjOps (opsOf dm)) = opMat n (opsOf mats) := by
    rw [opMat_adjOps, h, opMat_adjOps, Matrix.conjTranspose_conjTranspose]
  rw [e, h]
  exact ⟨hu', hu⟩

theorem opMat_apply {a b : List (List Nat × (Nat → Nat → ℂ))} (h : opMat n a = opMat n b) (v : Nat → ℂ) {r : Nat} (hr : r < 2 ^ n) :
    kronApply n a v r = kronApply n b v r := by
  unfold kronApply
  apply Finset.sum_congr rfl
  intro c hc
  have := congrFun (congrFun h ⟨r, hr⟩) ⟨c, mem_range.1 hc⟩
  simp only [opMat] at this
  rw [this]

/-- `gate_rounding` for a gate run backwards. -/
theorem gate_rounding_back (run : Nat) {g : Gate} {gs : List (List Nat)} (hf : Fits g gs) (hgs : GroupsOK n gs) (hsw : hasSwap g = false)
    {mats : List (Key × Mat ℂ)} {matsF : List (Key × Mat (FC A))} (hm : g.feedMats true gs = .ok mats)
    (hF : List.Forall₂ (fun (a : Key × Mat (FC A)) (b : Key × Mat ℂ) => a.1 = b.1 ∧ MatNear t a.2 b.2) matsF mats)
    {sched : List Nat} (hs : sched.Perm (List.range (2 ^ n))) {v arena : List (FC A)} (hv : v.length = 2 ^ n)
    (ha : arena.length = 2 ^ n) :
    ∃ w, kronselectDotF run matsF v n arena 0 0 sched = .ok w ∧ w.length = 2 ^ n ∧
      dist2 n (fun c => (w.getD c 0).val) (adjApply n g gs fun c => (v.getD c 0).val)
        ≤ gateErr A.u t gs.flatten.length * dist2 n (fun c => (v.getD c 0).val) 0 := by
  obtain ⟨ms, hgm⟩ := gm_exists g gs hf hgs
  obtain ⟨dm, d1, d2, d3, d4, d5⟩ := feedMats_dagger hf hgs hgm hsw
  rw [d1] at hm
  injection hm with hm
  subst hm
  have hmem : ∀ km ∈ dm, ∃ km' ∈ ms, km.1 = km'.1 := by
    intro km hkm
    have : km.1 ∈ ms.map (·.1) := by
      rw [← d2]
      exact List.mem_map_of_mem hkm
    obtain ⟨km', h1, h2⟩ := List.mem_map.1 this
    exact ⟨km', h1, h2.symm⟩
  have hlen : dm.length = ms.length := by simpa using congrArg List.length d2
  refine mats_rounding run hgs.2 ?_ ?_ ?_ d3 ?_ d4 (hlen ▸ makemats_length hf hgs hgm.ok) ?_ (adjOps_uni d5 hgm.uni hgm.uni').2 hF hs hv ha
  · intro h
    rw [h] at hlen
    exact hgm.ne (List.length_eq_zero_iff.1 hlen.symm)
  · intro km hkm km' hkm'
    obtain ⟨a, ha, e⟩ := hmem km hkm
    obtain ⟨b, hb, e'⟩ := hmem km' hkm'
    rw [e, e']
    exact hgm.len a ha b hb
  · have e : (dm.map fun km => km.1.qubits) = (dm.map (·.1)).map Key.qubits := by simp
    have e' : (ms.map fun km => km.1.qubits) = (ms.map (·.1)).map Key.qubits := by simp
    rw [e, d2, ← e']
    exact hgm.keys
  · intro km hkm
    obtain ⟨a, ha, e⟩ := hmem km hkm
    rw [e]
    exact hgm.sub a ha
  · intro w r hr
    rw [opMat_apply d5 w hr, adjApply_eq hgm w hr]

theorem dist2_adj {g : Gate} {gs : List (List Nat)} (hf : Fits g gs) (hgs : GroupsOK n gs) (v w : Nat → ℂ) :
    dist2 n (adjApply n g gs v) (adjApply n g gs w) = dist2 n v w := by
  obtain ⟨ms, hgm⟩ := gm_exists g gs hf hgs
  refine dist2_unitary (ops := adjOps (opsOf ms)) ?_ (fun v r hr => adjApply_eq hgm v hr) v w
  have e : opMat n (adjOps (adjOps (opsOf ms))) = opMat n (opsOf ms) := by
    rw [opMat_adjOps, opMat_adjOps, Matrix.conjTranspose_conjTranspose]
  rw [e]
  exact hgm.uni'

/-! ## Steps that are not measurements -/

/-- What is required of a step of a circuit on `n` qubits. -/
def StepOK (n : Nat) : QStep → Prop
  | .gate g back gs => Fits g gs ∧ GroupsOK n gs ∧ (back = true → hasSwap g = false)
  | .func reg1 reg2 f => RegsOK n reg1 reg2 ∧ Returns reg1 f (fval f) ∧
      (n = reg1.length + reg2.length ∨ n = reg1.length + 2 * reg2.length)
  | .measure idx => IdxOK n idx

/-- A real-linear map that preserves distances. -/
structure Iso (n : Nat) (T : (Nat → ℂ) → Nat → ℂ) : Prop where
  dist : ∀ v w, dist2 n (T v) (T w) = dist2 n v w
  scale : ∀ (a : ℝ) v, ∀ r < 2 ^ n, T (fun c => a * v c) r = a * T v r

theorem sum_oracle {reg1 reg2 : List Nat} (hregs : RegsOK n reg1 reg2) (f : Nat → Int) (v : Nat → ℂ) (r : Nat) :
    ∑ c ∈ (range (2 ^ n)).filter (fun c => OraclePre n reg1 reg2 f r c), v c = v (oraclePre n reg1 reg2 f r) := by
  have hsing : (range (2 ^ n)).filter (fun c => OraclePre n reg1 reg2 f r c) = {oraclePre n reg1 reg2 f r} := by
    ext i
    simp only [mem_filter, mem_range, mem_singleton]
    constructor
    · rintro ⟨h1, h2⟩; exact (oraclePre_iff hregs f h1).1 h2
    · rintro rfl
      exact ⟨spread_lt _ _ _ _, (oraclePre_iff hregs f (spread_lt _ _ _ _)).2 rfl⟩
  rw [hsing, Finset.sum_singleton]

theorem kronApply_scale (ops : List (List Nat × (Nat → Nat → ℂ))) (a : ℝ) (v : Nat → ℂ) (r : Nat) :
    kronApply n ops (fun c => a * v c) r = a * kronApply n ops v r := by
  unfold kronApply
  rw [Finset.mul_sum]
  apply Finset.sum_congr rfl
  intro c _
  ring

theorem iso_step {s : QStep} (hs : StepOK n s) (hm : ∀ idx, s ≠ .measure idx) : Iso n (stepApply n s) := by
  cases s with
  | measure idx => exact absurd rfl (hm idx)
  | gate g back gs =>
    obtain ⟨hf, hgs, -⟩ := hs
    obtain ⟨ms, hgm⟩ := gm_exists g gs hf hgs
    cases back with
    | false =>
      refine ⟨dist2_gate hf hgs, fun a v r hr => ?_⟩
      simp only [stepApply]
      rw [← hgm.sem _ r hr, ← hgm.sem v r hr, kronApply_scale]
    | true =>
      refine ⟨dist2_adj hf hgs, fun a v r hr => ?_⟩
      simp only [stepApply]
      rw [← adjApply_eq hgm _ hr, ← adjApply_eq hgm v hr, kronApply_scale]
  | func reg1 reg2 f =>
    obtain ⟨hregs, -, -⟩ := hs
    refine ⟨fun v w => ?_, fun a v r hr => ?_⟩
    · simp only [stepApply, sum_oracle hregs]
      unfold dist2
      congr 1
      have inv := fun r hr => Props.oraclePre_involution hregs (fval f) (r := r) hr
      apply Finset.sum_bij' (fun i _ => oraclePre n reg1 reg2 (fval f) i) (fun i _ => oraclePre n reg1 reg2 (fval f) i)
      · intro i _; exact mem_range.2 (spread_lt _ _ _ _)
      · intro i _; exact mem_range.2 (spread_lt _ _ _ _)
      · intro i hi; exact inv i (mem_range.1 hi)
      · intro i hi; exact inv i (mem_range.1 hi)
      · intro i _; rfl
    · simp only [stepApply, sum_oracle hregs]

/-- A backend with state and arena of full length. -/
structure FState.Full (n : Nat) (b : FState A) : Prop where
  size : b.n = n
  state : b.state.length = 2 ^ n
  arena : b.arena.length = 2 ^ n

/-- The error of a step that is not a measurement. -/
noncomputable def unitErr (u : ℝ) (t : Nat) : QStep → ℝ
  | .gate _ _ gs => gateErr u t gs.flatten.length
  | _ => 0

theorem kron_step {g : Gate} {back : Bool} {gs : List (List Nat)} (hs : StepOK n (.gate g back gs)) {matsF : List (Key × Mat (FC A))}
    {sched : List Nat} {call : Nat} (hp : Performs A t n (.kron matsF sched call) (.gate g back gs)) {b : FState A} (hb : b.Full n) :
    ∃ b', b.kron matsF sched call = .ok b' ∧ b'.Full n ∧
      dist2 n (ampsOf b') (stepApply n (.gate g back gs) (ampsOf b)) ≤ gateErr A.u t gs.flatten.length * dist2 n (ampsOf b) 0 := by
  obtain ⟨hf, hgs, hsw⟩ := hs
  cases hp with
  | @gate _ _ _ mats _ _ _ hm hF hs =>
  have key : ∃ w, kronselectDotF call matsF b.state n b.arena 0 0 sched = .ok w ∧ w.length = 2 ^ n ∧
      dist2 n (fun c => (w.getD c 0).val) (stepApply n (.gate g back gs) (ampsOf b))
        ≤ gateErr A.u t gs.flatten.length * dist2 n (ampsOf b) 0 := by
    cases back with
    | false => exact gate_rounding call hf hgs hm hF hs hb.state hb.arena
    | true => exact gate_rounding_back call hf hgs (hsw rfl) hm hF hs hb.state hb.arena
  obtain ⟨w, h1, h2, h3⟩ := key
  refine ⟨{ b with state := w, arena := b.state }, ?_, ⟨hb.size, h2, hb.state⟩, h3⟩
  unfold FState.kron
  rw [hb.size, h1]
  rfl

omit [A.Ideal] in
theorem func_step {reg1 reg2 : List Nat} {f : Nat → Except PyErr Int} (hs : StepOK n (.func reg1 reg2 f))
    {order : List (Nat × Nat × Nat)} {garb : Nat → Nat} (ho : order.Perm (faCounters n reg1 reg2)) {b : FState A} (hb : b.Full n) :
    ∃ b', b.func reg1 reg2 f order garb = .ok b' ∧ b'.Full n ∧
      dist2 n (ampsOf b') (stepApply n (.func reg1 reg2 f) (ampsOf b)) = 0 := by
  obtain ⟨hregs, hf, hby⟩ := hs
  have hbl : (Props.bystanders n reg1 reg2).length = n - (reg1 ++ reg2).length := by
    rw [← Props.faOther_eq]
    simpa using hregs.length_other
  rw [List.length_append] at hbl
  obtain ⟨out, o1, o2, o3⟩ := Props.C17_func_apply_partial hregs (by omega) hf b.state b.arena hb.state hb.arena true order ho garb
  refine ⟨{ b with state := out, arena := b.state }, ?_, ⟨hb.size, o2, hb.state⟩, ?_⟩
  · unfold FState.func backendFuncApply
    rw [hb.size, o1]
    rfl
  · unfold dist2
    rw [Finset.sum_eq_zero, Real.sqrt_zero]
    intro r hr
    have hr := mem_range.1 hr
    obtain ⟨d, ⟨hd, hd2, hd3⟩, -⟩ := o3 r hr
    have e : out.getD r 0 = b.state.getD (oraclePre n reg1 reg2 (fval f) r) 0 := by
      rw [List.getD_eq_getElem?_getD, hd3, (oraclePre_iff hregs (fval f) hd).1 hd2, List.getD_eq_getElem?_getD]
    simp only [stepApply, sum_oracle hregs, ampsOf]
    rw [e, sub_self, norm_zero]
    norm_num

end QIP
