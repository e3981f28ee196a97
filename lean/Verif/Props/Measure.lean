import Mathlib.MeasureTheory.Measure.Lebesgue.Basic
import Verif.Lemmas.MeasureState
import Verif.Props.Kron

/-!
# C23 – C26, C28, C29: measurement
-/

namespace QIP.Props

open QIP QIP.Spec Finset

/-! ## C23 -/

/-- The draws in `[0, 1)` for which `measure` returns outcome `m`. -/
def drawsGiving (b : BState) (indices : List Nat) (garbage : ℝ) (m : Nat) : Set ℝ :=
  {u | 0 ≤ u ∧ u < 1 ∧ ∃ p, (b.measure indices none none 0 0 u garbage).1 = .ok (m, p)}

theorem drawsGiving_subset {b : BState} (hb : b.Full) {indices : List Nat} (h : IdxOK b.n indices)
    (hT : 0 < Spec.totalProb b.n b.amp) (m : Nat) :
    drawsGiving b indices 0 m ⊆ Set.Icc (cumProb b.n indices b.amp m / Spec.totalProb b.n b.amp)
      (cumProb b.n indices b.amp (m + 1) / Spec.totalProb b.n b.amp) := by
  rintro u ⟨h0, h1, p, hp⟩
  obtain ⟨m', hm', hlo, hhi, _, hr⟩ := BState.measure_spec hb h u 0
  rw [hr] at hp
  split at hp
  · cases hp
  · simp only [Except.ok.injEq, Prod.mk.injEq] at hp
    obtain ⟨rfl, _⟩ := hp
    rw [zero_add] at hlo hhi
    constructor
    · rw [div_le_iff₀ hT]
      cases m' with
      | zero => simp only [cumProb, Finset.range_zero, Finset.sum_empty]; positivity
      | succ j => exact (hlo j (by omega)).le
    · rw [le_div_iff₀ hT]
      rcases hhi with e | e
      · rw [e, cumProb_top h]
        nlinarith
      · exact e

theorem subset_drawsGiving {b : BState} (hb : b.Full) {indices : List Nat} (h : IdxOK b.n indices)
    (hT : 0 < Spec.totalProb b.n b.amp) {m : Nat} (hm : m < 2 ^ indices.length) :
    Set.Ioo (cumProb b.n indices b.amp m / Spec.totalProb b.n b.amp)
      (cumProb b.n indices b.amp (m + 1) / Spec.totalProb b.n b.amp) ⊆ drawsGiving b indices 0 m := by
  rintro u ⟨hlo', hhi'⟩
  rw [div_lt_iff₀ hT] at hlo'
  rw [lt_div_iff₀ hT] at hhi'
  have hc0 : 0 ≤ cumProb b.n indices b.amp m := Finset.sum_nonneg fun _ _ => outcomeProb_nonneg _ _ _ _
  have hc1 : cumProb b.n indices b.amp (m + 1) ≤ Spec.totalProb b.n b.amp := by
    rw [← cumProb_top h]; exact cumProb_mono _ _ _ (by omega)
  have hu0 : 0 < u := by
    by_contra hn
    have : u * Spec.totalProb b.n b.amp ≤ 0 := mul_nonpos_of_nonpos_of_nonneg (by linarith) hT.le
    linarith
  have hu1 : u < 1 := by
    by_contra hn
    have : Spec.totalProb b.n b.amp ≤ u * Spec.totalProb b.n b.amp := le_mul_of_one_le_left hT.le (by linarith)
    linarith
  obtain ⟨m', hm', hlo, hhi, _, hr⟩ := BState.measure_spec hb h u 0
  rw [zero_add] at hlo hhi
  have e : m' = m := by
    rcases lt_trichotomy m' m with hlt | e | hgt
    · rcases hhi with hhi | hhi
      · omega
      · have := cumProb_mono b.n indices b.amp (show m' + 1 ≤ m by omega)
        linarith
    · exact e
    · have := hlo m hgt
      linarith
  subst e
  refine ⟨hu0.le, hu1, outcomeProb b.n indices b.amp m', ?_⟩
  rw [hr, if_neg]
  intro hz
  rw [cumProb_succ, hz] at hhi'
  linarith

/-- C23 (partial: the uninitialised accumulator of `prob_magnitude` happens to be 0): the set of uniform draws for
which outcome `m` is returned has measure `prob(m) / total`, and whenever `m` is returned the returned probability is
`prob(m)`. -/
theorem C23_born_rule_partial {b : BState} (hb : b.Full) {indices : List Nat} (h : IdxOK b.n indices)
    (hT : 0 < Spec.totalProb b.n b.amp) :
    (∀ m < 2 ^ indices.length, MeasureTheory.volume (drawsGiving b indices 0 m)
      = ENNReal.ofReal (outcomeProb b.n indices b.amp m / Spec.totalProb b.n b.amp)) ∧
    (∀ u m p, (b.measure indices none none 0 0 u 0).1 = .ok (m, p) →
      m < 2 ^ indices.length ∧ p = outcomeProb b.n indices b.amp m) := by
  constructor
  · intro m hm
    have e : outcomeProb b.n indices b.amp m / Spec.totalProb b.n b.amp
        = cumProb b.n indices b.amp (m + 1) / Spec.totalProb b.n b.amp
          - cumProb b.n indices b.amp m / Spec.totalProb b.n b.amp := by
      rw [cumProb_succ]; ring
    rw [e]
    apply le_antisymm
    · rw [← Real.volume_Icc]
      exact MeasureTheory.measure_mono (drawsGiving_subset hb h hT m)
    · rw [← Real.volume_Ioo]
      exact MeasureTheory.measure_mono (subset_drawsGiving hb h hT hm)
  · intro u m p hp
    obtain ⟨m', hm', _, _, _, hr⟩ := BState.measure_spec hb h u 0
    rw [hr] at hp
    split at hp
    · cases hp
    · simp only [Except.ok.injEq, Prod.mk.injEq] at hp
      obtain ⟨rfl, rfl⟩ := hp
      exact ⟨hm', rfl⟩

/-- C23 (same condition): the draws giving outcome `m` form an interval of length `prob(m) / total`, with or without its ends. -/
theorem C23_interval_partial {b : BState} (hb : b.Full) {indices : List Nat} (h : IdxOK b.n indices)
    (hT : 0 < Spec.totalProb b.n b.amp) {m : Nat} (hm : m < 2 ^ indices.length) :
    ∃ lo : ℝ, Set.Ioo lo (lo + outcomeProb b.n indices b.amp m / Spec.totalProb b.n b.amp) ⊆ drawsGiving b indices 0 m ∧
      drawsGiving b indices 0 m ⊆ Set.Icc lo (lo + outcomeProb b.n indices b.amp m / Spec.totalProb b.n b.amp) := by
  have e : cumProb b.n indices b.amp m / Spec.totalProb b.n b.amp + outcomeProb b.n indices b.amp m / Spec.totalProb b.n b.amp
      = cumProb b.n indices b.amp (m + 1) / Spec.totalProb b.n b.amp := by
    rw [cumProb_succ]; ring
  refine ⟨cumProb b.n indices b.amp m / Spec.totalProb b.n b.amp, ?_, ?_⟩ <;> rw [e]
  · exact subset_drawsGiving hb h hT hm
  · exact drawsGiving_subset hb h hT m

/-- C23 (negation of the full property): if the uninitialised accumulator holds `g > 0`, then measuring at least one
qubit of a normalised state in which the last outcome is impossible raises ZeroDivisionError for every draw above
`1 / (1 + g)`. -/
theorem C23_garbage {b : BState} (hb : b.Full) {indices : List Nat} (h : IdxOK b.n indices)
    (hT : Spec.totalProb b.n b.amp = 1) (hlast : outcomeProb b.n indices b.amp (2 ^ indices.length - 1) = 0)
    {g u : ℝ} (hg : 0 < g) (hu : 1 / (1 + g) < u) :
    b.measure indices none none 0 0 u g = (.error .zeroDivision, b) := by
  obtain ⟨m, hm, hlo, hhi, _, hr⟩ := BState.measure_spec hb h u g
  have e : m + 1 = 2 ^ indices.length := by
    rcases hhi with e | e
    · exact e
    · exfalso
      have h1 : cumProb b.n indices b.amp (m + 1) ≤ 1 := by
        rw [← hT, ← cumProb_top h]; exact cumProb_mono _ _ _ (by omega)
      rw [hT] at e
      rw [div_lt_iff₀ (by linarith)] at hu
      linarith
  have e' : m = 2 ^ indices.length - 1 := by omega
  rw [hr, if_pos (by rw [e', hlast])]

/-- The one-qubit state `|0⟩`. -/
noncomputable def ket0 : BState := ⟨1, [1, 0], [0, 0]⟩

theorem ket0_full : ket0.Full := ⟨rfl, rfl⟩
theorem ket0_idx : IdxOK ket0.n [0] := ⟨by decide, by decide⟩
theorem ket0_amp0 : ket0.amp 0 = 1 := by simp [ket0, BState.amp]
theorem ket0_amp1 : ket0.amp 1 = 0 := by simp [ket0, BState.amp]
theorem ket0_total : Spec.totalProb ket0.n ket0.amp = 1 := by
  have : ket0.n = 1 := rfl
  simp [Spec.totalProb, this, Finset.sum_range_succ, ket0_amp0, ket0_amp1]
theorem ket0_last : outcomeProb ket0.n [0] ket0.amp (2 ^ [0].length - 1) = 0 := by
  have e : ((range (2 ^ ket0.n)).filter (fun c => subIndex ket0.n (inOrder ket0.n [0]) c = 2 ^ [0].length - 1)) = {1} := by
    decide
  unfold outcomeProb
  rw [e]
  simp [ket0_amp1]

-- the hypotheses of `C23_garbage` and `C23_born_rule_partial` are met
example : ket0.measure [0] none none 0 0 (3 / 4) 1 = (.error .zeroDivision, ket0) :=
  C23_garbage ket0_full ket0_idx ket0_total ket0_last (by norm_num) (by norm_num)
example : MeasureTheory.volume (drawsGiving ket0 [0] 0 1) = 0 := by
  rw [(C23_born_rule_partial ket0_full ket0_idx (by rw [ket0_total]; norm_num)).1 1 (by norm_num)]
  have := ket0_last
  norm_num at this
  rw [this]; simp

/-! ## C24 -/

/-- C24 (partial: draw different from 0, accumulator 0): an outcome is returned, and it has positive probability. -/
theorem C24_possible_partial {b : BState} (hb : b.Full) {indices : List Nat} (h : IdxOK b.n indices)
    (hT : 0 < Spec.totalProb b.n b.amp) {u : ℝ} (h0 : 0 < u) (h1 : u < 1) :
    ∃ m p, (b.measure indices none none 0 0 u 0).1 = .ok (m, p) ∧ m < 2 ^ indices.length ∧
      p = outcomeProb b.n indices b.amp m ∧ 0 < p := by
  obtain ⟨m, hm, hlo, hhi, _, hr⟩ := BState.measure_spec hb h u 0
  rw [zero_add] at hlo hhi
  have hp : 0 < outcomeProb b.n indices b.amp m := by
    rcases (outcomeProb_nonneg b.n indices b.amp m).lt_or_eq with hp | hp
    · exact hp
    · exfalso
      have e := cumProb_succ b.n indices b.amp m
      rw [← hp, add_zero] at e
      have hu : 0 < u * Spec.totalProb b.n b.amp := by positivity
      have hu' : u * Spec.totalProb b.n b.amp < Spec.totalProb b.n b.amp := by nlinarith
      have hcm : cumProb b.n indices b.amp m < u * Spec.totalProb b.n b.amp := by
        cases m with
        | zero => simpa [cumProb] using hu
        | succ j => exact hlo j (by omega)
      rcases hhi with hh | hh
      · rw [hh, cumProb_top h] at e
        linarith
      · linarith
  refine ⟨m, _, ?_, hm, rfl, hp⟩
  rw [hr, if_neg hp.ne']

/-- C24 (negation of the full property): with the draw 0 (which `random.random()` can return) the outcome 0 is taken
even when it is impossible: `soft_measure` returns it with probability 0 and `measure` raises ZeroDivisionError. -/
theorem C24_draw_zero {b : BState} (hb : b.Full) {indices : List Nat} (h : IdxOK b.n indices)
    (hz : outcomeProb b.n indices b.amp 0 = 0) :
    softMeasure indices b.n b.state none 0 0 0 = .ok (0, 0) ∧
      b.measure indices none none 0 0 0 0 = (.error .zeroDivision, b) := by
  obtain ⟨m, hm, hlo, hhi, hs, hr⟩ := BState.measure_spec hb h 0 0
  have e : m = 0 := by
    by_contra hne
    have := hlo 0 (by omega)
    rw [cumProb_succ, hz] at this
    simp [cumProb] at this
  subst e
  rw [hz] at hs
  exact ⟨hs, by rw [hr, if_pos hz]⟩

/-- The one-qubit state `|1⟩`. -/
noncomputable def ket1 : BState := ⟨1, [0, 1], [0, 0]⟩

theorem ket1_zero : outcomeProb ket1.n [0] ket1.amp 0 = 0 := by
  have e : ((range (2 ^ ket1.n)).filter (fun c => subIndex ket1.n (inOrder ket1.n [0]) c = 0)) = {0} := by
    decide
  unfold outcomeProb
  rw [e]
  simp [ket1, BState.amp]

example : ket1.Full ∧ IdxOK ket1.n [0] ∧ outcomeProb ket1.n [0] ket1.amp 0 = 0 :=
  ⟨⟨rfl, rfl⟩, ⟨by decide, by decide⟩, ket1_zero⟩

/-! ## C25 -/

/-- What a successful measurement without a given probability does. -/
theorem measure_success {b b' : BState} (hb : b.Full) {indices : List Nat} (h : IdxOK b.n indices)
    {measured : Option Int} {u g : ℝ} {m : Nat} {p : ℝ}
    (hr : b.measure indices measured none 0 0 u g = (.ok (m, p), b')) :
    m < 2 ^ indices.length ∧ p = outcomeProb b.n indices b.amp m ∧ 0 < p ∧
      b' = ⟨b.n, (List.range (2 ^ b.n)).map (collapsed b.n indices b.amp m p), b.state⟩ := by
  have main : ∀ (k : Option Nat) (m' : Nat), measured = k.map Int.ofNat → (∀ i ∈ k, i < 2 ^ indices.length) →
      m' < 2 ^ indices.length →
      softMeasure indices b.n b.state k 0 u g = .ok (m', outcomeProb b.n indices (sliceAt 0 b.state) m') →
      m < 2 ^ indices.length ∧ p = outcomeProb b.n indices b.amp m ∧ 0 < p ∧
      b' = ⟨b.n, (List.range (2 ^ b.n)).map (collapsed b.n indices b.amp m p), b.state⟩ := by
    intro k m' hk hk' hm' hs
    rw [sliceAt_zero'] at hs
    have hc := chooseOutcome_soft indices b.n b.state 0 k hk' u g hs
    rw [← hk] at hc
    by_cases hz : outcomeProb b.n indices (fun c => b.state.getD c 0) m' = 0
    · rw [if_pos hz] at hc
      rw [b.measure_error hc] at hr
      simp at hr
    · rw [if_neg hz] at hc
      rw [BState.measure_ok hb h hm' hc] at hr
      simp only [Prod.mk.injEq, Except.ok.injEq] at hr
      obtain ⟨⟨rfl, rfl⟩, rfl⟩ := hr
      exact ⟨hm', rfl, lt_of_le_of_ne (outcomeProb_nonneg _ _ _ _) (Ne.symm hz), rfl⟩
  cases measured with
  | none =>
    obtain ⟨m', hm', _, _, hs, _⟩ := BState.measure_spec hb h u g
    exact main none m' rfl (by simp) hm' (by rw [sliceAt_zero']; exact hs)
  | some k =>
    by_cases hk : 0 ≤ k ∧ k < 2 ^ indices.length
    · have hk' : k.toNat < 2 ^ indices.length := by
        have : ((k.toNat : Nat) : Int) < ((2 ^ indices.length : Nat) : Int) := by
          rw [Int.toNat_of_nonneg hk.1]; push_cast; exact hk.2
        exact_mod_cast this
      exact main (some k.toNat) k.toNat (by simp [Int.toNat_of_nonneg hk.1]) (by simpa using hk') hk'
        (softMeasure_forced h b.state 0 hk' u g)
    · rw [b.measure_error (chooseOutcome_bad_measured _ _ _ _ hk _ _ _)] at hr
      simp at hr

/-- C25 (partial: for the second measurement, draw different from 0 and accumulator 0): after `measure` returned
`(m, p)` the amplitudes inconsistent with `m` are 0 and the others divided by `√p`; the state has norm 1; measuring the
same qubits again returns `m` with probability 1 and leaves the state as it is. -/
theorem C25_collapse_partial {b b' : BState} (hb : b.Full) {indices : List Nat} (h : IdxOK b.n indices)
    {measured : Option Int} {u g : ℝ} {m : Nat} {p : ℝ}
    (hr : b.measure indices measured none 0 0 u g = (.ok (m, p), b')) :
    b'.n = b.n ∧ b'.Full ∧
    (∀ i < 2 ^ b.n, b'.amp i = if subIndex b.n (inOrder b.n indices) i = m then b.amp i / ((√p : ℝ) : ℂ) else 0) ∧
    Spec.totalProb b'.n b'.amp = 1 ∧
    (∀ u', 0 < u' → u' < 1 → ∃ b'', b'.measure indices none none 0 0 u' 0 = (.ok (m, 1), b'') ∧
      b''.n = b'.n ∧ b''.state = b'.state) := by
  obtain ⟨hm, hp, hp0, rfl⟩ := measure_success hb h hr
  have hfull : BState.Full ⟨b.n, (List.range (2 ^ b.n)).map (collapsed b.n indices b.amp m p), b.state⟩ :=
    ⟨by simp, hb.state⟩
  have hamp : ∀ i < 2 ^ b.n, BState.amp ⟨b.n, (List.range (2 ^ b.n)).map (collapsed b.n indices b.amp m p), b.state⟩ i
      = collapsed b.n indices b.amp m p i := fun i hi => amp_map _ hi
  have hprob : ∀ m', outcomeProb b.n indices
      (BState.amp ⟨b.n, (List.range (2 ^ b.n)).map (collapsed b.n indices b.amp m p), b.state⟩) m'
      = if m' = m then 1 else 0 := by
    intro m'
    rw [outcomeProb_congr hamp, outcomeProb_collapsed _ _ hp0, ← hp, div_self hp0.ne']
  have htot : Spec.totalProb b.n
      (BState.amp ⟨b.n, (List.range (2 ^ b.n)).map (collapsed b.n indices b.amp m p), b.state⟩) = 1 := by
    rw [← h.sum_outcomeProb]
    simp only [hprob]
    rw [Finset.sum_ite_eq' (range (2 ^ indices.length)) m, if_pos (mem_range.2 hm)]
  refine ⟨rfl, hfull, ?_, htot, ?_⟩
  · intro i hi
    rw [hamp i hi]
    unfold collapsed
    split
    · rw [Real.sqrt_div zero_le_one, Real.sqrt_one]
      push_cast
      rw [mul_one_div]
    · rfl
  · intro u' h0 h1
    obtain ⟨m', p', hr', hm', hp', hpos⟩ := C24_possible_partial hfull h (by rw [htot]; exact one_pos) h0 h1
    rw [hprob] at hp'
    have e : m' = m := by
      by_contra hne
      rw [if_neg hne] at hp'
      linarith
    subst e
    rw [if_pos rfl] at hp'
    subst hp'
    rcases hres : BState.measure ⟨b.n, (List.range (2 ^ b.n)).map (collapsed b.n indices b.amp m' p), b.state⟩ indices
      none none 0 0 u' 0 with ⟨r, b''⟩
    rw [hres] at hr'
    simp only at hr'
    subst hr'
    obtain ⟨_, _, _, rfl⟩ := measure_success hfull h hres
    refine ⟨_, rfl, rfl, ?_⟩
    apply List.map_congr_left
    intro i hi
    have hi' := List.mem_range.1 hi
    have e1 := hamp i hi'
    rw [collapsed, e1]
    unfold collapsed
    split
    · simp
    · rfl

/-- C25 (negation of the full property): if the outcome is not 0, repeating the measurement with the draw 0 raises
ZeroDivisionError. -/
theorem C25_repeat_fails {b b' : BState} (hb : b.Full) {indices : List Nat} (h : IdxOK b.n indices)
    {measured : Option Int} {u g : ℝ} {m : Nat} {p : ℝ} (hm0 : m ≠ 0)
    (hr : b.measure indices measured none 0 0 u g = (.ok (m, p), b')) :
    b'.measure indices none none 0 0 0 0 = (.error .zeroDivision, b') := by
  obtain ⟨hm, hp, hp0, rfl⟩ := measure_success hb h hr
  have hfull : BState.Full ⟨b.n, (List.range (2 ^ b.n)).map (collapsed b.n indices b.amp m p), b.state⟩ :=
    ⟨by simp, hb.state⟩
  refine (C24_draw_zero hfull h ?_).2
  rw [outcomeProb_congr (fun i hi => amp_map _ hi), outcomeProb_collapsed _ _ hp0, if_neg (fun e => hm0 e.symm)]

/-! ## C26 -/

/-- C26: forcing an outcome `m` of positive probability collapses onto `m` and reports its probability;
`soft_measure` reports it without touching the state. -/
theorem C26_forced {b : BState} (hb : b.Full) {indices : List Nat} (h : IdxOK b.n indices) {m : Nat}
    (hm : m < 2 ^ indices.length) (hp : outcomeProb b.n indices b.amp m ≠ 0) (u g : ℝ) :
    (∃ b', b.measure indices (some (m : Int)) none 0 0 u g = (.ok (m, outcomeProb b.n indices b.amp m), b') ∧
      b'.n = b.n ∧ b'.Full ∧ ∀ i < 2 ^ b.n, b'.amp i = if subIndex b.n (inOrder b.n indices) i = m then
        b.amp i / ((√(outcomeProb b.n indices b.amp m) : ℝ) : ℂ) else 0) ∧
    softMeasure indices b.n b.state (some m) 0 u g = .ok (m, outcomeProb b.n indices b.amp m) := by
  have hs := softMeasure_forced h b.state 0 hm u g
  rw [sliceAt_zero'] at hs
  change softMeasure indices b.n b.state (some m) 0 u g = .ok (m, outcomeProb b.n indices b.amp m) at hs
  have hc := chooseOutcome_soft indices b.n b.state 0 (some m) (by simpa using hm) u g hs
  rw [if_neg hp] at hc
  have hr := BState.measure_ok hb h hm hc
  obtain ⟨h1, h2, h3, _⟩ := C25_collapse_partial hb h hr
  exact ⟨⟨_, hr, h1, h2, h3⟩, hs⟩

/-- C26: an impossible forced outcome raises ZeroDivisionError and leaves the state as it was. -/
theorem C26_forced_impossible {b : BState} {indices : List Nat} (h : IdxOK b.n indices) {m : Nat}
    (hm : m < 2 ^ indices.length) (hp : outcomeProb b.n indices b.amp m = 0) (u g : ℝ) :
    b.measure indices (some (m : Int)) none 0 0 u g = (.error .zeroDivision, b) := by
  have hs := softMeasure_forced h b.state 0 hm u g
  rw [sliceAt_zero'] at hs
  change softMeasure indices b.n b.state (some m) 0 u g = .ok (m, outcomeProb b.n indices b.amp m) at hs
  have hc := chooseOutcome_soft indices b.n b.state 0 (some m) (by simpa using hm) u g hs
  rw [if_pos hp] at hc
  exact b.measure_error hc

/-- C26: with both outcome and probability given, the outcome is collapsed onto with the given normalisation. -/
theorem C26_forced_with_prob {b : BState} (hb : b.Full) {indices : List Nat} (h : IdxOK b.n indices) {m : Nat}
    (hm : m < 2 ^ indices.length) {p : ℝ} (hp : 0 < p ∧ p ≤ 1) (u g : ℝ) :
    ∃ b', b.measure indices (some (m : Int)) (some p) 0 0 u g = (.ok (m, p), b') ∧ b'.n = b.n ∧ b'.Full ∧
      ∀ i < 2 ^ b.n, b'.amp i = if subIndex b.n (inOrder b.n indices) i = m then b.amp i / ((√p : ℝ) : ℂ) else 0 := by
  have hc := chooseOutcome_both indices b.n b.state 0 hm hp u g
  refine ⟨_, BState.measure_ok hb h hm hc, rfl, ⟨by simp, hb.state⟩, ?_⟩
  intro i hi
  rw [amp_map _ hi]
  unfold collapsed
  split
  · rw [Real.sqrt_div zero_le_one, Real.sqrt_one]
    push_cast
    rw [mul_one_div]
  · rfl

/-- C26: an outcome outside `[0, 2^k)` or a probability outside `(0, 1]` raises ValueError in `measure` and
`reduce_measure`, and the backend is left as it was: any state, sliced or not, any qubits. -/
theorem C26_rejects (b : BState) (indices : List Nat) (measured : Option Int) (mp : Option ℝ) (inOff outOff : Nat)
    (u g : ℝ)
    (hbad : (∃ m, measured = some m ∧ (m < 0 ∨ 2 ^ indices.length ≤ m)) ∨ (∃ p, mp = some p ∧ (p ≤ 0 ∨ 1 < p))) :
    b.measure indices measured mp inOff outOff u g = (.error .valueError, b) ∧
      b.reduceMeasure indices measured mp inOff outOff u g = (.error .valueError, b) := by
  have hc : chooseOutcome indices b.n b.state inOff measured mp u g = .error .valueError := by
    rcases hbad with ⟨m, rfl, hm⟩ | ⟨p, rfl, hp⟩
    · exact chooseOutcome_bad_measured _ _ _ _ (by omega) _ _ _
    · exact chooseOutcome_bad_prob _ _ _ _ (by
        rintro ⟨h1, h2⟩
        rcases hp with hp | hp <;> linarith) _ _ _
  constructor
  · exact b.measure_error hc
  · unfold BState.reduceMeasure QIP.reduceMeasure
    rw [hc]
    rfl

example : outcomeProb ket0.n [0] ket0.amp 0 ≠ 0 := by
  have e : ((range (2 ^ ket0.n)).filter (fun c => subIndex ket0.n (inOrder ket0.n [0]) c = 0)) = {0} := by
    decide
  unfold outcomeProb
  rw [e]
  simp [ket0_amp0]

/-! ## C28 -/

/-- C28 (partial: the whole state as input): the output window holds the amplitudes of the remaining qubits, in order,
divided by `√p`.  `c` ranges over the basis states showing the outcome; its place in the output is given by its
remaining qubits. -/
theorem C28_reduce_partial {n : Nat} {indices : List Nat} (h : IdxOK n indices) {vec out : List ℂ}
    (hl : vec.length = 2 ^ n) {outOff : Nat} {m : Nat}
    (hm : m < 2 ^ indices.length) (hp : outcomeProb n indices (fun c => vec.getD c 0) m ≠ 0) (u g : ℝ) :
    ∃ out', reduceMeasure indices n vec out 0 outOff (some (m : Int)) none u g
        = .ok (m, outcomeProb n indices (fun c => vec.getD c 0) m, out') ∧ out'.length = out.length ∧
      ∀ c < 2 ^ n, subIndex n (inOrder n indices) c = m →
        ∀ j < out.length, subIndex n (remaining n indices) c = j + outOff →
          out'[j]? = some (vec.getD c 0 / ((√(outcomeProb n indices (fun c => vec.getD c 0) m) : ℝ) : ℂ)) := by
  have hs := softMeasure_forced h vec 0 hm u g
  rw [sliceAt_zero'] at hs
  have hc := chooseOutcome_soft indices n vec 0 (some m) (by simpa using hm) u g hs
  rw [if_neg hp] at hc
  obtain ⟨out', h1, h2, h3⟩ := reduceMeasure_eq h vec out 0 outOff (fun i _ _ => by
    have := redRow_lt n indices m i; omega) hc
  refine ⟨out', h1, h2, ?_⟩
  intro c hc' hcm j hj hcj
  rw [h3 j hj, ← hcj, ← hcm, redRow_subIndex h hc', sliceAt_zero, Real.sqrt_div zero_le_one, Real.sqrt_one, hcm]
  push_cast
  rw [mul_one_div]

/-- Every entry of the output of `C28_reduce_partial` is described by exactly one basis state. -/
theorem C28_covers {n : Nat} {indices : List Nat} (h : IdxOK n indices) {m j : Nat} (hm : m < 2 ^ indices.length)
    (hj : j < 2 ^ (n - indices.length)) :
    ∃! c, c < 2 ^ n ∧ subIndex n (inOrder n indices) c = m ∧ subIndex n (remaining n indices) c = j := by
  refine ⟨redRow n indices m j, ⟨redRow_lt _ _ _ _, subIndex_inOrder_redRow h hm j, subIndex_remaining_redRow h m hj⟩, ?_⟩
  rintro c ⟨h1, h2, h3⟩
  rw [← redRow_subIndex h h1, h2, h3]

/-- C28 (negation of the full property, memory safety): given a slice of the state, `reduce_measure` reads beyond
its end as soon as some basis state needed for the output window lies beyond the slice. -/
theorem C28_slice_out_of_bounds {n : Nat} {indices : List Nat} (h : IdxOK n indices) {vec out : List ℂ}
    {inOff outOff : Nat} {m : Nat} (hm : m < 2 ^ indices.length) {p : ℝ} (hp : 0 < p ∧ p ≤ 1) (u g : ℝ)
    (hbeyond : ∃ c, inOff + vec.length ≤ c ∧ c < 2 ^ n ∧ subIndex n (inOrder n indices) c = m ∧
      outOff ≤ subIndex n (remaining n indices) c ∧ subIndex n (remaining n indices) c < outOff + out.length) :
    reduceMeasure indices n vec out inOff outOff (some (m : Int)) (some p) u g = .error .ub := by
  obtain ⟨c, h1, h2, h3, h4, h5⟩ := hbeyond
  refine reduceMeasure_ub h vec out inOff outOff ⟨_, h4, h5, ?_⟩ (chooseOutcome_both indices n vec inOff hm hp u g)
  rw [← h3, redRow_subIndex h h2]
  exact h1

/-- C28 (negation of the full property, backend): `CythonBackend.reduce_measure` keeps an output of `2^n` amplitudes
which holds `2^k` copies of the reduced state: its squared norm is `2^k`. -/
theorem C28_backend_repeats {b : BState} (hb : b.Full) {indices : List Nat} (h : IdxOK b.n indices) {m : Nat}
    (hm : m < 2 ^ indices.length) (hp : outcomeProb b.n indices b.amp m ≠ 0) (u g : ℝ) :
    ∃ b', b.reduceMeasure indices (some (m : Int)) none 0 0 u g = (.ok (m, outcomeProb b.n indices b.amp m), b') ∧
      b'.n = b.n ∧ b'.state.length = 2 ^ b.n ∧
      (∀ i < 2 ^ b.n, b'.amp i = b'.amp (i % 2 ^ (b.n - indices.length))) ∧
      Spec.totalProb b.n b'.amp = 2 ^ indices.length := by
  have hs := softMeasure_forced h b.state 0 hm u g
  rw [sliceAt_zero'] at hs
  change softMeasure indices b.n b.state (some m) 0 u g = .ok (m, outcomeProb b.n indices b.amp m) at hs
  have hc := chooseOutcome_soft indices b.n b.state 0 (some m) (by simpa using hm) u g hs
  rw [if_neg hp] at hc
  obtain ⟨out', h1, h2, h3⟩ := reduceMeasure_eq h b.state b.arena 0 0 (fun i _ _ => by
    have := redRow_lt b.n indices m i; have := hb.state; omega) hc
  have hamp : ∀ i < 2 ^ b.n, BState.amp ⟨b.n, out', b.state⟩ i
      = b.amp (redRow b.n indices m i) * ((√(1 / outcomeProb b.n indices b.amp m) : ℝ) : ℂ) := by
    intro i hi
    unfold BState.amp
    rw [List.getD_eq_getElem?_getD, h3 i (by rw [hb.arena]; exact hi), sliceAt_zero]
    rfl
  have hmod : ∀ i, redRow b.n indices m (i % 2 ^ (b.n - indices.length)) = redRow b.n indices m i := by
    intro i
    unfold redRow
    rw [← h.length_remaining, spread_mod]
  have hk : b.n = indices.length + (b.n - indices.length) := by have := h.length_le; omega
  refine ⟨⟨b.n, out', b.state⟩, ?_, rfl, by rw [h2, hb.arena], ?_, ?_⟩
  · unfold BState.reduceMeasure
    change reduceMeasure indices b.n b.state b.arena 0 0 (some (m : Int)) none u g = _ at h1
    rw [h1]
  · intro i hi
    have hlt : i % 2 ^ (b.n - indices.length) < 2 ^ b.n := lt_of_le_of_lt (Nat.mod_le _ _) hi
    rw [hamp i hi, hamp _ hlt, hmod]
  · unfold Spec.totalProb
    have hpos := lt_of_le_of_ne (outcomeProb_nonneg b.n indices b.amp m) (Ne.symm hp)
    have e : ∀ i ∈ range (2 ^ b.n), Complex.normSq (BState.amp ⟨b.n, out', b.state⟩ i)
        = Complex.normSq (b.amp (redRow b.n indices m (i % 2 ^ (b.n - indices.length))))
          / outcomeProb b.n indices b.amp m := by
      intro i hi
      rw [hamp i (mem_range.1 hi), hmod, map_mul, Complex.normSq_ofReal, Real.mul_self_sqrt (by positivity), mul_one_div]
    rw [Finset.sum_congr rfl e]
    set K := 2 ^ (b.n - indices.length) with hK
    have hKpos : 0 < K := by positivity
    have hsplit : (2 : Nat) ^ b.n = 2 ^ indices.length * K := by
      rw [hK, ← pow_add]; congr 1
    have hsum : ∀ (t : Nat) (F : Nat → ℝ), ∑ i ∈ range (t * K), F (i % K) = t * ∑ i ∈ range K, F i := by
      intro t F
      induction t with
      | zero => simp
      | succ t ih =>
        rw [Nat.succ_mul, Finset.sum_range_add, ih]
        have : ∑ x ∈ range K, F ((t * K + x) % K) = ∑ x ∈ range K, F x := by
          apply Finset.sum_congr rfl
          intro x hx
          rw [Nat.mul_add_mod', Nat.mod_eq_of_lt (mem_range.1 hx)]
        rw [this]
        push_cast
        ring
    rw [hsplit, hsum (2 ^ indices.length) (fun i => Complex.normSq (b.amp (redRow b.n indices m i))
      / outcomeProb b.n indices b.amp m)]
    rw [sum_redRow h hm (fun c => Complex.normSq (b.amp c) / outcomeProb b.n indices b.amp m)]
    have : ∑ c ∈ (range (2 ^ b.n)).filter (fun c => subIndex b.n (inOrder b.n indices) c = m),
        Complex.normSq (b.amp c) / outcomeProb b.n indices b.amp m = 1 := by
      simp only [div_eq_mul_inv]
      rw [← Finset.sum_mul]
      exact mul_inv_cancel₀ hp
    rw [this]
    push_cast
    ring

-- first half of a two-qubit state, measuring qubit 1 as 1, asking for both remaining amplitudes
example : reduceMeasure [1] 2 [1, 0] [0, 0] 0 0 (some ((1 : Nat) : Int)) (some 1) 0 0 = .error .ub :=
  C28_slice_out_of_bounds ⟨by decide, by decide⟩ (by decide) (by norm_num) 0 0
    ⟨3, by decide, by decide, by decide, by decide, by decide⟩

/-! ## C29 -/

theorem outcomeProb_slices {n : Nat} (indices : List Nat) (m : Nat) (parts : List (List ℂ)) (o : Nat) :
    (((offsets o parts).zip parts).map fun op => outcomeProb n indices (sliceAt op.1 op.2) m).sum
      = outcomeProb n indices (sliceAt o parts.flatten) m := by
  induction parts generalizing o with
  | nil => simp [offsets, outcomeProb, sliceAt]
  | cons p ps ih =>
    simp only [offsets, List.zip_cons_cons, List.map_cons, List.sum_cons, List.flatten_cons, ih]
    unfold outcomeProb
    rw [← Finset.sum_add_distrib]
    apply Finset.sum_congr rfl
    intro c _
    rw [sliceAt_append]
    have hz : sliceAt o p c = 0 ∨ sliceAt (o + p.length) ps.flatten c = 0 := by
      by_cases hc : c < o + p.length
      · right; unfold sliceAt; rw [if_neg (by omega)]
      · left
        unfold sliceAt
        split
        · exact List.getD_eq_default _ _ (by omega)
        · rfl
    rcases hz with hz | hz <;> simp [hz]

/-- C29: cut a state into consecutive slices.  The slices' `soft_measure` probabilities of outcome `m` add up to its
probability; and running `measure` on every slice (output window equal to the input window) with the same outcome and
probability yields the slices of the collapsed state. -/
theorem C29_sliced {n : Nat} {indices : List Nat} (h : IdxOK n indices) (parts : List (List ℂ))
    (hl : parts.flatten.length = 2 ^ n) {m : Nat} (hm : m < 2 ^ indices.length) (u g : ℝ) :
    (∃ ps, ((offsets 0 parts).zip parts).mapM (fun op => softMeasure indices n op.2 (some m) op.1 u g) = .ok ps ∧
      (ps.map Prod.snd).sum = outcomeProb n indices (fun c => parts.flatten.getD c 0) m) ∧
    (∀ p, 0 < p → p ≤ 1 → ∃ rs, ((offsets 0 parts).zip parts).mapM (fun op => QIP.measure indices n op.2
        (List.replicate op.2.length 0) op.1 op.1 (some (m : Int)) (some p) u g) = .ok rs ∧
      (∀ r ∈ rs, r.1 = m ∧ r.2.1 = p) ∧ ((rs.map fun r => r.2.2).map List.length = parts.map List.length) ∧
      ∃ full, QIP.measure indices n parts.flatten (List.replicate (2 ^ n) 0) 0 0 (some (m : Int)) (some p) u g
        = .ok (m, p, full) ∧ (rs.map fun r => r.2.2).flatten = full) := by
  constructor
  · refine ⟨_, mapM_ok _ (fun op => (m, outcomeProb n indices (sliceAt op.1 op.2) m)) _ ?_, ?_⟩
    · intro op _
      exact softMeasure_forced h op.2 op.1 hm u g
    · rw [List.map_map]
      have := outcomeProb_slices (n := n) indices m parts 0
      rw [sliceAt_zero'] at this
      rw [← this]
      rfl
  · intro p hp0 hp1
    -- one slice
    have hpiece : ∀ (vec : List ℂ) (o : Nat), vec.length + o ≤ 2 ^ n →
        QIP.measure indices n vec (List.replicate vec.length 0) o o (some (m : Int)) (some p) u g
          = .ok (m, p, (List.range vec.length).map fun j => collapsed n indices (sliceAt o vec) m p (j + o)) := by
      intro vec o ho
      obtain ⟨out', h1, h2, h3⟩ := measure_eq h vec (List.replicate vec.length 0) o o ho hm rfl
        (chooseOutcome_both indices n vec o hm ⟨hp0, hp1⟩ u g)
      rw [h1]
      congr 3
      apply List.ext_getElem?
      intro j
      by_cases hj : j < vec.length
      · rw [h3 j (by simpa using hj), if_pos (by omega), List.getElem?_map, List.getElem?_range hj, Option.map_some]
      · rw [List.getElem?_eq_none (by rw [h2]; simp; omega), List.getElem?_eq_none (by simp; omega)]
    refine ⟨_, mapM_ok _ (fun op => (m, p, (List.range op.2.length).map fun j =>
      collapsed n indices (sliceAt op.1 op.2) m p (j + op.1))) _ ?_, ?_, ?_, ?_⟩
    · intro op hop
      have := mem_offsets_bound parts 0 op hop
      exact hpiece op.2 op.1 (by omega)
    · intro r hr
      obtain ⟨op, _, rfl⟩ := List.mem_map.1 hr
      exact ⟨rfl, rfl⟩
    · have : ∀ o, ((offsets o parts).zip parts).map (fun op => op.2.length) = parts.map List.length := by
        intro o
        induction parts generalizing o with
        | nil => rfl
        | cons q ps ih =>
          simp only [offsets, List.zip_cons_cons, List.map_cons]
          congr 1
          clear hl
          have key : ∀ (ps : List (List ℂ)) o, ((offsets o ps).zip ps).map (fun op => op.2.length) = ps.map List.length := by
            intro ps
            induction ps with
            | nil => intro o; rfl
            | cons q ps ih => intro o; simp [offsets, ih]
          exact key ps _
      rw [List.map_map, List.map_map, ← this 0]
      apply List.map_congr_left
      intro op _
      simp
    · have hf := hpiece parts.flatten 0 (by omega)
      rw [hl] at hf
      refine ⟨_, hf, ?_⟩
      rw [List.map_map]
      have key : ∀ (ps : List (List ℂ)) o, (((offsets o ps).zip ps).map
          ((fun r : Nat × ℝ × List ℂ => r.2.2) ∘ fun op => (m, p, (List.range op.2.length).map fun j =>
            collapsed n indices (sliceAt op.1 op.2) m p (j + op.1)))).flatten
          = (List.range ps.flatten.length).map fun j => collapsed n indices (sliceAt o ps.flatten) m p (j + o) := by
        intro ps
        induction ps with
        | nil => intro o; simp [offsets]
        | cons q ps ih =>
          intro o
          simp only [offsets, List.zip_cons_cons, List.map_cons, List.flatten_cons, ih, Function.comp,
            List.length_append, List.range_add, List.map_append, List.map_map]
          congr 1
          · apply List.map_congr_left
            intro j hj
            have hj' := List.mem_range.1 hj
            simp only [collapsed]
            rw [sliceAt_append]
            have : sliceAt (o + q.length) ps.flatten (j + o) = 0 := by
              unfold sliceAt; rw [if_neg (by omega)]
            rw [this, add_zero]
          · apply List.map_congr_left
            intro j hj
            simp only [collapsed, Function.comp]
            rw [sliceAt_append]
            have : sliceAt o q (q.length + j + o) = 0 := by
              unfold sliceAt
              rw [if_pos (by omega)]
              exact List.getD_eq_default _ _ (by omega)
            rw [this, zero_add]
            have e : j + (o + q.length) = q.length + j + o := by omega
            rw [e]
      have := key parts 0
      rw [hl] at this
      exact this

example : ([[1, 0], [0, 0]] : List (List ℂ)).flatten.length = 2 ^ 2 := rfl

end QIP.Props
