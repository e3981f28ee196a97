import Mathlib.MeasureTheory.Measure.Lebesgue.Basic
import Verif.Lemmas.FMeasure
import Verif.Props.Rounding
import Verif.Props.Probs

/-!
# C95: measurements in floating point
-/

namespace QIP.Props

open QIP Spec Finset

variable {F : FOps} {u : ℝ} {n : Nat} {indices : List Nat}

/-! ## The model -/

theorem softLoopF_exact (acc : Nat → ℝ) (L : List Nat) (r : ℝ) : softLoopF FOps.exact acc L r = softLoop acc L r := by
  induction L generalizing r with
  | nil => rfl
  | cons p L ih =>
    unfold softLoopF softLoop
    rw [ih]
    rfl

theorem softAccF_exact (n : Nat) (indices : List Nat) (vec : List ℂ) (inOff p : Nat) :
    softAccF FOps.exact n indices vec inOff p = softAcc n indices vec inOff p := by
  unfold softAccF softAcc
  change List.foldl (· + ·) 0 _ = _
  generalize (0 : ℝ) = a
  generalize List.range (2 ^ (n - indices.length)) = R
  induction R generalizing a with
  | nil => rfl
  | cons i R ih =>
    rw [List.foldl_cons, List.filter_cons]
    by_cases hc : inOff ≤ entwineBit indices.length (n - indices.length) p i (rowMask n indices) ∧
          entwineBit indices.length (n - indices.length) p i (rowMask n indices) < vec.length + inOff
    · dsimp only
      rw [if_pos (by simpa using hc), if_pos hc, List.map_cons, List.foldl_cons]
      exact ih _
    · dsimp only
      rw [if_neg (by simpa using hc), if_neg hc]
      exact ih _

theorem probMagnitudeF_exact (g : ℝ) (vec : List ℂ) : probMagnitudeF FOps.exact g vec = probMagnitude g vec := by
  unfold probMagnitudeF probMagnitude
  have e : (List.range vec.length).map (fun i => Complex.normSq (vec.getD i 0)) = vec.map Complex.normSq := by
    apply List.ext_getElem (by simp)
    intro i h1 h2
    simp at h1
    simp [h1]
  change List.foldl (· + ·) g (vec.map Complex.normSq) = _
  rw [← e, List.foldl_map]

/-- C95: in exact arithmetic the kernels are those of C20 and C23 – C26. -/
theorem C95_exact :
    measureProbabilitiesF FOps.exact = measureProbabilities ∧ probMagnitudeF FOps.exact = probMagnitude ∧
      softMeasureF FOps.exact = softMeasure ∧ measureF FOps.exact = QIP.measure := by
  have h1 : probMagnitudeF FOps.exact = probMagnitude := by
    funext g vec
    exact probMagnitudeF_exact g vec
  have h2 : softMeasureF FOps.exact = softMeasure := by
    funext indices n vec measured inOff x g
    unfold softMeasureF softMeasure
    have : softAccF FOps.exact n indices vec inOff = softAcc n indices vec inOff := by
      funext p
      exact softAccF_exact _ _ _ _ _
    simp only [softLoopF_exact, this, probMagnitudeF_exact]
    rfl
  refine ⟨rfl, h1, h2, ?_⟩
  funext indices n vec out inOff outOff measured measuredProb x g
  unfold measureF QIP.measure chooseOutcomeF chooseOutcome
  rw [h2]
  rfl

/-! ## Probabilities -/

/-- C95: every entry of `measure_probabilities` has a relative error of at most `2 ^ n + 1` operations. -/
theorem C95_probabilities (hF : Accurate F u) (hlt : ∀ q ∈ indices, q < n) (state : List ℂ) (hl : state.length = 2 ^ n) :
    ∃ ps, measureProbabilitiesF F indices n state = .ok ps ∧ ps.length = 2 ^ indices.length ∧
      ∀ b < 2 ^ indices.length,
        |ps.getD b 0 - ∑ c ∈ (range (2 ^ n)).filter (fun c => ∀ j (hj : j < indices.length), qbit n c indices[j] = b.testBit j),
            Complex.normSq (state.getD c 0)|
          ≤ (factor u ^ (2 ^ n + 1) - 1) *
            ∑ c ∈ (range (2 ^ n)).filter (fun c => ∀ j (hj : j < indices.length), qbit n c indices[j] = b.testBit j),
              Complex.normSq (state.getD c 0) := by
  obtain ⟨ps, qs, h1, h2, h3, h4⟩ := rel_measureProbabilities hF hlt state hl
  obtain ⟨qs', h5, h6, h7, _⟩ := C20_marginals hlt state hl
  rw [h5] at h2
  injection h2 with h2
  subst h2
  refine ⟨ps, h1, by rw [h3, h6], fun b hb => ?_⟩
  obtain ⟨hr, h0⟩ := h4 b
  rw [List.getD_eq_getElem?_getD (l := qs'), h7 b hb, Option.getD_some] at hr h0
  exact rel_abs (hF.bpow _) h0 hr

/-! ## Outcomes -/

/-- The draws in `[0, 1)` for which `measure` returns `m`. -/
def drawsGivingF (F : FOps) (indices : List Nat) (n : Nat) (vec out : List ℂ) (m : Nat) : Set ℝ :=
  {x | 0 ≤ x ∧ x < 1 ∧ ∃ p out', measureF F indices n vec out 0 0 none none x 0 = .ok (m, p, out')}

/-- An unforced `measure` in rounded arithmetic. -/
theorem measureF_spec (hF : Accurate F u) (h : IdxOK n indices) {vec out : List ℂ} (hl : vec.length = 2 ^ n)
    (hlo : out.length = 2 ^ n) {x : ℝ} (hx0 : 0 ≤ x) (hx1 : x ≤ 1) :
    ∃ m < 2 ^ indices.length,
      (∀ j < m, cumProb n indices (fun c => vec.getD c 0) (j + 1)
        < x * totalProb n (fun c => vec.getD c 0) + drawErr u n * totalProb n (fun c => vec.getD c 0)) ∧
      (m + 1 = 2 ^ indices.length ∨ x * totalProb n (fun c => vec.getD c 0)
        ≤ cumProb n indices (fun c => vec.getD c 0) (m + 1) + drawErr u n * totalProb n (fun c => vec.getD c 0)) ∧
      (0 < x → 0 < totalProb n (fun c => vec.getD c 0) → outcomeProb n indices (fun c => vec.getD c 0) m = 0 →
        totalProb n (fun c => vec.getD c 0)
          < x * totalProb n (fun c => vec.getD c 0) + drawErr u n * totalProb n (fun c => vec.getD c 0)) ∧
      measureF F indices n vec out 0 0 none none x 0
        = if outcomeProb n indices (fun c => vec.getD c 0) m = 0 then .error .zeroDivision
          else .ok (m, softAccF F n indices vec 0 m, (List.range (2 ^ n)).map fun i =>
            if subIndex n (inOrder n indices) i = m
              then F.scale (vec.getD i 0) (F.sqrt (F.div 1 (softAccF F n indices vec 0 m))) else 0) := by
  obtain ⟨m, h1, h2, h3, h4, h5⟩ := softMeasureF_spec hF h vec hl hx0 hx1
  refine ⟨m, h2, h3, h4, h5, ?_⟩
  have hc := chooseOutcomeF_soft F indices n vec 0 none (by simp) x 0 h1
  have hr := rel_softAcc hF h vec hl h2
  by_cases hz : outcomeProb n indices (fun c => vec.getD c 0) m = 0
  · rw [hz] at hr
    rw [if_pos (rel_zero hr (hF.bpow _))] at hc
    rw [if_pos hz]
    unfold measureF
    rw [show (none : Option Int) = Option.map Int.ofNat none from rfl, hc]
    rfl
  · have hpos := rel_pos (hF.bpow _) (lt_of_le_of_ne (outcomeProb_nonneg _ _ _ _) (Ne.symm hz)) hr
    rw [if_neg hpos.ne'] at hc
    rw [if_neg hz]
    exact measureF_eq h vec out hl hlo h2 hc

theorem drawErr_nonneg (h0 : 0 ≤ u) (h1 : u < 1) (n : Nat) : 0 ≤ drawErr u n := by
  unfold drawErr
  have := one_le_pow₀ (one_le_factor h0 h1) (n := 2 ^ (n + 1) + 2)
  linarith

theorem volume_between {S : Set ℝ} {a b p e : ℝ} (hsub : S ⊆ Set.Icc (a - e) (b + e)) (hsup : Set.Ioo (a + e) (b - e) ⊆ S)
    (he : 0 ≤ e) (hab : b - a = p) (hp : 0 ≤ p) : |(MeasureTheory.volume S).toReal - p| ≤ 2 * e := by
  have h1 : MeasureTheory.volume S ≤ ENNReal.ofReal (b + e - (a - e)) := by
    rw [← Real.volume_Icc]
    exact MeasureTheory.measure_mono hsub
  have h2 : ENNReal.ofReal (b - e - (a + e)) ≤ MeasureTheory.volume S := by
    rw [← Real.volume_Ioo]
    exact MeasureTheory.measure_mono hsup
  have hfin : MeasureTheory.volume S ≠ ⊤ := ne_top_of_le_ne_top ENNReal.ofReal_ne_top h1
  have h3 : (MeasureTheory.volume S).toReal ≤ b + e - (a - e) := ENNReal.toReal_le_of_le_ofReal (by linarith) h1
  have h4 : b - e - (a + e) ≤ (MeasureTheory.volume S).toReal := (ENNReal.ofReal_le_iff_le_toReal hfin).1 h2
  rw [abs_le]
  constructor <;> linarith

/-- C95: the draws for which outcome `m` is returned have, up to `2 * drawErr u n`, the probability of `m` as measure.  Missing: the
content of the uninitialised accumulator (C27) is taken as 0. -/
theorem C95_born_partial (hF : Accurate F u) (h : IdxOK n indices) {vec out : List ℂ} (hl : vec.length = 2 ^ n)
    (hlo : out.length = 2 ^ n) (hT : 0 < totalProb n (fun c => vec.getD c 0)) {m : Nat} (hm : m < 2 ^ indices.length) :
    |(MeasureTheory.volume (drawsGivingF F indices n vec out m)).toReal
        - outcomeProb n indices (fun c => vec.getD c 0) m / totalProb n (fun c => vec.getD c 0)| ≤ 2 * drawErr u n := by
  have he := drawErr_nonneg hF.nonneg hF.lt_one n
  set v : Nat → ℂ := fun c => vec.getD c 0 with hv
  set P := totalProb n v with hP
  apply volume_between (a := cumProb n indices v m / P) (b := cumProb n indices v (m + 1) / P) _ _ he
    (by rw [cumProb_succ]; ring) (div_nonneg (outcomeProb_nonneg _ _ _ _) hT.le)
  · rintro x ⟨h0, h1, p, out', hr⟩
    obtain ⟨m', _, h3, h4, _, h6⟩ := measureF_spec hF h hl hlo h0 h1.le
    rw [h6] at hr
    split at hr
    · cases hr
    simp only [Except.ok.injEq, Prod.mk.injEq] at hr
    obtain ⟨rfl, _⟩ := hr
    constructor
    · rw [sub_le_iff_le_add, div_le_iff₀ hT]
      cases m' with
      | zero =>
        simp only [cumProb, Finset.range_zero, Finset.sum_empty]
        positivity
      | succ j =>
        have := h3 j (by omega)
        rw [add_mul]
        exact this.le
    · rw [← sub_le_iff_le_add, le_div_iff₀ hT]
      rcases h4 with e | e
      · rw [e, cumProb_top h]
        nlinarith
      · rw [sub_mul]
        linarith
  · rintro x ⟨hlo', hhi'⟩
    rw [← lt_sub_iff_add_lt, div_lt_iff₀ hT, sub_mul] at hlo'
    rw [lt_sub_iff_add_lt, lt_div_iff₀ hT, add_mul] at hhi'
    have hc0 : 0 ≤ cumProb n indices v m := Finset.sum_nonneg fun _ _ => outcomeProb_nonneg _ _ _ _
    have hc1 : cumProb n indices v (m + 1) ≤ P := by
      rw [hP, ← cumProb_top h]; exact cumProb_mono _ _ _ (by omega)
    have heP : 0 ≤ drawErr u n * P := mul_nonneg he hT.le
    have hx0 : 0 ≤ x := by
      by_contra hn
      have : x * P ≤ 0 := mul_nonpos_of_nonpos_of_nonneg (by linarith) hT.le
      linarith
    have hx1 : x < 1 := by
      by_contra hn
      have : P ≤ x * P := le_mul_of_one_le_left hT.le (by linarith)
      linarith
    obtain ⟨m', hm', h3, h4, _, h6⟩ := measureF_spec hF h hl hlo hx0 hx1.le
    have e : m' = m := by
      rcases lt_trichotomy m' m with hlt | e | hgt
      · rcases h4 with h4 | h4
        · omega
        · have := cumProb_mono n indices v (show m' + 1 ≤ m by omega)
          have h4' : x * P ≤ cumProb n indices v (m' + 1) + drawErr u n * P := h4
          linarith
      · exact e
      · have h3' : cumProb n indices v (m + 1) < x * P + drawErr u n * P := h3 m hgt
        linarith
    subst e
    rw [if_neg] at h6
    · exact ⟨hx0, hx1, _, _, h6⟩
    · intro hz
      rw [cumProb_succ, hz] at hhi'
      linarith

/-- C95: unless the draw is 0 or within `drawErr u n` of 1, `measure` succeeds and returns an outcome of positive probability. -/
theorem C95_possible_partial (hF : Accurate F u) (h : IdxOK n indices) {vec out : List ℂ} (hl : vec.length = 2 ^ n)
    (hlo : out.length = 2 ^ n) (hT : 0 < totalProb n (fun c => vec.getD c 0)) {x : ℝ} (hx0 : 0 < x) (hx1 : x ≤ 1 - drawErr u n) :
    ∃ m p out', measureF F indices n vec out 0 0 none none x 0 = .ok (m, p, out') ∧ m < 2 ^ indices.length ∧
      0 < outcomeProb n indices (fun c => vec.getD c 0) m := by
  have he := drawErr_nonneg hF.nonneg hF.lt_one n
  obtain ⟨m, h1, _, _, h5, h6⟩ := measureF_spec hF h hl hlo hx0.le (by linarith)
  have hz : outcomeProb n indices (fun c => vec.getD c 0) m ≠ 0 := by
    intro hz
    have := h5 hx0 hT hz
    rw [← add_mul] at this
    nlinarith
  rw [if_neg hz] at h6
  exact ⟨m, _, _, h6, h1, lt_of_le_of_ne (outcomeProb_nonneg _ _ _ _) (Ne.symm hz)⟩

/-! ## Collapse -/

/-- C95: a measurement without a given probability (drawn or forced) reports the probability of its outcome up to the error of
`2 ^ (n - k) + 1` operations, and leaves a state close to the exact one; in particular its norm is close to 1. -/
theorem C95_collapse (hF : Accurate F u) (h : IdxOK n indices) {vec out out' : List ℂ} (hl : vec.length = 2 ^ n)
    (hlo : out.length = 2 ^ n) {measured : Option Int} {x p : ℝ} (hx0 : 0 ≤ x) (hx1 : x ≤ 1) {m : Nat}
    (hr : measureF F indices n vec out 0 0 measured none x 0 = .ok (m, p, out')) :
    m < 2 ^ indices.length ∧ 0 < outcomeProb n indices (fun c => vec.getD c 0) m ∧
    |p - outcomeProb n indices (fun c => vec.getD c 0) m|
      ≤ (factor u ^ (2 ^ (n - indices.length) + 1) - 1) * outcomeProb n indices (fun c => vec.getD c 0) m ∧
    out'.length = 2 ^ n ∧
    dist2 n (fun i => out'.getD i 0) (fun i => if subIndex n (inOrder n indices) i = m
        then vec.getD i 0 / ((√(outcomeProb n indices (fun c => vec.getD c 0) m) : ℝ) : ℂ) else 0)
      ≤ factor u ^ (2 ^ (n - indices.length) + 4) - 1 := by
  have main : ∀ m' < 2 ^ indices.length, measureF F indices n vec out 0 0 measured none x 0
      = (if outcomeProb n indices (fun c => vec.getD c 0) m' = 0 then .error .zeroDivision
          else .ok (m', softAccF F n indices vec 0 m', (List.range (2 ^ n)).map fun i =>
            if subIndex n (inOrder n indices) i = m'
              then F.scale (vec.getD i 0) (F.sqrt (F.div 1 (softAccF F n indices vec 0 m'))) else 0)) →
      m < 2 ^ indices.length ∧ 0 < outcomeProb n indices (fun c => vec.getD c 0) m ∧
    |p - outcomeProb n indices (fun c => vec.getD c 0) m|
      ≤ (factor u ^ (2 ^ (n - indices.length) + 1) - 1) * outcomeProb n indices (fun c => vec.getD c 0) m ∧
    out'.length = 2 ^ n ∧
    dist2 n (fun i => out'.getD i 0) (fun i => if subIndex n (inOrder n indices) i = m
        then vec.getD i 0 / ((√(outcomeProb n indices (fun c => vec.getD c 0) m) : ℝ) : ℂ) else 0)
      ≤ factor u ^ (2 ^ (n - indices.length) + 4) - 1 := by
    intro m' hm' he
    rw [he] at hr
    by_cases hz : outcomeProb n indices (fun c => vec.getD c 0) m' = 0
    · rw [if_pos hz] at hr
      cases hr
    rw [if_neg hz] at hr
    simp only [Except.ok.injEq, Prod.mk.injEq] at hr
    obtain ⟨rfl, rfl, rfl⟩ := hr
    have hq := lt_of_le_of_ne (outcomeProb_nonneg n indices (fun c => vec.getD c 0) m') (Ne.symm hz)
    have hrel := rel_softAcc hF h vec hl hm'
    refine ⟨hm', hq, rel_abs (hF.bpow _) hq.le hrel, by simp, ?_⟩
    set v : Nat → ℂ := fun c => vec.getD c 0 with hv
    set q := outcomeProb n indices v m' with hqdef
    have hmult := rel_mult hF hq hrel
    set μ := F.sqrt (F.div 1 (softAccF F n indices vec 0 m'))
    set γ := factor u ^ (2 ^ (n - indices.length) + 4) - 1
    have hγ : 0 ≤ γ := by linarith [hF.bpow (2 ^ (n - indices.length) + 4)]
    have hsq : (√(1 / q) : ℝ) = 1 / √q := by rw [Real.sqrt_div zero_le_one, Real.sqrt_one]
    have hterm : ∀ i < 2 ^ n, ‖((List.range (2 ^ n)).map fun i =>
          if subIndex n (inOrder n indices) i = m' then F.scale (vec.getD i 0) μ else 0).getD i 0
        - (if subIndex n (inOrder n indices) i = m' then v i / ((√q : ℝ) : ℂ) else 0)‖ ^ 2
        ≤ γ ^ 2 * (if subIndex n (inOrder n indices) i = m' then Complex.normSq (v i) / q else 0) := by
      intro i hi
      have e : ((List.range (2 ^ n)).map fun i =>
          if subIndex n (inOrder n indices) i = m' then F.scale (vec.getD i 0) μ else 0).getD i 0
          = if subIndex n (inOrder n indices) i = m' then F.scale (vec.getD i 0) μ else 0 := by
        simp [hi]
      rw [e]
      by_cases hc : subIndex n (inOrder n indices) i = m'
      · rw [if_pos hc, if_pos hc, if_pos hc]
        have h1 := scale_err hF (z := vec.getD i 0) (Real.sqrt_nonneg _) hmult
        have e2 : v i / ((√q : ℝ) : ℂ) = vec.getD i 0 * ((√(1 / q) : ℝ) : ℂ) := by
          rw [hsq]
          push_cast
          rw [mul_one_div]
        rw [e2]
        refine (pow_le_pow_left₀ (norm_nonneg _) h1 2).trans (le_of_eq ?_)
        rw [mul_pow, norm_mul, mul_pow, Complex.norm_real, Real.norm_eq_abs, sq_abs, Real.sq_sqrt (by positivity),
          ← Complex.normSq_eq_norm_sq]
        change γ ^ 2 * _ = γ ^ 2 * _
        ring
      · rw [if_neg hc, if_neg hc, if_neg hc]
        simp
    unfold dist2
    rw [Real.sqrt_le_left hγ]
    refine (Finset.sum_le_sum fun i hi => hterm i (mem_range.1 hi)).trans (le_of_eq ?_)
    rw [← Finset.mul_sum, ← Finset.sum_filter, ← Finset.sum_div]
    change γ ^ 2 * (q / q) = γ ^ 2
    rw [div_self hq.ne', mul_one]
  cases measured with
  | none =>
    obtain ⟨m', hm', _, _, _, h6⟩ := measureF_spec hF h hl hlo hx0 hx1
    exact main m' hm' h6
  | some k =>
    by_cases hk : 0 ≤ k ∧ k < 2 ^ indices.length
    · have hk' : k.toNat < 2 ^ indices.length := by
        have : ((k.toNat : Nat) : Int) < ((2 ^ indices.length : Nat) : Int) := by
          rw [Int.toNat_of_nonneg hk.1]; push_cast; exact hk.2
        exact_mod_cast this
      have hc := chooseOutcomeF_soft F indices n vec 0 (some k.toNat) (by simpa using hk') x 0
        (softMeasureF_forced h vec k.toNat x 0)
      have e : Option.map Int.ofNat (some k.toNat) = some k := by simp [Int.toNat_of_nonneg hk.1]
      rw [e] at hc
      have hrel := rel_softAcc hF h vec hl hk'
      refine main k.toNat hk' ?_
      by_cases hz : outcomeProb n indices (fun c => vec.getD c 0) k.toNat = 0
      · rw [hz] at hrel
        rw [if_pos (rel_zero hrel (hF.bpow _))] at hc
        rw [if_pos hz]
        unfold measureF
        rw [hc]
        rfl
      · have hpos := rel_pos (hF.bpow _) (lt_of_le_of_ne (outcomeProb_nonneg _ _ _ _) (Ne.symm hz)) hrel
        rw [if_neg hpos.ne'] at hc
        rw [if_neg hz]
        exact measureF_eq h vec out hl hlo hk' hc
    · exfalso
      unfold measureF chooseOutcomeF at hr
      simp only [bind, Except.bind] at hr
      rw [if_pos hk] at hr
      cases hr

/-! ## Operations made of roundings -/

theorem factor_pow_err {ε : ℝ} (h0 : 0 ≤ ε) (h1 : ε ≤ 1 / 56) : factor ε ^ 7 - 1 ≤ 8 * ε := by
  have hb := one_add_mul_le_pow (show (-2 : ℝ) ≤ -ε by linarith) 7
  have hpos : (0 : ℝ) < (1 - ε) ^ 7 := pow_pos (by linarith) 7
  unfold factor
  rw [div_pow, one_pow, sub_le_iff_le_add, div_le_iff₀ hpos]
  have e : (1 + -ε) = 1 - ε := by ring
  rw [e] at hb
  push_cast at hb
  nlinarith

theorem scale_parts {c : ℝ} (hc : 0 ≤ c) {w z : ℂ} (h1 : |w.re - z.re| ≤ c * |z.re|) (h2 : |w.im - z.im| ≤ c * |z.im|) :
    ‖w - z‖ ≤ c * ‖z‖ := by
  refine norm_le_of_parts hc ?_ ?_
  · simpa using h1
  · simpa using h2

/-- C95: operations made of a rounding with relative error `ε`, accumulators added in whatever order, are accurate up to `8 ε`. -/
theorem C95_rounding {fl : ℝ → ℝ} {acc : ℝ → List ℝ → ℝ} {ε : ℝ} (h0 : 0 ≤ ε) (h1 : ε ≤ 1 / 56)
    (hfl : ∀ x, |fl x - x| ≤ ε * |x|) (hacc : ∀ a L, SumOf fl (a :: L) (acc a L)) :
    Accurate (FOps.ofRounding fl acc) (8 * ε) := by
  have hlt : ε < 1 := by linarith
  have hb := one_le_factor h0 hlt
  have hmono : factor ε ≤ factor (8 * ε) := by
    unfold factor
    exact one_div_le_one_div_of_le (by linarith) (by linarith)
  have up : ∀ x, |fl x - x| ≤ 8 * ε * |x| := fun x => (hfl x).trans (by nlinarith [abs_nonneg x])
  refine ⟨by linarith, by linarith, fun x y => up _, fun x y => up _, fun x y => up _, fun x y => up _, ?_, ?_, ?_, ?_⟩
  · intro x
    have := up (√x)
    rwa [abs_of_nonneg (Real.sqrt_nonneg x)] at this
  · intro z
    have one : ∀ x, 0 ≤ x → Rel (factor ε) (fl x) x := fun x hx => rel_of_err h0 hlt hx (hfl x)
    have hre := one (z.re * z.re) (mul_self_nonneg _)
    have him := one (z.im * z.im) (mul_self_nonneg _)
    have hs := rel_add hre him
    have hn : 0 ≤ z.re * z.re + z.im * z.im := add_nonneg (mul_self_nonneg _) (mul_self_nonneg _)
    have hs' := rel_trans hb hb (one _ (rel_nonneg hb hn hs)) hs
    have hbb : 1 ≤ factor ε * factor ε := by nlinarith
    have hq := rel_sqrt hbb hn hs'
    have hq' := rel_trans hb hbb (one _ (Real.sqrt_nonneg _)) hq
    have hb3 : 1 ≤ factor ε * (factor ε * factor ε) := by nlinarith
    have hm := rel_mul hb3 hb3 (Real.sqrt_nonneg _) (Real.sqrt_nonneg _) hq' hq'
    have hfin := rel_trans hb (by nlinarith) (one _ (rel_nonneg (by nlinarith) (by positivity) hm)) hm
    rw [Real.mul_self_sqrt hn] at hfin
    have e : factor ε * (factor ε * (factor ε * factor ε) * (factor ε * (factor ε * factor ε))) = factor ε ^ 7 := by ring
    rw [e] at hfin
    refine (rel_abs (one_le_pow₀ hb) (Complex.normSq_nonneg z) hfin).trans ?_
    exact mul_le_mul_of_nonneg_right (factor_pow_err h0 h1) (Complex.normSq_nonneg z)
  · intro z r
    refine scale_parts (by linarith) ?_ ?_
    · have := up (z.re * r)
      simpa [FOps.ofRounding, Complex.mul_re] using this
    · have := up (z.im * r)
      simpa [FOps.ofRounding, Complex.mul_im] using this
  · intro a L ha hL
    have h := (rel_sumOf h0 hlt hfl (hacc a L) (by
      intro x hx
      rcases List.mem_cons.1 hx with rfl | hx
      · exact ha
      · exact hL x hx)).2
    simp only [List.length_cons, Nat.add_sub_cancel, List.sum_cons] at h
    exact rel_mono (one_le_pow₀ hb) (pow_le_pow_left₀ (by linarith) hmono _) (add_nonneg ha (List.sum_nonneg hL)) h

/-- Double precision is accurate up to `2 ^ -50`. -/
theorem double_accurate : Accurate FOps.double (1 / 2 ^ 50) := by
  have h := C95_rounding (fl := round53) (acc := fun a L => L.foldl (fun s x => round53 (s + x)) a) (ε := 1 / 2 ^ 53)
    (by positivity) (by norm_num) round53_err (fun a L => sumOf_foldl round53 L (.one a))
  have e : (8 * (1 / 2 ^ 53) : ℝ) = 1 / 2 ^ 50 := by norm_num
  rwa [e] at h

/-- C95: with double precision and at most 30 qubits, the computed borders of the outcomes are off by less than `2 ^ -15`. -/
theorem C95_double {n : Nat} (hn : n ≤ 30) : drawErr (1 / 2 ^ 50) n ≤ 1 / 2 ^ 15 := by
  have hb := one_le_factor (u := 1 / 2 ^ 50) (by positivity) (by norm_num)
  have hf : factor (1 / 2 ^ 50) ≤ 1 + 2 * (1 / 2 ^ 50) := by
    unfold factor
    rw [div_le_iff₀ (by norm_num)]
    norm_num
  obtain ⟨K, hK⟩ : ∃ K, K = 2 ^ (n + 1) + 2 := ⟨_, rfl⟩
  have hk : (K : ℝ) ≤ 2147483650 := by
    have := Nat.pow_le_pow_right (show 0 < 2 by omega) (show n + 1 ≤ 31 by omega)
    have h : K ≤ 2 ^ 31 + 2 := by omega
    have h' : ((K : Nat) : ℝ) ≤ ((2 ^ 31 + 2 : Nat) : ℝ) := Nat.cast_le.2 h
    push_cast at h'
    exact h'
  unfold drawErr
  rw [← hK]
  have h2 : factor (1 / 2 ^ 50) ^ K ≤ (1 + 2 * (1 / 2 ^ 50)) ^ K := pow_le_pow_left₀ (by linarith) hf _
  have h3 := pow_bound (u := 2 * (1 / 2 ^ 50)) (k := K) (by positivity) (by
    rw [show (2 : ℝ) * (1 / 2 ^ 50) = 1 / 562949953421312 by norm_num]
    linarith)
  generalize (1 + 2 * (1 / 2 ^ 50) : ℝ) ^ K = X at h2 h3
  generalize factor (1 / 2 ^ 50) ^ K = Y at h2
  rw [show (2 : ℝ) * (1 / 2 ^ 50) = 1 / 562949953421312 by norm_num] at h3
  rw [show (1 : ℝ) / 2 ^ 15 = 1 / 32768 by norm_num]
  linarith

/-! ## An impossible outcome -/

/-- Rounding of a natural number to 53 binary digits, ties up. -/
def roundNat (N : Nat) : Nat := (2 * N + 2 ^ (Nat.log2 N - 52)) / 2 ^ (Nat.log2 N - 52 + 1) * 2 ^ (Nat.log2 N - 52)

theorem round_nat_div (N e : Nat) : round ((N : ℝ) / 2 ^ e) = (((2 * N + 2 ^ e) / 2 ^ (e + 1) : Nat) : ℤ) := by
  rw [round_eq, Int.floor_eq_iff]
  have hp : (0 : ℝ) < 2 ^ e := by positivity
  have e1 : (N : ℝ) / 2 ^ e + 1 / 2 = ((2 * N + 2 ^ e : Nat) : ℝ) / ((2 ^ (e + 1) : Nat) : ℝ) := by
    push_cast
    rw [pow_succ]
    field_simp
  rw [e1]
  have hp' : (0 : ℝ) < ((2 ^ (e + 1) : Nat) : ℝ) := by positivity
  have h1 := Nat.div_mul_le_self (2 * N + 2 ^ e) (2 ^ (e + 1))
  have h2 := Nat.lt_div_mul_add (a := 2 * N + 2 ^ e) (b := 2 ^ (e + 1)) (by positivity)
  constructor
  · rw [le_div_iff₀ hp']
    exact_mod_cast h1
  · rw [div_lt_iff₀ hp']
    push_cast [Int.cast_natCast]
    rw [add_mul, one_mul]
    exact_mod_cast h2

theorem round53_nat (N k : Nat) : round53 ((N : ℝ) / 2 ^ k) = (roundNat N : ℝ) / 2 ^ k := by
  rcases Nat.eq_zero_or_pos N with rfl | hN
  · simp [round53, roundNat]
  have habs : |(N : ℝ) / 2 ^ k| = (N : ℝ) / 2 ^ k := abs_of_nonneg (by positivity)
  have hpos : (0 : ℝ) < (N : ℝ) / 2 ^ k := by positivity
  have hlog : Int.log 2 |(N : ℝ) / 2 ^ k| = (Nat.log2 N : ℤ) - k := by
    rw [habs]
    have h1 : 2 ^ Nat.log2 N ≤ N := Nat.log2_self_le (by omega)
    have h2 : N < 2 ^ (Nat.log2 N + 1) := Nat.lt_log2_self
    apply le_antisymm
    · rw [← Int.lt_add_one_iff, ← Int.lt_zpow_iff_log_lt (by norm_num) hpos]
      rw [div_lt_iff₀ (by positivity), show ((2 : ℕ) : ℝ) = 2 by norm_num, ← zpow_natCast (2 : ℝ) k, ← zpow_add₀ (by norm_num)]
      have : ((Nat.log2 N : ℤ) - k + 1 + k) = ((Nat.log2 N + 1 : Nat) : ℤ) := by push_cast; ring
      rw [this, zpow_natCast]
      exact_mod_cast h2
    · rw [← Int.zpow_le_iff_le_log (by norm_num) hpos]
      rw [le_div_iff₀ (by positivity), show ((2 : ℕ) : ℝ) = 2 by norm_num, ← zpow_natCast (2 : ℝ) k, ← zpow_add₀ (by norm_num)]
      rw [sub_add_cancel, zpow_natCast]
      exact_mod_cast h1
  unfold round53 roundNat
  rw [hlog]
  by_cases h52 : 52 ≤ Nat.log2 N
  · obtain ⟨e, he⟩ := Nat.exists_eq_add_of_le h52
    rw [he, Nat.add_sub_cancel_left]
    have e1 : (((52 + e : Nat) : ℤ) - k - 52) = (e : ℤ) - k := by push_cast; ring
    rw [e1, zpow_sub₀ (by norm_num), zpow_natCast, zpow_natCast]
    have e2 : (N : ℝ) / 2 ^ k / (2 ^ e / 2 ^ k) = (N : ℝ) / 2 ^ e := by field_simp
    rw [e2, round_nat_div, Nat.cast_mul, Int.cast_natCast, Nat.cast_pow, mul_div_assoc]
    norm_num
  · have e0 : Nat.log2 N - 52 = 0 := by omega
    obtain ⟨e, he⟩ := Nat.exists_eq_add_of_le (show Nat.log2 N ≤ 52 by omega)
    rw [e0]
    have e1 : ((Nat.log2 N : ℤ) - k - 52) = -((e + k : Nat) : ℤ) := by push_cast; omega
    rw [e1, zpow_neg, zpow_natCast]
    have e2 : (N : ℝ) / 2 ^ k / (2 ^ (e + k))⁻¹ = ((N * 2 ^ e : Nat) : ℤ) := by
      push_cast
      rw [pow_add]
      field_simp
    rw [e2, round_intCast]
    have e3 : (2 * N + 2 ^ 0) / 2 ^ (0 + 1) * 2 ^ 0 = N := by simp; omega
    rw [e3]
    push_cast
    rw [pow_add]
    field_simp

/-- Real amplitudes `w / 2 ^ 53`. -/
noncomputable def amps (ws : List Nat) : List ℂ := ws.map fun w : Nat => (((w : ℝ) / 2 ^ 53 : ℝ) : ℂ)

theorem absSq_amp {w : Nat} (h1 : roundNat w = w) (h2 : roundNat (w * w) = w * w) :
    FOps.double.absSq (((w : ℝ) / 2 ^ 53 : ℝ) : ℂ) = ((w * w : Nat) : ℝ) / 2 ^ 106 := by
  have e : (w : ℝ) / 2 ^ 53 * ((w : ℝ) / 2 ^ 53) = ((w * w : Nat) : ℝ) / 2 ^ 106 := by
    push_cast
    field_simp
  have e0 : round53 0 = 0 := by simp [round53]
  change absSqWith round53 _ = _
  unfold absSqWith
  simp only [Complex.ofReal_re, Complex.ofReal_im, mul_zero, e0, add_zero]
  rw [e, round53_nat, h2, round53_nat, h2, ← e, Real.sqrt_mul_self (by positivity), round53_nat, h1, e, round53_nat, h2]

/-- The loop of `soft_measure` passes every outcome but the last. -/
def passes : List Nat → Nat → Bool
  | [], _ => false
  | [_], _ => true
  | w :: ws, r => decide (w * w < r) && passes ws (roundNat (r - w * w))

theorem softLoopF_passes (acc : Nat → ℝ) (ws : List Nat) (a r : Nat)
    (hacc : ∀ i < ws.length, acc (a + i) = ((ws.getD i 0 * ws.getD i 0 : Nat) : ℝ) / 2 ^ 106) (h : passes ws r = true) :
    softLoopF FOps.double acc (List.range' a ws.length) ((r : ℝ) / 2 ^ 106) = (a + ws.length - 1, acc (a + ws.length - 1)) := by
  induction ws generalizing a r with
  | nil => simp [passes] at h
  | cons w ws ih =>
    have ha := hacc 0 (by simp)
    simp only [Nat.add_zero, List.getD_cons_zero] at ha
    cases ws with
    | nil => simp [softLoopF]
    | cons w' ws =>
      simp only [passes, Bool.and_eq_true, decide_eq_true_eq] at h
      obtain ⟨h1, h2⟩ := h
      have hs : FOps.double.sub ((r : ℝ) / 2 ^ 106) (acc a) = (roundNat (r - w * w) : ℝ) / 2 ^ 106 := by
        change round53 _ = _
        rw [ha, ← sub_div, ← Nat.cast_sub h1.le, round53_nat]
      have hn : ¬ FOps.double.sub ((r : ℝ) / 2 ^ 106) (acc a) ≤ 0 := by
        rw [sub_nonpos_iff double_accurate, ha, ← sub_div, ← Nat.cast_sub h1.le, not_le]
        have : 0 < r - w * w := by omega
        positivity
      rw [List.length_cons, List.range'_succ]
      unfold softLoopF
      rw [if_neg hn, if_neg (by simp), hs]
      have := ih (a + 1) (roundNat (r - w * w)) (by
        intro i hi
        have := hacc (i + 1) (by simpa using hi)
        rw [show a + 1 + i = a + (i + 1) by ring, this]
        simp) h2
      rw [this]
      simp only [List.length_cons]
      congr 2 <;> omega

/-- The sums of `prob_magnitude`. -/
theorem probMagnitudeF_amps (ws : List Nat) (h1 : ∀ w ∈ ws, roundNat w = w ∧ roundNat (w * w) = w * w) (a : Nat) :
    probMagnitudeF FOps.double ((a : ℝ) / 2 ^ 106) (amps ws)
      = ((ws.foldl (fun s w => roundNat (s + w * w)) a : Nat) : ℝ) / 2 ^ 106 := by
  unfold probMagnitudeF amps
  change List.foldl (fun s x => round53 (s + x)) _ _ = _
  induction ws generalizing a with
  | nil => rfl
  | cons w ws ih =>
    simp only [List.map_cons, List.foldl_cons]
    rw [absSq_amp (h1 w (by simp)).1 (h1 w (by simp)).2, ← add_div, ← Nat.cast_add, round53_nat]
    exact ih (fun w hw => h1 w (by simp [hw])) _

/-- 4 qubits; the last three outcomes are impossible. -/
def rareAmps : List Nat :=
  [3 * 2 ^ 51, 2 ^ 26 + 1, 2 ^ 26 + 1, 2 ^ 26 + 1, 2 ^ 26 + 1, 2 ^ 26 + 1, 2 ^ 26 + 1, 2 ^ 26 + 1, 2 ^ 26 + 1, 2 ^ 52, 2 ^ 51, 2 ^ 51, 2 ^ 51,
    0, 0, 0]

/-- C95: the measurement of a state that is normalised up to `2 ^ -50` fails with the largest value of `random.random()`. -/
theorem C95_impossible (out : List ℂ) :
    (amps rareAmps).length = 2 ^ 4 ∧ |totalProb 4 (fun c => (amps rareAmps).getD c 0) - 1| ≤ 1 / 2 ^ 50 ∧
      measureF FOps.double [0, 1, 2, 3] 4 (amps rareAmps) out 0 0 none none (1 - 1 / 2 ^ 53) 0 = .error .zeroDivision := by
  refine ⟨by simp [amps, rareAmps], ?_, ?_⟩
  · have : totalProb 4 (fun c => (amps rareAmps).getD c 0) = ((1 : ℝ) + 8 * ((2 ^ 26 + 1) / 2 ^ 53) ^ 2) := by
      simp only [totalProb, amps, rareAmps, Finset.sum_range_succ, Finset.sum_range_zero, show 2 ^ 4 = 16 from rfl]
      simp
      norm_num
    rw [this]
    norm_num [abs_of_pos]
  have hex : ∀ w ∈ rareAmps, roundNat w = w ∧ roundNat (w * w) = w * w := by decide +kernel
  have hlen : rareAmps.length = 16 := rfl
  have hp := probMagnitudeF_amps rareAmps hex 0
  have hacc : ∀ i < rareAmps.length, softAccF FOps.double 4 [0, 1, 2, 3] (amps rareAmps) 0 (0 + i)
      = ((rareAmps.getD i 0 * rareAmps.getD i 0 : Nat) : ℝ) / 2 ^ 106 := by
    intro i hi
    rw [hlen] at hi
    have he : ∀ i < 16, entwineBit 4 0 i 0 (rowMask 4 [0, 1, 2, 3]) = i := by decide
    have hal : (amps rareAmps).length = 16 := by simp [amps, rareAmps]
    have hw : rareAmps.getD i 0 ∈ rareAmps := by
      rw [List.getD_eq_getElem _ _ (by rw [hlen]; exact hi)]
      exact List.getElem_mem _
    have hg : (amps rareAmps).getD i 0 = (((rareAmps.getD i 0 : ℝ) / 2 ^ 53 : ℝ) : ℂ) := by
      rw [List.getD_eq_getElem _ _ (by rw [hal]; exact hi), List.getD_eq_getElem _ _ (by rw [hlen]; exact hi)]
      simp [amps]
    unfold softAccF
    simp only [List.length_cons, List.length_nil, Nat.sub_self, Nat.zero_add, pow_zero, List.range_one, Nat.reduceAdd]
    rw [List.filter_cons, if_pos (by simp [he i hi, hal, hi])]
    simp only [List.filter_nil, List.map_cons, List.map_nil, he i hi, Nat.sub_zero, hg]
    rw [absSq_amp (hex _ hw).1 (hex _ hw).2]
    change round53 (0 + _) = _
    rw [zero_add, round53_nat, (hex _ hw).2]
  have hpass : passes rareAmps (roundNat ((2 ^ 53 - 1) * (rareAmps.foldl (fun s w => roundNat (s + w * w)) 0 / 2 ^ 53))) = true := by decide +kernel
  have hS : rareAmps.foldl (fun s w => roundNat (s + w * w)) 0 = rareAmps.foldl (fun s w => roundNat (s + w * w)) 0 / 2 ^ 53 * 2 ^ 53 := by
    decide +kernel
  generalize hSd : rareAmps.foldl (fun s w => roundNat (s + w * w)) 0 / 2 ^ 53 = S at hpass hS
  rw [hS] at hp
  have hr : FOps.double.mul (1 - 1 / 2 ^ 53) (probMagnitudeF FOps.double 0 (amps rareAmps))
      = (roundNat ((2 ^ 53 - 1) * S) : ℝ) / 2 ^ 106 := by
    have e : ((0 : Nat) : ℝ) / 2 ^ 106 = 0 := by simp
    rw [e] at hp
    rw [hp]
    change round53 _ = _
    rw [← round53_nat]
    congr 1
    push_cast
    norm_num
    ring
  have hl := softLoopF_passes _ rareAmps 0 _ hacc hpass
  have hlast := hacc 15 (by rw [hlen]; omega)
  unfold measureF chooseOutcomeF softMeasureF
  simp only [bind, Except.bind, Option.map_none, pure, Except.pure]
  rw [if_neg (by decide), if_pos (by decide)]
  rw [hlen, ← List.range_eq_range'] at hl
  simp only [List.length_cons, List.length_nil, Nat.reduceAdd, Nat.reducePow, hr] at hl ⊢
  rw [hl]
  simp only [Nat.zero_add, Nat.reduceSub] at hlast ⊢
  rw [hlast]
  simp [rareAmps]

/-! ## Examples -/

/-- `0.6 |0⟩ + 0.8 |1⟩` with a second qubit in `|0⟩`, in double precision. -/
noncomputable def tilted : List ℂ := [3 / 5, 0, 4 / 5, 0]

theorem tilted_ok : IdxOK 2 [0] := ⟨by decide, by decide⟩

theorem tilted_total : totalProb 2 (fun c => tilted.getD c 0) = 1 := by
  simp only [totalProb, tilted, Finset.sum_range_succ, Finset.sum_range_zero, show 2 ^ 2 = 4 from rfl]
  norm_num [Complex.normSq_apply]

-- outcome 1 has probability 16/25 up to 2 ^ -14
example : |(MeasureTheory.volume (drawsGivingF FOps.double [0] 2 tilted [0, 0, 0, 0] 1)).toReal
    - outcomeProb 2 [0] (fun c => tilted.getD c 0) 1| ≤ 1 / 2 ^ 14 := by
  have h := C95_born_partial double_accurate tilted_ok (vec := tilted) (out := [0, 0, 0, 0]) rfl rfl
    (by rw [tilted_total]; norm_num) (m := 1) (by decide)
  rw [tilted_total, div_one] at h
  have h2 := C95_double (n := 2) (by norm_num)
  refine h.trans ?_
  rw [show (1 : ℝ) / 2 ^ 14 = 2 * (1 / 2 ^ 15) by norm_num]
  linarith

-- a draw of 1/2 gives an outcome of positive probability
example : ∃ m p out', measureF FOps.double [0] 2 tilted [0, 0, 0, 0] 0 0 none none (1 / 2) 0 = .ok (m, p, out') ∧
    |p - outcomeProb 2 [0] (fun c => tilted.getD c 0) m|
      ≤ (factor (1 / 2 ^ 50) ^ (2 ^ (2 - [0].length) + 1) - 1) * outcomeProb 2 [0] (fun c => tilted.getD c 0) m := by
  have hd := C95_double (n := 2) (by norm_num)
  obtain ⟨m, p, out', h, _⟩ := C95_possible_partial double_accurate tilted_ok (vec := tilted) (out := [0, 0, 0, 0]) rfl rfl
    (by rw [tilted_total]; norm_num) (x := 1 / 2) (by norm_num) (by
      have : (1 : ℝ) / 2 ^ 15 ≤ 1 / 2 := by norm_num
      linarith)
  exact ⟨m, p, out', h, (C95_collapse double_accurate tilted_ok rfl rfl (by norm_num) (by norm_num) h).2.2.1⟩

-- `measure_probabilities` in double precision
example := C95_probabilities double_accurate (n := 2) (indices := [0]) (by decide) tilted rfl

end QIP.Props
