import Verif.Lemmas.Oracle
import Verif.Lemmas.TopStep
import Verif.Model.Examples
import Mathlib.Analysis.SpecialFunctions.Trigonometric.Inverse

/-! # One pass of the Grover example -/

namespace QIP

open Spec Heap Finset

theorem AllRegs.applyAll {h : Heap} {ns : List Nat} (a : AllRegs h ns) (n : Nat) (w : Nat → ℂ) :
    applyAll n h (List.range ns.length) (needed h (List.range ns.length)) w = w := by
  have key : ∀ (L : List Nat), (∀ x ∈ L, h.kind x = .qubit) → ∀ w,
      Spec.applyAll n h (List.range ns.length) L w = w := by
    intro L
    induction L with
    | nil => intro _ _; rfl
    | cons x L ih =>
      intro hL w
      unfold Spec.applyAll at ih ⊢
      rw [List.foldl_cons, ih fun y hy => hL y (by simp [hy])]
      unfold nodeApply
      rw [hL x (by simp)]
  apply key
  intro x hx
  unfold needed at hx
  rw [List.mem_filter] at hx
  exact a.kind x ((a.reach x).1 (by simpa using hx.2))

/-! ## The effect of one pass -/

theorem h_congr {N : Nat} {L : List Nat} {v w : Nat → ℂ} (h : ∀ c < 2 ^ N, v c = w c) {r : Nat} (hr : r < 2 ^ N) :
    gateApply N .h [L] v r = gateApply N .h [L] w r := by
  unfold gateApply
  simp only [List.flatten_cons, List.flatten_nil, List.append_nil]
  have : ∀ L : List Nat, ∀ r < 2 ^ N, L.foldr (fun q w => apply1 N q (gateU .h) w) v r
      = L.foldr (fun q w => apply1 N q (gateU .h) w) w r := by
    intro L
    induction L with
    | nil => exact h
    | cons q L ih =>
      intro r _
      rw [List.foldr_cons, List.foldr_cons]
      exact apply1_congr ih r
  exact this L r hr

theorem fop_congr {N : Nat} {f : Nat → Except PyErr Int} {gs : List (List Nat)} {v w : Nat → ℂ}
    (h : ∀ c < 2 ^ N, v c = w c) (r : Nat) : kindApply N (.fop f) gs v r = kindApply N (.fop f) gs w r := by
  unfold kindApply
  refine Finset.sum_congr rfl fun c hc => h c ?_
  exact mem_range.1 (mem_filter.1 hc).1

theorem psi_congr {n : Nat} {g g' : Nat → ℂ} (μ : Bool → ℂ) (h : ∀ c < 2 ^ n, g c = g' c) {r : Nat} (hr : r < 2 ^ (n + 1)) :
    psi g μ r = psi g' μ r := by
  unfold psi
  rw [h (r / 2) (by rw [pow_succ] at hr; omega)]

/-- The oracle, then `H`, the oracle of 0, `H`. -/
noncomputable def groverPass (n x : Nat) (v : Nat → ℂ) : Nat → ℂ :=
  gateApply (n + 1) .h [List.range n] (kindApply (n + 1) (.fop fun i => .ok (if i = 0 then 1 else 0)) [List.range n, [n]]
    (gateApply (n + 1) .h [List.range n] (kindApply (n + 1) (.fop fun i => .ok (if i = x then 1 else 0)) [List.range n, [n]] v)))

/-- The sign change at `x` and the inversion about the mean (negated). -/
noncomputable def amplify (n x : Nat) (g : Nat → ℂ) (r : Nat) : ℂ :=
  (if r = x then -g r else g r) - 2 / 2 ^ n * ∑ j ∈ range (2 ^ n), if j = x then -g j else g j

theorem groverPass_psi {n x : Nat} (hn : 0 < n) {g : Nat → ℂ} {μ : Bool → ℂ} (hμ : ∀ b, μ (!b) = -μ b) {v : Nat → ℂ}
    (hv : ∀ r < 2 ^ (n + 1), v r = psi g μ r) {r : Nat} (hr : r < 2 ^ (n + 1)) :
    groverPass n x v r = psi (amplify n x g) μ r := by
  unfold groverPass
  have e1 : ∀ c < 2 ^ (n + 1), kindApply (n + 1) (.fop fun i => .ok (if i = x then 1 else 0)) [List.range n, [n]] v c
      = psi (fun i => if i = x then -g i else g i) μ c := by
    intro c hc
    rw [fop_congr hv, oracle_psi g μ hμ hc]
  have e2 : ∀ c < 2 ^ (n + 1), gateApply (n + 1) .h [List.range n] (kindApply (n + 1) (.fop fun i => .ok (if i = x then 1 else 0))
      [List.range n, [n]] v) c = psi (hN n fun i => if i = x then -g i else g i) μ c := by
    intro c hc
    rw [h_congr e1 hc, h_psi]
  have e3 : ∀ c < 2 ^ (n + 1), kindApply (n + 1) (.fop fun i => .ok (if i = 0 then 1 else 0)) [List.range n, [n]]
      (gateApply (n + 1) .h [List.range n] (kindApply (n + 1) (.fop fun i => .ok (if i = x then 1 else 0))
      [List.range n, [n]] v)) c = psi (fun i => if i = 0 then -(hN n fun i => if i = x then -g i else g i) i
        else (hN n fun i => if i = x then -g i else g i) i) μ c := by
    intro c hc
    rw [fop_congr e2, oracle_psi _ μ hμ hc]
  rw [h_congr e3 hr, h_psi]
  exact psi_congr μ (fun c hc => diffusion hn _ hc) hr

/-! ## Amplitudes after several passes -/

/-- `(-1)^k` times the usual amplitudes after `k` rotations. -/
noncomputable def groverAmp (N x : Nat) (θ : ℝ) (k : Nat) (r : Nat) : ℝ :=
  (-1) ^ k * if r = x then Real.sin ((2 * k + 1) * θ) else Real.cos ((2 * k + 1) * θ) / √(N - 1)

theorem amplify_groverAmp {n x : Nat} (hn : 0 < n) (hx : x < 2 ^ n) {θ : ℝ} (hs : Real.sin θ = 1 / √(2 ^ n))
    (hc : Real.cos θ = √(2 ^ n - 1) / √(2 ^ n)) (k : Nat) {g : Nat → ℂ}
    (hg : ∀ r < 2 ^ n, g r = (groverAmp (2 ^ n) x θ k r : ℝ)) {r : Nat} (hr : r < 2 ^ n) :
    amplify n x g r = (groverAmp (2 ^ n) x θ (k + 1) r : ℝ) := by
  have h2 : (2 : ℝ) ≤ 2 ^ n := by
    calc (2 : ℝ) = 2 ^ 1 := by norm_num
      _ ≤ 2 ^ n := pow_le_pow_right₀ (by norm_num) hn
  set t := √((2 : ℝ) ^ n - 1) with ht
  have ht0 : 0 < t := Real.sqrt_pos.2 (by linarith)
  have htt : t * t = 2 ^ n - 1 := Real.mul_self_sqrt (by linarith)
  have hN : (2 : ℝ) ^ n = t * t + 1 := by rw [htt]; ring
  have hss : Real.sin θ * Real.sin θ = 1 / 2 ^ n := by
    rw [hs, div_mul_div_comm, Real.mul_self_sqrt (by positivity)]; norm_num
  have hcs : Real.sin θ * Real.cos θ = t / 2 ^ n := by
    rw [hs, hc, div_mul_div_comm, Real.mul_self_sqrt (by positivity), one_mul]
  set φ := (2 * (k : ℝ) + 1) * θ with hφ
  have hφ' : (2 * ((k + 1 : Nat) : ℝ) + 1) * θ = φ + 2 * θ := by rw [hφ]; push_cast; ring
  have hsin : Real.sin (φ + 2 * θ) = Real.sin φ * (1 - 2 / 2 ^ n) + Real.cos φ * (2 * (t / 2 ^ n)) := by
    rw [Real.sin_add, Real.cos_two_mul, Real.sin_two_mul, ← hcs, Real.cos_sq']
    have : Real.sin θ ^ 2 = 1 / 2 ^ n := by rw [sq]; exact hss
    rw [this]; ring
  have hcos : Real.cos (φ + 2 * θ) = Real.cos φ * (1 - 2 / 2 ^ n) - Real.sin φ * (2 * (t / 2 ^ n)) := by
    rw [Real.cos_add, Real.cos_two_mul, Real.sin_two_mul, ← hcs, Real.cos_sq']
    have : Real.sin θ ^ 2 = 1 / 2 ^ n := by rw [sq]; exact hss
    rw [this]; ring
  have hsum : ∑ j ∈ range (2 ^ n), (if j = x then -g j else g j) = (((-1) ^ k * (t * Real.cos φ - Real.sin φ) : ℝ) : ℂ) := by
    have e : ∀ j ∈ range (2 ^ n), (if j = x then -g j else g j) = (((-1) ^ k * (Real.cos φ / t) : ℝ) : ℂ)
        + if j = x then (((-1) ^ k * (-Real.sin φ - Real.cos φ / t) : ℝ) : ℂ) else 0 := by
      intro j hj
      have hgj := hg j (mem_range.1 hj)
      unfold groverAmp at hgj
      simp only [Nat.cast_pow, Nat.cast_ofNat, ← ht, ← hφ] at hgj
      rw [hgj]
      split
      · push_cast; ring
      · simp
    rw [Finset.sum_congr rfl e, Finset.sum_add_distrib, Finset.sum_ite_eq' (range (2 ^ n)), if_pos (mem_range.2 hx),
      Finset.sum_const, Finset.card_range, nsmul_eq_mul, ← Complex.ofReal_natCast, ← Complex.ofReal_mul, ← Complex.ofReal_add]
    congr 1
    push_cast
    rw [hN]
    field_simp
    ring
  unfold amplify
  rw [hsum, hg r hr]
  unfold groverAmp
  simp only [Nat.cast_pow, Nat.cast_ofNat, ← ht, ← hφ, hφ', hsin, hcos]
  rw [show (2 : ℂ) / 2 ^ n = ((2 / 2 ^ n : ℝ) : ℂ) by push_cast; rfl, ← Complex.ofReal_mul]
  have ht1 : t * t + 1 ≠ 0 := by positivity
  split
  · rw [← Complex.ofReal_neg, ← Complex.ofReal_sub, hN]
    congr 1
    rw [pow_succ]
    field_simp
    ring
  · rw [← Complex.ofReal_sub, hN]
    congr 1
    rw [pow_succ]
    field_simp
    ring

end QIP
