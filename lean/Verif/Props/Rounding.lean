import Mathlib.Analysis.Complex.Exponential
import Verif.Lemmas.Underflow
import Verif.Lemmas.Measure

/-!
# Rounding errors of the compiled kernel: C90
-/

namespace QIP.Props

open QIP Spec Finset

variable {A : Arith} {n t : Nat}

/-- The numbers of a state. -/
def vals (v : List (FC A)) (c : Nat) : ℂ := (v.getD c 0).val

/-! ## Any number of gates -/

theorem gateErr_nonneg {u : ℝ} (hu : 0 ≤ u) (t w : Nat) : 0 ≤ gateErr u t w := by
  unfold gateErr
  have := one_le_pow₀ (by linarith : 1 ≤ 1 + u) (n := (t + 1) * (w + 1) + 1 + 2 ^ w)
  exact mul_nonneg (by linarith) (Real.sqrt_nonneg _)

theorem one_le_errProd {u : ℝ} (hu : 0 ≤ u) (t : Nat) (gates : List (Gate × List (List Nat))) :
    1 ≤ (gates.map fun g => 1 + gateErr u t g.2.flatten.length).prod := by
  induction gates with
  | nil => simp
  | cons g gates ih =>
    rw [List.map_cons, List.prod_cons]
    have := gateErr_nonneg hu t g.2.flatten.length
    nlinarith

theorem gateApply_norm {g : Gate} {gs : List (List Nat)} (hf : Fits g gs) (hgs : GroupsOK n gs) (v : Nat → ℂ) :
    dist2 n (gateApply n g gs v) 0 = dist2 n v 0 := by
  have h0 : dist2 n (gateApply n g gs 0) 0 = 0 := by
    obtain ⟨mats, h⟩ := gm_exists g gs hf hgs
    have h1 : ∀ r < 2 ^ n, gateApply n g gs 0 r = 0 := by
      intro r hr
      rw [← h.sem 0 r hr, kronApply]
      simp
    unfold dist2
    rw [Finset.sum_eq_zero, Real.sqrt_zero]
    intro r hr
    rw [h1 r (by simpa using hr)]
    simp
  have h1 := dist2_gate hf hgs v 0
  have hc : ∀ a b, dist2 n a b = dist2 n b a := by
    intro a b
    unfold dist2
    simp only [norm_sub_rev]
  have h2 := dist2_triangle n (gateApply n g gs v) (gateApply n g gs 0) 0
  have h3 := dist2_triangle n (gateApply n g gs v) 0 (gateApply n g gs 0)
  rw [hc 0] at h3
  linarith

/-- With unbounded exponents: relative errors only. -/
theorem C90_unbounded [A.Ideal] {gates : List (Gate × List (List Nat))} (hops : ∀ g ∈ gates, Fits g.1 g.2 ∧ GroupsOK n g.2)
    {v v' : List (FC A)} (hv : v.length = 2 ^ n) (h : RoundedGates A t n gates v v') :
    v'.length = 2 ^ n ∧ dist2 n (vals v') (exactGates n gates (vals v))
      ≤ ((gates.map fun g => 1 + gateErr A.u t g.2.flatten.length).prod - 1) * dist2 n (vals v) 0 := by
  induction h with
  | nil v =>
    refine ⟨hv, ?_⟩
    have : dist2 n (vals v) (vals v) = 0 := by simp [dist2]
    simp [exactGates, this]
  | @cons g gs mats matsF sched arena run rest v v1 v2 hm hF hs ha hk hrest ih =>
    have hg := hops (g, gs) (by simp)
    obtain ⟨w, hw, hwl, he⟩ := gate_rounding run hg.1 hg.2 hm hF hs hv ha
    rw [hk] at hw
    injection hw with hw
    subst hw
    have hrests : ∀ g ∈ rest, Fits g.1 g.2 ∧ GroupsOK n g.2 := fun g hg => hops g (by simp [hg])
    obtain ⟨hl, hd⟩ := ih hrests hwl
    refine ⟨hl, ?_⟩
    change dist2 n (vals v1) (gateApply n g gs (vals v)) ≤ _ * dist2 n (vals v) 0 at he
    have h1 : dist2 n (vals v1) 0 ≤ (1 + gateErr A.u t gs.flatten.length) * dist2 n (vals v) 0 := by
      have := dist2_triangle n (vals v1) (gateApply n g gs (vals v)) 0
      rw [gateApply_norm hg.1 hg.2] at this
      linarith
    have h2 := dist2_triangle n (vals v2) (exactGates n rest (vals v1)) (exactGates n rest (gateApply n g gs (vals v)))
    rw [dist2_gates hrests] at h2
    rw [exactGates, List.map_cons, List.prod_cons]
    have hP := one_le_errProd A.u_nonneg t rest
    set P := (rest.map fun g => 1 + gateErr A.u t g.2.flatten.length).prod
    have h3 := mul_le_mul_of_nonneg_left h1 (by linarith : 0 ≤ P - 1)
    change _ ≤ ((1 + gateErr A.u t gs.flatten.length) * P - 1) * _
    nlinarith

theorem gateTiny_nonneg {eta : ℝ} (h : 0 ≤ eta) (n w : Nat) : 0 ≤ gateTiny eta n w := by
  unfold gateTiny
  positivity

/-- C90 (gates run backwards: C97; the sum of every row in any order): with underflow and overflow. -/
theorem C90_rounding [A.Ranged] {gates : List (Gate × List (List Nat))} (hops : ∀ g ∈ gates, Fits g.1 g.2 ∧ GroupsOK n g.2)
    (hfit : ∀ g ∈ gates, InRange A t g.2.flatten.length) {v v' : List (FC A)} (hv : v.length = 2 ^ n)
    (hB : (gates.map fun g => 1 + gateErr A.u t g.2.flatten.length).prod
      * (dist2 n (vals v) 0 + (gates.map fun g => gateTiny A.eta n g.2.flatten.length).sum) ≤ 2)
    (h : RoundedGates A t n gates v v') :
    v'.length = 2 ^ n ∧ dist2 n (vals v') (exactGates n gates (vals v))
      ≤ ((gates.map fun g => 1 + gateErr A.u t g.2.flatten.length).prod - 1) * dist2 n (vals v) 0
        + (gates.map fun g => 1 + gateErr A.u t g.2.flatten.length).prod
          * (gates.map fun g => gateTiny A.eta n g.2.flatten.length).sum := by
  induction h with
  | nil v =>
    refine ⟨hv, ?_⟩
    have : dist2 n (vals v) (vals v) = 0 := by simp [dist2]
    simp [exactGates, this]
  | @cons g gs mats matsF sched arena run rest v v1 v2 hm hF hs ha hk hrest ih =>
    have hg := hops (g, gs) (by simp)
    have hi := hfit (g, gs) (by simp)
    have hP := one_le_errProd A.u_nonneg t rest
    have hE := gateErr_nonneg A.u_nonneg t gs.flatten.length
    have hτ := gateTiny_nonneg A.eta_nonneg n gs.flatten.length
    have hT : 0 ≤ (rest.map fun g => gateTiny A.eta n g.2.flatten.length).sum := by
      apply List.sum_nonneg
      simp only [List.mem_map, forall_exists_index, and_imp]
      rintro x g - rfl
      exact gateTiny_nonneg A.eta_nonneg n _
    have hd0 := dist2_nonneg n (vals v) 0
    rw [List.map_cons, List.prod_cons, List.map_cons, List.sum_cons] at hB ⊢
    dsimp only at hB ⊢
    set P := (rest.map fun g => 1 + gateErr A.u t g.2.flatten.length).prod
    set T := (rest.map fun g => gateTiny A.eta n g.2.flatten.length).sum
    set e := gateErr A.u t gs.flatten.length
    set τ := gateTiny A.eta n gs.flatten.length
    set d := dist2 n (vals v) 0
    have hd2 : d ≤ 2 := by
      have h1 : 1 ≤ (1 + e) * P := by nlinarith
      nlinarith
    obtain ⟨w, hw, hwl, he⟩ := gate_ranged run hg.1 hg.2 hm hF hi.1 hi.2.1 hi.2.2 hs hv hd2 ha
    rw [hk] at hw
    injection hw with hw
    subst hw
    have hrests : ∀ g ∈ rest, Fits g.1 g.2 ∧ GroupsOK n g.2 := fun g hg => hops g (by simp [hg])
    change dist2 n (vals v1) (gateApply n g gs (vals v)) ≤ e * d + τ at he
    have h1 : dist2 n (vals v1) 0 ≤ (1 + e) * d + τ := by
      have := dist2_triangle n (vals v1) (gateApply n g gs (vals v)) 0
      rw [gateApply_norm hg.1 hg.2] at this
      linarith
    obtain ⟨hl, hd⟩ := ih hrests (fun g hg => hfit g (by simp [hg])) hwl (by
      refine le_trans ?_ hB
      have : dist2 n (vals v1) 0 + T ≤ (1 + e) * (d + (τ + T)) := by nlinarith
      have := mul_le_mul_of_nonneg_left this (by linarith : 0 ≤ P)
      linarith)
    refine ⟨hl, ?_⟩
    have h2 := dist2_triangle n (vals v2) (exactGates n rest (vals v1)) (exactGates n rest (gateApply n g gs (vals v)))
    rw [dist2_gates hrests] at h2
    rw [exactGates]
    have h3 := mul_le_mul_of_nonneg_left h1 (by linarith : 0 ≤ P - 1)
    have h4 : P * (τ + T) ≤ (1 + e) * P * (τ + T) := by
      have : 0 ≤ e * (P * (τ + T)) := by positivity
      linarith
    nlinarith

/-- The kernel does not fail on rounded matrices: from every state, whatever matrices close to those of the gates are fed in and
whatever the schedules, there is a run. -/
theorem C90_runs {gates : List (Gate × List (List Nat))} (hops : ∀ g ∈ gates, Fits g.1 g.2 ∧ GroupsOK n g.2)
    (matsOf : Gate × List (List Nat) → List (Key × Mat (FC A)))
    (hmats : ∀ g ∈ gates, ∃ mats, g.1.feedMats false g.2 = .ok mats ∧ List.Forall₂ (fun a b => a.1 = b.1 ∧ MatNear t a.2 b.2) (matsOf g) mats)
    {sched : List Nat} (hs : sched.Perm (List.range (2 ^ n))) {arena : List (FC A)} (ha : arena.length = 2 ^ n)
    {v : List (FC A)} (hv : v.length = 2 ^ n) (run : Nat) :
    ∃ v', gates.foldlM (fun v g => kronselectDotF run (matsOf g) v n arena 0 0 sched) v = .ok v' ∧
      RoundedGates A t n gates v v' := by
  induction gates generalizing v with
  | nil => exact ⟨v, rfl, .nil v⟩
  | cons g rest ih =>
    have hg := hops g (by simp)
    obtain ⟨mats, hm, hF⟩ := hmats g (by simp)
    obtain ⟨w, hw, hwl⟩ := gate_runs run hg.1 hg.2 hm hF hs hv ha
    obtain ⟨v', hv', hr⟩ := ih (fun g hg => hops g (by simp [hg])) (fun g hg => hmats g (by simp [hg])) hwl
    refine ⟨v', ?_, .cons hm hF hs ha hw hr⟩
    rw [List.foldlM_cons, hw]
    exact hv'

/-! ## Probabilities -/

theorem sqrt_outcome_diff {idx : List Nat} (v w : Nat → ℂ) (m : Nat) :
    √(outcomeProb n idx v m) ≤ √(outcomeProb n idx w m) + dist2 n v w := by
  classical
  -- the projected states
  let pr := fun (x : Nat → ℂ) c => if subIndex n (inOrder n idx) c = m then x c else 0
  have hp : ∀ x, √(outcomeProb n idx x m) = dist2 n (pr x) 0 := by
    intro x
    unfold outcomeProb dist2
    rw [Finset.sum_filter]
    congr 1
    apply Finset.sum_congr rfl
    intro c _
    simp only [pr, Pi.zero_apply, sub_zero]
    split
    · rw [Complex.normSq_eq_norm_sq]
    · simp
  have h1 := dist2_triangle n (pr v) (pr w) 0
  have h2 : dist2 n (pr v) (pr w) ≤ dist2 n v w := by
    unfold dist2
    apply Real.sqrt_le_sqrt
    apply Finset.sum_le_sum
    intro c _
    simp only [pr]
    split
    · exact le_rfl
    · rw [sub_self, norm_zero, zero_pow two_ne_zero]
      positivity
  rw [hp, hp]
  linarith

theorem dist2_comm (a b : Nat → ℂ) : dist2 n a b = dist2 n b a := by
  unfold dist2
  simp only [norm_sub_rev]

theorem totalProb_dist (v : Nat → ℂ) : totalProb n v = dist2 n v 0 ^ 2 := by
  unfold totalProb dist2
  rw [Real.sq_sqrt (Finset.sum_nonneg fun _ _ => by positivity)]
  simp [Complex.normSq_eq_norm_sq]

/-- C90: the probabilities of the outcomes of a measurement of the computed state. -/
theorem C90_probs {v w : Nat → ℂ} (hw : totalProb n w = 1) {d : ℝ} (hd : dist2 n v w ≤ d) (idx : List Nat) (m : Nat) :
    |outcomeProb n idx v m - outcomeProb n idx w m| ≤ d * (2 + d) ∧ |totalProb n v - 1| ≤ d * (2 + d) := by
  have hd0 : 0 ≤ d := (dist2_nonneg n v w).trans hd
  have key : ∀ a b : ℝ, 0 ≤ a → 0 ≤ b → b ≤ 1 → a ≤ b + d → b ≤ a + d → |a ^ 2 - b ^ 2| ≤ d * (2 + d) := by
    intro a b ha hb hb1 h1 h2
    rw [abs_le]
    constructor <;> nlinarith
  constructor
  · have h1 := sqrt_outcome_diff (n := n) (idx := idx) v w m
    have h2 := sqrt_outcome_diff (n := n) (idx := idx) w v m
    rw [dist2_comm w v] at h2
    have hle : outcomeProb n idx w m ≤ 1 := by
      rw [← hw]
      unfold outcomeProb totalProb
      exact Finset.sum_le_sum_of_subset_of_nonneg (Finset.filter_subset _ _) fun _ _ _ => Complex.normSq_nonneg _
    have := key _ _ (Real.sqrt_nonneg (outcomeProb n idx v m)) (Real.sqrt_nonneg (outcomeProb n idx w m))
      (by rw [Real.sqrt_le_one]; exact hle) (by linarith) (by linarith)
    rwa [Real.sq_sqrt (outcomeProb_nonneg _ _ _ _), Real.sq_sqrt (outcomeProb_nonneg _ _ _ _)] at this
  · rw [totalProb_dist] at hw ⊢
    have hw1 : dist2 n w 0 = 1 := by
      have := dist2_nonneg n w 0
      nlinarith
    have h1 := dist2_triangle n v w 0
    have h2 := dist2_triangle n w v 0
    rw [dist2_comm w v] at h2
    have := key _ _ (dist2_nonneg n v 0) (dist2_nonneg n w 0) (by rw [hw1]) (by linarith) (by linarith)
    rwa [hw] at this

/-! ## Double precision -/

theorem norm_le_of_parts {z w : ℂ} {c : ℝ} (hc : 0 ≤ c) (hr : |z.re| ≤ c * |w.re|) (hi : |z.im| ≤ c * |w.im|) :
    ‖z‖ ≤ c * ‖w‖ := by
  have h1 : z.re ^ 2 ≤ (c * |w.re|) ^ 2 := by rw [← sq_abs z.re]; exact pow_le_pow_left₀ (abs_nonneg _) hr 2
  have h2 : z.im ^ 2 ≤ (c * |w.im|) ^ 2 := by rw [← sq_abs z.im]; exact pow_le_pow_left₀ (abs_nonneg _) hi 2
  rw [mul_pow, sq_abs] at h1 h2
  have h3 := Complex.normSq_eq_norm_sq z
  have h4 := Complex.normSq_eq_norm_sq w
  rw [Complex.normSq_apply] at h3 h4
  refine le_of_sq_le_sq ?_ (mul_nonneg hc (norm_nonneg _))
  rw [mul_pow, ← h3, ← h4]
  nlinarith

theorem abs_parts_le (x y : ℂ) : |x.re * y.re| + |x.im * y.im| ≤ ‖x‖ * ‖y‖ ∧ |x.re * y.im| + |x.im * y.re| ≤ ‖x‖ * ‖y‖ := by
  have hx := Complex.normSq_eq_norm_sq x
  have hy := Complex.normSq_eq_norm_sq y
  rw [Complex.normSq_apply] at hx hy
  simp only [abs_mul]
  have s1 : |x.re| * |x.re| = x.re * x.re := abs_mul_abs_self _
  have s2 : |x.im| * |x.im| = x.im * x.im := abs_mul_abs_self _
  have s3 : |y.re| * |y.re| = y.re * y.re := abs_mul_abs_self _
  have s4 : |y.im| * |y.im| = y.im * y.im := abs_mul_abs_self _
  constructor
  · refine le_of_sq_le_sq ?_ (by positivity)
    rw [mul_pow, ← hx, ← hy, ← s1, ← s2, ← s3, ← s4]
    nlinarith [sq_nonneg (|x.re| * |y.im| - |x.im| * |y.re|)]
  · refine le_of_sq_le_sq ?_ (by positivity)
    rw [mul_pow, ← hx, ← hy, ← s1, ← s2, ← s3, ← s4]
    nlinarith [sq_nonneg (|x.re| * |y.re| - |x.im| * |y.im|)]

theorem norm_le_of_parts_le {z : ℂ} {c : ℝ} (hc : 0 ≤ c) (hr : |z.re| ≤ c) (hi : |z.im| ≤ c) : ‖z‖ ≤ 3 / 2 * c := by
  have h1 : z.re ^ 2 ≤ c ^ 2 := by rw [← sq_abs z.re]; exact pow_le_pow_left₀ (abs_nonneg _) hr 2
  have h2 : z.im ^ 2 ≤ c ^ 2 := by rw [← sq_abs z.im]; exact pow_le_pow_left₀ (abs_nonneg _) hi 2
  have h3 := Complex.normSq_eq_norm_sq z
  rw [Complex.normSq_apply] at h3
  refine le_of_sq_le_sq ?_ (by positivity)
  rw [← h3]
  nlinarith

/-- Sums of products in any order, with underflow and overflow: as many roundings as there are products. -/
theorem sumOfProducts_ranged {fl : ℝ → ℝ} {ε η M : ℝ} (hε : 0 ≤ ε) (hη : 0 ≤ η) (hfl : ∀ x, |x| ≤ M → |fl x - x| ≤ ε * |x| + η)
    {L : List (ℝ × ℝ)} {s : ℝ} (h : SumOfProducts fl L s)
    (hM : (1 + ε) ^ L.length * ((L.map fun t => |t.1 * t.2|).sum + 2 * L.length * η) ≤ M) :
    1 ≤ L.length ∧ |s - (L.map fun t => t.1 * t.2).sum|
      ≤ ((1 + ε) ^ L.length - 1) * (L.map fun t => |t.1 * t.2|).sum + (2 * L.length - 1) * η * (1 + ε) ^ L.length := by
  have hS : ∀ L : List (ℝ × ℝ), |(L.map fun t => t.1 * t.2).sum| ≤ (L.map fun t => |t.1 * t.2|).sum := by
    intro L
    induction L with
    | nil => simp
    | cons t L ih =>
      simp only [List.map_cons, List.sum_cons]
      exact (abs_add_le _ _).trans (by linarith)
  have hpow : ∀ {k l : Nat}, k ≤ l → (1 + ε) ^ k ≤ (1 + ε) ^ l := fun h => pow_le_pow_right₀ (by linarith) h
  have hone : ∀ k : Nat, 1 ≤ (1 + ε) ^ k := fun k => one_le_pow₀ (by linarith)
  -- rounding a sum
  have hround : ∀ {x z S a : ℝ} {l : Nat}, 1 ≤ a → |z| ≤ S → a * (1 + ε) * (S + 2 * (l + 1 : Nat) * η) ≤ M →
      |x - z| ≤ (a - 1) * S + 2 * l * η * a →
      |fl x - z| ≤ (a * (1 + ε) - 1) * S + (2 * (l + 1 : Nat) - 1) * η * (a * (1 + ε)) := by
    intro x z S a l ha hz hM hx
    have hS0 : 0 ≤ S := (abs_nonneg _).trans hz
    have h2 : |x| ≤ |x - z| + |z| := by simpa using abs_add_le (x - z) z
    have hl0 : 0 ≤ (l : ℝ) * η * a := by positivity
    push_cast at hM ⊢
    have hr : |x| ≤ M := by
      refine le_trans ?_ hM
      have h5 : a * S + 2 * l * η * a ≤ a * (S + 2 * (l + 1) * η) := by nlinarith [mul_nonneg (by linarith : 0 ≤ a) hη]
      have h6 : a * (S + 2 * (l + 1) * η) ≤ a * (1 + ε) * (S + 2 * (l + 1) * η) := by
        have : 0 ≤ a * (S + 2 * (l + 1) * η) := by positivity
        nlinarith
      linarith
    have h1 := hfl x hr
    have h3 : |fl x - z| ≤ |fl x - x| + |x - z| := by simpa using abs_add_le (fl x - x) (x - z)
    have h4 := mul_le_mul_of_nonneg_left (h2.trans (add_le_add hx hz)) hε
    have h7 : η * 1 ≤ η * (a * (1 + ε)) := mul_le_mul_of_nonneg_left (by nlinarith) hη
    nlinarith
  induction h with
  | prod x y =>
    refine ⟨le_rfl, ?_⟩
    simp only [List.map_cons, List.map_nil, List.sum_cons, List.sum_nil, add_zero, List.length_cons, List.length_nil, zero_add,
      pow_one] at hM ⊢
    have := hround (x := x * y) (z := x * y) (S := |x * y|) (a := 1) (l := 0) le_rfl le_rfl (by simpa using hM) (by simp)
    simpa using this
  | @add L L' s s' h h' ih ih' =>
    rw [List.map_append, List.sum_append, List.length_append] at hM
    have hX := hS L
    have hX' := hS L'
    set X := (L.map fun t => |t.1 * t.2|).sum with hXd
    set X' := (L'.map fun t => |t.1 * t.2|).sum with hXd'
    have hX0 : 0 ≤ X := (abs_nonneg _).trans hX
    have hX0' : 0 ≤ X' := (abs_nonneg _).trans hX'
    have ih := ih (by
      refine le_trans (mul_le_mul (hpow (Nat.le_add_right _ L'.length)) ?_ (by positivity) (by linarith [hone (L.length + L'.length)])) hM
      push_cast
      nlinarith [mul_nonneg (Nat.cast_nonneg (α := ℝ) L'.length) hη])
    have ih' := ih' (by
      refine le_trans (mul_le_mul (hpow (Nat.le_add_left _ L.length)) ?_ (by positivity) (by linarith [hone (L.length + L'.length)])) hM
      push_cast
      nlinarith [mul_nonneg (Nat.cast_nonneg (α := ℝ) L.length) hη])
    refine ⟨by rw [List.length_append]; omega, ?_⟩
    rw [List.map_append, List.sum_append, List.map_append, List.sum_append, List.length_append, ← hXd, ← hXd']
    set x := (L.map fun t => t.1 * t.2).sum
    set x' := (L'.map fun t => t.1 * t.2).sum
    obtain ⟨l, hl⟩ : ∃ l, L.length + L'.length = l + 1 := ⟨L.length + L'.length - 1, by omega⟩
    rw [hl, pow_succ] at hM ⊢
    apply hround (hone l) _ hM
    · have e : s + s' - (x + x') = (s - x) + (s' - x') := by ring
      have hl' : (L.length : ℝ) + L'.length = l + 1 := by exact_mod_cast hl
      have p1 := hpow (show L.length ≤ l by omega)
      have p2 := hpow (show L'.length ≤ l by omega)
      have l1 : (1 : ℝ) ≤ L.length := by exact_mod_cast ih.1
      have l2 : (1 : ℝ) ≤ L'.length := by exact_mod_cast ih'.1
      have g1 : |s - x| ≤ ((1 + ε) ^ l - 1) * X + (2 * L.length - 1) * η * (1 + ε) ^ l := by
        refine ih.2.trans (add_le_add ?_ ?_)
        · gcongr
        · exact mul_le_mul_of_nonneg_left p1 (mul_nonneg (by linarith) hη)
      have g2 : |s' - x'| ≤ ((1 + ε) ^ l - 1) * X' + (2 * L'.length - 1) * η * (1 + ε) ^ l := by
        refine ih'.2.trans (add_le_add ?_ ?_)
        · gcongr
        · exact mul_le_mul_of_nonneg_left p2 (mul_nonneg (by linarith) hη)
      rw [e]
      refine (abs_add_le _ _).trans ((add_le_add g1 g2).trans (le_of_eq ?_))
      have : (l : ℝ) = L.length + L'.length - 1 := by linarith
      rw [this]
      ring
    · exact (abs_add_le _ _).trans (add_le_add hX hX')
  | @fma x y L s h ih =>
    rw [List.map_cons, List.sum_cons, List.length_cons] at hM
    have hX := hS L
    set X := (L.map fun t => |t.1 * t.2|).sum with hXd
    have hX0 : 0 ≤ X := (abs_nonneg _).trans hX
    have ih := ih (by
      refine le_trans (mul_le_mul (hpow (Nat.le_succ _)) ?_ (by positivity) (pow_nonneg (by linarith) _)) hM
      push_cast
      have := abs_nonneg (x * y)
      linarith)
    refine ⟨by simp, ?_⟩
    rw [List.map_cons, List.sum_cons, List.map_cons, List.sum_cons, List.length_cons, ← hXd]
    rw [pow_succ] at hM ⊢
    apply hround (hone _) _ hM
    · have e : x * y + s - (x * y + (L.map fun t => t.1 * t.2).sum) = s - (L.map fun t => t.1 * t.2).sum := by ring
      rw [e]
      have h1 : 0 ≤ ((1 + ε) ^ L.length - 1) * |x * y| := mul_nonneg (by linarith [hone L.length]) (abs_nonneg _)
      have h2 : 0 ≤ η * (1 + ε) ^ L.length := mul_nonneg hη (by linarith [hone L.length])
      linarith [ih.2]
    · exact (abs_add_le _ _).trans (by linarith)
  | @neg L s _ ih =>
    have e1 : ((L.map fun t : ℝ × ℝ => (-t.1, t.2)).map fun t => t.1 * t.2).sum = -(L.map fun t => t.1 * t.2).sum := by
      clear ih hM
      rename_i hL
      clear hL
      induction L with
      | nil => simp
      | cons t L ih => simp only [List.map_cons, List.sum_cons, neg_add, neg_mul, ih]
    have e2 : ((L.map fun t : ℝ × ℝ => (-t.1, t.2)).map fun t => |t.1 * t.2|) = L.map fun t => |t.1 * t.2| := by
      simp [Function.comp_def]
    rw [e2, List.length_map] at hM
    have ih := ih hM
    refine ⟨by simpa using ih.1, ?_⟩
    rw [e1, e2, List.length_map, show -s - -(L.map fun t => t.1 * t.2).sum = -(s - (L.map fun t => t.1 * t.2).sum) by ring, abs_neg]
    exact ih.2
  | perm hp _ ih =>
    rw [← hp.length_eq, ← (hp.map fun t => |t.1 * t.2|).sum_eq] at hM
    rw [← hp.length_eq, ← (hp.map fun t => t.1 * t.2).sum_eq, ← (hp.map fun t => |t.1 * t.2|).sum_eq]
    exact ih hM

/-- Sums of products in any order: as many roundings as there are products. -/
theorem sumOfProducts_err {fl : ℝ → ℝ} {ε : ℝ} (hε : 0 ≤ ε) (hfl : ∀ x, |fl x - x| ≤ ε * |x|) {L : List (ℝ × ℝ)} {s : ℝ}
    (h : SumOfProducts fl L s) : 1 ≤ L.length ∧ |s - (L.map fun t => t.1 * t.2).sum|
      ≤ ((1 + ε) ^ L.length - 1) * (L.map fun t => |t.1 * t.2|).sum := by
  have hS : ∀ L : List (ℝ × ℝ), |(L.map fun t => t.1 * t.2).sum| ≤ (L.map fun t => |t.1 * t.2|).sum := by
    intro L
    induction L with
    | nil => simp
    | cons t L ih =>
      simp only [List.map_cons, List.sum_cons]
      exact (abs_add_le _ _).trans (by linarith)
  have hpow : ∀ {k l : Nat}, k ≤ l → (1 + ε) ^ k ≤ (1 + ε) ^ l := fun h => pow_le_pow_right₀ (by linarith) h
  -- rounding a sum
  have hround : ∀ {x z S a : ℝ}, |z| ≤ S → |x - z| ≤ (a - 1) * S → |fl x - z| ≤ (a * (1 + ε) - 1) * S := by
    intro x z S a hz hx
    have h1 := hfl x
    have h2 : |x| ≤ |x - z| + |z| := by simpa using abs_add_le (x - z) z
    have h3 : |fl x - z| ≤ |fl x - x| + |x - z| := by simpa using abs_add_le (fl x - x) (x - z)
    have h4 := mul_le_mul_of_nonneg_left (h2.trans (add_le_add hx hz)) hε
    nlinarith
  induction h with
  | prod x y =>
    refine ⟨le_rfl, ?_⟩
    simpa using hfl (x * y)
  | @add L L' s s' _ _ ih ih' =>
    refine ⟨by rw [List.length_append]; omega, ?_⟩
    rw [List.map_append, List.sum_append, List.map_append, List.sum_append, List.length_append]
    set x := (L.map fun t => t.1 * t.2).sum
    set x' := (L'.map fun t => t.1 * t.2).sum
    have hX := hS L
    have hX' := hS L'
    set X := (L.map fun t => |t.1 * t.2|).sum
    set X' := (L'.map fun t => |t.1 * t.2|).sum
    have hX0 : 0 ≤ X := (abs_nonneg _).trans hX
    have hX0' : 0 ≤ X' := (abs_nonneg _).trans hX'
    obtain ⟨l, hl⟩ : ∃ l, L.length + L'.length = l + 1 := ⟨L.length + L'.length - 1, by omega⟩
    rw [hl, pow_succ]
    apply hround
    · exact (abs_add_le _ _).trans (add_le_add hX hX')
    · have e : s + s' - (x + x') = (s - x) + (s' - x') := by ring
      rw [e, mul_add]
      refine (abs_add_le _ _).trans (add_le_add (ih.2.trans ?_) (ih'.2.trans ?_))
      · have := hpow (show L.length ≤ l by omega)
        gcongr
      · have := hpow (show L'.length ≤ l by omega)
        gcongr
  | @fma x y L s _ ih =>
    refine ⟨by simp, ?_⟩
    rw [List.map_cons, List.sum_cons, List.map_cons, List.sum_cons, List.length_cons, pow_succ]
    have hX := hS L
    have hp := one_le_pow₀ (by linarith : 1 ≤ 1 + ε) (n := L.length)
    apply hround
    · exact (abs_add_le _ _).trans (by linarith)
    · have e : x * y + s - (x * y + (L.map fun t => t.1 * t.2).sum) = s - (L.map fun t => t.1 * t.2).sum := by ring
      rw [e, mul_add]
      have : 0 ≤ ((1 + ε) ^ L.length - 1) * |x * y| := mul_nonneg (by linarith) (abs_nonneg _)
      linarith [ih.2]
  | @neg L s _ ih =>
    refine ⟨by simpa using ih.1, ?_⟩
    have e1 : ((L.map fun t : ℝ × ℝ => (-t.1, t.2)).map fun t => t.1 * t.2).sum = -(L.map fun t => t.1 * t.2).sum := by
      clear ih
      rename_i hL
      clear hL
      induction L with
      | nil => simp
      | cons t L ih => simp only [List.map_cons, List.sum_cons, neg_add, neg_mul, ih]
    have e2 : ((L.map fun t : ℝ × ℝ => (-t.1, t.2)).map fun t => |t.1 * t.2|) = L.map fun t => |t.1 * t.2| := by
      simp [Function.comp_def]
    rw [e1, e2, List.length_map, show -s - -(L.map fun t => t.1 * t.2).sum = -(s - (L.map fun t => t.1 * t.2).sum) by ring, abs_neg]
    exact ih.2
  | perm hp _ ih =>
    rw [← hp.length_eq, ← (hp.map fun t => t.1 * t.2).sum_eq, ← (hp.map fun t => |t.1 * t.2|).sum_eq]
    exact ih

theorem reTerms_sum (L : List (ℂ × ℂ)) : ((reTerms L).map fun t => t.1 * t.2).sum = (L.map fun t : ℂ × ℂ => t.1 * t.2).sum.re ∧
    ((reTerms L).map fun t => |t.1 * t.2|).sum ≤ (L.map fun t => ‖t.1‖ * ‖t.2‖).sum ∧ (reTerms L).length = 2 * L.length := by
  induction L with
  | nil => simp [reTerms]
  | cons t L ih =>
    have e : reTerms (t :: L) = (t.1.re, t.2.re) :: (-t.1.im, t.2.im) :: reTerms L := rfl
    simp only [e, List.map_cons, List.sum_cons, List.length_cons, Complex.add_re, Complex.mul_re]
    refine ⟨by rw [ih.1]; ring, ?_, by omega⟩
    have := abs_parts_le t.1 t.2
    rw [neg_mul, abs_neg]
    linarith [ih.2.1, this.1]

theorem imTerms_sum (L : List (ℂ × ℂ)) : ((imTerms L).map fun t => t.1 * t.2).sum = (L.map fun t : ℂ × ℂ => t.1 * t.2).sum.im ∧
    ((imTerms L).map fun t => |t.1 * t.2|).sum ≤ (L.map fun t => ‖t.1‖ * ‖t.2‖).sum ∧ (imTerms L).length = 2 * L.length := by
  induction L with
  | nil => simp [imTerms]
  | cons t L ih =>
    have e : imTerms (t :: L) = (t.1.re, t.2.im) :: (t.1.im, t.2.re) :: imTerms L := rfl
    simp only [e, List.map_cons, List.sum_cons, List.length_cons, Complex.add_im, Complex.mul_im]
    refine ⟨by rw [ih.1]; ring, ?_, by omega⟩
    have := abs_parts_le t.1 t.2
    linarith [ih.2.1, this.2]

/-- A sum of products of complex numbers whose parts are sums of products of the parts. -/
theorem dot_bound {fl : ℝ → ℝ} {ε : ℝ} (hε : 0 ≤ ε) (hfl : ∀ x, |fl x - x| ≤ ε * |x|) {L : List (ℂ × ℂ)} {z : ℂ} {k : Nat}
    (hk : 2 * L.length ≤ k) {R I : List (ℝ × ℝ)}
    (hR : R = reTerms L ∨ R = (0, 0) :: reTerms L ∧ 2 * L.length + 1 ≤ k) (hI : I = imTerms L ∨ I = (0, 0) :: imTerms L ∧ 2 * L.length + 1 ≤ k)
    (hre : SumOfProducts fl R z.re) (him : SumOfProducts fl I z.im) :
    ‖z - (L.map fun t => t.1 * t.2).sum‖ ≤ 3 / 2 * (((1 + ε) ^ k - 1) * (L.map fun t => ‖t.1‖ * ‖t.2‖).sum) := by
  have hS : 0 ≤ (L.map fun t => ‖t.1‖ * ‖t.2‖).sum := List.sum_nonneg (by simp; intros; subst_vars; positivity)
  have h1 := (sumOfProducts_err hε hfl hre).2
  have h2 := (sumOfProducts_err hε hfl him).2
  obtain ⟨r1, r2, r3⟩ := reTerms_sum L
  obtain ⟨i1, i2, i3⟩ := imTerms_sum L
  have hpow : ∀ {l : Nat}, l ≤ k → (1 + ε) ^ l ≤ (1 + ε) ^ k := fun h => pow_le_pow_right₀ (by linarith) h
  have hone : ∀ l : Nat, 1 ≤ (1 + ε) ^ l := fun l => one_le_pow₀ (by linarith)
  have key : ∀ {T : List (ℝ × ℝ)} {c : ℝ} {l : Nat}, |c| ≤ ((1 + ε) ^ l - 1) * (T.map fun t => |t.1 * t.2|).sum →
      (T.map fun t => |t.1 * t.2|).sum ≤ (L.map fun t => ‖t.1‖ * ‖t.2‖).sum → l ≤ k →
      |c| ≤ ((1 + ε) ^ k - 1) * (L.map fun t => ‖t.1‖ * ‖t.2‖).sum := by
    intro T c l h hT hl
    have := hpow hl
    have := hone l
    exact (h.trans (mul_le_mul_of_nonneg_left hT (by linarith))).trans (mul_le_mul_of_nonneg_right (by linarith) hS)
  apply norm_le_of_parts_le (mul_nonneg (by linarith [hone k]) hS)
  · rw [Complex.sub_re, ← r1]
    rcases hR with rfl | ⟨rfl, hk'⟩
    · exact key h1 r2 (by omega)
    · simp only [List.map_cons, List.sum_cons, mul_zero, zero_add, abs_zero, List.length_cons] at h1
      exact key h1 r2 (by omega)
  · rw [Complex.sub_im, ← i1]
    rcases hI with rfl | ⟨rfl, hk'⟩
    · exact key h2 i2 (by omega)
    · simp only [List.map_cons, List.sum_cons, mul_zero, zero_add, abs_zero, List.length_cons] at h2
      exact key h2 i2 (by omega)

/-- Bound of `dot_bound` with underflow and overflow. -/
theorem dot_ranged {fl : ℝ → ℝ} {ε η M : ℝ} (hε : 0 ≤ ε) (hη : 0 ≤ η) (hfl : ∀ x, |x| ≤ M → |fl x - x| ≤ ε * |x| + η)
    {L : List (ℂ × ℂ)} {z : ℂ} {k : Nat} (hk1 : 1 ≤ k) (hk : 2 * L.length ≤ k) {R I : List (ℝ × ℝ)}
    (hR : R = reTerms L ∨ R = (0, 0) :: reTerms L ∧ 2 * L.length + 1 ≤ k) (hI : I = imTerms L ∨ I = (0, 0) :: imTerms L ∧ 2 * L.length + 1 ≤ k)
    (hM : (1 + ε) ^ k * ((L.map fun t => ‖t.1‖ * ‖t.2‖).sum + 2 * k * η) ≤ M)
    (hre : SumOfProducts fl R z.re) (him : SumOfProducts fl I z.im) :
    ‖z - (L.map fun t => t.1 * t.2).sum‖
      ≤ 3 / 2 * (((1 + ε) ^ k - 1) * (L.map fun t => ‖t.1‖ * ‖t.2‖).sum + (2 * k - 1) * η * (1 + ε) ^ k) := by
  have hS : 0 ≤ (L.map fun t => ‖t.1‖ * ‖t.2‖).sum := List.sum_nonneg (by simp; intros; subst_vars; positivity)
  obtain ⟨r1, r2, r3⟩ := reTerms_sum L
  obtain ⟨i1, i2, i3⟩ := imTerms_sum L
  set S := (L.map fun t => ‖t.1‖ * ‖t.2‖).sum
  have hpow : ∀ {l : Nat}, l ≤ k → (1 + ε) ^ l ≤ (1 + ε) ^ k := fun h => pow_le_pow_right₀ (by linarith) h
  have hone : ∀ l : Nat, 1 ≤ (1 + ε) ^ l := fun l => one_le_pow₀ (by linarith)
  have key : ∀ {T : List (ℝ × ℝ)} {s : ℝ}, SumOfProducts fl T s → (T.map fun t => |t.1 * t.2|).sum ≤ S → T.length ≤ k →
      |s - (T.map fun t => t.1 * t.2).sum| ≤ ((1 + ε) ^ k - 1) * S + (2 * k - 1) * η * (1 + ε) ^ k := by
    intro T s h hT hl
    have hl' : (T.length : ℝ) ≤ k := by exact_mod_cast hl
    have hT0 : 0 ≤ (T.map fun t => |t.1 * t.2|).sum := List.sum_nonneg (by simp; intros; subst_vars; positivity)
    obtain ⟨h1, h2⟩ := sumOfProducts_ranged hε hη hfl h (by
      refine le_trans (mul_le_mul (hpow hl) ?_ (by positivity) (by linarith [hone k])) hM
      gcongr)
    have h1' : (1 : ℝ) ≤ T.length := by exact_mod_cast h1
    refine h2.trans (add_le_add ?_ ?_)
    · exact mul_le_mul (by linarith [hpow hl]) hT hT0 (by linarith [hone k])
    · refine mul_le_mul (mul_le_mul_of_nonneg_right (by linarith) hη) (hpow hl) (by linarith [hone T.length]) (mul_nonneg ?_ hη)
      linarith
  have hk1' : (1 : ℝ) ≤ k := by exact_mod_cast hk1
  apply norm_le_of_parts_le (add_nonneg (mul_nonneg (by linarith [hone k]) hS)
    (mul_nonneg (mul_nonneg (by linarith) hη) (by linarith [hone k])))
  · rw [Complex.sub_re, ← r1]
    rcases hR with rfl | ⟨rfl, hk'⟩
    · exact key hre r2 (by omega)
    · have := key hre (by simpa using r2) (by simp only [List.length_cons]; omega)
      simpa using this
  · rw [Complex.sub_im, ← i1]
    rcases hI with rfl | ⟨rfl, hk'⟩
    · exact key him i2 (by omega)
    · have := key him (by simpa using i2) (by simp only [List.length_cons]; omega)
      simpa using this

set_option exponentiation.threshold 1100

/-- Double precision. -/
noncomputable def binary64 (D : Double) : Arith where
  add := addWith D.fl
  mul := D.mul
  dot := D.dot
  u := 7 / 2 / 2 ^ 53
  u_nonneg := by positivity
  eta := 12 * (1 / 2 ^ 1022)
  eta_nonneg := by positivity
  big := 2 ^ 1000

theorem binary64_u {D : Double} : (binary64 D).u = 7 / 2 / 2 ^ 53 := rfl
theorem binary64_eta {D : Double} : (binary64 D).eta = 12 * (1 / 2 ^ 1022) := rfl
theorem binary64_big {D : Double} : (binary64 D).big = 2 ^ 1000 := rfl

instance (D : Double) [D.Ideal] : (binary64 D).Ideal where
  add_err x y := by
    have := norm_le_of_parts (z := addWith D.fl x y - (x + y)) (w := x + y) (c := 1 / 2 ^ 53) (by positivity)
      (by simpa [addWith] using (Double.Ideal.fl_err (D := D)) (x.re + y.re)) (by simpa [addWith] using (Double.Ideal.fl_err (D := D)) (x.im + y.im))
    rw [binary64_u]
    refine this.trans (mul_le_mul_of_nonneg_right (by norm_num) (norm_nonneg _))
  mul_err x y := by
    have := dot_bound (k := 2) (by positivity) (Double.Ideal.fl_err (D := D)) (L := [(x, y)]) le_rfl (.inl rfl) (.inl rfl) (D.mul_re x y) (D.mul_im x y)
    simp only [List.map_cons, List.map_nil, List.sum_cons, List.sum_nil, add_zero] at this
    rw [norm_mul, binary64_u]
    refine this.trans ?_
    rw [← mul_assoc]
    exact mul_le_mul_of_nonneg_right (by norm_num) (by positivity)
  dot_err run row L := by
    have hS : 0 ≤ (L.map fun t => ‖t.1‖ * ‖t.2‖).sum := List.sum_nonneg (by simp; intros; subst_vars; positivity)
    have h : ‖D.dot run row L - (L.map fun t => t.1 * t.2).sum‖
        ≤ 3 / 2 * (((1 + 1 / 2 ^ 53) ^ (2 * L.length + 1) - 1) * (L.map fun t => ‖t.1‖ * ‖t.2‖).sum) := by
      rcases D.dot_re run row L with hr | hr <;> rcases D.dot_im run row L with hi | hi
      · exact dot_bound (by positivity) (Double.Ideal.fl_err (D := D)) (by omega) (.inl rfl) (.inl rfl) hr hi
      · exact dot_bound (by positivity) (Double.Ideal.fl_err (D := D)) (by omega) (.inl rfl) (.inr ⟨rfl, le_rfl⟩) hr hi
      · exact dot_bound (by positivity) (Double.Ideal.fl_err (D := D)) (by omega) (.inr ⟨rfl, le_rfl⟩) (.inl rfl) hr hi
      · exact dot_bound (by positivity) (Double.Ideal.fl_err (D := D)) (by omega) (.inr ⟨rfl, le_rfl⟩) (.inr ⟨rfl, le_rfl⟩) hr hi
    rw [binary64_u]
    refine h.trans ?_
    rw [← mul_assoc]
    refine mul_le_mul_of_nonneg_right ?_ hS
    set b : ℝ := (1 + 1 / 2 ^ 53) ^ (L.length + 1)
    have hb : 1 ≤ b := one_le_pow₀ (by norm_num)
    have h1 : ((1 : ℝ) + 1 / 2 ^ 53) ^ (2 * L.length + 1) ≤ b ^ 2 := by
      rw [← pow_mul]
      exact pow_le_pow_right₀ (by norm_num) (by omega)
    have h2 : b ^ 3 ≤ (1 + 7 / 2 / 2 ^ 53) ^ (L.length + 1) := by
      rw [← pow_mul, mul_comm, pow_mul]
      exact pow_le_pow_left₀ (by positivity) (by norm_num) _
    have h3 : 0 ≤ (b - 1) ^ 2 * (b + 1 / 2) := by positivity
    nlinarith

theorem pow_three {l : Nat} : ((1 : ℝ) + 1 / 2 ^ 53) ^ (2 * l + 1) ≤ ((1 + 1 / 2 ^ 53) ^ (l + 1)) ^ 2 ∧
    ((1 : ℝ) + 1 / 2 ^ 53) ^ (l + 1) ≤ ((1 + 1 / 2 ^ 53) ^ (l + 1)) ^ 3 ∧
    (((1 : ℝ) + 1 / 2 ^ 53) ^ (l + 1)) ^ 3 ≤ (1 + 7 / 2 / 2 ^ 53) ^ (l + 1) := by
  have hb : (1 : ℝ) ≤ (1 + 1 / 2 ^ 53) ^ (l + 1) := one_le_pow₀ (by norm_num)
  refine ⟨?_, le_self_pow₀ hb (by norm_num), ?_⟩
  · rw [← pow_mul]
    exact pow_le_pow_right₀ (by norm_num) (by omega)
  · rw [← pow_mul, mul_comm, pow_mul]
    exact pow_le_pow_left₀ (by positivity) (by norm_num) _

instance (D : Double) [D.Ranged] : (binary64 D).Ranged where
  mul_err x y hxy := by
    rw [binary64_big] at hxy
    have hη : (0 : ℝ) ≤ 1 / 2 ^ 1022 := by positivity
    have hη1 : (1 : ℝ) / 2 ^ 1022 ≤ 1 := by
      rw [div_le_one (by positivity)]
      exact one_le_pow₀ (by norm_num)
    have hxy0 : 0 ≤ ‖x‖ * ‖y‖ := by positivity
    have := dot_ranged (k := 2) (by positivity) hη (Double.Ranged.fl_err (D := D)) (L := [(x, y)]) (by norm_num) le_rfl (.inl rfl)
      (.inl rfl) (by
        simp only [List.map_cons, List.map_nil, List.sum_cons, List.sum_nil, add_zero]
        have h2 : ((1 : ℝ) + 1 / 2 ^ 53) ^ 2 ≤ 2 := by norm_num
        refine (mul_le_mul h2 (add_le_add hxy (by push_cast; linarith : _ ≤ (4 : ℝ))) (by positivity) (by norm_num)).trans ?_
        norm_num) (D.mul_re x y) (D.mul_im x y)
    simp only [List.map_cons, List.map_nil, List.sum_cons, List.sum_nil, add_zero] at this
    rw [norm_mul, binary64_u, binary64_eta]
    generalize (1 : ℝ) / 2 ^ 1022 = η at *
    refine this.trans ?_
    push_cast
    have h3 : ((1 : ℝ) + 1 / 2 ^ 53) ^ 2 ≤ 3 / 2 := by norm_num
    have h4 : 3 / 2 * (((1 : ℝ) + 1 / 2 ^ 53) ^ 2 - 1) ≤ 7 / 2 / 2 ^ 53 := by norm_num
    have h5 := mul_le_mul_of_nonneg_right h4 hxy0
    have h6 := mul_le_mul_of_nonneg_left h3 hη
    linarith
  dot_err run row L hl hS := by
    rw [binary64_big] at hS
    rw [binary64_u] at hl
    have hη : (0 : ℝ) ≤ 1 / 2 ^ 1022 := by positivity
    have hη1 : (1 : ℝ) / 2 ^ 1022 ≤ 1 := by
      rw [div_le_one (by positivity)]
      exact one_le_pow₀ (by norm_num)
    have hS0 : 0 ≤ (L.map fun t => ‖t.1‖ * ‖t.2‖).sum := List.sum_nonneg (by simp; intros; subst_vars; positivity)
    obtain ⟨p1, p2, p3⟩ := pow_three (l := L.length)
    have hb : (1 : ℝ) ≤ (1 + 1 / 2 ^ 53) ^ (L.length + 1) := one_le_pow₀ (by norm_num)
    have hlen : (L.length : ℝ) ≤ 2 ^ 53 := by
      have := (one_add_mul_le_pow (a := (7 : ℝ) / 2 / 2 ^ 53) (by norm_num) (L.length + 1)).trans hl
      push_cast at this
      linarith
    set b : ℝ := (1 + 1 / 2 ^ 53) ^ (L.length + 1)
    have hb2 : b ^ 2 ≤ 2 := by
      have : b ^ 2 ≤ b ^ 3 := pow_le_pow_right₀ hb (by norm_num)
      linarith
    have hM : (1 + 1 / 2 ^ 53) ^ (2 * L.length + 1) * ((L.map fun t => ‖t.1‖ * ‖t.2‖).sum
        + 2 * ((2 * L.length + 1 : Nat) : ℝ) * (1 / 2 ^ 1022)) ≤ 2 ^ 1023 := by
      have h1 : 2 * ((2 * L.length + 1 : Nat) : ℝ) * (1 / 2 ^ 1022) ≤ 2 ^ 60 := by
        refine (mul_le_mul_of_nonneg_left hη1 (by positivity)).trans ?_
        push_cast
        linarith
      refine (mul_le_mul (p1.trans hb2) (add_le_add hS h1) (by positivity) (by norm_num)).trans ?_
      norm_num
    have h : ‖D.dot run row L - (L.map fun t => t.1 * t.2).sum‖
        ≤ 3 / 2 * (((1 + 1 / 2 ^ 53) ^ (2 * L.length + 1) - 1) * (L.map fun t => ‖t.1‖ * ‖t.2‖).sum
          + (2 * ((2 * L.length + 1 : Nat) : ℝ) - 1) * (1 / 2 ^ 1022) * (1 + 1 / 2 ^ 53) ^ (2 * L.length + 1)) := by
      have hf := Double.Ranged.fl_err (D := D)
      rcases D.dot_re run row L with hr | hr <;> rcases D.dot_im run row L with hi | hi
      · exact dot_ranged (by positivity) hη hf (by omega) (by omega) (.inl rfl) (.inl rfl) hM hr hi
      · exact dot_ranged (by positivity) hη hf (by omega) (by omega) (.inl rfl) (.inr ⟨rfl, le_rfl⟩) hM hr hi
      · exact dot_ranged (by positivity) hη hf (by omega) (by omega) (.inr ⟨rfl, le_rfl⟩) (.inl rfl) hM hr hi
      · exact dot_ranged (by positivity) hη hf (by omega) (by omega) (.inr ⟨rfl, le_rfl⟩) (.inr ⟨rfl, le_rfl⟩) hM hr hi
    rw [binary64_u, binary64_eta]
    refine h.trans ?_
    clear h hM
    generalize (1 : ℝ) / 2 ^ 1022 = η at *
    set S := (L.map fun t => ‖t.1‖ * ‖t.2‖).sum
    have h3 : 0 ≤ (b - 1) ^ 2 * (b + 1 / 2) := by positivity
    have h4 : 3 / 2 * ((1 + 1 / 2 ^ 53) ^ (2 * L.length + 1) - 1) ≤ (1 + 7 / 2 / 2 ^ 53) ^ (L.length + 1) - (1 : ℝ) := by nlinarith
    have h5 := mul_le_mul_of_nonneg_right h4 hS0
    have hl0 : (0 : ℝ) ≤ L.length := Nat.cast_nonneg _
    have h6 : (2 * ((2 * L.length + 1 : Nat) : ℝ) - 1) * η * (1 + 1 / 2 ^ 53) ^ (2 * L.length + 1)
        ≤ (2 * ((2 * L.length + 1 : Nat) : ℝ) - 1) * η * 2 := by
      refine mul_le_mul_of_nonneg_left (p1.trans hb2) (mul_nonneg ?_ hη)
      push_cast
      linarith
    have h7 : 0 ≤ L.length * η := mul_nonneg hl0 hη
    push_cast at h6 ⊢
    linarith

/-- `round53` has relative error at most `2 ^ -53`. -/
theorem round53_err (x : ℝ) : |round53 x - x| ≤ 1 / 2 ^ 53 * |x| := by
  rcases eq_or_ne x 0 with rfl | hx
  · simp [round53]
  have hax : 0 < |x| := abs_pos.2 hx
  unfold round53
  set e := Int.log 2 |x|
  have he : (2 : ℝ) ^ e ≤ |x| := by exact_mod_cast Int.zpow_log_le_self (b := 2) (by norm_num) hax
  have hp : (0 : ℝ) < 2 ^ (e - 52) := zpow_pos (by norm_num) _
  have h1 := abs_sub_round (x / 2 ^ (e - 52))
  have e1 : (round (x / 2 ^ (e - 52)) : ℝ) * 2 ^ (e - 52) - x
      = -((x / 2 ^ (e - 52) - round (x / 2 ^ (e - 52))) * 2 ^ (e - 52)) := by
    field_simp
    ring
  rw [e1, abs_neg, abs_mul, abs_of_pos hp]
  have e2 : (2 : ℝ) ^ (e - 52) = 2 ^ e / 2 ^ 52 := by
    rw [zpow_sub₀ (by norm_num)]
    norm_cast
  rw [e2] at h1 ⊢
  have h2 : (0 : ℝ) ≤ 2 ^ e / 2 ^ 52 := by positivity
  nlinarith

theorem round64_err (x : ℝ) (hx : |x| ≤ 2 ^ 1023) : |round64 x - x| ≤ 1 / 2 ^ 53 * |x| + 1 / 2 ^ 1022 := by
  have hη : (0 : ℝ) ≤ 1 / 2 ^ 1022 := by positivity
  unfold round64
  split
  · next h =>
    rw [zero_sub, abs_neg]
    have : 0 ≤ 1 / 2 ^ 53 * |x| := by positivity
    linarith
  · rw [if_neg (not_lt.2 hx)]
    linarith [round53_err x]

variable {D : Double}

theorem exp_bound {x : ℝ} (h0 : 0 ≤ x) (h1 : x ≤ 1) : Real.exp x ≤ 1 + 2 * x := by
  have := Real.abs_exp_sub_one_le (x := x) (by rwa [abs_of_nonneg h0])
  rw [abs_of_nonneg h0] at this
  linarith [le_abs_self (Real.exp x - 1)]

theorem pow_bound {u : ℝ} (hu : 0 ≤ u) {k : Nat} (h : k * u ≤ 1) : (1 + u) ^ k ≤ 1 + 2 * (k * u) := by
  have h1 : (1 + u) ^ k ≤ Real.exp (k * u) := by
    rw [Real.exp_nat_mul]
    exact pow_le_pow_left₀ (by linarith) (by linarith [Real.add_one_le_exp u]) k
  exact h1.trans (exp_bound (by positivity) h)

theorem gateErr_mono {u : ℝ} (hu : 0 ≤ u) {t t' w w' : Nat} (ht : t ≤ t') (hw : w ≤ w') : gateErr u t w ≤ gateErr u t' w' := by
  unfold gateErr
  have h1 : (t + 1) * (w + 1) + 1 + 2 ^ w ≤ (t' + 1) * (w' + 1) + 1 + 2 ^ w' := by
    have := Nat.mul_le_mul (Nat.add_le_add_right ht 1) (Nat.add_le_add_right hw 1)
    have := Nat.pow_le_pow_right (n := 2) (by norm_num) hw
    omega
  have h2 := pow_le_pow_right₀ (by linarith : 1 ≤ 1 + u) h1
  have h3 : √((2 : ℝ) ^ w) ≤ √(2 ^ w') := Real.sqrt_le_sqrt (pow_le_pow_right₀ (by norm_num) hw)
  have h4 := one_le_pow₀ (by linarith : 1 ≤ 1 + u) (n := (t + 1) * (w + 1) + 1 + 2 ^ w)
  exact mul_le_mul (by linarith) h3 (Real.sqrt_nonneg _) (by linarith)

theorem errProd_le {u : ℝ} (hu : 0 ≤ u) {t w : Nat} {gates : List (Gate × List (List Nat))}
    (hw : ∀ g ∈ gates, g.2.flatten.length ≤ w) :
    (gates.map fun g => 1 + gateErr u t g.2.flatten.length).prod ≤ (1 + gateErr u t w) ^ gates.length := by
  induction gates with
  | nil => simp
  | cons g gates ih =>
    rw [List.map_cons, List.prod_cons, List.length_cons, pow_succ, mul_comm]
    have h1 := ih fun g hg => hw g (by simp [hg])
    have h2 := gateErr_mono hu (le_refl t) (hw g (by simp))
    exact mul_le_mul h1 (by linarith) (by linarith [gateErr_nonneg hu t g.2.flatten.length])
      (by linarith [one_le_pow₀ (by linarith [gateErr_nonneg hu t w] : 1 ≤ 1 + gateErr u t w) (n := gates.length)])

theorem gateErr_binary64 : gateErr (binary64 D).u 8 3 ≤ 950 / 2 ^ 53 := by
  have hu := (binary64 D).u_nonneg
  have hu4 := (binary64_u (D := D)).le
  unfold gateErr
  have hp := pow_bound hu (k := (8 + 1) * (3 + 1) + 1 + 2 ^ 3) (by
    norm_num at hu4 ⊢
    linarith)
  have hs : √((2 : ℝ) ^ 3) ≤ 3 := by
    rw [Real.sqrt_le_left (by norm_num)]
    norm_num
  have hs0 := Real.sqrt_nonneg ((2 : ℝ) ^ 3)
  have hp0 := one_le_pow₀ (by linarith : 1 ≤ 1 + (binary64 D).u) (n := (8 + 1) * (3 + 1) + 1 + 2 ^ 3)
  refine (mul_le_mul (by linarith : _ ≤ 2 * (((8 + 1) * (3 + 1) + 1 + 2 ^ 3 : Nat) * (binary64 D).u)) hs hs0 (by positivity)).trans ?_
  norm_num at hu4 ⊢
  linarith

theorem inRange_binary64 {w : Nat} (hw : w ≤ 3) : InRange (binary64 D) 8 w := by
  have hu := (binary64 D).u_nonneg
  have hη : (1 : ℝ) / 2 ^ 1022 ≤ 1 / 2 ^ 20 := by
    apply one_div_le_one_div_of_le (by positivity)
    exact pow_le_pow_right₀ (by norm_num) (by norm_num)
  have hw' : (w : ℝ) ≤ 3 := by exact_mod_cast hw
  have h2 : (2 : ℝ) ^ w ≤ 2 ^ 3 := pow_le_pow_right₀ (by norm_num) hw
  refine ⟨?_, ?_, ?_⟩
  · have h1 : (8 + 1) * (w + 1) + 1 + 2 ^ w ≤ (8 + 1) * (3 + 1) + 1 + 2 ^ 3 := by
      have := Nat.pow_le_pow_right (n := 2) (by norm_num) hw
      omega
    refine (pow_le_pow_right₀ (by linarith) h1).trans ?_
    rw [binary64_u]
    norm_num
  · rw [binary64_eta]
    push_cast
    have : (12 : ℝ) * (1 / 2 ^ 1022) ≤ 12 * (1 / 2 ^ 20) := by linarith
    refine (mul_le_mul (by linarith : (w : ℝ) + 1 ≤ 4) this (by positivity) (by norm_num)).trans ?_
    norm_num
  · rw [binary64_big]
    refine (mul_le_mul_of_nonneg_left h2 (by norm_num)).trans ?_
    norm_num

theorem gateTiny_binary64 {w : Nat} (hn : n ≤ 1000) (hw : w ≤ 3) : gateTiny (binary64 D).eta n w ≤ 1 / 2 ^ 500 := by
  unfold gateTiny
  have hw' : (w : ℝ) ≤ 3 := by exact_mod_cast hw
  have h1 : √((2 : ℝ) ^ n) ≤ 2 ^ 500 := by
    rw [Real.sqrt_le_left (by positivity), ← pow_mul]
    exact pow_le_pow_right₀ (by norm_num) (by omega)
  have h2 : (2 : ℝ) ^ w ≤ 2 ^ 3 := pow_le_pow_right₀ (by norm_num) hw
  have h3 : (2 : ℝ) ^ w * (4 * w + 6) ≤ 2 ^ 3 * 18 := mul_le_mul h2 (by linarith) (by positivity) (by norm_num)
  rw [binary64_eta]
  refine (mul_le_mul_of_nonneg_right (mul_le_mul h1 h3 (by positivity) (by positivity)) (by positivity)).trans ?_
  norm_num

/-- C90: up to about a million gates on at most three qubits each, in double precision with underflow and overflow, with matrix
entries right up to 8 roundings: starting from a state of norm 1 of at most 1000 qubits the computed state is within `2 ^ -22` of the exact
one, and all probabilities are within `2 ^ -20`. -/
theorem C90_binary64 [D.Ranged] (hn : n ≤ 1000) {gates : List (Gate × List (List Nat))} (hops : ∀ g ∈ gates, Fits g.1 g.2 ∧ GroupsOK n g.2)
    (hw : ∀ g ∈ gates, g.2.flatten.length ≤ 3) (hN : gates.length ≤ 2 ^ 20) {v v' : List (FC (binary64 D))}
    (hv : v.length = 2 ^ n) (h1 : totalProb n (vals v) = 1) (h : RoundedGates (binary64 D) 8 n gates v v') :
    dist2 n (vals v') (exactGates n gates (vals v)) ≤ 1 / 2 ^ 22 ∧
      ∀ idx m, |outcomeProb n idx (vals v') m - outcomeProb n idx (exactGates n gates (vals v)) m| ≤ 1 / 2 ^ 20 := by
  have hu := (binary64 D).u_nonneg
  have hn1 : dist2 n (vals v) 0 = 1 := by
    rw [totalProb_dist] at h1
    have := dist2_nonneg n (vals v) 0
    nlinarith
  have hg := gateErr_binary64 (D := D)
  have hg0 := gateErr_nonneg hu 8 3
  have hP := errProd_le hu (t := 8) hw
  have hP1 := one_le_errProd hu 8 gates
  have hN' : (gates.length : ℝ) ≤ 2 ^ 20 := by exact_mod_cast hN
  have hNg : (gates.length : ℝ) * gateErr (binary64 D).u 8 3 ≤ 950 / 2 ^ 33 := by
    refine (mul_le_mul hN' hg hg0 (by positivity)).trans ?_
    norm_num
  have hb := pow_bound hg0 (k := gates.length) (hNg.trans (by norm_num))
  have hT : (gates.map fun g => gateTiny (binary64 D).eta n g.2.flatten.length).sum ≤ 1 / 2 ^ 40 := by
    have key : ∀ gates : List (Gate × List (List Nat)), (∀ g ∈ gates, g.2.flatten.length ≤ 3) →
        (gates.map fun g => gateTiny (binary64 D).eta n g.2.flatten.length).sum ≤ gates.length * (1 / 2 ^ 500) := by
      intro gates
      induction gates with
      | nil => simp
      | cons g gates ih =>
        intro hw
        have h1 := ih fun g hg => hw g (by simp [hg])
        have h2 := gateTiny_binary64 (D := D) hn (hw g (by simp))
        rw [List.map_cons, List.sum_cons, List.length_cons]
        push_cast
        linarith
    refine (key gates hw).trans ((mul_le_mul_of_nonneg_right hN' (by positivity)).trans ?_)
    norm_num
  have hT0 : 0 ≤ (gates.map fun g => gateTiny (binary64 D).eta n g.2.flatten.length).sum := by
    apply List.sum_nonneg
    simp only [List.mem_map, forall_exists_index, and_imp]
    rintro x g - rfl
    exact gateTiny_nonneg (binary64 D).eta_nonneg n _
  set P := (gates.map fun g => 1 + gateErr (binary64 D).u 8 g.2.flatten.length).prod with hPd
  set T := (gates.map fun g => gateTiny (binary64 D).eta n g.2.flatten.length).sum with hTd
  have hP2 : P ≤ 1 + 1900 / 2 ^ 33 := by
    norm_num at hNg ⊢
    linarith
  obtain ⟨_, hd⟩ := C90_rounding hops (fun g hg => inRange_binary64 (hw g hg)) hv (by
    rw [← hPd, ← hTd, hn1]
    refine (mul_le_mul hP2 (add_le_add le_rfl hT) (by positivity) (by positivity)).trans ?_
    norm_num) h
  rw [← hPd, ← hTd, hn1, mul_one] at hd
  have hd' : dist2 n (vals v') (exactGates n gates (vals v)) ≤ 1 / 2 ^ 22 := by
    have := mul_le_mul hP2 hT hT0 (by positivity)
    norm_num at this hP2 ⊢
    linarith
  refine ⟨hd', fun idx m => ?_⟩
  have hE : totalProb n (exactGates n gates (vals v)) = 1 := by
    have : ∀ (gates : List (Gate × List (List Nat))) (x : Nat → ℂ), (∀ g ∈ gates, Fits g.1 g.2 ∧ GroupsOK n g.2) →
        dist2 n (exactGates n gates x) 0 = dist2 n x 0 := by
      intro gates
      induction gates with
      | nil => intro x _; rfl
      | cons g rest ih =>
        intro x hg
        rw [exactGates, ih _ (fun g h => hg g (by simp [h])), gateApply_norm (hg g (by simp)).1 (hg g (by simp)).2]
    rw [totalProb_dist, this gates _ hops, hn1]
    norm_num
  refine ((C90_probs hE hd' idx m).1).trans ?_
  norm_num

/-! ## Implementations -/

theorem fl_zero_of {fl : ℝ → ℝ} (h : ∀ x, |fl x - x| ≤ 1 / 2 ^ 53 * |x|) : fl 0 = 0 := by
  have := h 0
  simp only [sub_zero, abs_zero, mul_zero] at this
  exact abs_nonpos_iff.1 this

theorem mulWith_parts (fl : ℝ → ℝ) (x y : ℂ) :
    SumOfProducts fl (reTerms [(x, y)]) (mulWith fl x y).re ∧ SumOfProducts fl (imTerms [(x, y)]) (mulWith fl x y).im := by
  constructor
  · have := SumOfProducts.add (.prod x.re y.re) (SumOfProducts.neg (.prod (fl := fl) x.im y.im))
    simpa [reTerms, mulWith, sub_eq_add_neg] using this
  · have := SumOfProducts.add (.prod x.re y.im) (SumOfProducts.prod (fl := fl) x.im y.re)
    simpa [imTerms, mulWith] using this

/-- The operations in the order of the source (kronprod.pyx:190-198), nothing fused. -/
noncomputable def inOrder64 (fl : ℝ → ℝ) (h : fl 0 = 0) : Double where
  fl := fl
  fl_zero := h
  mul := mulWith fl
  mul_re x y := (mulWith_parts fl x y).1
  mul_im x y := (mulWith_parts fl x y).2
  dot _ _ L := L.foldl (fun s t => addWith fl s (mulWith fl t.1 t.2)) 0
  dot_re _ _ L := .inr (by
    have key : ∀ (L : List (ℂ × ℂ)) (K : List (ℝ × ℝ)) (s : ℂ), SumOfProducts fl K s.re →
        SumOfProducts fl (K ++ reTerms L) (L.foldl (fun s t => addWith fl s (mulWith fl t.1 t.2)) s).re := by
      intro L
      induction L with
      | nil => intro K s hs; simpa [reTerms] using hs
      | cons t L ih =>
        intro K s hs
        have := ih (K ++ reTerms [t]) (addWith fl s (mulWith fl t.1 t.2)) (.add hs (mulWith_parts fl t.1 t.2).1)
        simpa [reTerms] using this
    refine key L [(0, 0)] 0 ?_
    have := SumOfProducts.prod (fl := fl) 0 0
    rwa [mul_zero, h] at this)
  dot_im _ _ L := .inr (by
    have key : ∀ (L : List (ℂ × ℂ)) (K : List (ℝ × ℝ)) (s : ℂ), SumOfProducts fl K s.im →
        SumOfProducts fl (K ++ imTerms L) (L.foldl (fun s t => addWith fl s (mulWith fl t.1 t.2)) s).im := by
      intro L
      induction L with
      | nil => intro K s hs; simpa [imTerms] using hs
      | cons t L ih =>
        intro K s hs
        have := ih (K ++ imTerms [t]) (addWith fl s (mulWith fl t.1 t.2)) (.add hs (mulWith_parts fl t.1 t.2).2)
        simpa [imTerms] using this
    refine key L [(0, 0)] 0 ?_
    have := SumOfProducts.prod (fl := fl) 0 0
    rwa [mul_zero, h] at this)

/-- In that order the kernel is `kronselectDot` with every operation rounded. -/
theorem C90_in_order (fl : ℝ → ℝ) (h : fl 0 = 0) (run : Nat)
    (mats : List (Key × Mat (FC (binary64 (inOrder64 fl h))))) (vec : List (FC (binary64 (inOrder64 fl h)))) (n : Nat)
    (out : List (FC (binary64 (inOrder64 fl h)))) (inOff outOff : Nat) (sched : List Nat) :
    kronselectDotF run mats vec n out inOff outOff sched = kronselectDot mats vec n out inOff outOff (.cython sched) := by
  have hrow : ∀ (mats : List (List Nat × Mat (FC (binary64 (inOrder64 fl h))))) row,
      cdotRowF run mats vec n inOff row = cdotRow mats vec n inOff row := by
    intro mats row
    unfold cdotRowF rowTerms cdotRow
    have key : ∀ (cols : List Nat) (ts : List (FC (binary64 (inOrder64 fl h)) × FC (binary64 (inOrder64 fl h)))),
        (do
          let ts ← cols.foldlM (fun ts col =>
            if col < inOff ∨ col - inOff ≥ vec.length then pure ts
            else do
              let p ← cEntryProduct n row col mats 1
              pure (ts ++ [(p, vec.getD (col - inOff) 0)])) ts
          (pure ⟨(binary64 (inOrder64 fl h)).dot run row (ts.map fun t => (t.1.val, t.2.val))⟩ :
            Except PyErr (FC (binary64 (inOrder64 fl h)))))
          = cols.foldlM (fun s col =>
            if col < inOff ∨ col - inOff ≥ vec.length then pure s
            else do
              let p ← cEntryProduct n row col mats 1
              pure (s + p * vec.getD (col - inOff) 0))
            ⟨(binary64 (inOrder64 fl h)).dot run row (ts.map fun t => (t.1.val, t.2.val))⟩ := by
      intro cols
      induction cols with
      | nil => intro ts; rfl
      | cons c cols ih =>
        intro ts
        rw [List.foldlM_cons, List.foldlM_cons]
        by_cases hc : c < inOff ∨ c - inOff ≥ vec.length
        · rw [if_pos hc, if_pos hc]
          exact ih ts
        · rw [if_neg hc, if_neg hc]
          rcases hp : cEntryProduct n row c mats 1 with e | p
          · rfl
          · have := ih (ts ++ [(p, vec.getD (c - inOff) 0)])
            refine this.trans ?_
            simp only [bind, Except.bind, pure, Except.pure]
            congr 1
            rw [List.map_append]
            exact congrArg FC.mk (List.foldl_append ..)
    exact key _ []
  unfold kronselectDotF kronselectDot cdotLoopF cdotLoop
  simp only [hrow]

/-- Another one: the sum of every row backwards, with fused multiplications and additions. -/
noncomputable def fused64 (fl : ℝ → ℝ) (h : fl 0 = 0) : Double where
  fl := fl
  fl_zero := h
  mul := mulWith fl
  mul_re x y := (mulWith_parts fl x y).1
  mul_im x y := (mulWith_parts fl x y).2
  dot _ _ L := ⟨(reTerms L).foldr (fun t s => fl (t.1 * t.2 + s)) 0, (imTerms L).foldr (fun t s => fl (t.1 * t.2 + s)) 0⟩
  dot_re _ _ L := .inr (fused_sum h _)
  dot_im _ _ L := .inr (fused_sum h _)
where
  fused_sum {fl : ℝ → ℝ} (h : fl 0 = 0) (T : List (ℝ × ℝ)) :
      SumOfProducts fl ((0, 0) :: T) (T.foldr (fun t s => fl (t.1 * t.2 + s)) 0) := by
    induction T with
    | nil =>
      have := SumOfProducts.prod (fl := fl) 0 0
      rwa [mul_zero, h] at this
    | cons t T ih => exact .perm (.swap _ _ _) (.fma t.1 t.2 ih)

theorem round64_zero : round64 0 = 0 := by
  unfold round64
  rw [if_pos]
  rw [abs_zero]
  positivity

/-- The arithmetic of the processor with flushing to zero. -/
noncomputable def flushed64 : Double := inOrder64 round64 round64_zero

instance : flushed64.Ranged := ⟨round64_err⟩
instance : (fused64 round64 round64_zero).Ranged := ⟨round64_err⟩
instance : (fused64 round53 (fl_zero_of round53_err)).Ideal := ⟨round53_err⟩

-- small numbers really vanish, and there is no relative error bound
example : flushed64.fl (1 / 2 ^ 1030) = 0 ∧ ¬flushed64.Ideal := by
  have h : flushed64.fl (1 / 2 ^ 1030) = 0 := by
    change round64 _ = 0
    unfold round64
    rw [if_pos]
    rw [abs_of_nonneg (by positivity)]
    exact one_div_lt_one_div_of_lt (by positivity) (pow_lt_pow_right₀ (by norm_num) (by norm_num))
  refine ⟨h, fun hi => ?_⟩
  have := hi.fl_err (1 / 2 ^ 1030)
  rw [h, zero_sub, abs_neg] at this
  have h1 : (0 : ℝ) < |1 / 2 ^ 1030| := abs_pos.2 (by positivity)
  have h2 : (1 : ℝ) / 2 ^ 53 < 1 := by norm_num
  nlinarith

/-! ## A concrete run -/

/-- The matrix with every entry rounded by `f`. -/
def roundMat (A : Arith) (f : ℂ → ℂ) : Mat ℂ → Mat (FC A)
  | .dense r c d => .dense r c (d.map fun z => ⟨f z⟩)
  | .cmat m => .cmat (roundMat A f m)
  | .swap k => .swap k

/-- All entries that a matrix stores satisfy `P`. -/
def Stored (P : ℂ → Prop) : Mat ℂ → Prop
  | .dense _ _ d => ∀ z ∈ d, P z
  | .cmat m => Stored P m
  | .swap _ => True

theorem roundMat_stored {P : ℂ → Prop} {f : ℂ → ℂ} (ht : 1 ≤ t) (hf : ∀ z, P z → ‖f z - z‖ ≤ A.u * ‖z‖) (m : Mat ℂ) (hm : Stored P m) :
    MatNear t (roundMat A f m) m := by
  induction m with
  | dense r c d =>
    refine ⟨rfl, rfl, ?_⟩
    have hm : ∀ z ∈ d, P z := hm
    induction d with
    | nil => exact .nil
    | cons z d ih =>
      refine .cons ?_ (ih (fun z hz => hm z (by simp [hz])) fun z hz => hm z (by simp [hz]))
      apply near_mono ht
      unfold Near
      rw [pow_one, add_sub_cancel_left]
      exact hf z (hm z (by simp))
  | cmat m ih => exact ih hm
  | swap k => rfl

theorem stored_true (m : Mat ℂ) : Stored (fun _ => True) m := by
  induction m with
  | dense r c d => exact fun _ _ => trivial
  | cmat m ih => exact ih
  | swap k => trivial

theorem makemats_stored {g : Gate} {gs : List (List Nat)} {mats : List (Key × Mat ℂ)} (h : g.makemats gs = .ok mats) :
    ∀ km ∈ mats, Stored GateEntry km.2 :=
  makemats_all (P := Stored GateEntry) (fun _ => trivial) (fun _ h => h) (fun a b c d ha hb hc hd z hz => by
    simp only [List.mem_cons, List.not_mem_nil, or_false] at hz
    rcases hz with rfl | rfl | rfl | rfl <;> assumption) h

theorem roundMat_near {f : ℂ → ℂ} (ht : 1 ≤ t) (hf : ∀ z, ‖f z - z‖ ≤ A.u * ‖z‖) (m : Mat ℂ) : MatNear t (roundMat A f m) m :=
  roundMat_stored ht (fun z _ => hf z) m (stored_true m)

/-- Nearest double of the real and of the imaginary part. -/
noncomputable def fl64 (D : Double) (z : ℂ) : ℂ := ⟨D.fl z.re, D.fl z.im⟩

theorem fl64_err [D.Ideal] (z : ℂ) : ‖fl64 D z - z‖ ≤ (binary64 D).u * ‖z‖ := by
  refine (norm_le_of_parts (c := 1 / 2 ^ 53) (by positivity) (by simpa [fl64] using Double.Ideal.fl_err (D := D) z.re)
    (by simpa [fl64] using Double.Ideal.fl_err (D := D) z.im)).trans (mul_le_mul_of_nonneg_right ?_ (norm_nonneg _))
  change _ ≤ (7 : ℝ) / 2 / 2 ^ 53
  norm_num

theorem fl64_ranged [D.Ranged] (z : ℂ) (hz : GateEntry z) : ‖fl64 D z - z‖ ≤ (binary64 D).u * ‖z‖ := by
  rcases hz with rfl | ⟨h1, h2⟩
  · have : fl64 D 0 = 0 := by
      unfold fl64
      rw [Complex.zero_re, Complex.zero_im, D.fl_zero]
      rfl
    rw [this]
    simp
  have hη : (1 : ℝ) / 2 ^ 1022 ≤ 1 / 2 ^ 60 := by
    apply one_div_le_one_div_of_le (by positivity)
    exact pow_le_pow_right₀ (by norm_num) (by norm_num)
  have hb : (1 : ℝ) ≤ 2 ^ 1023 := one_le_pow₀ (by norm_num)
  have hr := z.abs_re_le_norm
  have hi := z.abs_im_le_norm
  have e1 := Double.Ranged.fl_err (D := D) z.re (by linarith)
  have e2 := Double.Ranged.fl_err (D := D) z.im (by linarith)
  refine (norm_le_of_parts_le (c := 2 / 2 ^ 53 * ‖z‖) (by positivity) ?_ ?_).trans ?_
  · change |D.fl z.re - z.re| ≤ _
    linarith
  · change |D.fl z.im - z.im| ≤ _
    linarith
  · rw [binary64_u]
    linarith

/-- Every circuit runs with the matrices of its gates rounded to the nearest doubles. -/
theorem C90_rounded_matrices [D.Ranged] {gates : List (Gate × List (List Nat))} (hops : ∀ g ∈ gates, Fits g.1 g.2 ∧ GroupsOK n g.2)
    {sched : List Nat} (hs : sched.Perm (List.range (2 ^ n))) {arena : List (FC (binary64 D))} (ha : arena.length = 2 ^ n)
    (ht : 1 ≤ t) {v : List (FC (binary64 D))} (hv : v.length = 2 ^ n) (run : Nat) :
    ∃ v', gates.foldlM (fun v g => do
        let mats ← g.1.feedMats false g.2
        kronselectDotF run (mats.map fun (km : Key × Mat ℂ) => (km.1, roundMat (binary64 D) (fl64 D) km.2)) v n arena 0 0 sched) v = .ok v' ∧
      RoundedGates (binary64 D) t n gates v v' := by
  classical
  let matsOf := fun g : Gate × List (List Nat) => match g.1.feedMats false g.2 with
    | .ok mats => mats.map fun (km : Key × Mat ℂ) => (km.1, roundMat (binary64 D) (fl64 D) km.2)
    | .error _ => []
  have hok : ∀ g ∈ gates, ∃ mats, g.1.feedMats false g.2 = .ok mats := by
    intro g hg
    obtain ⟨mats, h⟩ := gm_exists g.1 g.2 (hops g hg).1 (hops g hg).2
    exact ⟨mats, by simp [Gate.feedMats, h.ok]⟩
  obtain ⟨v', h1, h2⟩ := C90_runs hops matsOf (t := t) (by
    intro g hg
    obtain ⟨mats, hm⟩ := hok g hg
    refine ⟨mats, hm, ?_⟩
    simp only [matsOf, hm]
    have hst : ∀ km ∈ mats, Stored GateEntry km.2 := by
      obtain ⟨mats', h⟩ := gm_exists g.1 g.2 (hops g hg).1 (hops g hg).2
      have e : g.1.feedMats false g.2 = .ok mats' := by simp [Gate.feedMats, h.ok]
      rw [hm] at e
      injection e with e
      rw [e]
      exact makemats_stored h.ok
    clear hm
    induction mats with
    | nil => exact .nil
    | cons km mats ih =>
      exact .cons ⟨rfl, roundMat_stored ht fl64_ranged km.2 (hst km (by simp))⟩ (ih fun km hkm => hst km (by simp [hkm]))) hs ha hv run
  refine ⟨v', ?_, h2⟩
  rw [← h1]
  clear h1 h2 hv
  induction gates generalizing v with
  | nil => rfl
  | cons g rest ih =>
    obtain ⟨mats, hm⟩ := hok g (by simp)
    rw [List.foldlM_cons, List.foldlM_cons]
    have hg : matsOf g = mats.map fun (km : Key × Mat ℂ) => (km.1, roundMat (binary64 D) (fl64 D) km.2) := by simp only [matsOf, hm]
    rw [hm, hg]
    refine bind_congr fun w => ?_
    exact ih (fun g hg => hops g (by simp [hg])) (fun g hg => hok g (by simp [hg]))

-- a Bell pair in double precision
example (D : Double) [D.Ranged] (sched : List Nat) (hs : sched.Perm (List.range 4)) (arena : List (FC (binary64 D))) (ha : arena.length = 4) :
    ∃ v', RoundedGates (binary64 D) 8 2 [(.h, [[0]]), (.c .x, [[0], [1]])] [1, 0, 0, 0] v' ∧
      |outcomeProb 2 [0] (vals v') 1
        - outcomeProb 2 [0] (exactGates 2 [(.h, [[0]]), (.c .x, [[0], [1]])] (vals ([1, 0, 0, 0] : List (FC (binary64 D))))) 1|
        ≤ 1 / 2 ^ 20 := by
  have hops : ∀ g ∈ [((.h : Gate), [[0]]), (.c .x, [[0], [1]])], Fits g.1 g.2 ∧ GroupsOK 2 g.2 := by
    intro g hg
    simp only [List.mem_cons, List.not_mem_nil, or_false] at hg
    rcases hg with rfl | rfl
    · exact ⟨by simp [Fits], by constructor <;> simp⟩
    · exact ⟨⟨0, [[1]], rfl, by simp [Fits]⟩, by constructor <;> simp⟩
  obtain ⟨v', _, h⟩ := C90_rounded_matrices (t := 8) hops hs ha (by norm_num) (v := [1, 0, 0, 0]) rfl 0
  refine ⟨v', h, (C90_binary64 (by norm_num) hops (by simp) (by norm_num) rfl ?_ h).2 [0] 1⟩
  have h0 : (0 : FC (binary64 D)).val = 0 := rfl
  have h1 : (1 : FC (binary64 D)).val = 1 := rfl
  simp [totalProb, vals, Finset.sum_range_succ, h0, h1]

end QIP.Props
