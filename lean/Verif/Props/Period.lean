import Verif.Lemmas.PeakBound
import Verif.Lemmas.Convergents
import Verif.Props.ShorCircuit
import Verif.Props.RunMore
import Mathlib.Data.Nat.Totient

/-! # C86, C87: the period-finding part of the Shor example -/

namespace QIP.Props

open Spec Heap Finset MeasureTheory

/-! ## C87 -/

theorem period_lt {x N s : Nat} (hN : 1 < N) (h : IsPeriod x N s) : s < N := by
  have hinj : Set.InjOn (fun a => x ^ a % N) (range s : Set Nat) := by
    intro a ha b hb hab
    have := (period_iff h a b).1 hab
    simp only [Finset.coe_range, Set.mem_Iio] at ha hb
    rwa [Nat.mod_eq_of_lt ha, Nat.mod_eq_of_lt hb] at this
  have hmaps : ∀ a ∈ range s, x ^ a % N ∈ (range N).erase 0 := by
    intro a _
    rw [Finset.mem_erase, Finset.mem_range]
    refine ⟨fun h0 => ?_, Nat.mod_lt _ (by omega)⟩
    have h1 : x ^ (a * s) % N = 1 % N := (h.2 _).2 (Dvd.intro_left a rfl)
    have h2 : x ^ (a * s) % N = 0 := by
      rw [pow_mul]
      have : N ∣ x ^ a := Nat.dvd_of_mod_eq_zero h0
      exact Nat.mod_eq_zero_of_dvd (this.trans (dvd_pow_self _ h.1.ne'))
    rw [h2, Nat.mod_eq_of_lt hN] at h1
    exact absurd h1 (by norm_num)
  have := Finset.card_le_card_of_injOn _ hmaps hinj
  rw [Finset.card_range, Finset.card_erase_of_mem (Finset.mem_range.2 (by omega)), Finset.card_range] at this
  omega

theorem nearest_bounds {q s d : Nat} (hs : 0 < s) :
    2 * s * nearest q s d ≤ 2 * d * q + s ∧ 2 * d * q + s < 2 * s * nearest q s d + 2 * s := by
  unfold nearest
  have h1 := Nat.div_add_mod (2 * d * q + s) (2 * s)
  have h2 := Nat.mod_lt (2 * d * q + s) (show 2 * s > 0 by omega)
  omega

theorem nearest_abs {q s d : Nat} (hs : 0 < s) : |(nearest q s d : ℝ) * s - d * q| ≤ s / 2 := by
  obtain ⟨h1, h2⟩ := nearest_bounds (q := q) (d := d) hs
  have h1' : 2 * (s : ℝ) * nearest q s d ≤ 2 * d * q + s := by exact_mod_cast h1
  have h2' : 2 * (d : ℝ) * q + s < 2 * s * nearest q s d + 2 * s := by exact_mod_cast h2
  rw [abs_le]
  constructor <;> nlinarith

theorem nearest_lt {q s d : Nat} (hs : 0 < s) (hd : d < s) (hsq : s ≤ q) : nearest q s d < q := by
  obtain ⟨h1, -⟩ := nearest_bounds (q := q) (d := d) hs
  by_contra hcon
  push Not at hcon
  have h3 : 2 * s * q ≤ 2 * s * nearest q s d := Nat.mul_le_mul_left _ hcon
  have h4 : 2 * (d + 1) * q ≤ 2 * s * q := Nat.mul_le_mul_right _ (by omega)
  have h5 : 2 * (d + 1) * q = 2 * d * q + 2 * q := by ring
  omega

theorem nearest_pos {q s d : Nat} (hs : 0 < s) (hd : 0 < d) (hsq : s ≤ q) : 0 < nearest q s d := by
  obtain ⟨-, h2⟩ := nearest_bounds (q := q) (d := d) hs
  by_contra hcon
  have h0 : nearest q s d = 0 := by omega
  rw [h0] at h2
  have : 2 * 1 * q ≤ 2 * d * q := Nat.mul_le_mul_right _ (by omega)
  omega

theorem nearest_inj {q s d d' : Nat} (hs : 0 < s) (hsq : s < q) (h : nearest q s d = nearest q s d') : d = d' := by
  have key : ∀ {a b : Nat}, nearest q s a = nearest q s b → ¬ a < b := by
    intro a b hab hlt
    obtain ⟨-, h2⟩ := nearest_bounds (q := q) (d := a) hs
    obtain ⟨h1, -⟩ := nearest_bounds (q := q) (d := b) hs
    obtain ⟨h3, -⟩ := nearest_bounds (q := q) (d := a) hs
    obtain ⟨-, h4⟩ := nearest_bounds (q := q) (d := b) hs
    rw [hab] at h2
    rw [hab] at h3
    have h5 : 2 * (a + 1) * q ≤ 2 * b * q := Nat.mul_le_mul_right _ (by omega)
    have h6 : 2 * (a + 1) * q = 2 * a * q + 2 * q := by ring
    omega
  have h1 := key h
  have h2 := key h.symm
  omega

theorem nearest_mem {q s d : Nat} (hs : 0 < s) (hd : 0 < d) (hsq : s ^ 2 < q) (hco : Nat.Coprime d s) :
    ((d : Int), (s : Int)) ∈ pairsOf (nearest q s d) q := by
  have hq : 0 < q := by omega
  have hs1 : s ≤ q := le_of_lt (lt_of_le_of_lt (by nlinarith) hsq)
  apply legendre_mem (nearest_pos hs hd hs1) hq hs hco
  have hq' : (0 : ℝ) < q := by exact_mod_cast hq
  have hs' : (0 : ℝ) < s := by exact_mod_cast hs
  have e : (nearest q s d : ℝ) / q - d / s = ((nearest q s d : ℝ) * s - d * q) / (q * s) := by
    field_simp
  rw [e, abs_div, abs_of_pos (show (0 : ℝ) < q * s by positivity)]
  calc |(nearest q s d : ℝ) * s - d * q| / (q * s) ≤ (s / 2) / (q * s) :=
        div_le_div_of_nonneg_right (nearest_abs hs) (by positivity)
    _ = 1 / (2 * q) := by field_simp
    _ < 1 / (2 * (s : ℝ) ^ 2) := by
        apply one_div_lt_one_div_of_lt (by positivity)
        have : (s : ℝ) ^ 2 < q := by exact_mod_cast hsq
        linarith

/-- **C87**: one circuit of `quantum(x, N)` finds the period `s`: with the registers `quantum` chooses (`q = 2^q_qubits`), the
draws for which the run reports a number whose continued fractions, as `gen_continued_fractions` lists them, contain a
fraction `d/s` have measure at least `4/π² · φ(s)/s · (1 - 6s/q)²`.  Partial: at most 30 qubits (C17), and the uninitialised
accumulators happen to be 0 (C27). -/
theorem C87_period_partial {x N s : Nat} (hN : 5 ≤ N) (h30 : qQubits N + nQubits N ≤ 30) (h : IsPeriod x N s) (hs : 1 < s) :
    ∃ mq mm S, shorCircuit (qQubits N) (nQubits N) x N ⟨Heap.empty, [], 0, fun _ => 0⟩ = (.ok (mq, mm), S) ∧
      ∀ e : Env, EnvOK S.heap [mm] e → (∀ y, (e.orc y).garbage = 0) →
        ENNReal.ofReal (4 / Real.pi ^ 2 * (Nat.totient s / s) * (1 - 6 * s / 2 ^ qQubits N) ^ 2)
          ≤ volume {u : ℝ | 0 ≤ u ∧ u < 1 ∧ ∃ out cl ms p, ∃ k : Nat,
              QIP.run S.heap (fun _ => none) [mm] [] false none e.pick e.shuffle
                (fun y => if y = mm then { e.orc y with u := u } else e.orc y) e.arena = .ok (out, cl, ms) ∧
              (mm, Classic.bits k p) ∈ cl ∧
              ∃ F l, ∃ d : Int, (∀ fuel ≥ F, continuedFractions fuel k (2 ^ qQubits N : Nat) = some l) ∧ (d, (s : Int)) ∈ l} := by
  classical
  set m := qQubits N with hm
  set n := nQubits N with hn
  have hsN := period_lt (by omega) h
  have hqN : N ^ 2 ≤ 2 ^ m := Nat.le_pow_clog (by norm_num) _
  have hNn : N ≤ 2 ^ n := Nat.le_pow_clog (by norm_num) _
  have hm0 : 0 < m := by
    by_contra h0
    rw [show m = 0 by omega] at hqN
    nlinarith
  have hn0 : 0 < n := by
    by_contra h0
    rw [show n = 0 by omega] at hNn
    omega
  have hssq : s ^ 2 < 2 ^ m := lt_of_lt_of_le (Nat.pow_lt_pow_left hsN (by norm_num)) hqN
  have h6 : 6 * s ≤ 2 ^ m := by
    refine le_trans ?_ hqN
    have : 6 * s ≤ 6 * (N - 1) := by omega
    obtain ⟨N', rfl⟩ := Nat.exists_eq_add_of_le hN
    refine this.trans ?_
    rw [show 5 + N' - 1 = 4 + N' by omega]
    nlinarith
  have hslt : s < 2 ^ m := by omega
  obtain ⟨mq, mm, S, env, hS, hc, hd⟩ := shor_full (x := x) hm0 hn0 h30 (by omega) hNn
  refine ⟨mq, mm, S, hS, ?_⟩
  intro e he hg
  set D := (range s).filter (fun d => Nat.Coprime s d) with hD
  have hD0 : ∀ d ∈ D, 0 < d ∧ d < s ∧ Nat.Coprime d s := by
    intro d hd'
    obtain ⟨h1, h2⟩ := Finset.mem_filter.1 hd'
    refine ⟨Nat.pos_of_ne_zero fun h0 => ?_, Finset.mem_range.1 h1, h2.symm⟩
    subst h0
    simp at h2
    omega
  have hsub : (⋃ d ∈ D, shorDraws S.heap mm e (nearest (2 ^ m) s d)) ⊆ {u : ℝ | 0 ≤ u ∧ u < 1 ∧ ∃ out cl ms p, ∃ k : Nat,
              QIP.run S.heap (fun _ => none) [mm] [] false none e.pick e.shuffle
                (fun y => if y = mm then { e.orc y with u := u } else e.orc y) e.arena = .ok (out, cl, ms) ∧
              (mm, Classic.bits k p) ∈ cl ∧
              ∃ F l, ∃ d : Int, (∀ fuel ≥ F, continuedFractions fuel k (2 ^ m : Nat) = some l) ∧ (d, (s : Int)) ∈ l} := by
    intro u hu
    simp only [Set.mem_iUnion] at hu
    obtain ⟨d, hdD, h0, h1, out, cl, ms, p, hr, hcl⟩ := hu
    obtain ⟨hd1, hd2, hd3⟩ := hD0 d hdD
    have hq53 : 2 ^ m < 2 ^ 53 := Nat.pow_lt_pow_right (by norm_num) (by omega)
    have hlt := nearest_lt h.1 hd2 hslt.le
    obtain ⟨F, hF⟩ := cf_eq (2 ^ m) (nearest (2 ^ m) s d) (by omega) hq53
    exact ⟨h0, h1, out, cl, ms, p, _, hr, hcl, F, _, d, hF, nearest_mem h.1 hd1 hssq hd3⟩
  refine le_trans ?_ (measure_mono hsub)
  rw [measure_biUnion_finset₀]
  · have hpi := Real.pi_pos
    have hs' : (0 : ℝ) < s := by exact_mod_cast h.1
    have hlow : ∀ d ∈ D, ENNReal.ofReal (4 / (Real.pi ^ 2 * s) * (1 - 6 * s / 2 ^ m) ^ 2)
        ≤ volume (shorDraws S.heap mm e (nearest (2 ^ m) s d)) := by
      intro d hdD
      obtain ⟨hd1, hd2, hd3⟩ := hD0 d hdD
      rw [(hd e he hg _ (nearest_lt h.1 hd2 hslt.le)).1]
      apply ENNReal.ofReal_le_ofReal
      apply peak_ge (by omega) h h6
      have := nearest_abs (q := 2 ^ m) (d := d) h.1
      push_cast at this
      exact this
    refine le_trans (le_of_eq ?_) (Finset.sum_le_sum hlow)
    rw [Finset.sum_const, nsmul_eq_mul, ← ENNReal.ofReal_natCast, ← ENNReal.ofReal_mul (by positivity)]
    congr 1
    have : D.card = Nat.totient s := rfl
    rw [this]
    field_simp
  · intro d hdD d' hdD' hne
    apply Disjoint.aedisjoint
    rw [Set.disjoint_left]
    rintro u ⟨-, -, out, cl, ms, p, hr, hcl⟩ ⟨-, -, out', cl', ms', p', hr', hcl'⟩
    rw [hr] at hr'
    simp only [Except.ok.injEq, Prod.mk.injEq] at hr'
    obtain ⟨rfl, rfl, rfl⟩ := hr'
    obtain ⟨hnd, -⟩ := C47_classical (e := ⟨e.pick, e.shuffle, fun y => if y = mm then { e.orc y with u := u } else e.orc y,
      e.arena⟩) hc he.shuffle hr
    have heq := List.inj_on_of_nodup_map hnd hcl hcl' rfl
    simp only [Prod.mk.injEq, Classic.bits.injEq, true_and] at heq
    exact hne (nearest_inj h.1 hslt heq.1)
  · intro d hdD
    obtain ⟨hd1, hd2, hd3⟩ := hD0 d hdD
    exact (hd e he hg _ (nearest_lt h.1 hd2 hslt.le)).2

/-- `x = 2`, `N = 21` (period 6): the hypotheses are met. -/
theorem period_21 : IsPeriod 2 21 6 := by
  refine ⟨by norm_num, fun i => ?_⟩
  have h : 2 ^ i % 21 = 2 ^ (i % 6) % 21 := by
    conv_lhs => rw [← Nat.div_add_mod i 6, pow_add, pow_mul, Nat.mul_mod, Nat.pow_mod]
    norm_num
  rw [h, Nat.dvd_iff_mod_eq_zero]
  have : i % 6 < 6 := Nat.mod_lt _ (by norm_num)
  interval_cases i % 6 <;> norm_num

theorem qQubits_21 : qQubits 21 = 9 := by
  unfold qQubits
  decide

theorem nQubits_21 : nQubits 21 = 5 := by
  unfold nQubits
  decide

example : ∃ mq mm S, shorCircuit (qQubits 21) (nQubits 21) 2 21 ⟨Heap.empty, [], 0, fun _ => 0⟩ = (.ok (mq, mm), S) ∧
    ∃ e : Env, EnvOK S.heap [mm] e ∧ 0 < volume {u : ℝ | 0 ≤ u ∧ u < 1 ∧ ∃ out cl ms p, ∃ k : Nat,
      QIP.run S.heap (fun _ => none) [mm] [] false none e.pick e.shuffle
        (fun y => if y = mm then { e.orc y with u := u } else e.orc y) e.arena = .ok (out, cl, ms) ∧
      (mm, Classic.bits k p) ∈ cl ∧
      ∃ F l, ∃ d : Int, (∀ fuel ≥ F, continuedFractions fuel k (2 ^ qQubits 21 : Nat) = some l) ∧ (d, (6 : Int)) ∈ l} := by
  obtain ⟨mq, mm, S, hS, h⟩ := C87_period_partial (x := 2) (N := 21) (s := 6) (by norm_num)
    (by rw [qQubits_21, nQubits_21]; norm_num) period_21 (by norm_num)
  have he : EnvOK S.heap [mm] ⟨fun _ => 0, List.reverse, fun x => ⟨List.range (2 ^ width S.heap [mm]),
    faCounters (width S.heap [mm]) ((groups S.heap [mm] x).getD 0 []) ((groups S.heap [mm] x).getD 1 []), fun _ => 0, 0, 0⟩,
    List.replicate (2 ^ width S.heap [mm]) 0⟩ := ⟨fun l => l.reverse_perm, fun _ => .refl _, fun _ => .refl _, by simp⟩
  refine ⟨mq, mm, S, hS, _, he, lt_of_lt_of_le ?_ (h _ he fun _ => rfl)⟩
  rw [ENNReal.ofReal_pos, qQubits_21, show Nat.totient 6 = 2 from rfl]
  have := Real.pi_pos
  have h2 : (1 - 6 * ((6 : Nat) : ℝ) / 2 ^ 9) ^ 2 = 14161 / 16384 := by norm_num
  rw [h2]
  positivity

/-! ## C86 -/

theorem pickLoop_spec (q : Nat) (l : List (Int × Int)) (r0 : Int) :
    (∃ l1 p l2, l = l1 ++ p :: l2 ∧ (∀ p' ∈ l1, ¬ Accepted q p') ∧ Accepted q p ∧ pickLoop q l r0 = p.2) ∨
      (∀ p ∈ l, ¬ Accepted q p) ∧ pickLoop q l r0 = (l.getLast?.map (·.2)).getD r0 := by
  induction l generalizing r0 with
  | nil => right; simp [pickLoop]
  | cons p l ih =>
    obtain ⟨d, r⟩ := p
    by_cases hp : Accepted q (d, r)
    · left
      refine ⟨[], (d, r), l, rfl, by simp, hp, ?_⟩
      unfold pickLoop
      exact if_pos hp
    · have e : pickLoop q ((d, r) :: l) r0 = pickLoop q l r := by
        conv_lhs => unfold pickLoop
        exact if_neg hp
      rw [e]
      rcases ih r with ⟨l1, p, l2, rfl, h1, h2, h3⟩ | ⟨h1, h2⟩
      · left
        exact ⟨(d, r) :: l1, p, l2, rfl, by
          intro p' hp'
          rcases List.mem_cons.1 hp' with rfl | hp'
          · exact hp
          · exact h1 p' hp', h2, h3⟩
      · right
        refine ⟨by
          intro p' hp'
          rcases List.mem_cons.1 hp' with rfl | hp'
          · exact hp
          · exact h1 p' hp', ?_⟩
        rw [h2]
        rcases l with _ | ⟨p1, l⟩
        · rfl
        · rw [List.getLast?_cons_cons]
          rcases hl : (p1 :: l).getLast? with _ | z
          · simp at hl
          · rfl

theorem fuel_all {q : Nat} (hq : q < 2 ^ 53) (peaks : List Nat) (hp : ∀ k ∈ peaks, k < q) :
    ∃ F, ∀ fuel ≥ F, ∀ k ∈ peaks, continuedFractions fuel k q = some (pairsOf k q) := by
  induction peaks with
  | nil => exact ⟨0, by simp⟩
  | cons k peaks ih =>
    obtain ⟨F1, h1⟩ := ih fun k hk => hp k (List.mem_cons_of_mem _ hk)
    obtain ⟨F2, h2⟩ := cf_eq q k (lt_trans (hp k (by simp)) hq) hq
    refine ⟨max F1 F2, fun fuel hf k' hk' => ?_⟩
    rcases List.mem_cons.1 hk' with rfl | hk'
    · exact h2 fuel (le_trans (le_max_right _ _) hf)
    · exact h1 fuel (le_trans (le_max_left _ _) hf) k' hk'

/-- The value of `r` after one peak. -/
theorem pick_pairs {q k : Nat} (hk : 0 < k) (hkq : k < q) (r0 : Int) :
    (∃ l1 d r l2, pairsOf k q = l1 ++ (d, r) :: l2 ∧ Accepted q (d, r) ∧ (∀ p ∈ l2, ¬ Accepted q p) ∧
      pickLoop q (pairsOf k q).reverse r0 = r) ∨
    (∀ p ∈ pairsOf k q, ¬ Accepted q p) ∧ pickLoop q (pairsOf k q).reverse r0 = 1 := by
  rcases pickLoop_spec q (pairsOf k q).reverse r0 with ⟨l1, p, l2, h1, h2, h3, h4⟩ | ⟨h1, h2⟩
  · left
    refine ⟨l2.reverse, p.1, p.2, l1.reverse, ?_, h3, fun p hp => h2 p (List.mem_reverse.1 hp), h4⟩
    rw [← List.reverse_reverse (pairsOf k q), h1]
    simp
  · right
    refine ⟨fun p hp => h1 p (List.mem_reverse.2 hp), ?_⟩
    rw [h2, List.getLast?_reverse]
    unfold pairsOf
    rw [dif_neg (by omega)]
    rfl

theorem loop_cons {fuel q k : Nat} {peaks : List Nat} {it : Nat} (hk : 0 < k) (hit : 0 < it)
    (hcf : continuedFractions fuel k q = some (pairsOf k q)) :
    quantumLoop fuel q (k :: peaks) it 1 = quantumLoop fuel q peaks (it - 1) (pickLoop q (pairsOf k q).reverse 1) := by
  obtain ⟨k', rfl⟩ : ∃ k', k = k' + 1 := ⟨k - 1, by omega⟩
  conv_lhs => unfold quantumLoop
  rw [if_pos ⟨rfl, hit⟩]
  simp only [hcf, Option.bind_some]

theorem loop_done {fuel q : Nat} {peaks : List Nat} {it : Nat} {r : Int} (h : r ≠ 1 ∨ it = 0) :
    quantumLoop fuel q peaks it r = some r := by
  unfold quantumLoop
  rw [if_neg (by rintro ⟨h1, h2⟩; rcases h with h | h; exact h h1; omega)]

theorem loop_zero {fuel q : Nat} {peaks : List Nat} {it : Nat} (hit : 0 < it) :
    quantumLoop fuel q (0 :: peaks) it 1 = quantumLoop fuel q peaks it 1 := by
  conv_lhs => unfold quantumLoop
  rw [if_pos ⟨rfl, hit⟩]
  rfl

theorem loop_spec {fuel q : Nat} (peaks : List Nat) (hp : ∀ k ∈ peaks, k < q)
    (hcf : ∀ k ∈ peaks, continuedFractions fuel k q = some (pairsOf k q)) (it : Nat) :
    (∀ r, quantumLoop fuel q peaks it 1 = some r → (r = 1 ∧ it ≤ (peaks.filter (· ≠ 0)).length) ∨
      ∃ k ∈ peaks, 0 < k ∧ ∃ l1 d l2, pairsOf k q = l1 ++ (d, r) :: l2 ∧ Accepted q (d, r) ∧ ∀ p ∈ l2, ¬ Accepted q p) ∧
    (it ≤ (peaks.filter (· ≠ 0)).length → ∃ r, quantumLoop fuel q peaks it 1 = some r) := by
  induction peaks generalizing it with
  | nil =>
    by_cases hit : it = 0
    · subst hit
      rw [loop_done (Or.inr rfl)]
      simp
    · constructor
      · intro r hr
        unfold quantumLoop at hr
        rw [if_pos ⟨rfl, by omega⟩] at hr
        cases hr
      · intro h
        simp at h
        exact absurd h hit
  | cons k peaks ih =>
    by_cases hit : it = 0
    · subst hit
      rw [loop_done (Or.inr rfl)]
      simp
    · obtain ⟨i1, i2⟩ := ih (fun k hk => hp k (List.mem_cons_of_mem _ hk)) (fun k hk => hcf k (List.mem_cons_of_mem _ hk)) (it - 1)
      obtain ⟨j1, j2⟩ := ih (fun k hk => hp k (List.mem_cons_of_mem _ hk)) (fun k hk => hcf k (List.mem_cons_of_mem _ hk)) it
      by_cases hk : k = 0
      · subst hk
        rw [loop_zero (by omega)]
        constructor
        · intro r hr
          rcases j1 r hr with ⟨h1, h2⟩ | ⟨k, hk, h⟩
          · exact Or.inl ⟨h1, by simpa using h2⟩
          · exact Or.inr ⟨k, List.mem_cons_of_mem _ hk, h⟩
        · intro h
          exact j2 (by simpa using h)
      · rw [loop_cons (by omega) (by omega) (hcf k (by simp))]
        have hlen : ((k :: peaks).filter (· ≠ 0)).length = (peaks.filter (· ≠ 0)).length + 1 := by
          simp [hk]
        rcases pick_pairs (q := q) (show 0 < k by omega) (hp k (by simp)) 1 with ⟨l1, d, r', l2, e1, e2, e3, e4⟩ | ⟨e1, e2⟩
        · rw [e4]
          have hr' : r' ≠ 1 := by
            have := e2.1
            have := e2.2.1
            simp only at *
            omega
          rw [loop_done (Or.inl hr')]
          refine ⟨fun r hr => Or.inr ?_, fun _ => ⟨_, rfl⟩⟩
          cases hr
          exact ⟨k, by simp, by omega, l1, d, l2, e1, e2, e3⟩
        · rw [e2]
          constructor
          · intro r hr
            rcases i1 r hr with ⟨h1, h2⟩ | ⟨k, hk, h⟩
            · exact Or.inl ⟨h1, by rw [hlen]; omega⟩
            · exact Or.inr ⟨k, List.mem_cons_of_mem _ hk, h⟩
          · intro h
            rw [hlen] at h
            exact i2 (by omega)

/-- **C86**, what `quantum(x, N)` returns, whatever the circuits report: 1 after ten non-zero peaks, or the denominator `r` of
the last convergent `d/r` of a reported peak over `q` with `1 < d < r < q` and `r` even.  (The period is among the
denominators with the probability of C87.)  Partial: it need not be the period, see `C86_wrong`. -/
theorem C86_result_partial {N : Nat} (hN : qQubits N ≤ 52) (peaks : List Nat) (hp : ∀ k ∈ peaks, k < 2 ^ qQubits N) :
    ∃ F, ∀ fuel ≥ F,
      (∀ r, quantum fuel N peaks = some r → (r = 1 ∧ 10 ≤ (peaks.filter (· ≠ 0)).length) ∨
        ∃ k ∈ peaks, 0 < k ∧ ∃ l1 d l2, continuedFractions fuel k (2 ^ qQubits N : Nat) = some (l1 ++ (d, r) :: l2) ∧
          Accepted (2 ^ qQubits N) (d, r) ∧ ∀ p ∈ l2, ¬ Accepted (2 ^ qQubits N) p) ∧
      (10 ≤ (peaks.filter (· ≠ 0)).length → ∃ r, quantum fuel N peaks = some r) := by
  obtain ⟨F, hF⟩ := fuel_all (q := 2 ^ qQubits N) (Nat.pow_lt_pow_right (by norm_num) (by omega)) peaks hp
  refine ⟨F, fun fuel hf => ?_⟩
  obtain ⟨h1, h2⟩ := loop_spec peaks hp (hF fuel hf) 10
  refine ⟨fun r hr => ?_, h2⟩
  rcases h1 r hr with h | ⟨k, hk, hk0, l1, d, l2, e1, e2⟩
  · exact Or.inl h
  · refine Or.inr ⟨k, hk, hk0, l1, d, l2, ?_, e2⟩
    rw [hF fuel hf k hk, e1]

/-- **C86**: if the first non-zero peak is the number nearest to `d q / s`, `s` being the period, `d` coprime to it, `1 < d`,
`s` even, and no later convergent passes the test, then `quantum` returns the period. -/
theorem C86_finds_partial {x N s d : Nat} (hN : 2 ≤ N) (hN2 : qQubits N ≤ 52) (h : IsPeriod x N s) (hs : s % 2 = 0) (hd : 1 < d)
    (hds : d < s) (hco : Nat.Coprime d s) (peaks : List Nat) :
    ∃ F l1 l2, ∀ fuel ≥ F,
      continuedFractions fuel (nearest (2 ^ qQubits N) s d) (2 ^ qQubits N : Nat) = some (l1 ++ ((d : Int), (s : Int)) :: l2) ∧
      ((∀ p ∈ l2, ¬ Accepted (2 ^ qQubits N) p) → quantum fuel N (nearest (2 ^ qQubits N) s d :: peaks) = some (s : Int)) := by
  have hsN := period_lt (by omega) h
  have hqN : N ^ 2 ≤ 2 ^ qQubits N := Nat.le_pow_clog (by norm_num) _
  have hssq : s ^ 2 < 2 ^ qQubits N := lt_of_lt_of_le (Nat.pow_lt_pow_left hsN (by norm_num)) hqN
  have hslt : s < 2 ^ qQubits N := lt_of_le_of_lt (by nlinarith) hssq
  have hlt := nearest_lt h.1 hds hslt.le
  have hpos := nearest_pos (d := d) h.1 (by omega) hslt.le
  have hq53 : 2 ^ qQubits N < 2 ^ 53 := Nat.pow_lt_pow_right (by norm_num) (by omega)
  obtain ⟨l1, l2, hl⟩ := List.append_of_mem (nearest_mem h.1 (show 0 < d by omega) hssq hco)
  obtain ⟨F, hF⟩ := cf_eq (2 ^ qQubits N) (nearest (2 ^ qQubits N) s d) (by omega) hq53
  refine ⟨F, l1, l2, fun fuel hf => ⟨by rw [hF fuel hf, hl], fun hlast => ?_⟩⟩
  have hacc : Accepted (2 ^ qQubits N) ((d : Int), (s : Int)) := by
    refine ⟨Int.ofNat_lt.2 hd, Int.ofNat_lt.2 hds, Int.ofNat_lt.2 hslt, by show ((s : Int)) % 2 = 0; omega, ?_⟩
    show Int.gcd (d : Int) (s : Int) = 1
    rw [Int.gcd_natCast_natCast]
    exact hco
  unfold quantum
  rw [loop_cons hpos (by norm_num) (hF fuel hf)]
  have hpick : pickLoop (2 ^ qQubits N : Nat) (pairsOf (nearest (2 ^ qQubits N) s d) (2 ^ qQubits N)).reverse 1 = s := by
    rw [hl, List.reverse_append, List.reverse_cons, List.append_assoc]
    have : ∀ (l : List (Int × Int)) (r0 : Int), (∀ p ∈ l, ¬ Accepted (2 ^ qQubits N) p) →
        pickLoop (2 ^ qQubits N : Nat) (l ++ ([((d : Int), (s : Int))] ++ l1.reverse)) r0 = s := by
      intro l
      induction l with
      | nil =>
        intro r0 _
        simp only [List.nil_append, List.singleton_append]
        unfold pickLoop
        exact if_pos hacc
      | cons p l ih =>
        intro r0 hl
        obtain ⟨a, b⟩ := p
        rw [List.cons_append]
        unfold pickLoop
        refine (if_neg (hl (a, b) (by simp))).trans ?_
        exact ih b fun p hp => hl p (by simp [hp])
    exact this _ _ fun p hp => hlast p (List.mem_reverse.1 hp)
  rw [hpick]
  exact loop_done (Or.inl (by
    have : 1 < s := by omega
    exact_mod_cast this.ne'))

/-- 427 is the number nearest to `5/6 · 512`; `quantum(2, 21)` then returns 6. -/
example : ∃ F, ∀ fuel ≥ F, quantum fuel 21 [0, 427] = some 6 := by
  obtain ⟨F, hF⟩ := cf_eq 512 427 (by norm_num) (by norm_num)
  refine ⟨F, fun fuel hf => ?_⟩
  unfold quantum
  rw [qQubits_21, show (2 : Nat) ^ 9 = 512 by norm_num, loop_zero (by norm_num), loop_cons (by norm_num) (by norm_num) (hF fuel hf)]
  have : pairsOf 427 512 = [(0, 1), (1, 1), (5, 6), (211, 253), (427, 512)] := by
    simp [pairsOf]
  rw [this]
  simp [pickLoop, quantumLoop]
  decide

theorem peak_170 : 0 < peakProb 9 2 21 170 := by
  unfold peakProb
  apply mul_pos (by positivity)
  refine lt_of_lt_of_le ?_ (Finset.single_le_sum (fun y _ => Complex.normSq_nonneg _) (Finset.mem_range.2 (show 1 < 21 by norm_num)))
  have e : (range (2 ^ 9)).filter (fun i => 2 ^ i % 21 = 1) = (range 86).image (6 * ·) := by
    ext i
    rw [Finset.mem_filter, Finset.mem_range, Finset.mem_image]
    have := period_21.2 i
    simp only [show 1 % 21 = 1 by norm_num] at this
    rw [this]
    constructor
    · rintro ⟨h1, b, rfl⟩
      exact ⟨b, Finset.mem_range.2 (by omega), rfl⟩
    · rintro ⟨b, hb, rfl⟩
      rw [Finset.mem_range] at hb
      exact ⟨by omega, Dvd.intro b rfl⟩
  rw [Complex.normSq_pos, e, Finset.sum_image (by intro a _ b _ h; simpa using h)]
  set w : ℂ := Complex.exp (2 * Real.pi * Complex.I * (1020 / 512)) with hw
  have hterm : ∀ b ∈ range 86, Complex.exp (2 * Real.pi * Complex.I * (((6 * b : Nat) : ℂ) * ((170 : Nat) : ℂ)) / 2 ^ 9) = w ^ b := by
    intro b _
    rw [hw, ← Complex.exp_nat_mul]
    congr 1
    push_cast
    ring
  rw [Finset.sum_congr rfl hterm]
  intro h0
  have hg := geom_sum_mul w 86
  rw [h0, zero_mul] at hg
  have h1 : w ^ 86 = 1 := by linear_combination -hg
  rw [hw, ← Complex.exp_nat_mul, Complex.exp_eq_one_iff] at h1
  obtain ⟨z, hz⟩ := h1
  have h2 : (2 * Real.pi * Complex.I : ℂ) ≠ 0 := by
    simp [Real.pi_ne_zero, Complex.I_ne_zero]
  have h3 : ((86 : Nat) : ℂ) * (1020 / 512) = (z : ℂ) := by
    apply mul_right_cancel₀ h2
    rw [← hz]
    ring
  have h4 : (86 * 1020 : ℂ) = 512 * z := by
    rw [← h3]; push_cast; ring
  have h5 : (86 * 1020 : Int) = 512 * z := by exact_mod_cast h4
  omega

/-- **C86**: peaks 0 are not counted (`continue` skips `max_iters -= 1`): however many of them come, the loop goes on. -/
theorem C86_zero_peaks (fuel N n : Nat) : quantum fuel N (List.replicate n 0) = none := by
  unfold quantum
  induction n with
  | zero => rfl
  | succ n ih => rw [List.replicate_succ, loop_zero (by norm_num), ih]

/-- **C86** is false: `quantum(2, 21)` may return 256, which is no multiple of the period 6 (`2^256 mod 21 = 16`): the peak
170 has positive probability, and its last convergent is `85/256`. -/
theorem C86_wrong : ∃ N x s k, IsPeriod x N s ∧ 0 < peakProb (qQubits N) x N k ∧
    ∃ F, ∃ r : Nat, ∀ fuel ≥ F, ∀ peaks, quantum fuel N (k :: peaks) = some (r : Int) ∧ 1 < r ∧ ¬ s ∣ r := by
  obtain ⟨F, hF⟩ := cf_eq 512 170 (by norm_num) (by norm_num)
  refine ⟨21, 2, 6, 170, period_21, by rw [qQubits_21]; exact peak_170, F, 256, fun fuel hf peaks => ⟨?_, by norm_num, by decide⟩⟩
  unfold quantum
  rw [qQubits_21, show (2 : Nat) ^ 9 = 512 by norm_num, loop_cons (by norm_num) (by norm_num) (hF fuel hf)]
  have : pairsOf 170 512 = [(0, 1), (1, 3), (85, 256)] := by
    simp [pairsOf]
  rw [this]
  have hp : pickLoop (512 : Nat) [((0 : Int), (1 : Int)), (1, 3), (85, 256)].reverse 1 = 256 := by decide
  rw [hp]
  exact loop_done (Or.inl (by norm_num))

end QIP.Props
