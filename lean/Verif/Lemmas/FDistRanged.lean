import Verif.Lemmas.FDist
import Verif.Lemmas.Underflow

/-! # Rounding errors of a kron product on a grid of workers, with underflow and overflow -/

namespace QIP

open Spec Finset

variable {A : Arith} {t n K size : Nat}

/-! ## Sums of partial sums -/

theorem sum_step_ranged [AddRanged A] {a S B T τ : ℝ} {s x : FC A} {z y : ℂ} (hz : ‖z‖ ≤ S) (h : ‖s.val - z‖ ≤ (a - 1) * S + T) (hy : ‖y‖ ≤ B)
    (hx : ‖x.val - y‖ ≤ (a - 1) * B + τ) (hbig : a * (S + B) + (T + τ) ≤ A.big) :
    ‖(s + x).val - (z + y)‖ ≤ (a * (1 + A.u) - 1) * (S + B) + ((1 + A.u) * (T + τ) + A.eta) := by
  have e : (s + x).val = A.add s.val x.val := rfl
  have n1 : ‖s.val‖ ≤ ‖s.val - z‖ + ‖z‖ := by simpa using norm_add_le (s.val - z) z
  have n2 : ‖x.val‖ ≤ ‖x.val - y‖ + ‖y‖ := by simpa using norm_add_le (x.val - y) y
  have h1 := AddRanged.add_err (A := A) s.val x.val (by linarith)
  have hu := A.u_nonneg
  rw [e]
  have e1 : A.add s.val x.val - (z + y) = (A.add s.val x.val - (s.val + x.val)) + ((s.val - z) + (x.val - y)) := by ring
  have h2 : ‖s.val + x.val‖ ≤ a * (S + B) + (T + τ) := (norm_add_le _ _).trans (by linarith)
  have h3 := mul_le_mul_of_nonneg_left h2 hu
  have h4 := norm_add_le (A.add s.val x.val - (s.val + x.val)) ((s.val - z) + (x.val - y))
  have h5 := norm_add_le (s.val - z) (x.val - y)
  rw [← e1] at h4
  linarith

/-- Partial sums added one after the other. -/
theorem add_parts_ranged [AddRanged A] {m N : Nat} {τ X : ℝ} (hτ : 0 ≤ τ) (order : List Nat) (s : Nat → FC A) (z : Nat → ℂ) (B : Nat → ℝ)
    (hB : ∀ i ∈ order, 0 ≤ B i)
    (h : ∀ i ∈ order, ‖z i‖ ≤ B i ∧ ‖(s i).val - z i‖ ≤ ((1 + A.u) ^ m - 1) * B i + τ) {s0 : FC A} {z0 : ℂ} {B0 : ℝ} {l : Nat} (hz0 : ‖z0‖ ≤ B0)
    (hX : B0 + (order.map B).sum ≤ X) (hN : m + l + order.length ≤ N) (hl : l + order.length ≤ K) (hpow : (1 + A.u) ^ N ≤ 2)
    (hbig : 2 * X + 2 * (K + 1) * (τ + A.eta) ≤ A.big)
    (h0 : ‖s0.val - z0‖ ≤ ((1 + A.u) ^ (m + l) - 1) * B0 + (1 + A.u) ^ l * (l + 1) * (τ + A.eta)) :
    ‖(order.foldl (fun x i => x + s i) s0).val - (z0 + (order.map z).sum)‖
      ≤ ((1 + A.u) ^ (m + l + order.length) - 1) * (B0 + (order.map B).sum)
        + (1 + A.u) ^ (l + order.length) * ((l + order.length : Nat) + 1) * (τ + A.eta) := by
  induction order generalizing s0 z0 B0 l with
  | nil => simpa using h0
  | cons i order ih =>
    obtain ⟨h1, h2⟩ := h i (by simp)
    have hBi : 0 ≤ B i := hB i (by simp)
    have hu1 : 1 ≤ 1 + A.u := by linarith [A.u_nonneg]
    have hη := A.eta_nonneg
    simp only [List.map_cons, List.sum_cons, List.length_cons] at hX hN hl ⊢
    have hrest : 0 ≤ (order.map B).sum := List.sum_nonneg (by
      intro x hx
      obtain ⟨i, hi, rfl⟩ := List.mem_map.1 hx
      exact hB i (by simp [hi]))
    have hB0 : 0 ≤ B0 := (norm_nonneg _).trans hz0
    have hp : (1 + A.u) ^ m ≤ (1 + A.u) ^ (m + l) := pow_le_pow_right₀ hu1 (by omega)
    have hp2 : (1 + A.u) ^ (m + l) ≤ 2 := (pow_le_pow_right₀ hu1 (by omega)).trans hpow
    have hl2 : (1 + A.u) ^ l ≤ 2 := (pow_le_pow_right₀ hu1 (by omega)).trans hpow
    have hl1 := one_le_pow_u A l
    have hl1' := one_le_pow_u A (l + 1)
    have hlK : (l : ℝ) + 1 ≤ K := by
      have : l + 1 ≤ K := by omega
      exact_mod_cast this
    have h3 := sum_step_ranged hz0 h0 h1 (h2.trans (add_le_add (mul_le_mul_of_nonneg_right (by linarith) hBi) le_rfl)) (by
      have g1 : (1 + A.u) ^ (m + l) * (B0 + B i) ≤ 2 * X := mul_le_mul hp2 (by linarith) (by linarith) (by norm_num)
      have g2 : (1 + A.u) ^ l * (l + 1) * (τ + A.eta) ≤ 2 * K * (τ + A.eta) := by gcongr
      linarith)
    have h3' : ‖(s0 + s i).val - (z0 + z i)‖ ≤ ((1 + A.u) ^ (m + (l + 1)) - 1) * (B0 + B i)
        + (1 + A.u) ^ (l + 1) * ((l + 1 : Nat) + 1) * (τ + A.eta) := by
      refine h3.trans (add_le_add (le_of_eq ?_) ?_)
      · rw [← add_assoc, pow_succ]
      · have g3 : (1 + A.u) * τ ≤ (1 + A.u) ^ (l + 1) * τ := by
          refine mul_le_mul_of_nonneg_right ?_ hτ
          exact le_self_pow₀ hu1 (by omega)
        have g4 : A.eta ≤ (1 + A.u) ^ (l + 1) * A.eta := le_mul_of_one_le_left hη hl1'
        push_cast
        have e : (1 + A.u) * ((1 + A.u) ^ l * (l + 1) * (τ + A.eta)) = (1 + A.u) ^ (l + 1) * (l + 1) * (τ + A.eta) := by ring
        nlinarith
    have h4 := ih (fun i hi => hB i (by simp [hi])) (fun i hi => h i (by simp [hi])) (l := l + 1)
      ((norm_add_le z0 (z i)).trans (add_le_add hz0 h1)) (by linarith) (by omega) (by omega) h3'
    simp only [List.foldl_cons]
    have e : m + l + (order.length + 1) = m + (l + 1) + order.length := by omega
    have e' : l + (order.length + 1) = l + 1 + order.length := by omega
    rw [e, e', ← add_assoc z0, ← add_assoc B0]
    exact h4

/-! ## Rows -/

theorem slice_rows_ranged [A.Ranged] {mats : List (List Nat × Mat (FC A))} {mats' : List (List Nat × Mat ℂ)}
    (h : List.Forall₂ (fun a b => a.1 = b.1 ∧ MatNear t a.2 b.2) mats mats') (hv : ValidMats n mats') (hs : SmallEntries mats')
    {w : Nat} (hw : (sortedSet (mats'.flatMap (·.1))).length ≤ w) (hml : mats.length ≤ w + 1)
    (hpow : (1 + A.u) ^ ((t + 1) * (w + 1) + 1 + 2 ^ w) ≤ 2) (hη : ((w + 1 : Nat) : ℝ) * A.eta ≤ 1) (hbig : 8 * 2 ^ w ≤ A.big)
    (hsize : 0 < size) (hK : K * size = 2 ^ n)
    {v : List (FC A)} (hvec : v.length = K * size) (hB : ∀ c, ‖(v.getD c 0).val‖ ≤ 2) {row : Nat} (hr : row < 2 ^ n) :
    ∃ (z : Nat → ℂ) (B : Nat → ℝ),
      (∀ order : List Nat, order.Perm (List.range K) →
        (order.map z).sum = kronApply n (denote mats') (fun c => (v.getD c 0).val) row ∧
        (order.map B).sum = ∑ c ∈ range (2 ^ n), ‖kronEntry n (denote mats') row c‖ * ‖(v.getD c 0).val‖ ∧ (order.map B).sum ≤ 2 * 2 ^ w) ∧
      ∀ i < K, ∀ run, ‖z i‖ ≤ B i ∧ ∃ s, cdotRowF run mats (rangeOf size v i) n (i * size) row = .ok s ∧
        ‖s.val - z i‖ ≤ ((1 + A.u) ^ ((t + 1) * (w + 1) + 1 + 2 ^ w) - 1) * B i + 2 ^ w * (4 * w + 6) * A.eta := by
  have hflat := flat_eq h
  have hS := nodup_sortedSet (mats'.flatMap (·.1))
  have hn : ∀ q ∈ sortedSet (mats'.flatMap (·.1)), q < n := by
    intro q hq
    obtain ⟨gm, hgm, hq⟩ := List.mem_flatMap.1 (mem_sortedSet.1 hq)
    exact (hv gm hgm).1 q hq
  have hmem : ∀ q, q ∈ sortedSet (mats'.flatMap (·.1)) ↔ q ∈ (denote mats').flatMap (·.1) := by
    intro q
    rw [mem_sortedSet]
    simp [denote]
  rw [sum_norm_entries hS hmem hn, kronApply_eq_sum (denote mats') hS hmem hn]
  set S := sortedSet (mats'.flatMap (·.1))
  set q : Nat → ℂ := fun c => ((denote mats').map fun gm => gm.2 (subIndex n gm.1 row) (subIndex n gm.1 c)).prod with hqdef
  have hu1 : 1 ≤ 1 + A.u := by linarith [A.u_nonneg]
  have hη0 := A.eta_nonneg
  have hS2 : (2 : ℝ) ^ S.length ≤ 2 ^ w := pow_le_pow_right₀ (by norm_num) hw
  have hS2' : 2 ^ S.length ≤ 2 ^ w := Nat.pow_le_pow_right (by norm_num) hw
  have hw0 : 0 < 2 ^ w := Nat.two_pow_pos w
  have hml' : (t + 1) * mats.length ≤ (t + 1) * (w + 1) := Nat.mul_le_mul_left _ hml
  have hw1 : (1 : ℝ) ≤ 2 ^ w := one_le_pow₀ (by norm_num)
  have hmη : ((0 + mats.length : Nat) : ℝ) * A.eta ≤ 1 := by
    refine le_trans (mul_le_mul_of_nonneg_right ?_ hη0) hη
    rw [Nat.zero_add]
    exact_mod_cast hml
  have hp : ∀ c, ∃ p : FC A, cEntryProduct n row c mats 1 = .ok p ∧ NearT mats.length ((t + 1) * mats.length) p (q c) := by
    intro c
    obtain ⟨p, hp1⟩ := product_ok h hv row c 1
    refine ⟨p, hp1, ?_⟩
    have h0 : NearT 0 0 (1 : FC A) 1 := by
      unfold NearT
      have : (1 : FC A).val = 1 := rfl
      simp [this]
    have := product_near (j := 0) (k := 0) h hv hs (by linarith) ((pow_le_pow_right₀ hu1 (by omega)).trans hpow) hmη (by simp) h0 hp1
    simpa [q] using this
  choose p hp1 hp2 using hp
  set cols := (List.range (2 ^ S.length)).map fun i => spread n S row i with hcols
  have hl : cols.length = 2 ^ S.length := by simp [hcols]
  have hlt : ∀ c ∈ cols, c / size < K := by
    intro c hc
    obtain ⟨i, -, rfl⟩ := List.mem_map.1 hc
    rw [Nat.div_lt_iff_lt_mul hsize, hK]
    exact spread_lt ..
  have hq1 : ∀ c, ‖q c‖ ≤ 1 := fun c => prod_le_one hs row c
  refine ⟨fun i => ((cols.filter fun c => decide (c / size = i)).map fun c => q c * (v.getD c 0).val).sum,
    fun i => ((cols.filter fun c => decide (c / size = i)).map fun c => ‖q c‖ * ‖(v.getD c 0).val‖).sum, ?_, ?_⟩
  · intro order ho
    rw [sum_classes cols (fun c => q c * (v.getD c 0).val) (fun c => c / size) hlt ho,
      sum_classes cols (fun c => ‖q c‖ * ‖(v.getD c 0).val‖) (fun c => c / size) hlt ho]
    refine ⟨?_, ?_, ?_⟩
    · rw [hcols, List.map_map, sum_map_range]
      rfl
    · rw [hcols, List.map_map, sum_map_range]
      apply Finset.sum_congr rfl
      intro i _
      rw [norm_mul]
      rfl
    · have : ∀ L : List Nat, (L.map fun c => ‖q c‖ * ‖(v.getD c 0).val‖).sum ≤ 2 * L.length := by
        intro L
        induction L with
        | nil => simp
        | cons c L ih =>
          have := mul_le_mul (hq1 c) (hB c) (norm_nonneg _) (by norm_num)
          simp only [List.map_cons, List.sum_cons, List.length_cons]
          push_cast
          linarith
      have := this cols
      rw [hl] at this
      push_cast at this
      linarith
  · intro i hi run
    set L := cols.filter fun c => decide (c / size = i)
    have hz : ∀ L : List Nat, ‖(L.map fun c => q c * (v.getD c 0).val).sum‖ ≤ (L.map fun c => ‖q c‖ * ‖(v.getD c 0).val‖).sum := by
      intro L
      induction L with
      | nil => simp
      | cons c L ih =>
        simp only [List.map_cons, List.sum_cons]
        refine (norm_add_le _ _).trans (add_le_add ?_ ih)
        rw [norm_mul]
    refine ⟨hz L, ?_⟩
    have hterms := slice_terms (S := S) hsize hvec hi hp1
    unfold cdotRowF rowTerms
    rw [hflat, cdotCols_eq _ n row hS hn hr]
    refine ⟨_, by rw [hterms]; rfl, ?_⟩
    have hlL : L.length ≤ 2 ^ S.length := by
      rw [← hl]
      exact List.length_filter_le ..
    have hlw : L.length ≤ 2 ^ w := hlL.trans hS2'
    have hlw' : (L.length : ℝ) ≤ 2 ^ w := by exact_mod_cast hlw
    have hexp : (t + 1) * mats.length + 1 + L.length ≤ (t + 1) * (w + 1) + 1 + 2 ^ w := by omega
    have hsumv : (L.map fun c => ‖(v.getD c 0).val‖).sum ≤ 2 * L.length := by
      generalize L = L
      induction L with
      | nil => simp
      | cons c L ih =>
        have := hB c
        simp only [List.map_cons, List.sum_cons, List.length_cons]
        push_cast
        linarith
    have hsumv0 : 0 ≤ (L.map fun c => ‖(v.getD c 0).val‖).sum := List.sum_nonneg (by simp)
    have hp4 : ∀ c, ‖(p c).val‖ ≤ 4 := by
      intro c
      have n1 := nearT_norm (hp2 c)
      have hk2 : (1 + A.u) ^ ((t + 1) * mats.length) ≤ 2 := (pow_le_pow_right₀ hu1 (by omega)).trans hpow
      have hk1 := one_le_pow_u A ((t + 1) * mats.length)
      have : (1 + A.u) ^ ((t + 1) * mats.length) * ‖q c‖ ≤ 2 * 1 := mul_le_mul hk2 (hq1 c) (norm_nonneg _) (by norm_num)
      rw [zero_add] at hmη
      have : mats.length * A.eta * (1 + A.u) ^ ((t + 1) * mats.length) ≤ 1 * 2 := mul_le_mul hmη hk2 (by linarith) (by norm_num)
      linarith
    have hrange : ((L.map fun c => ((p c).val, (v.getD c 0).val)).map fun t => ‖t.1‖ * ‖t.2‖).sum ≤ A.big := by
      rw [List.map_map]
      have : ∀ L : List Nat, (L.map ((fun t : ℂ × ℂ => ‖t.1‖ * ‖t.2‖) ∘ fun c => ((p c).val, (v.getD c 0).val))).sum ≤ 8 * L.length := by
        intro L
        induction L with
        | nil => simp
        | cons c L ih =>
          have := mul_le_mul (hp4 c) (hB c) (norm_nonneg _) (by norm_num)
          simp only [List.map_cons, List.sum_cons, List.length_cons, Function.comp]
          push_cast
          simp only [Function.comp_def] at ih ⊢
          linarith
      have := this L
      linarith
    have hle : (L.map fun c => ((p c).val, (v.getD c 0).val)).length + 1 ≤ (t + 1) * (w + 1) + 1 + 2 ^ w := by
      rw [List.length_map]
      omega
    have hd := Arith.Ranged.dot_err (A := A) run row (L.map fun c => ((p c).val, (v.getD c 0).val))
      ((pow_le_pow_right₀ hu1 hle).trans hpow) hrange
    have hd' := dot_near (j := mats.length) (k := (t + 1) * mats.length) L p q (fun c => (v.getD c 0).val) (fun c _ => hp2 c) hd
    rw [List.length_map] at hd'
    have hbound : mats.length * A.eta * (1 + A.u) ^ ((t + 1) * mats.length + 1 + L.length)
        * (L.map fun c => ‖(v.getD c 0).val‖).sum + A.eta * (L.length + 1) ≤ 2 ^ w * (4 * w + 6) * A.eta := by
      have hp2 : (1 + A.u) ^ ((t + 1) * mats.length + 1 + L.length) ≤ 2 := (pow_le_pow_right₀ hu1 hexp).trans hpow
      have hp0 := one_le_pow_u A ((t + 1) * mats.length + 1 + L.length)
      have hmw : (mats.length : ℝ) ≤ w + 1 := by exact_mod_cast hml
      have g1 : mats.length * A.eta * (1 + A.u) ^ ((t + 1) * mats.length + 1 + L.length) ≤ (w + 1) * A.eta * 2 := by gcongr
      have g2 := mul_le_mul g1 (hsumv.trans (mul_le_mul_of_nonneg_left hlw' (by norm_num))) hsumv0 (by positivity)
      have g3 : A.eta * (L.length + 1) ≤ A.eta * (2 ^ w + 2 ^ w) := by gcongr
      refine (add_le_add g2 g3).trans (le_of_eq ?_)
      ring
    have hγ : ((1 + A.u) ^ ((t + 1) * mats.length + 1 + L.length) - 1) * (L.map fun c => ‖q c‖ * ‖(v.getD c 0).val‖).sum
        ≤ ((1 + A.u) ^ ((t + 1) * (w + 1) + 1 + 2 ^ w) - 1) * (L.map fun c => ‖q c‖ * ‖(v.getD c 0).val‖).sum := by
      refine mul_le_mul_of_nonneg_right ?_ ((norm_nonneg _).trans (hz L))
      have := pow_le_pow_right₀ hu1 hexp
      linarith
    rw [List.map_map]
    exact hd'.trans (add_le_add hγ hbound)

theorem mats_dist_ranged [A.Ranged] [AddRanged A] (run : Nat → Nat → Nat) {L : List Nat} {T : (Nat → ℂ) → Nat → ℂ} {mats : List (Key × Mat ℂ)}
    {matsF : List (Key × Mat (FC A))}
    (hlt : ∀ q ∈ L, q < n) (hne : mats ≠ []) (hlen : ∀ km ∈ mats, ∀ km' ∈ mats, km.1.qubits.length = km'.1.qubits.length)
    (hkeys : (mats.map fun km => km.1.qubits).Nodup)
    (hshapes : ∀ km ∈ mats, km.2.shape = (2 ^ km.1.qubits.length, 2 ^ km.1.qubits.length))
    (hsub : ∀ km ∈ mats, ∀ q ∈ km.1.qubits, q ∈ L) (hwf : ∀ km ∈ mats, km.2.WF) (hlength : mats.length ≤ L.length + 1)
    (hsem : ∀ v r, r < 2 ^ n → kronApply n (opsOf mats) v r = T v r)
    (huni : opMat n (opsOf mats) * opMat n (adjOps (opsOf mats)) = 1) (hsmall : SmallEntries (normed mats))
    (hF : List.Forall₂ (fun (a : Key × Mat (FC A)) (b : Key × Mat ℂ) => a.1 = b.1 ∧ MatNear t a.2 b.2) matsF mats)
    (hin : InRangeD A t L.length K) (hsize : 0 < size) (hK : K * size = 2 ^ n) {v : List (FC A)}
    (hv : v.length = K * size) (hB : dist2 n (fun c => (v.getD c 0).val) 0 ≤ 2)
    {arena : Nat → Nat → List (FC A)} (hout : ∀ i j, (arena i j).length = size) {sched : Nat → Nat → List Nat}
    (hs : ∀ i j, (sched i j).Perm (List.range size)) {order : Nat → List Nat} (ho : ∀ j < K, (j :: order j).Perm (List.range K)) :
    ∃ w, distKronF run matsF n K size v arena sched order = .ok w ∧ w.length = K * size ∧
      dist2 n (fun c => (w.getD c 0).val) (T fun c => (v.getD c 0).val)
        ≤ gateErrD A.u t L.length K * dist2 n (fun c => (v.getD c 0).val) 0 + gateTinyD A.eta n L.length K := by
  obtain ⟨hpow, hη, hbig⟩ := hin
  have hr : ∀ km ∈ mats, ∀ q ∈ km.1.qubits, q < n := fun km hkm q hq => hlt q (hsub km hkm q hq)
  set v' : Nat → ℂ := fun c => (v.getD c 0).val with hv'
  have hamp : ∀ c, ‖(v.getD c 0).val‖ ≤ 2 := by
    intro c
    by_cases hc : c < 2 ^ n
    · refine le_trans ?_ hB
      unfold dist2
      apply Real.le_sqrt_of_sq_le
      have := Finset.single_le_sum (f := fun r => ‖v' r - (0 : Nat → ℂ) r‖ ^ 2) (fun r _ => by positivity) (Finset.mem_range.2 hc)
      simpa [hv'] using this
    · have : (0 : FC A).val = 0 := rfl
      simp [this, List.getElem?_eq_none (by omega : v.length ≤ c)]
  have hK1 : 1 ≤ K := by
    rcases Nat.eq_zero_or_pos K with rfl | h
    · have := Nat.two_pow_pos n
      omega
    · exact h
  have hK1' : (1 : ℝ) ≤ K := by exact_mod_cast hK1
  have hu1 : 1 ≤ 1 + A.u := by linarith [A.u_nonneg]
  have hη0 := A.eta_nonneg
  set W := L.length
  have hW1 : (1 : ℝ) ≤ 2 ^ W := one_le_pow₀ (by norm_num)
  have hpow' : (1 + A.u) ^ ((t + 1) * (W + 1) + 1 + 2 ^ W) ≤ 2 := (pow_le_pow_right₀ hu1 (by omega)).trans hpow
  have hbig' : 8 * 2 ^ W ≤ A.big := by
    refine le_trans ?_ hbig
    gcongr
    linarith
  set γ := (1 + A.u) ^ ((t + 1) * (W + 1) + 1 + 2 ^ W + (K - 1)) - 1 with hγdef
  set τ0 := 2 ^ W * (4 * W + 6) * A.eta with hτ0def
  set τ := 2 * K * (2 ^ W * (4 * W + 7)) * A.eta with hτdef
  have hτ00 : 0 ≤ τ0 := by positivity
  have hτη : τ0 + A.eta ≤ 2 ^ W * (4 * W + 7) * A.eta := by
    rw [hτ0def]
    nlinarith [mul_le_mul_of_nonneg_right hW1 hη0]
  have hτ7 : τ0 + A.eta ≤ 7 * 2 ^ W := by
    have : (2 : ℝ) ^ W * (4 * W + 7) * A.eta ≤ 2 ^ W * (7 * (((W + 1 : Nat) : ℝ) * A.eta)) := by
      rw [mul_assoc]
      apply mul_le_mul_of_nonneg_left _ (by positivity)
      push_cast
      have : 0 ≤ (W : ℝ) * A.eta := by positivity
      linarith
    have := mul_le_mul_of_nonneg_left hη (by positivity : (0 : ℝ) ≤ 2 ^ W * 7)
    linarith
  set S := sortedSet (mats.flatMap (·.1.qubits)) with hSdef
  have hS : S.Nodup := nodup_sortedSet _
  have hmem : ∀ q, q ∈ S ↔ q ∈ (opsOf mats).flatMap (·.1) := by
    intro q
    rw [hSdef, mem_sortedSet]
    simp [opsOf]
  have hn : ∀ q ∈ S, q < n := by
    intro q hq
    obtain ⟨km, hkm, hq⟩ := List.mem_flatMap.1 (mem_sortedSet.1 hq)
    exact hr km hkm q hq
  have hSlen : S.length ≤ W := by
    apply (hS.subperm ?_).length_le
    intro q hq
    obtain ⟨km, hkm, hq⟩ := List.mem_flatMap.1 (mem_sortedSet.1 hq)
    exact hsub km hkm q hq
  have hmlen : matsF.length ≤ W + 1 := hF.length_eq ▸ hlength
  have hN := normed_near hF
  have hvm : ValidMats n (normed mats) := by
    intro gm hgm
    obtain ⟨km, hkm, rfl⟩ := List.mem_map.1 hgm
    exact ⟨hr km hkm, hwf km hkm, hshapes km hkm⟩
  have e : (normed mats).flatMap (·.1) = mats.flatMap (·.1.qubits) := by simp [normed, List.flatMap_map]
  have hrows : ∀ row, ∃ (z : Nat → ℂ) (B : Nat → ℝ), row < 2 ^ n → _ := fun row => by
    by_cases hlt : row < 2 ^ n
    · obtain ⟨z, B, h⟩ := slice_rows_ranged hN hvm hsmall (w := W) (by rw [e]; exact hSlen) (by simpa [normed] using hmlen) hpow' hη hbig'
        hsize hK hv hamp hlt
      exact ⟨z, B, fun _ => h⟩
    · exact ⟨0, 0, fun h => absurd h hlt⟩
  choose z B hzB using hrows
  rw [denote_normed] at hzB
  obtain ⟨w, h1, h2, h3'⟩ := dist_rows run hF hsize hK hv hout hs ho hkeys hshapes hr hne hlen
    (fun row hlt i hi run => ((hzB row hlt).2 i hi run).2)
  have h3 : ∀ r < 2 ^ n, ‖(w.getD r 0).val - T v' r‖ ≤ γ * ∑ c ∈ range (2 ^ n), ‖kronEntry n (opsOf mats) r c‖ * ‖v' c‖ + τ := by
    intro r hr'
    obtain ⟨hj, s, hs, hw⟩ := h3' r hr'
    obtain ⟨hsum, hz⟩ := hzB r hr'
    obtain ⟨hs1, hs2, hs3⟩ := hsum _ (ho _ hj)
    have hol : (order (r / size)).length = K - 1 := by
      have := (ho _ hj).length_eq
      simp at this
      omega
    have hord : ∀ i ∈ order (r / size), i < K := by
      intro i hi
      simpa using (ho _ hj).mem_iff.1 (List.mem_cons_of_mem _ hi)
    rw [List.map_cons, List.sum_cons] at hs1 hs2 hs3
    have := add_parts_ranged (l := 0) (K := K) (N := (t + 1) * (W + 1) + 1 + 2 ^ W + (K - 1)) (X := 2 * 2 ^ W) hτ00 (order (r / size)) s (z r)
      (B r) (fun i hi => (norm_nonneg _).trans (hz i (hord i hi) 0).1) (fun i hi => ⟨(hz i (hord i hi) 0).1, hs i (hord i hi)⟩)
      (hz _ hj 0).1 hs3 (by rw [hol]; omega) (by omega) hpow (by
        have g1 : 2 * ((K : ℝ) + 1) * (τ0 + A.eta) ≤ 2 * (K + 1) * (7 * 2 ^ W) := by gcongr
        have g2 : (0 : ℝ) ≤ (K - 1) * 2 ^ W := mul_nonneg (by linarith) (by positivity)
        linarith) (by simpa using (hs _ hj).trans (by linarith))
    rw [hs1, hs2, hol, ← hw, hsem v' r hr'] at this
    refine this.trans (add_le_add le_rfl ?_)
    have hW0 := Nat.two_pow_pos W
    have g3 : (1 + A.u) ^ (0 + (K - 1)) ≤ 2 := (pow_le_pow_right₀ hu1 (by omega)).trans hpow
    have g4 : ((0 + (K - 1) : Nat) : ℝ) + 1 = K := by
      have : 0 + (K - 1) + 1 = K := by omega
      exact_mod_cast this
    rw [g4]
    calc (1 + A.u) ^ (0 + (K - 1)) * K * (τ0 + A.eta) ≤ 2 * K * (2 ^ W * (4 * W + 7) * A.eta) := by gcongr
      _ = τ := by rw [hτdef]; ring
  refine ⟨w, h1, h2, ?_⟩
  have hγ0 : 0 ≤ γ := by linarith [one_le_pow_u A ((t + 1) * (W + 1) + 1 + 2 ^ W + (K - 1))]
  have hτ0 : 0 ≤ τ := by positivity
  -- the relative part and the absolute part
  set a : Nat → ℂ := fun r => ((γ * ∑ c ∈ range (2 ^ n), ‖kronEntry n (opsOf mats) r c‖ * ‖v' c‖ : ℝ) : ℂ)
  set b : Nat → ℂ := fun _ => ((-τ : ℝ) : ℂ)
  have hna : ∀ r, 0 ≤ γ * ∑ c ∈ range (2 ^ n), ‖kronEntry n (opsOf mats) r c‖ * ‖v' c‖ := fun r =>
    mul_nonneg hγ0 (Finset.sum_nonneg fun _ _ => by positivity)
  have h4 : dist2 n (fun c => (w.getD c 0).val) (T v') ≤ dist2 n a b := by
    unfold dist2
    apply Real.sqrt_le_sqrt
    apply Finset.sum_le_sum
    intro r hr
    refine pow_le_pow_left₀ (norm_nonneg _) ((h3 r (by simpa using hr)).trans (le_of_eq ?_)) 2
    simp only [a, b]
    rw [← Complex.ofReal_sub, Complex.norm_real, Real.norm_of_nonneg (by linarith [hna r]), sub_neg_eq_add]
  have h5 : dist2 n a 0 ≤ γ * (√(2 ^ S.length) * dist2 n v' 0) := by
    unfold dist2
    rw [← Real.sqrt_mul (by positivity), ← Real.sqrt_sq hγ0, ← Real.sqrt_mul (by positivity)]
    apply Real.sqrt_le_sqrt
    calc ∑ r ∈ range (2 ^ n), ‖a r - (0 : Nat → ℂ) r‖ ^ 2
        = ∑ r ∈ range (2 ^ n), (γ * ∑ c ∈ range (2 ^ n), ‖kronEntry n (opsOf mats) r c‖ * ‖v' c‖) ^ 2 := by
          apply Finset.sum_congr rfl
          intro r _
          simp only [a, Pi.zero_apply, sub_zero]
          rw [Complex.norm_real, Real.norm_of_nonneg (hna r)]
      _ = γ ^ 2 * ∑ r ∈ range (2 ^ n), (∑ c ∈ range (2 ^ n), ‖kronEntry n (opsOf mats) r c‖ * ‖v' c‖) ^ 2 := by
          rw [Finset.mul_sum]
          simp only [mul_pow]
      _ ≤ γ ^ 2 * (2 ^ S.length * ∑ r ∈ range (2 ^ n), ‖v' r - (0 : Nat → ℂ) r‖ ^ 2) := by
          have := abs_norm hS hmem hn huni v'
          simp only [Pi.zero_apply, sub_zero]
          gcongr
  have h6 : dist2 n 0 b = √(2 ^ n) * τ := by
    unfold dist2
    have e : ∀ r ∈ range (2 ^ n), ‖(0 : Nat → ℂ) r - b r‖ ^ 2 = τ ^ 2 := by
      intro r _
      simp only [b, Pi.zero_apply, zero_sub, norm_neg]
      rw [Complex.norm_real, Real.norm_eq_abs, sq_abs, neg_sq]
    rw [Finset.sum_congr rfl e, Finset.sum_const, Finset.card_range, nsmul_eq_mul, Real.sqrt_mul (by positivity), Real.sqrt_sq hτ0]
    push_cast
    rfl
  have h7 := dist2_triangle n a 0 b
  rw [h6] at h7
  refine (h4.trans h7).trans (add_le_add (h5.trans ?_) (le_of_eq ?_))
  · unfold gateErrD
    rw [← mul_assoc]
    have h5 : √((2 : ℝ) ^ S.length) ≤ √(2 ^ W) := Real.sqrt_le_sqrt (pow_le_pow_right₀ (by norm_num) hSlen)
    have := dist2_nonneg n v' 0
    gcongr
  · unfold gateTinyD
    simp only [τ]
    ring

/-- One gate on a grid of workers with underflow and overflow. -/
theorem gate_dist_ranged [A.Ranged] [AddRanged A] (run : Nat → Nat → Nat) {g : Gate} {gs : List (List Nat)} (hf : Fits g gs) (hgs : GroupsOK n gs)
    {mats : List (Key × Mat ℂ)} {matsF : List (Key × Mat (FC A))} (hm : g.feedMats false gs = .ok mats)
    (hF : List.Forall₂ (fun (a : Key × Mat (FC A)) (b : Key × Mat ℂ) => a.1 = b.1 ∧ MatNear t a.2 b.2) matsF mats)
    (hin : InRangeD A t gs.flatten.length K) (hsize : 0 < size) (hK : K * size = 2 ^ n) {v : List (FC A)}
    (hv : v.length = K * size) (hB : dist2 n (fun c => (v.getD c 0).val) 0 ≤ 2)
    {arena : Nat → Nat → List (FC A)} (hout : ∀ i j, (arena i j).length = size) {sched : Nat → Nat → List Nat}
    (hs : ∀ i j, (sched i j).Perm (List.range size)) {order : Nat → List Nat} (ho : ∀ j < K, (j :: order j).Perm (List.range K)) :
    ∃ w, distKronF run matsF n K size v arena sched order = .ok w ∧ w.length = K * size ∧
      dist2 n (fun c => (w.getD c 0).val) (gateApply n g gs fun c => (v.getD c 0).val)
        ≤ gateErrD A.u t gs.flatten.length K * dist2 n (fun c => (v.getD c 0).val) 0 + gateTinyD A.eta n gs.flatten.length K := by
  obtain ⟨mats', hgm⟩ := gm_exists g gs hf hgs
  have e : mats' = mats := by
    have := hgm.ok
    simp only [Gate.feedMats, this, bind, Except.bind, Bool.false_eq_true, if_false, pure, Except.pure] at hm
    injection hm
  subst e
  have hsmall : SmallEntries (normed mats') := by
    intro gm hgm'
    obtain ⟨km, hkm, rfl⟩ := List.mem_map.1 hgm'
    exact makemats_small hgm.ok km hkm
  exact mats_dist_ranged run hgs.2 hgm.ne hgm.len hgm.keys hgm.shapes hgm.sub hgm.wf (makemats_length hf hgs hgm.ok) hgm.sem hgm.uni'
    hsmall hF hin hsize hK hv hB hout hs ho

theorem mats_dist_runs (run : Nat → Nat → Nat) {mats : List (Key × Mat ℂ)} {matsF : List (Key × Mat (FC A))}
    (hr : ∀ km ∈ mats, ∀ q ∈ km.1.qubits, q < n) (hne : mats ≠ [])
    (hlen : ∀ km ∈ mats, ∀ km' ∈ mats, km.1.qubits.length = km'.1.qubits.length) (hkeys : (mats.map fun km => km.1.qubits).Nodup)
    (hshapes : ∀ km ∈ mats, km.2.shape = (2 ^ km.1.qubits.length, 2 ^ km.1.qubits.length)) (hwf : ∀ km ∈ mats, km.2.WF)
    (hF : List.Forall₂ (fun (a : Key × Mat (FC A)) (b : Key × Mat ℂ) => a.1 = b.1 ∧ MatNear t a.2 b.2) matsF mats)
    (hsize : 0 < size) (hK : K * size = 2 ^ n) {v : List (FC A)} (hv : v.length = K * size)
    {arena : Nat → Nat → List (FC A)} (hout : ∀ i j, (arena i j).length = size) {sched : Nat → Nat → List Nat}
    (hs : ∀ i j, (sched i j).Perm (List.range size)) {order : Nat → List Nat} (ho : ∀ j < K, (j :: order j).Perm (List.range K)) :
    ∃ w, distKronF run matsF n K size v arena sched order = .ok w ∧ w.length = K * size := by
  have hN := normed_near hF
  have hvm : ValidMats n (normed mats) := by
    intro gm hgm'
    obtain ⟨km, hkm, rfl⟩ := List.mem_map.1 hgm'
    exact ⟨hr km hkm, hwf km hkm, hshapes km hkm⟩
  obtain ⟨w, h1, h2, -⟩ := dist_rows (Q := fun _ _ _ => True) run hF hsize hK hv hout hs ho hkeys hshapes hr hne hlen
    fun row hlt i hi run => by
      have hflat : (normed matsF).flatMap (·.1) = (normed mats).flatMap (·.1) := flat_eq hN
      have hS := nodup_sortedSet ((normed mats).flatMap (·.1))
      have hn : ∀ q ∈ sortedSet ((normed mats).flatMap (·.1)), q < n := by
        intro q hq
        obtain ⟨gm, hgm, hq⟩ := List.mem_flatMap.1 (mem_sortedSet.1 hq)
        exact (hvm gm hgm).1 q hq
      choose p hp using fun c => product_ok hN hvm row c 1
      have := slice_terms (S := sortedSet ((normed mats).flatMap (·.1))) hsize hv hi hp
      have hrow : ∃ s, cdotRowF run (normed matsF) (rangeOf size v i) n (i * size) row = .ok s := by
        unfold cdotRowF rowTerms
        rw [hflat, cdotCols_eq _ n row hS hn hlt, this]
        exact ⟨_, rfl⟩
      obtain ⟨s, hs⟩ := hrow
      exact ⟨s, hs, trivial⟩
  exact ⟨w, h1, h2⟩

/-- The workers succeed on the matrices of a gate or of its inverse, whatever the arithmetic. -/
theorem gate_dist_runs (run : Nat → Nat → Nat) {g : Gate} {back : Bool} {gs : List (List Nat)} (hf : Fits g gs) (hgs : GroupsOK n gs)
    (hsw : back = true → hasSwap g = false)
    {mats : List (Key × Mat ℂ)} {matsF : List (Key × Mat (FC A))} (hm : g.feedMats back gs = .ok mats)
    (hF : List.Forall₂ (fun (a : Key × Mat (FC A)) (b : Key × Mat ℂ) => a.1 = b.1 ∧ MatNear t a.2 b.2) matsF mats)
    (hsize : 0 < size) (hK : K * size = 2 ^ n) {v : List (FC A)} (hv : v.length = K * size)
    {arena : Nat → Nat → List (FC A)} (hout : ∀ i j, (arena i j).length = size) {sched : Nat → Nat → List Nat}
    (hs : ∀ i j, (sched i j).Perm (List.range size)) {order : Nat → List Nat} (ho : ∀ j < K, (j :: order j).Perm (List.range K)) :
    ∃ w, distKronF run matsF n K size v arena sched order = .ok w ∧ w.length = K * size := by
  obtain ⟨ms, hgm⟩ := gm_exists g gs hf hgs
  cases back with
  | false =>
    have e : ms = mats := by
      have := hgm.ok
      simp only [Gate.feedMats, this, bind, Except.bind, Bool.false_eq_true, if_false, pure, Except.pure] at hm
      injection hm
    subst e
    exact mats_dist_runs run (fun km hkm q hq => hgs.2 q (hgm.sub km hkm q hq)) hgm.ne hgm.len hgm.keys hgm.shapes hgm.wf hF hsize hK hv
      hout hs ho
  | true =>
    obtain ⟨dm, d1, d2, d3, d4, -⟩ := feedMats_dagger hf hgs hgm (hsw rfl)
    rw [d1] at hm
    injection hm with hm
    subst hm
    have hmem : ∀ km ∈ dm, ∃ km' ∈ ms, km.1 = km'.1 := by
      intro km hkm
      have : km.1 ∈ ms.map (·.1) := by
        rw [← d2]
        exact List.mem_map_of_mem hkm
      obtain ⟨km', h1, h2⟩ := List.mem_map.1 this
      exact ⟨km', h1, h2.symm⟩
    have hlen : dm.length = ms.length := by simpa using congrArg List.length d2
    refine mats_dist_runs run ?_ ?_ ?_ ?_ d3 d4 hF hsize hK hv hout hs ho
    · intro km hkm q hq
      obtain ⟨a, ha, e⟩ := hmem km hkm
      rw [e] at hq
      exact hgs.2 q (hgm.sub a ha q hq)
    · intro h
      rw [h] at hlen
      exact hgm.ne (List.length_eq_zero_iff.1 hlen.symm)
    · intro km hkm km' hkm'
      obtain ⟨a, ha, e⟩ := hmem km hkm
      obtain ⟨b, hb, e'⟩ := hmem km' hkm'
      rw [e, e']
      exact hgm.len a ha b hb
    · have e : (dm.map fun km => km.1.qubits) = (dm.map (·.1)).map Key.qubits := by simp
      have e' : (ms.map fun km => km.1.qubits) = (ms.map (·.1)).map Key.qubits := by simp
      rw [e, d2, ← e']
      exact hgm.keys

end QIP
