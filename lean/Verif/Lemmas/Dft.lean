import Verif.Lemmas.Qfft
import Verif.Lemmas.OneQubit
import Verif.Spec.Dft

/-! # The operations of the QFFT compute the discrete Fourier transform -/

namespace QIP

open Spec Finset

/-- `exp(2πi x)`. -/
noncomputable def ph (x : ℂ) : ℂ := Complex.exp (2 * Real.pi * Complex.I * x)

theorem ph_add (x y : ℂ) : ph (x + y) = ph x * ph y := by
  unfold ph; rw [mul_add, Complex.exp_add]

theorem ph_zero : ph 0 = 1 := by simp [ph]

theorem ph_nat (k : Nat) : ph k = 1 := by
  unfold ph
  have := Complex.exp_nat_mul_two_pi_mul_I k
  rw [← this]; congr 1; ring

theorem ph_half : ph (1 / 2) = -1 := by
  unfold ph
  rw [← Complex.exp_pi_mul_I]; congr 1; ring

/-- The rows of the QFFT as a recursion over lists. -/
def rowL (w : Nat) : List Nat → Nat → List Act
  | [], _ => []
  | u :: us, m => ⟨[], .c (.rm (m : Int) false), [[u], [w]]⟩ :: rowL w us (m + 1)

def qftL : List Nat → List Act
  | [] => []
  | w :: ws => ⟨[], .h, [[w]]⟩ :: (rowL w ws 2 ++ qftL ws)

theorem rowActs_eq (ws : List Nat) (o k j : Nat) (hj : j + k = ws.length) (hoj : o < j) :
    rowActs ws o (List.range' j k) = rowL (ws.getD o 0) (ws.drop j) (1 + j - o) := by
  induction k generalizing j with
  | zero => rw [show j = ws.length by omega, List.drop_length]; rfl
  | succ k ih =>
    have hjl : j < ws.length := by omega
    rw [List.drop_eq_getElem_cons hjl, List.range'_succ]
    have := ih (j + 1) (by omega) (by omega)
    unfold rowActs at this ⊢
    rw [List.map_cons, this]
    rw [rowL.eq_2, List.getD_eq_getElem _ _ hjl, show 1 + (j + 1) - o = 1 + j - o + 1 by omega,
      show ((1 + j - o : Nat) : Int) = 1 + (j : Int) - (o : Int) by omega]

theorem recActs_eq (ws : List Nat) (k o : Nat) (ho : o + k = ws.length) : recActs ws k o = qftL (ws.drop o) := by
  induction k generalizing o with
  | zero => rw [show o = ws.length by omega, List.drop_length]; rfl
  | succ k ih =>
    have hol : o < ws.length := by omega
    rw [List.drop_eq_getElem_cons hol]
    unfold recActs qftL
    rw [ih (o + 1) (by omega), rowActs_eq ws o _ (o + 1) (by omega) (by omega), List.getD_eq_getElem _ _ hol,
      show 1 + (o + 1) - o = 2 by omega]

/-- One controlled phase. -/
theorem cphase_apply {n u w m : Nat} {r : Nat} (hr : r < 2 ^ n) (hw : w < n) (v : Nat → ℂ) :
    Act.apply n ⟨[], .c (.rm (m : Int) false), [[u], [w]]⟩ v r
      = ph ((qbit n r w).toNat * (qbit n r u).toNat / 2 ^ m) * v r := by
  have e1 : Act.apply n ⟨[], .c (.rm (m : Int) false), [[u], [w]]⟩ v r
      = if qbit n r u then apply1 n w (gateU (.rm (m : Int) false)) v r else v r := by
    simp [Act.apply, gateApply]
  rw [e1]
  cases hu : qbit n r u with
  | false => simp [ph_zero]
  | true =>
    rw [if_pos rfl, apply1_diag hw hr]
    · congr 1
      cases hwb : qbit n r w with
      | false => simp [gateU, ph_zero]
      | true =>
        unfold gateU ph
        simp only [if_true, Bool.false_eq_true, if_false, one_mul, Bool.toNat_true]
        congr 1
        push_cast
        rw [zpow_natCast]
        ring
    · intro i j hij
      simp [gateU, hij]

theorem row_apply {n w : Nat} (hw : w < n) (us : List Nat) (m : Nat) (v : Nat → ℂ) {r : Nat} (hr : r < 2 ^ n) :
    actAll n (rowL w us m) v r
      = ph ((qbit n r w).toNat * (2 * subIndex n us r) / (2 ^ m * 2 ^ us.length)) * v r := by
  induction us generalizing m v with
  | nil => simp [rowL, actAll, subIndex, bitsVal, ph_zero]
  | cons u us ih =>
    unfold rowL
    rw [actAll_cons, ih, cphase_apply hr hw, ← mul_assoc, ← ph_add]
    congr 2
    rw [subIndex_cons]
    have h2 : (2 : ℂ) ≠ 0 := two_ne_zero
    cases qbit n r u <;> simp only [List.length_cons, if_true, Bool.false_eq_true, if_false, Bool.toNat_true,
      Bool.toNat_false, Nat.cast_zero, Nat.cast_one] <;> push_cast <;> field_simp <;> ring

theorem h_apply {n w : Nat} (hw : w < n) (v : Nat → ℂ) (r : Nat) :
    Act.apply n ⟨[], .h, [[w]]⟩ v r = ((1 / √2 : ℝ) : ℂ) *
      (v (spread n [w] r 0) + ph ((qbit n r w).toNat / 2) * v (spread n [w] r 1)) := by
  have e1 : Act.apply n ⟨[], .h, [[w]]⟩ v r = apply1 n w (gateU .h) v r := by simp [Act.apply, gateApply]
  rw [e1, apply1_eq hw]
  cases qbit n r w with
  | false => simp [gateU, ph_zero]; ring
  | true => simp [gateU]; rw [show (2 : ℂ)⁻¹ = 1 / 2 by norm_num, ph_half]; ring

theorem spread_cons {n w : Nat} {ws : List Nat} (hnd : (w :: ws).Nodup) (r b j : Nat) (hj : j < 2 ^ ws.length)
    (hb : b < 2) : spread n [w] (spread n ws r j) b = spread n (w :: ws) r (b * 2 ^ ws.length + j) := by
  apply qbit_ext (spread_lt _ _ _ _) (spread_lt _ _ _ _)
  intro q hq
  rw [qbit_spread _ _ _ hq, qbit_spread _ _ _ hq, qbit_spread _ _ _ hq]
  have hb2 : b * 2 ^ ws.length = 2 ^ ws.length * b := Nat.mul_comm _ _
  by_cases hqw : q = w
  · subst hqw
    simp only [if_true, List.mem_cons, true_or, List.length_cons,
      List.idxOf_cons_self, Nat.sub_zero, Nat.add_sub_cancel, Nat.sub_self]
    rw [hb2, Nat.testBit_two_pow_mul_add _ hj]
    simp
  · have hwq : ¬ (w = q) := fun h => hqw h.symm
    simp only [hqw, if_false, List.mem_cons, false_or, List.not_mem_nil]
    by_cases hqs : q ∈ ws
    · simp only [hqs, if_true, List.length_cons]
      have hlt := List.idxOf_lt_length_iff.2 hqs
      have hi : (w :: ws).idxOf q = ws.idxOf q + 1 := List.idxOf_cons_ne _ hwq
      rw [hi, hb2, Nat.testBit_two_pow_mul_add _ hj,
        show ws.length + 1 - 1 - (ws.idxOf q + 1) = ws.length - 1 - ws.idxOf q by omega, if_pos (by omega)]
    · simp [hqs]

theorem sqrt_two_pow_succ (N : Nat) : ((1 / √(2 ^ (N + 1)) : ℝ) : ℂ) = ((1 / √(2 ^ N) : ℝ) : ℂ) * ((1 / √2 : ℝ) : ℂ) := by
  rw [← Complex.ofReal_mul]
  congr 1
  rw [pow_succ, Real.sqrt_mul (by positivity)]
  field_simp

/-- The operations of the recursion without the swaps: the index comes out with the qubits in reverse order. -/
theorem qftL_apply {n : Nat} (ws : List Nat) (hnd : ws.Nodup) (hn : ∀ w ∈ ws, w < n) (v : Nat → ℂ) {r : Nat}
    (hr : r < 2 ^ n) : actAll n (qftL ws) v r = ((1 / √(2 ^ ws.length) : ℝ) : ℂ) *
      ∑ j ∈ range (2 ^ ws.length), ph (j * subIndex n ws.reverse r / 2 ^ ws.length) * v (spread n ws r j) := by
  induction ws generalizing v with
  | nil =>
    have : spread n [] r 0 = r := by
      apply qbit_ext (spread_lt _ _ _ _) hr
      intro q hq
      rw [qbit_spread _ _ _ hq]; simp
    simp [qftL, actAll, ph_zero, this]
  | cons w ws ih =>
    obtain ⟨hww, hnd'⟩ := List.nodup_cons.1 hnd
    have hwn := hn w (by simp)
    have hn' : ∀ w ∈ ws, w < n := fun x hx => hn x (by simp [hx])
    set N := ws.length with hN
    unfold qftL
    rw [actAll_cons, actAll_append, ih hnd' hn']
    rw [List.length_cons, ← hN, sqrt_two_pow_succ, pow_succ, mul_two, Finset.sum_range_add, mul_assoc]
    congr 1
    rw [← Finset.sum_add_distrib, Finset.mul_sum]
    apply Finset.sum_congr rfl
    intro j hj
    have hj' : j < 2 ^ N := Finset.mem_range.1 hj
    have hq : qbit n (spread n ws r j) w = qbit n r w := by rw [qbit_spread _ _ _ hwn, if_neg hww]
    rw [row_apply hwn ws 2 _ (spread_lt _ _ _ _), h_apply hwn, hq, subIndex_spread r hnd' hn' hj', ← hN]
    have s0 := spread_cons (n := n) hnd r 0 j hj' (by norm_num)
    have s1 := spread_cons (n := n) hnd r 1 j hj' (by norm_num)
    rw [s0, s1, zero_mul, zero_add, one_mul, ← hN]
    rw [List.reverse_cons, subIndex_append, subIndex_single]
    set R := subIndex n ws.reverse r
    set b := (qbit n r w).toNat
    have hp2 : (2 : ℂ) ^ N ≠ 0 := pow_ne_zero _ two_ne_zero
    have e1 : ph ((j : ℂ) * ((R * 2 ^ [w].length + b : Nat) : ℂ) / 2 ^ (N + 1))
        = ph (j * R / 2 ^ N) * ph (b * (2 * j) / (2 ^ 2 * 2 ^ N)) := by
      rw [← ph_add]
      congr 1
      push_cast
      simp only [List.length_singleton, pow_one]
      field_simp
      ring
    have e2 : ph (((2 ^ N + j : Nat) : ℂ) * ((R * 2 ^ [w].length + b : Nat) : ℂ) / 2 ^ (N + 1))
        = ph (j * R / 2 ^ N) * ph (b * (2 * j) / (2 ^ 2 * 2 ^ N)) * ph (b / 2) := by
      have : ph (((2 ^ N + j : Nat) : ℂ) * ((R * 2 ^ [w].length + b : Nat) : ℂ) / 2 ^ (N + 1))
          = ph (j * R / 2 ^ N) * ph (b * (2 * j) / (2 ^ 2 * 2 ^ N)) * ph (b / 2) * ph R := by
        rw [← ph_add, ← ph_add, ← ph_add]
        congr 1
        push_cast
        simp only [List.length_singleton, pow_one]
        field_simp
        ring
      rw [this, ph_nat, mul_one]
    rw [e1, e2]
    ring

theorem dftAt_eq {n : Nat} {ws : List Nat} (hnd : ws.Nodup) (hn : ∀ w ∈ ws, w < n) (k : Nat) (v : Nat → ℂ) (r : Nat) :
    dftAt n ws k v r = ((1 / √(2 ^ ws.length) : ℝ) : ℂ) *
      ∑ j ∈ range (2 ^ ws.length), ph (j * k / 2 ^ ws.length) * v (spread n ws r j) := by
  unfold dftAt
  rw [sum_agreeOff hnd hn]
  congr 1
  apply Finset.sum_congr rfl
  intro j hj
  rw [subIndex_spread r hnd hn (Finset.mem_range.1 hj)]
  unfold ph
  congr 2
  ring

/-- Without `rev`. -/
theorem qfft_norev {n : Nat} {ws : List Nat} (hnd : ws.Nodup) (hn : ∀ w ∈ ws, w < n) (v : Nat → ℂ) {r : Nat}
    (hr : r < 2 ^ n) : actAll n (qfftActs false ws) v r = dftAt n ws (subIndex n ws.reverse r) v r := by
  unfold qfftActs
  rw [recActs_eq _ _ _ (by omega), List.drop_zero]
  simp only [Bool.false_eq_true, if_false, List.append_nil]
  rw [qftL_apply ws hnd hn v hr, dftAt_eq hnd hn]

/-! ## The swaps -/

/-- `r` with qubits `a` and `b` exchanged. -/
def exch (n a b r : Nat) : Nat := ofQbits n fun q => if q = a then qbit n r b else if q = b then qbit n r a else qbit n r q

theorem qbit_exch {n q : Nat} (hq : q < n) (a b r : Nat) :
    qbit n (exch n a b r) q = if q = a then qbit n r b else if q = b then qbit n r a else qbit n r q :=
  qbit_ofQbits _ hq

theorem exch_lt (n a b r : Nat) : exch n a b r < 2 ^ n := ofQbits_lt _ _

theorem swap_apply {n a b : Nat} (ha : a < n) (hb : b < n) (hab : a ≠ b) (v : Nat → ℂ) (r : Nat) :
    Act.apply n ⟨[], .swap 1, [[a], [b]]⟩ v r = v (exch n a b r) := by
  have e1 : Act.apply n ⟨[], .swap 1, [[a], [b]]⟩ v r
      = ∑ c ∈ (range (2 ^ n)).filter (fun c => Swapped n [a] [b] r c), v c := by simp [Act.apply, gateApply]
  rw [e1]
  have : (range (2 ^ n)).filter (fun c => Swapped n [a] [b] r c) = {exch n a b r} := by
    ext c
    simp only [Finset.mem_filter, Finset.mem_range, Finset.mem_singleton]
    have hinj : ∀ x y : Bool, x.toNat = y.toNat → x = y := by decide
    constructor
    · rintro ⟨hc, h1, h2, h3⟩
      rw [subIndex_single, subIndex_single] at h2 h3
      apply qbit_ext hc (exch_lt _ _ _ _)
      intro q hq
      rw [qbit_exch hq]
      by_cases hqa : q = a
      · subst hqa; rw [if_pos rfl]; exact hinj _ _ h2
      · rw [if_neg hqa]
        by_cases hqb : q = b
        · subst hqb; rw [if_pos rfl]; exact hinj _ _ h3
        · rw [if_neg hqb]; exact (h1 q hq (by simp [hqa, hqb])).symm
    · rintro rfl
      refine ⟨exch_lt _ _ _ _, ?_, ?_, ?_⟩
      · intro q hq hS
        simp only [List.singleton_append, List.mem_cons, List.not_mem_nil, or_false, not_or] at hS
        rw [qbit_exch hq, if_neg hS.1, if_neg hS.2]
      · rw [subIndex_single, subIndex_single, qbit_exch ha, if_pos rfl]
      · rw [subIndex_single, subIndex_single, qbit_exch hb, if_neg (Ne.symm hab), if_pos rfl]
  rw [this, Finset.sum_singleton]

/-- The basis state read by the swaps at `r`. -/
def swapped (n : Nat) (ws : List Nat) (is : List Nat) (r : Nat) : Nat :=
  is.foldr (fun i r => exch n (ws.getD i 0) (ws.getD (ws.length - 1 - i) 0) r) r

theorem getD_inj {ws : List Nat} (hnd : ws.Nodup) {i j : Nat} (hi : i < ws.length) (hj : j < ws.length) :
    ws.getD i 0 = ws.getD j 0 ↔ i = j := by
  rw [List.getD_eq_getElem _ _ hi, List.getD_eq_getElem _ _ hj]
  exact hnd.getElem_inj_iff

theorem getD_lt {n : Nat} {ws : List Nat} (hn : ∀ w ∈ ws, w < n) {i : Nat} (hi : i < ws.length) : ws.getD i 0 < n := by
  rw [List.getD_eq_getElem _ _ hi]; exact hn _ (List.getElem_mem _)

theorem swaps_apply {n : Nat} {ws : List Nat} (hnd : ws.Nodup) (hn : ∀ w ∈ ws, w < n) (is : List Nat)
    (his : ∀ i ∈ is, i < ws.length / 2) (v : Nat → ℂ) (r : Nat) :
    actAll n (swapActs ws is) v r = v (swapped n ws is r) := by
  induction is generalizing v with
  | nil => rfl
  | cons i is ih =>
    have hi := his i (by simp)
    have : swapActs ws (i :: is) = ⟨[], .swap 1, [[ws.getD i 0], [ws.getD (ws.length - 1 - i) 0]]⟩ :: swapActs ws is := rfl
    rw [this, actAll_cons, ih fun k hk => his k (by simp [hk]), swap_apply (getD_lt hn (by omega)) (getD_lt hn (by omega))]
    · rfl
    · rw [ne_eq, getD_inj hnd (by omega) (by omega)]; omega

theorem swapped_lt {n : Nat} {ws is : List Nat} {r : Nat} (hr : r < 2 ^ n) : swapped n ws is r < 2 ^ n := by
  cases is with
  | nil => exact hr
  | cons => exact exch_lt _ _ _ _

theorem qbit_swapped {n : Nat} {ws : List Nat} (hnd : ws.Nodup) (hn : ∀ w ∈ ws, w < n) (is : List Nat)
    (his : ∀ i ∈ is, i < ws.length / 2) (hi2 : is.Nodup) (r : Nat) :
    (∀ q < n, q ∉ ws → qbit n (swapped n ws is r) q = qbit n r q) ∧
    ∀ j < ws.length, qbit n (swapped n ws is r) (ws.getD j 0) =
      if j ∈ is ∨ ws.length - 1 - j ∈ is then qbit n r (ws.getD (ws.length - 1 - j) 0) else qbit n r (ws.getD j 0) := by
  induction is with
  | nil => exact ⟨fun _ _ _ => rfl, fun _ _ => by simp [swapped]⟩
  | cons i is ih =>
    have hi := his i (by simp)
    obtain ⟨hii, hi2'⟩ := List.nodup_cons.1 hi2
    have his' : ∀ k ∈ is, k < ws.length / 2 := fun k hk => his k (by simp [hk])
    obtain ⟨h1, h2⟩ := ih his' hi2'
    have e : swapped n ws (i :: is) r = exch n (ws.getD i 0) (ws.getD (ws.length - 1 - i) 0) (swapped n ws is r) := rfl
    rw [e]
    have hmem : ∀ k < ws.length, ws.getD k 0 ∈ ws := fun k hk => by
      rw [List.getD_eq_getElem _ _ hk]; exact List.getElem_mem _
    constructor
    · intro q hq hqw
      have n1 : q ≠ ws.getD i 0 := fun h => hqw (by rw [h]; exact hmem i (by omega))
      have n2 : q ≠ ws.getD (ws.length - 1 - i) 0 := fun h => hqw (by rw [h]; exact hmem _ (by omega))
      rw [qbit_exch hq, if_neg n1, if_neg n2, h1 q hq hqw]
    · intro j hj
      rw [qbit_exch (getD_lt hn hj)]
      simp only [getD_inj hnd hj (show i < ws.length by omega), getD_inj hnd hj (show ws.length - 1 - i < ws.length by omega)]
      have hni : ws.length - 1 - i ∉ is := fun h => by have := his' _ h; omega
      by_cases hji : j = i
      · subst hji
        have c1 : j ∈ j :: is ∨ ws.length - 1 - j ∈ j :: is := Or.inl (by simp)
        have c2 : ¬ (ws.length - 1 - j ∈ is ∨ j ∈ is) := by simp [hni, hii]
        have h3 := h2 (ws.length - 1 - j) (by omega)
        rw [show ws.length - 1 - (ws.length - 1 - j) = j by omega, if_neg c2] at h3
        rw [if_pos rfl, h3, if_pos c1]
      · rw [if_neg hji]
        by_cases hji2 : j = ws.length - 1 - i
        · subst hji2
          have c1 : ws.length - 1 - i ∈ i :: is ∨ i ∈ i :: is := Or.inr (by simp)
          have c2 : ¬ (i ∈ is ∨ ws.length - 1 - i ∈ is) := by simp [hni, hii]
          rw [if_pos rfl, h2 i (by omega), if_neg c2, show ws.length - 1 - (ws.length - 1 - i) = i by omega, if_pos c1]
        · rw [if_neg hji2, h2 j hj]
          apply if_congr ?_ rfl rfl
          have : ws.length - 1 - j ≠ i := by omega
          simp [hji, this]

theorem swapped_all {n : Nat} {ws : List Nat} (hnd : ws.Nodup) (hn : ∀ w ∈ ws, w < n) (r : Nat) :
    let r' := swapped n ws (List.range (ws.length / 2)) r
    AgreeOff n ws r r' ∧ subIndex n ws.reverse r' = subIndex n ws r := by
  obtain ⟨h1, h2⟩ := qbit_swapped hnd hn (List.range (ws.length / 2)) (by simp) List.nodup_range r
  refine ⟨fun q hq hqw => (h1 q hq hqw).symm, ?_⟩
  unfold subIndex
  congr 1
  apply List.ext_getElem
  · simp
  · intro k hk1 hk2
    simp only [List.length_map, List.length_reverse] at hk1
    simp only [List.getElem_map, List.getElem_reverse]
    have := h2 (ws.length - 1 - k) (by omega)
    rw [List.getD_eq_getElem _ _ (by omega)] at this
    rw [this]
    rw [show ws.length - 1 - (ws.length - 1 - k) = k by omega, List.getD_eq_getElem _ _ hk1]
    split
    · rfl
    · rename_i hh
      simp only [List.mem_range, not_or, not_lt] at hh
      have : ws.length - 1 - k = k := by omega
      simp only [this]

/-- With `rev`. -/
theorem qfft_rev {n : Nat} {ws : List Nat} (hnd : ws.Nodup) (hn : ∀ w ∈ ws, w < n) (v : Nat → ℂ) {r : Nat}
    (hr : r < 2 ^ n) : actAll n (qfftActs true ws) v r = dftAt n ws (subIndex n ws r) v r := by
  have e : qfftActs true ws = qfftActs false ws ++ swapActs ws (List.range (ws.length / 2)) := by simp [qfftActs]
  rw [e, actAll_append, swaps_apply hnd hn _ (by simp), qfft_norev hnd hn v (swapped_lt hr)]
  obtain ⟨h1, h2⟩ := swapped_all hnd hn r
  rw [h2, dftAt_eq hnd hn, dftAt_eq hnd hn]
  congr 1
  apply Finset.sum_congr rfl
  intro j _
  rw [spread_congr h1]

end QIP
