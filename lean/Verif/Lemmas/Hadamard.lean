import Verif.Lemmas.Block
import Verif.Lemmas.Gates

/-! # Hadamard gates on a whole register -/

namespace QIP

open Spec Finset

/-- `H` on all of `n` qubits. -/
noncomputable def hN (n : Nat) (v : Nat → ℂ) : Nat → ℂ := gateApply n .h [List.range n] v

/-- The Hadamard matrix. -/
noncomputable def hMat (i j : Nat) : ℂ := gateU .h (decide (i = 1)) (decide (j = 1))

/-- Entry of the operator `hN`. -/
noncomputable def hEntry (n r c : Nat) : ℂ := kronEntry n ((List.range n).map fun q => ([q], hMat)) r c

theorem hN_eq {n : Nat} (v : Nat → ℂ) {r : Nat} (hr : r < 2 ^ n) :
    hN n v r = ∑ c ∈ range (2 ^ n), hEntry n r c * v c := by
  have := kronApply_perQubit (n := n) hMat (gateU .h) (by intro i j; cases i <;> cases j <;> simp [hMat]) v
    (List.range n) List.nodup_range (by simp) hr
  unfold hN gateApply
  simp only [List.flatten_cons, List.flatten_nil, List.append_nil]
  rw [← this]
  rfl

theorem hEntry_eq (n r c : Nat) : hEntry n r c = ((List.range n).map fun q => gateU .h (qbit n r q) (qbit n c q)).prod := by
  unfold hEntry kronEntry
  rw [if_pos]
  · rw [List.map_map]
    congr 1
    apply List.map_congr_left
    intro q _
    simp only [Function.comp, subIndex_single, hMat]
    cases qbit n r q <;> cases qbit n c q <;> simp
  · intro q hq hn
    exact absurd (by simp [List.flatMap_map]; exact hq) hn

theorem hEntry_zero (n c : Nat) : hEntry n 0 c = (1 / ((√2 : ℝ) : ℂ)) ^ n := by
  rw [hEntry_eq]
  have : ((List.range n).map fun q => gateU .h (qbit n 0 q) (qbit n c q)) = List.replicate n (1 / ((√2 : ℝ) : ℂ)) := by
    rw [List.eq_replicate_iff]
    refine ⟨by simp, ?_⟩
    intro b hb
    obtain ⟨q, _, rfl⟩ := List.mem_map.1 hb
    simp [gateU, qbit]
  rw [this, List.prod_replicate]

theorem hEntry_symm (n r c : Nat) : hEntry n r c = hEntry n c r := by
  rw [hEntry_eq, hEntry_eq]
  congr 1
  apply List.map_congr_left
  intro q _
  cases qbit n r q <;> cases qbit n c q <;> simp [gateU]

theorem hN_congr {n : Nat} {v w : Nat → ℂ} (h : ∀ c < 2 ^ n, v c = w c) {r : Nat} (hr : r < 2 ^ n) :
    hN n v r = hN n w r := by
  rw [hN_eq v hr, hN_eq w hr]
  exact Finset.sum_congr rfl fun c hc => by rw [h c (mem_range.1 hc)]

theorem hpow (n : Nat) : (1 / ((√2 : ℝ) : ℂ)) ^ n * (1 / ((√2 : ℝ) : ℂ)) ^ n = 1 / 2 ^ n := by
  rw [← mul_pow, div_mul_div_comm, sqrt2_sq, one_mul, one_div_pow]

/-- `H` twice is the identity. -/
theorem hN_hN {n : Nat} (hn : 0 < n) (v : Nat → ℂ) {r : Nat} (hr : r < 2 ^ n) : hN n (hN n v) r = v r := by
  have hgs : GroupsOK n [List.range n] := ⟨by simpa using List.nodup_range, by simp⟩
  obtain ⟨mats, h⟩ := gm_exists (n := n) .h [List.range n] (by simp [Fits]; omega) hgs
  have hE : ∀ v : Nat → ℂ, ∀ r < 2 ^ n, hN n v r = kronApply n (opsOf mats) v r := fun v r hr => (h.sem v r hr).symm
  have hK : ∀ r < 2 ^ n, ∀ c < 2 ^ n, kronEntry n (opsOf mats) r c = hEntry n r c := by
    intro r hr c hc
    have := hE (fun k => if k = c then 1 else 0) r hr
    rw [hN_eq _ hr] at this
    simp only [kronApply, mul_ite, mul_one, mul_zero] at this
    rw [Finset.sum_ite_eq' (range (2 ^ n)), Finset.sum_ite_eq' (range (2 ^ n)), if_pos (mem_range.2 hc), if_pos (mem_range.2 hc)] at this
    exact this.symm
  have hreal : ∀ r c, (starRingEnd ℂ) (hEntry n c r) = hEntry n r c := by
    intro r c
    rw [hEntry_symm, hEntry_eq, map_list_prod, List.map_map]
    congr 1
    apply List.map_congr_left
    intro q _
    simp only [Function.comp_def]
    cases qbit n r q <;> cases qbit n c q <;> simp [gateU]
  have huni := h.uni
  rw [opMat_adjOps] at huni
  have hrow : ∀ c < 2 ^ n, ∑ k ∈ range (2 ^ n), hEntry n r k * hEntry n k c = if r = c then 1 else 0 := by
    intro c hc
    have := congrFun (congrFun huni ⟨r, hr⟩) ⟨c, hc⟩
    rw [Matrix.mul_apply, Matrix.one_apply] at this
    simp only [Matrix.conjTranspose_apply, opMat, Fin.mk.injEq] at this
    rw [← this, Finset.sum_range]
    refine Finset.sum_congr rfl fun k _ => ?_
    rw [hK k k.2 r hr, hK k k.2 c hc]
    congr 1
    exact (hreal r k).symm
  rw [hN_eq _ hr]
  have e : ∀ k ∈ range (2 ^ n), hEntry n r k * hN n v k = ∑ c ∈ range (2 ^ n), hEntry n r k * hEntry n k c * v c := by
    intro k hk
    rw [hN_eq v (mem_range.1 hk), Finset.mul_sum]
    exact Finset.sum_congr rfl fun c _ => by ring
  rw [Finset.sum_congr rfl e, Finset.sum_comm]
  simp only [← Finset.sum_mul]
  rw [Finset.sum_congr rfl fun c hc => by rw [hrow c (mem_range.1 hc)]]
  simp only [ite_mul, one_mul, zero_mul]
  rw [Finset.sum_ite_eq, if_pos (mem_range.2 hr)]

/-- The diffusion operator: `H`, a sign at 0, `H`. -/
theorem diffusion {n : Nat} (hn : 0 < n) (g : Nat → ℂ) {r : Nat} (hr : r < 2 ^ n) :
    hN n (fun i => if i = 0 then -hN n g i else hN n g i) r = g r - 2 / 2 ^ n * ∑ j ∈ range (2 ^ n), g j := by
  have hp : 0 < 2 ^ n := by positivity
  rw [hN_eq _ hr]
  have e : ∀ c ∈ range (2 ^ n), hEntry n r c * (if c = 0 then -hN n g c else hN n g c)
      = hEntry n r c * hN n g c - if c = 0 then 2 * hEntry n r 0 * hN n g 0 else 0 := by
    intro c _
    split
    · next h => subst h; ring
    · ring
  rw [Finset.sum_congr rfl e, Finset.sum_sub_distrib, ← hN_eq _ hr, hN_hN hn g hr, Finset.sum_ite_eq' (range (2 ^ n)),
    if_pos (mem_range.2 hp), hEntry_symm, hEntry_zero, hN_eq g hp]
  simp only [hEntry_zero]
  rw [← Finset.mul_sum, show ∀ a S : ℂ, 2 * a * (a * S) = 2 * (a * a) * S by intros; ring, hpow]
  ring

/-! ## One more qubit at the end -/

/-- A product state of `n` qubits and one more. -/
def psi (g : Nat → ℂ) (μ : Bool → ℂ) (r : Nat) : ℂ := g (r / 2) * μ (decide (r % 2 = 1))

theorem qbit_half {n q : Nat} (hq : q < n) (r : Nat) : qbit (n + 1) r q = qbit n (r / 2) q := by
  unfold qbit
  rw [← Nat.testBit_succ]
  congr 1
  omega

theorem qbit_last (n r : Nat) : qbit (n + 1) r n = decide (r % 2 = 1) := by
  unfold qbit
  rw [show n + 1 - 1 - n = 0 by omega, Nat.testBit_zero]

theorem spread_half {n q : Nat} (hq : q < n) (r b : Nat) : spread (n + 1) [q] r b / 2 = spread n [q] (r / 2) b := by
  apply qbit_ext (n := n)
  · have := spread_lt (n + 1) [q] r b; rw [pow_succ] at this; omega
  · exact spread_lt _ _ _ _
  · intro k hk
    rw [← qbit_half hk, qbit_spread _ _ _ (by omega), qbit_spread _ _ _ hk, qbit_half hk]

theorem spread_last {n q : Nat} (hq : q < n) (r b : Nat) :
    decide (spread (n + 1) [q] r b % 2 = 1) = decide (r % 2 = 1) := by
  rw [← qbit_last n, ← qbit_last n, qbit_spread _ _ _ (by omega), if_neg (by simp; omega)]

theorem apply1_psi {n q : Nat} (hq : q < n) (U : Bool → Bool → ℂ) (g : Nat → ℂ) (μ : Bool → ℂ) (r : Nat) :
    apply1 (n + 1) q U (psi g μ) r = psi (apply1 n q U g) μ r := by
  rw [apply1_eq (by omega)]
  unfold psi
  rw [apply1_eq hq, spread_half hq, spread_half hq, spread_last hq, spread_last hq, qbit_half hq]
  ring

/-- `H` on the first qubits of a product state. -/
theorem h_psi {n : Nat} (g : Nat → ℂ) (μ : Bool → ℂ) :
    gateApply (n + 1) .h [List.range n] (psi g μ) = psi (hN n g) μ := by
  unfold hN gateApply
  simp only [List.flatten_cons, List.flatten_nil, List.append_nil]
  have : ∀ L : List Nat, (∀ q ∈ L, q < n) → L.foldr (fun q w => apply1 (n + 1) q (gateU .h) w) (psi g μ)
      = psi (L.foldr (fun q w => apply1 n q (gateU .h) w) g) μ := by
    intro L
    induction L with
    | nil => intro _; rfl
    | cons q L ih =>
      intro h
      rw [List.foldr_cons, List.foldr_cons, ih fun q hq => h q (by simp [hq])]
      funext r
      exact apply1_psi (h q (by simp)) _ _ _ _
  exact this _ (by simp)

end QIP
