import Verif.Lemmas.SwapApply
import Verif.Props.Run

/-!
# The programs of the README and of `examples/`: C79
-/

namespace QIP.Props

open QIP Spec Heap Finset

/-- There are environments that behave. -/
theorem env_exists (h : Heap) (args : List Nat) : ∃ e, EnvOK h args e :=
  ⟨⟨fun _ => 0, List.reverse, fun x => ⟨List.range (2 ^ width h args),
    faCounters (width h args) ((groups h args x).getD 0 []) ((groups h args x).getD 1 []), fun _ => 0, 0, 0⟩,
    List.replicate (2 ^ width h args) 0⟩, fun l => l.reverse_perm, fun _ => .refl _, fun _ => .refl _, by simp⟩

/-! ## C79 -/

/-- A user program starts with the given objects and no open context. -/
def started (h : Heap) : WState := ⟨h, [], 0, fun _ => 0⟩

theorem swap_start {k : Nat} (hk : 0 < k) (s2 s3 : List ℂ) :
    startAmp (swapHeap k) [9] [([0], [1, 0]), ([1], s2), ([2], s3)]
      = triple (1 + (k + k)) 0 ((List.range k).map (1 + ·)) ((List.range k).map (1 + k + ·)) fun z x y =>
        (if z then 0 else 1) * s2.getD x 0 * s3.getD y 0 := by
  obtain ⟨w0, w1, w2, -⟩ := swap_wires hk
  funext r
  unfold startAmp triple
  simp only [swap_width hk, swap_leaves hk]
  have hs : subIndex (1 + (k + k)) [0] r = (qbit (1 + (k + k)) r 0).toNat := subIndex_single _ _ _
  simp only [List.map_cons, List.map_nil, List.flatten_cons, List.flatten_nil, List.append_nil, w0, w1, w2, hs]
  cases qbit (1 + (k + k)) r 0 <;> simp

theorem swap_all {k : Nat} (hk : 0 < k) (s2 s3 : List ℂ) :
    applyAll (1 + (k + k)) (swapHeap k) [9] [0, 1, 2, 3, 5, 6, 9]
        (startAmp (swapHeap k) [9] [([0], [1, 0]), ([1], s2), ([2], s3)])
      = triple (1 + (k + k)) 0 ((List.range k).map (1 + ·)) ((List.range k).map (1 + k + ·)) fun z x y =>
        (s2.getD x 0 * s3.getD y 0 + (if z then -1 else 1) * (s2.getD y 0 * s3.getD x 0)) / 2 := by
  obtain ⟨k0, k1, k2, k3, k5, k6, k9⟩ := swap_kind k
  obtain ⟨w0, w1, w2, g3, g5, g9⟩ := swap_wires hk
  have hnd := swap_groups_nodup k
  have hnd' : (0 :: ((List.range k).map (1 + ·) ++ (List.range k).map (1 + k + ·))).Nodup := by
    simpa using hnd
  have hn : ∀ x ∈ 0 :: ((List.range k).map (1 + ·) ++ (List.range k).map (1 + k + ·)), x < 1 + (k + k) := by
    intro x hx
    simp only [List.mem_cons, List.mem_append, List.mem_map, List.mem_range] at hx
    rcases hx with rfl | ⟨i, hi, rfl⟩ | ⟨i, hi, rfl⟩ <;> omega
  rw [swap_start hk]
  unfold applyAll
  simp only [List.foldl_cons, List.foldl_nil, nodeApply, k0, k1, k2, k3, k5, k6, k9, g3, g5, g9]
  rw [triple_h hnd' hn, triple_cswap hnd' hn (by simp), triple_h hnd' hn]
  congr 1
  funext z x y
  have h2 : ((1 / √2 : ℝ) : ℂ) * ((1 / √2 : ℝ) : ℂ) = 1 / 2 := by
    rw [← Complex.ofReal_mul, div_mul_div_comm, Real.mul_self_sqrt (by norm_num)]
    norm_num
  have h3 : ∀ t : ℂ, ((1 / √2 : ℝ) : ℂ) * (((1 / √2 : ℝ) : ℂ) * t) = t / 2 := by
    intro t
    rw [← mul_assoc, h2]; ring
  cases z <;> simp only [if_true, if_false, Bool.false_eq_true] <;> rw [show ∀ A B C : ℂ,
    ((1 / √2 : ℝ) : ℂ) * (((1 / √2 : ℝ) : ℂ) * A + C * (((1 / √2 : ℝ) : ℂ) * B))
      = ((1 / √2 : ℝ) : ℂ) * (((1 / √2 : ℝ) : ℂ) * (A + C * B)) by intros; ring, h3] <;> ring

/-- **C79**: the swap test of the README makes its objects without error, and running it on states `|0⟩`, `s2`, `s3`
gives the vector with entry `(s2[x] s3[y] ± s2[y] s3[x]) / 2` at `|a, x, y⟩`, with `+` for `a = 0` and `-` for
`a = 1`, under every order of sets and threads. -/
theorem C79_swap_test {k : Nat} (hk : 0 < k) {s2 s3 : List ℂ} (h2 : s2.length = 2 ^ k) (h3 : s3.length = 2 ^ k) :
    ∃ m1 S, swapTest (started (registers [1, k, k])) = (.ok m1, S) ∧ width S.heap [m1] = 2 * k + 1 ∧
      ∀ e, EnvOK S.heap [m1] e →
        ∃ out cl ms', run S.heap (fun _ => none) [m1] [([0], .vec [1, 0]), ([1], .vec s2), ([2], .vec s3)] false none
            e.pick e.shuffle e.orc e.arena = .ok (out, cl, ms') ∧ out.length = 2 ^ (2 * k + 1) ∧
          ∀ a < 2, ∀ x < 2 ^ k, ∀ y < 2 ^ k, out[a * 2 ^ (2 * k) + x * 2 ^ k + y]?
            = some ((s2.getD x 0 * s3.getD y 0 + (-1) ^ a * (s2.getD y 0 * s3.getD x 0)) / 2) := by
  have hw : 1 + (k + k) = 2 * k + 1 := by omega
  refine ⟨9, _, swapTest_ok hk, (swap_width hk).trans hw, fun e he => ?_⟩
  obtain ⟨n0, n1, n2, -⟩ := swap_n k
  obtain ⟨out, cl, ms', hr, hl, ho⟩ := C35_run_computes_partial (swap_circuit hk) (fun x hx => (swap_nodes hk x hx).1)
    (fun x hx => (swap_nodes hk x hx).2) (feed := [([0], [1, 0]), ([1], s2), ([2], s3)])
    ⟨by simp, by simp [swap_leaves hk], by simp [n0, n1, n2, h2, h3]⟩ (by simp [swap_leaves hk]) he
  rw [swap_width hk, swap_needed hk, swap_all hk] at ho
  rw [swap_width hk] at hl
  refine ⟨out, cl, ms', hr, by rw [hl, hw], ?_⟩
  intro a ha x hx y hy
  rw [ho, triple_at ha hx hy]
  · rcases (by omega : a = 0 ∨ a = 1) with rfl | rfl <;> simp
  · have hp : 2 ^ (2 * k) = 2 ^ k * 2 ^ k := by rw [two_mul, pow_add]
    rw [hw, pow_succ, hp]
    have : x * 2 ^ k + y < 2 ^ k * 2 ^ k := by nlinarith
    rcases (by omega : a = 0 ∨ a = 1) with rfl | rfl <;> omega

theorem sum_blocks {M : Type} [AddCommMonoid M] (a b : Nat) (f : Nat → M) :
    ∑ r ∈ range (a * b), f r = ∑ x ∈ range a, ∑ y ∈ range b, f (x * b + y) := by
  induction a with
  | zero => simp
  | succ a ih => rw [Finset.sum_range_succ, ← ih, Nat.succ_mul, Finset.sum_range_add]

theorem norm2_sum {k : Nat} {s : List ℂ} (h : s.length = k) : norm2 s = ∑ x ∈ range k, Complex.normSq (s.getD x 0) := by
  subst h
  unfold norm2
  induction s with
  | nil => simp
  | cons a s ih =>
    rw [List.map_cons, List.sum_cons, ih, List.length_cons, Finset.sum_range_succ']
    simp [add_comm]

/-- The overlap identity behind the swap test. -/
theorem overlap_sum (N : Nat) (a b : Nat → ℂ) :
    ∑ x ∈ range N, ∑ y ∈ range N, Complex.normSq ((a x * b y + a y * b x) / 2)
      = (∑ x ∈ range N, Complex.normSq (a x)) * (∑ x ∈ range N, Complex.normSq (b x)) / 2
        + Complex.normSq (∑ x ∈ range N, (starRingEnd ℂ) (a x) * b x) / 2 := by
  apply Complex.ofReal_injective
  simp only [Complex.ofReal_add, Complex.ofReal_sum, Complex.ofReal_div, Complex.ofReal_mul, Complex.ofReal_ofNat,
    Complex.normSq_eq_conj_mul_self]
  simp only [map_sum, map_mul, map_add, map_div₀, Complex.conj_conj, Complex.conj_ofNat]
  have e : ∀ x y : Nat, ((starRingEnd ℂ) (a x) * (starRingEnd ℂ) (b y) + (starRingEnd ℂ) (a y) * (starRingEnd ℂ) (b x)) / 2
      * ((a x * b y + a y * b x) / 2)
      = ((starRingEnd ℂ) (a x) * a x) * ((starRingEnd ℂ) (b y) * b y) / 4
        + ((starRingEnd ℂ) (b x) * b x) * ((starRingEnd ℂ) (a y) * a y) / 4
        + (((starRingEnd ℂ) (a x) * b x) * (a y * (starRingEnd ℂ) (b y))) / 4
        + ((a x * (starRingEnd ℂ) (b x)) * ((starRingEnd ℂ) (a y) * b y)) / 4 := by intros; ring
  simp only [e, Finset.sum_add_distrib, ← Finset.sum_div, ← Finset.mul_sum, ← Finset.sum_mul]
  ring

/-- **C79**, the comparison: the control qubit of the swap test is 0 with probability
`½ ‖s2‖² ‖s3‖² + ½ |⟨s2, s3⟩|²`. -/
theorem C79_overlap {k : Nat} (hk : 0 < k) {s2 s3 : List ℂ} (h2 : s2.length = 2 ^ k) (h3 : s3.length = 2 ^ k) :
    ∃ m1 S, swapTest (started (registers [1, k, k])) = (.ok m1, S) ∧
      ∀ e, EnvOK S.heap [m1] e →
        ∃ out cl ms', run S.heap (fun _ => none) [m1] [([0], .vec [1, 0]), ([1], .vec s2), ([2], .vec s3)] false none
            e.pick e.shuffle e.orc e.arena = .ok (out, cl, ms') ∧
          outcomeProb (2 * k + 1) [0] (fun c => out.getD c 0) 0 = norm2 s2 * norm2 s3 / 2
            + Complex.normSq (∑ x ∈ range (2 ^ k), (starRingEnd ℂ) (s2.getD x 0) * s3.getD x 0) / 2 := by
  obtain ⟨m1, S, hS, -, hrun⟩ := C79_swap_test hk h2 h3
  refine ⟨m1, S, hS, fun e he => ?_⟩
  obtain ⟨out, cl, ms', hr, -, ho⟩ := hrun e he
  refine ⟨out, cl, ms', hr, ?_⟩
  have hi : inOrder (2 * k + 1) [0] = [0] := by
    unfold inOrder
    rw [List.range_succ_eq_map, List.filter_cons, if_pos (by simp)]
    simp
  have hf : (range (2 ^ (2 * k + 1))).filter (fun c => subIndex (2 * k + 1) (inOrder (2 * k + 1) [0]) c = 0)
      = range (2 ^ k * 2 ^ k) := by
    ext c
    rw [Finset.mem_filter, Finset.mem_range, Finset.mem_range, hi, subIndex_single, ← pow_add, ← two_mul]
    constructor
    · rintro ⟨hc, h0⟩
      rw [qbit_first c hc] at h0
      by_contra hge
      rw [decide_eq_true (by omega)] at h0
      simp at h0
    · intro hc
      have hc' : c < 2 ^ (2 * k + 1) := lt_of_lt_of_le hc (Nat.pow_le_pow_right (by norm_num) (by omega))
      refine ⟨hc', ?_⟩
      rw [qbit_first c hc', decide_eq_false (by omega)]
      rfl
  unfold outcomeProb
  rw [hf, sum_blocks, norm2_sum h2, norm2_sum h3, ← overlap_sum]
  refine Finset.sum_congr rfl fun x hx => Finset.sum_congr rfl fun y hy => ?_
  rw [Finset.mem_range] at hx hy
  have := ho 0 (by norm_num) x hx y hy
  rw [Nat.zero_mul, Nat.zero_add, pow_zero, one_mul] at this
  simp only [List.getD_eq_getElem?_getD (l := out), this]
  rfl

/-- The states of the README: `s2 = |0⟩`, `s3 = |1⟩` on five qubits each; the control qubit is 0 with probability ½. -/
example : ∃ m1 S, swapTest (started (registers [1, 5, 5])) = (.ok m1, S) ∧ ∃ e, EnvOK S.heap [m1] e ∧
    ∃ out cl ms', run S.heap (fun _ => none) [m1]
        [([0], .vec [1, 0]), ([1], .vec (1 :: List.replicate 31 0)), ([2], .vec (0 :: 1 :: List.replicate 30 0))] false none
        e.pick e.shuffle e.orc e.arena = .ok (out, cl, ms') ∧
      outcomeProb 11 [0] (fun c => out.getD c 0) 0 = 1 / 2 := by
  obtain ⟨m1, S, hS, h⟩ := C79_overlap (k := 5) (by norm_num) (s2 := 1 :: List.replicate 31 0)
    (s3 := 0 :: 1 :: List.replicate 30 0) (by simp) (by simp)
  obtain ⟨e, he⟩ := env_exists S.heap [m1]
  obtain ⟨out, cl, ms', hr, hp⟩ := h e he
  refine ⟨m1, S, hS, e, he, out, cl, ms', hr, hp.trans ?_⟩
  simp [norm2, Finset.sum_range_succ]

end QIP.Props
