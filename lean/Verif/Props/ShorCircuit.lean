import Verif.Lemmas.ShorAmp
import Verif.Props.Born

/-! # C82: the circuit of the Shor example -/

namespace QIP.Props

open Spec Heap Finset MeasureTheory

/-- The norm of the initial state. -/
theorem shor_total {m n : Nat} {v : Nat → ℂ} (hv : ∀ r < 2 ^ (m + n), v r = shorStart m n r) : totalProb (m + n) v = 1 := by
  have hp : 0 < 2 ^ n := by positivity
  unfold totalProb
  rw [Finset.sum_congr rfl (fun r hr => by rw [hv r (Finset.mem_range.1 hr)]), pow_add, sum_blocks]
  have : ∀ i ∈ range (2 ^ m), (∑ b ∈ range (2 ^ n), Complex.normSq (shorStart m n (i * 2 ^ n + b))) = 1 / 2 ^ m := by
    intro i _
    rw [Finset.sum_eq_single_of_mem 0 (Finset.mem_range.2 hp)]
    · unfold shorStart
      rw [if_pos (by simp), mul_one, Complex.normSq_ofReal, one_mul, ← Real.rpow_add (by positivity)]
      norm_num [Real.rpow_neg_one]
    · intro b hb hne
      unfold shorStart
      rw [if_neg, mul_zero, map_zero]
      rw [Nat.mul_comm, Nat.mul_add_mod, Nat.mod_eq_of_lt (Finset.mem_range.1 hb)]
      exact hne
  rw [Finset.sum_congr rfl this]
  simp

/-- The probability that the first register reads `k`. -/
theorem shor_peak {m n x N : Nat} (hN : 0 < N) (hN2 : N ≤ 2 ^ n) {v : Nat → ℂ} (hv : ∀ r < 2 ^ (m + n), v r = shorStart m n r)
    {k : Nat} (hk : k < 2 ^ m) :
    totalProb (m + n) (project (m + n) (List.range m) k (actAll (m + n) (qfftActs true (List.range m))
        (kindApply (m + n) (.fop (powMod x N)) [List.range m, (List.range n).map (m + ·)] v))) = peakProb m x N k := by
  have hp : 0 < 2 ^ n := by positivity
  unfold totalProb
  rw [pow_add, sum_blocks, Finset.sum_eq_single_of_mem k (Finset.mem_range.2 hk)]
  · unfold peakProb
    rw [Finset.mul_sum, ← Finset.sum_subset (Finset.range_subset_range.2 hN2)]
    · apply Finset.sum_congr rfl
      intro y hy
      have hy2 : y < 2 ^ n := lt_of_lt_of_le (Finset.mem_range.1 hy) hN2
      have hr : k * 2 ^ n + y < 2 ^ (m + n) := by
        rw [pow_add]
        calc k * 2 ^ n + y < k * 2 ^ n + 2 ^ n := by omega
          _ = (k + 1) * 2 ^ n := by ring
          _ ≤ _ := Nat.mul_le_mul_right _ hk
      unfold project
      rw [inOrder_low, subIndex_high hr, if_pos, shor_amp hN hN2 hv hk hy2, Complex.normSq_mul, Complex.normSq_ofReal]
      · congr 1
        ring
      · rw [Nat.mul_comm, Nat.mul_add_div hp, Nat.div_eq_of_lt hy2, Nat.add_zero]
    · intro y hy hyN
      rw [Finset.mem_range] at hy hyN
      have hr : k * 2 ^ n + y < 2 ^ (m + n) := by
        rw [pow_add]
        calc k * 2 ^ n + y < k * 2 ^ n + 2 ^ n := by omega
          _ = (k + 1) * 2 ^ n := by ring
          _ ≤ _ := Nat.mul_le_mul_right _ hk
      unfold project
      rw [shor_amp hN hN2 hv hk hy, Finset.filter_false_of_mem]
      · simp
      · intro i _ h
        have := Nat.mod_lt (x ^ i) hN
        omega
  · intro j hj hne
    apply Finset.sum_eq_zero
    intro y hy
    rw [Finset.mem_range] at hj hy
    have hr : j * 2 ^ n + y < 2 ^ (m + n) := by
      rw [pow_add]
      calc j * 2 ^ n + y < j * 2 ^ n + 2 ^ n := by omega
        _ = (j + 1) * 2 ^ n := by ring
        _ ≤ _ := Nat.mul_le_mul_right _ hj
    unfold project
    rw [inOrder_low, subIndex_high hr, if_neg, map_zero]
    rw [Nat.mul_comm, Nat.mul_add_div hp, Nat.div_eq_of_lt hy, Nat.add_zero]
    exact hne

/-- With one measurement: the draw `u` in `[0, 1)`. -/
theorem draws_single {h : Heap} {q : Nat} {feed : List (List Nat × List ℂ)} {e : Env} {o : Nat → Nat}
    (hM : measures h [q] = {q}) :
    volume {u : ℝ | 0 ≤ u ∧ u < 1 ∧ ∃ out cl ms p,
        QIP.run h (fun _ => none) [q] (feed.map asFeed) false none e.pick e.shuffle
          (fun y => if y = q then { e.orc y with u := u } else e.orc y) e.arena = .ok (out, cl, ms) ∧
        (q, Classic.bits (o q) p) ∈ cl}
      = volume (drawsOf h [q] feed e o) ∧ (NullMeasurableSet (drawsOf h [q] feed e o) → NullMeasurableSet {u : ℝ | 0 ≤ u ∧ u < 1 ∧
        ∃ out cl ms p, QIP.run h (fun _ => none) [q] (feed.map asFeed) false none e.pick e.shuffle
          (fun y => if y = q then { e.orc y with u := u } else e.orc y) e.arena = .ok (out, cl, ms) ∧
        (q, Classic.bits (o q) p) ∈ cl}) := by
  classical
  haveI : Unique (measures h [q]) := ⟨⟨⟨q, by rw [hM]; exact Finset.mem_singleton_self _⟩⟩, by
    rintro ⟨a, ha⟩
    rw [hM, Finset.mem_singleton] at ha
    exact Subtype.ext ha⟩
  have hmp : MeasurePreserving (MeasurableEquiv.funUnique (measures h [q]) ℝ)
      (volume : Measure (measures h [q] → ℝ)) volume := by
    convert volume_preserving_funUnique (measures h [q]) ℝ
  set A : Set ℝ := {u : ℝ | 0 ≤ u ∧ u < 1 ∧ ∃ out cl ms p,
        QIP.run h (fun _ => none) [q] (feed.map asFeed) false none e.pick e.shuffle
          (fun y => if y = q then { e.orc y with u := u } else e.orc y) e.arena = .ok (out, cl, ms) ∧
        (q, Classic.bits (o q) p) ∈ cl} with hA
  have key : MeasurableEquiv.funUnique (measures h [q]) ℝ ⁻¹' A = drawsOf h [q] feed e o := ?_
  · refine ⟨(hmp.measure_preimage_equiv _).symm.trans (congrArg volume key), fun hn => ?_⟩
    have h2 := hn.preimage (hmp.symm).quasiMeasurePreserving
    rw [← key] at h2
    have : (MeasurableEquiv.funUnique (measures h [q]) ℝ).symm ⁻¹' (MeasurableEquiv.funUnique (measures h [q]) ℝ ⁻¹' A) = A := by
      ext u
      simp
    rwa [this] at h2
  ext u
  have hu : ∀ y, u y = u default := fun y => by rw [Subsingleton.elim y default]
  have ho : (withDraws e (measures h [q]) u).orc = fun y => if y = q then { e.orc y with u := u default } else e.orc y := by
    funext y
    show (if hx : y ∈ measures h [q] then { e.orc y with u := u ⟨y, hx⟩ } else e.orc y) = _
    by_cases hy : y = q
    · have : y ∈ measures h [q] := by rw [hM, Finset.mem_singleton]; exact hy
      rw [dif_pos this, if_pos hy, hu]
    · have : y ∉ measures h [q] := by rw [hM, Finset.mem_singleton]; exact hy
      rw [dif_neg this, if_neg hy]
  simp only [hA, Set.mem_preimage, Set.mem_ofPred_eq, drawsOf, ho, MeasurableEquiv.funUnique_apply]
  constructor
  · rintro ⟨h0, h1, out, cl, ms, p, hr, hcl⟩
    refine ⟨fun y => by rw [hu]; exact ⟨h0, h1⟩, out, cl, ms, hr, fun y hy => ?_⟩
    rw [hM, Finset.mem_singleton] at hy
    subst hy
    exact ⟨p, hcl⟩
  · rintro ⟨h0, out, cl, ms, hr, hcl⟩
    obtain ⟨p, hp⟩ := hcl q (by rw [hM]; exact Finset.mem_singleton_self _)
    exact ⟨(h0 default).1, (h0 default).2, out, cl, ms, p, hr, hp⟩

/-- The draws reporting `k`. -/
def shorDraws (h : Heap) (mm : Nat) (e : Env) (k : Nat) : Set ℝ :=
  {u : ℝ | 0 ≤ u ∧ u < 1 ∧ ∃ out cl ms p,
    QIP.run h (fun _ => none) [mm] [] false none e.pick e.shuffle
      (fun y => if y = mm then { e.orc y with u := u } else e.orc y) e.arena = .ok (out, cl, ms) ∧
    (mm, Classic.bits k p) ∈ cl}

theorem shor_full {m n x N : Nat} (hm : 0 < m) (hn : 0 < n) (h30 : m + n ≤ 30) (hN : 0 < N) (hN2 : N ≤ 2 ^ n) :
    ∃ mq mm S env, shorCircuit m n x N ⟨Heap.empty, [], 0, fun _ => 0⟩ = (.ok (mq, mm), S) ∧ Circuit S.heap env [mm] ∧
      ∀ e : Env, EnvOK S.heap [mm] e → (∀ y, (e.orc y).garbage = 0) → ∀ k < 2 ^ m,
        volume (shorDraws S.heap mm e k) = ENNReal.ofReal (peakProb m x N k) ∧ NullMeasurableSet (shorDraws S.heap mm e k) := by
  obtain ⟨mq, mm, S, hS, M, hstart⟩ := shor_objects (x := x) hm hn h30 hN hN2
  obtain ⟨env, hc⟩ := M.circuit
  refine ⟨mq, mm, S, env, hS, hc, ?_⟩
  intro e he hg k hk
  have h1 := draws_single (feed := []) (e := e) (o := fun _ => k) M.only
  simp only [List.map_nil] at h1
  have hT := shor_total hstart
  have ho : ∀ x ∈ measures S.heap [mm], (fun _ => k) x < 2 ^ (groups S.heap [mm] x).flatten.length := by
    intro y hy
    rw [M.only, Finset.mem_singleton] at hy
    subst hy
    rw [M.group, List.length_range]
    exact hk
  have h2 := C85_joint_partial hc M.ok M.kinds M.feedOK M.defaults he hg (by rw [M.size, hT]; exact one_pos) _ ho
  refine ⟨h1.1.trans (h2.trans ?_), h1.2 (draws_null hc M.ok M.kinds M.feedOK M.defaults he hg
    (by rw [M.size, hT]; exact one_pos) _ ho)⟩
  unfold jointProb
  rw [M.size, hT, M.state, shor_peak hN hN2 hstart hk, div_one]

/-- **C82**: `make_circuit(m, n, x, N)` of the Shor example followed by `run(m)`: for every size of the two registers, every
base and modulus, the run succeeds and reports `k` for a set of draws (uniform in `[0, 1)`) whose measure is exactly the
probability of `k` in the period-finding algorithm.  Partial: at most 30 qubits (C17), and the uninitialised accumulators
happen to be 0 (C27). -/
theorem C82_shor_partial {m n x N : Nat} (hm : 0 < m) (hn : 0 < n) (h30 : m + n ≤ 30) (hN : 0 < N) (hN2 : N ≤ 2 ^ n) :
    ∃ mq mm S, shorCircuit m n x N ⟨Heap.empty, [], 0, fun _ => 0⟩ = (.ok (mq, mm), S) ∧
      ∀ e : Env, EnvOK S.heap [mm] e → (∀ y, (e.orc y).garbage = 0) → ∀ k < 2 ^ m,
        volume {u : ℝ | 0 ≤ u ∧ u < 1 ∧ ∃ out cl ms p,
          QIP.run S.heap (fun _ => none) [mm] [] false none e.pick e.shuffle
            (fun y => if y = mm then { e.orc y with u := u } else e.orc y) e.arena = .ok (out, cl, ms) ∧
          (mm, Classic.bits k p) ∈ cl}
        = ENNReal.ofReal (peakProb m x N k) := by
  obtain ⟨mq, mm, S, env, hS, hc, h⟩ := shor_full (x := x) hm hn h30 hN hN2
  exact ⟨mq, mm, S, hS, fun e he hg k hk => (h e he hg k hk).1⟩

/-- The case `x = 2`, `N = 3` (period 2) on two and two qubits: half of the draws report 0. -/
example : ∃ mq mm S, shorCircuit 2 2 2 3 ⟨Heap.empty, [], 0, fun _ => 0⟩ = (.ok (mq, mm), S) ∧ ∃ e : Env,
    EnvOK S.heap [mm] e ∧ volume {u : ℝ | 0 ≤ u ∧ u < 1 ∧ ∃ out cl ms p,
      QIP.run S.heap (fun _ => none) [mm] [] false none e.pick e.shuffle
        (fun y => if y = mm then { e.orc y with u := u } else e.orc y) e.arena = .ok (out, cl, ms) ∧
      (mm, Classic.bits 0 p) ∈ cl} = 1 / 2 := by
  obtain ⟨mq, mm, S, hS, h⟩ := C82_shor_partial (m := 2) (n := 2) (x := 2) (N := 3) (by decide) (by decide) (by decide)
    (by decide) (by decide)
  have he : EnvOK S.heap [mm] ⟨fun _ => 0, List.reverse, fun x => ⟨List.range (2 ^ width S.heap [mm]),
    faCounters (width S.heap [mm]) ((groups S.heap [mm] x).getD 0 []) ((groups S.heap [mm] x).getD 1 []), fun _ => 0, 0, 0⟩,
    List.replicate (2 ^ width S.heap [mm]) 0⟩ := ⟨fun l => l.reverse_perm, fun _ => .refl _, fun _ => .refl _, by simp⟩
  refine ⟨mq, mm, S, hS, _, he, ?_⟩
  rw [h _ he (fun _ => rfl) 0 (by decide)]
  have : peakProb 2 2 3 0 = 1 / 2 := by
    unfold peakProb
    rw [show (range (2 ^ 2)) = {0, 1, 2, 3} by decide, show range 3 = {0, 1, 2} by decide]
    simp only [Finset.sum_filter]
    simp
    norm_num [Complex.normSq_apply]
    rw [show #{x ∈ ({0, 1, 2, 3} : Finset Nat) | 2 ^ x % 3 = 0} = 0 by decide,
      show #{x ∈ ({0, 1, 2, 3} : Finset Nat) | 2 ^ x % 3 = 1} = 2 by decide,
      show #{x ∈ ({0, 1, 2, 3} : Finset Nat) | 2 ^ x % 3 = 2} = 2 by decide]
    norm_num
  rw [this, ENNReal.ofReal_div_of_pos (by norm_num)]
  simp

end QIP.Props
