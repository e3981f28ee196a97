import Verif.Model.Job
import Verif.Lemmas.Grid
import Verif.Props.Pool
import Verif.Props.Wire
import Verif.Props.Backend

/-!
# Placed workers form a grid; the workers' backends
-/

namespace QIP

open QIP.Props

/-- The ranges of the workers of a grid, in the order of the manager. -/
def gridRanges (K N : Nat) : List (Range × Range) :=
  (List.range K).flatMap fun i => (List.range K).map fun j => ((i * N, (i + 1) * N), (j * N, (j + 1) * N))

theorem gridRanges_eq (K N : Nat) :
    gridRanges K N = ((List.range K).flatMap fun i => (List.range K).map fun j => ((i, j) : Wid)).map
      fun w => ((w.1 * N, (w.1 + 1) * N), (w.2 * N, (w.2 + 1) * N)) := by
  simp [gridRanges, List.map_flatMap, List.map_map, Function.comp_def]

theorem place_grid {n : Nat} {workers rest : List Wkr} {placed : List Placed}
    (h : placeWorkers n workers = .ok (placed, rest)) :
    ∃ k ≤ n, placed.map (fun p => (p.inp, p.out)) = gridRanges (2 ^ (n - k)) (2 ^ k) := by
  unfold placeWorkers at h
  rcases hd : drawWorkers n workers with e | ⟨un, rest', wn⟩
  · simp [hd, bind, Except.bind] at h
  simp only [hd, bind, Except.bind] at h
  obtain ⟨-, hlen, -, -⟩ := C59_drawn hd
  set pairs := (workerRanges n wn).flatMap fun i => (workerRanges n wn).map fun o => (i, o) with hpairs
  have hpl : pairs.length = un.length := by
    rw [hpairs, List.length_flatMap, hlen, workerRanges_eq]
    simp only [List.length_map, List.length_range, List.map_const', List.map_map, Function.comp_def]
    rw [show (4 : Nat) = 2 * 2 by norm_num, Nat.mul_pow]
    simp
  obtain ⟨placed', h1, h2, -⟩ := allocate_fold un pairs [] (by omega)
  have ha : allocateWorkers n wn un = .ok placed' := by
    rw [allocateWorkers]
    simp only [← hpairs, h1, bind, Except.bind, List.nil_append]
    rw [if_pos (by simp; omega)]
  simp only [ha] at h
  split at h
  · injection h with h
    obtain ⟨rfl, rfl⟩ := Prod.mk.inj h
    refine ⟨min wn n, Nat.min_le_right _ _, ?_⟩
    rw [h2, hpairs, workerRanges_eq, gridRanges]
    simp only [List.flatMap_map, List.map_map, Function.comp_def]
    rw [show n - min wn n = n - wn by omega]
  · cases h

theorem place_ok {n : Nat} (hn : n < 63) {workers : List Wkr} (he : ∃ S, List.Subperm S workers ∧ Enough n S) :
    ∃ placed rest, placeWorkers n workers = .ok (placed, rest) := by
  obtain ⟨⟨un, rest, wn⟩, hd⟩ := (C59_draw_iff n workers).2 he
  obtain ⟨placed, h1, -, h2, -⟩ := C60_tiles hd
  refine ⟨placed, rest, ?_⟩
  unfold placeWorkers
  simp only [hd, bind, Except.bind, h1]
  rw [if_pos]
  intro p hp
  obtain ⟨m, -, -, -, -, h5, h6⟩ := h2 p hp
  have : (2 : Nat) ^ n < 2 ^ 63 := Nat.pow_lt_pow_right (by norm_num) hn
  omega

variable {K N : Nat} {placed : List Placed}

theorem grid_wid (hN : 0 < N) (hp : placed.map (fun p => (p.inp, p.out)) = gridRanges K N) {p : Placed} (h : p ∈ placed) :
    p.wid.1 < K ∧ p.wid.2 < K ∧ p.inp = (p.wid.1 * N, (p.wid.1 + 1) * N) ∧ p.out = (p.wid.2 * N, (p.wid.2 + 1) * N) := by
  have hm : (p.inp, p.out) ∈ gridRanges K N := by
    rw [← hp]; exact List.mem_map.2 ⟨p, h, rfl⟩
  simp only [gridRanges, List.mem_flatMap, List.mem_map, List.mem_range, Prod.mk.injEq] at hm
  obtain ⟨i, hi, j, hj, e1, e2⟩ := hm
  have hw : p.wid = (i, j) := by
    unfold Placed.wid
    rw [← e1, ← e2]
    simp only [Nat.succ_mul, Nat.add_sub_cancel_left, Nat.mul_div_cancel _ hN]
  rw [hw]
  exact ⟨hi, hj, e1.symm, e2.symm⟩

theorem grid_wids (hN : 0 < N) (hp : placed.map (fun p => (p.inp, p.out)) = gridRanges K N) :
    placed.map Placed.wid = (List.range K).flatMap fun i => (List.range K).map fun j => ((i, j) : Wid) := by
  have h1 : placed.map Placed.wid = (placed.map fun p => (p.inp, p.out)).map fun io =>
      ((io.1.1 / (io.1.2 - io.1.1), io.2.1 / (io.2.2 - io.2.1)) : Wid) := by
    rw [List.map_map]; rfl
  rw [h1, hp, gridRanges_eq, List.map_map]
  conv_rhs => rw [← List.map_id ((List.range K).flatMap fun i => (List.range K).map fun j => ((i, j) : Wid))]
  apply List.map_congr_left
  rintro ⟨i, j⟩ -
  simp only [Function.comp_apply, Nat.succ_mul, Nat.add_sub_cancel_left, Nat.mul_div_cancel _ hN, id]

theorem wids_nodup (K : Nat) : ((List.range K).flatMap fun i => (List.range K).map fun j => ((i, j) : Wid)).Nodup := by
  rw [List.nodup_flatMap]
  refine ⟨fun i _ => List.nodup_range.map fun a b h => (Prod.ext_iff.1 h).2, ?_⟩
  refine List.nodup_range.imp ?_
  intro a b hab
  simp only [Function.onFun]
  rw [List.disjoint_left]
  intro x hx hy
  obtain ⟨j, -, rfl⟩ := List.mem_map.1 hx
  obtain ⟨j', -, e⟩ := List.mem_map.1 hy
  exact hab (Prod.ext_iff.1 e).1.symm

theorem mem_wids (K : Nat) (w : Wid) :
    w ∈ ((List.range K).flatMap fun i => (List.range K).map fun j => ((i, j) : Wid)) ↔ w.1 < K ∧ w.2 < K := by
  rcases w with ⟨a, b⟩
  simp

theorem grid_exists (hN : 0 < N) (hp : placed.map (fun p => (p.inp, p.out)) = gridRanges K N) {w : Wid} (h1 : w.1 < K)
    (h2 : w.2 < K) : ∃ p ∈ placed, p.wid = w := by
  have : w ∈ placed.map Placed.wid := by rw [grid_wids hN hp, mem_wids]; exact ⟨h1, h2⟩
  exact List.mem_map.1 this

theorem grid_inj (hN : 0 < N) (hp : placed.map (fun p => (p.inp, p.out)) = gridRanges K N) {p q : Placed} (h1 : p ∈ placed)
    (h2 : q ∈ placed) (h : p.wid = q.wid) : p = q := by
  have hnd : (placed.map Placed.wid).Nodup := by rw [grid_wids hN hp]; exact wids_nodup K
  exact List.inj_on_of_nodup_map hnd h1 h2 h

theorem mem_partners (hN : 0 < N) (hp : placed.map (fun p => (p.inp, p.out)) = gridRanges K N) {p q : Placed} (h1 : p ∈ placed)
    (h2 : q ∈ placed) : p ∈ workerPartners placed q ↔
      q.wid.1 ≠ q.wid.2 ∧ p.wid.1 = p.wid.2 ∧ (q.wid.1 = p.wid.1 ∨ q.wid.2 = p.wid.1) := by
  obtain ⟨-, -, a1, a2⟩ := grid_wid hN hp h1
  obtain ⟨-, -, b1, b2⟩ := grid_wid hN hp h2
  have hc : ∀ a b : Nat, a * N = b * N ↔ a = b := fun a b => Nat.mul_left_inj hN.ne'
  unfold workerPartners
  rw [b1, b2]
  simp only [ne_eq, hc]
  by_cases h : q.wid.1 = q.wid.2
  · simp [h]
  · rw [if_pos h, List.mem_filter, a1, a2]
    simp only [hc, decide_eq_true_eq, h1, true_and, h, not_false_eq_true]
    constructor
    · rintro ⟨e, h3⟩; exact ⟨e, h3.imp Eq.symm Eq.symm⟩
    · rintro ⟨e, h3⟩; exact ⟨e, h3.imp Eq.symm Eq.symm⟩

/-! ## Setup messages -/

theorem setup_vecs {n : Nat} (hn : n < 2 ^ 31) {groups : List (List Nat)} {vecs : List (List ℂ)}
    (hq : ∀ q ∈ groups.flatten, q < 2 ^ 31) (hl : groups.length = vecs.length) :
    ∃ states, setupStates n groups (vecs.map .vec) = .ok states ∧ states.map PbState.indices = groups ∧
      states.mapM pbStateValue = .ok (vecs.map .vec) := by
  unfold setupStates
  rw [if_pos hn]
  induction groups generalizing vecs with
  | nil =>
    have : vecs = [] := List.length_eq_zero_iff.1 hl.symm
    subst this
    exact ⟨[], rfl, rfl, rfl⟩
  | cons g gs ih =>
    rcases vecs with _ | ⟨v, vecs⟩
    · simp at hl
    · obtain ⟨states, h1, h2, h3⟩ := ih (vecs := vecs) (fun q h => hq q (by simp only [List.flatten_cons, List.mem_append]; exact Or.inr h))
        (by simpa using hl)
      refine ⟨⟨g, .vector (vecToPb v)⟩ :: states, ?_, by simp [h2], ?_⟩
      · rw [List.map_cons, List.zip_cons_cons, List.mapM_cons, h1]
        simp only [stateToPb, C58_indices (is := g) (fun q h => hq q (by simp [h])), bind, Except.bind]
        rfl
      · rw [List.mapM_cons, h3]
        simp only [pbStateValue, C58_vector, bind, Except.bind]
        rfl

theorem init_vecs {n : Nat} {states : List PbState} {groups : List (List Nat)} {vecs : List (List ℂ)}
    (h2 : states.map PbState.indices = groups) (h3 : states.mapM pbStateValue = .ok (vecs.map .vec)) (p : Placed)
    (arena : List ℂ) : workerInit n states p arena = makeState n groups (vecs.map .vec) p.inp.1 p.inp.2 arena := by
  unfold workerInit
  simp only [h3, bind, Except.bind, h2]

end QIP
