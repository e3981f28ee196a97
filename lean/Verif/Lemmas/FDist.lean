import Verif.Lemmas.Rounding
import Verif.Spec.FDist

/-! # Rounding errors of a kron product on a grid of workers -/

namespace QIP

open Spec Finset

variable {A : Arith} {t n K size : Nat}

/-! ## Ranges -/

theorem rangeOf_length {v : List (FC A)} (hv : v.length = K * size) {i : Nat} (hi : i < K) : (rangeOf size v i).length = size := by
  have : (i + 1) * size ≤ K * size := Nat.mul_le_mul_right _ hi
  rw [Nat.add_mul] at this
  simp [rangeOf]
  omega

theorem rangeOf_getD {v : List (FC A)} {i k : Nat} (hk : k < size) : (rangeOf size v i).getD k 0 = v.getD (i * size + k) 0 := by
  simp only [rangeOf, List.getD_eq_getElem?_getD, List.getElem?_take, List.getElem?_drop, if_pos hk]

theorem flatten_getD {α : Type} (d : α) {L : List (List α)} (h : ∀ l ∈ L, l.length = size) {j k : Nat} (hj : j < L.length) (hk : k < size) :
    L.flatten.getD (j * size + k) d = (L.getD j []).getD k d := by
  induction L generalizing j with
  | nil => simp at hj
  | cons l L ih =>
    have hl := h l (by simp)
    cases j with
    | zero => simp [List.getD_eq_getElem?_getD, List.getElem?_append_left (show k < l.length by omega)]
    | succ j =>
      have := ih (fun l hl => h l (by simp [hl])) (j := j) (by simpa using hj)
      rw [List.getD_cons_succ, ← this, List.flatten_cons, List.getD_eq_getElem?_getD, List.getD_eq_getElem?_getD,
        List.getElem?_append_right (by rw [hl, Nat.add_mul]; omega)]
      congr 2
      rw [hl, Nat.add_mul]
      omega

/-! ## Sums of partial sums -/

theorem sum_step [A.Ideal] {a S B : ℝ} {s x : FC A} {z y : ℂ} (hz : ‖z‖ ≤ S) (h : ‖s.val - z‖ ≤ (a - 1) * S) (hy : ‖y‖ ≤ B)
    (hx : ‖x.val - y‖ ≤ (a - 1) * B) : ‖(s + x).val - (z + y)‖ ≤ (a * (1 + A.u) - 1) * (S + B) := by
  have e : (s + x).val = A.add s.val x.val := rfl
  have h1 := Arith.Ideal.add_err (A := A) s.val x.val
  have hu := A.u_nonneg
  rw [e]
  have e1 : A.add s.val x.val - (z + y) = (A.add s.val x.val - (s.val + x.val)) + ((s.val - z) + (x.val - y)) := by ring
  have h2 : ‖s.val + x.val‖ ≤ ‖s.val - z‖ + ‖x.val - y‖ + (S + B) := by
    have : s.val + x.val = ((s.val - z) + (x.val - y)) + (z + y) := by ring
    rw [this]
    exact (norm_add_le _ _).trans (add_le_add (norm_add_le _ _) ((norm_add_le _ _).trans (by linarith)))
  calc ‖A.add s.val x.val - (z + y)‖ ≤ A.u * ‖s.val + x.val‖ + (‖s.val - z‖ + ‖x.val - y‖) := by
        rw [e1]
        exact (norm_add_le _ _).trans (add_le_add h1 (norm_add_le _ _))
    _ ≤ A.u * ((a - 1) * S + (a - 1) * B + (S + B)) + ((a - 1) * S + (a - 1) * B) := by
        have := h2.trans (add_le_add (add_le_add h hx) le_rfl)
        gcongr
    _ = (a * (1 + A.u) - 1) * (S + B) := by ring

/-- Partial sums added one after the other. -/
theorem add_parts [A.Ideal] {m : Nat} (order : List Nat) (s : Nat → FC A) (z : Nat → ℂ) (B : Nat → ℝ)
    (h : ∀ i ∈ order, ‖z i‖ ≤ B i ∧ ‖(s i).val - z i‖ ≤ ((1 + A.u) ^ m - 1) * B i) {s0 : FC A} {z0 : ℂ} {B0 : ℝ} {l : Nat} (hz0 : ‖z0‖ ≤ B0)
    (h0 : ‖s0.val - z0‖ ≤ ((1 + A.u) ^ (m + l) - 1) * B0) :
    ‖(order.foldl (fun x i => x + s i) s0).val - (z0 + (order.map z).sum)‖
      ≤ ((1 + A.u) ^ (m + l + order.length) - 1) * (B0 + (order.map B).sum) := by
  induction order generalizing s0 z0 B0 l with
  | nil => simpa using h0
  | cons i order ih =>
    obtain ⟨h1, h2⟩ := h i (by simp)
    have hB : 0 ≤ B i := (norm_nonneg _).trans h1
    have hp : (1 + A.u) ^ m ≤ (1 + A.u) ^ (m + l) := pow_le_pow_right₀ (by linarith [A.u_nonneg]) (by omega)
    have h3 := sum_step hz0 h0 h1 (h2.trans (mul_le_mul_of_nonneg_right (by linarith) hB))
    rw [← pow_succ] at h3
    have h4 := ih (fun i hi => h i (by simp [hi])) (l := l + 1) ((norm_add_le z0 (z i)).trans (add_le_add hz0 h1)) h3
    simp only [List.foldl_cons, List.map_cons, List.sum_cons, List.length_cons]
    have e : m + l + (order.length + 1) = m + (l + 1) + order.length := by omega
    rw [e, ← add_assoc z0, ← add_assoc B0]
    exact h4

/-- Sums over the parts of a list sorted into `K` classes. -/
theorem sum_classes {M : Type} [AddCommMonoid M] (L : List Nat) (f : Nat → M) (cls : Nat → Nat) (hc : ∀ c ∈ L, cls c < K) {order : List Nat}
    (ho : order.Perm (List.range K)) :
    (order.map fun i => ((L.filter fun c => decide (cls c = i)).map f).sum).sum = (L.map f).sum := by
  induction L with
  | nil => simp
  | cons c L ih =>
    have h1 := ih fun c hc' => hc c (by simp [hc'])
    have h2 : ∀ i, (((c :: L).filter fun c => decide (cls c = i)).map f).sum
        = (if cls c = i then f c else 0) + ((L.filter fun c => decide (cls c = i)).map f).sum := by
      intro i
      by_cases hi : cls c = i
      · simp [hi]
      · simp [hi]
    simp only [h2]
    rw [List.sum_map_add, h1, List.map_cons, List.sum_cons]
    congr 1
    rw [(ho.map _).sum_eq]
    have hlt := hc c (by simp)
    rw [sum_map_range (fun i => if cls c = i then f c else 0)]
    simp [hlt]

/-! ## Rows -/

theorem near_terms_skip (L : List Nat) (P : Nat → Bool) (f : List (FC A × FC A) → Nat → Except PyErr (List (FC A × FC A))) (x : Nat → FC A × FC A)
    (h : ∀ c ∈ L, ∀ ts, f ts c = .ok (if P c then ts ++ [x c] else ts)) (ts : List (FC A × FC A)) :
    L.foldlM f ts = .ok (ts ++ (L.filter P).map x) := by
  induction L generalizing ts with
  | nil => simp [pure, Except.pure]
  | cons c L ih =>
    rw [List.foldlM_cons, h c (by simp)]
    have := ih (fun c hc => h c (by simp [hc]))
    by_cases hc : P c
    · simp only [hc, if_true, bind, Except.bind, this]
      simp [hc]
    · simp only [hc, bind, Except.bind, this]
      simp [hc]

/-- A row of a worker: the columns of its range. -/
theorem slice_terms {S : List Nat} {mats : List (List Nat × Mat (FC A))} {v : List (FC A)} (hsize : 0 < size) (hv : v.length = K * size)
    {i : Nat} (hi : i < K) {row : Nat} {p : Nat → FC A} (hp1 : ∀ c, cEntryProduct n row c mats 1 = .ok (p c)) :
    ((List.range (2 ^ S.length)).map fun i => spread n S row i).foldlM (fun (ts : List (FC A × FC A)) col =>
      if col < i * size ∨ col - i * size ≥ (rangeOf size v i).length then pure ts
      else do
        let p ← cEntryProduct n row col mats 1
        pure (ts ++ [(p, (rangeOf size v i).getD (col - i * size) 0)])) []
      = .ok ((((List.range (2 ^ S.length)).map fun i => spread n S row i).filter fun c => decide (c / size = i)).map
          fun c => (p c, v.getD c 0)) := by
  have := near_terms_skip (((List.range (2 ^ S.length)).map fun i => spread n S row i)) (fun c => decide (c / size = i))
    (fun (ts : List (FC A × FC A)) col =>
      if col < i * size ∨ col - i * size ≥ (rangeOf size v i).length then pure ts
      else do
        let p ← cEntryProduct n row col mats 1
        pure (ts ++ [(p, (rangeOf size v i).getD (col - i * size) 0)])) (fun c => (p c, v.getD c 0)) ?_ []
  · exact this
  intro c _ ts
  rw [rangeOf_length hv hi]
  by_cases hc : c / size = i
  · have h1 : i * size ≤ c := by rw [← hc]; exact Nat.div_mul_le_self ..
    have h2 : c < i * size + size := by
      have := Nat.lt_div_mul_add hsize (a := c)
      rwa [hc] at this
    rw [if_neg (by omega), hp1, rangeOf_getD (by omega), Nat.add_sub_cancel' h1]
    simp [hc, bind, Except.bind, pure, Except.pure]
  · have hneg : c < i * size ∨ c - i * size ≥ size := by
      by_contra hcon
      push Not at hcon
      apply hc
      rw [Nat.div_eq_iff hsize]
      have := hcon.1
      have := hcon.2
      omega
    rw [if_pos hneg]
    simp [hc, pure, Except.pure]

theorem slice_rows [A.Ideal] {mats : List (List Nat × Mat (FC A))} {mats' : List (List Nat × Mat ℂ)}
    (h : List.Forall₂ (fun a b => a.1 = b.1 ∧ MatNear t a.2 b.2) mats mats') (hv : ValidMats n mats') (hsize : 0 < size) (hK : K * size = 2 ^ n)
    {v : List (FC A)} (hvec : v.length = K * size) {row : Nat} (hr : row < 2 ^ n) :
    ∃ (z : Nat → ℂ) (B : Nat → ℝ),
      (∀ order : List Nat, order.Perm (List.range K) →
        (order.map z).sum = kronApply n (denote mats') (fun c => (v.getD c 0).val) row ∧
        (order.map B).sum = ∑ c ∈ range (2 ^ n), ‖kronEntry n (denote mats') row c‖ * ‖(v.getD c 0).val‖) ∧
      ∀ i < K, ∀ run, ‖z i‖ ≤ B i ∧ ∃ s, cdotRowF run mats (rangeOf size v i) n (i * size) row = .ok s ∧
        ‖s.val - z i‖ ≤ ((1 + A.u) ^ ((t + 1) * mats.length + 1 + 2 ^ (sortedSet (mats'.flatMap (·.1))).length) - 1) * B i := by
  have hflat : mats.flatMap (·.1) = mats'.flatMap (·.1) := by
    clear hv
    induction h with
    | nil => rfl
    | cons hab _ ih => simp only [List.flatMap_cons, hab.1, ih]
  have hS := nodup_sortedSet (mats'.flatMap (·.1))
  have hn : ∀ q ∈ sortedSet (mats'.flatMap (·.1)), q < n := by
    intro q hq
    obtain ⟨gm, hgm, hq⟩ := List.mem_flatMap.1 (mem_sortedSet.1 hq)
    exact (hv gm hgm).1 q hq
  have hmem : ∀ q, q ∈ sortedSet (mats'.flatMap (·.1)) ↔ q ∈ (denote mats').flatMap (·.1) := by
    intro q
    rw [mem_sortedSet]
    simp [denote]
  rw [sum_norm_entries hS hmem hn, kronApply_eq_sum (denote mats') hS hmem hn]
  set S := sortedSet (mats'.flatMap (·.1))
  set q : Nat → ℂ := fun c => ((denote mats').map fun gm => gm.2 (subIndex n gm.1 row) (subIndex n gm.1 c)).prod
  have hp : ∀ c, ∃ p : FC A, cEntryProduct n row c mats 1 = .ok p ∧ Near ((t + 1) * mats.length) p (q c) := by
    intro c
    obtain ⟨p, hp1, hp2⟩ := near_product (A := A) (k := 0) h (p := 1) (near_exact 0 rfl) (cEntryProduct_eq mats' hv row c 1)
    refine ⟨p, hp1, ?_⟩
    simpa [q] using hp2
  choose p hp1 hp2 using hp
  set cols := (List.range (2 ^ S.length)).map fun i => spread n S row i with hcols
  have hl : cols.length = 2 ^ S.length := by simp [hcols]
  have hlt : ∀ c ∈ cols, c / size < K := by
    intro c hc
    obtain ⟨i, -, rfl⟩ := List.mem_map.1 hc
    rw [Nat.div_lt_iff_lt_mul hsize, hK]
    exact spread_lt ..
  refine ⟨fun i => ((cols.filter fun c => decide (c / size = i)).map fun c => q c * (v.getD c 0).val).sum,
    fun i => ((cols.filter fun c => decide (c / size = i)).map fun c => ‖q c‖ * ‖(v.getD c 0).val‖).sum, ?_, ?_⟩
  · intro order ho
    constructor
    · rw [sum_classes cols (fun c => q c * (v.getD c 0).val) (fun c => c / size) hlt ho, hcols, List.map_map, sum_map_range]
      rfl
    · rw [sum_classes cols (fun c => ‖q c‖ * ‖(v.getD c 0).val‖) (fun c => c / size) hlt ho, hcols, List.map_map, sum_map_range]
      apply Finset.sum_congr rfl
      intro i _
      rw [norm_mul]
      rfl
  · intro i hi run
    set L := cols.filter fun c => decide (c / size = i)
    have hz : ∀ L : List Nat, ‖(L.map fun c => q c * (v.getD c 0).val).sum‖ ≤ (L.map fun c => ‖q c‖ * ‖(v.getD c 0).val‖).sum := by
      intro L
      induction L with
      | nil => simp
      | cons c L ih =>
        simp only [List.map_cons, List.sum_cons]
        refine (norm_add_le _ _).trans (add_le_add ?_ ih)
        rw [norm_mul]
    refine ⟨hz L, ?_⟩
    have hterms := slice_terms (S := S) hsize hvec hi hp1
    unfold cdotRowF rowTerms
    rw [hflat, cdotCols_eq _ n row hS hn hr]
    refine ⟨_, by rw [hterms]; rfl, ?_⟩
    have hd := Arith.Ideal.dot_err (A := A) run row (L.map fun c => ((p c).val, (v.getD c 0).val))
    have hd' := near_dot (k := (t + 1) * mats.length) L p q (fun c => (v.getD c 0).val) (fun c _ => hp2 c) hd
    rw [List.map_map]
    refine hd'.trans ?_
    have hle : (L.map fun c => ((p c).val, (v.getD c 0).val)).length ≤ 2 ^ S.length := by
      rw [List.length_map, ← hl]
      exact List.length_filter_le ..
    have hpow := pow_le_pow_right₀ (by linarith [A.u_nonneg] : 1 ≤ 1 + A.u) (Nat.add_le_add_left hle ((t + 1) * mats.length + 1))
    refine mul_le_mul_of_nonneg_right (by linarith) ((norm_nonneg _).trans (hz L))

/-- `kron_rows` with offsets. -/
theorem kron_rows_at (run : Nat) {mats : List (Key × Mat (FC A))} {mats' : List (Key × Mat ℂ)}
    (h : List.Forall₂ (fun a b => a.1 = b.1 ∧ MatNear t a.2 b.2) mats mats') {vec out : List (FC A)} {inOff outOff : Nat}
    (hvec : vec.length + inOff ≤ 2 ^ n) (hout : out.length = size) (hout' : size + outOff ≤ 2 ^ n) {sched : List Nat}
    (hs : sched.Perm (List.range size)) (hk : (mats'.map fun km => km.1.qubits).Nodup)
    (hsh : ∀ km ∈ mats', km.2.shape = (2 ^ km.1.qubits.length, 2 ^ km.1.qubits.length))
    (hr : ∀ km ∈ mats', ∀ q ∈ km.1.qubits, q < n) (hne : mats' ≠ [])
    (hlen : ∀ km ∈ mats', ∀ km' ∈ mats', km.1.qubits.length = km'.1.qubits.length) {P : Nat → FC A → Prop}
    (hrow : ∀ k < size, ∃ s, cdotRowF run (normed mats) vec n inOff (k + outOff) = .ok s ∧ P k s) :
    ∃ w, kronselectDotF run mats vec n out inOff outOff sched = .ok w ∧ w.length = size ∧ ∀ k < size, P k (w.getD k 0) := by
  have hkeys : mats.map (fun km => km.1.qubits) = mats'.map fun km => km.1.qubits := by
    clear hk hsh hr hne hlen hrow
    induction h with
    | nil => rfl
    | cons hab _ ih => simp only [List.map_cons, hab.1, ih]
  have hsh' : ∀ km ∈ mats, km.2.shape = (2 ^ km.1.qubits.length, 2 ^ km.1.qubits.length) := by
    clear hkeys hk hr hne hlen hrow
    induction h with
    | nil => simp
    | cons hab _ ih =>
      intro km hkm
      rcases List.mem_cons.1 hkm with rfl | hkm
      · rw [(matNear_shape hab.2).1, hab.1]
        exact hsh _ (by simp)
      · exact ih (fun km hkm => hsh km (by simp [hkm])) km hkm
  have hrow' : ∀ k, ∃ s, k < size → cdotRowF run (normed mats) vec n inOff (k + outOff) = .ok s ∧ P k s := by
    intro row
    by_cases hlt : row < size
    · obtain ⟨s, h1, h2⟩ := hrow row hlt
      exact ⟨s, fun _ => ⟨h1, h2⟩⟩
    · exact ⟨0, fun h => absurd h hlt⟩
  clear hrow
  rename' hrow' => hrow
  choose row hrow using hrow
  refine ⟨(List.range size).map row, ?_, by simp, ?_⟩
  · unfold kronselectDotF
    rw [if_neg (by omega), if_neg (by omega), normMats_ok mats (hkeys ▸ hk) hsh']
    simp only [bind, Except.bind]
    rw [if_neg]
    · unfold cdotLoopF
      rw [if_neg]
      · rw [foldlM_ok _ (fun o i => o.set i (row i))]
        · rw [foldl_set_all row sched out (by rw [hout]; exact hs), hout]
        · intro o i hi
          have : i < size := by simpa using hs.mem_iff.1 hi
          rw [(hrow i this).1]
          rfl
      · rintro ⟨_, q, hq, hnq⟩
        obtain ⟨gm, hgm, hq⟩ := List.mem_flatMap.1 hq
        obtain ⟨km, hkm, rfl⟩ := List.mem_map.1 hgm
        have : km.1.qubits ∈ mats'.map fun km => km.1.qubits := hkeys ▸ List.mem_map.2 ⟨km, hkm, rfl⟩
        obtain ⟨km', hkm', e⟩ := List.mem_map.1 this
        have := hr km' hkm' q (by rw [e]; exact hq)
        omega
    · rintro (h1 | ⟨gm, hgm, gm', hgm', h1⟩)
      · apply hne
        have : mats = [] := by simpa [normed] using h1
        rw [this] at hkeys
        simpa using hkeys.symm
      · obtain ⟨km, hkm, rfl⟩ := List.mem_map.1 hgm
        obtain ⟨km', hkm', rfl⟩ := List.mem_map.1 hgm'
        have m1 : km.1.qubits ∈ mats'.map fun km => km.1.qubits := hkeys ▸ List.mem_map.2 ⟨km, hkm, rfl⟩
        have m2 : km'.1.qubits ∈ mats'.map fun km => km.1.qubits := hkeys ▸ List.mem_map.2 ⟨km', hkm', rfl⟩
        obtain ⟨a, ha, ea⟩ := List.mem_map.1 m1
        obtain ⟨b, hb, eb⟩ := List.mem_map.1 m2
        apply h1
        show km.1.qubits.length = km'.1.qubits.length
        rw [← ea, ← eb]
        exact hlen a ha b hb
  · intro r hr
    have e : ((List.range size).map row).getD r 0 = row r := by simp [hr]
    rw [e]
    exact (hrow r hr).2

/-! ## All ranges -/

theorem foldl_zipWith {order : List Nat} {w : Nat → List (FC A)} (hw : ∀ i ∈ order, (w i).length = size) {w0 : List (FC A)} (h0 : w0.length = size) :
    (order.foldl (fun s i => List.zipWith (· + ·) s (w i)) w0).length = size ∧
      ∀ k < size, (order.foldl (fun s i => List.zipWith (· + ·) s (w i)) w0).getD k 0
        = order.foldl (fun x i => x + (w i).getD k 0) (w0.getD k 0) := by
  induction order generalizing w0 with
  | nil => exact ⟨h0, fun k _ => rfl⟩
  | cons i order ih =>
    have h1 := hw i (by simp)
    have hl : (List.zipWith (· + ·) w0 (w i)).length = size := by simp [h0, h1]
    obtain ⟨h2, h3⟩ := ih (fun i hi => hw i (by simp [hi])) hl
    refine ⟨h2, fun k hk => ?_⟩
    rw [List.foldl_cons, h3 k hk, List.foldl_cons]
    congr 1
    simp [List.getD_eq_getElem?_getD, show k < w0.length by omega, show k < (w i).length by omega]

/-- What the workers compute, from what they compute in every row. -/
theorem dist_rows (run : Nat → Nat → Nat) {mats : List (Key × Mat (FC A))} {mats' : List (Key × Mat ℂ)}
    (h : List.Forall₂ (fun a b => a.1 = b.1 ∧ MatNear t a.2 b.2) mats mats') (hsize : 0 < size) (hK : K * size = 2 ^ n) {v : List (FC A)}
    (hvec : v.length = K * size) {arena : Nat → Nat → List (FC A)} (hout : ∀ i j, (arena i j).length = size) {sched : Nat → Nat → List Nat}
    (hs : ∀ i j, (sched i j).Perm (List.range size)) {order : Nat → List Nat} (ho : ∀ j < K, (j :: order j).Perm (List.range K))
    (hk : (mats'.map fun km => km.1.qubits).Nodup)
    (hsh : ∀ km ∈ mats', km.2.shape = (2 ^ km.1.qubits.length, 2 ^ km.1.qubits.length))
    (hr : ∀ km ∈ mats', ∀ q ∈ km.1.qubits, q < n) (hne : mats' ≠ [])
    (hlen : ∀ km ∈ mats', ∀ km' ∈ mats', km.1.qubits.length = km'.1.qubits.length) {Q : Nat → Nat → FC A → Prop}
    (hrow : ∀ row < 2 ^ n, ∀ i < K, ∀ run, ∃ s, cdotRowF run (normed mats) (rangeOf size v i) n (i * size) row = .ok s ∧ Q row i s) :
    ∃ w, distKronF run mats n K size v arena sched order = .ok w ∧ w.length = K * size ∧ ∀ r < 2 ^ n, r / size < K ∧
      ∃ s : Nat → FC A, (∀ i < K, Q r i (s i)) ∧ w.getD r 0 = (order (r / size)).foldl (fun x i => x + s i) (s (r / size)) := by
  have hrange : ∀ j < K, ∀ k < size, k + j * size < 2 ^ n := by
    intro j hj k hk
    have : (j + 1) * size ≤ K * size := Nat.mul_le_mul_right _ hj
    rw [Nat.add_mul] at this
    omega
  -- the workers
  have hwork : ∀ i j, ∃ w, i < K → j < K → workerKronF run mats n size v arena sched i j = .ok w ∧ w.length = size ∧ ∀ k < size,
      Q (k + j * size) i (w.getD k 0) := by
    intro i j
    by_cases hi : i < K
    · by_cases hj : j < K
      · have h1 : (i + 1) * size ≤ K * size := Nat.mul_le_mul_right _ hi
        have h2 : (j + 1) * size ≤ K * size := Nat.mul_le_mul_right _ hj
        rw [Nat.add_mul] at h1 h2
        obtain ⟨w, hw⟩ := kron_rows_at (size := size) (outOff := j * size) (inOff := i * size) (vec := rangeOf size v i) (out := arena i j)
          (sched := sched i j) (P := fun k s => Q (k + j * size) i s)
          (run i j) h (by rw [rangeOf_length hvec hi]; omega) (hout i j) (by omega) (hs i j) hk hsh hr hne hlen
          fun k hk => hrow _ (hrange j hj k hk) i hi (run i j)
        exact ⟨w, fun _ _ => hw⟩
      · exact ⟨[], fun _ h => absurd h hj⟩
    · exact ⟨[], fun h => absurd h hi⟩
  choose w hw using hwork
  have hord : ∀ j < K, ∀ i ∈ order j, i < K := by
    intro j hj i hi
    simpa using (ho j hj).mem_iff.1 (List.mem_cons_of_mem _ hi)
  set part := fun j => (order j).foldl (fun s i => List.zipWith (· + ·) s (w i j)) (w j j) with hpart
  have hcollect : ∀ j < K, collectKronF run mats n size v arena sched (order j) j = .ok (part j) := by
    intro j hj
    unfold collectKronF
    simp only [(hw j j hj hj).1, bind, Except.bind]
    apply foldlM_ok
    intro s i hi
    simp only [(hw i j (hord j hj i hi) hj).1]
    rfl
  have hpartlen : ∀ j < K, (part j).length = size ∧ ∀ k < size, (part j).getD k 0
      = (order j).foldl (fun x i => x + (w i j).getD k 0) ((w j j).getD k 0) := by
    intro j hj
    exact foldl_zipWith (fun i hi => (hw i j (hord j hj i hi) hj).2.1) (hw j j hj hj).2.1
  refine ⟨((List.range K).map part).flatten, ?_, ?_, ?_⟩
  · unfold distKronF
    rw [mapM_ok _ part _ fun j hj => hcollect j (by simpa using hj)]
    rfl
  · rw [List.length_flatten, List.map_map, List.map_congr_left (f := List.length ∘ part) (l := List.range K) (g := fun _ => size)
      fun j hj => (hpartlen j (by simpa using hj)).1]
    simp
  · intro r hr'
    have hj : r / size < K := by rwa [Nat.div_lt_iff_lt_mul hsize, hK]
    have hk' : r % size < size := Nat.mod_lt _ hsize
    have er : r / size * size + r % size = r := by rw [Nat.mul_comm]; exact Nat.div_add_mod r size
    have er' : r % size + r / size * size = r := by omega
    have hfl := flatten_getD (size := size) (0 : FC A) (L := (List.range K).map part) (j := r / size) (k := r % size) (by
      intro l hl
      obtain ⟨j, hj, rfl⟩ := List.mem_map.1 hl
      exact (hpartlen j (by simpa using hj)).1) (by simpa using hj) hk'
    rw [er] at hfl
    have hget : ((List.range K).map part).getD (r / size) [] = part (r / size) := by simp [hj]
    refine ⟨hj, fun i => (w i (r / size)).getD (r % size) 0, fun i hi => ?_, by rw [hfl, hget, (hpartlen _ hj).2 _ hk']⟩
    have := (hw i _ hi hj).2.2 _ hk'
    rwa [er'] at this

theorem normed_near {mats : List (Key × Mat (FC A))} {mats' : List (Key × Mat ℂ)}
    (h : List.Forall₂ (fun a b => a.1 = b.1 ∧ MatNear t a.2 b.2) mats mats') :
    List.Forall₂ (fun (a : List Nat × Mat (FC A)) b => a.1 = b.1 ∧ MatNear t a.2 b.2) (normed mats) (normed mats') := by
  induction h with
  | nil => exact .nil
  | cons hab _ ih => exact .cons ⟨congrArg Key.qubits hab.1, hab.2⟩ ih

theorem near_dist [A.Ideal] (run : Nat → Nat → Nat) {mats : List (Key × Mat (FC A))} {mats' : List (Key × Mat ℂ)}
    (h : List.Forall₂ (fun a b => a.1 = b.1 ∧ MatNear t a.2 b.2) mats mats') (hsize : 0 < size) (hK : K * size = 2 ^ n) {v : List (FC A)}
    (hvec : v.length = K * size) {arena : Nat → Nat → List (FC A)} (hout : ∀ i j, (arena i j).length = size) {sched : Nat → Nat → List Nat}
    (hs : ∀ i j, (sched i j).Perm (List.range size)) {order : Nat → List Nat} (ho : ∀ j < K, (j :: order j).Perm (List.range K))
    (hk : (mats'.map fun km => km.1.qubits).Nodup)
    (hsh : ∀ km ∈ mats', km.2.shape = (2 ^ km.1.qubits.length, 2 ^ km.1.qubits.length))
    (hr : ∀ km ∈ mats', ∀ q ∈ km.1.qubits, q < n) (hwf : ∀ km ∈ mats', km.2.WF) (hne : mats' ≠ [])
    (hlen : ∀ km ∈ mats', ∀ km' ∈ mats', km.1.qubits.length = km'.1.qubits.length) :
    ∃ w, distKronF run mats n K size v arena sched order = .ok w ∧ w.length = K * size ∧ ∀ r < 2 ^ n,
      ‖(w.getD r 0).val - kronApply n (opsOf mats') (fun c => (v.getD c 0).val) r‖
        ≤ ((1 + A.u) ^ ((t + 1) * mats.length + 1 + 2 ^ (sortedSet (mats'.flatMap (·.1.qubits))).length + (K - 1)) - 1)
          * ∑ c ∈ range (2 ^ n), ‖kronEntry n (opsOf mats') r c‖ * ‖(v.getD c 0).val‖ := by
  have hN := normed_near h
  have hv : ValidMats n (normed mats') := by
    intro gm hgm
    obtain ⟨km, hkm, rfl⟩ := List.mem_map.1 hgm
    exact ⟨hr km hkm, hwf km hkm, hsh km hkm⟩
  have e : (normed mats').flatMap (·.1) = mats'.flatMap (·.1.qubits) := by simp [normed, List.flatMap_map]
  have e' : (normed mats).length = mats.length := by simp [normed]
  have hrows : ∀ row, ∃ (z : Nat → ℂ) (B : Nat → ℝ), row < 2 ^ n → _ := fun row => by
    by_cases hlt : row < 2 ^ n
    · obtain ⟨z, B, h⟩ := slice_rows hN hv hsize hK hvec hlt
      exact ⟨z, B, fun _ => h⟩
    · exact ⟨0, 0, fun h => absurd h hlt⟩
  choose z B hzB using hrows
  rw [denote_normed, e, e'] at hzB
  obtain ⟨w, h1, h2, h3⟩ := dist_rows run h hsize hK hvec hout hs ho hk hsh hr hne hlen
    (fun row hlt i hi run => ((hzB row hlt).2 i hi run).2)
  refine ⟨w, h1, h2, fun r hr' => ?_⟩
  obtain ⟨hj, s, hs, hw⟩ := h3 r hr'
  obtain ⟨hsum, hz⟩ := hzB r hr'
  obtain ⟨hs1, hs2⟩ := hsum _ (ho _ hj)
  have hol : (order (r / size)).length = K - 1 := by
    have := (ho _ hj).length_eq
    simp at this
    omega
  have hord : ∀ i ∈ order (r / size), i < K := by
    intro i hi
    simpa using (ho _ hj).mem_iff.1 (List.mem_cons_of_mem _ hi)
  have := add_parts (l := 0) (order (r / size)) s (z r) (B r) (fun i hi => ⟨(hz i (hord i hi) 0).1, hs i (hord i hi)⟩) (hz _ hj 0).1 (hs _ hj)
  rw [List.map_cons, List.sum_cons] at hs1 hs2
  rw [hs1, hs2, hol, ← hw] at this
  exact this

theorem mats_dist [A.Ideal] (run : Nat → Nat → Nat) {L : List Nat} {T : (Nat → ℂ) → Nat → ℂ} {mats : List (Key × Mat ℂ)}
    {matsF : List (Key × Mat (FC A))}
    (hlt : ∀ q ∈ L, q < n) (hne : mats ≠ []) (hlen : ∀ km ∈ mats, ∀ km' ∈ mats, km.1.qubits.length = km'.1.qubits.length)
    (hkeys : (mats.map fun km => km.1.qubits).Nodup)
    (hshapes : ∀ km ∈ mats, km.2.shape = (2 ^ km.1.qubits.length, 2 ^ km.1.qubits.length))
    (hsub : ∀ km ∈ mats, ∀ q ∈ km.1.qubits, q ∈ L) (hwf : ∀ km ∈ mats, km.2.WF) (hlength : mats.length ≤ L.length + 1)
    (hsem : ∀ v r, r < 2 ^ n → kronApply n (opsOf mats) v r = T v r)
    (huni : opMat n (opsOf mats) * opMat n (adjOps (opsOf mats)) = 1)
    (hF : List.Forall₂ (fun (a : Key × Mat (FC A)) (b : Key × Mat ℂ) => a.1 = b.1 ∧ MatNear t a.2 b.2) matsF mats)
    (hsize : 0 < size) (hK : K * size = 2 ^ n) {v : List (FC A)}
    (hv : v.length = K * size) {arena : Nat → Nat → List (FC A)} (hout : ∀ i j, (arena i j).length = size) {sched : Nat → Nat → List Nat}
    (hs : ∀ i j, (sched i j).Perm (List.range size)) {order : Nat → List Nat} (ho : ∀ j < K, (j :: order j).Perm (List.range K)) :
    ∃ w, distKronF run matsF n K size v arena sched order = .ok w ∧ w.length = K * size ∧
      dist2 n (fun c => (w.getD c 0).val) (T fun c => (v.getD c 0).val)
        ≤ gateErrD A.u t L.length K * dist2 n (fun c => (v.getD c 0).val) 0 := by
  have hr : ∀ km ∈ mats, ∀ q ∈ km.1.qubits, q < n := fun km hkm q hq => hlt q (hsub km hkm q hq)
  obtain ⟨w, h1, h2, h3⟩ := near_dist run hF hsize hK hv hout hs ho hkeys hshapes hr hwf hne hlen
  refine ⟨w, h1, h2, ?_⟩
  set S := sortedSet (mats.flatMap (·.1.qubits)) with hSdef
  have hS : S.Nodup := nodup_sortedSet _
  have hmem : ∀ q, q ∈ S ↔ q ∈ (opsOf mats).flatMap (·.1) := by
    intro q
    rw [hSdef, mem_sortedSet]
    simp [opsOf]
  have hn : ∀ q ∈ S, q < n := by
    intro q hq
    obtain ⟨km, hkm, hq⟩ := List.mem_flatMap.1 (mem_sortedSet.1 hq)
    exact hr km hkm q hq
  have hSlen : S.length ≤ L.length := by
    apply (hS.subperm ?_).length_le
    intro q hq
    obtain ⟨km, hkm, hq⟩ := List.mem_flatMap.1 (mem_sortedSet.1 hq)
    exact hsub km hkm q hq
  have hmlen : matsF.length ≤ L.length + 1 := hF.length_eq ▸ hlength
  set W := L.length
  set γ := (1 + A.u) ^ ((t + 1) * matsF.length + 1 + 2 ^ S.length + (K - 1)) - 1
  set v' : Nat → ℂ := fun c => (v.getD c 0).val
  have hγ0 : 0 ≤ γ := by linarith [one_le_pow_u A ((t + 1) * matsF.length + 1 + 2 ^ S.length + (K - 1))]
  have hγ : γ ≤ (1 + A.u) ^ ((t + 1) * (W + 1) + 1 + 2 ^ W + (K - 1)) - 1 := by
    have : (t + 1) * matsF.length + 1 + 2 ^ S.length + (K - 1) ≤ (t + 1) * (W + 1) + 1 + 2 ^ W + (K - 1) := by
      gcongr
      · norm_num
    have := pow_le_pow_right₀ (by linarith [A.u_nonneg] : 1 ≤ 1 + A.u) this
    linarith
  have h4 : dist2 n (fun c => (w.getD c 0).val) (T v') ≤ γ * (√(2 ^ S.length) * dist2 n v' 0) := by
    unfold dist2
    rw [← Real.sqrt_mul (by positivity), ← Real.sqrt_sq hγ0, ← Real.sqrt_mul (by positivity)]
    apply Real.sqrt_le_sqrt
    calc ∑ r ∈ range (2 ^ n), ‖(w.getD r 0).val - T v' r‖ ^ 2
        ≤ ∑ r ∈ range (2 ^ n), (γ * ∑ c ∈ range (2 ^ n), ‖kronEntry n (opsOf mats) r c‖ * ‖v' c‖) ^ 2 := by
          apply Finset.sum_le_sum
          intro r hr
          have hr : r < 2 ^ n := by simpa using hr
          rw [← hsem v' r hr]
          exact pow_le_pow_left₀ (norm_nonneg _) (h3 r hr) 2
      _ = γ ^ 2 * ∑ r ∈ range (2 ^ n), (∑ c ∈ range (2 ^ n), ‖kronEntry n (opsOf mats) r c‖ * ‖v' c‖) ^ 2 := by
          rw [Finset.mul_sum]
          simp only [mul_pow]
      _ ≤ γ ^ 2 * (2 ^ S.length * ∑ r ∈ range (2 ^ n), ‖v' r - (0 : Nat → ℂ) r‖ ^ 2) := by
          have := abs_norm hS hmem hn huni v'
          simp only [Pi.zero_apply, sub_zero]
          gcongr
  refine h4.trans ?_
  unfold gateErrD
  rw [← mul_assoc]
  have h5 : √((2 : ℝ) ^ S.length) ≤ √(2 ^ W) := Real.sqrt_le_sqrt (pow_le_pow_right₀ (by norm_num) hSlen)
  have := dist2_nonneg n v' 0
  have := hγ0.trans hγ
  gcongr

/-- One gate on a grid of workers in rounded arithmetic. -/
theorem gate_dist [A.Ideal] (run : Nat → Nat → Nat) {g : Gate} {gs : List (List Nat)} (hf : Fits g gs) (hgs : GroupsOK n gs)
    {mats : List (Key × Mat ℂ)} {matsF : List (Key × Mat (FC A))} (hm : g.feedMats false gs = .ok mats)
    (hF : List.Forall₂ (fun (a : Key × Mat (FC A)) (b : Key × Mat ℂ) => a.1 = b.1 ∧ MatNear t a.2 b.2) matsF mats)
    (hsize : 0 < size) (hK : K * size = 2 ^ n) {v : List (FC A)}
    (hv : v.length = K * size) {arena : Nat → Nat → List (FC A)} (hout : ∀ i j, (arena i j).length = size) {sched : Nat → Nat → List Nat}
    (hs : ∀ i j, (sched i j).Perm (List.range size)) {order : Nat → List Nat} (ho : ∀ j < K, (j :: order j).Perm (List.range K)) :
    ∃ w, distKronF run matsF n K size v arena sched order = .ok w ∧ w.length = K * size ∧
      dist2 n (fun c => (w.getD c 0).val) (gateApply n g gs fun c => (v.getD c 0).val)
        ≤ gateErrD A.u t gs.flatten.length K * dist2 n (fun c => (v.getD c 0).val) 0 := by
  obtain ⟨mats', hgm⟩ := gm_exists g gs hf hgs
  have e : mats' = mats := by
    have := hgm.ok
    simp only [Gate.feedMats, this, bind, Except.bind, Bool.false_eq_true, if_false, pure, Except.pure] at hm
    injection hm
  subst e
  exact mats_dist run hgs.2 hgm.ne hgm.len hgm.keys hgm.shapes hgm.sub hgm.wf (makemats_length hf hgs hgm.ok) hgm.sem hgm.uni'
    hF hsize hK hv hout hs ho

end QIP
