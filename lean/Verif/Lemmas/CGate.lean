import Verif.Lemmas.CKernel
import Verif.Lemmas.KronSelect
import Verif.Lemmas.Gates
import Verif.Spec.CKernel

/-!
# The calls of the compiled kernel made for gates stay within C ints
-/

namespace QIP.C32

open QIP QIP.Spec

variable {R : Type}

theorem intsOK_of_shape {m : Mat R} (h : DenseSmall m) {k : Nat} (hk : k ≤ 30) (hs : m.shape.1 ≤ 2 ^ k) : IntsOK m := by
  have h30 : 2 ^ k ≤ 2 ^ 30 := Nat.pow_le_pow_right (by norm_num) hk
  induction m with
  | dense r c d =>
    change r * r ≤ 2 ^ 31
    have := Nat.mul_le_mul h.1 h.1
    omega
  | swap j =>
    change j ≤ 15
    simp only [Mat.shape] at hs
    have := (Nat.pow_le_pow_iff_right (by norm_num : 1 < 2)).1 hs
    omega
  | cmat m ih =>
    simp only [Mat.shape] at hs
    refine ⟨?_, ih h (by omega)⟩
    simp only [Mat.shape]
    omega

theorem callInts {n : Nat} {mats : List (Key × Mat R)} {vec out : List R} {inOff outOff : Nat}
    (h : CallOK n mats vec out inOff outOff) (hn : n ≤ 30) (hnd : ∀ km ∈ mats, km.1.qubits.Nodup)
    (hd : ∀ km ∈ mats, DenseSmall km.2) (hfew : mats.length < 2 ^ 31) : CallInts n (normed mats) := by
  have hlen : ∀ l : List Nat, l.Nodup → (∀ q ∈ l, q < n) → l.length ≤ n := by
    intro l h1 h2
    have : l ⊆ List.range n := fun q hq => List.mem_range.2 (h2 q hq)
    simpa using (h1.subperm this).length_le
  refine ⟨by omega, by simpa [normed] using hfew, ?_, ?_⟩
  · intro gm hgm
    obtain ⟨km, hkm, rfl⟩ := List.mem_map.1 hgm
    have := hlen _ (hnd km hkm) (h.range km hkm)
    exact intsOK_of_shape (hd km hkm) (show km.1.qubits.length ≤ 30 by omega) (by simp [h.shapes km hkm])
  · have := hlen (sortedSet ((normed mats).flatMap (·.1))) (nodup_sortedSet _) (by
      intro q hq
      obtain ⟨gm, hgm, hq⟩ := List.mem_flatMap.1 (mem_sortedSet.1 hq)
      obtain ⟨km, hkm, rfl⟩ := List.mem_map.1 hgm
      exact h.range km hkm q hq)
    omega

theorem small_gate {n : Nat} (g : Gate) (gs : List (List Nat)) (hf : Fits g gs) (hgs : GroupsOK n gs)
    (mats : List (Key × Mat ℂ)) (hm : g.makemats gs = .ok mats) :
    (∀ km ∈ mats, DenseSmall km.2 ∧ km.1.qubits.Nodup) ∧ mats.length ≤ gs.flatten.length + 1 := by
  have hpq : ∀ d : List ℂ, (∀ km ∈ perQubit (.dense 2 2 d) gs, DenseSmall km.2 ∧ km.1.qubits.Nodup) ∧
      (perQubit (.dense 2 2 d) gs).length ≤ gs.flatten.length + 1 := by
    intro d
    rw [perQubit_eq _ _ hgs.1]
    refine ⟨?_, by rw [List.length_map]; omega⟩
    intro km hkm
    obtain ⟨_, _, rfl⟩ := List.mem_map.1 hkm
    exact ⟨⟨by norm_num, by norm_num⟩, by simp [Key.qubits]⟩
  induction g generalizing gs mats with
  | swap k =>
    obtain ⟨a, b, rfl, ha, hb⟩ := hf
    simp only [Gate.makemats, Except.ok.injEq] at hm
    subst hm
    have := hgs.1
    simp only [List.flatten_cons, List.flatten_nil, List.append_nil] at this
    refine ⟨?_, ?_⟩
    · intro km hkm
      simp only [List.mem_singleton] at hkm
      subst hkm
      exact ⟨trivial, this⟩
    · simp
  | c op ih =>
    obtain ⟨q, rest, rfl, hf⟩ := hf
    obtain ⟨mats0, h0⟩ := gm_exists op rest hf hgs.tail
    have h1 := gm_ctrl hgs h0
    rw [h1.ok, Except.ok.injEq] at hm
    subst hm
    have ih' := ih rest hf hgs.tail mats0 h0.ok (by
      intro d
      rw [perQubit_eq _ _ hgs.tail.1]
      refine ⟨?_, by rw [List.length_map]; omega⟩
      intro km hkm
      obtain ⟨_, _, rfl⟩ := List.mem_map.1 hkm
      exact ⟨⟨by norm_num, by norm_num⟩, by simp [Key.qubits]⟩)
    refine ⟨?_, by have := ih'.2; rw [List.length_map, List.flatten_cons, List.length_append]; omega⟩
    intro km hkm
    obtain ⟨x, hx, rfl⟩ := List.mem_map.1 hkm
    refine ⟨(ih'.1 x hx).1, ?_⟩
    have hsub := h0.sub x hx
    have := hgs.1
    simp only [List.flatten_cons, List.singleton_append, List.nodup_cons] at this
    change (q :: x.1.qubits).Nodup
    exact List.nodup_cons.2 ⟨fun h => this.1 (hsub _ h), (ih'.1 x hx).2⟩
  | _ =>
    simp only [Gate.makemats, Except.ok.injEq] at hm
    subst hm
    exact hpq _

theorem small_conj {m m' : Mat ℂ} (h : DenseSmall m) (hd : m.conj = .ok m') : DenseSmall m' := by
  induction m generalizing m' with
  | dense r c d =>
    cases hd
    exact h
  | swap k => cases hd
  | cmat m ih =>
    unfold Mat.conj at hd
    rcases hc : m.conj with e | m1
    · rw [hc] at hd; cases hd
    · rw [hc] at hd
      cases hd
      exact (show DenseSmall m1 from ih h hc)

theorem small_T {m m' : Mat ℂ} (h : DenseSmall m) (hd : m.T = .ok m') : DenseSmall m' := by
  induction m generalizing m' with
  | dense r c d =>
    cases hd
    exact ⟨h.2, h.1⟩
  | swap k => cases hd
  | cmat m ih =>
    unfold Mat.T at hd
    rcases hc : m.T with e | m1
    · rw [hc] at hd; cases hd
    · rw [hc] at hd
      cases hd
      exact (show DenseSmall m1 from ih h hc)

theorem mapM_mem {α β : Type} {f : α → Except PyErr β} {l : List α} {l' : List β} (h : l.mapM f = .ok l') :
    ∀ y ∈ l', ∃ x ∈ l, f x = .ok y := by
  induction l generalizing l' with
  | nil => cases h; simp
  | cons a l ih =>
    rw [List.mapM_cons] at h
    rcases ha : f a with e | b
    · rw [ha] at h; cases h
    · rw [ha] at h
      rcases hl : l.mapM f with e | bs
      · rw [hl] at h; cases h
      · rw [hl] at h
        cases h
        intro y hy
        rcases List.mem_cons.1 hy with rfl | hy
        · exact ⟨a, by simp, ha⟩
        · obtain ⟨x, hx, hfx⟩ := ih hl y hy
          exact ⟨x, by simp [hx], hfx⟩

/-- The matrices with which a gate calls the kernel. -/
theorem feed_call {n : Nat} {g : Gate} {gs : List (List Nat)} (hf : Fits g gs) (hgs : GroupsOK n gs) (dagger : Bool)
    {ms : List (Key × Mat ℂ)} (hm : g.feedMats dagger gs = .ok ms) {state arena : List ℂ} (hs : state.length = 2 ^ n)
    (ha : arena.length = 2 ^ n) :
    CallOK n ms state arena 0 0 ∧ (∀ km ∈ ms, km.1.qubits.Nodup) ∧ (∀ km ∈ ms, DenseSmall km.2) ∧ ms.length ≤ n + 1 := by
  obtain ⟨mats, h⟩ := gm_exists g gs hf hgs
  obtain ⟨h1, h2⟩ := small_gate g gs hf hgs mats h.ok
  have hgl : gs.flatten.length ≤ n := by
    have : gs.flatten ⊆ List.range n := fun q hq => List.mem_range.2 (hgs.2 q hq)
    simpa using (hgs.1.subperm this).length_le
  cases dagger with
  | false =>
    unfold Gate.feedMats at hm
    simp only [h.ok, bind, Except.bind, Bool.false_eq_true, if_false, pure, Except.pure, Except.ok.injEq] at hm
    subst hm
    exact ⟨⟨h.keys, h.shapes, fun km hkm q hq => hgs.2 q (h.sub km hkm q hq), h.wf, by omega, by omega⟩,
      fun km hkm => (h1 km hkm).2, fun km hkm => (h1 km hkm).1, by omega⟩
  | true =>
    rcases hsw : hasSwap g with _ | _
    · obtain ⟨dm, e1, e2, e3, e4, -⟩ := feedMats_dagger hf hgs h hsw
      rw [hm, Except.ok.injEq] at e1
      subst e1
      have hk : ∀ km ∈ ms, ∃ km' ∈ mats, km'.1 = km.1 := by
        intro km hkm
        have : km.1 ∈ mats.map (·.1) := by rw [← e2]; exact List.mem_map_of_mem hkm
        obtain ⟨x, hx, hxe⟩ := List.mem_map.1 this
        exact ⟨x, hx, hxe⟩
      refine ⟨⟨?_, e3, ?_, e4, by omega, by omega⟩, ?_, ?_, ?_⟩
      · have := congrArg (List.map Key.qubits) e2
        rw [List.map_map, List.map_map] at this
        have hkeys := h.keys
        change (mats.map (Key.qubits ∘ (·.1))).Nodup at hkeys
        rw [← this] at hkeys
        exact hkeys
      · intro km hkm q hq
        obtain ⟨km', hkm', e⟩ := hk km hkm
        rw [← e] at hq
        exact hgs.2 q (h.sub km' hkm' q hq)
      · intro km hkm
        obtain ⟨km', hkm', e⟩ := hk km hkm
        rw [← e]
        exact (h1 km' hkm').2
      · intro km hkm
        unfold Gate.feedMats at hm
        simp only [h.ok, bind, Except.bind, if_true] at hm
        obtain ⟨x, hx, hxe⟩ := mapM_mem hm km hkm
        rcases hc : x.2.conj with e | m1
        · rw [hc] at hxe; cases hxe
        · rw [hc] at hxe
          dsimp only at hxe
          rcases ht : m1.T with e | m2
          · rw [ht] at hxe; cases hxe
          · rw [ht] at hxe
            cases hxe
            exact small_T (small_conj (h1 x hx).1 hc) ht
      · have := congrArg List.length e2
        simp only [List.length_map] at this
        omega
    · rw [feedMats_dagger_swap hf hgs hsw] at hm
      cases hm

/-! ## Where C ints do not suffice -/

theorem trunc_big {n : Nat} (h : 31 ≤ n) : (trunc (2 ^ n)).toInt.toNat = 0 := by
  obtain ⟨k, rfl⟩ := Nat.exists_eq_add_of_le h
  rcases k with - | k
  · decide
  · have : trunc (2 ^ (31 + (k + 1))) = 0 := by
      unfold trunc
      apply BitVec.eq_of_toNat_eq
      have : 2 ^ (31 + (k + 1)) = 2 ^ 32 * 2 ^ k := by ring
      rw [BitVec.toNat_ofNat, this, Nat.mul_mod_right]
      rfl
    rw [this]
    decide

theorem foldlM_not_ok {α β : Type} {f : β → α → Except PyErr β} {l : List α} {a : α} (ha : a ∈ l)
    (hf : ∀ b r, f b a ≠ .ok r) (b r : β) : l.foldlM f b ≠ .ok r := by
  induction l generalizing b with
  | nil => cases ha
  | cons x l ih =>
    rw [List.foldlM_cons]
    rcases hx : f b x with e | b'
    · intro h; cases h
    · rcases List.mem_cons.1 ha with rfl | ha
      · exact absurd hx (hf b b')
      · exact ih ha b'

theorem kronselectDotC_norm [Zero R] [One R] [Add R] [Mul R] [DecidableEq R] {sched : List Nat → List Nat}
    {mats : List (Key × Mat R)} {new : List (List Nat × Mat R)} {vec : List R} {n : Nat} {out : List R} {inOff outOff : Nat}
    (h1 : ¬ vec.length + inOff > 2 ^ n) (h2 : ¬ out.length + outOff > 2 ^ n) (h3 : normMats mats = .ok new)
    (h4 : ¬ (new = [] ∨ ∃ gm ∈ new, ∃ gm' ∈ new, gm.1.length ≠ gm'.1.length)) :
    kronselectDotC sched mats vec n out inOff outOff = cdotLoopC sched new vec n out inOff outOff := by
  unfold kronselectDotC
  rw [if_neg h1, if_neg h2, h3]
  simp only [bind, Except.bind]
  rw [if_neg h4]

end QIP.C32
