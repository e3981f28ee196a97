import Verif.Lemmas.CFunc
import Verif.Props.FuncApply

/-!
# C94: `func_apply` on C ints
-/

namespace QIP.Props

open QIP QIP.Spec QIP.C32

variable {R : Type}

/-- The word `n_remaining`. -/
theorem nrem_I {n : Nat} {reg1 reg2 : List Nat} (h : RegsOK n reg1 reg2) :
    BitVec.ofInt 32 ((n : Int) - (reg1.length + reg2.length : Nat)) = I (faOther n reg1 reg2).length := by
  have hsum := length_le_of_lt h.nodup h.lt
  rw [List.length_append] at hsum
  rw [h.length_other, ← Int.ofNat_sub hsum]
  exact BitVec.ofInt_natCast 32 _

/-- What `func_apply` does before the loop nest. -/
theorem funcApplyC_start [Zero R] {n : Nat} {reg1 reg2 : List Nat} (h : RegsOK n reg1 reg2) (f : Nat → Except PyErr Int)
    {vec out : List R} {inOff outOff : Nat} (hin : inOff < 2 ^ 31) (hout : outOff < 2 ^ 31) (pregen : Bool)
    (order : List (Nat × Nat × Nat)) :
    funcApplyC reg1 reg2 f vec n out inOff outOff pregen order =
      if vec.length ≠ out.length ∨ 2 ^ n ≠ vec.length then .error .valueError
      else if vec.length + inOff > 2 ^ n then .error .valueError
      else if out.length + outOff > 2 ^ n then .error .valueError
      else (if pregen then ((List.range (2 ^ reg1.length)).mapM (callN f)).map (List.map I) else .ok []).bind fun tab =>
        order.foldlM (fun o t => (if pregen then read tab (I t.1) else (callN f t.1).map I).bind fun y =>
          assignC (I n) (reg1.map I) (reg2.map I) ((faOther n reg1 reg2).map I) (I (faOther n reg1 reg2).length) vec y (I t.1)
            (I t.2.1) (I t.2.2) o) (List.replicate (2 ^ n) 0) := by
  have hs := h.small
  have hsum := length_le_of_lt h.nodup h.lt
  rw [List.length_append] at hsum
  have hle : 2 ^ n ≤ 2 ^ 30 := Nat.pow_le_pow_right (by norm_num) hs
  unfold funcApplyC
  rw [mapM_ofPy fun q hq => by have := h.lt q (by simp [hq]); omega, mapM_ofPy fun q hq => by have := h.lt q (by simp [hq]); omega,
    ofPy_ok (by omega : n < 2 ^ 31), ofPy_ok hin, ofPy_ok hout]
  simp only [bind, Except.bind]
  rw [pow2L_I (by omega)]
  dsimp only
  by_cases c1 : vec.length ≠ out.length ∨ 2 ^ n ≠ vec.length
  · rw [if_pos c1, if_pos c1]
  rw [if_neg c1, if_neg c1]
  by_cases c2 : vec.length + inOff > 2 ^ n
  · rw [if_pos c2, if_pos c2]
  rw [if_neg c2, if_neg c2]
  by_cases c3 : out.length + outOff > 2 ^ n
  · rw [if_pos c3, if_pos c3]
  rw [if_neg c3, if_neg c3, zeroed_eq _ (by omega) (by omega)]
  dsimp only
  rw [nrem_I h, trunc_eq, pow2L_I (by omega)]
  dsimp only
  have e : ((List.range (2 ^ reg1.length)).mapM fun x => (f x).bind ofPyInt)
      = ((List.range (2 ^ reg1.length)).mapM (callN f)).map (List.map I) := by
    rw [← mapM_map]
    simp only [callC_eq]
  cases pregen with
  | false =>
    simp only [Bool.false_eq_true, if_false]
    refine congrArg (fun g => order.foldlM g (List.replicate (2 ^ n) (0 : R))) ?_
    funext o t
    rw [← callC_eq]
    rcases f t.1 with e | v
    · rfl
    · simp only [Except.bind]
      rcases ofPyInt v with e | w <;> rfl
  | true =>
    simp only [if_true]
    rw [← e]
    rfl

/-- C94 (partial: see `C94_reads_outside` for the other registers): on at most 30 qubits, with disjoint registers and at least as many other qubits as register 2 has, `func_apply` with
its 32-bit ints does what the kernel on unbounded numbers does, for every function (also raising ones), all sizes of the buffers
and every schedule: nothing overflows, no memory outside the buffers is touched. -/
theorem C94_func_apply_partial [Zero R] {n : Nat} {reg1 reg2 : List Nat} (h : RegsOK n reg1 reg2)
    (h2 : reg2.length ≤ (bystanders n reg1 reg2).length) (f : Nat → Except PyErr Int) (vec out : List R) {inOff outOff : Nat}
    (hin : inOff < 2 ^ 31) (hout : outOff < 2 ^ 31) (pregen : Bool) (order : List (Nat × Nat × Nat))
    (hord : order.Perm (faCounters n reg1 reg2)) (garb : Nat → Nat) :
    funcApplyC reg1 reg2 f vec n out inOff outOff pregen order = funcApply reg1 reg2 f vec n out inOff outOff pregen order garb := by
  rw [← faOther_eq] at h2
  rw [funcApplyC_start h f hin hout]
  unfold funcApply
  by_cases c1 : vec.length ≠ out.length ∨ 2 ^ n ≠ vec.length
  · rw [if_pos c1, if_pos c1]
  rw [if_neg c1, if_neg c1]
  by_cases c2 : vec.length + inOff > 2 ^ n
  · rw [if_pos c2, if_pos c2]
  rw [if_neg c2, if_neg c2]
  by_cases c3 : out.length + outOff > 2 ^ n
  · rw [if_pos c3, if_pos c3]
  have c4 : ¬ ∃ q ∈ reg1 ++ reg2, n ≤ q := fun ⟨q, hq, hq'⟩ => absurd (h.lt q hq) (by omega)
  rw [if_neg c3, if_neg c3, if_neg c4]
  have hs := h.small
  have hsum := length_le_of_lt h.nodup h.lt
  rw [List.length_append] at hsum
  have hoth := h.length_other
  have small : ∀ k ≤ n, 2 ^ k ≤ 2 ^ 30 := fun k hk => Nat.pow_le_pow_right (by norm_num) (by omega)
  have loop : ∀ (g : Nat × Nat × Nat → Except PyErr Nat) (g' : Nat × Nat × Nat → Except PyErr CInt),
      (∀ t ∈ order, g' t = (g t).map I ∧ ∀ y, g t = .ok y → y < 2 ^ 32) →
      order.foldlM (fun o t => (g' t).bind fun y =>
          assignC (I n) (reg1.map I) (reg2.map I) ((faOther n reg1 reg2).map I) (I (faOther n reg1 reg2).length) vec y (I t.1)
            (I t.2.1) (I t.2.2) o) (List.replicate (2 ^ n) 0)
        = order.foldlM (fun o t => (g t).bind fun y =>
          .ok (faAssign n reg1 reg2 garb vec y t.1 t.2.1 t.2.2 o)) (List.replicate (2 ^ n) 0) := by
    intro g g' hg
    refine foldlM_agree (fun o => o.length = 2 ^ n) (by simp) ?_
    intro o ho t ht
    obtain ⟨b1, b2, b3⟩ := mem_faCounters.1 (hord.mem_iff.1 ht)
    have s1 := small reg1.length (by omega)
    have s2 := small reg2.length (by omega)
    have s3 := small (faOther n reg1 reg2).length (by omega)
    rw [(hg t ht).1]
    rcases hy : g t with e | y
    · exact ⟨rfl, fun s' hs' => by cases hs'⟩
    · simp only [Except.map, Except.bind]
      rw [assignC_I h h2 (by omega) ho ((hg t ht).2 y hy) (by omega) (by omega) (by omega) garb]
      refine ⟨rfl, ?_⟩
      intro s' hs'
      cases hs'
      rw [length_set_ok, ho]
  cases pregen with
  | false =>
    simp only [Bool.false_eq_true, if_false]
    refine (loop (fun t => callN f t.1) _ fun t _ => ⟨rfl, fun y hy => callN_lt hy⟩).trans ?_
    refine congrArg (fun g => order.foldlM g (List.replicate (2 ^ n) (0 : R))) ?_
    funext o t
    unfold callN
    rcases f t.1 with e | v <;> rfl
  | true =>
    simp only [if_true]
    change _ = Except.bind ((List.range (2 ^ reg1.length)).mapM (callN f)) _
    rcases hm : (List.range (2 ^ reg1.length)).mapM (callN f) with e | tab
    · rfl
    obtain ⟨hl, hb⟩ := mapM_prop (· < 2 ^ 32) hm fun a b hb => callN_lt hb
    rw [List.length_range] at hl
    refine loop (fun t => .ok (tab.getD t.1 0)) (fun t => read (tab.map I) (I t.1)) fun t ht => ?_
    obtain ⟨b1, -, -⟩ := mem_faCounters.1 (hord.mem_iff.1 ht)
    have s1 := small reg1.length (by omega)
    have hlt : t.1 < tab.length := by omega
    refine ⟨?_, fun y hy => ?_⟩
    · rw [read_I (by omega) (by simpa using hlt), List.getD_eq_getElem _ _ hlt]
      simp [Except.map]
    · rw [List.getD_eq_getElem _ _ hlt] at hy
      cases hy
      exact hb _ (List.getElem_mem hlt)

/-- C94 is false of the other registers: with fewer other qubits than register 2 has (in particular when the two registers are
all qubits) the kernel reads behind the end of `other_indices`, whatever the function, the state and the schedule. -/
theorem C94_reads_outside [Zero R] {n : Nat} {reg1 reg2 : List Nat} (h : RegsOK n reg1 reg2)
    (h2 : (bystanders n reg1 reg2).length < reg2.length) {fe : Nat → Except PyErr Int} {f : Nat → Int} (hf : Returns reg1 fe f)
    {vec out : List R} (hv : vec.length = 2 ^ n) (ho : out.length = 2 ^ n) (pregen : Bool) (order : List (Nat × Nat × Nat))
    (hord : order.Perm (faCounters n reg1 reg2)) :
    funcApplyC reg1 reg2 fe vec n out 0 0 pregen order = .error .ub := by
  rw [← faOther_eq] at h2
  rw [funcApplyC_start h fe (by norm_num) (by norm_num), if_neg (by omega), if_neg (by omega), if_neg (by omega)]
  have hs := h.small
  have hsum := length_le_of_lt h.nodup h.lt
  rw [List.length_append] at hsum
  have hoth := h.length_other
  have small : ∀ k ≤ n, 2 ^ k ≤ 2 ^ 30 := fun k hk => Nat.pow_le_pow_right (by norm_num) (by omega)
  have l1 : ∀ q ∈ reg1, q < n := fun q hq => h.lt q (by simp [hq])
  have l2 : ∀ q ∈ reg2, q < n := fun q hq => h.lt q (by simp [hq])
  have l3 : ∀ q ∈ faOther n reg1 reg2, q < n := fun q hq => (mem_faOther.1 hq).1
  have bad : ∀ (y : CInt) (t : Nat × Nat × Nat), t ∈ order → ∀ o : List R,
      assignC (I n) (reg1.map I) (reg2.map I) ((faOther n reg1 reg2).map I) (I (faOther n reg1 reg2).length) vec y (I t.1)
            (I t.2.1) (I t.2.2) o = .error .ub := by
    intro y t ht o
    obtain ⟨b1, b2, b3⟩ := mem_faCounters.1 (hord.mem_iff.1 ht)
    have s3 := small (faOther n reg1 reg2).length (by omega)
    unfold assignC
    rw [(placeC_I hs l1 (by omega) _).1, (placeC_I hs l2 (by omega) _).1, (placeC_I hs l2 (by omega) _).1, List.length_map,
      rOffC_ub hs l3 (by omega) h2 (by omega)]
    rfl
  have hne : ∃ t L, order = t :: L := by
    rcases order with - | ⟨t, L⟩
    · have h0 : ((0, 0, 0) : Nat × Nat × Nat) ∈ faCounters n reg1 reg2 :=
        mem_faCounters.2 ⟨by positivity, by positivity, by positivity⟩
      rw [← hord.mem_iff] at h0
      simp at h0
    · exact ⟨t, L, rfl⟩
  have call : ∀ x < 2 ^ reg1.length, callN fe x = .ok (pat (f x)) := by
    intro x hx
    unfold callN
    rw [(hf x hx).1]
    exact toCInt_ok (hf x hx).2.1 (hf x hx).2.2
  obtain ⟨t, L, rfl⟩ := hne
  obtain ⟨b1, -, -⟩ := mem_faCounters.1 (hord.mem_iff.1 (List.mem_cons_self : t ∈ t :: L))
  have s1 := small reg1.length (by omega)
  cases pregen with
  | false =>
    simp only [Bool.false_eq_true, if_false, List.foldlM_cons]
    rw [call t.1 b1]
    simp only [bind, Except.bind, Except.map]
    rw [bad _ t (by simp)]
  | true =>
    simp only [if_true, List.foldlM_cons]
    have hm : (List.range (2 ^ reg1.length)).mapM (callN fe)
        = .ok ((List.range (2 ^ reg1.length)).map fun x => pat (f x)) := by
      have : ∀ L : List Nat, (∀ x ∈ L, x < 2 ^ reg1.length) →
          L.mapM (callN fe) = .ok (L.map fun x => pat (f x)) := by
        intro L
        induction L with
        | nil => intro _; rfl
        | cons a L ih =>
          intro hL
          rw [List.mapM_cons, call a (hL a (by simp)), ih fun x hx => hL x (by simp [hx])]
          rfl
      exact this _ fun x hx => by simpa using hx
    rw [hm]
    simp only [bind, Except.bind, Except.map]
    rw [read_I (by omega) (by simpa using b1)]
    dsimp only
    rw [bad _ t (by simp)]

/-- C94: the two cases together.  `func_apply` is free of undefined behaviour on a program that calls it with well-formed
arguments exactly if there are at least as many other qubits as register 2 has. -/
theorem C94_defined_iff [Zero R] {n : Nat} {reg1 reg2 : List Nat} (h : RegsOK n reg1 reg2) {fe : Nat → Except PyErr Int}
    {f : Nat → Int} (hf : Returns reg1 fe f) {vec out : List R} (hv : vec.length = 2 ^ n) (ho : out.length = 2 ^ n)
    (pregen : Bool) (order : List (Nat × Nat × Nat)) (hord : order.Perm (faCounters n reg1 reg2)) :
    (∃ res, funcApplyC reg1 reg2 fe vec n out 0 0 pregen order = .ok res) ↔ reg2.length ≤ (bystanders n reg1 reg2).length := by
  constructor
  · rintro ⟨res, hres⟩
    by_contra hlt
    rw [C94_reads_outside h (by omega) hf hv ho pregen order hord] at hres
    cases hres
  · intro h2
    obtain ⟨res, hres, -⟩ := C17_func_apply_exact h h2 hf vec out hv ho pregen order hord fun _ => 0
    exact ⟨res, by rw [C94_func_apply_partial h h2 fe vec out (by norm_num) (by norm_num) pregen order hord fun _ => 0, hres]⟩

/-- C94: and then, with exactly as many other qubits as register 2 has, it applies the oracle (C17). -/
theorem C94_oracle [Zero R] {n : Nat} {reg1 reg2 : List Nat} (h : RegsOK n reg1 reg2)
    (hby : (bystanders n reg1 reg2).length = reg2.length) {fe : Nat → Except PyErr Int} {f : Nat → Int}
    (hf : Returns reg1 fe f) (state arena : List R) (hv : state.length = 2 ^ n) (ho : arena.length = 2 ^ n) (pregen : Bool)
    (order : List (Nat × Nat × Nat)) (hord : order.Perm (faCounters n reg1 reg2)) :
    ∃ res, funcApplyC reg1 reg2 fe state n arena 0 0 pregen order = .ok res ∧ res.length = 2 ^ n ∧
      ∀ r < 2 ^ n, ∃! c, c < 2 ^ n ∧ OraclePre n reg1 reg2 f r c ∧ res[r]? = state[c]? := by
  rw [C94_func_apply_partial h hby.ge fe state arena (by norm_num) (by norm_num) pregen order hord fun _ => 0]
  exact C17_func_apply_partial h (.inr hby) hf state arena hv ho pregen order hord _

/-- C94 is false of 32 and more qubits: the loop that clears the output runs with an `int` over `2**n` positions. -/
theorem C94_large_false [Zero R] {n : Nat} (hn : 32 ≤ n) (hn' : n < 63) {reg1 reg2 : List Nat} (hlt : ∀ q ∈ reg1 ++ reg2, q < n)
    (f : Nat → Except PyErr Int) {vec out : List R} (hv : vec.length = 2 ^ n) (ho : out.length = 2 ^ n) (pregen : Bool)
    (order : List (Nat × Nat × Nat)) : funcApplyC reg1 reg2 f vec n out 0 0 pregen order = .error .ub := by
  have hle : 2 ^ 32 ≤ 2 ^ n := Nat.pow_le_pow_right (by norm_num) hn
  have hz : (List.range (2 ^ n)).foldlM (fun o i => write o (trunc i) (0 : R)) out = .error .ub := by
    have key : ∀ k ≤ 2 ^ 31, ∃ o : List R, (List.range k).foldlM (fun o i => write o (trunc i) (0 : R)) out = .ok o ∧
        o.length = out.length := by
      intro k hk
      induction k with
      | zero => exact ⟨out, rfl, rfl⟩
      | succ k ih =>
        obtain ⟨o, h1, h2⟩ := ih (by omega)
        rw [List.range_succ, List.foldlM_append, h1]
        simp only [bind, Except.bind, List.foldlM_cons, List.foldlM_nil]
        rw [trunc_eq, write_I (by omega) (by omega)]
        exact ⟨_, rfl, by simp [h2]⟩
    obtain ⟨o, h1, -⟩ := key (2 ^ 31) le_rfl
    obtain ⟨k, hk⟩ := Nat.exists_eq_add_of_le (show 2 ^ 31 + 1 ≤ 2 ^ n by omega)
    rw [hk, List.range_add, List.foldlM_append, List.range_succ, List.foldlM_append, h1]
    simp only [bind, Except.bind, List.foldlM_cons, List.foldlM_nil]
    have : write o (trunc (2 ^ 31)) (0 : R) = .error .ub := by
      unfold write
      rw [if_pos (Or.inl (by decide))]
    rw [this]
  unfold funcApplyC
  rw [mapM_ofPy fun q hq => by have := hlt q (by simp [hq]); omega, mapM_ofPy fun q hq => by have := hlt q (by simp [hq]); omega,
    ofPy_ok (by omega : n < 2 ^ 31), ofPy_ok (by norm_num : 0 < 2 ^ 31)]
  simp only [bind, Except.bind]
  rw [pow2L_I hn']
  dsimp only
  rw [if_neg (by omega), if_neg (by omega), if_neg (by omega), hz]

/-! Concrete registers that meet the hypotheses: one other qubit and one qubit in register 2; none and one. -/

example : RegsOK 3 [0] [1] ∧ [1].length ≤ (bystanders 3 [0] [1]).length := by
  refine ⟨⟨by decide, by decide, by norm_num⟩, by decide⟩

example : RegsOK 2 [0] [1] ∧ (bystanders 2 [0] [1]).length < [1].length := by
  refine ⟨⟨by decide, by decide, by norm_num⟩, by decide⟩

example : funcApplyC [0] [1] (fun x => .ok x) [1, 2, 3, 4, 5, 6, 7, 8] 3 ([0, 0, 0, 0, 0, 0, 0, 0] : List Int) 0 0 true
    (faCounters 3 [0] [1]) = .ok [1, 2, 3, 4, 7, 8, 5, 6] := by decide

example : funcApplyC [0] [1] (fun x => .ok x) [1, 2, 3, 4] 2 ([0, 0, 0, 0] : List Int) 0 0 true (faCounters 2 [0] [1])
    = .error .ub := by decide

end QIP.Props
