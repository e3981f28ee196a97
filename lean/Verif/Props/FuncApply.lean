import Mathlib.Tactic.IntervalCases
import Verif.Lemmas.FuncApply

/-!
# C17 – C19: applying a classical function (`F`)
-/

namespace QIP.Props

open QIP QIP.Spec

/-- The bystander qubits: those in neither register. -/
def bystanders (n : Nat) (reg1 reg2 : List Nat) : List Nat := (List.range n).filter fun q => q ∉ reg1 ++ reg2

theorem faOther_eq (n : Nat) (reg1 reg2 : List Nat) : faOther n reg1 reg2 = bystanders n reg1 reg2 := by
  unfold faOther bystanders
  congr 1
  funext i
  simp

/-- C17 (partial: holds when there is no bystander qubit, or exactly as many as register 2 has qubits).  `F(f)` maps
`|x⟩|q⟩|o⟩` to `|x⟩|q ⊕ f(x)⟩|o⟩`: the new amplitude at `r` is the old one at the unique preimage of `r`.
For every function, order of the assignments, garbage behind the index buffer, and either value of `pregen`. -/
theorem C17_func_apply_partial {R : Type} [Zero R] {n : Nat} {reg1 reg2 : List Nat} (h : RegsOK n reg1 reg2)
    (hby : (bystanders n reg1 reg2).length = 0 ∨ (bystanders n reg1 reg2).length = reg2.length)
    {fe : Nat → Except PyErr Int} {f : Nat → Int} (hf : Returns reg1 fe f) (state arena : List R)
    (hv : state.length = 2 ^ n) (ho : arena.length = 2 ^ n) (pregen : Bool) (order : List (Nat × Nat × Nat))
    (hord : order.Perm (faCounters n reg1 reg2)) (garb : Nat → Nat) :
    ∃ res, funcApply reg1 reg2 fe state n arena 0 0 pregen order garb = .ok res ∧ res.length = 2 ^ n ∧
      ∀ r < 2 ^ n, ∃! c, c < 2 ^ n ∧ OraclePre n reg1 reg2 f r c ∧ res[r]? = state[c]? := by
  refine ⟨_, funcApply_eq h hf state arena hv ho pregen order hord garb, by simp, ?_⟩
  intro r hr
  have hk : FaKept n reg1 reg2 garb r := by
    intro p hp hd
    rw [faOther_eq] at hp hd
    exfalso
    rcases hby with h0 | h0
    · rw [List.length_eq_zero_iff] at h0
      rw [h0] at hp
      simp at hp
    · rcases hd with hd | ⟨j, h1, h2, -⟩
      · rw [List.take_of_length_le (by omega)] at hd
        exact hd hp
      · omega
  have hlt : oraclePre n reg1 reg2 f r < 2 ^ n := spread_lt _ _ _ _
  refine ⟨oraclePre n reg1 reg2 f r, ⟨hlt, (oraclePre_iff h f hlt).2 rfl, ?_⟩, ?_⟩
  · have : oraclePre n reg1 reg2 f r < state.length := by omega
    simp [hr, hk, this]
  · rintro c ⟨hc, h1, -⟩
    exact (oraclePre_iff h f hc).1 h1

-- n = 3: input qubit 2, output qubit 0, one bystander; n = 4: two-qubit input and output, no bystander
example : RegsOK 3 [2] [0] ∧ (bystanders 3 [2] [0]).length = 1 := ⟨⟨by decide, by decide, by decide⟩, by decide⟩
example : RegsOK 4 [3, 0] [1, 2] ∧ (bystanders 4 [3, 0] [1, 2]).length = 0 :=
  ⟨⟨by decide, by decide, by decide⟩, by decide⟩
example : OraclePre 4 [3, 0] [1, 2] (fun x => x - 3) 0b1100 0b1000 := by decide

/-- C17, what happens with at least as many bystanders as output qubits: amplitudes of basis states in which a
bystander beyond the first `reg2.length` ones is 1 are replaced by zero, the others are as specified. -/
theorem C17_func_apply_exact {R : Type} [Zero R] {n : Nat} {reg1 reg2 : List Nat} (h : RegsOK n reg1 reg2)
    (hby : reg2.length ≤ (bystanders n reg1 reg2).length)
    {fe : Nat → Except PyErr Int} {f : Nat → Int} (hf : Returns reg1 fe f) (state arena : List R)
    (hv : state.length = 2 ^ n) (ho : arena.length = 2 ^ n) (pregen : Bool) (order : List (Nat × Nat × Nat))
    (hord : order.Perm (faCounters n reg1 reg2)) (garb : Nat → Nat) :
    ∃ res, funcApply reg1 reg2 fe state n arena 0 0 pregen order garb = .ok res ∧ res.length = 2 ^ n ∧
      ∀ r < 2 ^ n,
        ((∃ p ∈ (bystanders n reg1 reg2).drop reg2.length, qbit n r p = true) → res[r]? = some 0) ∧
        ((∀ p ∈ (bystanders n reg1 reg2).drop reg2.length, qbit n r p = false) →
          ∀ c < 2 ^ n, OraclePre n reg1 reg2 f r c → res[r]? = state[c]?) := by
  refine ⟨_, funcApply_eq h hf state arena hv ho pregen order hord garb, by simp, ?_⟩
  intro r hr
  have hnd : (bystanders n reg1 reg2).Nodup := List.nodup_range.filter _
  have hdead : ∀ p ∈ bystanders n reg1 reg2, faDead n reg2.length (faOther n reg1 reg2) garb p ↔
      p ∈ (bystanders n reg1 reg2).drop reg2.length := by
    intro p hp
    rw [faOther_eq]
    unfold faDead
    have hsplit := List.take_append_drop reg2.length (bystanders n reg1 reg2)
    constructor
    · rintro (h1 | ⟨j, h1, h2, -⟩)
      · rw [← hsplit, List.mem_append] at hp
        exact hp.resolve_left h1
      · omega
    · intro h1
      left
      intro h2
      rw [← hsplit] at hnd
      exact (List.nodup_append.1 hnd).2.2 p h2 p h1 rfl
  have hk : FaKept n reg1 reg2 garb r ↔ ∀ p ∈ (bystanders n reg1 reg2).drop reg2.length, qbit n r p = false := by
    constructor
    · intro hk p hp
      have hp' := List.mem_of_mem_drop hp
      exact hk p (by rw [faOther_eq]; exact hp') ((hdead p hp').2 hp)
    · intro hk p hp hd
      rw [faOther_eq] at hp
      exact hk p ((hdead p hp).1 hd)
  constructor
  · rintro ⟨p, hp, hq⟩
    have : ¬ FaKept n reg1 reg2 garb r := by
      rw [hk]
      intro H
      rw [H p hp] at hq
      exact Bool.false_ne_true hq
    simp [hr, this]
  · intro H c hc hpre
    have hc' := (oraclePre_iff h f hc).1 hpre
    subst hc'
    have : oraclePre n reg1 reg2 f r < state.length := by omega
    simp [hr, hk.2 H, this]

/-- C17 (negation of the full property): with more bystanders than output qubits, some basis state is mapped to the
zero vector, for every function. -/
theorem C17_bystanders_lost {n : Nat} {reg1 reg2 : List Nat} (h : RegsOK n reg1 reg2)
    (hby : reg2.length < (bystanders n reg1 reg2).length)
    {fe : Nat → Except PyErr Int} {f : Nat → Int} (hf : Returns reg1 fe f) :
    ∃ c < 2 ^ n, ∀ (arena : List ℤ), arena.length = 2 ^ n → ∀ pregen order,
      order.Perm (faCounters n reg1 reg2) → ∀ garb,
      funcApply reg1 reg2 fe ((List.replicate (2 ^ n) 0).set c 1) n arena 0 0 pregen order garb
        = .ok (List.replicate (2 ^ n) (0 : ℤ)) := by
  -- a bystander that is lost
  obtain ⟨p, hp⟩ : ∃ p, p ∈ (bystanders n reg1 reg2).drop reg2.length := by
    apply List.exists_mem_of_length_pos
    rw [List.length_drop]; omega
  have hpb := List.mem_of_mem_drop hp
  have hnd : (bystanders n reg1 reg2).Nodup := List.nodup_range.filter _
  rw [← faOther_eq] at hpb hp hnd
  obtain ⟨hpn, hp1, hp2⟩ := mem_faOther.1 hpb
  refine ⟨spread n [p] 0 1, spread_lt _ _ _ _, ?_⟩
  intro arena ha pregen order hord garb
  rw [funcApply_eq h hf _ arena (by simp) ha pregen order hord garb]
  congr 1
  apply List.ext_getElem (by simp)
  intro r h1 h2
  have hr : r < 2 ^ n := by simpa using h1
  simp only [List.getElem_map, List.getElem_range, List.getElem_replicate]
  split
  · rename_i hk
    have hd : faDead n reg2.length (faOther n reg1 reg2) garb p := by
      left
      intro ht
      rw [← List.take_append_drop reg2.length (faOther n reg1 reg2)] at hnd
      exact (List.nodup_append.1 hnd).2.2 p ht p hp rfl
    have hb := hk p hpb hd
    have hne : oraclePre n reg1 reg2 f r ≠ spread n [p] 0 1 := by
      intro e
      have e1 : qbit n (oraclePre n reg1 reg2 f r) p = qbit n r p := by
        rw [oraclePre, qbit_spread _ _ _ hpn, if_neg hp2]
      rw [e, qbit_spread _ _ _ hpn, hb] at e1
      simp at e1
    rw [List.getD_eq_getElem?_getD, List.getElem?_set_ne (fun e => hne e.symm)]
    have : oraclePre n reg1 reg2 f r < 2 ^ n := spread_lt _ _ _ _
    simp [this]
  · rfl

-- four qubits, f on qubit 0, result in qubit 1: qubits 2 and 3 are bystanders
example : RegsOK 4 [0] [1] ∧ 1 < (bystanders 4 [0] [1]).length := ⟨⟨by decide, by decide, by decide⟩, by decide⟩
example : Returns [0] (fun x => .ok ((x : Int) + 1)) (fun x => x + 1) := by
  intro x hx
  have : x < 2 := by simpa using hx
  interval_cases x <;> simp

/-- C17 (negation, the remaining case): with fewer bystanders than output qubits (but some) the code reads outside
`other_indices`, and there is a value of that memory for which a basis state is mapped to the zero vector. -/
theorem C17_out_of_bounds {n : Nat} {reg1 reg2 : List Nat} (h : RegsOK n reg1 reg2)
    (h0 : 0 < (bystanders n reg1 reg2).length) (hby : (bystanders n reg1 reg2).length < reg2.length)
    {fe : Nat → Except PyErr Int} {f : Nat → Int} (hf : Returns reg1 fe f) :
    ∃ garb, ∃ c < 2 ^ n, ∀ (arena : List ℤ), arena.length = 2 ^ n → ∀ pregen order,
      order.Perm (faCounters n reg1 reg2) →
      funcApply reg1 reg2 fe ((List.replicate (2 ^ n) 0).set c 1) n arena 0 0 pregen order garb
        = .ok (List.replicate (2 ^ n) (0 : ℤ)) := by
  obtain ⟨p, hpb⟩ := List.exists_mem_of_length_pos h0
  rw [← faOther_eq] at hpb h0 hby
  obtain ⟨hpn, hp1, hp2⟩ := mem_faOther.1 hpb
  refine ⟨fun _ => n - 1 - p, spread n [p] 0 1, spread_lt _ _ _ _, ?_⟩
  intro arena ha pregen order hord
  rw [funcApply_eq h hf _ arena (by simp) ha pregen order hord]
  congr 1
  apply List.ext_getElem (by simp)
  intro r h1 h2
  simp only [List.getElem_map, List.getElem_range, List.getElem_replicate]
  split
  · rename_i hk
    have hb := hk p hpb (Or.inr ⟨_, hby, le_rfl, rfl⟩)
    have hne : oraclePre n reg1 reg2 f r ≠ spread n [p] 0 1 := by
      intro e
      have e1 : qbit n (oraclePre n reg1 reg2 f r) p = qbit n r p := by
        rw [oraclePre, qbit_spread _ _ _ hpn, if_neg hp2]
      rw [e, qbit_spread _ _ _ hpn, hb] at e1
      simp at e1
    rw [List.getD_eq_getElem?_getD, List.getElem?_set_ne (fun e => hne e.symm)]
    have : oraclePre n reg1 reg2 f r < 2 ^ n := spread_lt _ _ _ _
    simp [this]
  · rfl

example : RegsOK 4 [0] [1, 2] ∧ (bystanders 4 [0] [1, 2]).length = 1 := ⟨⟨by decide, by decide, by decide⟩, by decide⟩

/-- C17, error branches: vectors that are not of length `2**n` raise ValueError. -/
theorem C17_rejects_sizes {R : Type} [Zero R] (n : Nat) (reg1 reg2 : List Nat) (fe : Nat → Except PyErr Int)
    (vec out : List R) (hbad : vec.length ≠ 2 ^ n ∨ out.length ≠ 2 ^ n) (inOff outOff : Nat) (pregen : Bool)
    (order : List (Nat × Nat × Nat)) (garb : Nat → Nat) :
    funcApply reg1 reg2 fe vec n out inOff outOff pregen order garb = .error .valueError := by
  unfold funcApply
  rw [if_pos (by omega)]

/-! ## C18 -/

/-- C18: neither the order in which the threads perform their assignments nor pre-generation of the function table
changes the result. -/
theorem C18_schedule_pregen {R : Type} [Zero R] {n : Nat} {reg1 reg2 : List Nat} (h : RegsOK n reg1 reg2)
    {fe : Nat → Except PyErr Int} {f : Nat → Int} (hf : Returns reg1 fe f) (vec out out' : List R)
    (hv : vec.length = 2 ^ n) (ho : out.length = 2 ^ n) (ho' : out'.length = 2 ^ n) (pregen pregen' : Bool)
    (order order' : List (Nat × Nat × Nat)) (hord : order.Perm (faCounters n reg1 reg2))
    (hord' : order'.Perm (faCounters n reg1 reg2)) (garb : Nat → Nat) :
    funcApply reg1 reg2 fe vec n out 0 0 pregen order garb
      = funcApply reg1 reg2 fe vec n out' 0 0 pregen' order' garb := by
  rw [funcApply_eq h hf vec out hv ho pregen order hord garb,
    funcApply_eq h hf vec out' hv ho' pregen' order' hord' garb]

-- a non-trivial order: everything backwards
example : (faCounters 3 [0] [1]).reverse.Perm (faCounters 3 [0] [1]) := List.reverse_perm _

theorem foldlM_error {ε σ α : Type} (f : σ → α → Except ε σ) (L : List α) (x : α) (hx : x ∈ L)
    (h : ∀ s, ∃ e, f s x = .error e) (s0 : σ) : ∃ e, L.foldlM f s0 = .error e := by
  induction L generalizing s0 with
  | nil => simp at hx
  | cons y L ih =>
    rw [List.foldlM_cons]
    cases hy : f s0 y with
    | error e => exact ⟨e, rfl⟩
    | ok s =>
      rcases List.mem_cons.1 hx with rfl | hx
      · obtain ⟨e, he⟩ := h s0
        rw [hy] at he
        simp at he
      · exact ih hx s

theorem mapM_error {ε α β : Type} (f : α → Except ε β) (L : List α) (x : α) (hx : x ∈ L) (h : ∃ e, f x = .error e) :
    ∃ e, L.mapM f = .error e := by
  induction L with
  | nil => simp at hx
  | cons y L ih =>
    rw [List.mapM_cons]
    cases hy : f y with
    | error e => exact ⟨e, rfl⟩
    | ok s =>
      rcases List.mem_cons.1 hx with rfl | hx
      · obtain ⟨e, he⟩ := h
        rw [hy] at he
        simp at he
      · obtain ⟨e, he⟩ := ih hx
        rw [he]
        exact ⟨e, rfl⟩

/-- C18, failing functions: if the function raises, or returns a value that is not a C int, for some `x` below
`2**len(reg1)`, the call raises, whatever the order and `pregen`. -/
theorem C18_failing_function {R : Type} [Zero R] {n : Nat} {reg1 reg2 : List Nat}
    {fe : Nat → Except PyErr Int} (x : Nat) (hx : x < 2 ^ reg1.length)
    (hbad : (∃ e, fe x = .error e) ∨ ∃ y, fe x = .ok y ∧ (y < -2 ^ 31 ∨ 2 ^ 31 ≤ y)) (vec out : List R)
    (pregen : Bool) (order : List (Nat × Nat × Nat)) (hord : order.Perm (faCounters n reg1 reg2)) (garb : Nat → Nat) :
    ∃ e, funcApply reg1 reg2 fe vec n out 0 0 pregen order garb = .error e := by
  have hfail : ∃ e, (do toCInt (← fe x) : Except PyErr Nat) = .error e := by
    rcases hbad with ⟨e, he⟩ | ⟨y, hy, hr⟩
    · exact ⟨e, by rw [he]; rfl⟩
    · refine ⟨.overflowError, ?_⟩
      rw [hy]
      change toCInt y = _
      unfold toCInt
      rw [if_neg (by omega)]
  unfold funcApply
  split
  · exact ⟨_, rfl⟩
  split
  · exact ⟨_, rfl⟩
  split
  · exact ⟨_, rfl⟩
  split
  · exact ⟨_, rfl⟩
  cases pregen with
  | true =>
    obtain ⟨e, he⟩ := mapM_error (fun x => do toCInt (← fe x)) _ x (List.mem_range.2 hx) hfail
    refine ⟨e, ?_⟩
    simp only [if_true]
    rw [he]
    rfl
  | false =>
    simp only [Bool.false_eq_true, if_false, bind, Except.bind]
    apply foldlM_error _ _ (x, 0, 0)
    · rw [hord.mem_iff, mem_faCounters]
      exact ⟨hx, by positivity, by positivity⟩
    · intro s
      obtain ⟨e, he⟩ := hfail
      refine ⟨e, ?_⟩
      simp only [bind, Except.bind] at he ⊢
      split at he
      · simpa using he
      · rw [he]

/-! ## C19 -/

theorem oraclePre_involution {n : Nat} {reg1 reg2 : List Nat} (h : RegsOK n reg1 reg2) (f : Nat → Int) {r : Nat}
    (hr : r < 2 ^ n) : oraclePre n reg1 reg2 f (oraclePre n reg1 reg2 f r) = r := by
  have hlt : oraclePre n reg1 reg2 f r < 2 ^ n := spread_lt _ _ _ _
  have h1 := (oraclePre_iff h f hlt).2 rfl
  symm
  apply (oraclePre_iff h f hr).1
  refine ⟨h1.1.symm, ?_⟩
  have hx : subIndex n reg1 (oraclePre n reg1 reg2 f r) = subIndex n reg1 r := by
    apply subIndex_congr
    intro q hq
    exact (h1.1 q (h.lt1 hq) (h.disj hq)).symm
  rw [hx, h1.2, Nat.xor_assoc, Nat.xor_self, Nat.xor_zero]

/-- C19 (partial, same condition as C17): applying the same function twice restores the state. -/
theorem C19_involution_partial {R : Type} [Zero R] {n : Nat} {reg1 reg2 : List Nat} (h : RegsOK n reg1 reg2)
    (hby : (bystanders n reg1 reg2).length = 0 ∨ (bystanders n reg1 reg2).length = reg2.length)
    {fe : Nat → Except PyErr Int} {f : Nat → Int} (hf : Returns reg1 fe f) (state arena arena' : List R)
    (hv : state.length = 2 ^ n) (ho : arena.length = 2 ^ n) (ho' : arena'.length = 2 ^ n) (pregen pregen' : Bool)
    (order order' : List (Nat × Nat × Nat)) (hord : order.Perm (faCounters n reg1 reg2))
    (hord' : order'.Perm (faCounters n reg1 reg2)) (garb garb' : Nat → Nat) :
    ∃ mid, funcApply reg1 reg2 fe state n arena 0 0 pregen order garb = .ok mid ∧
      funcApply reg1 reg2 fe mid n arena' 0 0 pregen' order' garb' = .ok state := by
  obtain ⟨mid, h1, h2, h3⟩ := C17_func_apply_partial h hby hf state arena hv ho pregen order hord garb
  obtain ⟨res, h4, h5, h6⟩ := C17_func_apply_partial h hby hf mid arena' h2 ho' pregen' order' hord' garb'
  refine ⟨mid, h1, ?_⟩
  rw [h4]
  congr 1
  apply List.ext_getElem?
  intro r
  by_cases hr : r < 2 ^ n
  · obtain ⟨c, ⟨hc, hp, he⟩, -⟩ := h6 r hr
    obtain ⟨c', ⟨hc', hp', he'⟩, -⟩ := h3 c hc
    rw [he, he']
    have e1 := (oraclePre_iff h f hc).1 hp
    have e2 := (oraclePre_iff h f hc').1 hp'
    rw [e2, e1, oraclePre_involution h f hr]
  · rw [List.getElem?_eq_none (by omega), List.getElem?_eq_none (by omega)]

/-- C19 (negation of the full property): with more bystanders than output qubits some basis state is not restored. -/
theorem C19_not_involution {n : Nat} {reg1 reg2 : List Nat} (h : RegsOK n reg1 reg2)
    (hby : reg2.length < (bystanders n reg1 reg2).length)
    {fe : Nat → Except PyErr Int} {f : Nat → Int} (hf : Returns reg1 fe f) (order : List (Nat × Nat × Nat))
    (hord : order.Perm (faCounters n reg1 reg2)) (garb : Nat → Nat) (arena : List ℤ) (ha : arena.length = 2 ^ n) :
    ∃ state mid res : List ℤ, state.length = 2 ^ n ∧ backendFuncApply reg1 reg2 fe n state arena order garb = .ok mid ∧
      backendFuncApply reg1 reg2 fe n mid state order garb = .ok res ∧ res ≠ state := by
  obtain ⟨c, hc, H⟩ := C17_bystanders_lost h hby hf
  refine ⟨(List.replicate (2 ^ n) 0).set c 1, _, _, by simp, H arena ha true order hord garb,
    funcApply_eq h hf _ _ (by simp) (by simp) true order hord garb, ?_⟩
  intro e
  have := congrArg (fun l : List ℤ => l[c]?) e
  have hlt : oraclePre n reg1 reg2 f c < 2 ^ n := spread_lt _ _ _ _
  simp [hc] at this

end QIP.Props
