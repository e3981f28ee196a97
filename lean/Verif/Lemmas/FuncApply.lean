import Verif.Lemmas.Kron
import Verif.Model.FuncApply
import Verif.Spec.FuncApply

/-! # Closed form of `func_apply` -/

namespace QIP

open Spec

/-- Disjoint duplicate-free registers inside an `n`-qubit state. -/
structure RegsOK (n : Nat) (reg1 reg2 : List Nat) : Prop where
  nodup : (reg1 ++ reg2).Nodup
  lt : ∀ q ∈ reg1 ++ reg2, q < n
  small : n ≤ 30

namespace RegsOK
variable {n : Nat} {reg1 reg2 : List Nat} (h : RegsOK n reg1 reg2)
include h
theorem nd1 : reg1.Nodup := (List.nodup_append.1 h.nodup).1
theorem nd2 : reg2.Nodup := (List.nodup_append.1 h.nodup).2.1
theorem disj {q : Nat} (h1 : q ∈ reg1) : q ∉ reg2 := fun h2 => (List.nodup_append.1 h.nodup).2.2 q h1 q h2 rfl
theorem lt1 {q : Nat} (h1 : q ∈ reg1) : q < n := h.lt q (by simp [h1])
theorem lt2 {q : Nat} (h1 : q ∈ reg2) : q < n := h.lt q (by simp [h1])
end RegsOK

theorem mem_faOther {n : Nat} {reg1 reg2 : List Nat} {q : Nat} :
    q ∈ faOther n reg1 reg2 ↔ q < n ∧ q ∉ reg1 ∧ q ∉ reg2 := by
  simp [faOther]

theorem nodup_faOther (n : Nat) (reg1 reg2 : List Nat) : (faOther n reg1 reg2).Nodup := List.nodup_range.filter _

theorem length_le_of_lt {n : Nat} {l : List Nat} (hn : l.Nodup) (h : ∀ q ∈ l, q < n) : l.length ≤ n := by
  have : l.Subperm (List.range n) := hn.subperm fun q hq => List.mem_range.2 (h q hq)
  simpa using this.length_le

theorem RegsOK.length_other {n : Nat} {reg1 reg2 : List Nat} (h : RegsOK n reg1 reg2) :
    (faOther n reg1 reg2).length = n - (reg1.length + reg2.length) := by
  have hp : (reg1 ++ reg2).Perm ((List.range n).filter fun i => decide (i ∈ reg1 ++ reg2)) := by
    rw [List.perm_ext_iff_of_nodup h.nodup (List.nodup_range.filter _)]
    intro a
    simp only [List.mem_filter, List.mem_range, decide_eq_true_eq]
    exact ⟨fun ha => ⟨h.lt a ha, ha⟩, fun ha => ha.2⟩
  have h1 : ∀ l : List Nat, (l.filter fun i => decide (i ∈ reg1 ++ reg2)).length
      + (l.filter fun i => decide (i ∉ reg1 ∧ i ∉ reg2)).length = l.length := by
    intro l
    induction l with
    | nil => rfl
    | cons x l ih =>
      simp only [List.filter_cons, List.mem_append]
      by_cases ha : x ∈ reg1 <;> by_cases hb : x ∈ reg2 <;> simp [ha, hb] <;> simp at ih <;> omega
  have h2 := h1 (List.range n)
  rw [← hp.length_eq, List.length_range, List.length_append] at h2
  unfold faOther
  omega

theorem faPlace_eq {n : Nat} {idx : List Nat} (hS : idx.Nodup) (hn : ∀ q ∈ idx, q < n) (val : Nat) :
    faPlace n idx val = spread n idx 0 val := by
  apply qbit_ext _ (spread_lt _ _ _ _)
  · intro p hp
    unfold faPlace
    rw [testBit_foldl_setBit n idx (fun j => getBit val ((idx.length - 1) - j)) hS hn _ le_rfl _ _ hp,
      qbit_spread _ _ _ hp, List.take_length, getBit_eq]
  · apply lt_two_pow_of_high
    intro b hb
    unfold faPlace
    rw [setBit_foldl_high n idx (fun j => getBit val ((idx.length - 1) - j)) hn _ le_rfl _ _ hb]
    simp

theorem qbit_zero (n q : Nat) : qbit n 0 q = false := by simp [qbit]

/-- Bystander qubit `p` whose value is lost by `func_apply`: not among the first `n2` other qubits, or cleared through
an out-of-bounds read. -/
def faDead (n n2 : Nat) (other : List Nat) (garb : Nat → Nat) (p : Nat) : Prop :=
  p ∉ other.take n2 ∨ ∃ j < n2, other.length ≤ j ∧ garb j = n - 1 - p

instance (n n2 : Nat) (other : List Nat) (garb : Nat → Nat) (p : Nat) : Decidable (faDead n n2 other garb p) := by
  unfold faDead; infer_instance

theorem faROffset_high {n : Nat} {other : List Nat} (hn : ∀ q ∈ other, q < n) (n2 nrem : Nat) (garb : Nat → Nat)
    (r b : Nat) (hb : n ≤ b) : (faROffset n n2 nrem other garb r).testBit b = false := by
  unfold faROffset
  induction n2 with
  | zero => simp
  | succ k ih =>
    rw [List.range_succ, List.foldl_append, List.foldl_cons, List.foldl_nil]
    split
    · rename_i hk
      have hsk : other.getD k 0 = other[k] := List.getD_eq_getElem _ _ hk
      have hlt := hn _ (List.getElem_mem hk)
      rw [testBit_setBit, ih, if_neg (by omega)]
    · rw [testBit_setBit, ih]
      split <;> rfl

theorem qbit_faROffset {n : Nat} {other : List Nat} (hS : other.Nodup) (hn : ∀ q ∈ other, q < n) (n2 nrem : Nat)
    (garb : Nat → Nat) (r p : Nat) (hp : p < n) :
    qbit n (faROffset n n2 nrem other garb r) p
      = if faDead n n2 other garb p then false else r.testBit (nrem - 1 - other.idxOf p) := by
  unfold faROffset
  induction n2 with
  | zero => rw [if_pos (by simp [faDead])]; simp [qbit]
  | succ k ih =>
    rw [List.range_succ, List.foldl_append, List.foldl_cons, List.foldl_nil]
    unfold qbit at ih ⊢
    by_cases hk : k < other.length
    · rw [if_pos hk, testBit_setBit, ih]
      have hsk : other.getD k 0 = other[k] := List.getD_eq_getElem _ _ hk
      have hlt := hn _ (List.getElem_mem hk)
      rw [hsk]
      have hno : ∀ m ≤ k + 1, ¬ ∃ j < m, other.length ≤ j ∧ garb j = n - 1 - p := by
        rintro m hm ⟨j, hj, h1, -⟩
        omega
      have hd : ∀ m ≤ k + 1, (faDead n m other garb p ↔ p ∉ other.take m) := by
        intro m hm
        unfold faDead
        exact ⟨fun h => h.resolve_right (hno m hm), Or.inl⟩
      rw [if_congr (hd (k + 1) le_rfl) rfl rfl, if_congr (hd k (by omega)) rfl rfl, List.take_succ_eq_append_getElem hk]
      by_cases h : p = other[k]
      · rw [if_pos (by rw [h]), if_neg (by rw [h]; exact fun H => H (List.mem_append_right _ (List.mem_singleton_self _)))]
        rw [h, hS.idxOf_getElem, getBit_eq]
      · rw [if_neg (by omega)]
        have h2 : p ∉ other.take k ++ [other[k]] ↔ p ∉ other.take k := by
          rw [List.mem_append, List.mem_singleton]
          constructor
          · intro H h'; exact H (Or.inl h')
          · rintro H (h' | h')
            · exact H h'
            · exact h h'
        rw [if_congr h2 rfl rfl]
    · rw [if_neg hk, testBit_setBit, ih]
      have ht : other.take (k + 1) = other.take k := by
        rw [List.take_of_length_le (by omega), List.take_of_length_le (by omega)]
      by_cases hg : n - 1 - p = garb k
      · rw [if_pos hg, if_pos]
        exact Or.inr ⟨k, by omega, by omega, hg.symm⟩
      · rw [if_neg hg]
        have hd : faDead n (k + 1) other garb p ↔ faDead n k other garb p := by
          unfold faDead
          rw [ht]
          constructor
          · rintro (h | ⟨j, hj, h1, h2⟩)
            · exact Or.inl h
            · refine Or.inr ⟨j, ?_, h1, h2⟩
              have : j ≠ k := fun e => hg (e ▸ h2.symm)
              omega
          · rintro (h | ⟨j, hj, h1, h2⟩)
            · exact Or.inl h
            · exact Or.inr ⟨j, by omega, h1, h2⟩
        rw [if_congr hd rfl rfl]

/-- The address built from register values. -/
def faAddr (n : Nat) (reg1 reg2 : List Nat) (garb : Nat → Nat) (x q r : Nat) : Nat :=
  faPlace n reg1 x ||| faPlace n reg2 q
    ||| faROffset n reg2.length (n - (reg1.length + reg2.length)) (faOther n reg1 reg2) garb r

theorem qbit_faAddr {n : Nat} {reg1 reg2 : List Nat} (h : RegsOK n reg1 reg2) (garb : Nat → Nat) (x q r p : Nat)
    (hp : p < n) :
    qbit n (faAddr n reg1 reg2 garb x q r) p
      = if p ∈ reg1 then x.testBit (reg1.length - 1 - reg1.idxOf p)
        else if p ∈ reg2 then q.testBit (reg2.length - 1 - reg2.idxOf p)
        else if faDead n reg2.length (faOther n reg1 reg2) garb p then false
        else r.testBit ((faOther n reg1 reg2).length - 1 - (faOther n reg1 reg2).idxOf p) := by
  have e1 : ∀ a b : Nat, qbit n (a ||| b) p = (qbit n a p || qbit n b p) := fun a b => by simp [qbit]
  unfold faAddr
  rw [e1, e1, faPlace_eq h.nd1 (fun q => h.lt1), faPlace_eq h.nd2 (fun q => h.lt2), qbit_spread _ _ _ hp,
    qbit_spread _ _ _ hp, qbit_faROffset (nodup_faOther _ _ _) (fun q hq => (mem_faOther.1 hq).1) _ _ _ _ _ hp,
    qbit_zero, h.length_other]
  by_cases h1 : p ∈ reg1
  · have hd : faDead n reg2.length (faOther n reg1 reg2) garb p :=
      Or.inl fun hh => (mem_faOther.1 (List.mem_of_mem_take hh)).2.1 h1
    rw [if_pos h1, if_neg (h.disj h1), if_pos hd, if_pos h1]
    simp
  · by_cases h2 : p ∈ reg2
    · have hd : faDead n reg2.length (faOther n reg1 reg2) garb p :=
        Or.inl fun hh => (mem_faOther.1 (List.mem_of_mem_take hh)).2.2 h2
      rw [if_neg h1, if_pos h2, if_pos hd, if_neg h1, if_pos h2]
      simp
    · rw [if_neg h1, if_neg h2, if_neg h1, if_neg h2]
      simp

theorem or_lt {n a b : Nat} (ha : a < 2 ^ n) (hb : b < 2 ^ n) : a ||| b < 2 ^ n := Nat.or_lt_two_pow ha hb

theorem faAddr_lt {n : Nat} {reg1 reg2 : List Nat} (h : RegsOK n reg1 reg2) (garb : Nat → Nat) (x q r : Nat) :
    faAddr n reg1 reg2 garb x q r < 2 ^ n := by
  unfold faAddr
  refine or_lt (or_lt ?_ ?_) ?_
  · rw [faPlace_eq h.nd1 (fun q => h.lt1)]; exact spread_lt _ _ _ _
  · rw [faPlace_eq h.nd2 (fun q => h.lt2)]; exact spread_lt _ _ _ _
  · exact lt_two_pow_of_high (faROffset_high (fun q hq => (mem_faOther.1 hq).1) _ _ _ _)

/-- Function value as used: 32-bit pattern. -/
def pat (y : Int) : Nat := (y % 2 ^ 32).toNat

theorem testBit_mod_toNat (y : Int) {k j : Nat} (hk : k ≤ 32) (hj : j < k) :
    (y % 2 ^ k).toNat.testBit j = (pat y).testBit j := by
  have h1 : ((y % 2 ^ 32).toNat : Int) = y % 2 ^ 32 := Int.toNat_of_nonneg (Int.emod_nonneg _ (by positivity))
  have h2 : ((y % 2 ^ k).toNat : Int) = y % 2 ^ k := Int.toNat_of_nonneg (Int.emod_nonneg _ (by positivity))
  have h3 : (y % 2 ^ k).toNat = pat y % 2 ^ k := by
    unfold pat
    zify
    rw [h1, h2]
    rw [Int.emod_emod_of_dvd]
    exact pow_dvd_pow 2 hk
  rw [h3, Nat.testBit_mod_two_pow]
  simp [hj]

/-- The preimage basis state of the oracle. -/
def oraclePre (n : Nat) (reg1 reg2 : List Nat) (f : Nat → Int) (r : Nat) : Nat :=
  spread n reg2 r (subIndex n reg2 r ^^^ (f (subIndex n reg1 r) % 2 ^ reg2.length).toNat)

theorem mod_toNat_lt (y : Int) (k : Nat) : (y % 2 ^ k).toNat < 2 ^ k := by
  have h2 : ((y % 2 ^ k).toNat : Int) = y % 2 ^ k := Int.toNat_of_nonneg (Int.emod_nonneg _ (by positivity))
  have := Int.emod_lt_of_pos y (b := 2 ^ k) (by positivity)
  zify
  omega

theorem oraclePre_iff {n : Nat} {reg1 reg2 : List Nat} (h : RegsOK n reg1 reg2) (f : Nat → Int) {r c : Nat}
    (hc : c < 2 ^ n) : OraclePre n reg1 reg2 f r c ↔ c = oraclePre n reg1 reg2 f r := by
  have hlt : subIndex n reg2 r ^^^ (f (subIndex n reg1 r) % 2 ^ reg2.length).toNat < 2 ^ reg2.length :=
    Nat.xor_lt_two_pow (subIndex_lt _ _ _) (mod_toNat_lt _ _)
  constructor
  · rintro ⟨h1, h2⟩
    unfold oraclePre
    rw [h2, Nat.xor_assoc, Nat.xor_self, Nat.xor_zero]
    exact (spread_subIndex hc h1).symm
  · rintro rfl
    refine ⟨agreeOff_spread _ _ _ _, ?_⟩
    rw [oraclePre, subIndex_spread _ h.nd2 (fun q => h.lt2) hlt, Nat.xor_assoc, Nat.xor_self, Nat.xor_zero]

theorem subIndex_faAddr1 {n : Nat} {reg1 reg2 : List Nat} (h : RegsOK n reg1 reg2) (garb : Nat → Nat) {x : Nat}
    (hx : x < 2 ^ reg1.length) (q r : Nat) : subIndex n reg1 (faAddr n reg1 reg2 garb x q r) = x := by
  rw [← subIndex_spread 0 h.nd1 (fun q => h.lt1) hx]
  apply subIndex_congr
  intro p hp
  rw [qbit_faAddr h _ _ _ _ _ (h.lt1 hp), if_pos hp, qbit_spread _ _ _ (h.lt1 hp), if_pos hp,
    subIndex_spread 0 h.nd1 (fun q => h.lt1) hx]

theorem testBit_subIndex_idxOf {n : Nat} {g : List Nat} {p : Nat} (hp : p ∈ g) (r : Nat) :
    (subIndex n g r).testBit (g.length - 1 - g.idxOf p) = qbit n r p := by
  have := testBit_subIndex n g r (g.idxOf p) (List.idxOf_lt_length_iff.2 hp)
  rw [this, List.getElem_idxOf]

theorem idx_rev_lt {g : List Nat} {p : Nat} (hp : p ∈ g) : g.length - 1 - g.idxOf p < g.length := by
  have := List.idxOf_lt_length_iff.2 hp
  omega

/-- The address read is the preimage of the address written. -/
theorem faAddr_pre {n : Nat} {reg1 reg2 : List Nat} (h : RegsOK n reg1 reg2) (garb : Nat → Nat) (f : Nat → Int)
    {x : Nat} (hx : x < 2 ^ reg1.length) (q r : Nat) :
    faAddr n reg1 reg2 garb x q r
      = oraclePre n reg1 reg2 f (faAddr n reg1 reg2 garb x (pat (f x) ^^^ q) r) := by
  apply qbit_ext (faAddr_lt h _ _ _ _) (spread_lt _ _ _ _)
  intro p hp
  rw [qbit_spread _ _ _ hp, subIndex_faAddr1 h garb hx]
  by_cases h2 : p ∈ reg2
  · have h1 : p ∉ reg1 := fun h1 => h.disj h1 h2
    rw [if_pos h2, Nat.testBit_xor, testBit_subIndex_idxOf h2, qbit_faAddr h _ _ _ _ _ hp,
      qbit_faAddr h _ _ _ _ _ hp, if_neg h1, if_neg h1, if_pos h2, if_pos h2, Nat.testBit_xor,
      testBit_mod_toNat _ _ (idx_rev_lt h2)]
    · generalize (pat (f x)).testBit _ = a
      generalize q.testBit _ = b
      cases a <;> cases b <;> rfl
    · have := length_le_of_lt h.nd2 (fun q => h.lt2)
      have := h.small
      omega
  · rw [if_neg h2, qbit_faAddr h _ _ _ _ _ hp, qbit_faAddr h _ _ _ _ _ hp, if_neg h2, if_neg h2]

/-- No lost bystander qubit is set in `r`. -/
def FaKept (n : Nat) (reg1 reg2 : List Nat) (garb : Nat → Nat) (r : Nat) : Prop :=
  ∀ p ∈ faOther n reg1 reg2, faDead n reg2.length (faOther n reg1 reg2) garb p → qbit n r p = false

instance (n : Nat) (reg1 reg2 : List Nat) (garb : Nat → Nat) (r : Nat) : Decidable (FaKept n reg1 reg2 garb r) := by
  unfold FaKept; infer_instance

theorem kept_faAddr {n : Nat} {reg1 reg2 : List Nat} (h : RegsOK n reg1 reg2) (garb : Nat → Nat) (x q r : Nat) :
    FaKept n reg1 reg2 garb (faAddr n reg1 reg2 garb x q r) := by
  intro p hp hd
  obtain ⟨h0, h1, h2⟩ := mem_faOther.1 hp
  rw [qbit_faAddr h _ _ _ _ _ h0, if_neg h1, if_neg h2, if_pos hd]

theorem faAddr_of_kept {n : Nat} {reg1 reg2 : List Nat} (h : RegsOK n reg1 reg2) (garb : Nat → Nat) {r : Nat}
    (hr : r < 2 ^ n) (hk : FaKept n reg1 reg2 garb r) (f : Nat → Int) :
    faAddr n reg1 reg2 garb (subIndex n reg1 r)
      (pat (f (subIndex n reg1 r)) ^^^ (subIndex n reg2 r ^^^ (f (subIndex n reg1 r) % 2 ^ reg2.length).toNat))
      (subIndex n (faOther n reg1 reg2) r) = r := by
  apply qbit_ext (faAddr_lt h _ _ _ _) hr
  intro p hp
  rw [qbit_faAddr h _ _ _ _ _ hp]
  by_cases h1 : p ∈ reg1
  · rw [if_pos h1, testBit_subIndex_idxOf h1]
  · by_cases h2 : p ∈ reg2
    · rw [if_neg h1, if_pos h2, Nat.testBit_xor, Nat.testBit_xor, testBit_subIndex_idxOf h2,
        testBit_mod_toNat _ _ (idx_rev_lt h2)]
      · generalize (pat _).testBit _ = a
        cases a <;> cases qbit n r p <;> rfl
      · have := length_le_of_lt h.nd2 (fun q => h.lt2)
        have := h.small
        omega
    · have hm : p ∈ faOther n reg1 reg2 := mem_faOther.2 ⟨hp, h1, h2⟩
      rw [if_neg h1, if_neg h2, testBit_subIndex_idxOf hm]
      split
      · rename_i hd; exact (hk p hm hd).symm
      · rfl

theorem foldl_set_consistent {α ι : Type} (a : ι → Nat) (v : ι → α) (H : Nat → α) (L : List ι)
    (hv : ∀ t ∈ L, v t = H (a t)) (o : List α) (j : Nat) (hj : j < o.length) [DecidableEq ι] :
    (L.foldl (fun o t => o.set (a t) (v t)) o)[j]? = if ∃ t ∈ L, a t = j then some (H j) else o[j]? := by
  induction L generalizing o with
  | nil => simp
  | cons t L ih =>
    rw [List.foldl_cons, ih (fun t ht => hv t (by simp [ht])) _ (by simpa using hj)]
    by_cases h : ∃ t' ∈ L, a t' = j
    · rw [if_pos h, if_pos]
      obtain ⟨t', h1, h2⟩ := h
      exact ⟨t', by simp [h1], h2⟩
    · rw [if_neg h]
      by_cases h' : a t = j
      · rw [if_pos ⟨t, by simp, h'⟩, List.getElem?_set, if_pos h', h', if_pos hj, hv t (by simp), h']
      · rw [if_neg, List.getElem?_set, if_neg h']
        rintro ⟨t', h1, h2⟩
        rcases List.mem_cons.1 h1 with rfl | h1
        · exact h' h2
        · exact h ⟨t', h1, h2⟩

theorem mem_faCounters {n : Nat} {reg1 reg2 : List Nat} {t : Nat × Nat × Nat} :
    t ∈ faCounters n reg1 reg2 ↔ t.1 < 2 ^ reg1.length ∧ t.2.1 < 2 ^ reg2.length ∧
      t.2.2 < 2 ^ (faOther n reg1 reg2).length := by
  obtain ⟨x, q, r⟩ := t
  simp [faCounters]

/-- `f` returns, on every argument the code passes, an integer that fits a C int. -/
def Returns (reg1 : List Nat) (fe : Nat → Except PyErr Int) (f : Nat → Int) : Prop :=
  ∀ x < 2 ^ reg1.length, fe x = .ok (f x) ∧ -2 ^ 31 ≤ f x ∧ f x < 2 ^ 31

theorem toCInt_ok {y : Int} (h1 : -2 ^ 31 ≤ y) (h2 : y < 2 ^ 31) : toCInt y = .ok (pat y) := by
  unfold toCInt
  rw [if_pos ⟨h1, h2⟩]
  rfl

/-- Closed form of `func_apply`: for every order of the assignments, either value of `pregen`, any garbage. -/
theorem funcApply_eq {R : Type} [Zero R] {n : Nat} {reg1 reg2 : List Nat} (h : RegsOK n reg1 reg2)
    {fe : Nat → Except PyErr Int} {f : Nat → Int} (hf : Returns reg1 fe f) (vec out : List R)
    (hv : vec.length = 2 ^ n) (ho : out.length = 2 ^ n) (pregen : Bool) (order : List (Nat × Nat × Nat))
    (hord : order.Perm (faCounters n reg1 reg2)) (garb : Nat → Nat) :
    funcApply reg1 reg2 fe vec n out 0 0 pregen order garb
      = .ok ((List.range (2 ^ n)).map fun r =>
          if FaKept n reg1 reg2 garb r then vec.getD (oraclePre n reg1 reg2 f r) 0 else 0) := by
  unfold funcApply
  rw [if_neg (by omega), if_neg (by omega), if_neg (by omega), if_neg (by
    rintro ⟨q, hq, hq'⟩
    have := h.lt q hq
    omega)]
  have htab : (List.range (2 ^ reg1.length)).mapM (fun x => do toCInt (← fe x))
      = .ok ((List.range (2 ^ reg1.length)).map fun x => pat (f x)) := by
    apply mapM_ok
    intro x hx
    obtain ⟨h1, h2, h3⟩ := hf x (List.mem_range.1 hx)
    rw [h1]
    exact toCInt_ok h2 h3
  set g : List R → Nat × Nat × Nat → List R := fun o t => o.set
    (faAddr n reg1 reg2 garb t.1 (pat (f t.1) ^^^ t.2.1) t.2.2)
    (vec.getD (faAddr n reg1 reg2 garb t.1 t.2.1 t.2.2) 0) with hg
  have main : order.foldl g (List.replicate (2 ^ n) 0) = (List.range (2 ^ n)).map fun r =>
      if FaKept n reg1 reg2 garb r then vec.getD (oraclePre n reg1 reg2 f r) 0 else 0 := by
    classical
    apply List.ext_getElem?
    intro j
    by_cases hj : j < 2 ^ n
    · rw [hg, foldl_set_consistent (fun t : Nat × Nat × Nat => faAddr n reg1 reg2 garb t.1 (pat (f t.1) ^^^ t.2.1) t.2.2)
        (fun t => vec.getD (faAddr n reg1 reg2 garb t.1 t.2.1 t.2.2) 0)
        (fun r => vec.getD (oraclePre n reg1 reg2 f r) 0) order ?_ _ j (by simpa using hj)]
      · rw [List.getElem?_map, List.getElem?_range hj, Option.map_some]
        by_cases hk : FaKept n reg1 reg2 garb j
        · rw [if_pos hk, if_pos]
          refine ⟨(subIndex n reg1 j, subIndex n reg2 j ^^^ (f (subIndex n reg1 j) % 2 ^ reg2.length).toNat,
            subIndex n (faOther n reg1 reg2) j), ?_, ?_⟩
          · rw [hord.mem_iff, mem_faCounters]
            exact ⟨subIndex_lt _ _ _, Nat.xor_lt_two_pow (subIndex_lt _ _ _) (mod_toNat_lt _ _), subIndex_lt _ _ _⟩
          · exact faAddr_of_kept h garb hj hk f
        · rw [if_neg hk, if_neg]
          · simp [hj]
          · rintro ⟨t, -, rfl⟩
            exact hk (kept_faAddr h _ _ _ _)
      · intro t ht
        rw [hord.mem_iff, mem_faCounters] at ht
        rw [← faAddr_pre h garb f ht.1]
    · rw [List.getElem?_eq_none, List.getElem?_eq_none]
      · simpa using hj
      · rw [hg, length_foldl_set (fun t : Nat × Nat × Nat => faAddr n reg1 reg2 garb t.1 (pat (f t.1) ^^^ t.2.1) t.2.2)
          (fun t => vec.getD (faAddr n reg1 reg2 garb t.1 t.2.1 t.2.2) 0)]
        simpa using hj
  cases pregen with
  | true =>
    simp only [if_true]
    rw [htab]
    simp only [bind, Except.bind]
    rw [← main]
    apply foldlM_ok
    intro o t ht
    rw [hord.mem_iff, mem_faCounters] at ht
    have : ((List.range (2 ^ reg1.length)).map fun x => pat (f x)).getD t.1 0 = pat (f t.1) := by
      simp [ht.1]
    rw [this]
    rfl
  | false =>
    simp only [Bool.false_eq_true, if_false, bind, Except.bind]
    rw [← main]
    apply foldlM_ok
    intro o t ht
    rw [hord.mem_iff, mem_faCounters] at ht
    obtain ⟨h1, h2, h3⟩ := hf t.1 ht.1
    rw [h1]
    simp only
    rw [toCInt_ok h2 h3]
    rfl

end QIP
