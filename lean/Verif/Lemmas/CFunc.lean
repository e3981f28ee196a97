import Verif.Lemmas.CMeasure
import Verif.Lemmas.FuncApply
import Verif.Model.CFunc

/-!
# `func_apply` on C ints refines `func_apply` on natural numbers
-/

namespace QIP.C32

open QIP Spec

variable {R : Type}

theorem getBitI_word (w : CInt) {b : Nat} (hb : b < 32) : getBitI w (I b) = .ok (I (QIP.getBit w.toNat b).toNat) := by
  unfold getBitI
  rw [toInt_I (by omega), if_pos (by omega), toNat_I (by omega)]
  congr 1
  apply BitVec.eq_of_toNat_eq
  rw [toNat_getBit _ _ (by omega), toNat_I]
  cases QIP.getBit w.toNat b <;> norm_num

theorem decide_toNat (b : Bool) : decide (b.toNat ≠ 0) = b := by cases b <;> rfl

theorem placeC_I {n : Nat} {idx : List Nat} (hn : n ≤ 30) (hlt : ∀ q ∈ idx, q < n) (hl : idx.length ≤ n) (w : CInt) :
    placeC (I n) (idx.map I) w = .ok (I (faPlace n idx w.toNat)) ∧ faPlace n idx w.toNat < 2 ^ n := by
  unfold placeC faPlace
  rw [List.length_map]
  change (List.range idx.length).foldlM _ (I 0) = _ ∧ _
  refine foldlM_I _ _ _ (fun y => y < 2 ^ n) (by positivity) ?_
  intro y hy t ht
  have ht : t < idx.length := by simpa using ht
  have hq := hlt idx[t] (List.getElem_mem ht)
  have hy' : y < 2 ^ 31 := hy.trans_le (Nat.pow_le_pow_right (by norm_num) (by omega))
  rw [trunc_eq, read_I (by omega) (by simpa using ht)]
  simp only [bind, Except.bind, List.getElem_map]
  rw [show (1 : CInt) = I 1 from rfl, sub_I (by omega) (by omega)]
  dsimp only
  rw [sub_I (by omega) (by omega)]
  dsimp only
  rw [trunc_eq, sub_I (by omega) (by omega)]
  dsimp only
  rw [sub_I (by omega) (by omega)]
  dsimp only
  rw [getBitI_word w (by omega)]
  dsimp only
  rw [setBitI_I hy' (by omega) (by cases QIP.getBit w.toNat (idx.length - 1 - t) <;> norm_num), decide_toNat,
    List.getD_eq_getElem _ _ ht]
  exact ⟨rfl, setBit_lt hy (by omega)⟩

theorem rOffC_I {n n2 : Nat} {other : List Nat} (hn : n ≤ 30) (hlt : ∀ q ∈ other, q < n) (hl : other.length ≤ n)
    (h2 : n2 ≤ other.length) (garb : Nat → Nat) {r : Nat} (hr : r < 2 ^ 31) :
    rOffC (I n) n2 (I other.length) (other.map I) (I r) = .ok (I (faROffset n n2 other.length other garb r)) ∧
      faROffset n n2 other.length other garb r < 2 ^ n := by
  unfold rOffC faROffset
  change (List.range n2).foldlM _ (I 0) = _ ∧ _
  refine foldlM_I _ _ _ (fun y => y < 2 ^ n) (by positivity) ?_
  intro y hy t ht
  have ht : t < n2 := by simpa using ht
  have ht' : t < other.length := by omega
  have hq := hlt other[t] (List.getElem_mem ht')
  have hy' : y < 2 ^ 31 := hy.trans_le (Nat.pow_le_pow_right (by norm_num) (by omega))
  rw [trunc_eq, read_I (by omega) (by simpa using ht')]
  simp only [bind, Except.bind, List.getElem_map]
  rw [show (1 : CInt) = I 1 from rfl, sub_I (by omega) (by omega)]
  dsimp only
  rw [sub_I (by omega) (by omega)]
  dsimp only
  rw [sub_I (by omega) (by omega)]
  dsimp only
  rw [sub_I (by omega) (by omega)]
  dsimp only
  rw [getBitI_I hr (by omega)]
  dsimp only
  rw [setBitI_I hy' (by omega) (by cases QIP.getBit r (other.length - 1 - t) <;> norm_num), decide_toNat, if_pos ht',
    List.getD_eq_getElem _ _ ht']
  exact ⟨rfl, setBit_lt hy (by omega)⟩

/-- Reading behind the end of `other_indices`. -/
theorem rOffC_ub {n n2 : Nat} {other : List Nat} (hn : n ≤ 30) (hlt : ∀ q ∈ other, q < n) (hl : other.length ≤ n)
    (h2 : other.length < n2) {r : Nat} (hr : r < 2 ^ 31) :
    rOffC (I n) n2 (I other.length) (other.map I) (I r) = .error .ub := by
  obtain ⟨k, rfl⟩ := Nat.exists_eq_add_of_lt h2
  have h0 := (rOffC_I hn hlt hl le_rfl (fun _ => 0) hr).1
  unfold rOffC at h0 ⊢
  rw [show other.length + k + 1 = other.length + (1 + k) by omega, List.range_add, List.foldlM_append, h0, Nat.add_comm 1 k,
    List.range_succ_eq_map, List.map_cons]
  simp only [bind, Except.bind, List.foldlM_cons]
  rw [trunc_eq, read_none (by omega) (by simp)]

theorem pat_lt (y : Int) : pat y < 2 ^ 32 := by
  unfold pat
  have := Int.emod_lt_of_pos y (show (0 : Int) < 2 ^ 32 by norm_num)
  have := Int.emod_nonneg y (show (2 ^ 32 : Int) ≠ 0 by norm_num)
  omega

/-- The words that `ofPyInt` gives are those of `toCInt`. -/
theorem ofPyInt_eq (y : Int) : ofPyInt y = (toCInt y).map I := by
  unfold ofPyInt toCInt
  by_cases h : -2 ^ 31 ≤ y ∧ y < 2 ^ 31
  · rw [if_pos h, if_pos h]
    simp only [Except.map]
    congr 1
    apply BitVec.eq_of_toNat_eq
    have := pat_lt y
    unfold pat at this
    rw [BitVec.toNat_ofInt, BitVec.toNat_ofNat, Nat.mod_eq_of_lt this]
    rfl
  · rw [if_neg h, if_neg h]
    rfl

theorem toCInt_lt {y : Int} {p : Nat} (h : toCInt y = .ok p) : p < 2 ^ 32 := by
  unfold toCInt at h
  split at h
  · cases h
    exact pat_lt y
  · cases h

/-- The call of `func` and the conversion. -/
def callN (f : Nat → Except PyErr Int) (x : Nat) : Except PyErr Nat := (f x).bind toCInt

theorem callC_eq (f : Nat → Except PyErr Int) (x : Nat) : (f x).bind ofPyInt = (callN f x).map I := by
  unfold callN
  rcases f x with e | y
  · rfl
  · exact ofPyInt_eq y

theorem callN_lt {f : Nat → Except PyErr Int} {x p : Nat} (h : callN f x = .ok p) : p < 2 ^ 32 := by
  unfold callN at h
  rcases hf : f x with e | y
  · rw [hf] at h; cases h
  · rw [hf] at h; exact toCInt_lt h

theorem mapM_map {α β γ : Type} (L : List α) (f : α → Except PyErr β) (g : β → γ) :
    (L.mapM fun a => (f a).map g) = (L.mapM f).map (·.map g) := by
  induction L with
  | nil => rfl
  | cons a L ih =>
    rw [List.mapM_cons, List.mapM_cons, ih]
    rcases f a with e | b
    · rfl
    · rcases L.mapM f with e | bs <;> rfl

theorem mapM_prop {α β : Type} {L : List α} {f : α → Except PyErr β} {bs : List β} (P : β → Prop)
    (h : L.mapM f = .ok bs) (hf : ∀ a b, f a = .ok b → P b) : bs.length = L.length ∧ ∀ b ∈ bs, P b := by
  induction L generalizing bs with
  | nil => cases h; simp
  | cons a L ih =>
    rw [List.mapM_cons] at h
    rcases ha : f a with e | b
    · rw [ha] at h; cases h
    · rcases hL : L.mapM f with e | cs
      · rw [ha, hL] at h; cases h
      · rw [ha, hL] at h
        cases h
        obtain ⟨i1, i2⟩ := ih hL
        refine ⟨by simp [i1], ?_⟩
        intro x hx
        rcases List.mem_cons.1 hx with rfl | hx
        · exact hf a _ ha
        · exact i2 x hx

theorem or_I {a b : Nat} (ha : a < 2 ^ 31) (hb : b < 2 ^ 31) : I a ||| I b = I (a ||| b) := by
  apply BitVec.eq_of_toNat_eq
  rw [BitVec.toNat_or, toNat_I ha, toNat_I hb, toNat_I (Nat.or_lt_two_pow ha hb)]

theorem length_set_ok {n : Nat} {vec out : List R} [Zero R] {reg1 reg2 : List Nat} {garb : Nat → Nat} {y x q r : Nat} :
    (faAssign n reg1 reg2 garb vec y x q r out).length = out.length := by
  unfold faAssign
  simp

theorem assignC_I [Zero R] {n : Nat} {reg1 reg2 : List Nat} (h : RegsOK n reg1 reg2)
    (h2 : reg2.length ≤ (faOther n reg1 reg2).length) {vec out : List R} (hv : vec.length = 2 ^ n) (ho : out.length = 2 ^ n)
    {y x q r : Nat} (hy : y < 2 ^ 32) (hx : x < 2 ^ 31) (hq : q < 2 ^ 31) (hr : r < 2 ^ 31) (garb : Nat → Nat) :
    assignC (I n) (reg1.map I) (reg2.map I) ((faOther n reg1 reg2).map I) (I (faOther n reg1 reg2).length) vec (I y) (I x) (I q)
        (I r) out = .ok (faAssign n reg1 reg2 garb vec y x q r out) := by
  have hs := h.small
  have hlen := h.length_other
  have hsum := length_le_of_lt h.nodup h.lt
  rw [List.length_append] at hsum
  have hle : 2 ^ n ≤ 2 ^ 30 := Nat.pow_le_pow_right (by norm_num) hs
  have l1 : ∀ q ∈ reg1, q < n := fun q hq => h.lt q (by simp [hq])
  have l2 : ∀ q ∈ reg2, q < n := fun q hq => h.lt q (by simp [hq])
  have l3 : ∀ q ∈ faOther n reg1 reg2, q < n := fun q hq => (mem_faOther.1 hq).1
  obtain ⟨p1, b1⟩ := placeC_I hs l1 (by omega) (I x)
  obtain ⟨p2, b2⟩ := placeC_I hs l2 (by omega) (I y ^^^ I q)
  obtain ⟨p3, b3⟩ := placeC_I hs l2 (by omega) (I q)
  obtain ⟨p4, b4⟩ := rOffC_I hs l3 (by omega) h2 garb hr
  have e1 : (I x).toNat = x := toNat_I hx
  have e2 : (I y ^^^ I q).toNat = y ^^^ q := by
    rw [BitVec.toNat_xor, toNat_I hq, BitVec.toNat_ofNat, Nat.mod_eq_of_lt hy]
  have e3 : (I q).toNat = q := toNat_I hq
  rw [e1] at p1 b1
  rw [e2] at p2 b2
  rw [e3] at p3 b3
  have hnrem : n - (reg1.length + reg2.length) = (faOther n reg1 reg2).length := by omega
  unfold assignC faAssign
  rw [List.length_map, p1, p2, p3, p4]
  simp only [bind, Except.bind, hnrem]
  have c1 := Nat.or_lt_two_pow b1 b3
  have c2 := Nat.or_lt_two_pow c1 b4
  have c3 := Nat.or_lt_two_pow b1 b2
  have c4 := Nat.or_lt_two_pow c3 b4
  rw [or_I (by omega) (by omega), or_I (by omega) (by omega), or_I (by omega) (by omega), or_I (by omega) (by omega),
    read_I (by omega) (by omega)]
  dsimp only
  rw [write_I (by omega) (by omega), List.getD_eq_getElem _ _ (by omega)]

theorem zeroed_eq [Zero R] (k : Nat) (hk : k ≤ 2 ^ 31) {out : List R} (ho : out.length = k) :
    (List.range k).foldlM (fun o i => write o (trunc i) (0 : R)) out = .ok (List.replicate k 0) := by
  have key : ∀ j ≤ k, (List.range j).foldlM (fun o i => write o (trunc i) (0 : R)) out
      = .ok (List.replicate j 0 ++ out.drop j) := by
    intro j hj
    induction j with
    | zero => rfl
    | succ j ih =>
      rw [List.range_succ, List.foldlM_append, ih (by omega)]
      simp only [bind, Except.bind, List.foldlM_cons, List.foldlM_nil]
      rw [trunc_eq, write_I (by omega) (by simp; omega)]
      change Except.ok _ = _
      congr 1
      rw [List.set_append_right _ _ (by simp), List.length_replicate, Nat.sub_self, List.replicate_succ', List.append_assoc,
        List.drop_eq_getElem_cons (by omega : j < out.length), List.set_cons_zero]
      rfl
  rw [key k le_rfl, List.drop_of_length_le (by omega), List.append_nil]

end QIP.C32
