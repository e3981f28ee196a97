import Mathlib.Algebra.Order.BigOperators.Group.List
import Verif.Model.CKernel
import Verif.Lemmas.C32
import Verif.Lemmas.Fold
import Verif.Lemmas.KronSelect

/-!
# The kernel on C ints and structs computes the kernel on natural numbers and matrix objects
-/

namespace QIP.C32

open QIP

variable {R : Type}

/-- A natural number as a C int. -/
abbrev I (a : Nat) : CInt := BitVec.ofNat 32 a

theorem toNat_I {a : Nat} (h : a < 2 ^ 31) : (I a).toNat = a := by
  rw [BitVec.toNat_ofNat, Nat.mod_eq_of_lt (by omega)]

theorem toInt_I {a : Nat} (h : a < 2 ^ 31) : (I a).toInt = a := by
  rw [BitVec.toInt_eq_toNat_of_lt, toNat_I h]
  rw [toNat_I h]; omega

theorem I_toNat (x : CInt) : I x.toNat = x := by simp

theorem ofPy_ok {k : Nat} (h : k < 2 ^ 31) : ofPy k = .ok (I k) := if_pos h

theorem add_I {a b : Nat} (h : a + b < 2 ^ 31) : add (I a) (I b) = .ok (I (a + b)) := by
  unfold add fits
  rw [toInt_I (by omega), toInt_I (by omega), if_pos (by omega)]
  congr 1
  exact (BitVec.ofNat_add a b).symm

theorem sub_I {a b : Nat} (ha : a < 2 ^ 31) (h : b ≤ a) : sub (I a) (I b) = .ok (I (a - b)) := by
  unfold sub fits
  rw [toInt_I (by omega), toInt_I (by omega), if_pos (by omega)]
  congr 1
  apply BitVec.eq_of_toNat_eq
  rw [BitVec.toNat_sub, toNat_I (by omega), toNat_I ha, toNat_I (by omega)]
  omega

theorem mul_I {a b : Nat} (h : a * b < 2 ^ 31) (ha : a < 2 ^ 31) (hb : b < 2 ^ 31) : mul (I a) (I b) = .ok (I (a * b)) := by
  unfold mul fits
  have h0 : (0 : Int) ≤ a * b := by positivity
  have h1 : (a * b : Int) < 2 ^ 31 := by exact_mod_cast h
  rw [toInt_I ha, toInt_I hb, if_pos ⟨by omega, h1⟩]
  congr 1
  exact (BitVec.ofNat_mul a b).symm

theorem setBit_lt {x b : Nat} {v : Bool} {k : Nat} (hx : x < 2 ^ k) (hb : b < k) : QIP.setBit x b v < 2 ^ k := by
  apply Nat.lt_pow_two_of_testBit
  intro j hj
  rw [testBit_setBit, if_neg (by omega)]
  exact Nat.testBit_lt_two_pow (hx.trans_le (Nat.pow_le_pow_right (by norm_num) hj))

theorem setBitI_I {x b v : Nat} (hx : x < 2 ^ 31) (hb : b < 31) (hv : v < 2 ^ 31) :
    setBitI (I x) (I b) (I v) = .ok (I (QIP.setBit x b (decide (v ≠ 0)))) := by
  unfold setBitI
  rw [toInt_I (by omega), if_pos (by omega), toNat_I (by omega)]
  congr 1
  apply BitVec.eq_of_toNat_eq
  rw [toNat_setBit _ _ (by omega), toNat_I hx, toNat_I (setBit_lt hx hb)]
  congr 2
  rw [eq_iff_iff]
  refine not_congr ⟨fun h => ?_, fun h => by rw [h]; rfl⟩
  have := congrArg BitVec.toNat h
  rwa [toNat_I hv] at this

theorem getBitI_I {x b : Nat} (hx : x < 2 ^ 31) (hb : b < 31) : getBitI (I x) (I b) = .ok (I (QIP.getBit x b).toNat) := by
  unfold getBitI
  rw [toInt_I (by omega), if_pos (by omega), toNat_I (by omega)]
  congr 1
  apply BitVec.eq_of_toNat_eq
  rw [toNat_getBit _ _ (by omega), toNat_I hx, toNat_I]
  cases QIP.getBit x b <;> norm_num

theorem pow2_I {k : Nat} (h : k < 31) : pow2 (I k) = .ok (I (2 ^ k)) := by
  unfold pow2
  rw [toInt_I (by omega), if_pos (by omega), toNat_I (by omega)]
  congr 1
  apply BitVec.eq_of_toNat_eq
  rw [toNat_one_shiftLeft (by omega), toNat_I (Nat.pow_lt_pow_right (by norm_num) h), Nat.one_shiftLeft]

theorem cRange_I {k : Nat} (h : k < 2 ^ 31) : cRange (I k) = (List.range k).map I := by
  unfold cRange
  rw [toInt_I h]
  rfl

theorem read_I {α : Type} {a : List α} {i : Nat} (hi : i < 2 ^ 31) (h : i < a.length) : read a (I i) = .ok a[i] := by
  unfold read
  rw [toInt_I hi, if_neg (by omega), toNat_I hi, List.getElem?_eq_getElem h]

theorem read_none {α : Type} {a : List α} {i : Nat} (hi : i < 2 ^ 31) (h : a.length ≤ i) : read a (I i) = .error .ub := by
  unfold read
  rw [toInt_I hi, if_neg (by omega), toNat_I hi, List.getElem?_eq_none h]

/-- A fold of C operations that succeed. -/
theorem foldlM_I {α : Type} (L : List α) (f : CInt → α → Except PyErr CInt) (g : Nat → α → Nat) {x : Nat}
    (P : Nat → Prop) (hx : P x) (h : ∀ y, P y → ∀ a ∈ L, f (I y) a = .ok (I (g y a)) ∧ P (g y a)) :
    L.foldlM f (I x) = .ok (I (L.foldl g x)) ∧ P (L.foldl g x) := by
  induction L generalizing x with
  | nil => exact ⟨rfl, hx⟩
  | cons a L ih =>
    have h1 := h x hx a (by simp)
    rw [List.foldlM_cons, h1.1, List.foldl_cons]
    exact ih h1.2 fun y hy b hb => h y hy b (by simp [hb])

/-! ## The numbers -/

theorem subIndexC_I {g : List Nat} {n x : Nat} (hn : n ≤ 31) (hg : ∀ q ∈ g, q < n) (hgl : g.length ≤ 31) (hx : x < 2 ^ 31) :
    subIndexC (g.map I) (I n) (I x) = .ok (I (cSubIndex n g x)) ∧ cSubIndex n g x < 2 ^ g.length := by
  unfold subIndexC cSubIndex
  rw [List.length_map]
  change (cRange (I g.length)).foldlM _ (I 0) = _ ∧ _
  rw [cRange_I (by omega), List.foldlM_map]
  refine foldlM_I _ _ _ (fun y => y < 2 ^ g.length) (by positivity) ?_
  intro y hy t ht
  have ht : t < g.length := by simpa using ht
  have hq := hg g[t] (List.getElem_mem ht)
  have hy' : y < 2 ^ 31 := hy.trans_le (Nat.pow_le_pow_right (by norm_num) hgl)
  rw [read_I (by omega) (by simpa using ht)]
  simp only [bind, Except.bind, List.getElem_map]
  rw [show (1 : CInt) = I 1 from rfl, sub_I (by omega) (by omega)]
  dsimp only
  rw [sub_I (by omega) (by omega)]
  dsimp only
  rw [getBitI_I hx (by omega)]
  dsimp only [trunc]
  rw [sub_I (by omega) (by omega)]
  dsimp only
  rw [sub_I (by omega) (by omega)]
  dsimp only
  rw [setBitI_I hy' (by omega) (by cases QIP.getBit x (n - 1 - g[t]) <;> norm_num)]
  have e : decide ((QIP.getBit x (n - 1 - g[t])).toNat ≠ 0) = QIP.getBit x (n - 1 - g[t]) := by
    cases QIP.getBit x (n - 1 - g[t]) <;> rfl
  rw [e, List.getD_eq_getElem _ _ ht]
  exact ⟨rfl, setBit_lt hy (by omega)⟩

theorem nextCol_I {flat : List Nat} {n i x : Nat} (hn : n ≤ 31) (hf : ∀ q ∈ flat, q < n) (hfl : flat.length ≤ 31)
    (hx : x < 2 ^ n) (hi : i < 2 ^ 31) :
    nextCol (flat.map I) (I n) (I i) (I x) = .ok (I ((List.range flat.length).foldl
        (fun cb j => QIP.setBit cb ((n - 1) - flat.getD j 0) (QIP.getBit i ((flat.length - 1) - j))) x)) ∧
      (List.range flat.length).foldl
        (fun cb j => QIP.setBit cb ((n - 1) - flat.getD j 0) (QIP.getBit i ((flat.length - 1) - j))) x < 2 ^ n := by
  unfold nextCol
  rw [List.length_map]
  change (cRange (I flat.length)).foldlM _ (I x) = _ ∧ _
  rw [cRange_I (by omega), List.foldlM_map]
  refine foldlM_I _ _ _ (fun y => y < 2 ^ n) hx ?_
  intro y hy t ht
  have ht : t < flat.length := by simpa using ht
  have hq := hf flat[t] (List.getElem_mem ht)
  have hy' : y < 2 ^ 31 := hy.trans_le (Nat.pow_le_pow_right (by norm_num) hn)
  rw [read_I (by omega) (by simpa using ht)]
  simp only [bind, Except.bind, List.getElem_map]
  rw [show (1 : CInt) = I 1 from rfl, sub_I (by omega) (by omega)]
  dsimp only
  rw [sub_I (by omega) (by omega)]
  dsimp only [trunc]
  rw [sub_I (by omega) (by omega)]
  dsimp only
  rw [sub_I (by omega) (by omega)]
  dsimp only
  rw [getBitI_I hi (by omega)]
  dsimp only
  rw [setBitI_I hy' (by omega) (by cases QIP.getBit i (flat.length - 1 - t) <;> norm_num)]
  have e : decide ((QIP.getBit i (flat.length - 1 - t)).toNat ≠ 0) = QIP.getBit i (flat.length - 1 - t) := by
    cases QIP.getBit i (flat.length - 1 - t) <;> rfl
  rw [e, List.getD_eq_getElem _ _ ht]
  exact ⟨rfl, setBit_lt hy (by omega)⟩

/-! ## The structs -/

/-- The struct `s` describes the matrix object `m`, using the elements `lo ≤ a < hi` of the array. -/
def Rep (mem : Mem R) (lo hi : Nat) : MStruct R → Mat R → Prop
  | s, .dense r _ d => s = ⟨.numpy, I r, .data d⟩
  | s, .swap k => s = ⟨.swap, I k, .obj⟩
  | s, .cmat m => ∃ a s', s = ⟨.cmat, I (Mat.cmat m).shape.1, .struct a⟩ ∧ lo ≤ a ∧ a < hi ∧ mem[a]? = some (some s') ∧
      Rep mem lo hi s' m

theorem Rep.frame {mem mem' : Mem R} {lo hi lo' hi' : Nat} (hl : lo' ≤ lo) (hh : hi ≤ hi')
    (h : ∀ a, lo ≤ a → a < hi → mem'[a]? = mem[a]?) {m : Mat R} {s : MStruct R} (hr : Rep mem lo hi s m) :
    Rep mem' lo' hi' s m := by
  induction m generalizing s with
  | dense r c d => exact hr
  | swap k => exact hr
  | cmat m ih =>
    obtain ⟨a, s', rfl, h1, h2, h3, h4⟩ := hr
    exact ⟨a, s', rfl, by omega, by omega, by rw [h a h1 h2, h3], ih h4⟩

/-- All numbers stored in the structs of a matrix object fit. -/
def ParamsOK : Mat R → Prop
  | .dense r _ _ => r < 2 ^ 31
  | .swap k => k < 2 ^ 31
  | .cmat m => (Mat.cmat m).shape.1 < 2 ^ 31 ∧ ParamsOK m

/-- The struct as first written. -/
def firstStruct : Mat R → MStruct R
  | .dense r _ d => ⟨.numpy, I r, .data d⟩
  | .swap k => ⟨.swap, I k, .obj⟩
  | .cmat m => ⟨.cmat, I (Mat.cmat m).shape.1, .obj⟩

theorem mkStruct_ok {m : Mat R} (h : ParamsOK m) : mkStruct m = .ok (firstStruct m) := by
  cases m with
  | dense r c d => simp only [mkStruct, ofPy_ok h, bind, Except.bind]; rfl
  | swap k => simp only [mkStruct, ofPy_ok h, bind, Except.bind]; rfl
  | cmat m => simp only [mkStruct, ofPy_ok h.1, bind, Except.bind]; rfl

theorem store_ok {mem : Mem R} {i : Nat} (h : i < mem.length) (s : MStruct R) : store mem i s = .ok (mem.set i (some s)) :=
  if_pos h

theorem storePtr_ok {mem : Mem R} {l : Nat} {s : MStruct R} (h : mem[l]? = some (some s)) (a : Nat) :
    storePtr mem l a = .ok (mem.set l (some { s with ptr := .struct a })) := by
  unfold storePtr
  rw [h]

/-- The chain of structs of `m`, appended to the array; the struct `last` points to it. -/
theorem buildExtra_spec {m : Mat R} (hm : ParamsOK m) {last : Nat} {mem : Mem R} {extra : Nat} {s0 : MStruct R}
    (hl : mem[last]? = some (some s0)) (hlt : last < extra) (hroom : extra + countExtra m < mem.length) :
    ∃ mem' s, buildExtra m last mem extra = .ok (mem', extra + countExtra m + 1) ∧ mem'.length = mem.length ∧
      mem'[last]? = some (some { s0 with ptr := .struct extra }) ∧ mem'[extra]? = some (some s) ∧
      Rep mem' extra (extra + countExtra m + 1) s m ∧
      ∀ a, a ≠ last → (a < extra ∨ extra + countExtra m + 1 ≤ a) → mem'[a]? = mem[a]? := by
  have hll : last < mem.length := (List.getElem?_eq_some_iff.1 hl).1
  induction m generalizing last mem extra s0 with
  | cmat m ih =>
    simp only [countExtra] at hroom ⊢
    simp only [buildExtra, mkStruct_ok hm, bind, Except.bind]
    rw [store_ok (by omega)]
    dsimp only
    have h1 : (mem.set extra (some (firstStruct (Mat.cmat m))))[last]? = some (some s0) := by
      rw [List.getElem?_set_ne (by omega), hl]
    rw [storePtr_ok h1]
    dsimp only
    obtain ⟨mem', s, e1, e2, e3, e4, e5, e6⟩ := ih hm.2 (last := extra)
      (mem := (mem.set extra (some (firstStruct (Mat.cmat m)))).set last (some { s0 with ptr := .struct extra }))
      (extra := extra + 1) (s0 := firstStruct (Mat.cmat m))
      (by rw [List.getElem?_set_ne (by omega), List.getElem?_set_self (by omega)]) (by omega) (by simp; omega) (by simp; omega)
    refine ⟨mem', _, ?_, by simpa using e2, ?_, e3, ⟨extra + 1, s, rfl, by omega, by omega, e4, ?_⟩, ?_⟩
    · rw [e1]
      congr 2
      omega
    · rw [e6 last (by omega) (by omega), List.getElem?_set_self (by simpa using hll)]
    · exact e5.frame (by omega) (by omega) fun _ _ _ => rfl
    · intro a ha hb
      rw [e6 a (by omega) (by omega), List.getElem?_set_ne (by omega), List.getElem?_set_ne (by omega)]
  | _ =>
    simp only [countExtra] at hroom ⊢
    simp only [buildExtra, mkStruct_ok hm, bind, Except.bind]
    rw [store_ok (by omega)]
    dsimp only
    rw [storePtr_ok (s := s0) (by rw [List.getElem?_set_ne (by omega), hl])]
    refine ⟨_, _, rfl, by simp, by rw [List.getElem?_set_self (by simpa using hll)],
      by rw [List.getElem?_set_ne (by omega), List.getElem?_set_self (by omega)]; rfl, rfl, ?_⟩
    intro a ha hb
    rw [List.getElem?_set_ne (by omega), List.getElem?_set_ne (by omega)]

theorem buildMat_spec {m : Mat R} (hm : ParamsOK m) {i : Nat} {mem : Mem R} {extra : Nat} (hi : i < extra)
    (hroom : extra + countExtra m ≤ mem.length) (hi' : i < mem.length) :
    ∃ mem' s, buildMat m i mem extra = .ok (mem', extra + countExtra m) ∧ mem'.length = mem.length ∧
      mem'[i]? = some (some s) ∧ Rep mem' extra (extra + countExtra m) s m ∧
      ∀ a, a ≠ i → (a < extra ∨ extra + countExtra m ≤ a) → mem'[a]? = mem[a]? := by
  unfold buildMat
  simp only [mkStruct_ok hm, store_ok hi', bind, Except.bind]
  cases m with
  | cmat m =>
    simp only [countExtra] at hroom ⊢
    obtain ⟨mem', s, e1, e2, e3, e4, e5, e6⟩ := buildExtra_spec hm.2 (last := i) (mem := mem.set i (some (firstStruct (Mat.cmat m))))
      (extra := extra) (by rw [List.getElem?_set_self hi']) hi (by simp; omega)
    refine ⟨mem', _, e1, by simpa using e2, e3, ⟨extra, s, rfl, by omega, by omega, e4, e5⟩, ?_⟩
    intro a ha hb
    rw [e6 a ha (by omega), List.getElem?_set_ne (by omega)]
  | _ =>
    refine ⟨_, _, rfl, by simp, by rw [List.getElem?_set_self hi']; rfl, rfl, ?_⟩
    intro a ha hb
    rw [List.getElem?_set_ne (by omega)]

theorem buildLoop_spec {ms : List (Mat R)} (hm : ∀ m ∈ ms, ParamsOK m) {i : Nat} {mem : Mem R} {extra : Nat}
    (hi : i + ms.length ≤ extra) (hroom : extra + (ms.map countExtra).sum ≤ mem.length) :
    ∃ mem', buildLoop ms i mem extra = .ok mem' ∧ mem'.length = mem.length ∧
      (∀ k (hk : k < ms.length), ∃ s, mem'[i + k]? = some (some s) ∧ Rep mem' extra mem.length s ms[k]) ∧
      ∀ a, (a < i ∨ i + ms.length ≤ a) → a < extra → mem'[a]? = mem[a]? := by
  induction ms generalizing i mem extra with
  | nil => exact ⟨mem, rfl, rfl, by simp, fun _ _ _ => rfl⟩
  | cons m ms ih =>
    simp only [List.length_cons, List.map_cons, List.sum_cons] at hi hroom ⊢
    obtain ⟨m1, s, e1, e2, e3, e4, e5⟩ := buildMat_spec (hm m (by simp)) (i := i) (mem := mem) (extra := extra) (by omega) (by omega)
      (by omega)
    obtain ⟨m2, f1, f2, f3, f4⟩ := ih (fun m h => hm m (by simp [h])) (i := i + 1) (mem := m1) (extra := extra + countExtra m)
      (by omega) (by omega)
    refine ⟨m2, ?_, by omega, ?_, ?_⟩
    · simp only [buildLoop, e1, bind, Except.bind]
      exact f1
    · intro k hk
      rcases k with _ | k
      · refine ⟨s, ?_, e4.frame (le_refl _) (by omega) ?_⟩
        · rw [Nat.add_zero, f4 i (by omega) (by omega), e3]
        · intro a h1 h2
          exact f4 a (by omega) h2
      · obtain ⟨s', g1, g2⟩ := f3 k (by omega)
        refine ⟨s', by rw [← g1]; congr 1; omega, ?_⟩
        rw [e2] at g2
        exact g2.frame (by omega) (le_refl _) fun _ _ _ => rfl
    · intro a ha hb
      rw [f4 a (by omega) (by omega), e5 a (by omega) (by omega)]

/-- The array built for the matrices: no access outside of it, and element `k` describes matrix `k`. -/
theorem build_spec {ms : List (Mat R)} (hm : ∀ m ∈ ms, ParamsOK m) :
    ∃ mem, build ms = .ok mem ∧ mem.length = (ms.map countExtra).sum + ms.length ∧
      ∀ k (hk : k < ms.length), ∃ s, mem[k]? = some (some s) ∧ Rep mem ms.length mem.length s ms[k] := by
  obtain ⟨mem, h1, h2, h3, -⟩ := buildLoop_spec hm (i := 0)
    (mem := List.replicate ((ms.map countExtra).sum + ms.length) none) (extra := ms.length) (by omega) (by simp; omega)
  refine ⟨mem, h1, by simpa using h2, ?_⟩
  intro k hk
  obtain ⟨s, a, b⟩ := h3 k hk
  refine ⟨s, by simpa using a, ?_⟩
  rw [h2]
  exact b

/-! ## Entries -/

/-- The numbers computed for the entries of a matrix object fit: a numpy array has at most `2 ^ 31` entries. -/
def IntsOK : Mat R → Prop
  | .dense r _ _ => r * r ≤ 2 ^ 31
  | .swap k => k ≤ 15
  | .cmat m => (Mat.cmat m).shape.1 < 2 ^ 31 ∧ IntsOK m

theorem IntsOK.params {m : Mat R} (h : IntsOK m) : ParamsOK m := by
  induction m with
  | dense r c d =>
    change r * r ≤ 2 ^ 31 at h
    change r < 2 ^ 31
    by_contra hc
    have := Nat.mul_le_mul (Nat.le_of_not_lt hc) (Nat.le_of_not_lt hc)
    omega
  | swap k =>
    change k ≤ 15 at h
    change k < 2 ^ 31
    omega
  | cmat m ih => exact ⟨h.1, ih h.2⟩

theorem I_inj {a b : Nat} (ha : a < 2 ^ 31) (hb : b < 2 ^ 31) : I a = I b ↔ a = b := by
  constructor
  · intro h
    have := congrArg BitVec.toNat h
    rwa [toNat_I ha, toNat_I hb] at this
  · rintro rfl
    rfl

theorem sshiftRight_I {a : Nat} (ha : a < 2 ^ 31) (k : Nat) : (I a).sshiftRight k = I (a >>> k) := by
  apply BitVec.eq_of_toNat_eq
  have : a >>> k ≤ a := by rw [Nat.shiftRight_eq_div_pow]; exact Nat.div_le_self _ _
  rw [toNat_sshiftRight_of_lt (by rwa [toNat_I ha]), toNat_I ha, toNat_I (by omega)]

theorem mask_I {a : Nat} (ha : a < 2 ^ 31) (k : Nat) : I a &&& ~~~ (BitVec.allOnes 32 <<< k) = I (a % 2 ^ k) := by
  have hle : a % 2 ^ k ≤ a := Nat.mod_le _ _
  apply BitVec.eq_of_getLsbD_eq
  intro j hj
  rw [BitVec.getLsbD_and, BitVec.getLsbD_not, BitVec.getLsbD_shiftLeft, BitVec.getLsbD_allOnes, BitVec.getLsbD_ofNat,
    BitVec.getLsbD_ofNat, Nat.testBit_mod_two_pow]
  by_cases h : j < k
  · simp [hj, h]
  · simp [hj, h]
    omega

theorem calcMatEntry_spec [Zero R] [One R] {mem : Mem R} {lo hi : Nat} {m : Mat R} (hm : IntsOK m) {s : MStruct R}
    (hr : Rep mem lo hi s m) {i j : Nat} (hi' : i < m.shape.1) (hj' : j < m.shape.1) {fuel : Nat} (hf : countExtra m < fuel) :
    calcMatEntry mem fuel s (I i) (I j) = m.calcEntry i j := by
  induction m generalizing s i j fuel with
  | dense r c d =>
    obtain ⟨fuel, rfl⟩ : ∃ k, fuel = k + 1 := ⟨fuel - 1, by omega⟩
    have hr' : s = ⟨.numpy, I r, .data d⟩ := hr
    subst hr'
    change r * r ≤ 2 ^ 31 at hm
    simp only [Mat.shape] at hi' hj'
    have hr31 : r < 2 ^ 31 := (show IntsOK (Mat.dense r c d) from hm).params
    have hij : i * r + j < 2 ^ 31 := by
      have : (i + 1) * r ≤ r * r := Nat.mul_le_mul_right _ hi'
      rw [Nat.add_mul, Nat.one_mul] at this
      omega
    simp only [calcMatEntry, Mat.calcEntry, bind, Except.bind]
    rw [mul_I (by omega) (by omega) hr31]
    dsimp only
    rw [add_I hij]
    dsimp only
    rcases Nat.lt_or_ge (i * r + j) d.length with h | h
    · rw [read_I hij h, List.getElem?_eq_getElem h]
    · rw [read_none hij h, List.getElem?_eq_none h]
  | swap k =>
    obtain ⟨fuel, rfl⟩ : ∃ k, fuel = k + 1 := ⟨fuel - 1, by omega⟩
    have hr' : s = ⟨.swap, I k, .obj⟩ := hr
    subst hr'
    change k ≤ 15 at hm
    simp only [Mat.shape] at hi' hj'
    have h30 : 2 ^ (2 * k) ≤ 2 ^ 30 := Nat.pow_le_pow_right (by norm_num) (by omega)
    have hi31 : i < 2 ^ 31 := by omega
    have hj31 : j < 2 ^ 31 := by omega
    have le_i : i >>> k ≤ i := by rw [Nat.shiftRight_eq_div_pow]; exact Nat.div_le_self _ _
    have le_j : j >>> k ≤ j := by rw [Nat.shiftRight_eq_div_pow]; exact Nat.div_le_self _ _
    have mi := Nat.mod_le i (2 ^ k)
    have mj := Nat.mod_le j (2 ^ k)
    simp only [calcMatEntry, Mat.calcEntry]
    rw [toInt_I (by omega), if_neg (by omega), toNat_I (by omega), mask_I hi31, mask_I hj31, sshiftRight_I hi31,
      sshiftRight_I hj31]
    simp only [I_inj (show i % 2 ^ k < 2 ^ 31 by omega) (show j >>> k < 2 ^ 31 by omega),
      I_inj (show j % 2 ^ k < 2 ^ 31 by omega) (show i >>> k < 2 ^ 31 by omega)]
  | cmat m ih =>
    obtain ⟨fuel, rfl⟩ : ∃ k, fuel = k + 1 := ⟨fuel - 1, by omega⟩
    obtain ⟨a, s', rfl, h1, h2, h3, h4⟩ := hr
    have hp : (Mat.cmat m).shape.1 < 2 ^ 31 := hm.1
    have hh : (Mat.cmat m).shape.1 >>> 1 = m.shape.1 := by
      rw [Nat.shiftRight_eq_div_pow, pow_one]
      simp [Mat.shape]
    have hs2 : (Mat.cmat m).shape.1 = m.shape.1 * 2 := rfl
    rw [hs2] at hi' hj' 
    have hi31 : i < 2 ^ 31 := by omega
    have hj31 : j < 2 ^ 31 := by omega
    simp only [calcMatEntry, Mat.calcEntry]
    rw [sshiftRight_I hp, hh, toInt_I hi31, toInt_I hj31, toInt_I (by omega)]
    simp only [Nat.cast_lt, ge_iff_le, Nat.cast_le]
    by_cases c1 : i < m.shape.1 ∧ j < m.shape.1
    · rw [if_pos c1, if_pos c1]
      simp only [I_inj hi31 hj31]
    · rw [if_neg c1, if_neg c1]
      by_cases c2 : m.shape.1 ≤ i ∧ m.shape.1 ≤ j
      · rw [if_pos c2, if_pos c2, sub_I hi31 c2.1, sub_I hj31 c2.2]
        simp only [bind, Except.bind, h3]
        exact ih hm.2 h4 (by omega) (by omega) (by simp only [countExtra] at hf; omega)
      · rw [if_neg c2, if_neg c2]

theorem IntsOK.shape {m : Mat R} (h : IntsOK m) : m.shape.1 < 2 ^ 31 := by
  cases m with
  | dense r c d => exact h.params
  | swap k =>
    change k ≤ 15 at h
    have : 2 ^ (2 * k) ≤ 2 ^ 30 := Nat.pow_le_pow_right (by norm_num) (by omega)
    simp only [Mat.shape]
    omega
  | cmat m => exact h.1

/-! ## The loops -/

/-- The matrices of a call for which the computations on C ints do not overflow. -/
structure CallInts (n : Nat) (mats : List (List Nat × Mat R)) : Prop where
  n31 : n ≤ 31
  few : mats.length < 2 ^ 31
  ints : ∀ gm ∈ mats, IntsOK gm.2
  flat : (sortedSet (mats.flatMap (·.1))).length ≤ 30

theorem group_len {n : Nat} {mats : List (List Nat × Mat R)} (hv : ValidMats n mats) (hc : CallInts n mats)
    {gm : List Nat × Mat R} (h : gm ∈ mats) : gm.1.length ≤ 30 := by
  have h1 := (hc.ints gm h).shape
  rw [(hv gm h).2.2] at h1
  by_contra hcon
  have := Nat.pow_le_pow_right (n := 2) (by norm_num) (show 31 ≤ gm.1.length by omega)
  simp only at h1
  omega

theorem prodC_spec [Zero R] [One R] [Mul R] [DecidableEq R] {n : Nat} {mats : List (List Nat × Mat R)} (hv : ValidMats n mats)
    (hc : CallInts n mats) {mem : Mem R} {lo hi : Nat}
    (hmem : ∀ k (hk : k < mats.length), ∃ s, mem[k]? = some (some s) ∧ Rep mem lo hi s mats[k].2)
    (hlen : ∀ gm ∈ mats, countExtra gm.2 ≤ mem.length) {row col : Nat} (hrow : row < 2 ^ n) (hcol : col < 2 ^ n) (l k : Nat)
    (hl : k + l = mats.length) (p : R) :
    prodC mem (mats.map fun gm => gm.1.map I) (I n) (I row) (I col) ((List.range' k l).map I) p
      = cEntryProduct n row col (mats.drop k) p := by
  have h31 : 2 ^ n ≤ 2 ^ 31 := Nat.pow_le_pow_right (by norm_num) hc.n31
  induction l generalizing k p with
  | zero =>
    rw [List.drop_of_length_le (by omega)]
    rfl
  | succ l ih =>
    have hk : k < mats.length := by omega
    have hk31 : k < 2 ^ 31 := by have := hc.few; omega
    rw [List.range'_succ, List.map_cons, List.drop_eq_getElem_cons hk]
    obtain ⟨s, h1, h2⟩ := hmem k hk
    have hmk : k < mem.length := (List.getElem?_eq_some_iff.1 h1).1
    have hs : mem[k] = some s := (List.getElem?_eq_some_iff.1 h1).2
    have hin := List.getElem_mem hk
    have hgl := group_len hv hc hin
    obtain ⟨a1, a2⟩ := subIndexC_I hc.n31 (hv _ hin).1 (by omega) (show row < 2 ^ 31 by omega)
    obtain ⟨b1, b2⟩ := subIndexC_I hc.n31 (hv _ hin).1 (by omega) (show col < 2 ^ 31 by omega)
    have hsh := (hv _ hin).2.2
    have e := calcMatEntry_spec (hc.ints _ hin) h2 (i := cSubIndex n mats[k].1 row) (j := cSubIndex n mats[k].1 col)
      (by rw [hsh]; exact a2) (by rw [hsh]; exact b2) (fuel := mem.length + 1) (by have := hlen _ hin; omega)
    simp only [prodC, cEntryProduct, bind, Except.bind]
    rw [read_I hk31 (by simpa using hk)]
    dsimp only
    rw [read_I hk31 hmk]
    dsimp only
    rw [hs, List.getElem_map]
    dsimp only
    rw [a1]
    dsimp only
    rw [b1]
    dsimp only
    rw [e]
    rcases mats[k].2.calcEntry (cSubIndex n mats[k].1 row) (cSubIndex n mats[k].1 col) with er | x
    · rfl
    · dsimp only
      split
      · rfl
      · exact ih (k + 1) (by omega) _

/-- One column after the other. -/
def colStep (flat : List Nat) (n : Nat) (cb i : Nat) : Nat :=
  (List.range flat.length).foldl (fun cb j => QIP.setBit cb ((n - 1) - flat.getD j 0) (QIP.getBit i ((flat.length - 1) - j))) cb

theorem cols_acc (flat : List Nat) (n : Nat) (L : List Nat) (cb : Nat) (acc : List Nat) :
    (L.foldl (fun (st : Nat × List Nat) i => (colStep flat n st.1 i, st.2 ++ [colStep flat n st.1 i])) (cb, acc)).2
      = acc ++ (L.foldl (fun (st : Nat × List Nat) i => (colStep flat n st.1 i, st.2 ++ [colStep flat n st.1 i])) (cb, [])).2 := by
  induction L generalizing cb acc with
  | nil => simp
  | cons i L ih =>
    rw [List.foldl_cons, List.foldl_cons, ih _ (acc ++ _), ih _ ([] ++ _)]
    simp

theorem rowC_spec [Zero R] [One R] [Add R] [Mul R] [DecidableEq R] {n : Nat} {mats : List (List Nat × Mat R)}
    (hv : ValidMats n mats) (hc : CallInts n mats) {mem : Mem R} {lo hi : Nat}
    (hmem : ∀ k (hk : k < mats.length), ∃ s, mem[k]? = some (some s) ∧ Rep mem lo hi s mats[k].2)
    (hlen : ∀ gm ∈ mats, countExtra gm.2 ≤ mem.length) {vec : List R} (hvec : vec.length < 2 ^ 31) {inOff outOff outputrow : Nat}
    (hin : inOff < 2 ^ 31) (hrow : outputrow + outOff < 2 ^ n) :
    rowC mem (mats.map fun gm => gm.1.map I) ((sortedSet (mats.flatMap (·.1))).map I) vec (I n) (I inOff) (I outOff)
        (I (2 ^ (sortedSet (mats.flatMap (·.1))).length)) (I outputrow)
      = cdotRow mats vec n inOff (outputrow + outOff) := by
  have h31 : 2 ^ n ≤ 2 ^ 31 := Nat.pow_le_pow_right (by norm_num) hc.n31
  have hflat : ∀ q ∈ sortedSet (mats.flatMap (·.1)), q < n := by
    intro q hq
    obtain ⟨gm, hgm, hq⟩ := List.mem_flatMap.1 (mem_sortedSet.1 hq)
    exact (hv gm hgm).1 q hq
  have hfl := hc.flat
  unfold rowC cdotRow cdotCols
  rw [add_I (by omega)]
  simp only [bind, Except.bind]
  generalize sortedSet (mats.flatMap (·.1)) = flat at hflat hfl
  have htwo : 2 ^ flat.length < 2 ^ 31 := Nat.pow_lt_pow_right (by norm_num) (by omega)
  rw [cRange_I htwo]
  have htr : trunc (mats.map fun (gm : List Nat × Mat R) => gm.1.map I).length = I mats.length := by
    unfold trunc
    rw [List.length_map]
  have hgroups : cRange (trunc (mats.map fun (gm : List Nat × Mat R) => gm.1.map I).length) = (List.range' 0 mats.length).map I := by
    rw [htr, cRange_I hc.few, List.range_eq_range']
  have htv : (trunc vec.length).toInt = vec.length := toInt_I hvec
  simp only [hgroups, htv]
  change _ = List.foldlM _ 0 ((List.range (2 ^ flat.length)).foldl
    (fun (st : Nat × List Nat) i => (colStep flat n st.1 i, st.2 ++ [colStep flat n st.1 i])) (outputrow + outOff, [])).2
  have key : ∀ (L : List Nat) (cb : Nat) (s : R), (∀ i ∈ L, i < 2 ^ 31) → cb < 2 ^ n → ∀ row < 2 ^ n,
      (match (L.map I).foldlM (fun (st : CInt × R) i => do
          let col ← nextCol (flat.map I) (I n) i st.1
          let vecrow ← sub col (I inOff)
          if vecrow.toInt < 0 ∨ vecrow.toInt ≥ vec.length then pure (col, st.2)
          else do
            let p ← prodC mem (mats.map fun (gm : List Nat × Mat R) => gm.1.map I) (I n) (I row) col ((List.range' 0 mats.length).map I) 1
            let x ← read vec vecrow
            pure (col, st.2 + p * x)) (I cb, s) with
        | .error e => (.error e : Except PyErr R)
        | .ok r => .ok r.2)
      = (L.foldl (fun (st : Nat × List Nat) i => (colStep flat n st.1 i, st.2 ++ [colStep flat n st.1 i])) (cb, [])).2.foldlM
          (fun s col => do
            if col < inOff ∨ col - inOff ≥ vec.length then pure s
            else do
              let p ← cEntryProduct n row col mats 1
              pure (s + p * vec.getD (col - inOff) 0)) s := by
    intro L
    induction L with
    | nil => intros; rfl
    | cons i L ih =>
      intro cb s hL hcb row hrow
      obtain ⟨c1, c2⟩ := nextCol_I (flat := flat) hc.n31 hflat (by omega) hcb (hL i (by simp))
      change nextCol _ _ _ _ = .ok (I (colStep flat n cb i)) at c1
      change colStep flat n cb i < 2 ^ n at c2
      have hih := ih (colStep flat n cb i)
      rw [List.map_cons, List.foldlM_cons, List.foldl_cons, cols_acc, List.nil_append, List.singleton_append, List.foldlM_cons]
      simp only [c1, bind, Except.bind]
      have hcol31 : colStep flat n cb i < 2 ^ 31 := by omega
      have hvr : sub (I (colStep flat n cb i)) (I inOff) = .ok (I (colStep flat n cb i) - I inOff) := by
        unfold sub fits
        rw [toInt_I hcol31, toInt_I hin, if_pos (by omega)]
      have hvi : (I (colStep flat n cb i) - I inOff).toInt = (colStep flat n cb i : Int) - inOff := by
        rw [BitVec.toInt_sub, toInt_I hcol31, toInt_I hin]
        apply Int.bmod_eq_of_le <;> omega
      rw [hvr]
      simp only [hvi]
      by_cases hcond : colStep flat n cb i < inOff ∨ colStep flat n cb i - inOff ≥ vec.length
      · rw [if_pos (by omega), if_pos hcond]
        exact hih s (fun i h => hL i (by simp [h])) c2 row hrow
      · rw [if_neg (by omega), if_neg hcond]
        rw [prodC_spec hv hc hmem hlen hrow c2 mats.length 0 (by omega), List.drop_zero]
        rcases cEntryProduct n row (colStep flat n cb i) mats 1 with er | x
        · rfl
        · dsimp only
          have hsub : I (colStep flat n cb i) - I inOff = I (colStep flat n cb i - inOff) := by
            have := sub_I hcol31 (show inOff ≤ colStep flat n cb i by omega)
            rw [hvr] at this
            injection this
          have hlt : colStep flat n cb i - inOff < vec.length := by omega
          rw [hsub, read_I (by omega) hlt, List.getD_eq_getElem _ _ hlt]
          exact hih _ (fun i h => hL i (by simp [h])) c2 row hrow
  have := key (List.range (2 ^ flat.length)) (outputrow + outOff) 0 (fun i hi => by
    have : i < 2 ^ flat.length := by simpa using hi
    omega) hrow _ hrow
  simp only [bind, Except.bind] at this
  refine Eq.trans ?_ this
  congr!
  funext motive x h1 h2
  cases x <;> rfl

theorem mapM_ofPy {l : List Nat} (h : ∀ x ∈ l, x < 2 ^ 31) : l.mapM ofPy = .ok (l.map I) := by
  induction l with
  | nil => rfl
  | cons a l ih =>
    rw [List.mapM_cons, ofPy_ok (h a (by simp)), ih fun x hx => h x (by simp [hx])]
    rfl

theorem mapM_groups {mats : List (List Nat × Mat R)} (h : ∀ gm ∈ mats, ∀ q ∈ gm.1, q < 2 ^ 31) :
    (mats.mapM fun gm => gm.1.mapM ofPy) = .ok (mats.map fun gm => gm.1.map I) := by
  induction mats with
  | nil => rfl
  | cons a l ih =>
    rw [List.mapM_cons, mapM_ofPy (h a (by simp)), ih fun x hx => h x (by simp [hx])]
    rfl

/-- The compiled kernel on C ints is the kernel on natural numbers. -/
theorem cdotLoopC_spec [Zero R] [One R] [Add R] [Mul R] [DecidableEq R] {n : Nat} {mats : List (List Nat × Mat R)}
    (hv : ValidMats n mats) (hc : CallInts n mats) {vec out : List R} (hvec : vec.length < 2 ^ 31) (hout : out.length < 2 ^ 31)
    {inOff outOff : Nat} (hin : inOff < 2 ^ 31) (ho : out.length + outOff ≤ 2 ^ n) (hoff : outOff < 2 ^ 31)
    {sched : List Nat → List Nat} (hs : ∀ l, (sched l).Perm l) :
    cdotLoopC sched mats vec n out inOff outOff = cdotLoop (sched (List.range out.length)) mats vec n out inOff outOff := by
  have hn := hc.n31
  obtain ⟨mem, hb, hl, hmem⟩ := build_spec (ms := mats.map (·.2)) (by
    intro m hm
    obtain ⟨gm, hgm, rfl⟩ := List.mem_map.1 hm
    exact (hc.ints gm hgm).params)
  have hlen : ∀ gm ∈ mats, countExtra gm.2 ≤ mem.length := by
    intro gm hgm
    rw [hl]
    have : countExtra gm.2 ∈ (mats.map (·.2)).map countExtra := List.mem_map_of_mem (List.mem_map_of_mem hgm)
    have := List.le_sum_of_mem this
    omega
  unfold cdotLoopC cdotLoop
  rw [mapM_groups fun gm hgm q hq => by have := (hv gm hgm).1 q hq; omega, ofPy_ok (show n < 2 ^ 31 by omega), ofPy_ok hin,
    ofPy_ok hoff, hb]
  simp only [bind, Except.bind]
  have hfl := hc.flat
  have htl : trunc ((sortedSet (mats.flatMap (·.1))).map (BitVec.ofNat 32)).length = I (sortedSet (mats.flatMap (·.1))).length := by
    unfold trunc
    rw [List.length_map]
  rw [htl, pow2_I (by omega)]
  dsimp only
  have hto : (trunc out.length).toInt.toNat = out.length := by
    unfold trunc
    rw [toInt_I hout]
    simp
  rw [hto, if_neg]
  · have hmemS : ∀ r ∈ sched (List.range out.length), r < out.length := fun r hr => by simpa using (hs _).mem_iff.1 hr
    generalize sched (List.range out.length) = L at hmemS
    generalize ho' : out.length = len at *
    clear hto
    induction L generalizing out with
    | nil => rfl
    | cons r L ih =>
      have hr : r < len := hmemS r (by simp)
      rw [List.foldlM_cons, List.foldlM_cons]
      have := rowC_spec hv hc (mem := mem) (lo := (mats.map (·.2)).length) (hi := mem.length) (by
        intro k hk
        have := hmem k (by simpa using hk)
        rwa [List.getElem_map] at this) hlen hvec (inOff := inOff) (outOff := outOff) (outputrow := r) hin (by omega)
      change rowC _ _ ((sortedSet (mats.flatMap (·.1))).map (BitVec.ofNat 32)) _ _ _ _ _ (BitVec.ofNat 32 r) = _ at this
      simp only [bind, Except.bind]
      rw [this]
      rcases cdotRow mats vec n inOff (r + outOff) with e | x
      · rfl
      · dsimp only
        rw [if_pos (by omega)]
        exact ih (by simpa using ho') fun r' h => hmemS r' (by simp [h])
  · rintro ⟨-, q, hq, hqn⟩
    obtain ⟨gm, hgm, hq⟩ := List.mem_flatMap.1 hq
    have := (hv gm hgm).1 q hq
    omega

end QIP.C32
