import Verif.Lemmas.Rounding

/-! # Rounding errors with underflow and overflow -/

namespace QIP

open Spec Finset

variable {A : Arith} {t j k n : Nat}

/-- Up to `k` roundings and `j` underflows. -/
def NearT (j k : Nat) (x : FC A) (y : ℂ) : Prop := ‖x.val - y‖ ≤ ((1 + A.u) ^ k - 1) * ‖y‖ + j * A.eta * (1 + A.u) ^ k

theorem nearT_mono {j' l : Nat} (hj : j ≤ j') (h : k ≤ l) {x : FC A} {y : ℂ} (hx : NearT j k x y) : NearT j' l x y := by
  unfold NearT at *
  have h1 := pow_le_pow_right₀ (by linarith [A.u_nonneg] : 1 ≤ 1 + A.u) h
  have h2 := one_le_pow_u A k
  have h3 : (j : ℝ) ≤ j' := by exact_mod_cast hj
  have := A.eta_nonneg
  refine hx.trans (add_le_add (mul_le_mul_of_nonneg_right (by linarith) (norm_nonneg _)) ?_)
  gcongr

theorem nearT_norm {x : FC A} {y : ℂ} (h : NearT j k x y) : ‖x.val‖ ≤ (1 + A.u) ^ k * ‖y‖ + j * A.eta * (1 + A.u) ^ k := by
  unfold NearT at h
  have h1 : ‖x.val‖ ≤ ‖x.val - y‖ + ‖y‖ := by simpa using norm_add_le (x.val - y) y
  linarith

theorem nearT_mul [A.Ranged] {l : Nat} {x x' : FC A} {y y' : ℂ} (h : NearT j k x y) (h' : Near l x' y') (hy1 : ‖y'‖ ≤ 1)
    (hr : ‖x.val‖ * ‖x'.val‖ ≤ A.big) : NearT (j + 1) (k + l + 1) (x * x') (y * y') := by
  have e : (x * x').val = A.mul x.val x'.val := rfl
  have h1 := Arith.Ranged.mul_err (A := A) x.val x'.val hr
  have h2 := nearT_norm h
  have h3 := near_norm h'
  unfold NearT Near at *
  rw [e, norm_mul]
  have e1 : A.mul x.val x'.val - y * y'
      = (A.mul x.val x'.val - x.val * x'.val) + (x.val * (x'.val - y') + (x.val - y) * y') := by ring
  have hu := A.u_nonneg
  have hη := A.eta_nonneg
  have ha := one_le_pow_u A k
  have hb := one_le_pow_u A l
  rw [pow_succ, pow_add]
  set a := (1 + A.u) ^ k
  set b := (1 + A.u) ^ l
  have hy := norm_nonneg y
  have hy' := norm_nonneg y'
  have hδ : 0 ≤ j * A.eta * a := by positivity
  push_cast
  calc ‖A.mul x.val x'.val - y * y'‖
      ≤ A.u * (‖x.val‖ * ‖x'.val‖) + A.eta + (‖x.val‖ * ‖x'.val - y'‖ + ‖x.val - y‖ * ‖y'‖) := by
        rw [e1, ← norm_mul]
        refine (norm_add_le _ _).trans (add_le_add h1 ((norm_add_le _ _).trans ?_))
        rw [norm_mul, norm_mul]
    _ ≤ A.u * ((a * ‖y‖ + j * A.eta * a) * (b * ‖y'‖)) + A.eta
        + ((a * ‖y‖ + j * A.eta * a) * ((b - 1) * ‖y'‖) + ((a - 1) * ‖y‖ + j * A.eta * a) * ‖y'‖) := by gcongr
    _ = (a * b * (1 + A.u) - 1) * (‖y‖ * ‖y'‖) + j * A.eta * a * (b * (1 + A.u)) * ‖y'‖ + A.eta := by ring
    _ ≤ (a * b * (1 + A.u) - 1) * (‖y‖ * ‖y'‖) + j * A.eta * a * (b * (1 + A.u)) * 1 + A.eta * (a * b * (1 + A.u)) := by
        have hab : 1 ≤ a * b * (1 + A.u) := by
          have := one_le_mul_of_one_le_of_one_le ha hb
          nlinarith
        have : A.eta * 1 ≤ A.eta * (a * b * (1 + A.u)) := mul_le_mul_of_nonneg_left hab hη
        gcongr
        linarith
    _ = _ := by ring

/-- The products of entries succeed. -/
theorem product_ok {mats : List (List Nat × Mat (FC A))} {mats' : List (List Nat × Mat ℂ)}
    (h : List.Forall₂ (fun a b => a.1 = b.1 ∧ MatNear t a.2 b.2) mats mats') (hv : ValidMats n mats') (row col : Nat) (p : FC A) :
    ∃ q, cEntryProduct n row col mats p = .ok q := by
  induction h generalizing p with
  | nil => exact ⟨p, rfl⟩
  | @cons a b mats mats' hab hrest ih =>
    obtain ⟨h1, h2⟩ := hab
    obtain ⟨_, hwf, hsh⟩ := hv b (by simp)
    obtain ⟨e', he', -⟩ := matNear_entry h2 (Mat.calcEntry_eq b.2 hwf hsh (subIndex_lt n b.1 row) (subIndex_lt n b.1 col))
    rw [cEntryProduct, h1, cSubIndex_eq, cSubIndex_eq, he']
    simp only [bind, Except.bind]
    split
    · exact ⟨_, rfl⟩
    · exact ih (fun x hx => hv x (by simp [hx])) _

/-- Entries of magnitude at most 1. -/
def SmallEntries (mats : List (List Nat × Mat ℂ)) : Prop := ∀ gm ∈ mats, ∀ i j, ‖matEntry gm.2 i j‖ ≤ 1

theorem prod_le_one {mats : List (List Nat × Mat ℂ)} (hs : SmallEntries mats) (row col : Nat) :
    ‖((denote mats).map fun gm => gm.2 (subIndex n gm.1 row) (subIndex n gm.1 col)).prod‖ ≤ 1 := by
  induction mats with
  | nil => simp [denote]
  | cons b mats ih =>
    have := ih fun gm hgm => hs gm (by simp [hgm])
    simp only [denote, List.map_cons, List.prod_cons, norm_mul] at this ⊢
    exact mul_le_one₀ (hs b (by simp) _ _) (norm_nonneg _) this

/-- Products of entries. -/
theorem product_near [A.Ranged] {mats : List (List Nat × Mat (FC A))} {mats' : List (List Nat × Mat ℂ)}
    (h : List.Forall₂ (fun a b => a.1 = b.1 ∧ MatNear t a.2 b.2) mats mats') (hv : ValidMats n mats') (hs : SmallEntries mats')
    {row col : Nat} (hbig : 8 ≤ A.big) (hpow : (1 + A.u) ^ (k + (t + 1) * mats.length) ≤ 2)
    (hη : ((j + mats.length : Nat) : ℝ) * A.eta ≤ 1) {p q : FC A} {p' : ℂ} (hp1 : ‖p'‖ ≤ 1) (hp : NearT j k p p')
    (hq : cEntryProduct n row col mats p = .ok q) : NearT (j + mats.length) (k + (t + 1) * mats.length) q
      (p' * ((denote mats').map fun gm => gm.2 (subIndex n gm.1 row) (subIndex n gm.1 col)).prod) := by
  induction h generalizing p p' j k with
  | nil =>
    simp only [cEntryProduct] at hq
    injection hq with hq
    subst hq
    simpa [denote] using hp
  | @cons a b mats mats' hab hrest ih =>
    obtain ⟨h1, h2⟩ := hab
    obtain ⟨_, hwf, hsh⟩ := hv b (by simp)
    obtain ⟨e', he', hn⟩ := matNear_entry h2 (Mat.calcEntry_eq b.2 hwf hsh (subIndex_lt n b.1 row) (subIndex_lt n b.1 col))
    set e := matEntry b.2 (subIndex n b.1 row) (subIndex n b.1 col) with hedef
    have he1 : ‖e‖ ≤ 1 := hs b (by simp) _ _
    rw [cEntryProduct, h1, cSubIndex_eq, cSubIndex_eq, he'] at hq
    simp only [bind, Except.bind] at hq
    have hu1 : 1 ≤ 1 + A.u := by linarith [A.u_nonneg]
    have hlen : k + (t + 1) * (a :: mats).length = (k + t + 1) + (t + 1) * mats.length := by
      simp only [List.length_cons]; ring
    have hlen' : j + (a :: mats).length = (j + 1) + mats.length := by simp only [List.length_cons]; ring
    rw [hlen] at hpow ⊢
    rw [hlen'] at hη ⊢
    have hk2 : (1 + A.u) ^ k ≤ 2 := (pow_le_pow_right₀ hu1 (by omega)).trans hpow
    have ht2 : (1 + A.u) ^ t ≤ 2 := (pow_le_pow_right₀ hu1 (by omega)).trans hpow
    have hj1 : (j : ℝ) * A.eta ≤ 1 := by
      refine le_trans ?_ hη
      have := A.eta_nonneg
      gcongr
      omega
    have hk0 := one_le_pow_u A k
    have hr : ‖p.val‖ * ‖e'.val‖ ≤ A.big := by
      have n1 := nearT_norm hp
      have n2 := near_norm hn
      have b1 : ‖p.val‖ ≤ 4 := by
        have : (1 + A.u) ^ k * ‖p'‖ ≤ 2 * 1 := mul_le_mul hk2 hp1 (norm_nonneg _) (by norm_num)
        have : j * A.eta * (1 + A.u) ^ k ≤ 1 * 2 := mul_le_mul hj1 hk2 (by linarith) (by norm_num)
        linarith
      have b2 : ‖e'.val‖ ≤ 2 := n2.trans ((mul_le_mul ht2 he1 (norm_nonneg _) (by norm_num)).trans (by norm_num))
      have := mul_le_mul b1 b2 (norm_nonneg _) (by norm_num)
      linarith
    have hm := nearT_mul hp hn he1 hr
    have hpe1 : ‖p' * e‖ ≤ 1 := by rw [norm_mul]; exact mul_le_one₀ hp1 (norm_nonneg _) he1
    have eprod : p' * ((denote (b :: mats')).map fun gm => gm.2 (subIndex n gm.1 row) (subIndex n gm.1 col)).prod
        = p' * e * ((denote mats').map fun gm => gm.2 (subIndex n gm.1 row) (subIndex n gm.1 col)).prod := by
      simp only [denote, List.map_cons, List.prod_cons, ← mul_assoc, hedef]
    rw [eprod]
    split at hq
    · next h0 =>
      injection hq with hq
      rw [← hq, h0]
      rw [h0] at hm
      refine nearT_mono (j := j + 1) (by omega) (by omega : k + t + 1 ≤ _) ?_
      -- the smaller product is even closer to 0
      have hR := prod_le_one (n := n) (fun gm hgm => hs gm (by simp [hgm])) row col (mats := mats')
      set R := ((denote mats').map fun gm => gm.2 (subIndex n gm.1 row) (subIndex n gm.1 col)).prod
      unfold NearT at hm ⊢
      have z : (0 : FC A).val = 0 := rfl
      rw [z, zero_sub, norm_neg] at hm ⊢
      rw [norm_mul (p' * e) R]
      have hδ : 0 ≤ ((j + 1 : Nat) : ℝ) * A.eta * (1 + A.u) ^ (k + t + 1) := by
        have := A.eta_nonneg
        have := one_le_pow_u A (k + t + 1)
        positivity
      have := mul_le_mul_of_nonneg_right hm (norm_nonneg R)
      rw [add_mul] at this
      have := mul_le_mul_of_nonneg_left hR hδ
      linarith
    · exact ih (fun x hx => hv x (by simp [hx])) (fun x hx => hs x (by simp [hx])) hpow hη hpe1 hm hq

/-- The sum of a row. -/
theorem dot_near (L : List Nat) (p : Nat → FC A) (q v : Nat → ℂ) (h : ∀ c ∈ L, NearT j k (p c) (q c)) {d : ℂ} {m : Nat}
    {τ : ℝ} (hd : ‖d - ((L.map fun c => ((p c).val, v c)).map fun t => t.1 * t.2).sum‖
      ≤ ((1 + A.u) ^ (m + 1) - 1) * ((L.map fun c => ((p c).val, v c)).map fun t => ‖t.1‖ * ‖t.2‖).sum + τ) :
    ‖d - (L.map fun c => q c * v c).sum‖ ≤ ((1 + A.u) ^ (k + 1 + m) - 1) * (L.map fun c => ‖q c‖ * ‖v c‖).sum
      + (j * A.eta * (1 + A.u) ^ (k + 1 + m) * (L.map fun c => ‖v c‖).sum + τ) := by
  rw [List.map_map, List.map_map] at hd
  simp only [Function.comp_def] at hd
  set a := (1 + A.u) ^ k
  set δ := j * A.eta * a
  have h1 : ‖(L.map fun c => (p c).val * v c).sum - (L.map fun c => q c * v c).sum‖
      ≤ (a - 1) * (L.map fun c => ‖q c‖ * ‖v c‖).sum + δ * (L.map fun c => ‖v c‖).sum := by
    clear hd
    induction L with
    | nil => simp
    | cons c L ih =>
      simp only [List.map_cons, List.sum_cons, mul_add]
      have h1 := ih fun c hc => h c (by simp [hc])
      have h2 := h c (by simp)
      unfold NearT at h2
      have e : (p c).val * v c + (L.map fun c => (p c).val * v c).sum - (q c * v c + (L.map fun c => q c * v c).sum)
          = ((p c).val - q c) * v c + ((L.map fun c => (p c).val * v c).sum - (L.map fun c => q c * v c).sum) := by ring
      rw [e]
      refine (norm_add_le _ _).trans ?_
      have h3 := mul_le_mul_of_nonneg_right h2 (norm_nonneg (v c))
      rw [norm_mul]
      linarith
  have h2 : (L.map fun c => ‖(p c).val‖ * ‖v c‖).sum
      ≤ a * (L.map fun c => ‖q c‖ * ‖v c‖).sum + δ * (L.map fun c => ‖v c‖).sum := by
    clear hd h1
    induction L with
    | nil => simp
    | cons c L ih =>
      simp only [List.map_cons, List.sum_cons, mul_add]
      have h1 := ih fun c hc => h c (by simp [hc])
      have h3 := mul_le_mul_of_nonneg_right (nearT_norm (h c (by simp))) (norm_nonneg (v c))
      linarith
  have hm := one_le_pow_u A (m + 1)
  have h3 := mul_le_mul_of_nonneg_left h2 (by linarith : 0 ≤ (1 + A.u) ^ (m + 1) - 1)
  have h4 := norm_add_le (d - (L.map fun c => (p c).val * v c).sum)
    ((L.map fun c => (p c).val * v c).sum - (L.map fun c => q c * v c).sum)
  rw [sub_add_sub_cancel] at h4
  have e : (1 + A.u) ^ (k + 1 + m) = (1 + A.u) ^ (m + 1) * a := by
    rw [← pow_add]
    congr 1
    omega
  rw [e]
  have e2 : j * A.eta * ((1 + A.u) ^ (m + 1) * a) = (1 + A.u) ^ (m + 1) * δ := by ring
  rw [e2]
  nlinarith

theorem flat_eq {mats : List (List Nat × Mat (FC A))} {mats' : List (List Nat × Mat ℂ)}
    (h : List.Forall₂ (fun a b => a.1 = b.1 ∧ MatNear t a.2 b.2) mats mats') : mats.flatMap (·.1) = mats'.flatMap (·.1) := by
  induction h with
  | nil => rfl
  | cons hab _ ih => simp only [List.flatMap_cons, hab.1, ih]

theorem row_near [A.Ranged] (run : Nat) {mats : List (List Nat × Mat (FC A))} {mats' : List (List Nat × Mat ℂ)}
    (h : List.Forall₂ (fun a b => a.1 = b.1 ∧ MatNear t a.2 b.2) mats mats') (hv : ValidMats n mats') (hs : SmallEntries mats')
    {w : Nat} (hw : (sortedSet (mats'.flatMap (·.1))).length ≤ w) (hml : mats.length ≤ w + 1)
    (hpow : (1 + A.u) ^ ((t + 1) * (w + 1) + 1 + 2 ^ w) ≤ 2) (hη : ((w + 1 : Nat) : ℝ) * A.eta ≤ 1) (hbig : 8 * 2 ^ w ≤ A.big)
    {vec : List (FC A)} (hvec : vec.length = 2 ^ n) (hB : ∀ c, ‖(vec.getD c 0).val‖ ≤ 2) {row : Nat} (hr : row < 2 ^ n) :
    ∃ s, cdotRowF run mats vec n 0 row = .ok s ∧
      ‖s.val - kronApply n (denote mats') (fun c => (vec.getD c 0).val) row‖
        ≤ ((1 + A.u) ^ ((t + 1) * (w + 1) + 1 + 2 ^ w) - 1)
          * ∑ c ∈ range (2 ^ n), ‖kronEntry n (denote mats') row c‖ * ‖(vec.getD c 0).val‖ + 2 ^ w * (4 * w + 6) * A.eta := by
  have hflat := flat_eq h
  have hS := nodup_sortedSet (mats'.flatMap (·.1))
  have hn : ∀ q ∈ sortedSet (mats'.flatMap (·.1)), q < n := by
    intro q hq
    obtain ⟨gm, hgm, hq⟩ := List.mem_flatMap.1 (mem_sortedSet.1 hq)
    exact (hv gm hgm).1 q hq
  have hmem : ∀ q, q ∈ sortedSet (mats'.flatMap (·.1)) ↔ q ∈ (denote mats').flatMap (·.1) := by
    intro q
    rw [mem_sortedSet]
    simp [denote]
  rw [sum_norm_entries hS hmem hn, kronApply_eq_sum (denote mats') hS hmem hn]
  unfold cdotRowF rowTerms
  rw [hflat, cdotCols_eq _ n row hS hn hr]
  set S := sortedSet (mats'.flatMap (·.1))
  set q : Nat → ℂ := fun c => ((denote mats').map fun gm => gm.2 (subIndex n gm.1 row) (subIndex n gm.1 c)).prod with hqdef
  have hu1 : 1 ≤ 1 + A.u := by linarith [A.u_nonneg]
  have hη0 := A.eta_nonneg
  have hS2 : (2 : ℝ) ^ S.length ≤ 2 ^ w := pow_le_pow_right₀ (by norm_num) hw
  have hS2' : 2 ^ S.length ≤ 2 ^ w := Nat.pow_le_pow_right (by norm_num) hw
  have hw0 : 0 < 2 ^ w := Nat.two_pow_pos w
  have hml' : (t + 1) * mats.length ≤ (t + 1) * (w + 1) := Nat.mul_le_mul_left _ hml
  have hexp : (t + 1) * mats.length + 1 + 2 ^ S.length ≤ (t + 1) * (w + 1) + 1 + 2 ^ w := by
    omega
  have hw1 : (1 : ℝ) ≤ 2 ^ w := one_le_pow₀ (by norm_num)
  have hmη : ((0 + mats.length : Nat) : ℝ) * A.eta ≤ 1 := by
    refine le_trans (mul_le_mul_of_nonneg_right ?_ hη0) hη
    rw [Nat.zero_add]
    exact_mod_cast hml
  have hp : ∀ c, ∃ p : FC A, cEntryProduct n row c mats 1 = .ok p ∧ NearT mats.length ((t + 1) * mats.length) p (q c) := by
    intro c
    obtain ⟨p, hp1⟩ := product_ok h hv row c 1
    refine ⟨p, hp1, ?_⟩
    have h0 : NearT 0 0 (1 : FC A) 1 := by
      unfold NearT
      have : (1 : FC A).val = 1 := rfl
      simp [this]
    have := product_near (j := 0) (k := 0) h hv hs (by linarith) ((pow_le_pow_right₀ hu1 (by omega)).trans hpow) hmη (by simp) h0 hp1
    simpa [q] using this
  choose p hp1 hp2 using hp
  set cols := (List.range (2 ^ S.length)).map fun i => spread n S row i with hcols
  have hterms := row_terms (S := S) hvec hp1
  refine ⟨_, by rw [hterms]; rfl, ?_⟩
  have hl : cols.length = 2 ^ S.length := by simp [hcols]
  have hsumv : (cols.map fun c => ‖(vec.getD c 0).val‖).sum ≤ 2 * 2 ^ S.length := by
    have : ∀ L : List Nat, (L.map fun c => ‖(vec.getD c 0).val‖).sum ≤ 2 * L.length := by
      intro L
      induction L with
      | nil => simp
      | cons c L ih =>
        have := hB c
        simp only [List.map_cons, List.sum_cons, List.length_cons]
        push_cast
        linarith
    have := this cols
    rw [hl] at this
    exact_mod_cast this
  have hsumv0 : 0 ≤ (cols.map fun c => ‖(vec.getD c 0).val‖).sum := List.sum_nonneg (by simp)
  have hq1 : ∀ c, ‖q c‖ ≤ 1 := fun c => prod_le_one hs row c
  have hp4 : ∀ c, ‖(p c).val‖ ≤ 4 := by
    intro c
    have n1 := nearT_norm (hp2 c)
    have hk2 : (1 + A.u) ^ ((t + 1) * mats.length) ≤ 2 := (pow_le_pow_right₀ hu1 (by omega)).trans hpow
    have hk1 := one_le_pow_u A ((t + 1) * mats.length)
    have : (1 + A.u) ^ ((t + 1) * mats.length) * ‖q c‖ ≤ 2 * 1 := mul_le_mul hk2 (hq1 c) (norm_nonneg _) (by norm_num)
    rw [zero_add] at hmη
    have : mats.length * A.eta * (1 + A.u) ^ ((t + 1) * mats.length) ≤ 1 * 2 := mul_le_mul hmη hk2 (by linarith) (by norm_num)
    linarith
  have hrange : ((cols.map fun c => ((p c).val, (vec.getD c 0).val)).map fun t => ‖t.1‖ * ‖t.2‖).sum ≤ A.big := by
    rw [List.map_map]
    have : ∀ L : List Nat, (L.map ((fun t : ℂ × ℂ => ‖t.1‖ * ‖t.2‖) ∘ fun c => ((p c).val, (vec.getD c 0).val))).sum ≤ 8 * L.length := by
      intro L
      induction L with
      | nil => simp
      | cons c L ih =>
        have := mul_le_mul (hp4 c) (hB c) (norm_nonneg _) (by norm_num)
        simp only [List.map_cons, List.sum_cons, List.length_cons, Function.comp]
        push_cast
        simp only [Function.comp_def] at ih ⊢
        linarith
    have := this cols
    rw [hl] at this
    push_cast at this
    linarith
  have hle : (cols.map fun c => ((p c).val, (vec.getD c 0).val)).length + 1 ≤ (t + 1) * (w + 1) + 1 + 2 ^ w := by
    rw [List.length_map, hl]
    omega
  have hd := Arith.Ranged.dot_err (A := A) run row (cols.map fun c => ((p c).val, (vec.getD c 0).val))
    ((pow_le_pow_right₀ hu1 hle).trans hpow) hrange
  have hd' := dot_near (j := mats.length) (k := (t + 1) * mats.length) cols p q (fun c => (vec.getD c 0).val) (fun c _ => hp2 c) hd
  rw [List.length_map, hl] at hd'
  have hbound : mats.length * A.eta * (1 + A.u) ^ ((t + 1) * mats.length + 1 + 2 ^ S.length)
      * (cols.map fun c => ‖(vec.getD c 0).val‖).sum + A.eta * ((2 ^ S.length : Nat) + 1) ≤ 2 ^ w * (4 * w + 6) * A.eta := by
    have hp2 : (1 + A.u) ^ ((t + 1) * mats.length + 1 + 2 ^ S.length) ≤ 2 := (pow_le_pow_right₀ hu1 hexp).trans hpow
    have hp0 := one_le_pow_u A ((t + 1) * mats.length + 1 + 2 ^ S.length)
    have hmw : (mats.length : ℝ) ≤ w + 1 := by exact_mod_cast hml
    have g1 : mats.length * A.eta * (1 + A.u) ^ ((t + 1) * mats.length + 1 + 2 ^ S.length) ≤ (w + 1) * A.eta * 2 := by gcongr
    have g2 := mul_le_mul g1 (hsumv.trans (mul_le_mul_of_nonneg_left hS2 (by norm_num))) hsumv0 (by positivity)
    have g3 : A.eta * ((2 ^ S.length : Nat) + 1) ≤ A.eta * (2 ^ w + 2 ^ w) := by
      push_cast
      gcongr
    refine (add_le_add g2 g3).trans (le_of_eq ?_)
    ring
  have hγ : ((1 + A.u) ^ ((t + 1) * mats.length + 1 + 2 ^ S.length) - 1) * (cols.map fun c => ‖q c‖ * ‖(vec.getD c 0).val‖).sum
      ≤ ((1 + A.u) ^ ((t + 1) * (w + 1) + 1 + 2 ^ w) - 1) * (cols.map fun c => ‖q c‖ * ‖(vec.getD c 0).val‖).sum := by
    refine mul_le_mul_of_nonneg_right ?_ (List.sum_nonneg (by simp; intros; positivity))
    have := pow_le_pow_right₀ hu1 hexp
    linarith
  have hd'' := hd'.trans (add_le_add hγ hbound)
  simp only [hcols, List.map_map, Function.comp_def, sum_map_range] at hd'' ⊢
  refine hd''.trans (le_of_eq ?_)
  congr 2
  apply Finset.sum_congr rfl
  intro i _
  rw [norm_mul]

/-- The kernel with matrices of a unitary operator `T` on the qubits `L`. -/
theorem mats_ranged [A.Ranged] (run : Nat) {L : List Nat} {T : (Nat → ℂ) → Nat → ℂ} {mats : List (Key × Mat ℂ)}
    {matsF : List (Key × Mat (FC A))}
    (hlt : ∀ q ∈ L, q < n) (hne : mats ≠ []) (hlen : ∀ km ∈ mats, ∀ km' ∈ mats, km.1.qubits.length = km'.1.qubits.length)
    (hkeys : (mats.map fun km => km.1.qubits).Nodup)
    (hshapes : ∀ km ∈ mats, km.2.shape = (2 ^ km.1.qubits.length, 2 ^ km.1.qubits.length))
    (hsub : ∀ km ∈ mats, ∀ q ∈ km.1.qubits, q ∈ L) (hwf : ∀ km ∈ mats, km.2.WF) (hlength : mats.length ≤ L.length + 1)
    (hsem : ∀ v r, r < 2 ^ n → kronApply n (opsOf mats) v r = T v r)
    (huni : opMat n (opsOf mats) * opMat n (adjOps (opsOf mats)) = 1) (hsmall : SmallEntries (normed mats))
    (hF : List.Forall₂ (fun (a : Key × Mat (FC A)) (b : Key × Mat ℂ) => a.1 = b.1 ∧ MatNear t a.2 b.2) matsF mats)
    (hpow : (1 + A.u) ^ ((t + 1) * (L.length + 1) + 1 + 2 ^ L.length) ≤ 2) (hη : ((L.length + 1 : Nat) : ℝ) * A.eta ≤ 1)
    (hbig : 8 * 2 ^ L.length ≤ A.big)
    {sched : List Nat} (hs : sched.Perm (List.range (2 ^ n))) {v arena : List (FC A)} (hv : v.length = 2 ^ n)
    (hB : dist2 n (fun c => (v.getD c 0).val) 0 ≤ 2) (ha : arena.length = 2 ^ n) :
    ∃ w, kronselectDotF run matsF v n arena 0 0 sched = .ok w ∧ w.length = 2 ^ n ∧
      dist2 n (fun c => (w.getD c 0).val) (T fun c => (v.getD c 0).val)
        ≤ gateErr A.u t L.length * dist2 n (fun c => (v.getD c 0).val) 0 + gateTiny A.eta n L.length := by
  have hr : ∀ km ∈ mats, ∀ q ∈ km.1.qubits, q < n := fun km hkm q hq => hlt q (hsub km hkm q hq)
  set v' : Nat → ℂ := fun c => (v.getD c 0).val with hv'
  have hamp : ∀ c, ‖(v.getD c 0).val‖ ≤ 2 := by
    intro c
    by_cases hc : c < 2 ^ n
    · refine le_trans ?_ hB
      unfold dist2
      apply Real.le_sqrt_of_sq_le
      have := Finset.single_le_sum (f := fun r => ‖v' r - (0 : Nat → ℂ) r‖ ^ 2) (fun r _ => by positivity) (Finset.mem_range.2 hc)
      simpa [hv'] using this
    · have e : v.getD c 0 = 0 := by
        rw [List.getD_eq_default]
        omega
      have : (0 : FC A).val = 0 := rfl
      simp [this, List.getElem?_eq_none (by omega : v.length ≤ c)]
  set W := L.length
  set γ := (1 + A.u) ^ ((t + 1) * (W + 1) + 1 + 2 ^ W) - 1
  set τ := 2 ^ W * (4 * W + 6) * A.eta
  set S := sortedSet (mats.flatMap (·.1.qubits)) with hSdef
  have hS : S.Nodup := nodup_sortedSet _
  have hmem : ∀ q, q ∈ S ↔ q ∈ (opsOf mats).flatMap (·.1) := by
    intro q
    rw [hSdef, mem_sortedSet]
    simp [opsOf]
  have hn : ∀ q ∈ S, q < n := by
    intro q hq
    obtain ⟨km, hkm, hq⟩ := List.mem_flatMap.1 (mem_sortedSet.1 hq)
    exact hr km hkm q hq
  have hSlen : S.length ≤ W := by
    apply (hS.subperm ?_).length_le
    intro q hq
    obtain ⟨km, hkm, hq⟩ := List.mem_flatMap.1 (mem_sortedSet.1 hq)
    exact hsub km hkm q hq
  have hmlen : matsF.length ≤ W + 1 := hF.length_eq ▸ hlength
  have hN : List.Forall₂ (fun (a : List Nat × Mat (FC A)) b => a.1 = b.1 ∧ MatNear t a.2 b.2) (normed matsF) (normed mats) := by
    clear * - hF
    induction hF with
    | nil => exact .nil
    | cons hab _ ih => exact .cons ⟨congrArg Key.qubits hab.1, hab.2⟩ ih
  have hvm : ValidMats n (normed mats) := by
    intro gm hgm
    obtain ⟨km, hkm, rfl⟩ := List.mem_map.1 hgm
    exact ⟨hr km hkm, hwf km hkm, hshapes km hkm⟩
  obtain ⟨w, h1, h2, h3⟩ := kron_rows (P := fun row s => ‖s.val - T v' row‖
      ≤ γ * ∑ c ∈ range (2 ^ n), ‖kronEntry n (opsOf mats) row c‖ * ‖v' c‖ + τ) run hF hv ha hs hkeys hshapes hr hne hlen
    fun row hlt => by
      have e : (normed mats).flatMap (·.1) = mats.flatMap (·.1.qubits) := by simp [normed, List.flatMap_map]
      obtain ⟨s, g1, g2⟩ := row_near run hN hvm hsmall (w := W) (by rw [e]; exact hSlen) (by simpa [normed] using hmlen) hpow hη hbig hv
        hamp hlt
      refine ⟨s, g1, ?_⟩
      rw [denote_normed, hsem _ row hlt] at g2
      exact g2
  refine ⟨w, h1, h2, ?_⟩
  have hγ0 : 0 ≤ γ := by linarith [one_le_pow_u A ((t + 1) * (W + 1) + 1 + 2 ^ W)]
  have hτ0 : 0 ≤ τ := by
    have := A.eta_nonneg
    positivity
  -- the relative part and the absolute part
  set a : Nat → ℂ := fun r => ((γ * ∑ c ∈ range (2 ^ n), ‖kronEntry n (opsOf mats) r c‖ * ‖v' c‖ : ℝ) : ℂ)
  set b : Nat → ℂ := fun _ => ((-τ : ℝ) : ℂ)
  have hna : ∀ r, 0 ≤ γ * ∑ c ∈ range (2 ^ n), ‖kronEntry n (opsOf mats) r c‖ * ‖v' c‖ := fun r =>
    mul_nonneg hγ0 (Finset.sum_nonneg fun _ _ => by positivity)
  have h4 : dist2 n (fun c => (w.getD c 0).val) (T v') ≤ dist2 n a b := by
    unfold dist2
    apply Real.sqrt_le_sqrt
    apply Finset.sum_le_sum
    intro r hr
    refine pow_le_pow_left₀ (norm_nonneg _) ((h3 r (by simpa using hr)).trans (le_of_eq ?_)) 2
    simp only [a, b]
    rw [← Complex.ofReal_sub, Complex.norm_real, Real.norm_of_nonneg (by linarith [hna r]), sub_neg_eq_add]
  have h5 : dist2 n a 0 ≤ γ * (√(2 ^ S.length) * dist2 n v' 0) := by
    unfold dist2
    rw [← Real.sqrt_mul (by positivity), ← Real.sqrt_sq hγ0, ← Real.sqrt_mul (by positivity)]
    apply Real.sqrt_le_sqrt
    calc ∑ r ∈ range (2 ^ n), ‖a r - (0 : Nat → ℂ) r‖ ^ 2
        = ∑ r ∈ range (2 ^ n), (γ * ∑ c ∈ range (2 ^ n), ‖kronEntry n (opsOf mats) r c‖ * ‖v' c‖) ^ 2 := by
          apply Finset.sum_congr rfl
          intro r _
          simp only [a, Pi.zero_apply, sub_zero]
          rw [Complex.norm_real, Real.norm_of_nonneg (hna r)]
      _ = γ ^ 2 * ∑ r ∈ range (2 ^ n), (∑ c ∈ range (2 ^ n), ‖kronEntry n (opsOf mats) r c‖ * ‖v' c‖) ^ 2 := by
          rw [Finset.mul_sum]
          simp only [mul_pow]
      _ ≤ γ ^ 2 * (2 ^ S.length * ∑ r ∈ range (2 ^ n), ‖v' r - (0 : Nat → ℂ) r‖ ^ 2) := by
          have := abs_norm hS hmem hn huni v'
          simp only [Pi.zero_apply, sub_zero]
          gcongr
  have h6 : dist2 n 0 b = √(2 ^ n) * τ := by
    unfold dist2
    have e : ∀ r ∈ range (2 ^ n), ‖(0 : Nat → ℂ) r - b r‖ ^ 2 = τ ^ 2 := by
      intro r _
      simp only [b, Pi.zero_apply, zero_sub, norm_neg]
      rw [Complex.norm_real, Real.norm_eq_abs, sq_abs, neg_sq]
    rw [Finset.sum_congr rfl e, Finset.sum_const, Finset.card_range, nsmul_eq_mul, Real.sqrt_mul (by positivity), Real.sqrt_sq hτ0]
    push_cast
    rfl
  have h7 := dist2_triangle n a 0 b
  rw [h6] at h7
  refine (h4.trans h7).trans (add_le_add (h5.trans ?_) (le_of_eq ?_))
  · unfold gateErr
    rw [← mul_assoc]
    have h5 : √((2 : ℝ) ^ S.length) ≤ √(2 ^ W) := Real.sqrt_le_sqrt (pow_le_pow_right₀ (by norm_num) hSlen)
    have := dist2_nonneg n v' 0
    gcongr
  · unfold gateTiny
    simp only [τ]
    ring

/-! ## The matrices of gates have entries of magnitude at most 1 -/

/-- Entries of the matrices of gates: 0 or of magnitude between 1/2 and 1. -/
def GateEntry (z : ℂ) : Prop := z = 0 ∨ 1 / 2 ≤ ‖z‖ ∧ ‖z‖ ≤ 1

theorem gateEntry_expI (phi : ℝ) : GateEntry (expI phi) := by
  right
  unfold expI
  rw [mul_comm, Complex.norm_exp_ofReal_mul_I]
  norm_num

theorem gateEntry_hadamard : GateEntry (1 / (√2 : ℝ) : ℂ) := by
  right
  rw [norm_div, norm_one, Complex.norm_real, Real.norm_of_nonneg (Real.sqrt_nonneg _)]
  constructor
  · apply one_div_le_one_div_of_le (by positivity)
    rw [Real.sqrt_le_left (by norm_num)]
    norm_num
  · rw [div_le_one (by positivity)]
    exact Real.one_le_sqrt.2 (by norm_num)

theorem perQubit_all {P : Mat ℂ → Prop} {m : Mat ℂ} (h : P m) (gs : List (List Nat)) : ∀ km ∈ perQubit m gs, P km.2 := by
  unfold perQubit
  generalize gs.flatten = l
  have : ∀ (l : List Nat) (d : List (Key × Mat ℂ)), (∀ km ∈ d, P km.2) →
      ∀ km ∈ l.foldl (fun d i => dictInsert d (.int i) m) d, P km.2 := by
    intro l
    induction l with
    | nil => exact fun d hd => hd
    | cons q l ih =>
      intro d hd
      refine ih _ fun km hkm => ?_
      rcases dictInsert_mem hkm with h1 | h1
      · exact hd km h1
      · rw [h1]
        exact h
  exact this l [] (by simp)

theorem makemats_all {P : Mat ℂ → Prop} (hs : ∀ k, P (.swap k)) (hc : ∀ m, P m → P (.cmat m))
    (hd : ∀ a b c d, GateEntry a → GateEntry b → GateEntry c → GateEntry d → P (.dense 2 2 [a, b, c, d]))
    {g : Gate} {gs : List (List Nat)} {mats : List (Key × Mat ℂ)} (h : g.makemats gs = .ok mats) : ∀ km ∈ mats, P km.2 := by
  have h0 : GateEntry 0 := .inl rfl
  have h1 : GateEntry 1 := .inr (by norm_num)
  have hn : ∀ {z}, GateEntry z → GateEntry (-z) := by
    rintro z (h | h)
    · left
      rw [h, neg_zero]
    · right
      rwa [norm_neg]
  induction g generalizing gs mats with
  | swap k =>
    simp only [Gate.makemats] at h
    split at h
    · injection h with h
      subst h
      intro km hkm
      simp only [List.mem_singleton] at hkm
      subst hkm
      exact hs _
    · cases h
  | c op ih =>
    simp only [Gate.makemats, bind, Except.bind] at h
    rcases ho : op.makemats gs.tail with _ | opm
    · simp [ho] at h
    simp only [ho] at h
    have hop := ih ho
    have key : ∀ (l d d' : List (Key × Mat ℂ)), (∀ km ∈ l, P km.2) →
        (∀ km ∈ d, P km.2) → l.foldlM (fun d km =>
        match gs with
        | [] => (.error .indexError : Except PyErr (List (Key × Mat ℂ)))
        | g0 :: _ => .ok (dictInsert d (.tup (g0 ++ km.1.qubits)) (.cmat km.2))) d = .ok d' →
        ∀ km ∈ d', P km.2 := by
      intro l
      induction l with
      | nil =>
        intro d d' _ hd h
        injection h with h
        subst h
        exact hd
      | cons x l ih =>
        intro d d' hl hd h
        rw [List.foldlM_cons] at h
        rcases gs with _ | ⟨g0, gs⟩
        · cases h
        refine ih _ _ (fun km hkm => hl km (by simp [hkm])) ?_ h
        intro km hkm
        rcases dictInsert_mem hkm with h1 | h1
        · exact hd km h1
        · rw [h1]
          exact hc _ (hl x (by simp))
    exact key opm [] mats hop (by simp) h
  | h =>
    simp only [Gate.makemats] at h
    injection h with h
    subst h
    refine perQubit_all (hd _ _ _ _ ?_ ?_ ?_ ?_) gs
    · rw [mul_one]
      exact gateEntry_hadamard
    · rw [mul_one]
      exact gateEntry_hadamard
    · rw [mul_one]
      exact gateEntry_hadamard
    · rw [mul_neg, mul_one]
      exact hn gateEntry_hadamard
  | r phi =>
    simp only [Gate.makemats] at h
    injection h with h
    subst h
    exact perQubit_all (hd _ _ _ _ h1 h0 h0 (gateEntry_expI _)) gs
  | rm m b =>
    simp only [Gate.makemats] at h
    injection h with h
    subst h
    exact perQubit_all (hd _ _ _ _ h1 h0 h0 (gateEntry_expI _)) gs
  | _ =>
    simp only [Gate.makemats] at h
    injection h with h
    subst h
    refine perQubit_all (hd _ _ _ _ ?_ ?_ ?_ ?_) gs <;> first | exact h0 | exact h1 | exact hn h1 | (right; simp; try norm_num)

theorem makemats_small {g : Gate} {gs : List (List Nat)} {mats : List (Key × Mat ℂ)} (h : g.makemats gs = .ok mats) :
    ∀ km ∈ mats, ∀ i j, ‖matEntry km.2 i j‖ ≤ 1 := by
  have hle : ∀ {z}, GateEntry z → ‖z‖ ≤ 1 := by
    rintro z (rfl | h)
    · simp
    · exact h.2
  refine makemats_all (P := fun m => ∀ i j, ‖matEntry m i j‖ ≤ 1) ?_ ?_ ?_ h
  · intro k i j
    simp only [matEntry, swapEntry]
    split <;> simp
  · intro m hm i j
    simp only [matEntry, ctrlEntry]
    split
    · split <;> simp
    · split
      · exact hm _ _
      · simp
  · intro a b c d ha hb hc hd i j
    have ha := hle ha
    have hb := hle hb
    have hc := hle hc
    have hd := hle hd
    unfold matEntry
    generalize i * 2 + j = x
    rcases x with _ | _ | _ | _ | x <;> simp [*]

/-- One gate with underflow and overflow. -/
theorem gate_ranged [A.Ranged] (run : Nat) {g : Gate} {gs : List (List Nat)} (hf : Fits g gs) (hgs : GroupsOK n gs)
    {mats : List (Key × Mat ℂ)} {matsF : List (Key × Mat (FC A))} (hm : g.feedMats false gs = .ok mats)
    (hF : List.Forall₂ (fun (a : Key × Mat (FC A)) (b : Key × Mat ℂ) => a.1 = b.1 ∧ MatNear t a.2 b.2) matsF mats)
    (hpow : (1 + A.u) ^ ((t + 1) * (gs.flatten.length + 1) + 1 + 2 ^ gs.flatten.length) ≤ 2)
    (hη : ((gs.flatten.length + 1 : Nat) : ℝ) * A.eta ≤ 1) (hbig : 8 * 2 ^ gs.flatten.length ≤ A.big)
    {sched : List Nat} (hs : sched.Perm (List.range (2 ^ n))) {v arena : List (FC A)} (hv : v.length = 2 ^ n)
    (hB : dist2 n (fun c => (v.getD c 0).val) 0 ≤ 2) (ha : arena.length = 2 ^ n) :
    ∃ w, kronselectDotF run matsF v n arena 0 0 sched = .ok w ∧ w.length = 2 ^ n ∧
      dist2 n (fun c => (w.getD c 0).val) (gateApply n g gs fun c => (v.getD c 0).val)
        ≤ gateErr A.u t gs.flatten.length * dist2 n (fun c => (v.getD c 0).val) 0 + gateTiny A.eta n gs.flatten.length := by
  obtain ⟨mats', hgm⟩ := gm_exists g gs hf hgs
  have e : mats' = mats := by
    have := hgm.ok
    simp only [Gate.feedMats, this, bind, Except.bind, Bool.false_eq_true, if_false, pure, Except.pure] at hm
    injection hm
  subst e
  have hsmall : SmallEntries (normed mats') := by
    intro gm hgm'
    obtain ⟨km, hkm, rfl⟩ := List.mem_map.1 hgm'
    exact makemats_small hgm.ok km hkm
  exact mats_ranged run hgs.2 hgm.ne hgm.len hgm.keys hgm.shapes hgm.sub hgm.wf (makemats_length hf hgs hgm.ok) hgm.sem hgm.uni'
    hsmall hF hpow hη hbig hs hv hB ha

/-- The kernel succeeds on the matrices of a gate, whatever the arithmetic. -/
theorem gate_runs (run : Nat) {g : Gate} {gs : List (List Nat)} (hf : Fits g gs) (hgs : GroupsOK n gs)
    {mats : List (Key × Mat ℂ)} {matsF : List (Key × Mat (FC A))} (hm : g.feedMats false gs = .ok mats)
    (hF : List.Forall₂ (fun (a : Key × Mat (FC A)) (b : Key × Mat ℂ) => a.1 = b.1 ∧ MatNear t a.2 b.2) matsF mats)
    {sched : List Nat} (hs : sched.Perm (List.range (2 ^ n))) {v arena : List (FC A)} (hv : v.length = 2 ^ n)
    (ha : arena.length = 2 ^ n) : ∃ w, kronselectDotF run matsF v n arena 0 0 sched = .ok w ∧ w.length = 2 ^ n := by
  obtain ⟨mats', hgm⟩ := gm_exists g gs hf hgs
  have e : mats' = mats := by
    have := hgm.ok
    simp only [Gate.feedMats, this, bind, Except.bind, Bool.false_eq_true, if_false, pure, Except.pure] at hm
    injection hm
  subst e
  have hr : ∀ km ∈ mats', ∀ q ∈ km.1.qubits, q < n := fun km hkm q hq => hgs.2 q (hgm.sub km hkm q hq)
  have hN : List.Forall₂ (fun (a : List Nat × Mat (FC A)) b => a.1 = b.1 ∧ MatNear t a.2 b.2) (normed matsF) (normed mats') := by
    clear * - hF
    induction hF with
    | nil => exact .nil
    | cons hab _ ih => exact .cons ⟨congrArg Key.qubits hab.1, hab.2⟩ ih
  have hvm : ValidMats n (normed mats') := by
    intro gm hgm'
    obtain ⟨km, hkm, rfl⟩ := List.mem_map.1 hgm'
    exact ⟨hr km hkm, hgm.wf km hkm, hgm.shapes km hkm⟩
  obtain ⟨w, h1, h2, -⟩ := kron_rows (P := fun _ _ => True) run hF hv ha hs hgm.keys hgm.shapes hr hgm.ne hgm.len fun row hlt => by
    have hflat : (normed matsF).flatMap (·.1) = (normed mats').flatMap (·.1) := by
      exact flat_eq hN
    have hS := nodup_sortedSet ((normed mats').flatMap (·.1))
    have hn : ∀ q ∈ sortedSet ((normed mats').flatMap (·.1)), q < n := by
      intro q hq
      obtain ⟨gm, hgm, hq⟩ := List.mem_flatMap.1 (mem_sortedSet.1 hq)
      exact (hvm gm hgm).1 q hq
    choose p hp using fun c => product_ok hN hvm row c 1
    have := row_terms (S := sortedSet ((normed mats').flatMap (·.1))) hv hp
    have hrow : ∃ s, cdotRowF run (normed matsF) v n 0 row = .ok s := by
      unfold cdotRowF rowTerms
      rw [hflat, cdotCols_eq _ n row hS hn hlt, this]
      exact ⟨_, rfl⟩
    obtain ⟨s, hs⟩ := hrow
    exact ⟨s, hs, trivial⟩
  exact ⟨w, h1, h2⟩

end QIP
