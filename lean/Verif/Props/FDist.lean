import Verif.Lemmas.FDistRanged
import Verif.Props.Rounding

/-!
# Rounding errors of gates on the distributed backend: C113
-/

namespace QIP.Props

open QIP Spec Finset

variable {A : Arith} {n t K size : Nat}

theorem gateErrD_nonneg {u : ℝ} (hu : 0 ≤ u) (t w K : Nat) : 0 ≤ gateErrD u t w K := by
  unfold gateErrD
  have := one_le_pow₀ (by linarith : 1 ≤ 1 + u) (n := (t + 1) * (w + 1) + 1 + 2 ^ w + (K - 1))
  exact mul_nonneg (by linarith) (Real.sqrt_nonneg _)

theorem one_le_errProdD {u : ℝ} (hu : 0 ≤ u) (t K : Nat) (gates : List (Gate × List (List Nat))) :
    1 ≤ (gates.map fun g => 1 + gateErrD u t g.2.flatten.length K).prod := by
  induction gates with
  | nil => simp
  | cons g gates ih =>
    rw [List.map_cons, List.prod_cons]
    have := gateErrD_nonneg hu t g.2.flatten.length K
    nlinarith

/-- C113 with unbounded exponents: relative errors only, for states of any norm. -/
theorem C113_unbounded [A.Ideal] (hsize : 0 < size) (hK : K * size = 2 ^ n) {gates : List (Gate × List (List Nat))}
    (hops : ∀ g ∈ gates, Fits g.1 g.2 ∧ GroupsOK n g.2) {v v' : List (FC A)} (hv : v.length = 2 ^ n) (h : DistGates A t n K size gates v v') :
    v'.length = 2 ^ n ∧ dist2 n (vals v') (exactGates n gates (vals v))
      ≤ ((gates.map fun g => 1 + gateErrD A.u t g.2.flatten.length K).prod - 1) * dist2 n (vals v) 0 := by
  induction h with
  | nil v =>
    refine ⟨hv, ?_⟩
    have : dist2 n (vals v) (vals v) = 0 := by simp [dist2]
    simp [exactGates, this]
  | @cons g gs mats matsF sched arena run order rest v v1 v2 hm hF hs ha ho hk hrest ih =>
    have hg := hops (g, gs) (by simp)
    obtain ⟨w, hw, hwl, he⟩ := gate_dist run hg.1 hg.2 hm hF hsize hK (by rw [hv, hK]) ha hs ho
    rw [hk] at hw
    injection hw with hw
    subst hw
    have hrests : ∀ g ∈ rest, Fits g.1 g.2 ∧ GroupsOK n g.2 := fun g hg => hops g (by simp [hg])
    obtain ⟨hl, hd⟩ := ih hrests (by rw [hwl, hK])
    refine ⟨hl, ?_⟩
    change dist2 n (vals v1) (gateApply n g gs (vals v)) ≤ _ * dist2 n (vals v) 0 at he
    have h1 : dist2 n (vals v1) 0 ≤ (1 + gateErrD A.u t gs.flatten.length K) * dist2 n (vals v) 0 := by
      have := dist2_triangle n (vals v1) (gateApply n g gs (vals v)) 0
      rw [gateApply_norm hg.1 hg.2] at this
      linarith
    have h2 := dist2_triangle n (vals v2) (exactGates n rest (vals v1)) (exactGates n rest (gateApply n g gs (vals v)))
    rw [dist2_gates hrests] at h2
    rw [exactGates, List.map_cons, List.prod_cons]
    have hP := one_le_errProdD A.u_nonneg t K rest
    set P := (rest.map fun g => 1 + gateErrD A.u t g.2.flatten.length K).prod
    have h3 := mul_le_mul_of_nonneg_left h1 (by linarith : 0 ≤ P - 1)
    change _ ≤ ((1 + gateErrD A.u t gs.flatten.length K) * P - 1) * _
    nlinarith

theorem gateTinyD_nonneg {eta : ℝ} (h : 0 ≤ eta) (n w K : Nat) : 0 ≤ gateTinyD eta n w K := by
  unfold gateTinyD
  positivity

/-- C113: gates on a grid of workers, the connections in any order, with underflow and overflow. -/
theorem C113_distributed [A.Ranged] [AddRanged A] (hsize : 0 < size) (hK : K * size = 2 ^ n) {gates : List (Gate × List (List Nat))}
    (hops : ∀ g ∈ gates, Fits g.1 g.2 ∧ GroupsOK n g.2) (hfit : ∀ g ∈ gates, InRangeD A t g.2.flatten.length K) {v v' : List (FC A)}
    (hv : v.length = 2 ^ n)
    (hB : (gates.map fun g => 1 + gateErrD A.u t g.2.flatten.length K).prod
      * (dist2 n (vals v) 0 + (gates.map fun g => gateTinyD A.eta n g.2.flatten.length K).sum) ≤ 2)
    (h : DistGates A t n K size gates v v') :
    v'.length = 2 ^ n ∧ dist2 n (vals v') (exactGates n gates (vals v))
      ≤ ((gates.map fun g => 1 + gateErrD A.u t g.2.flatten.length K).prod - 1) * dist2 n (vals v) 0
        + (gates.map fun g => 1 + gateErrD A.u t g.2.flatten.length K).prod
          * (gates.map fun g => gateTinyD A.eta n g.2.flatten.length K).sum := by
  induction h with
  | nil v =>
    refine ⟨hv, ?_⟩
    have : dist2 n (vals v) (vals v) = 0 := by simp [dist2]
    simp [exactGates, this]
  | @cons g gs mats matsF sched arena run order rest v v1 v2 hm hF hs ha ho hk hrest ih =>
    have hg := hops (g, gs) (by simp)
    have hi := hfit (g, gs) (by simp)
    have hP := one_le_errProdD A.u_nonneg t K rest
    have hE := gateErrD_nonneg A.u_nonneg t gs.flatten.length K
    have hτ := gateTinyD_nonneg A.eta_nonneg n gs.flatten.length K
    have hT : 0 ≤ (rest.map fun g => gateTinyD A.eta n g.2.flatten.length K).sum := by
      apply List.sum_nonneg
      simp only [List.mem_map, forall_exists_index, and_imp]
      rintro x g - rfl
      exact gateTinyD_nonneg A.eta_nonneg n _ K
    have hd0 := dist2_nonneg n (vals v) 0
    rw [List.map_cons, List.prod_cons, List.map_cons, List.sum_cons] at hB ⊢
    dsimp only at hB ⊢
    set P := (rest.map fun g => 1 + gateErrD A.u t g.2.flatten.length K).prod
    set T := (rest.map fun g => gateTinyD A.eta n g.2.flatten.length K).sum
    set e := gateErrD A.u t gs.flatten.length K
    set τ := gateTinyD A.eta n gs.flatten.length K
    set d := dist2 n (vals v) 0
    have hd2 : d ≤ 2 := by
      have h1 : 1 ≤ (1 + e) * P := by nlinarith
      nlinarith
    obtain ⟨w, hw, hwl, he⟩ := gate_dist_ranged run hg.1 hg.2 hm hF hi hsize hK (by rw [hv, hK]) hd2 ha hs ho
    rw [hk] at hw
    injection hw with hw
    subst hw
    have hrests : ∀ g ∈ rest, Fits g.1 g.2 ∧ GroupsOK n g.2 := fun g hg => hops g (by simp [hg])
    change dist2 n (vals v1) (gateApply n g gs (vals v)) ≤ e * d + τ at he
    have h1 : dist2 n (vals v1) 0 ≤ (1 + e) * d + τ := by
      have := dist2_triangle n (vals v1) (gateApply n g gs (vals v)) 0
      rw [gateApply_norm hg.1 hg.2] at this
      linarith
    obtain ⟨hl, hd⟩ := ih hrests (fun g hg => hfit g (by simp [hg])) (by rw [hwl, hK]) (by
      refine le_trans ?_ hB
      have : dist2 n (vals v1) 0 + T ≤ (1 + e) * (d + (τ + T)) := by nlinarith
      have := mul_le_mul_of_nonneg_left this (by linarith : 0 ≤ P)
      linarith)
    refine ⟨hl, ?_⟩
    have h2 := dist2_triangle n (vals v2) (exactGates n rest (vals v1)) (exactGates n rest (gateApply n g gs (vals v)))
    rw [dist2_gates hrests] at h2
    rw [exactGates]
    have h3 := mul_le_mul_of_nonneg_left h1 (by linarith : 0 ≤ P - 1)
    have h4 : P * (τ + T) ≤ (1 + e) * P * (τ + T) := by
      have : 0 ≤ e * (P * (τ + T)) := by positivity
      linarith
    nlinarith

/-- C113: no worker fails, whatever matrices close to those of the gates are fed in. -/
theorem C113_runs (hsize : 0 < size) (hK : K * size = 2 ^ n) {gates : List (Gate × List (List Nat))}
    (hops : ∀ g ∈ gates, Fits g.1 g.2 ∧ GroupsOK n g.2) (matsOf : Gate × List (List Nat) → List (Key × Mat (FC A)))
    (hmats : ∀ g ∈ gates, ∃ mats, g.1.feedMats false g.2 = .ok mats ∧ List.Forall₂ (fun a b => a.1 = b.1 ∧ MatNear t a.2 b.2) (matsOf g) mats)
    {sched : Nat → Nat → List Nat} (hs : ∀ i j, (sched i j).Perm (List.range size)) {arena : Nat → Nat → List (FC A)}
    (ha : ∀ i j, (arena i j).length = size) {order : Nat → List Nat} (ho : ∀ j < K, (j :: order j).Perm (List.range K))
    {v : List (FC A)} (hv : v.length = 2 ^ n) (run : Nat → Nat → Nat) :
    ∃ v', gates.foldlM (fun v g => distKronF run (matsOf g) n K size v arena sched order) v = .ok v' ∧ DistGates A t n K size gates v v' := by
  induction gates generalizing v with
  | nil => exact ⟨v, rfl, .nil v⟩
  | cons g rest ih =>
    have hg := hops g (by simp)
    obtain ⟨mats, hm, hF⟩ := hmats g (by simp)
    obtain ⟨w, hw, hwl⟩ := gate_dist_runs run hg.1 hg.2 (by simp) hm hF hsize hK (by rw [hv, hK]) ha hs ho
    obtain ⟨v', hv', hr⟩ := ih (fun g hg => hops g (by simp [hg])) (fun g hg => hmats g (by simp [hg])) (by rw [hwl, hK])
    refine ⟨v', ?_, .cons hm hF hs ha ho hw hr⟩
    rw [List.foldlM_cons, hw]
    exact hv'

/-- A single worker computes what the local backend computes. -/
theorem C113_single (run : Nat → Nat → Nat) (mats : List (Key × Mat (FC A))) {v : List (FC A)} (hv : v.length = 2 ^ n)
    (arena : Nat → Nat → List (FC A)) (sched : Nat → Nat → List Nat) :
    distKronF run mats n 1 (2 ^ n) v arena sched (fun _ => [])
      = kronselectDotF (run 0 0) mats v n (arena 0 0) 0 0 (sched 0 0) := by
  have h0 : rangeOf (2 ^ n) v 0 = v := by simp [rangeOf, ← hv]
  simp only [distKronF, collectKronF, workerKronF, List.range_one, List.mapM_cons, List.mapM_nil, List.foldlM_nil, h0, Nat.zero_mul, bind,
    Except.bind, pure, Except.pure]
  rcases kronselectDotF (run 0 0) mats v n (arena 0 0) 0 0 (sched 0 0) with e | w <;> simp

/-! ## Double precision -/

set_option exponentiation.threshold 1100

variable {D : Double}

instance (D : Double) [D.Ranged] : AddRanged (binary64 D) where
  add_err x y hxy := by
    rw [binary64_big] at hxy
    have hn := norm_add_le x y
    have hb : (2 : ℝ) ^ 1000 ≤ 2 ^ 1023 := pow_le_pow_right₀ (by norm_num) (by norm_num)
    have hr := (x + y).abs_re_le_norm
    have hi := (x + y).abs_im_le_norm
    have e1 := Double.Ranged.fl_err (D := D) (x + y).re (by linarith)
    have e2 := Double.Ranged.fl_err (D := D) (x + y).im (by linarith)
    have hη : (0 : ℝ) ≤ 1 / 2 ^ 1022 := by positivity
    rw [binary64_u, binary64_eta]
    change ‖addWith D.fl x y - (x + y)‖ ≤ _
    generalize (1 : ℝ) / 2 ^ 1022 = η at *
    refine (norm_le_of_parts_le (c := 1 / 2 ^ 53 * ‖x + y‖ + η) (by positivity) ?_ ?_).trans ?_
    · refine le_trans ?_ (e1.trans (by linarith))
      exact le_of_eq rfl
    · refine le_trans ?_ (e2.trans (by linarith))
      exact le_of_eq rfl
    · have := norm_nonneg (x + y)
      linarith

theorem gateErrD_binary64 {w : Nat} (hw : w ≤ 3) (hK : K ≤ 64) : gateErrD (binary64 D).u 8 w K ≤ 2270 / 2 ^ 53 := by
  have hu := (binary64 D).u_nonneg
  have hu4 := (binary64_u (D := D)).le
  have hle : (8 + 1) * (w + 1) + 1 + 2 ^ w + (K - 1) ≤ 108 := by
    have := Nat.pow_le_pow_right (n := 2) (by norm_num) hw
    omega
  unfold gateErrD
  have hp := pow_bound hu (k := 108) (by
    norm_num at hu4 ⊢
    linarith)
  have hs : √((2 : ℝ) ^ w) ≤ 3 := by
    rw [Real.sqrt_le_left (by norm_num)]
    exact (pow_le_pow_right₀ (by norm_num) hw).trans (by norm_num)
  have hs0 := Real.sqrt_nonneg ((2 : ℝ) ^ w)
  have hm := pow_le_pow_right₀ (by linarith : 1 ≤ 1 + (binary64 D).u) hle
  refine (mul_le_mul (by linarith : _ ≤ 2 * ((108 : Nat) * (binary64 D).u)) hs hs0 (by positivity)).trans ?_
  norm_num at hu4 ⊢
  linarith

theorem inRangeD_binary64 {w : Nat} (hw : w ≤ 3) (hK : K ≤ 64) : InRangeD (binary64 D) 8 w K := by
  have hu := (binary64 D).u_nonneg
  have h2 : (2 : ℝ) ^ w ≤ 2 ^ 3 := pow_le_pow_right₀ (by norm_num) hw
  have hK' : (K : ℝ) ≤ 64 := by exact_mod_cast hK
  refine ⟨?_, (inRange_binary64 hw).2.1, ?_⟩
  · have h1 : (8 + 1) * (w + 1) + 1 + 2 ^ w + (K - 1) ≤ 108 := by
      have := Nat.pow_le_pow_right (n := 2) (by norm_num) hw
      omega
    refine (pow_le_pow_right₀ (by linarith) h1).trans ?_
    rw [binary64_u]
    norm_num
  · rw [binary64_big]
    refine (mul_le_mul (mul_le_mul_of_nonneg_left hK' (by norm_num)) h2 (by positivity) (by norm_num)).trans ?_
    norm_num

theorem gateTinyD_binary64 {w : Nat} (hn : n ≤ 1000) (hw : w ≤ 3) (hK : K ≤ 64) : gateTinyD (binary64 D).eta n w K ≤ 1 / 2 ^ 500 := by
  unfold gateTinyD
  have hw' : (w : ℝ) ≤ 3 := by exact_mod_cast hw
  have hK' : (K : ℝ) ≤ 64 := by exact_mod_cast hK
  have h1 : √((2 : ℝ) ^ n) ≤ 2 ^ 500 := by
    rw [Real.sqrt_le_left (by positivity), ← pow_mul]
    exact pow_le_pow_right₀ (by norm_num) (by omega)
  have h2 : (2 : ℝ) ^ w ≤ 2 ^ 3 := pow_le_pow_right₀ (by norm_num) hw
  have h3 : (2 : ℝ) ^ w * (4 * w + 7) ≤ 2 ^ 3 * 19 := mul_le_mul h2 (by linarith) (by positivity) (by norm_num)
  have h4 : 2 * (K : ℝ) * (2 ^ w * (4 * w + 7)) ≤ 2 * 64 * (2 ^ 3 * 19) := mul_le_mul (by linarith) h3 (by positivity) (by norm_num)
  rw [binary64_eta]
  refine (mul_le_mul_of_nonneg_right (mul_le_mul h1 h4 (by positivity) (by positivity)) (by positivity)).trans ?_
  norm_num

/-- C113 in double precision with underflow and overflow: at most 64 ranges, about a million gates on at most three qubits each. -/
theorem C113_binary64 [D.Ranged] (hn : n ≤ 1000) (hsize : 0 < size) (hK : K * size = 2 ^ n) (hK64 : K ≤ 64)
    {gates : List (Gate × List (List Nat))}
    (hops : ∀ g ∈ gates, Fits g.1 g.2 ∧ GroupsOK n g.2) (hw : ∀ g ∈ gates, g.2.flatten.length ≤ 3) (hN : gates.length ≤ 2 ^ 20)
    {v v' : List (FC (binary64 D))} (hv : v.length = 2 ^ n) (h1 : totalProb n (vals v) = 1)
    (h : DistGates (binary64 D) 8 n K size gates v v') :
    dist2 n (vals v') (exactGates n gates (vals v)) ≤ 1 / 2 ^ 20 ∧
      ∀ idx m, |outcomeProb n idx (vals v') m - outcomeProb n idx (exactGates n gates (vals v)) m| ≤ 1 / 2 ^ 18 := by
  have hn1 : dist2 n (vals v) 0 = 1 := by
    rw [totalProb_dist] at h1
    have := dist2_nonneg n (vals v) 0
    nlinarith
  have hP : (gates.map fun g => 1 + gateErrD (binary64 D).u 8 g.2.flatten.length K).prod ≤ (1 + 2270 / 2 ^ 53) ^ gates.length := by
    clear hN h h1 hops
    induction gates with
    | nil => simp
    | cons g gates ih =>
      rw [List.map_cons, List.prod_cons, List.length_cons, pow_succ']
      have h1 := ih fun g hg => hw g (by simp [hg])
      have h2 := gateErrD_binary64 (D := D) (hw g (by simp)) hK64
      have h3 := gateErrD_nonneg (binary64 D).u_nonneg 8 g.2.flatten.length K
      have h4 := one_le_errProdD (binary64 D).u_nonneg 8 K gates
      exact mul_le_mul (by linarith) h1 (by linarith) (by positivity)
  have hN' : (gates.length : ℝ) ≤ 2 ^ 20 := by exact_mod_cast hN
  have hNg : (gates.length : ℝ) * (2270 / 2 ^ 53) ≤ 2270 / 2 ^ 33 := by
    refine (mul_le_mul_of_nonneg_right hN' (by positivity)).trans ?_
    norm_num
  have hb := pow_bound (u := 2270 / 2 ^ 53) (by positivity) (k := gates.length) (hNg.trans (by norm_num))
  have hT : (gates.map fun g => gateTinyD (binary64 D).eta n g.2.flatten.length K).sum ≤ 1 / 2 ^ 40 := by
    have key : ∀ gates : List (Gate × List (List Nat)), (∀ g ∈ gates, g.2.flatten.length ≤ 3) →
        (gates.map fun g => gateTinyD (binary64 D).eta n g.2.flatten.length K).sum ≤ gates.length * (1 / 2 ^ 500) := by
      intro gates
      induction gates with
      | nil => simp
      | cons g gates ih =>
        intro hw
        have h1 := ih fun g hg => hw g (by simp [hg])
        have h2 := gateTinyD_binary64 (D := D) hn (hw g (by simp)) hK64
        rw [List.map_cons, List.sum_cons, List.length_cons]
        push_cast
        linarith
    refine (key gates hw).trans ((mul_le_mul_of_nonneg_right hN' (by positivity)).trans ?_)
    norm_num
  have hT0 : 0 ≤ (gates.map fun g => gateTinyD (binary64 D).eta n g.2.flatten.length K).sum := by
    apply List.sum_nonneg
    simp only [List.mem_map, forall_exists_index, and_imp]
    rintro x g - rfl
    exact gateTinyD_nonneg (binary64 D).eta_nonneg n _ K
  have hP2 := hP.trans (hb.trans (add_le_add le_rfl (mul_le_mul_of_nonneg_left hNg (by norm_num))))
  have hd := (C113_distributed hsize hK hops (fun g hg => inRangeD_binary64 (hw g hg) hK64) hv (by
    rw [hn1]
    refine (mul_le_mul hP2 (add_le_add le_rfl hT) (by linarith) (by positivity)).trans ?_
    norm_num) h).2
  rw [hn1, mul_one] at hd
  have hd' : dist2 n (vals v') (exactGates n gates (vals v)) ≤ 1 / 2 ^ 20 := by
    refine hd.trans ((add_le_add (sub_le_sub_right hP2 1) (mul_le_mul hP2 hT hT0 (by positivity))).trans ?_)
    norm_num
  refine ⟨hd', fun idx m => ?_⟩
  have hE : totalProb n (exactGates n gates (vals v)) = 1 := by
    have : ∀ (gates : List (Gate × List (List Nat))) (x : Nat → ℂ), (∀ g ∈ gates, Fits g.1 g.2 ∧ GroupsOK n g.2) →
        dist2 n (exactGates n gates x) 0 = dist2 n x 0 := by
      intro gates
      induction gates with
      | nil => intro x _; rfl
      | cons g rest ih =>
        intro x hg
        rw [exactGates, ih _ (fun g h => hg g (by simp [h])), gateApply_norm (hg g (by simp)).1 (hg g (by simp)).2]
    rw [totalProb_dist, this gates _ hops, hn1]
    norm_num
  refine ((C90_probs hE hd' idx m).1).trans ?_
  norm_num

/-- Every circuit runs on the grid with the matrices of its gates rounded to the nearest doubles. -/
theorem C113_rounded_matrices [D.Ranged] (hsize : 0 < size) (hK : K * size = 2 ^ n) {gates : List (Gate × List (List Nat))}
    (hops : ∀ g ∈ gates, Fits g.1 g.2 ∧ GroupsOK n g.2)
    {sched : Nat → Nat → List Nat} (hs : ∀ i j, (sched i j).Perm (List.range size)) {arena : Nat → Nat → List (FC (binary64 D))}
    (ha : ∀ i j, (arena i j).length = size) {order : Nat → List Nat} (ho : ∀ j < K, (j :: order j).Perm (List.range K))
    (ht : 1 ≤ t) {v : List (FC (binary64 D))} (hv : v.length = 2 ^ n) (run : Nat → Nat → Nat) :
    ∃ v', gates.foldlM (fun v g => do
        let mats ← g.1.feedMats false g.2
        distKronF run (mats.map fun (km : Key × Mat ℂ) => (km.1, roundMat (binary64 D) (fl64 D) km.2)) n K size v arena sched order) v = .ok v' ∧
      DistGates (binary64 D) t n K size gates v v' := by
  classical
  let matsOf := fun g : Gate × List (List Nat) => match g.1.feedMats false g.2 with
    | .ok mats => mats.map fun (km : Key × Mat ℂ) => (km.1, roundMat (binary64 D) (fl64 D) km.2)
    | .error _ => []
  have hok : ∀ g ∈ gates, ∃ mats, g.1.feedMats false g.2 = .ok mats := by
    intro g hg
    obtain ⟨mats, h⟩ := gm_exists g.1 g.2 (hops g hg).1 (hops g hg).2
    exact ⟨mats, by simp [Gate.feedMats, h.ok]⟩
  obtain ⟨v', h1, h2⟩ := C113_runs hsize hK hops matsOf (t := t) (by
    intro g hg
    obtain ⟨mats, h⟩ := gm_exists g.1 g.2 (hops g hg).1 (hops g hg).2
    have hm : g.1.feedMats false g.2 = .ok mats := by simp [Gate.feedMats, h.ok]
    refine ⟨mats, hm, ?_⟩
    simp only [matsOf, hm]
    have hst : ∀ km ∈ mats, Stored GateEntry km.2 := makemats_stored h.ok
    clear hm h
    induction mats with
    | nil => exact .nil
    | cons km mats ih =>
      exact .cons ⟨rfl, roundMat_stored ht fl64_ranged km.2 (hst km (by simp))⟩ (ih fun km hkm => hst km (by simp [hkm]))) hs ha ho hv run
  refine ⟨v', ?_, h2⟩
  rw [← h1]
  clear h1 h2 hv
  induction gates generalizing v with
  | nil => rfl
  | cons g rest ih =>
    obtain ⟨mats, hm⟩ := hok g (by simp)
    rw [List.foldlM_cons, List.foldlM_cons]
    have hg : matsOf g = mats.map fun (km : Key × Mat ℂ) => (km.1, roundMat (binary64 D) (fl64 D) km.2) := by simp only [matsOf, hm]
    rw [hm, hg]
    refine bind_congr fun w => ?_
    exact ih (fun g hg => hops g (by simp [hg])) (fun g hg => hok g (by simp [hg]))

-- a Bell pair on four workers
example (D : Double) [D.Ranged] (sched : Nat → Nat → List Nat) (hs : ∀ i j, (sched i j).Perm (List.range 2))
    (arena : Nat → Nat → List (FC (binary64 D))) (ha : ∀ i j, (arena i j).length = 2) :
    ∃ v', DistGates (binary64 D) 8 2 2 2 [(.h, [[0]]), (.c .x, [[0], [1]])] [1, 0, 0, 0] v' ∧
      |outcomeProb 2 [0] (vals v') 1
        - outcomeProb 2 [0] (exactGates 2 [(.h, [[0]]), (.c .x, [[0], [1]])] (vals ([1, 0, 0, 0] : List (FC (binary64 D))))) 1|
        ≤ 1 / 2 ^ 18 := by
  have hops : ∀ g ∈ [((.h : Gate), [[0]]), (.c .x, [[0], [1]])], Fits g.1 g.2 ∧ GroupsOK 2 g.2 := by
    intro g hg
    simp only [List.mem_cons, List.not_mem_nil, or_false] at hg
    rcases hg with rfl | rfl
    · exact ⟨by simp [Fits], by constructor <;> simp⟩
    · exact ⟨⟨0, [[1]], rfl, by simp [Fits]⟩, by constructor <;> simp⟩
  obtain ⟨v', _, h⟩ := C113_rounded_matrices (t := 8) (K := 2) (size := 2) (n := 2) (by norm_num) (by norm_num) hops hs ha
    (order := fun j => [1 - j]) (by
      intro j hj
      interval_cases j <;> decide) (by norm_num) (v := [1, 0, 0, 0]) rfl (fun _ _ => 0)
  refine ⟨v', h, (C113_binary64 (by norm_num) (by norm_num) (by norm_num) (by norm_num) hops (by simp) (by norm_num) rfl ?_ h).2 [0] 1⟩
  have h0 : (0 : FC (binary64 D)).val = 0 := rfl
  have h1 : (1 : FC (binary64 D)).val = 1 := rfl
  simp [totalProb, vals, Finset.sum_range_succ, h0, h1]

end QIP.Props
