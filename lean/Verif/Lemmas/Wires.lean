import Mathlib.Algebra.Order.BigOperators.Group.List
import Verif.Lemmas.Run
import Verif.Spec.Run

/-! # Which qubits a node holds -/

namespace QIP

open Spec Heap

theorem filter_lt_sublist {l : List Nat} (hl : l.Pairwise (· < ·)) {x y : Nat} (hx : x ∈ l) (hxy : x < y) :
    (l.filter (· < x) ++ [x]).Sublist (l.filter (· < y)) := by
  induction l with
  | nil => simp at hx
  | cons a l ih =>
    obtain ⟨h1, h2⟩ := List.pairwise_cons.1 hl
    rcases List.mem_cons.1 hx with rfl | hx'
    · have e : (x :: l).filter (· < x) = [] := by
        rw [List.filter_eq_nil_iff]
        intro b hb
        rcases List.mem_cons.1 hb with rfl | hb
        · simp
        · have := h1 b hb; simp; omega
      rw [e, List.filter_cons_of_pos (by simpa using hxy)]
      simp
    · have hax := h1 x hx'
      rw [List.filter_cons_of_pos (by simpa using hax), List.filter_cons_of_pos (by simp; omega)]
      exact (ih h2 hx').cons_cons a

theorem block_le {l : List Nat} (hl : l.Pairwise (· < ·)) (f : Nat → Nat) {x y : Nat} (hx : x ∈ l) (hxy : x < y) :
    ((l.filter (· < x)).map f).sum + f x ≤ ((l.filter (· < y)).map f).sum := by
  have := List.Sublist.sum_le_sum ((filter_lt_sublist hl hx hxy).map f) (fun _ _ => Nat.zero_le _)
  simpa using this

theorem block_le_all {l : List Nat} (hl : l.Pairwise (· < ·)) (f : Nat → Nat) {x : Nat} (hx : x ∈ l) :
    ((l.filter (· < x)).map f).sum + f x ≤ (l.map f).sum := by
  refine (block_le hl f hx (Nat.lt_succ_self x)).trans ?_
  exact List.Sublist.sum_le_sum (List.filter_sublist.map f) (fun _ _ => Nat.zero_le _)

/-- Everything about reachable nodes. -/
structure Ctx (h : Heap) (V : Nat → Prop) (args : List Nat) : Prop where
  wf : WF h V
  kind : ∀ x, V x → KindOK h x
  vargs : ∀ x ∈ args, V x
  size : ∀ x, Reach h args x → SizeOK h x
  split : ∀ x, Reach h args x → SplitOK h x

namespace Ctx

variable {h : Heap} {V : Nat → Prop} {args : List Nat}

theorem vis (c : Ctx h V args) {x : Nat} (hx : Reach h args x) : V x := reach_visible c.wf c.vargs hx

theorem ilt (c : Ctx h V args) {x : Nat} (hx : Reach h args x) : ∀ i ∈ h.inputs x, i < x :=
  c.wf.ilt x (c.wf.vlt x (c.vis hx))

theorem len (c : Ctx h V args) {x : Nat} (hx : Reach h args x) : (wires h args x).length = h.n x :=
  length_wires c.wf c.kind c.vargs c.size hx

theorem len_groups (c : Ctx h V args) {x : Nat} (hx : Reach h args x) :
    (groups h args x).map List.length = (h.inputs x).map h.n := by
  unfold groups
  rw [List.map_map]
  apply List.map_congr_left
  intro i hi
  exact c.len (Reach.input hx hi)

theorem len_flatten (c : Ctx h V args) {x : Nat} (hx : Reach h args x) :
    (groups h args x).flatten.length = ((h.inputs x).map h.n).sum := by
  rw [List.length_flatten, c.len_groups hx]

theorem mem_groups {x k : Nat} : k ∈ (groups h args x).flatten ↔ ∃ p ∈ h.inputs x, k ∈ wires h args p := by
  simp only [groups, List.mem_flatten, List.mem_map]
  constructor
  · rintro ⟨_, ⟨p, hp, rfl⟩, hk⟩; exact ⟨p, hp, hk⟩
  · rintro ⟨p, hp, hk⟩; exact ⟨_, ⟨p, hp, rfl⟩, hk⟩

/-- Every qubit of an inner node comes from one of its inputs. -/
theorem wires_sub (c : Ctx h V args) {x k : Nat} (hx : Reach h args x) (hl : h.inputs x ≠ []) (hk : k ∈ wires h args x) :
    ∃ p ∈ h.inputs x, k ∈ wires h args p := by
  rw [← mem_groups]
  rw [wires_node hl (c.ilt hx)] at hk
  rcases hkx : h.kind x with _ | is | _ | _ | _ | _ <;> rw [hkx] at hk <;> simp only at hk
  case split =>
    obtain ⟨i, hi, rfl⟩ := List.mem_map.1 hk
    obtain ⟨h1, h2⟩ := c.split x hx is hkx i hi
    have : i.toNat < (groups h args x).flatten.length := by rw [c.len_flatten hx]; omega
    rw [List.getD_eq_getElem _ _ this]
    exact List.getElem_mem this
  all_goals exact hk

theorem leaf_mem (c : Ctx h V args) {x : Nat} (hx : Reach h args x) (hl : h.inputs x = []) : x ∈ leaves h args :=
  (mem_leaves c.wf c.vargs).2 ⟨hx, hl⟩

theorem mem_leaf {x k : Nat} (hl : h.inputs x = []) :
    k ∈ wires h args x ↔ offset h args x ≤ k ∧ k < offset h args x + h.n x := by
  rw [wires_leaf hl]
  simp only [List.mem_map, List.mem_range]
  constructor
  · rintro ⟨i, hi, rfl⟩; omega
  · rintro ⟨h1, h2⟩; exact ⟨k - offset h args x, by omega, by omega⟩

theorem lt_width (c : Ctx h V args) {x k : Nat} (hx : Reach h args x) (hk : k ∈ wires h args x) : k < width h args := by
  induction x using Nat.strongRecOn with
  | ind x ih =>
    by_cases hl : h.inputs x = []
    · have := (mem_leaf hl).1 hk
      have := block_le_all (leaves_asc h args) h.n (c.leaf_mem hx hl)
      unfold width
      unfold offset at *
      omega
    · obtain ⟨p, hp, hkp⟩ := c.wires_sub hx hl hk
      exact ih p (c.ilt hx p hp) (Reach.input hx hp) hkp

theorem groups_lt (c : Ctx h V args) {x k : Nat} (hx : Reach h args x) (hk : k ∈ (groups h args x).flatten) :
    k < width h args := by
  obtain ⟨p, hp, hkp⟩ := mem_groups.1 hk
  exact c.lt_width (Reach.input hx hp) hkp

theorem leaf_unique (c : Ctx h V args) {x y k : Nat} (hx : Reach h args x) (hy : Reach h args y) (hlx : h.inputs x = [])
    (hly : h.inputs y = []) (hkx : k ∈ wires h args x) (hky : k ∈ wires h args y) : x = y := by
  rw [mem_leaf hlx] at hkx
  rw [mem_leaf hly] at hky
  unfold offset at *
  rcases Nat.lt_trichotomy x y with hlt | rfl | hlt
  · have := block_le (leaves_asc h args) h.n (c.leaf_mem hx hlx) hlt
    omega
  · rfl
  · have := block_le (leaves_asc h args) h.n (c.leaf_mem hy hly) hlt
    omega

theorem leaf_above (c : Ctx h V args) {x k : Nat} (hx : Reach h args x) (hk : k ∈ wires h args x) :
    ∃ y, y ≤ x ∧ Reach h args y ∧ h.inputs y = [] ∧ k ∈ wires h args y := by
  induction x using Nat.strongRecOn with
  | ind x ih =>
    by_cases hl : h.inputs x = []
    · exact ⟨x, le_rfl, hx, hl, hk⟩
    · obtain ⟨p, hp, hkp⟩ := c.wires_sub hx hl hk
      have hlt := c.ilt hx p hp
      obtain ⟨y, h1, h2⟩ := ih p hlt (Reach.input hx hp) hkp
      exact ⟨y, by omega, h2⟩

end Ctx

/-- `b` is obtained from `a` by going back along inputs that hold qubit `k`. -/
inductive Back (h : Heap) (args : List Nat) (k : Nat) : Nat → Nat → Prop
  | refl {a : Nat} : Back h args k a a
  | step {a c b : Nat} : Back h args k a c → b ∈ h.inputs c → k ∈ wires h args b → Back h args k a b

namespace Ctx

variable {h : Heap} {V : Nat → Prop} {args : List Nat}

theorem back_reach {k a b : Nat} (hb : Back h args k a b) : Reach h [a] b := by
  induction hb with
  | refl => exact Reach.arg (by simp)
  | step _ h1 _ ih => exact Reach.input ih h1

theorem reach_trans {a b : Nat} (hb : Reach h [a] b) (ha : Reach h args a) : Reach h args b := by
  induction hb with
  | arg hx => simp at hx; subst hx; exact ha
  | input _ h1 ih => exact Reach.input ih h1

theorem back_le (c : Ctx h V args) {k a b : Nat} (ha : Reach h args a) (hb : Back h args k a b) : b ≤ a := by
  induction hb with
  | refl => exact le_rfl
  | step h0 h1 _ ih => exact ((c.ilt (reach_trans (back_reach h0) ha) _ h1).le).trans ih

theorem back_carry {k a b : Nat} (ha : k ∈ wires h args a) (hb : Back h args k a b) : k ∈ wires h args b := by
  cases hb with
  | refl => exact ha
  | step _ _ h2 => exact h2

/-- The first step from `a`. -/
theorem back_last {k a b : Nat} (hb : Back h args k a b) (hne : a ≠ b) : ∃ c, Back h args k a c ∧ b ∈ h.inputs c := by
  cases hb with
  | refl => exact absurd rfl hne
  | step h0 h1 _ => exact ⟨_, h0, h1⟩

theorem back_trans {k a b d : Nat} (h1 : Back h args k a b) (h2 : Back h args k b d) : Back h args k a d := by
  induction h2 with
  | refl => exact h1
  | step _ h3 h4 ih => exact Back.step ih h3 h4

/-- Two different consumers of a node do not both hold the same qubit. -/
theorem consumer_unique (c : Ctx h V args) (hu : UsedOnce h args) {x y p k : Nat} (hx : Reach h args x)
    (hy : Reach h args y) (hpx : p ∈ h.inputs x) (hpy : p ∈ h.inputs y) (hnd : (wires h args p).Nodup)
    (hkx : k ∈ wires h args x) (hky : k ∈ wires h args y) : x = y := by
  by_contra hne
  obtain ⟨is, js, h1, h2, h3⟩ := hu.once x y p hx hy hne hpx hpy
  have key : ∀ z js, Reach h args z → p ∈ h.inputs z → h.kind z = .split js → k ∈ wires h args z →
      ∃ i ∈ js, ∃ hi : i.toNat < (wires h args p).length, (wires h args p)[i.toNat] = k ∧ 0 ≤ i := by
    intro z js hz hpz hkz hk
    have hkd := c.kind z (c.vis hz)
    unfold KindOK at hkd
    rw [hkz] at hkd
    obtain ⟨-, -, p', hp'⟩ := hkd
    rw [hp', List.mem_singleton] at hpz
    subst hpz
    rw [wires_node (by rw [hp']; simp) (c.ilt hz), hkz] at hk
    simp only at hk
    obtain ⟨i, hi, rfl⟩ := List.mem_map.1 hk
    obtain ⟨g1, g2⟩ := c.split z hz js hkz i hi
    have hlt : i.toNat < (groups h args z).flatten.length := by rw [c.len_flatten hz]; omega
    have he : (groups h args z).flatten = wires h args p := by simp [groups, hp']
    rw [he] at hlt
    refine ⟨i, hi, hlt, ?_, g1⟩
    rw [he, List.getD_eq_getElem _ _ hlt]
  obtain ⟨i, hi, hi1, hi2, hi3⟩ := key x is hx hpx h1 hkx
  obtain ⟨j, hj, hj1, hj2, hj3⟩ := key y js hy hpy h2 hky
  have : i.toNat = j.toNat := (hnd.getElem_inj_iff).1 (hi2.trans hj2.symm)
  have : i = j := by omega
  subst this
  exact h3 i hi hj

theorem nodup_flatten_of {l : List Nat} {f : Nat → List Nat} (hl : l.Nodup) (hf : ∀ x ∈ l, (f x).Nodup)
    (hd : ∀ x ∈ l, ∀ y ∈ l, x ≠ y → ∀ k ∈ f x, k ∉ f y) : (l.map f).flatten.Nodup := by
  rw [List.nodup_flatten]
  constructor
  · intro a ha
    obtain ⟨x, hx, rfl⟩ := List.mem_map.1 ha
    exact hf x hx
  · rw [List.pairwise_map]
    apply List.Pairwise.imp_of_mem _ hl
    intro a b ha hb hne
    exact fun k hk hk' => hd a ha b hb hne k hk hk'

/-- Nodes holding the same qubit form a chain, and no node holds a qubit twice. -/
theorem chain (c : Ctx h V args) (hu : UsedOnce h args) (a : Nat) (ha : Reach h args a) :
    (∀ k ∈ wires h args a, ∀ b ≤ a, Reach h args b → k ∈ wires h args b → Back h args k a b) ∧
      (groups h args a).flatten.Nodup ∧ (wires h args a).Nodup := by
  induction a using Nat.strongRecOn with
  | ind a ih =>
    have hchain : ∀ k ∈ wires h args a, ∀ b ≤ a, Reach h args b → k ∈ wires h args b → Back h args k a b := by
      intro k hk b hba hb hkb
      rcases Nat.eq_or_lt_of_le hba with rfl | hlt
      · exact Back.refl
      by_cases hl : h.inputs a = []
      · obtain ⟨y, hy1, hy2, hy3, hy4⟩ := c.leaf_above hb hkb
        have := c.leaf_unique ha hy2 hl hy3 hk hy4
        omega
      · obtain ⟨p, hp, hkp⟩ := c.wires_sub ha hl hk
        have hpa := c.ilt ha p hp
        have hpR := Reach.input ha hp
        rcases Nat.lt_or_ge p b with hpb | hbp
        · exfalso
          have h1 := (ih b hlt hb).1 k hkb p hpb.le hpR hkp
          obtain ⟨d, hd1, hd2⟩ := back_last h1 (by omega)
          have hdR := reach_trans (back_reach hd1) hb
          have := c.consumer_unique hu hdR ha hd2 hp (ih p hpa hpR).2.2 (back_carry hkb hd1) hk
          have := c.back_le hb hd1
          omega
        · exact back_trans (Back.step Back.refl hp hkp) ((ih p hpa hpR).1 k hkp b hbp hb hkb)
    refine ⟨hchain, ?_⟩
    have hgroups : (groups h args a).flatten.Nodup := by
      unfold groups
      apply nodup_flatten_of (hu.inputs a ha)
      · intro i hi
        exact (ih i (c.ilt ha i hi) (Reach.input ha hi)).2.2
      · -- two inputs holding the same qubit
        have key : ∀ i ∈ h.inputs a, ∀ j ∈ h.inputs a, j < i → ∀ k ∈ wires h args i, k ∉ wires h args j := by
          intro i hi j hj hji k hki hkj
          have hia := c.ilt ha i hi
          have hiR := Reach.input ha hi
          have hjR := Reach.input ha hj
          have h1 := (ih i hia hiR).1 k hki j hji.le hjR hkj
          obtain ⟨d, hd1, hd2⟩ := back_last h1 (by omega)
          have hdR := reach_trans (back_reach hd1) hiR
          have hdi := c.back_le hiR hd1
          obtain ⟨is, js, -, h2, -⟩ := hu.once d a j hdR ha (by omega) hd2 hj
          have hkd := c.kind a (c.vis ha)
          unfold KindOK at hkd
          rw [h2] at hkd
          obtain ⟨-, -, p', hp'⟩ := hkd
          rw [hp', List.mem_singleton] at hi hj
          omega
        intro i hi j hj hne k hki hkj
        rcases Nat.lt_or_gt_of_ne hne with hlt | hgt
        · exact key j hj i hi hlt k hkj hki
        · exact key i hi j hj hgt k hki hkj
    refine ⟨hgroups, ?_⟩
    by_cases hl : h.inputs a = []
    · rw [wires_leaf hl]
      exact List.nodup_range.map (fun x y hxy => by omega)
    · rw [wires_node hl (c.ilt ha)]
      rcases hkx : h.kind a with _ | is | _ | _ | _ | _ <;> simp only
      case split =>
        apply List.Nodup.map_on _ (hu.pieces a ha is hkx)
        intro i hi j hj hij
        obtain ⟨i1, i2⟩ := c.split a ha is hkx i hi
        obtain ⟨j1, j2⟩ := c.split a ha is hkx j hj
        have li : i.toNat < (groups h args a).flatten.length := by rw [c.len_flatten ha]; omega
        have lj : j.toNat < (groups h args a).flatten.length := by rw [c.len_flatten ha]; omega
        rw [List.getD_eq_getElem _ _ li, List.getD_eq_getElem _ _ lj] at hij
        have := (hgroups.getElem_inj_iff).1 hij
        omega
      all_goals exact hgroups

/-- Nodes of which neither depends on the other hold different qubits. -/
theorem disjoint (c : Ctx h V args) (hu : UsedOnce h args) {a b : Nat} (ha : Reach h args a) (hb : Reach h args b)
    (hab : ¬ Reach h [a] b) (hba : ¬ Reach h [b] a) : ∀ k ∈ wires h args a, k ∉ wires h args b := by
  intro k hka hkb
  rcases Nat.le_total b a with hle | hle
  · exact hab (back_reach ((c.chain hu a ha).1 k hka b hle hb hkb))
  · exact hba (back_reach ((c.chain hu b hb).1 k hkb a hle ha hka))

end Ctx

end QIP
