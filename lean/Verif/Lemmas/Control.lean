import Verif.Lemmas.WrapRun

/-! # Controlling a sequence of operations -/

namespace QIP

open Spec Heap

theorem AgreeOff.mono {n : Nat} {S S' : List Nat} (h : ∀ q ∈ S, q ∈ S') {r c : Nat} (ha : AgreeOff n S r c) :
    AgreeOff n S' r c := fun q h1 h2 => ha q h1 fun hq => h2 (h q hq)

theorem getD_sub_flatten (gs : List (List Nat)) (i : Nat) : ∀ q ∈ gs.getD i [], q ∈ gs.flatten := by
  intro q hq
  by_cases hi : i < gs.length
  · rw [List.getD_eq_getElem _ _ hi] at hq
    exact List.mem_flatten.2 ⟨_, List.getElem_mem hi, hq⟩
  · rw [List.getD_eq_default _ _ (by omega)] at hq
    simp at hq

theorem foldr_dep (n : Nat) (U : Bool → Bool → ℂ) (qs : List Nat) {v w : Nat → ℂ} {r : Nat}
    (h : ∀ c, AgreeOff n qs r c → v c = w c) :
    qs.foldr (fun q w => apply1 n q U w) v r = qs.foldr (fun q w => apply1 n q U w) w r := by
  induction qs generalizing r with
  | nil => exact h r fun _ _ _ => rfl
  | cons q qs ih =>
    simp only [List.foldr_cons]
    unfold apply1
    apply Finset.sum_congr rfl
    intro c hc
    have hc := (Finset.mem_filter.1 hc).2
    congr 1
    refine ih fun c' hc' => h c' fun k h1 h2 => ?_
    rw [hc k h1 (by simp at h2; simp [h2.1]), hc' k h1 (by simp at h2; exact h2.2)]

/-- A gate mixes amplitudes only of basis states that agree outside its qubits. -/
theorem gate_dep (n : Nat) (g : Gate) {gs : List (List Nat)} {v w : Nat → ℂ} {r : Nat}
    (h : ∀ c, AgreeOff n gs.flatten r c → v c = w c) : gateApply n g gs v r = gateApply n g gs w r := by
  induction g generalizing gs with
  | swap k =>
    simp only [gateApply]
    apply Finset.sum_congr rfl
    intro c hc
    have hc := (Finset.mem_filter.1 hc).2
    refine h c (AgreeOff.mono ?_ hc.1)
    intro q hq
    rcases List.mem_append.1 hq with hq | hq <;> exact getD_sub_flatten _ _ _ hq
  | c op ih =>
    simp only [gateApply]
    rw [ih fun c hc => h c (AgreeOff.mono ?_ hc), h r fun _ _ _ => rfl]
    intro q hq
    obtain ⟨l, hl, hq⟩ := List.mem_flatten.1 hq
    exact List.mem_flatten.2 ⟨l, List.mem_of_mem_tail hl, hq⟩
  | _ => exact foldr_dep n _ _ h

/-- The qubits of an operation. -/
def Spec.Act.qubits (a : Act) : List Nat := a.ctrls ++ a.groups.flatten

theorem act_dep (n : Nat) (a : Act) {v w : Nat → ℂ} {r : Nat} (h : ∀ c, AgreeOff n a.qubits r c → v c = w c) :
    a.apply n v r = a.apply n w r := by
  unfold Act.apply
  rw [gate_dep n a.gate fun c hc => h c (AgreeOff.mono (by intro q hq; simp [Spec.Act.qubits, hq]) hc),
    h r fun _ _ _ => rfl]

theorem controlled_all (n : Nat) (cw : List Nat) (hcw : ∀ q ∈ cw, q < n) (as : List Act)
    (hd : ∀ a ∈ as, ∀ q ∈ cw, q ∉ a.qubits) (v : Nat → ℂ) (r : Nat) :
    actAll n (as.map (Act.more cw)) v r = if ∀ q ∈ cw, qbit n r q = true then actAll n as v r else v r := by
  have hP : ∀ a ∈ as, ∀ r c, AgreeOff n a.qubits r c → (∀ q ∈ cw, qbit n r q = true) → ∀ q ∈ cw, qbit n c q = true := by
    intro a ha r c hrc hr q hq
    rw [← hrc q (hcw q hq) (hd a ha q hq)]
    exact hr q hq
  have key : ∀ (as : List Act), (∀ a ∈ as, ∀ r c, AgreeOff n a.qubits r c → (∀ q ∈ cw, qbit n r q = true) →
      ∀ q ∈ cw, qbit n c q = true) → ∀ v w : Nat → ℂ, (∀ c, (∀ q ∈ cw, qbit n c q = true) → v c = w c) → ∀ r,
      ((∀ q ∈ cw, qbit n r q = true) → actAll n (as.map (Act.more cw)) v r = actAll n as w r) ∧
      (¬ (∀ q ∈ cw, qbit n r q = true) → actAll n (as.map (Act.more cw)) v r = v r) := by
    intro as
    induction as with
    | nil => intro _ v w h r; exact ⟨h r, fun _ => rfl⟩
    | cons a as ih =>
      intro hP v w h r
      rw [List.map_cons, actAll_cons, actAll_cons]
      have hmore : ∀ v r, (∀ q ∈ cw, qbit n r q = true) → (a.more cw).apply n v r = a.apply n v r := by
        intro v r hr
        unfold Act.apply Act.more
        refine if_congr ⟨fun h q hq => h q (by simp [hq]), fun h q hq => ?_⟩ rfl rfl
        rcases List.mem_append.1 hq with hq | hq
        · exact hr q hq
        · exact h q hq
      have hno : ∀ v r, ¬ (∀ q ∈ cw, qbit n r q = true) → (a.more cw).apply n v r = v r := by
        intro v r hr
        unfold Act.apply Act.more
        exact if_neg fun h => hr fun q hq => h q (by simp [hq])
      obtain ⟨i1, i2⟩ := ih (fun b hb => hP b (by simp [hb])) ((a.more cw).apply n v) (a.apply n w) (by
        intro c hc
        rw [hmore v c hc]
        exact act_dep n a fun c' hc' => h c' (hP a (by simp) c c' hc' hc)) r
      exact ⟨i1, fun hr => (i2 hr).trans (hno v r hr)⟩
  obtain ⟨k1, k2⟩ := key as hP v v (fun _ _ => rfl) r
  split
  · rename_i h; exact k1 h
  · rename_i h; exact k2 h

/-! ## The qubits of a circuit function -/

theorem mem_pick_flatten {pos : List Nat} {cur : List (List Nat)} {q : Nat} (h : q ∈ (pick pos cur).flatten) :
    q ∈ cur.flatten := by
  obtain ⟨l, hl, hq⟩ := List.mem_flatten.1 h
  exact List.mem_flatten.2 ⟨l, pick_mem hl, hq⟩

theorem mem_leave_flatten {pos : List Nat} {cur : List (List Nat)} {q : Nat} (h : q ∈ (leave pos cur).flatten) :
    q ∈ cur.flatten := by
  unfold leave at h
  exact mem_pick_flatten h

theorem mem_parts {l : List Nat} {bs : List Int} {q : Nat} (h : q ∈ (parts l bs).flatten) : q ∈ l := by
  unfold parts at h
  obtain ⟨p, hp, hq⟩ := List.mem_flatten.1 h
  obtain ⟨i, -, rfl⟩ := List.mem_map.1 hp
  unfold slice at hq
  exact List.mem_of_mem_drop (List.mem_of_mem_take hq)

theorem mem_take_flatten {m : Nat} {l : List (List Nat)} {q : Nat} (h : q ∈ (l.take m).flatten) : q ∈ l.flatten := by
  obtain ⟨x, hx, hq⟩ := List.mem_flatten.1 h
  exact List.mem_flatten.2 ⟨x, List.mem_of_mem_take hx, hq⟩

theorem mem_drop_flatten {m : Nat} {l : List (List Nat)} {q : Nat} (h : q ∈ (l.drop m).flatten) : q ∈ l.flatten := by
  obtain ⟨x, hx, hq⟩ := List.mem_flatten.1 h
  exact List.mem_flatten.2 ⟨x, List.mem_of_mem_drop hx, hq⟩

theorem circ_outs_sub (wr : Nat → Nat) (c : Circ) : ∀ (cur : List (List Nat)), ∀ q ∈ (c.outs wr cur).flatten,
    q ∈ cur.flatten := by
  induction c with
  | ret outs => intro cur q hq; exact mem_pick_flatten hq
  | op w pos k ih =>
    intro cur q hq
    have := ih _ q hq
    rw [List.flatten_append] at this
    rcases List.mem_append.1 this with h | h
    · exact mem_leave_flatten h
    · exact mem_pick_flatten h
  | split p bs k ih =>
    intro cur q hq
    have := ih _ q hq
    rw [List.flatten_append] at this
    rcases List.mem_append.1 this with h | h
    · exact mem_leave_flatten h
    · exact getD_sub_flatten _ _ _ (mem_parts h)
  | join pos k ih =>
    intro cur q hq
    have := ih _ q hq
    rw [List.flatten_append] at this
    rcases List.mem_append.1 this with h | h
    · exact mem_leave_flatten h
    · simp only [List.flatten_cons, List.flatten_nil, List.append_nil] at h
      exact mem_pick_flatten h
  | call f body pos k ihb ih =>
    intro cur q hq
    have := ih _ q hq
    rw [List.flatten_append, List.flatten_append] at this
    rcases List.mem_append.1 this with h | h
    · exact mem_leave_flatten h
    · rcases List.mem_append.1 h with h | h
      · obtain ⟨x, hx, hq⟩ := List.mem_flatten.1 h
        exact mem_pick_flatten (mem_take_flatten (List.mem_flatten.2 ⟨x, List.mem_reverse.1 hx, hq⟩))
      · exact mem_pick_flatten (mem_drop_flatten (ihb _ q h))

theorem circ_acts_sub (wr : Nat → Nat) (c : Circ) : ∀ (cur : List (List Nat)), ∀ a ∈ c.acts wr cur,
    ∀ q ∈ a.qubits, q ∈ cur.flatten := by
  induction c with
  | ret outs => intro cur a ha; exact absurd ha (by simp [Circ.acts])
  | op w pos k ih =>
    intro cur a ha q hq
    rcases List.mem_cons.1 ha with rfl | ha
    · simp only [Spec.Act.qubits, List.nil_append] at hq
      exact mem_pick_flatten hq
    · have := ih _ a ha q hq
      rw [List.flatten_append] at this
      rcases List.mem_append.1 this with h | h
      · exact mem_leave_flatten h
      · exact mem_pick_flatten h
  | split p bs k ih =>
    intro cur a ha q hq
    have := ih _ a ha q hq
    rw [List.flatten_append] at this
    rcases List.mem_append.1 this with h | h
    · exact mem_leave_flatten h
    · exact getD_sub_flatten _ _ _ (mem_parts h)
  | join pos k ih =>
    intro cur a ha q hq
    have := ih _ a ha q hq
    rw [List.flatten_append] at this
    rcases List.mem_append.1 this with h | h
    · exact mem_leave_flatten h
    · simp only [List.flatten_cons, List.flatten_nil, List.append_nil] at h
      exact mem_pick_flatten h
  | call f body pos k ihb ih =>
    intro cur a ha q hq
    rcases List.mem_append.1 ha with ha | ha
    · obtain ⟨b, hb, rfl⟩ := List.mem_map.1 ha
      simp only [Spec.Act.qubits, Act.more, List.append_assoc] at hq
      rcases List.mem_append.1 hq with hq | hq
      · exact mem_pick_flatten (mem_take_flatten hq)
      · exact mem_pick_flatten (mem_drop_flatten (ihb _ b hb q hq))
    · have := ih _ a ha q hq
      rw [List.flatten_append, List.flatten_append] at this
      rcases List.mem_append.1 this with h | h
      · exact mem_leave_flatten h
      · rcases List.mem_append.1 h with h | h
        · obtain ⟨x, hx, hq⟩ := List.mem_flatten.1 h
          exact mem_pick_flatten (mem_take_flatten (List.mem_flatten.2 ⟨x, List.mem_reverse.1 hx, hq⟩))
        · exact mem_pick_flatten (mem_drop_flatten (circ_outs_sub _ _ _ q h))

/-! ## Circuit functions that do not call `f` are not changed by controlling `f` -/

theorem circ_outs_wr {wr wr' : Nat → Nat} (c : Circ) (h : ∀ f ∈ c.calls, wr f = wr' f) (cur : List (List Nat)) :
    c.outs wr cur = c.outs wr' cur := by
  induction c generalizing cur with
  | ret outs => rfl
  | op w pos k ih => exact ih h _
  | split p bs k ih => exact ih h _
  | join pos k ih => exact ih h _
  | call f body pos k ihb ih =>
    have h1 := h f (by simp [Circ.calls])
    simp only [Circ.outs]
    rw [h1, ihb fun g hg => h g (by simp [Circ.calls, hg]), ih fun g hg => h g (by simp [Circ.calls, hg])]

theorem circ_acts_wr {wr wr' : Nat → Nat} (c : Circ) (h : ∀ f ∈ c.calls, wr f = wr' f) (cur : List (List Nat)) :
    c.acts wr cur = c.acts wr' cur := by
  induction c generalizing cur with
  | ret outs => rfl
  | op w pos k ih => simp only [Circ.acts]; rw [ih h]
  | split p bs k ih => exact ih h _
  | join pos k ih => exact ih h _
  | call f body pos k ihb ih =>
    have h1 := h f (by simp [Circ.calls])
    have hb : ∀ g ∈ body.calls, wr g = wr' g := fun g hg => h g (by simp [Circ.calls, hg])
    simp only [Circ.acts]
    rw [h1, ihb hb, circ_outs_wr body hb, ih fun g hg => h g (by simp [Circ.calls, hg])]

theorem circ_fits_wr {wr wr' : Nat → Nat} (c : Circ) (h : ∀ f ∈ c.calls, wr f = wr' f) (cur : List (List Nat))
    (hf : c.Fits wr cur) : c.Fits wr' cur := by
  induction c generalizing cur with
  | ret outs => exact hf
  | op w pos k ih => exact ⟨hf.1, hf.2.1, hf.2.2.1, ih h _ hf.2.2.2⟩
  | split p bs k ih => exact ⟨hf.1, hf.2.1, hf.2.2.1, ih h _ hf.2.2.2⟩
  | join pos k ih => exact ⟨hf.1, hf.2.1, ih h _ hf.2.2⟩
  | call f body pos k ihb ih =>
    have h1 := h f (by simp [Circ.calls])
    have hb : ∀ g ∈ body.calls, wr g = wr' g := fun g hg => h g (by simp [Circ.calls, hg])
    obtain ⟨f1, f2, f3, f4, f5⟩ := hf
    simp only [Circ.Fits]
    rw [← h1, ← circ_outs_wr body hb]
    exact ⟨f1, f2, f3, ihb hb _ f4, ih (fun g hg => h g (by simp [Circ.calls, hg])) _ f5⟩

end QIP
