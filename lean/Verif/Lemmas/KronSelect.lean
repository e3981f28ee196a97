import Verif.Lemmas.Kron

/-! # Closed form of `kronselect_dot` -/

namespace QIP

open Spec Finset

variable {R : Type}

/-- The normalised mapping when no two keys collide. -/
def normed (mats : List (Key × Mat R)) : List (List Nat × Mat R) := mats.map fun km => (km.1.qubits, km.2)

/-- The shape condition of `kronselect_dot`. -/
def ShapesOK (mats : List (Key × Mat R)) : Prop :=
  ∀ km ∈ mats, km.2.shape = (2 ^ km.1.qubits.length, 2 ^ km.1.qubits.length)

theorem dictInsert_new {α β : Type} [DecidableEq α] (d : List (α × β)) (k : α) (v : β) (h : k ∉ d.map (·.1)) :
    dictInsert d k v = d ++ [(k, v)] := by
  unfold dictInsert
  rw [if_neg]
  simp only [List.any_eq_true, decide_eq_true_eq, not_exists, not_and]
  intro x hx hk
  exact h (hk ▸ List.mem_map_of_mem hx)

/-- One iteration of `normMats`. -/
def normStep (new : List (List Nat × Mat R)) (km : Key × Mat R) : Except PyErr (List (List Nat × Mat R)) :=
  if 2 ^ km.1.qubits.length ≠ km.2.shape.1 ∨ 2 ^ km.1.qubits.length ≠ km.2.shape.2 then .error .exception
  else .ok (dictInsert new km.1.qubits km.2)

theorem normMats_eq_foldlM (mats : List (Key × Mat R)) : normMats mats = mats.foldlM normStep [] := by
  unfold normMats
  congr 1

theorem normMats_ok (mats : List (Key × Mat R)) (hk : (mats.map fun km => km.1.qubits).Nodup)
    (hs : ShapesOK mats) : normMats mats = .ok (normed mats) := by
  rw [normMats_eq_foldlM]
  have key : ∀ (l : List (Key × Mat R)) (acc : List (List Nat × Mat R)),
      (acc.map (·.1) ++ l.map fun km => km.1.qubits).Nodup → ShapesOK l →
      l.foldlM normStep acc = .ok (acc ++ normed l) := by
    intro l
    induction l with
    | nil => intro acc _ _; simp [normed]; rfl
    | cons km l ih =>
      intro acc hnd hsh
      have h1 : normStep acc km = .ok (acc ++ [(km.1.qubits, km.2)]) := by
        have := hsh km (by simp)
        unfold normStep
        rw [if_neg (by rw [this]; simp), dictInsert_new]
        intro hmem
        simp only [List.map_cons] at hnd
        have := (List.nodup_append.1 hnd).2.2 _ hmem _ (List.mem_cons_self ..)
        exact this rfl
      rw [List.foldlM_cons, h1]
      change l.foldlM normStep (acc ++ [(km.1.qubits, km.2)]) = _
      rw [ih]
      · simp [normed]
      · simpa using hnd
      · exact fun x hx => hsh x (by simp [hx])
  simpa using key mats [] (by simpa using hk) hs

theorem normMats_bad (mats : List (Key × Mat R)) (hs : ¬ ShapesOK mats) : normMats mats = .error .exception := by
  rw [normMats_eq_foldlM]
  have key : ∀ (l : List (Key × Mat R)) (acc : List (List Nat × Mat R)), ¬ ShapesOK l →
      l.foldlM normStep acc = .error .exception := by
    intro l
    induction l with
    | nil => intro acc h; exact absurd (by intro x hx; simp at hx) h
    | cons km l ih =>
      intro acc h
      rw [List.foldlM_cons]
      by_cases hk : km.2.shape = (2 ^ km.1.qubits.length, 2 ^ km.1.qubits.length)
      · have h1 : normStep acc km = .ok (dictInsert acc km.1.qubits km.2) := by
          unfold normStep; rw [if_neg (by rw [hk]; simp)]
        rw [h1]
        apply ih
        intro hl
        apply h
        intro x hx
        rcases List.mem_cons.1 hx with rfl | hx
        · exact hk
        · exact hl x hx
      · have h1 : normStep acc km = .error .exception := by
          unfold normStep
          rw [if_pos]
          by_contra hc
          push Not at hc
          exact hk (Prod.ext hc.1.symm hc.2.symm)
        rw [h1]; rfl
  exact key mats [] hs

theorem dictInsert_mem {α β : Type} [DecidableEq α] {d : List (α × β)} {k : α} {v : β} {p : α × β}
    (h : p ∈ dictInsert d k v) : p ∈ d ∨ p = (k, v) := by
  unfold dictInsert at h
  split at h
  · obtain ⟨x, hx, rfl⟩ := List.mem_map.1 h
    split
    · exact Or.inr rfl
    · exact Or.inl hx
  · simpa using h

/-- Whatever the keys, the normalised mapping only holds given matrices. -/
theorem normMats_mem {mats : List (Key × Mat R)} {new : List (List Nat × Mat R)} (h : normMats mats = .ok new) :
    ∀ gm ∈ new, ∃ km ∈ mats, gm = (km.1.qubits, km.2) := by
  rw [normMats_eq_foldlM] at h
  have key : ∀ (l : List (Key × Mat R)) (acc : List (List Nat × Mat R)),
      l.foldlM normStep acc = .ok new → ∀ gm ∈ new, gm ∈ acc ∨ ∃ km ∈ l, gm = (km.1.qubits, km.2) := by
    intro l
    induction l with
    | nil => intro acc h gm hgm; cases h; exact Or.inl hgm
    | cons km l ih =>
      intro acc h gm hgm
      rw [List.foldlM_cons] at h
      unfold normStep at h
      split at h
      · cases h
      · rcases ih _ h gm hgm with h1 | ⟨x, hx, h1⟩
        · rcases dictInsert_mem h1 with h2 | h2
          · exact Or.inl h2
          · exact Or.inr ⟨km, by simp, h2⟩
        · exact Or.inr ⟨x, by simp [hx], h1⟩
  intro gm hgm
  rcases key mats [] h gm hgm with h1 | h1
  · simp at h1
  · exact h1

theorem validMats_of_norm {mats : List (Key × Mat R)} {new : List (List Nat × Mat R)} {n : Nat}
    (h : normMats mats = .ok new) (hq : ∀ km ∈ mats, ∀ q ∈ km.1.qubits, q < n) (hwf : ∀ km ∈ mats, km.2.WF) :
    ValidMats n new := by
  have hs : ShapesOK mats := by
    by_contra hs
    rw [normMats_bad mats hs] at h
    cases h
  intro gm hgm
  obtain ⟨km, hkm, rfl⟩ := normMats_mem h gm hgm
  exact ⟨hq km hkm, hwf km hkm, hs km hkm⟩

end QIP

namespace QIP

open Spec Finset

variable {R : Type}

/-- The operator a `mats` mapping stands for (specification). -/
abbrev opsOf [CommSemiring R] (mats : List (Key × Mat R)) : List (List Nat × (Nat → Nat → R)) :=
  mats.map fun km => (km.1.qubits, matEntry km.2)

/-- What a call of `kronselect_dot` must satisfy to be meaningful: distinct tuple keys (a dict), matrices of the right
shape, indices in range, vectors inside the `2**n` range; numpy arrays have as many entries as their shape says. -/
structure CallOK (n : Nat) (mats : List (Key × Mat R)) (vec out : List R) (inOff outOff : Nat) : Prop where
  keys : (mats.map fun km => km.1.qubits).Nodup
  shapes : ∀ km ∈ mats, km.2.shape = (2 ^ km.1.qubits.length, 2 ^ km.1.qubits.length)
  range : ∀ km ∈ mats, ∀ q ∈ km.1.qubits, q < n
  wf : ∀ km ∈ mats, km.2.WF
  input : vec.length + inOff ≤ 2 ^ n
  output : out.length + outOff ≤ 2 ^ n

/-- What the compiled kernel needs in addition: a schedule that runs every output row exactly once, and index groups
that fit a two-dimensional array. -/
def ImplOK (mats : List (Key × Mat R)) (out : List R) : DotImpl → Prop
  | .python => True
  | .cython sched => sched.Perm (List.range out.length) ∧ mats ≠ [] ∧
      ∀ km ∈ mats, ∀ km' ∈ mats, km.1.qubits.length = km'.1.qubits.length

theorem denote_normed [CommSemiring R] (mats : List (Key × Mat R)) :
    denote (normed mats) = mats.map fun km => (km.1.qubits, matEntry km.2) := by
  simp [denote, normed, List.map_map, Function.comp_def]

theorem validMats_normed {n : Nat} {mats : List (Key × Mat R)} {vec out : List R} {inOff outOff : Nat}
    (h : CallOK n mats vec out inOff outOff) : ValidMats n (normed mats) := by
  intro gm hgm
  obtain ⟨km, hkm, rfl⟩ := List.mem_map.1 hgm
  exact ⟨h.range km hkm, h.wf km hkm, h.shapes km hkm⟩

theorem kronselectDot_eq [CommSemiring R] [DecidableEq R] {n : Nat} {mats : List (Key × Mat R)} {vec out : List R}
    {inOff outOff : Nat} (h : CallOK n mats vec out inOff outOff) {impl : DotImpl} (hi : ImplOK mats out impl) :
    kronselectDot mats vec n out inOff outOff impl
      = .ok ((List.range out.length).map fun o =>
          kronApply n (mats.map fun km => (km.1.qubits, matEntry km.2)) (sliceAt inOff vec) (o + outOff)) := by
  have hv := validMats_normed h
  unfold kronselectDot
  rw [if_neg (by have := h.input; omega), if_neg (by have := h.output; omega), normMats_ok mats h.keys h.shapes]
  cases impl with
  | python =>
    simp only [bind, Except.bind]
    rw [dotLoop_eq (normed mats) hv, denote_normed]
  | cython sched =>
    simp only [bind, Except.bind]
    rw [if_neg, cdotLoop_eq sched (normed mats) hv vec out inOff outOff h.output hi.1, denote_normed]
    rintro (h1 | ⟨gm, hgm, gm', hgm', h1⟩)
    · apply hi.2.1
      simpa [normed] using h1
    · obtain ⟨km, hkm, rfl⟩ := List.mem_map.1 hgm
      obtain ⟨km', hkm', rfl⟩ := List.mem_map.1 hgm'
      exact h1 (hi.2.2 km hkm km' hkm')

end QIP
