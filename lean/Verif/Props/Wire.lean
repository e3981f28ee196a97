import Verif.Lemmas.Gates
import Verif.Model.Wire
import Verif.Props.Kron

/-!
# C58, C69: operations on the wire
-/

namespace QIP.Props

open QIP QIP.Spec

/-- C58 (vectors): every vector survives. -/
theorem C58_vector (v : List ℂ) : pbToVec (vecToPb v) = .ok v := by
  simp only [pbToVec, vecToPb, List.length_map, if_true]
  congr 1
  apply List.ext_getElem
  · simp
  · intro i h1 h2
    simp only [List.getElem_zipWith, List.getElem_map]
    rw [mul_comm]
    exact Complex.re_add_im _

/-- C58 (index lists). -/
theorem C58_indices {is : List Nat} (h : ∀ i ∈ is, i < 2 ^ 31) : indicesToPb (.tup is) = .ok is := if_pos h

/-- C58: a matrix whose size fits its qubits survives encoding and decoding, together with its qubits, whatever the
nesting of controls. -/
theorem C58_roundtrip (m : Mat ℂ) {is : List Nat} (hi : ∀ i ∈ is, i < 2 ^ 31) (hl : is.length < 31) (hwf : m.WF)
    (hs : m.shape = (2 ^ is.length, 2 ^ is.length)) :
    ∃ pb, matopToPb (.tup is) m = .ok pb ∧ pbToMatop pb = .ok (is, m) := by
  induction m generalizing is with
  | dense r c d =>
    simp only [Mat.shape, Prod.mk.injEq] at hs
    have hlt : (2 : Nat) ^ is.length < 2 ^ 31 := Nat.pow_lt_pow_right (by norm_num) hl
    refine ⟨.matrix is [r, c] (vecToPb d), ?_, ?_⟩
    · simp only [matopToPb, C58_indices hi, bind, Except.bind]
      rw [if_pos ⟨by omega, by omega⟩]
      rfl
    · simp only [pbToMatop, C58_vector, bind, Except.bind]
      exact if_pos hwf
  | swap k =>
    refine ⟨.swap is, ?_, ?_⟩
    · simp only [matopToPb, C58_indices hi, bind, Except.bind]
      rfl
    · simp only [Mat.shape, Prod.mk.injEq] at hs
      have : 2 * k = is.length := Nat.pow_right_injective (le_refl 2) hs.1
      simp only [pbToMatop]
      rw [show is.length / 2 = k by omega]
  | cmat m ih =>
    simp only [Mat.shape, Prod.mk.injEq] at hs
    rcases is with _ | ⟨q, is⟩
    · simp at hs
    · simp only [List.length_cons, pow_succ] at hs hl
      obtain ⟨pb, h1, h2⟩ := ih (is := is) (fun i h => hi i (by simp [h])) (by omega) hwf
        (by ext <;> simp only <;> omega)
      refine ⟨.controlled (q :: is) pb, ?_, ?_⟩
      · simp only [matopToPb, C58_indices hi, bind, Except.bind, List.tail_cons, h1]
        rfl
      · simp only [pbToMatop, h2, bind, Except.bind]
        rfl

theorem pbToMats_ok (ms : List (List Nat × Mat ℂ)) (ops : List PbOp) (acc : List (Key × Mat ℂ))
    (h : List.Forall₂ (fun m op => pbToMatop op = .ok m) ms ops)
    (hk : (acc.map (·.1) ++ ms.map fun m => Key.tup m.1).Nodup) :
    ops.foldlM (m := Except PyErr) (fun d op => do
      let im ← pbToMatop op
      pure (dictInsert d (.tup im.1) im.2)) acc = .ok (acc ++ ms.map fun m => (Key.tup m.1, m.2)) := by
  induction h generalizing acc with
  | nil => simp; rfl
  | cons h1 h2 ih =>
    rename_i m op ms ops
    rw [List.foldlM_cons]
    simp only [h1, bind, Except.bind, pure, Except.pure]
    rw [dictInsert_new]
    · have := ih (acc ++ [(Key.tup m.1, m.2)]) (by simpa using hk)
      simp only [bind, Except.bind, pure, Except.pure] at this
      rw [this]
      simp
    · intro hmem
      simp only [List.map_cons] at hk
      exact (List.nodup_append.1 hk).2.2 _ hmem _ (List.mem_cons_self ..) rfl

/-- C58 (whole operation): a mapping with tuple keys is rebuilt identically by the worker. -/
theorem C58_mapping {ms : List (List Nat × Mat ℂ)} (hk : (ms.map (·.1)).Nodup)
    (hi : ∀ m ∈ ms, ∀ i ∈ m.1, i < 2 ^ 31) (hl : ∀ m ∈ ms, m.1.length < 31) (hwf : ∀ m ∈ ms, m.2.WF)
    (hs : ∀ m ∈ ms, m.2.shape = (2 ^ m.1.length, 2 ^ m.1.length)) :
    ∃ pb, matsToPb (ms.map fun m => (Key.tup m.1, m.2)) = .ok pb ∧
      pbToMats pb = .ok (ms.map fun m => (Key.tup m.1, m.2)) := by
  have hex : ∀ m : List Nat × Mat ℂ, ∃ pb, m ∈ ms → matopToPb (.tup m.1) m.2 = .ok pb ∧ pbToMatop pb = .ok m := by
    intro m
    by_cases hm : m ∈ ms
    · obtain ⟨pb, h1, h2⟩ := C58_roundtrip m.2 (hi m hm) (hl m hm) (hwf m hm) (hs m hm)
      exact ⟨pb, fun _ => ⟨h1, h2⟩⟩
    · exact ⟨.swap [], fun h => absurd h hm⟩
  choose f hf using hex
  refine ⟨ms.map f, ?_, ?_⟩
  · unfold matsToPb
    rw [List.mapM_map]
    exact mapM_ok _ f ms fun m hm => (hf m hm).1
  · unfold pbToMats
    have h2 : List.Forall₂ (fun m op => pbToMatop op = .ok m) ms (ms.map f) := by
      rw [List.forall₂_map_right_iff, List.forall₂_same]
      exact fun m hm => (hf m hm).2
    have := pbToMats_ok ms (ms.map f) [] h2 (by
      simp only [List.map_nil, List.nil_append]
      have := hk.map (f := Key.tup) fun a b hab => by simpa using hab
      rwa [List.map_map] at this)
    simpa using this

-- a controlled swap and a controlled one-qubit matrix
example : ∃ pb, matopToPb (.tup [2, 0, 1]) (.cmat (.swap 1)) = .ok pb ∧
    pbToMatop pb = .ok ([2, 0, 1], .cmat (.swap 1)) :=
  C58_roundtrip _ (by simp) (by simp) trivial (by simp [Mat.shape])
example : ∃ pb, matsToPb [(Key.tup [2, 0], .cmat (.dense 2 2 [0, 1, 1, 0]))] = .ok pb ∧
    pbToMats pb = .ok [(Key.tup [2, 0], .cmat (.dense 2 2 [0, 1, 1, 0]))] :=
  C58_mapping (ms := [([2, 0], .cmat (.dense 2 2 [0, 1, 1, 0]))]) (by simp) (by simp) (by simp) (by simp [Mat.WF])
    (by simp [Mat.shape])

/-! ## C69 -/

theorem int_wire {mats : List (Key × Mat ℂ)} (hint : ∀ km ∈ mats, ∃ i, km.1 = .int i) (hne : mats ≠ []) :
    matsToPb mats = .error .typeError := by
  obtain ⟨km, rest, e⟩ := List.exists_cons_of_ne_nil hne
  obtain ⟨i, hi⟩ := hint km (by rw [e]; simp)
  rw [e, matsToPb, List.mapM_cons, hi]
  have : ∀ m : Mat ℂ, matopToPb (.int i) m = .error .typeError := by
    intro m
    cases m <;> rfl
  rw [this]
  rfl

theorem perQubit_keys (M : Mat ℂ) {gs : List (List Nat)} (hgs : gs.flatten ≠ []) :
    (∀ km ∈ perQubit M gs, ∃ i, km.1 = .int i) ∧ perQubit M gs ≠ [] := by
  constructor
  · unfold perQubit
    have : ∀ (l : List Nat) (acc : List (Key × Mat ℂ)), (∀ km ∈ acc, ∃ i, km.1 = Key.int i) →
        ∀ km ∈ l.foldl (fun d i => dictInsert d (.int i) M) acc, ∃ i, km.1 = Key.int i := by
      intro l
      induction l with
      | nil => intro acc h; exact h
      | cons i l ih =>
        intro acc h
        apply ih
        intro km hkm
        unfold dictInsert at hkm
        simp only at hkm
        split at hkm
        · obtain ⟨p, hp, rfl⟩ := List.mem_map.1 hkm
          split
          · exact ⟨i, rfl⟩
          · exact h p hp
        · rcases List.mem_append.1 hkm with hh | hh
          · exact h km hh
          · simp only [List.mem_singleton] at hh
            exact ⟨i, by rw [hh]⟩
    exact this gs.flatten [] (by simp)
  · obtain ⟨i, l, e⟩ := List.exists_cons_of_ne_nil hgs
    unfold perQubit
    rw [e, List.foldl_cons]
    have : ∀ (l : List Nat) (acc : List (Key × Mat ℂ)), acc ≠ [] →
        l.foldl (fun d i => dictInsert d (.int i) M) acc ≠ [] := by
      intro l
      induction l with
      | nil => intro acc h; exact h
      | cons i l ih =>
        intro acc h
        apply ih
        unfold dictInsert
        simp only
        split
        · simpa using h
        · simp
    exact this l _ (by simp [dictInsert])

theorem dagger_keys {l l' : List (Key × Mat ℂ)} (h : l.mapM (fun km => do
    let m ← km.2.conj
    let m ← m.T
    pure (km.1, m) : Key × Mat ℂ → Except PyErr (Key × Mat ℂ)) = .ok l') : l'.map Prod.fst = l.map Prod.fst := by
  induction l generalizing l' with
  | nil =>
    simp only [List.mapM_nil, pure, Except.pure] at h
    injection h with h
    rw [← h]
  | cons km l ih =>
    rw [List.mapM_cons] at h
    simp only [bind, Except.bind] at h
    rcases hc : km.2.conj with e | m
    · simp [hc] at h
    rcases ht : m.T with e | m'
    · simp [hc, ht] at h
    simp only [hc, ht, pure, Except.pure] at h
    rcases hr : l.mapM (fun km => do
      let m ← km.2.conj
      let m ← m.T
      pure (km.1, m) : Key × Mat ℂ → Except PyErr (Key × Mat ℂ)) with e | l''
    · simp only [bind, Except.bind, pure, Except.pure] at hr
      simp [hr] at h
    · have := ih hr
      simp only [bind, Except.bind, pure, Except.pure] at hr
      simp only [hr] at h
      injection h with h
      rw [← h]
      simp [this]

/-- C69 (negation of the full property): every built-in one-qubit gate, forwards or backwards, is rejected, because it
describes its matrices by bare ints. -/
theorem C69_one_qubit_false {g : Gate} (hg : ∀ k, g ≠ .swap k) (hg' : ∀ op, g ≠ .c op) {d : Bool} {gs : List (List Nat)}
    (hgs : gs.flatten ≠ []) {mats : List (Key × Mat ℂ)} (hm : g.feedMats d gs = .ok mats) :
    matsToPb mats = .error .typeError := by
  have key : ∀ M : Mat ℂ, g.makemats gs = .ok (perQubit M gs) → matsToPb mats = .error .typeError := by
    intro M hM
    obtain ⟨h1, h2⟩ := perQubit_keys M hgs
    unfold Gate.feedMats at hm
    rw [hM] at hm
    cases d with
    | false =>
      simp only [bind, Except.bind, Bool.false_eq_true, if_false, pure, Except.pure] at hm
      injection hm with hm
      rw [← hm]
      exact int_wire h1 h2
    | true =>
      have hk := dagger_keys (l := perQubit M gs) (l' := mats) hm
      apply int_wire
      · intro km hkm
        have : km.1 ∈ (perQubit M gs).map Prod.fst := by rw [← hk]; exact List.mem_map_of_mem hkm
        obtain ⟨km', h3, h4⟩ := List.mem_map.1 this
        rw [← h4]
        exact h1 km' h3
      · rintro rfl
        exact h2 (List.map_eq_nil_iff.1 hk.symm)
  cases g with
  | swap k => exact absurd rfl (hg k)
  | c op => exact absurd rfl (hg' op)
  | _ => exact key _ rfl

/-- The gates whose matrices are described by tuples: swaps and controlled gates. -/
def tupleGate : Gate → Bool
  | .swap _ => true
  | .c _ => true
  | _ => false

theorem makemats_tuple {n : Nat} {g : Gate} {gs : List (List Nat)} (hg : tupleGate g = true) (hf : Fits g gs)
    (hgs : GroupsOK n gs) {mats : List (Key × Mat ℂ)} (h : GM n g gs mats) :
    ∀ km ∈ mats, ∃ is, km.1 = .tup is := by
  cases g with
  | swap k =>
    obtain ⟨a, b, rfl, _, _⟩ := hf
    have := h.ok
    simp only [Gate.makemats, Except.ok.injEq] at this
    subst this
    intro km hkm
    simp only [List.mem_singleton] at hkm
    exact ⟨a ++ b, by rw [hkm]⟩
  | c op =>
    obtain ⟨q, rest, rfl, hf'⟩ := hf
    have hgs' : GroupsOK n rest := ⟨(List.nodup_append.1 (by simpa using hgs.1 : ([q] ++ rest.flatten).Nodup)).2.1,
      fun x hx => hgs.2 x (by simp [hx])⟩
    obtain ⟨ms, hms⟩ := gm_exists op rest hf' hgs'
    have := (gm_ctrl hgs hms).ok
    rw [h.ok] at this
    injection this with this
    subst this
    intro km hkm
    obtain ⟨x, _, rfl⟩ := List.mem_map.1 hkm
    exact ⟨_, rfl⟩
  | _ => simp [tupleGate] at hg

theorem key_length {n : Nat} (g : Gate) {gs : List (List Nat)} (hf : Fits g gs)
    (hgs : GroupsOK n gs) {mats : List (Key × Mat ℂ)} (h : GM n g gs mats) :
    ∀ km ∈ mats, km.1.qubits.length ≤ gs.flatten.length := by
  have simple : ∀ d, g.makemats gs = .ok (perQubit (.dense 2 2 d) gs) →
      ∀ km ∈ mats, km.1.qubits.length ≤ gs.flatten.length := by
    intro d hd km hkm
    rw [h.ok] at hd
    injection hd with hd
    rw [hd, perQubit_eq _ _ hgs.1] at hkm
    obtain ⟨i, hi, rfl⟩ := List.mem_map.1 hkm
    exact List.length_pos_of_mem hi
  induction g generalizing gs mats with
  | swap k =>
    obtain ⟨a, b, rfl, _, _⟩ := hf
    have := h.ok
    simp only [Gate.makemats, Except.ok.injEq] at this
    subst this
    intro km hkm
    simp only [List.mem_singleton] at hkm
    subst hkm
    simp [Key.qubits]
  | c op ih =>
    clear simple
    obtain ⟨q, rest, rfl, hf'⟩ := hf
    have hgs' : GroupsOK n rest := ⟨(List.nodup_append.1 (by simpa using hgs.1 : ([q] ++ rest.flatten).Nodup)).2.1,
      fun x hx => hgs.2 x (by simp [hx])⟩
    obtain ⟨ms, hms⟩ := gm_exists op rest hf' hgs'
    have e := (gm_ctrl hgs hms).ok
    rw [h.ok] at e
    injection e with e
    subst e
    intro km hkm
    obtain ⟨x, hx, rfl⟩ := List.mem_map.1 hkm
    have := ih hf' hgs' hms (by
      intro d hd km hkm
      rw [hms.ok] at hd
      injection hd with hd
      rw [hd, perQubit_eq _ _ hgs'.1] at hkm
      obtain ⟨i, hi, rfl⟩ := List.mem_map.1 hkm
      exact List.length_pos_of_mem hi) x hx
    simp only [Key.qubits, List.length_append, List.flatten_cons, List.length_cons, List.length_nil]
    simp only [Key.qubits] at this
    omega
  | _ => exact simple _ rfl

/-- C69 (partial: swaps and controlled gates only): the message is accepted and the worker rebuilds exactly the
matrices of the gate. -/
theorem C69_tuple_gates_partial {n : Nat} (hn : n ≤ 30) {g : Gate} {gs : List (List Nat)} (hg : tupleGate g = true)
    (hf : Fits g gs) (hgs : GroupsOK n gs) :
    ∃ mats pb, g.feedMats false gs = .ok mats ∧ matsToPb mats = .ok pb ∧ pbToMats pb = .ok mats := by
  obtain ⟨mats, h⟩ := gm_exists g gs hf hgs
  have ht := makemats_tuple hg hf hgs h
  have e : mats = (mats.map fun km => (km.1.qubits, km.2)).map fun m => (Key.tup m.1, m.2) := by
    rw [List.map_map]
    conv_lhs => rw [← List.map_id mats]
    apply List.map_congr_left
    intro km hkm
    obtain ⟨is, h⟩ := ht km hkm
    rcases km with ⟨k, m⟩
    simp only at h
    subst h
    rfl
  have hfl : gs.flatten.length ≤ n := by
    have := (hgs.1.subperm fun q hq => List.mem_range.2 (hgs.2 q hq)).length_le
    simpa using this
  have hlen : ∀ km ∈ mats, km.1.qubits.length ≤ 30 := fun km hkm => by
    have := key_length g hf hgs h km hkm
    omega
  obtain ⟨pb, h1, h2⟩ := C58_mapping (ms := mats.map fun km => (km.1.qubits, km.2))
    (by rw [List.map_map]; exact h.keys)
    (by
      intro m hm i hi
      obtain ⟨km, hkm, rfl⟩ := List.mem_map.1 hm
      have := hgs.2 i (h.sub km hkm i hi)
      omega)
    (by
      intro m hm
      obtain ⟨km, hkm, rfl⟩ := List.mem_map.1 hm
      have := hlen km hkm
      simp only
      omega)
    (by
      intro m hm
      obtain ⟨km, hkm, rfl⟩ := List.mem_map.1 hm
      exact h.wf km hkm)
    (by
      intro m hm
      obtain ⟨km, hkm, rfl⟩ := List.mem_map.1 hm
      exact h.shapes km hkm)
  rw [← e] at h1 h2
  refine ⟨mats, pb, ?_, h1, h2⟩
  unfold Gate.feedMats
  simp [h.ok, bind, Except.bind, pure, Except.pure]

-- a controlled H is accepted, a plain H is not
example : ∃ mats pb, (Gate.c .h).feedMats false [[1], [0]] = .ok mats ∧ matsToPb mats = .ok pb ∧ pbToMats pb = .ok mats :=
  C69_tuple_gates_partial (n := 2) (by norm_num) rfl ⟨1, [[0]], rfl, by simp [Fits]⟩ ⟨by decide, by simp⟩
example : ∃ mats, Gate.h.feedMats false [[0]] = .ok mats ∧ matsToPb mats = .error .typeError :=
  ⟨_, rfl, C69_one_qubit_false (d := false) (g := .h) (by simp) (by simp) (gs := [[0]]) (by simp) rfl⟩

end QIP.Props
