import Mathlib.Data.List.Basic
import Mathlib.Tactic.Linarith
import Mathlib.Tactic.Ring
import Verif.Model.Frame
import Verif.Spec.Frame

/-!
# C57: message framing
-/

namespace QIP.Props

open QIP QIP.Spec

/-- Everything the peer writes for a list of messages. -/
def stream (msgs : List Bytes) : Except PyErr Bytes := do
  let fs ← msgs.mapM frameSend
  pure fs.flatten

theorem packI_ok {k : Nat} (hk : k < 2 ^ 31) :
    ∃ h, packI k = .ok h ∧ h.length = 4 ∧ unpackI h = k := by
  refine ⟨_, if_pos hk, rfl, ?_⟩
  have e : (((0 * 256 + k / 2 ^ 24 % 256) * 256 + k / 2 ^ 16 % 256) * 256 + k / 2 ^ 8 % 256) * 256 + k % 256 = k := by
    norm_num at hk ⊢
    omega
  have e' : [k / 2 ^ 24 % 256, k / 2 ^ 16 % 256, k / 2 ^ 8 % 256, k % 256].foldl
      (fun (a b : Nat) => a * 256 + b) 0 = k := e
  unfold unpackI
  rw [e']
  exact if_pos hk

theorem frameSend_ok {m : Bytes} (hm : m.length < 2 ^ 31) :
    ∃ h, frameSend m = .ok (h ++ m) ∧ h.length = 4 ∧ unpackI h = m.length := by
  obtain ⟨h, e, hl, hu⟩ := packI_ok hm
  refine ⟨h, ?_, hl, hu⟩
  simp only [frameSend, e]
  rfl

theorem stream_cons {m : Bytes} {ms : List Bytes} {bs : Bytes} (hm : m.length < 2 ^ 31) (h : stream (m :: ms) = .ok bs) :
    ∃ hd bs', bs = hd ++ m ++ bs' ∧ hd.length = 4 ∧ unpackI hd = m.length ∧ stream ms = .ok bs' := by
  obtain ⟨hd, e, hl, hu⟩ := frameSend_ok hm
  simp only [stream, List.mapM_cons, e] at h ⊢
  rcases hms : ms.mapM frameSend with er | fs
  · rw [hms] at h; cases h
  · rw [hms] at h
    refine ⟨hd, fs.flatten, ?_, hl, hu, rfl⟩
    have : (Except.ok ((hd ++ m) :: fs).flatten : Except PyErr Bytes) = .ok bs := h
    injection this with this
    rw [← this]; simp

/-- With the length known, the loop reads until the message is complete. -/
theorem recvLoop_known (total msg : Bytes) {e : Nat} (he : (e : Int) ≠ maxsize) (chunks : List Bytes) (hne : ∀ c ∈ chunks, c ≠ [])
    (hlen : e ≤ msg.length + chunks.flatten.length) :
    ∃ k, k ≤ chunks.length ∧ recvLoop total msg e chunks = .got ((msg ++ chunks.flatten).take e)
        ((msg ++ (chunks.take k).flatten).drop e) (chunks.drop k) ∧
      e ≤ (msg ++ (chunks.take k).flatten).length := by
  induction chunks generalizing total msg with
  | nil =>
    refine ⟨0, le_rfl, ?_, by simpa using hlen⟩
    have : ¬ ((msg.length : Int) < e) := by simp at hlen; omega
    simp [recvLoop, this, pyTake, pyDrop]
  | cons c cs ih =>
    by_cases hlt : (msg.length : Int) < e
    · obtain ⟨k, hk, hr, hge⟩ := ih (total ++ c) (msg ++ c) (fun x hx => hne x (by simp [hx])) (by
        simp at hlen ⊢; omega)
      refine ⟨k + 1, by simpa using hk, ?_, by simpa using hge⟩
      have hc : c.length ≠ 0 := by
        have := hne c (by simp)
        simpa using this
      rw [recvLoop, if_pos hlt, if_neg hc, if_neg (fun h => he h.1), hr]
      simp
    · refine ⟨0, Nat.zero_le _, ?_, by simp; omega⟩
      rw [recvLoop, if_neg hlt]
      have : e ≤ msg.length := by omega
      simp [pyTake, pyDrop, List.take_append_of_le_length this]

/-- One call of `recv` on a stream that begins with a message, if the next chunk after the held bytes brings more
than the header. -/
theorem frameRecv_one {last : Bytes} {chunks : List Bytes} {hd m bs : Bytes} (hl : hd.length = 4)
    (hu : unpackI hd = m.length) (hm : m.length < 2 ^ 31) (hne : ∀ c ∈ chunks, c ≠ [])
    (he : last ++ chunks.flatten = hd ++ m ++ bs)
    (hfirst : last.length ≤ 4 → ∃ c cs, chunks = c :: cs ∧ 4 < last.length + c.length) :
    ∃ k last', k ≤ chunks.length ∧ frameRecv last chunks = .got m last' (chunks.drop k) ∧
      last' ++ (chunks.drop k).flatten = bs ∧
      last'.length + 4 + m.length = last.length + (chunks.take k).flatten.length := by
  have hmax : ((m.length : Nat) : Int) ≠ maxsize := by
    unfold maxsize; norm_num at hm ⊢; omega
  have main : ∀ (tot : Bytes) (cs : List Bytes), (∀ c ∈ cs, c ≠ []) → 4 < tot.length → tot ++ cs.flatten = hd ++ m ++ bs →
      ∃ k last', k ≤ cs.length ∧ recvLoop tot (tot.drop 4) (unpackI (tot.take 4)) cs = .got m last' (cs.drop k) ∧
        last' ++ (cs.drop k).flatten = bs ∧
        last'.length + 4 + m.length = tot.length + (cs.take k).flatten.length := by
    intro tot cs hcs h4 htot
    have ht : tot.take 4 = hd := by
      have := congrArg (List.take 4) htot
      rw [List.take_append_of_le_length (by omega), List.append_assoc, List.take_append_of_le_length (by omega),
        List.take_of_length_le (l := hd) (by omega)] at this
      exact this
    have hd' : tot.drop 4 ++ cs.flatten = m ++ bs := by
      have := congrArg (List.drop 4) htot
      rw [List.drop_append_of_le_length (by omega), List.append_assoc, ← hl, List.drop_left] at this
      rw [hl] at this
      exact this
    have hlen := congrArg List.length hd'
    simp only [List.length_append] at hlen
    obtain ⟨k, hk, hr, hge⟩ := recvLoop_known tot (tot.drop 4) hmax cs hcs (by omega)
    refine ⟨k, _, hk, by rw [ht, hu, hr, hd', List.take_left], ?_, ?_⟩
    · rw [← List.drop_append_of_le_length hge, List.append_assoc, ← List.flatten_append, List.take_append_drop, hd',
        List.drop_left]
    · simp only [List.length_append, List.length_drop] at hge ⊢
      omega
  by_cases h4 : last.length > 4
  · obtain ⟨k, last', hk, hr, h1, h2⟩ := main last chunks hne h4 he
    exact ⟨k, last', hk, by rw [frameRecv, if_pos h4, hr], h1, h2⟩
  · obtain ⟨c, cs, rfl, hc⟩ := hfirst (by omega)
    obtain ⟨k, last', hk, hr, h1, h2⟩ := main (last ++ c) cs (fun x hx => hne x (by simp [hx])) (by simp; omega)
      (by simpa using he)
    refine ⟨k + 1, last', by simpa using hk, ?_, by simpa using h1, by simp at h2 ⊢; omega⟩
    have hc0 : c.length ≠ 0 := by
      have := hne c (by simp)
      simpa using this
    rw [frameRecv, if_neg h4, recvLoop, if_pos (by unfold maxsize; norm_num), if_neg hc0,
      if_pos ⟨rfl, by simp; omega⟩, List.nil_append, hr]
    simp

/-- Invariant form of the chunking condition, the chunks starting at position `o`. -/
def NHC (o : Nat) (msgs chunks : List (List Nat)) : Prop :=
  ∀ pre c post, chunks = pre ++ c :: post → ∀ ms₁ m ms₂, msgs = ms₁ ++ m :: ms₂ →
    ¬ (streamLen ms₁ ≤ o + pre.flatten.length ∧ o + pre.flatten.length + c.length ≤ streamLen ms₁ + 4)

theorem recvMany_ok (msgs : List Bytes) (hlen : ∀ m ∈ msgs, m.length < 2 ^ 31)
    (hlast : ∀ (h : msgs ≠ []), msgs.getLast h ≠ []) (last : Bytes) (chunks : List Bytes) (hne : ∀ c ∈ chunks, c ≠ []) {bs : Bytes}
    (hs : stream msgs = .ok bs) (he : last ++ chunks.flatten = bs) (hc : NHC last.length msgs chunks) :
    recvMany last chunks msgs.length = (msgs, .got [] [] []) := by
  induction msgs generalizing last chunks bs with
  | nil =>
    have : bs = [] := by
      have : (Except.ok [] : Except PyErr Bytes) = .ok bs := hs
      injection this with this; exact this.symm
    subst this
    have h1 : last = [] ∧ chunks.flatten = [] := by simpa using he
    have h2 : chunks = [] := by
      rcases chunks with _ | ⟨c, cs⟩
      · rfl
      · exact absurd (by have := h1.2; simp at this; exact this.1) (hne c (by simp))
    simp [recvMany, h1.1, h2]
  | cons m ms ih =>
    have hm := hlen m (by simp)
    obtain ⟨hd, bs', rfl, hl, hu, hs'⟩ := stream_cons hm hs
    -- more than the header remains
    have hmore : 0 < m.length + bs'.length := by
      rcases ms with _ | ⟨m', ms'⟩
      · have := hlast (by simp)
        simp only [List.getLast_singleton] at this
        have := List.length_pos_of_ne_nil this
        omega
      · obtain ⟨hd', bs'', rfl, hl', _, _⟩ := stream_cons (hlen m' (by simp)) hs'
        simp; omega
    have hfirst : last.length ≤ 4 → ∃ c cs, chunks = c :: cs ∧ 4 < last.length + c.length := by
      intro h4
      have hlen' := congrArg List.length he
      simp only [List.length_append] at hlen'
      rcases chunks with _ | ⟨c, cs⟩
      · simp at hlen'; omega
      · refine ⟨c, cs, rfl, ?_⟩
        have := hc [] c cs rfl [] m ms rfl
        simp only [streamLen, List.map_nil, List.sum_nil, List.flatten_nil, List.length_nil] at this
        omega
    obtain ⟨k, last', hk, hr, h1, h2⟩ := frameRecv_one hl hu hm hne he hfirst
    simp only [List.length_cons, recvMany, hr]
    rw [ih (fun x hx => hlen x (by simp [hx])) (fun h => by have := hlast (by simp); rwa [List.getLast_cons h] at this)
      last' (chunks.drop k) (fun c hx => hne c (List.mem_of_mem_drop hx)) hs' h1 ?_]
    intro pre c post hp ms₁ m' ms₂ hms ⟨ha, hb⟩
    refine hc (chunks.take k ++ pre) c post (by rw [List.append_assoc, ← hp, List.take_append_drop]) (m :: ms₁) m' ms₂
      (by rw [hms]; rfl) ⟨?_, ?_⟩
    · simp only [streamLen, List.map_cons, List.sum_cons, List.flatten_append, List.length_append] at ha ⊢
      omega
    · simp only [streamLen, List.map_cons, List.sum_cons, List.flatten_append, List.length_append] at hb ⊢
      omega

/-- C57 (partial: no chunk consists of header bytes of one message only, and the last message is not empty): the
receiver obtains exactly the sent messages, in order, and afterwards nothing is left. -/
theorem C57_framing_partial (msgs : List Bytes) (hlen : ∀ m ∈ msgs, m.length < 2 ^ 31)
    (hlast : ∀ (h : msgs ≠ []), msgs.getLast h ≠ []) :
    ∃ bs, stream msgs = .ok bs ∧ ∀ chunks : List Bytes, (∀ c ∈ chunks, c ≠ []) → chunks.flatten = bs →
      NoHeaderChunk msgs chunks → recvMany [] chunks msgs.length = (msgs, .got [] [] []) := by
  have hs : ∃ bs, stream msgs = .ok bs := by
    clear hlast
    induction msgs with
    | nil => exact ⟨[], rfl⟩
    | cons m ms ih =>
      obtain ⟨bs, hb⟩ := ih (fun x hx => hlen x (by simp [hx]))
      obtain ⟨hd, e, _, _⟩ := frameSend_ok (hlen m (by simp))
      simp only [stream, List.mapM_cons, e] at hb ⊢
      rcases hms : ms.mapM frameSend with er | fs
      · rw [hms] at hb; cases hb
      · exact ⟨_, rfl⟩
  obtain ⟨bs, hb⟩ := hs
  refine ⟨bs, hb, fun chunks hne he hc => recvMany_ok msgs hlen hlast [] chunks hne hb (by simpa using he) ?_⟩
  intro pre c post hp ms₁ m ms₂ hms
  simpa using hc pre c post hp ms₁ m ms₂ hms

/-- C57 (negation of the full property): when the first chunk of a connection consists of `1 ≤ k ≤ 4` header bytes,
the receiver puts these bytes in front of the message and cuts the message at the end. -/
theorem C57_header_chunk_wrong {m : Bytes} (hm : m.length < 2 ^ 31) (h0 : m ≠ []) {f : Bytes} (hf : frameSend m = .ok f)
    {k : Nat} (hk : 0 < k) (hk4 : k ≤ 4) :
    ∃ last, frameRecv [] [f.take k, f.drop k] = .got ((f.take k ++ m).take m.length) last [] := by
  obtain ⟨hd, e, hl, hu⟩ := frameSend_ok hm
  have hpos : 0 < m.length := List.length_pos_of_ne_nil h0
  rw [e] at hf
  injection hf with hf
  subst hf
  have hlen : (hd ++ m).length = 4 + m.length := by simp [hl]
  have htl : ((hd ++ m).take k).length = k := by simp [hl]; omega
  have hmax : ((m.length : Nat) : Int) ≠ maxsize := by
    unfold maxsize; norm_num at hm ⊢; omega
  refine ⟨pyDrop ((hd ++ m).take k ++ m) m.length, ?_⟩
  rw [frameRecv, if_neg (by simp), recvLoop, if_pos (by unfold maxsize; norm_num), if_neg (by rw [htl]; omega),
    if_neg (by rw [List.nil_append, htl]; omega), recvLoop,
    if_pos (by rw [List.nil_append, htl]; unfold maxsize; omega),
    if_neg (by rw [List.length_drop, hlen]; omega), List.nil_append, List.take_append_drop,
    if_pos ⟨rfl, by omega⟩, List.take_left' hl, List.drop_left' hl, hu]
  rw [recvLoop, if_neg (by simp; omega), pyTake, if_pos (by omega)]
  rfl

/-- In particular every message of less than 16 MB whose first byte is not 0 arrives changed when the first header byte
is delivered alone. -/
theorem C57_framing_false {m : Bytes} (hm : m.length < 2 ^ 24) {b : Nat} {t : Bytes} (hb : m = b :: t) (h0 : b ≠ 0)
    {f : Bytes} (hf : frameSend m = .ok f) :
    ∃ m' last, frameRecv [] [f.take 1, f.drop 1] = .got m' last [] ∧ m' ≠ m := by
  obtain ⟨last, h⟩ := C57_header_chunk_wrong (by omega) (by rw [hb]; simp) hf (k := 1) (by omega) (by omega)
  refine ⟨_, last, h, ?_⟩
  have e : f.take 1 = [0] := by
    have : frameSend m = .ok ([m.length / 2 ^ 24 % 256, m.length / 2 ^ 16 % 256, m.length / 2 ^ 8 % 256,
        m.length % 256] ++ m) := by
      simp only [frameSend, packI, if_pos (show m.length < 2 ^ 31 by omega)]
      rfl
    rw [this] at hf
    injection hf with hf
    rw [← hf]
    have : m.length / 2 ^ 24 = 0 := Nat.div_eq_of_lt hm
    rw [this]
    rfl
  rw [e, hb]
  intro h
  simp only [List.cons_append, List.nil_append, List.length_cons, List.take_succ_cons, List.cons.injEq] at h
  exact h0 h.1.symm

/-- C57 (negation, empty messages): an empty message is not recognised before further data arrives. -/
theorem C57_empty_waits {f : Bytes} (hf : frameSend [] = .ok f) : frameRecv [] [f] = .blocked := by
  have : f = [0, 0, 0, 0] := by
    have e : frameSend [] = .ok [0, 0, 0, 0] := rfl
    rw [e] at hf; injection hf with hf; exact hf.symm
  subst this
  decide

-- two messages, one of them empty, cut inside the second header and inside the last message
example : recvMany [] [[0, 0, 0, 0, 0], [0, 0, 2, 7], [8]] 2 = ([[], [7, 8]], .got [] [] []) := by
  obtain ⟨bs, hb, h⟩ := C57_framing_partial [[], [7, 8]] (by simp) (by simp)
  have : bs = [0, 0, 0, 0, 0, 0, 0, 2, 7, 8] := by
    have e : stream [[], [7, 8]] = .ok [0, 0, 0, 0, 0, 0, 0, 2, 7, 8] := rfl
    rw [e] at hb; injection hb with hb; exact hb.symm
  subst this
  refine h _ (by simp) rfl ?_
  intro pre c post hp ms₁ m ms₂ hms
  have hp' : pre = [] ∨ pre = [[0, 0, 0, 0, 0]] ∨ pre = [[0, 0, 0, 0, 0], [0, 0, 2, 7]] := by
    rcases pre with _ | ⟨a, _ | ⟨b, _ | ⟨d, _⟩⟩⟩ <;> simp_all
  have hms' : ms₁ = [] ∨ ms₁ = [[]] := by
    rcases ms₁ with _ | ⟨a, _ | ⟨b, _⟩⟩ <;> simp_all
  rcases hp' with rfl | rfl | rfl <;> simp at hp <;> rcases hms' with rfl | rfl <;> simp [streamLen, ← hp.1]
example : frameRecv [] [[0], [0, 0, 2, 7, 8]] = .got [0, 7] [8] [] := by decide
example : ∃ m' last, frameRecv [] [[0], [0, 0, 2, 7, 8]] = .got m' last [] ∧ m' ≠ [7, 8] :=
  C57_framing_false (b := 7) (t := [8]) (by decide) rfl (by decide) rfl

end QIP.Props
