import Verif.Model.Accept
import Verif.Spec.Accept
import Verif.Props.Locks
import Mathlib.Data.List.Induction
import Mathlib.Data.List.Forall2

/-!
# C104: accepting connections
-/

namespace QIP.Props

open QIP QIP.Spec

theorem frames_cons (m : List Nat) (ms : List (List Nat)) : frames (m :: ms) = frames [m] ++ frames ms := by
  simp [frames]

theorem stream_frames {msgs : List Bytes} (h : ∀ m ∈ msgs, m.length < 2 ^ 31) : stream msgs = .ok (frames msgs) := by
  induction msgs with
  | nil => rfl
  | cons m ms ih =>
    have hm := h m (by simp)
    have h1 : frameSend m = .ok (frames [m]) := by
      have : m.length / 2 ^ 24 % 256 = m.length / 2 ^ 24 := Nat.mod_eq_of_lt (by omega)
      simp only [frameSend, packI, if_pos hm, bind, Except.bind, pure, Except.pure, frames, this]
      simp
    have := stream_append (stream_one h1) (ih fun m hm => h m (by simp [hm]))
    rw [frames_cons]
    exact this

/-- The first message of a peer is received, and what has been read of the following ones is kept. -/
theorem recv_first {chunks : List Bytes} {m : Bytes} {ms : List Bytes} (h : Sends chunks (m :: ms)) :
    ∃ last rest, frameRecv [] chunks = .got m last rest ∧ recvMany last rest ms.length = (ms, .got [] [] []) := by
  obtain ⟨bs, h1, h2⟩ := C57_framing_partial (m :: ms) h.short h.last
  rw [stream_frames h.short] at h1
  injection h1 with h1
  have h3 := h2 chunks h.chunk (h.bytes.trans h1) h.header
  rw [List.length_cons, recvMany] at h3
  rcases hf : frameRecv [] chunks with ⟨m1, l1, c1⟩ | _ | _
  · rw [hf] at h3
    simp only [Prod.mk.injEq, List.cons.injEq] at h3
    obtain ⟨⟨rfl, h4⟩, h5⟩ := h3
    exact ⟨l1, c1, rfl, Prod.ext h4 h5⟩
  · rw [hf] at h3; simp at h3
  · rw [hf] at h3; simp at h3

theorem recv_breaks {chunks : List Bytes} (h : Breaks chunks) : frameRecv [] chunks = .ioError := by
  obtain ⟨cs, rest, rfl, hne, h⟩ := h
  have short : ∀ (total msg : Bytes), total.length + cs.flatten.length ≤ 4 → msg.length + cs.flatten.length ≤ 4 →
      recvLoop total msg maxsize (cs ++ [] :: rest) = .ioError := by
    clear h
    induction cs with
    | nil =>
      intro total msg h1 h2
      simp only [List.flatten_nil, List.length_nil] at h1 h2
      rw [List.nil_append, recvLoop, if_pos (by unfold maxsize; omega), if_pos List.length_nil]
    | cons c cs ih =>
      intro total msg h1 h2
      simp only [List.flatten_cons, List.length_append] at h1 h2
      rw [List.cons_append, recvLoop, if_pos (by unfold maxsize; omega),
        if_neg (by simpa using hne c (by simp)), if_neg (by simp only [List.length_append]; omega)]
      exact ih (fun c hc => hne c (by simp [hc])) _ _ (by simp only [List.length_append]; omega)
        (by simp only [List.length_append]; omega)
  have long : ∀ (cs : List Bytes), (∀ c ∈ cs, c ≠ []) → ∀ (total msg : Bytes) (k : Nat), k < 2 ^ 31 →
      msg.length + cs.flatten.length < k → recvLoop total msg k (cs ++ [] :: rest) = .ioError := by
    intro cs
    induction cs with
    | nil =>
      intro _ total msg k hk h1
      simp only [List.flatten_nil, List.length_nil] at h1
      rw [List.nil_append, recvLoop, if_pos (by omega), if_pos List.length_nil]
    | cons c cs ih =>
      intro hne total msg k hk h1
      simp only [List.flatten_cons, List.length_append] at h1
      rw [List.cons_append, recvLoop, if_pos (by omega), if_neg (by simpa using hne c (by simp)),
        if_neg (by unfold maxsize; omega)]
      exact ih (fun c hc => hne c (by simp [hc])) _ _ k hk (by simp only [List.length_append]; omega)
  unfold frameRecv
  rw [if_neg (by simp)]
  rcases h with h | ⟨c, cs', rfl, hc, m, hm, missing, hx, hf⟩
  · exact short [] [] (by simpa using h) (by simpa using h)
  · rw [List.cons_append, recvLoop, if_pos (by simp [maxsize]), if_neg (by omega), if_pos ⟨rfl, by simpa using hc⟩]
    simp only [List.nil_append]
    rw [List.flatten_cons, List.append_assoc] at hf
    simp only [frames, List.map_cons, List.map_nil, List.flatten_cons, List.flatten_nil, List.append_nil] at hf
    have h4 : c.take 4 = [m.length / 2 ^ 24, m.length / 2 ^ 16 % 256, m.length / 2 ^ 8 % 256, m.length % 256] := by
      have := congrArg (List.take 4) hf
      rw [List.take_append_of_le_length (by omega)] at this
      rw [this]
      rfl
    have h5 : unpackI (c.take 4) = (m.length : Int) := by
      rw [h4]
      have e : [m.length / 2 ^ 24, m.length / 2 ^ 16 % 256, m.length / 2 ^ 8 % 256, m.length % 256].foldl
          (fun (a b : Nat) => a * 256 + b) 0 = m.length := by
        simp only [List.foldl]
        omega
      simp only [unpackI, e]
      exact if_pos hm
    rw [h5]
    refine long cs' (fun c hc => hne c (by simp [hc])) _ _ m.length hm ?_
    have := congrArg List.length hf
    simp only [List.length_append, List.length_cons, List.length_nil] at this
    have : 0 < missing.length := List.length_pos_iff.2 hx
    simp only [List.length_drop]
    omega

/-- A connection to the manager that does what it should: the peer introduces itself (and may send further messages at once). -/
def Introduced {α : Type} (tls : Bool) (decode : Bytes → Option α) (c : Incoming) (info : α) : Prop :=
  c.greeted = true ∧ (tls = true → c.shaken = true) ∧ ∃ m ms, Sends c.chunks (m :: ms) ∧ decode m = some info

/-- A connection that fails. -/
def Fails (tls : Bool) (c : Incoming) : Prop := c.greeted = false ∨ tls = true ∧ c.shaken = false ∨ Breaks c.chunks

theorem acceptOne_fails {α : Type} {tls : Bool} (decode : Bytes → Option α) {c : Incoming} (h : Fails tls c) :
    acceptOne tls decode c = .dropped := by
  unfold acceptOne
  rcases h with h | ⟨h1, h2⟩ | h
  · rw [if_pos h]
  · split
    · rfl
    · rw [if_pos ⟨h1, h2⟩]
  · rw [recv_breaks h]
    split
    · rfl
    · split <;> rfl

theorem acceptOne_introduced {α : Type} {tls : Bool} {decode : Bytes → Option α} {c : Incoming} {info : α}
    (h : Introduced tls decode c info) : ∃ last rest, acceptOne tls decode c = .handed info last ∧
      ∃ m ms, frameRecv [] c.chunks = .got m last rest ∧ Sends c.chunks (m :: ms) ∧
        recvMany last rest ms.length = (ms, .got [] [] []) := by
  obtain ⟨h1, h2, m, ms, h3, h4⟩ := h
  obtain ⟨last, rest, h5, h6⟩ := recv_first h3
  refine ⟨last, rest, ?_, m, ms, h5, h3, h6⟩
  unfold acceptOne
  rw [if_neg (by simp [h1]), if_neg (by
    rintro ⟨ht, hs⟩
    rw [h2 ht] at hs; cases hs), h5]
  simp only [h4]

/-- The introductions among connections, with the numbers of the connections. -/
inductive Introductions {α : Type} (tls : Bool) (decode : Bytes → Option α) : Nat → List Incoming → List (Nat × α) → Prop where
  | nil (k) : Introductions tls decode k [] []
  | good {k c cs info l} (h : Introduced tls decode c info) (hl : Introductions tls decode (k + 1) cs l) :
    Introductions tls decode k (c :: cs) ((k, info) :: l)
  | bad {k c cs l} (h : Fails tls c) (hl : Introductions tls decode (k + 1) cs l) : Introductions tls decode k (c :: cs) l

/-- C104: a manager whose connections introduce themselves or fail hands on every one that introduces itself, once and in order, and
goes on accepting.  Missing: connections that do neither. -/
theorem C104_accept_partial {α : Type} {tls : Bool} {decode : Bytes → Option α} {cs : List Incoming} {l : List (Nat × α)}
    (h : Introductions tls decode 0 cs l) :
    (serverRun (acceptOne tls decode) (cs.map .conn)).handed.map (fun e => (e.1, e.2.1)) = l ∧
      (serverRun (acceptOne tls decode) (cs.map .conn)).loop = .accepting := by
  have key : ∀ {k cs l}, Introductions tls decode k cs l → ∀ s : Server α, s.loop = .accepting → s.running = true → s.count = k →
      (List.foldl (serverStep (acceptOne tls decode)) s (cs.map .conn)).handed.map (fun e => (e.1, e.2.1)) =
        s.handed.map (fun e => (e.1, e.2.1)) ++ l ∧
      (List.foldl (serverStep (acceptOne tls decode)) s (cs.map .conn)).loop = .accepting := by
    intro k cs l h
    induction h with
    | nil k => intro s h1 _ _; exact ⟨by simp, h1⟩
    | @good k c cs info l h _ ih =>
      intro s h1 h2 h3
      obtain ⟨last, rest, h4, -⟩ := acceptOne_introduced h
      have := ih (serverStep (acceptOne tls decode) s (.conn c)) (by simp [serverStep, h1, h4, h2]) (by simp [serverStep, h1, h4, h2])
        (by simp [serverStep, h1, h4, h3])
      rw [List.map_cons, List.foldl_cons, this.1]
      refine ⟨?_, this.2⟩
      simp [serverStep, h1, h4, h3]
    | @bad k c cs l h _ ih =>
      intro s h1 h2 h3
      have h4 := acceptOne_fails decode h
      have := ih (serverStep (acceptOne tls decode) s (.conn c)) (by simp [serverStep, h1, h4, h2]) (by simp [serverStep, h1, h4, h2])
        (by simp [serverStep, h1, h4, h3])
      rw [List.map_cons, List.foldl_cons, this.1]
      refine ⟨?_, this.2⟩
      simp [serverStep, h1, h4]
  have := key h .start rfl rfl rfl
  exact ⟨this.1, this.2⟩

/-- C104: messages that a peer sends right after its introduction are not lost: the thread that is given the connection receives them
all. -/
theorem C104_further {α : Type} {tls : Bool} {decode : Bytes → Option α} {c : Incoming} {m : Bytes} {ms : List Bytes} {info : α}
    (h1 : c.greeted = true) (h2 : tls = true → c.shaken = true) (h3 : Sends c.chunks (m :: ms)) (h4 : decode m = some info) :
    ∃ last rest, acceptOne tls decode c = .handed info last ∧ frameRecv [] c.chunks = .got m last rest ∧
      recvMany last rest ms.length = (ms, .got [] [] []) := by
  obtain ⟨last, rest, h5, h6⟩ := recv_first h3
  refine ⟨last, rest, ?_, h5, h6⟩
  unfold acceptOne
  rw [if_neg (by simp [h1]), if_neg (by
    rintro ⟨ht, hs⟩
    rw [h2 ht] at hs; cases hs), h5]
  simp only [h4]

theorem server_stuck {α : Type} (one : Incoming → Accepted α) {s : Server α} (h : s.loop ≠ .accepting) (es : List ServerEvent) :
    (es.foldl (serverStep one) s).handed = s.handed ∧ (es.foldl (serverStep one) s).loop = s.loop := by
  induction es generalizing s with
  | nil => exact ⟨rfl, rfl⟩
  | cons e es ih =>
    have h1 : (serverStep one s e).handed = s.handed ∧ (serverStep one s e).loop = s.loop := by
      rcases e with c | _
      · rcases hl : s.loop with _ | _ | _ | _
        · exact absurd hl h
        all_goals simp [serverStep, hl]
      · exact ⟨rfl, rfl⟩
    rw [List.foldl_cons]
    have := ih (s := serverStep one s e) (by rw [h1.2]; exact h)
    exact ⟨this.1.trans h1.1, this.2.trans h1.2⟩

/-- C104 fails: when a peer connects and sends nothing (or not all of its introduction), no connection after it is handed on, as long
as it stays silent. -/
theorem C104_silent {α : Type} {tls : Bool} {decode : Bytes → Option α} {cs : List Incoming} {l : List (Nat × α)}
    (h : Introductions tls decode 0 cs l) {c : Incoming} (h1 : c.greeted = true) (h2 : tls = true → c.shaken = true)
    (hc : frameRecv [] c.chunks = .blocked) (es : List ServerEvent) :
    (serverRun (acceptOne tls decode) (cs.map .conn ++ .conn c :: es)).handed.map (fun e => (e.1, e.2.1)) = l ∧
      (serverRun (acceptOne tls decode) (cs.map .conn ++ .conn c :: es)).loop = .hanging := by
  obtain ⟨h3, h4⟩ := C104_accept_partial h
  have h5 : acceptOne tls decode c = .hangs := by
    unfold acceptOne
    rw [if_neg (by simp [h1]), if_neg (by
      rintro ⟨ht, hs⟩
      rw [h2 ht] at hs; cases hs), hc]
  unfold serverRun at *
  rw [List.foldl_append, List.foldl_cons]
  have h6 := server_stuck (acceptOne tls decode)
    (s := serverStep (acceptOne tls decode) (List.foldl (serverStep (acceptOne tls decode)) .start (cs.map .conn)) (.conn c))
    (by simp [serverStep, h4, h5]) es
  rw [h6.1, h6.2]
  simp only [serverStep, h4, h5]
  exact ⟨h3, trivial⟩

/-- C104 fails: when a peer sends something that is no host information, the server ends and no connection after it is handed on. -/
theorem C104_garbage {α : Type} {tls : Bool} {decode : Bytes → Option α} {cs : List Incoming} {l : List (Nat × α)}
    (h : Introductions tls decode 0 cs l) {c : Incoming} (h1 : c.greeted = true) (h2 : tls = true → c.shaken = true)
    {m : Bytes} {ms : List Bytes} (hc : Sends c.chunks (m :: ms)) (hm : decode m = none) (es : List ServerEvent) :
    (serverRun (acceptOne tls decode) (cs.map .conn ++ .conn c :: es)).handed.map (fun e => (e.1, e.2.1)) = l ∧
      (serverRun (acceptOne tls decode) (cs.map .conn ++ .conn c :: es)).loop = .dead := by
  obtain ⟨h3, h4⟩ := C104_accept_partial h
  obtain ⟨last, rest, hf, -⟩ := recv_first hc
  have h5 : acceptOne tls decode c = .dies := by
    unfold acceptOne
    rw [if_neg (by simp [h1]), if_neg (by
      rintro ⟨ht, hs⟩
      rw [h2 ht] at hs; cases hs), hf]
    simp only [hm]
  unfold serverRun at *
  rw [List.foldl_append, List.foldl_cons]
  have h6 := server_stuck (acceptOne tls decode)
    (s := serverStep (acceptOne tls decode) (List.foldl (serverStep (acceptOne tls decode)) .start (cs.map .conn)) (.conn c))
    (by simp [serverStep, h4, h5]) es
  rw [h6.1, h6.2]
  simp only [serverStep, h4, h5]
  exact ⟨h3, trivial⟩

/-- A connection of a partner that does what it should: the partner says who it is (and may send further messages at once). -/
def PartnerOf {α : Type} (decode : Bytes → Option α) (c : Incoming) (info : α) : Prop :=
  ∃ m ms, Sends c.chunks (m :: ms) ∧ decode m = some info

/-- C104, for the servers of the workers: every partner is registered, once and in order, with nothing lost of what it sends after
saying who it is, and the server goes on accepting.  Missing: connections that fail. -/
theorem C104_partners_partial {α : Type} {decode : Bytes → Option α} {cs : List Incoming} {l : List α}
    (h : List.Forall₂ (PartnerOf decode) cs l) :
    (serverRun (partnerOne decode) (cs.map .conn)).loop = .accepting ∧
    List.Forall₂ (fun c (e : Nat × α × Bytes) => ∃ m ms rest, Sends c.chunks (m :: ms) ∧ decode m = some e.2.1 ∧
      frameRecv [] c.chunks = .got m e.2.2 rest ∧ recvMany e.2.2 rest ms.length = (ms, .got [] [] []))
      cs (serverRun (partnerOne decode) (cs.map .conn)).handed ∧
    (serverRun (partnerOne decode) (cs.map .conn)).handed.map (fun e => (e.1, e.2.1)) = (List.range l.length).zip l := by
  induction cs using List.reverseRecOn generalizing l with
  | nil => cases h; exact ⟨rfl, .nil, rfl⟩
  | append_singleton cs c ih =>
    obtain ⟨l, info, rfl, h, m, ms, h1, h2⟩ : ∃ l' info, l = l' ++ [info] ∧ List.Forall₂ (PartnerOf decode) cs l' ∧
        PartnerOf decode c info := by
      rcases List.eq_nil_or_concat l with rfl | ⟨l', info, rfl⟩
      · simpa using h.length_eq
      · rw [List.concat_eq_append] at h ⊢
        have hl := h.length_eq
        simp only [List.length_append, List.length_cons, List.length_nil] at hl
        have h1 := List.forall₂_take_append _ _ _ h
        have h2 := List.forall₂_drop_append _ _ _ h
        have hl' : l'.length = cs.length := by omega
        rw [hl', List.take_left] at h1
        rw [hl', List.drop_left] at h2
        exact ⟨l', info, rfl, h1, by simpa using h2⟩
    obtain ⟨i1, i2, i3⟩ := ih h
    obtain ⟨last, rest, h3, h4⟩ := recv_first h1
    have h5 : partnerOne decode c = .handed info last := by
      unfold partnerOne
      rw [h3]
      simp only [h2]
    have hrun : ∀ (cs : List Incoming), (serverRun (partnerOne decode) (cs.map .conn)).running = true ∧
        (serverRun (partnerOne decode) (cs.map .conn)).count = cs.length := by
      intro cs
      induction cs using List.reverseRecOn with
      | nil => exact ⟨rfl, rfl⟩
      | append_singleton cs c ih =>
        unfold serverRun at *
        rw [List.map_append, List.foldl_append]
        generalize List.foldl (serverStep (partnerOne decode)) .start (cs.map .conn) = s at ih
        simp only [List.map_cons, List.map_nil, List.foldl_cons, List.foldl_nil, serverStep, List.length_append, List.length_cons,
          List.length_nil]
        repeat' split
        all_goals exact ⟨ih.1, by simp [ih.2]⟩
    have e : serverRun (partnerOne decode) ((cs ++ [c]).map .conn)
        = { serverRun (partnerOne decode) (cs.map .conn) with
            count := cs.length + 1
            handed := (serverRun (partnerOne decode) (cs.map .conn)).handed ++ [(cs.length, info, last)] } := by
      have := hrun cs
      unfold serverRun at *
      rw [List.map_append, List.foldl_append]
      simp [serverStep, i1, h5, this.1, this.2]
    rw [e]
    refine ⟨i1, ?_, ?_⟩
    · refine List.rel_append i2 (.cons ⟨m, ms, rest, h1, h2, h3, h4⟩ .nil)
    · simp only [List.map_append, i3, List.map_cons, List.map_nil, List.length_append, List.length_cons, List.length_nil,
        List.range_succ, Nat.zero_add]
      rw [List.zip_append (by simp), h.length_eq]
      rfl

/-- C104 fails for the servers of the workers: a partner whose connection breaks ends the server, and no later partner is
registered. -/
theorem C104_partner_breaks {α : Type} {decode : Bytes → Option α} {cs : List Incoming} {l : List α}
    (h : List.Forall₂ (PartnerOf decode) cs l) {c : Incoming} (hc : Breaks c.chunks) (es : List ServerEvent) :
    (serverRun (partnerOne decode) (cs.map .conn ++ .conn c :: es)).handed = (serverRun (partnerOne decode) (cs.map .conn)).handed ∧
      (serverRun (partnerOne decode) (cs.map .conn ++ .conn c :: es)).loop = .dead := by
  have h4 := (C104_partners_partial h).1
  have h5 : partnerOne decode c = .dies := by
    unfold partnerOne
    rw [recv_breaks hc]
  unfold serverRun at *
  rw [List.foldl_append, List.foldl_cons]
  have h6 := server_stuck (partnerOne decode) (s := serverStep (partnerOne decode)
    (List.foldl (serverStep (partnerOne decode)) .start (cs.map .conn)) (.conn c)) (by simp [serverStep, h5, h4]) es
  rw [h6.1, h6.2]
  simp [serverStep, h5, h4]

/-- C104 fails: after `stop` the server accepts and hands on one more connection before it ends; without one it never ends. -/
theorem C104_stop {α : Type} {tls : Bool} {decode : Bytes → Option α} {cs : List Incoming} {l : List (Nat × α)}
    (h : Introductions tls decode 0 cs l) {c : Incoming} {info : α} (hc : Introduced tls decode c info) (es : List ServerEvent) :
    (serverRun (acceptOne tls decode) (cs.map .conn ++ [.stop])).loop = .accepting ∧
    (serverRun (acceptOne tls decode) (cs.map .conn ++ .stop :: .conn c :: es)).handed.map (fun e => e.2.1) = l.map (·.2) ++ [info] ∧
      (serverRun (acceptOne tls decode) (cs.map .conn ++ .stop :: .conn c :: es)).loop = .ended := by
  obtain ⟨h3, h4⟩ := C104_accept_partial h
  obtain ⟨last, rest, h5, -⟩ := acceptOne_introduced hc
  unfold serverRun at *
  refine ⟨by rw [List.foldl_append]; simpa [serverStep] using h4, ?_⟩
  rw [List.foldl_append, List.foldl_cons, List.foldl_cons]
  have h6 := server_stuck (acceptOne tls decode) (s := serverStep (acceptOne tls decode) (serverStep (acceptOne tls decode)
    (List.foldl (serverStep (acceptOne tls decode)) .start (cs.map .conn)) .stop) (.conn c)) (by simp [serverStep, h4, h5]) es
  rw [h6.1, h6.2, ← h3]
  simp [serverStep, h4, h5]

/-! ## Cases: the introduction `[7]`, followed at once by a setup `[8, 9]` -/

theorem greeting_sends : Sends [[0, 0, 0, 1, 7, 0, 0, 0, 2, 8], [9]] [[7], [8, 9]] := by
  refine ⟨by simp, by simp, by simp, by decide, ?_⟩
  intro pre c post hp ms₁ m ms₂ hms
  have hp' : pre = [] ∨ pre = [[0, 0, 0, 1, 7, 0, 0, 0, 2, 8]] := by
    rcases pre with _ | ⟨a, _ | ⟨b, _⟩⟩ <;> simp_all
  have hms' : ms₁ = [] ∨ ms₁ = [[7]] := by
    rcases ms₁ with _ | ⟨a, _ | ⟨b, _⟩⟩ <;> simp_all
  rcases hp' with rfl | rfl <;> simp at hp <;> rcases hms' with rfl | rfl <;> simp [streamLen, ← hp.1]

theorem three_connections (decode : Bytes → Option Bool) (h : decode [7] = some true) :
    Introductions false decode 0 [⟨true, false, [[0, 0, 0, 1, 7, 0, 0, 0, 2, 8], [9]]⟩, ⟨true, false, [[0, 0], []]⟩,
      ⟨true, true, [[0, 0, 0, 1, 7, 0, 0, 0, 2, 8], [9]]⟩] [(0, true), (2, true)] := by
  refine .good ⟨rfl, by simp, _, _, greeting_sends, h⟩ (.bad (.inr (.inr ?_)) (.good ⟨rfl, by simp, _, _, greeting_sends, h⟩ (.nil _)))
  exact ⟨[[0, 0]], [], rfl, by simp, .inl (by simp)⟩

example (decode : Bytes → Option Bool) (h : decode [7] = some true) :
    List.Forall₂ (PartnerOf decode) [⟨true, true, [[0, 0, 0, 1, 7, 0, 0, 0, 2, 8], [9]]⟩,
      ⟨true, true, [[0, 0, 0, 1, 7, 0, 0, 0, 2, 8], [9]]⟩] [true, true] :=
  .cons ⟨_, _, greeting_sends, h⟩ (.cons ⟨_, _, greeting_sends, h⟩ .nil)

example : ∃ decode : Bytes → Option Bool, decode [7] = some true ∧ decode [8, 9] = none ∧ frameRecv [] [] = .blocked ∧
    Breaks [[0, 0, 0, 2, 5], []] := by
  refine ⟨fun m => if m = [7] then some true else none, by simp, by simp, by decide, [[0, 0, 0, 2, 5]], [], rfl, by simp, .inr
    ⟨_, _, rfl, by simp, [5, 6], by simp, [6], by simp, by decide⟩⟩

end QIP.Props
