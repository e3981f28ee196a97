import Mathlib.Data.List.Basic
import Mathlib.Tactic.Ring
import Verif.Lemmas.Bounded
import Verif.Model.Worker

/-!
# One transfer between two workers

All configurations of a transfer are described by the progress of the sender (`SP`) and of the receiver (`RP`).
-/

namespace QIP

/-- Data of a transfer from `p` to `q`: chunk size, in-flight limit, acknowledgements left over from earlier transfers,
later transfers of both, their backends at the start. -/
structure Xfer where
  p : Wid
  q : Wid
  ow : Bool
  C : Nat
  M : Nat
  stale : Nat
  tp : List Task
  tq : List Task
  bp : BState
  bq : BState
  cp : Nat
  cq : Nat
  /-- where the two are after the transfer (`nextTask tp`, `nextTask tq`, or further) -/
  ep : Pc
  er : Pc

namespace Xfer

variable (x : Xfer)

/-- Number of amplitudes. -/
def N : Nat := x.bp.state.length

/-- Number of chunks. -/
def c : Nat := (x.N + x.C - 1) / x.C

/-- Start of a chunk. -/
def pos (k : Nat) : Nat := min x.N (k * x.C)

structure OK (prm : Wid → WParam) : Prop where
  ne : x.p ≠ x.q
  C : 0 < x.C
  M : 0 < x.M
  N : 0 < x.N
  len : x.bq.state.length = x.N
  chunk : (prm x.q).chunk = x.C
  inflight : (prm x.q).inflight = x.M

/-- Progress of the sender. -/
inductive SP where
  | wait
  /-- chunks sent, `inflight` -/
  | loop (s infl : Nat)
  | fin

/-- Progress of the receiver: chunks received. -/
inductive RP where
  | start
  | want (k : Nat)
  | ack (k : Nat)
  | fin

def sent : SP → Nat
  | .wait => 0
  | .loop s _ => s
  | .fin => x.c

def got : RP → Nat
  | .start => 0
  | .want k => k
  | .ack k => k
  | .fin => x.c

/-- Acknowledgements read by the sender. -/
def reads : SP → Nat
  | .wait => 0
  | .loop s infl => 1 + (s - infl)
  | .fin => x.c + 2 - min x.c x.M

/-- Acknowledgements sent by the receiver. -/
def acks : RP → Nat
  | .start => 0
  | .want k => 1 + k
  | .ack k => k
  | .fin => 1 + x.c

/-- Acknowledgements on the way. -/
def avail (sp : SP) (rp : RP) : Nat := x.stale + x.acks rp - x.reads sp

/-- A chunk. -/
def chunkMsg (k : Nat) : NMsg :=
  .data (x.pos k) (x.bp.getRange (x.pos k) (x.pos (k + 1))) (decide (x.pos (k + 1) = x.N))

/-- The receiver's amplitudes after `k` chunks. -/
noncomputable def applied (k : Nat) : List ℂ :=
  if x.ow then x.bp.state.take (x.pos k) ++ x.bq.state.drop (x.pos k)
  else List.zipWith (· + ·) (x.bq.state.take (x.pos k)) (x.bp.state.take (x.pos k)) ++ x.bq.state.drop (x.pos k)

def sPc : SP → Pc
  | .wait => .xfer (.sAccept x.q) x.tp
  | .loop s infl => .xfer (.sLoop x.q (x.pos s) infl x.C x.M) x.tp
  | .fin => x.ep

def rPc : RP → Pc
  | .start => .xfer (.rAccept x.p x.ow) x.tq
  | .want _ => .xfer (.rData x.p x.ow) x.tq
  | .ack k => .xfer (.rAck x.p x.ow (decide (x.pos k = x.N))) x.tq
  | .fin => x.er

/-- Chunks on the way. -/
def dbuf (sp : SP) (rp : RP) : List NMsg :=
  (List.range' (x.got rp) (x.sent sp - x.got rp)).map x.chunkMsg

/-- The configuration. -/
noncomputable def cfg (pm : MProg) (f : Wid → WSt) (buf : Pid × Pid → List NMsg) (sp : SP) (rp : RP) :
    Cfg Pid NMsg NLoc :=
  netCfg pm
    (Function.update (Function.update f x.p ⟨x.bp, x.sPc sp, x.cp⟩) x.q
      ⟨{ x.bq with state := x.applied (x.got rp) }, x.rPc rp, x.cq⟩)
    (Function.update (Function.update buf (some x.p, some x.q) (x.dbuf sp rp)) (some x.q, some x.p)
      (List.replicate (x.avail sp rp) (.accept x.C x.M)))

def SValid : SP → Prop
  | .wait => True
  | .loop s infl => s ≤ x.c ∧ (s < x.M ∧ infl = s ∨ x.M ≤ s ∧ (infl = x.M ∨ infl + 1 = x.M ∧ s < x.c))
  | .fin => True

def RValid : RP → Prop
  | .start => True
  | .want k => k < x.c
  | .ack k => 0 < k ∧ k ≤ x.c
  | .fin => True

structure Valid (sp : SP) (rp : RP) : Prop where
  s : x.SValid sp
  r : x.RValid rp
  le : x.got rp ≤ x.sent sp
  reads : x.reads sp ≤ x.stale + x.acks rp

/-- The sender's next step. -/
def sStep (sp : SP) (rp : RP) : Option SP :=
  match sp with
  | .wait => if x.avail sp rp = 0 then none else some (.loop 0 0)
  | .loop s infl =>
    if infl < x.M ∧ s < x.c then some (.loop (s + 1) (infl + 1))
    else if x.avail sp rp = 0 then none
    else if s < x.c then some (.loop s (infl - 1))
    else some .fin
  | .fin => none

/-- The receiver's next step. -/
def rStep (sp : SP) (rp : RP) : Option RP :=
  match rp with
  | .start => some (.want 0)
  | .want k => if k < x.sent sp then some (.ack (k + 1)) else none
  | .ack k => if k = x.c then some .fin else some (.want k)
  | .fin => none

variable {x} {prm : Wid → WParam}

theorem lt_c_iff (hC : 0 < x.C) (s : Nat) : s < x.c ↔ s * x.C < x.N := by
  unfold c
  rw [Nat.lt_iff_add_one_le, Nat.le_div_iff_mul_le hC, Nat.succ_mul]
  omega

theorem c_pos (h : x.OK prm) : 0 < x.c := by
  rw [lt_c_iff h.C]
  simpa using h.N

theorem pos_zero : x.pos 0 = 0 := by simp [pos]

theorem pos_lt_iff (h : x.OK prm) (k : Nat) : x.pos k < x.N ↔ k < x.c := by
  rw [lt_c_iff h.C]
  unfold pos
  omega

theorem pos_eq_iff (h : x.OK prm) (k : Nat) : x.pos k = x.N ↔ x.c ≤ k := by
  have h1 := pos_lt_iff h k
  have h2 : x.pos k ≤ x.N := by unfold pos; omega
  omega

theorem pos_le (k : Nat) : x.pos k ≤ x.N := by unfold pos; omega

theorem pos_succ (k : Nat) : x.pos (k + 1) = x.pos k + min (x.N - x.pos k) x.C := by
  unfold pos
  rw [Nat.succ_mul]
  omega

theorem pos_mono (k : Nat) : x.pos k ≤ x.pos (k + 1) := by
  rw [pos_succ]; omega

/-! ### The data -/

theorem applied_zero : x.applied 0 = x.bq.state := by
  unfold applied
  rw [pos_zero]
  split <;> simp

theorem applied_length (h : x.OK prm) (k : Nat) : (x.applied k).length = x.N := by
  have h1 := pos_le (x := x) k
  have h2 := h.len
  have h3 : x.bp.state.length = x.N := rfl
  unfold applied
  split <;> simp <;> omega

theorem getRange_length (k : Nat) :
    (x.bp.getRange (x.pos k) (x.pos (k + 1))).length = x.pos (k + 1) - x.pos k := by
  have h1 := pos_le (x := x) (k + 1)
  have h3 : x.bp.state.length = x.N := rfl
  unfold BState.getRange
  simp; omega

/-- Applying one chunk. -/
theorem apply_chunk (h : x.OK prm) (k : Nat) :
    (if x.ow then BState.overwriteRange { x.bq with state := x.applied k } (x.pos k)
        (x.pos k + (x.bp.getRange (x.pos k) (x.pos (k + 1))).length) (x.bp.getRange (x.pos k) (x.pos (k + 1)))
      else BState.addtoRange { x.bq with state := x.applied k } (x.pos k)
        (x.pos k + (x.bp.getRange (x.pos k) (x.pos (k + 1))).length) (x.bp.getRange (x.pos k) (x.pos (k + 1))))
      = .ok { x.bq with state := x.applied (k + 1) } := by
  have hl := getRange_length (x := x) k
  have hm := pos_mono (x := x) k
  have hle := pos_le (x := x) (k + 1)
  have hal := applied_length h k
  have hN : x.bp.state.length = x.N := rfl
  have hq := h.len
  have e : x.pos k + (x.bp.getRange (x.pos k) (x.pos (k + 1))).length = x.pos (k + 1) := by omega
  rw [e]
  have hg : (BState.getRange { x.bq with state := x.applied k } (x.pos k) (x.pos (k + 1))).length
      = (x.bp.getRange (x.pos k) (x.pos (k + 1))).length := by
    rw [hl]
    unfold BState.getRange
    simp [hal]; omega
  by_cases how : x.ow
  · rw [if_pos how]
    unfold BState.overwriteRange
    rw [broadcast_same hg]
    simp only [if_pos hg, e]
    congr 2
    unfold applied
    rw [if_pos how, if_pos how, List.take_append_of_le_length (by simp; omega), List.take_take, Nat.min_self,
      List.drop_append, List.drop_eq_nil_of_le (by simp; omega), List.nil_append, List.drop_drop]
    congr 1
    · unfold BState.getRange
      have := List.take_append_drop (x.pos k) (x.bp.state.take (x.pos (k + 1)))
      rw [List.take_take, Nat.min_eq_left hm] at this
      exact this
    · congr 1
      simp; omega
  · rw [if_neg how]
    unfold BState.addtoRange
    rw [broadcast_same hg]
    simp only [if_pos hg, e]
    congr 2
    have hz : (List.zipWith (· + ·) (x.bq.state.take (x.pos k)) (x.bp.state.take (x.pos k))).length = x.pos k := by
      simp; omega
    unfold applied
    rw [if_neg how, if_neg how]
    have e1 : (List.zipWith (· + ·) (x.bq.state.take (x.pos k)) (x.bp.state.take (x.pos k))
        ++ x.bq.state.drop (x.pos k)).take (x.pos k)
        = List.zipWith (· + ·) (x.bq.state.take (x.pos k)) (x.bp.state.take (x.pos k)) := by
      rw [List.take_append_of_le_length (by omega), List.take_of_length_le (by omega)]
    have e2 : (List.zipWith (· + ·) (x.bq.state.take (x.pos k)) (x.bp.state.take (x.pos k))
        ++ x.bq.state.drop (x.pos k)).drop (x.pos (k + 1)) = x.bq.state.drop (x.pos (k + 1)) := by
      rw [List.drop_append, List.drop_eq_nil_of_le (by omega), List.nil_append, List.drop_drop, hz]
      congr 1; omega
    have e3 : BState.getRange { x.bq with
          state := (List.zipWith (· + ·) (x.bq.state.take (x.pos k)) (x.bp.state.take (x.pos k))
            ++ x.bq.state.drop (x.pos k)) }
        (x.pos k) (x.pos (k + 1)) = (x.bq.state.take (x.pos (k + 1))).drop (x.pos k) := by
      unfold BState.getRange
      simp only
      rw [List.take_append, List.drop_append, List.drop_eq_nil_of_le (by simp), List.nil_append]
      simp only [List.length_take, hz]
      rw [List.drop_take, show x.pos k - min (x.pos (k + 1)) (x.pos k) = 0 by omega, Nat.sub_zero, List.drop_take, List.drop_zero]
    rw [e1, e2, e3]
    congr 1
    unfold BState.getRange
    have t1 := List.take_append_drop (x.pos k) (x.bq.state.take (x.pos (k + 1)))
    have t2 := List.take_append_drop (x.pos k) (x.bp.state.take (x.pos (k + 1)))
    rw [List.take_take, Nat.min_eq_left hm] at t1 t2
    conv_rhs => rw [← t1, ← t2]
    rw [List.zipWith_append (by simp; omega)]

/-- What the receiver has at the end. -/
theorem applied_end (h : x.OK prm) :
    x.applied x.c = if x.ow then x.bp.state else List.zipWith (· + ·) x.bq.state x.bp.state := by
  have e := (pos_eq_iff h x.c).2 le_rfl
  have hN : x.bp.state.length = x.N := rfl
  unfold applied
  rw [e, List.take_of_length_le (by omega), List.take_of_length_le (by have := h.len; omega),
    List.drop_eq_nil_of_le (by have := h.len; omega)]
  simp

/-! ### Steps -/

theorem cfg_loc_p (h : x.OK prm) (pm f buf sp rp) :
    (x.cfg pm f buf sp rp).loc (some x.p) = .wkr ⟨x.bp, x.sPc sp, x.cp⟩ := by
  simp [cfg, netCfg, Function.update_of_ne h.ne]

theorem cfg_loc_q (pm f buf sp rp) :
    (x.cfg pm f buf sp rp).loc (some x.q)
      = .wkr ⟨{ x.bq with state := x.applied (x.got rp) }, x.rPc rp, x.cq⟩ := by
  simp [cfg, netCfg]

theorem key_ne (h : x.OK prm) : ((some x.p, some x.q) : Pid × Pid) ≠ (some x.q, some x.p) := by
  intro e
  simp only [Prod.mk.injEq, Option.some.injEq] at e
  exact h.ne e.1

theorem netCfg_update (pm : MProg) (f : Wid → WSt) (buf : Pid × Pid → List NMsg) (w : Wid) (s : WSt) :
    Function.update (netCfg pm f buf).loc (some w) (.wkr s) = (netCfg pm (Function.update f w s) buf).loc := by
  funext y
  rcases y with _ | y
  · simp [netCfg]
  · by_cases e : y = w
    · subst e; simp [netCfg]
    · rw [Function.update_of_ne (by simpa using e)]
      simp [netCfg, Function.update_of_ne e]

theorem cfg_update_p (h : x.OK prm) (pm f buf sp rp sp' bf) :
    (⟨Function.update (x.cfg pm f buf sp rp).loc (some x.p) (.wkr ⟨x.bp, x.sPc sp', x.cp⟩), bf⟩ : Cfg Pid NMsg NLoc)
      = ⟨(x.cfg pm f buf sp' rp).loc, bf⟩ := by
  congr 1
  unfold cfg
  rw [netCfg_update, Function.update_comm h.ne.symm, Function.update_idem]
  rfl

theorem cfg_update_q (pm f buf sp rp rp' bf) :
    (⟨Function.update (x.cfg pm f buf sp rp).loc (some x.q)
      (.wkr ⟨{ x.bq with state := x.applied (x.got rp') }, x.rPc rp', x.cq⟩), bf⟩ : Cfg Pid NMsg NLoc)
      = ⟨(x.cfg pm f buf sp rp').loc, bf⟩ := by
  congr 1
  unfold cfg
  rw [netCfg_update, Function.update_idem]
  rfl

theorem cfg_buf_pq (h : x.OK prm) (pm f buf sp rp) :
    (x.cfg pm f buf sp rp).buf (some x.p, some x.q) = x.dbuf sp rp := by
  simp [cfg, netCfg, Function.update_of_ne (key_ne h)]

theorem cfg_buf_qp (pm f buf sp rp) :
    (x.cfg pm f buf sp rp).buf (some x.q, some x.p) = List.replicate (x.avail sp rp) (.accept x.C x.M) := by
  simp [cfg, netCfg]

theorem cfg_eq (h : x.OK prm) (pm f buf sp rp sp' rp') {l b1 b2}
    (hl : l = (x.cfg pm f buf sp' rp').loc) (h1 : b1 = x.dbuf sp' rp')
    (h2 : b2 = List.replicate (x.avail sp' rp') (.accept x.C x.M)) {bf : Pid × Pid → List NMsg}
    (hb : bf = Function.update (Function.update (x.cfg pm f buf sp rp).buf (some x.p, some x.q) b1)
      (some x.q, some x.p) b2) :
    (⟨l, bf⟩ : Cfg Pid NMsg NLoc) = x.cfg pm f buf sp' rp' := by
  apply cfg_ext
  · exact hl
  · subst h1 h2 hb
    unfold cfg netCfg
    simp only
    rw [Function.update_comm (key_ne h), Function.update_idem, Function.update_comm (key_ne h), Function.update_idem,
      Function.update_comm (key_ne h).symm]

theorem update_keep {α β : Type} [DecidableEq α] (g : α → β) (a : α) {v : β} (h : g a = v) : Function.update g a v = g := by
  subst h
  exact Function.update_eq_self a g

theorem replicate_tail {n : Nat} {m : NMsg} (h : n ≠ 0) :
    List.replicate n m = m :: List.replicate (n - 1) m := by
  obtain ⟨k, rfl⟩ := Nat.exists_eq_succ_of_ne_zero h
  rfl

/-- The sender's steps. -/
theorem step_p (h : x.OK prm) (he : x.ep = nextTask x.tp) (pm f buf) {sp rp} (hv : x.Valid sp rp) (hsp : sp ≠ .fin) :
    stepP (netAct prm) (some x.p) (x.cfg pm f buf sp rp)
      = (x.sStep sp rp).map fun sp' => x.cfg pm f buf sp' rp := by
  have hNl : x.bp.state.length = x.N := rfl
  cases sp with
  | fin => exact absurd rfl hsp
  | wait =>
    unfold stepP netAct
    rw [cfg_loc_p h]
    simp only [workerAct, sPc, cfg_buf_qp, sStep]
    by_cases ha : x.avail .wait rp = 0
    · simp [ha]
    · rw [replicate_tail ha, if_neg ha]
      simp only [hNl, h.N, if_true, Option.map_some, Option.some.injEq]
      have e : (⟨x.bp, .xfer (.sLoop x.q 0 0 x.C x.M) x.tp, x.cp⟩ : WSt) = ⟨x.bp, x.sPc (.loop 0 0), x.cp⟩ := by
        simp [sPc, pos_zero]
      rw [e, cfg_update_p h]
      have hgot : x.got rp = 0 := by have := hv.le; simpa [sent] using this
      refine cfg_eq h pm f buf .wait rp (.loop 0 0) rp rfl (b1 := x.dbuf .wait rp)
        (b2 := List.replicate (x.avail .wait rp - 1) (.accept x.C x.M)) ?_ ?_ ?_
      · simp [dbuf, sent]
      · congr 1
      · rw [update_keep _ _ (cfg_buf_pq h pm f buf .wait rp)]
  | loop s infl =>
    obtain ⟨hs, hinf⟩ := hv.s
    unfold stepP netAct
    rw [cfg_loc_p h]
    simp only [workerAct, sPc, sStep]
    by_cases hc : infl < x.M ∧ s < x.c
    · rw [if_pos hc, if_pos (by
        rw [hNl, pos_lt_iff h]
        exact ⟨by exact_mod_cast hc.1, hc.2⟩)]
      simp only [hNl, Option.map_some, Option.some.injEq, ← pos_succ]
      have e : (⟨x.bp, .xfer (.sLoop x.q (x.pos (s + 1)) ((infl : Int) + 1) x.C x.M) x.tp, x.cp⟩ : WSt)
          = ⟨x.bp, x.sPc (.loop (s + 1) (infl + 1)), x.cp⟩ := by
        simp [sPc]
      rw [e, cfg_update_p h, cfg_buf_pq h]
      refine cfg_eq h pm f buf (.loop s infl) rp (.loop (s + 1) (infl + 1)) rp rfl
        (b1 := x.dbuf (.loop s infl) rp ++ [x.chunkMsg s])
        (b2 := List.replicate (x.avail (.loop s infl) rp) (.accept x.C x.M)) ?_ ?_ ?_
      · have hle := hv.le
        simp only [sent] at hle
        simp only [dbuf, sent]
        rw [show s + 1 - x.got rp = (s - x.got rp) + 1 by omega, List.range'_1_concat, List.map_append,
          show x.got rp + (s - x.got rp) = s by omega]
        rfl
      · simp only [avail, reads]
        congr 2
        omega
      · rw [Function.update_comm (key_ne h), update_keep _ _ (cfg_buf_qp pm f buf (.loop s infl) rp)]
        rfl
    · rw [if_neg hc, if_neg (by
        rw [hNl, pos_lt_iff h]
        intro h'
        exact hc ⟨by exact_mod_cast h'.1, h'.2⟩)]
      simp only [cfg_buf_qp]
      by_cases ha : x.avail (.loop s infl) rp = 0
      · simp [ha]
      · rw [replicate_tail ha, if_neg ha]
        simp only
        have hM := h.M
        have hcp := c_pos h
        by_cases hsc : s < x.c
        · rw [if_pos hsc, if_pos (by rw [hNl, pos_lt_iff h]; exact hsc)]
          simp only [Option.map_some, Option.some.injEq]
          have e : (⟨x.bp, .xfer (.sLoop x.q (x.pos s) ((infl : Int) - 1) x.C x.M) x.tp, x.cp⟩ : WSt)
              = ⟨x.bp, x.sPc (.loop s (infl - 1)), x.cp⟩ := by
            simp only [sPc]
            rw [Nat.cast_sub (by omega)]
            rfl
          rw [e, cfg_update_p h]
          refine cfg_eq h pm f buf (.loop s infl) rp (.loop s (infl - 1)) rp rfl (b1 := x.dbuf (.loop s infl) rp)
            (b2 := List.replicate (x.avail (.loop s infl) rp - 1) (.accept x.C x.M)) rfl ?_ ?_
          · congr 1
            simp only [avail, reads]
            omega
          · rw [update_keep _ _ (cfg_buf_pq h pm f buf (.loop s infl) rp)]
        · rw [if_neg hsc, if_neg (by rw [hNl, pos_lt_iff h]; exact hsc)]
          simp only [Option.map_some, Option.some.injEq]
          have e : (⟨x.bp, nextTask x.tp, x.cp⟩ : WSt) = ⟨x.bp, x.sPc .fin, x.cp⟩ := by rw [← he]; rfl
          rw [e, cfg_update_p h]
          refine cfg_eq h pm f buf (.loop s infl) rp .fin rp rfl (b1 := x.dbuf (.loop s infl) rp)
            (b2 := List.replicate (x.avail (.loop s infl) rp - 1) (.accept x.C x.M)) ?_ ?_ ?_
          · simp only [dbuf, sent]
            rw [show s = x.c by omega]
          · congr 1
            simp only [avail, reads]
            omega
          · rw [update_keep _ _ (cfg_buf_pq h pm f buf (.loop s infl) rp)]

/-- The receiver's steps. -/
theorem step_q (h : x.OK prm) (he : x.er = nextTask x.tq) (pm f buf) {sp rp} (hv : x.Valid sp rp) (hrp : rp ≠ .fin) :
    stepP (netAct prm) (some x.q) (x.cfg pm f buf sp rp)
      = (x.rStep sp rp).map fun rp' => x.cfg pm f buf sp rp' := by
  cases rp with
  | fin => exact absurd rfl hrp
  | start =>
    unfold stepP netAct
    rw [cfg_loc_q]
    simp only [workerAct, rPc, rStep, Option.map_some, Option.some.injEq, h.chunk, h.inflight]
    have e : (⟨{ x.bq with state := x.applied (x.got .start) }, .xfer (.rData x.p x.ow) x.tq, x.cq⟩ : WSt)
        = ⟨{ x.bq with state := x.applied (x.got (.want 0)) }, x.rPc (.want 0), x.cq⟩ := rfl
    rw [e, cfg_update_q, cfg_buf_qp]
    refine cfg_eq h pm f buf sp .start sp (.want 0) rfl (b1 := x.dbuf sp .start)
        (b2 := List.replicate (x.avail sp .start) (.accept x.C x.M) ++ [.accept x.C x.M]) rfl ?_ ?_
    · have := hv.reads
      simp only [acks] at this
      rw [← List.replicate_succ']
      congr 1
      simp only [avail, acks]
      omega
    · rw [update_keep _ _ (cfg_buf_pq h pm f buf sp .start)]
  | want k =>
    unfold stepP netAct
    rw [cfg_loc_q]
    simp only [workerAct, rPc, rStep, cfg_buf_pq h]
    by_cases hk : k < x.sent sp
    · rw [if_pos hk]
      have ed : x.dbuf sp (.want k) = x.chunkMsg k :: x.dbuf sp (.ack (k + 1)) := by
        simp only [dbuf, got]
        rw [show x.sent sp - k = (x.sent sp - (k + 1)) + 1 by omega, List.range'_succ, List.map_cons]
      have ha := apply_chunk h k
      simp only [ed, chunkMsg, got, Option.map_some, Option.some.injEq] at ha ⊢
      rw [ha]
      simp only
      have e : (⟨{ x.bq with state := x.applied (k + 1) }, .xfer (.rAck x.p x.ow (decide (x.pos (k + 1) = x.N))) x.tq,
          x.cq⟩ : WSt) = ⟨{ x.bq with state := x.applied (x.got (.ack (k + 1))) }, x.rPc (.ack (k + 1)), x.cq⟩ := rfl
      rw [e, cfg_update_q]
      refine cfg_eq h pm f buf sp (.want k) sp (.ack (k + 1)) rfl (b1 := x.dbuf sp (.ack (k + 1)))
        (b2 := List.replicate (x.avail sp (.want k)) (.accept x.C x.M)) rfl ?_ ?_
      · simp only [avail, acks]
        congr 2
        omega
      · rw [Function.update_comm (key_ne h), update_keep _ _ (cfg_buf_qp pm f buf sp (.want k))]
    · rw [if_neg hk]
      have ed : x.dbuf sp (.want k) = [] := by
        simp only [dbuf, got]
        rw [show x.sent sp - k = 0 by omega]
        rfl
      simp only [ed, Option.map_none]
  | ack k =>
    obtain ⟨hk0, hkc⟩ := hv.r
    unfold stepP netAct
    rw [cfg_loc_q]
    simp only [workerAct, rPc, rStep, h.chunk, h.inflight, cfg_buf_qp]
    have hb : ∀ rp', x.acks rp' = k + 1 → List.replicate (x.avail sp (.ack k)) (.accept x.C x.M) ++ [.accept x.C x.M]
        = List.replicate (x.avail sp rp') (NMsg.accept x.C x.M) := by
      intro rp' hr
      have := hv.reads
      simp only [acks] at this
      rw [← List.replicate_succ']
      congr 1
      simp only [avail, hr]
      simp only [acks]
      omega
    by_cases hk : k = x.c
    · have hd : (decide (x.pos k = x.N)) = true := by
        rw [decide_eq_true_eq, pos_eq_iff h]; omega
      rw [if_pos hk]
      simp only [hd, if_true, Option.map_some, Option.some.injEq]
      have e : (⟨{ x.bq with state := x.applied (x.got (.ack k)) }, nextTask x.tq, x.cq⟩ : WSt)
          = ⟨{ x.bq with state := x.applied (x.got .fin) }, x.rPc .fin, x.cq⟩ := by
        simp [got, hk, rPc, he]
      rw [e, cfg_update_q]
      refine cfg_eq h pm f buf sp (.ack k) sp .fin rfl (b1 := x.dbuf sp (.ack k))
        (b2 := List.replicate (x.avail sp (.ack k)) (.accept x.C x.M) ++ [.accept x.C x.M]) ?_ ?_ ?_
      · simp [dbuf, got, hk]
      · exact hb .fin (by simp only [acks]; omega)
      · rw [update_keep _ _ (cfg_buf_pq h pm f buf sp (.ack k))]
    · have hd : (decide (x.pos k = x.N)) = false := by
        rw [decide_eq_false_iff_not, pos_eq_iff h]; omega
      rw [if_neg hk]
      simp only [hd, Bool.false_eq_true, if_false, Option.map_some, Option.some.injEq]
      have e : (⟨{ x.bq with state := x.applied (x.got (.ack k)) }, .xfer (.rData x.p x.ow) x.tq, x.cq⟩ : WSt)
          = ⟨{ x.bq with state := x.applied (x.got (.want k)) }, x.rPc (.want k), x.cq⟩ := rfl
      rw [e, cfg_update_q]
      refine cfg_eq h pm f buf sp (.ack k) sp (.want k) rfl (b1 := x.dbuf sp (.ack k))
        (b2 := List.replicate (x.avail sp (.ack k)) (.accept x.C x.M) ++ [.accept x.C x.M]) rfl ?_ ?_
      · exact hb (.want k) (by simp only [acks]; omega)
      · rw [update_keep _ _ (cfg_buf_pq h pm f buf sp (.ack k))]

/-! ### Progress -/

theorem valid_sStep (h : x.OK prm) {sp sp' rp} (hv : x.Valid sp rp) (hs : x.sStep sp rp = some sp') :
    x.Valid sp' rp ∧ x.sent sp' + x.reads sp' = x.sent sp + x.reads sp + 1 := by
  have hM := h.M
  have hc := c_pos h
  cases sp with
  | fin => simp [sStep] at hs
  | wait =>
    simp only [sStep] at hs
    split at hs
    · cases hs
    · rename_i ha
      injection hs with hs
      subst hs
      have hle := hv.le
      simp only [sent] at hle
      refine ⟨⟨⟨by omega, Or.inl ⟨hM, rfl⟩⟩, hv.r, hle, ?_⟩, by simp [sent, reads]⟩
      simp only [avail, reads] at ha ⊢
      omega
  | loop s infl =>
    obtain ⟨h1, h2⟩ := hv.s
    have hle := hv.le
    have hrd := hv.reads
    simp only [sent, reads] at hle hrd
    simp only [sStep] at hs
    split at hs
    · rename_i hcond
      injection hs with hs
      subst hs
      refine ⟨⟨⟨by omega, ?_⟩, hv.r, by simp only [sent]; omega, by simp only [reads]; omega⟩, ?_⟩
      · rcases h2 with ⟨h2, h3⟩ | ⟨h2, h3⟩
        · by_cases h4 : s + 1 < x.M
          · exact Or.inl ⟨h4, by omega⟩
          · exact Or.inr ⟨by omega, Or.inl (by omega)⟩
        · exact Or.inr ⟨by omega, Or.inl (by omega)⟩
      · simp only [sent, reads]; omega
    · rename_i hcond
      split at hs
      · cases hs
      · rename_i ha
        simp only [avail, reads] at ha
        split at hs
        · rename_i hsc
          injection hs with hs
          subst hs
          refine ⟨⟨⟨h1, Or.inr ⟨by omega, Or.inr ⟨by omega, hsc⟩⟩⟩, hv.r, hle, by simp only [reads]; omega⟩, ?_⟩
          simp only [sent, reads]; omega
        · rename_i hsc
          injection hs with hs
          subst hs
          refine ⟨⟨trivial, hv.r, by simp only [sent]; omega, by simp only [reads]; omega⟩, ?_⟩
          simp only [sent, reads]; omega

theorem valid_rStep {sp rp rp'} (hc : 0 < x.c) (hv : x.Valid sp rp) (hs : x.rStep sp rp = some rp') :
    x.Valid sp rp' ∧ x.got rp' + x.acks rp' = x.got rp + x.acks rp + 1 := by
  have hle := hv.le
  have hrd := hv.reads
  have hsc : x.sent sp ≤ x.c := by
    cases sp with
    | wait => simp [sent]
    | loop s infl => exact hv.s.1
    | fin => simp [sent]
  cases rp with
  | fin => simp [rStep] at hs
  | start =>
    simp only [rStep, Option.some.injEq] at hs
    subst hs
    refine ⟨⟨hv.s, hc, hle, ?_⟩, by simp [got, acks]⟩
    simp only [acks] at hrd ⊢
    omega
  | want k =>
    simp only [rStep] at hs
    split at hs
    · rename_i hk
      injection hs with hs
      subst hs
      refine ⟨⟨hv.s, ⟨by omega, by omega⟩, by simp only [got]; omega, ?_⟩, by simp only [got, acks]; omega⟩
      simp only [acks] at hrd ⊢
      omega
    · cases hs
  | ack k =>
    obtain ⟨h1, h2⟩ := hv.r
    simp only [got] at hle
    simp only [acks] at hrd
    simp only [rStep] at hs
    split at hs
    · rename_i hk
      injection hs with hs
      subst hs
      refine ⟨⟨hv.s, trivial, by simp only [got]; omega, by simp only [acks]; omega⟩, by simp only [got, acks]; omega⟩
    · rename_i hk
      injection hs with hs
      subst hs
      refine ⟨⟨hv.s, by simp only [RValid]; omega, by simp only [got]; omega, by simp only [acks]; omega⟩,
        by simp only [got, acks]; omega⟩

theorem bounds {sp rp} (hv : x.Valid sp rp) (hM : 0 < x.M) (hc : 0 < x.c) :
    x.sent sp ≤ x.c ∧ x.reads sp ≤ x.c + 2 ∧ x.got rp ≤ x.c ∧ x.acks rp ≤ x.c + 1 := by
  refine ⟨?_, ?_, ?_, ?_⟩
  · cases sp with
    | wait => simp [sent]
    | loop s infl => exact hv.s.1
    | fin => simp [sent]
  · cases sp with
    | wait => simp [reads]
    | loop s infl => have := hv.s.1; simp only [reads]; omega
    | fin => simp only [reads]; omega
  · cases rp with
    | start => simp [got]
    | want k => have := hv.r; simp only [RValid] at this; simp only [got]; omega
    | ack k => have := hv.r; simp only [RValid] at this; simp only [got]; omega
    | fin => simp [got]
  · cases rp with
    | start => simp [acks]
    | want k => have := hv.r; simp only [RValid] at this; simp only [acks]; omega
    | ack k => have := hv.r; simp only [RValid] at this; simp only [acks]; omega
    | fin => simp only [acks]; omega

/-- As long as the transfer is not complete, one of the two can make a step. -/
theorem progress (h : x.OK prm) {sp rp} (hv : x.Valid sp rp) (hne : ¬ (sp = .fin ∧ rp = .fin)) :
    (∃ sp', x.sStep sp rp = some sp') ∨ (∃ rp', x.rStep sp rp = some rp') := by
  have hM := h.M
  have hc := c_pos h
  cases rp with
  | start => exact Or.inr ⟨_, rfl⟩
  | ack k =>
    right
    simp only [rStep]
    split
    · exact ⟨_, rfl⟩
    · exact ⟨_, rfl⟩
  | want k =>
    by_cases hk : k < x.sent sp
    · right
      exact ⟨.ack (k + 1), by simp only [rStep, if_pos hk]⟩
    · left
      have hkc := hv.r
      simp only [RValid] at hkc
      cases sp with
      | wait =>
        refine ⟨.loop 0 0, ?_⟩
        simp only [sStep]
        rw [if_neg]
        simp only [avail, acks, reads]
        omega
      | loop s infl =>
        simp only [sent] at hk
        obtain ⟨h1, h2⟩ := hv.s
        simp only [sStep]
        split
        · exact ⟨_, rfl⟩
        · rw [if_neg (by simp only [avail, acks, reads]; omega)]
          split
          · exact ⟨_, rfl⟩
          · exact ⟨_, rfl⟩
      | fin =>
        simp only [sent] at hk
        omega
  | fin =>
    left
    have hle := hv.le
    simp only [got] at hle
    cases sp with
    | wait => simp only [sent] at hle; omega
    | loop s infl =>
      simp only [sent] at hle
      obtain ⟨h1, h2⟩ := hv.s
      simp only [sStep]
      split
      · exact ⟨_, rfl⟩
      · rw [if_neg (by simp only [avail, acks, reads]; omega)]
        split
        · exact ⟨_, rfl⟩
        · exact ⟨_, rfl⟩
    | fin => exact absurd ⟨rfl, rfl⟩ hne

theorem sStep_mono {sp sp' rp} (hs : x.sStep sp rp = some sp') (hv : x.Valid sp rp) (hM : 0 < x.M) :
    x.sent sp ≤ x.sent sp' ∧ x.reads sp ≤ x.reads sp' := by
  cases sp with
  | wait =>
    simp only [sStep] at hs
    split at hs
    · cases hs
    · injection hs with hs
      subst hs
      simp [sent, reads]
  | loop s infl =>
    obtain ⟨h1, h2⟩ := hv.s
    simp only [sStep] at hs
    split at hs
    · injection hs with hs
      subst hs
      simp only [sent, reads]
      omega
    · split at hs
      · cases hs
      · split at hs
        · injection hs with hs
          subst hs
          simp only [sent, reads]
          omega
        · injection hs with hs
          subst hs
          simp only [sent, reads]
          omega
  | fin => simp [sStep] at hs

theorem rStep_mono {sp rp rp'} (hs : x.rStep sp rp = some rp') : x.got rp ≤ x.got rp' := by
  cases rp with
  | start =>
    simp only [rStep, Option.some.injEq] at hs
    subst hs
    simp [got]
  | want k =>
    simp only [rStep] at hs
    split at hs
    · injection hs with hs
      subst hs
      simp [got]
    · cases hs
  | ack k =>
    simp only [rStep] at hs
    split at hs
    · rename_i hk
      injection hs with hs
      subst hs
      simp [got, hk]
    · injection hs with hs
      subst hs
      simp [got]
  | fin => simp [rStep] at hs

/-- As long as the transfer is not complete, one of the two can make a step such that at most one chunk is on the way,
and never more than one acknowledgement, or than are left at the end. -/
theorem progress_room (h : x.OK prm) {sp rp} (hv : x.Valid sp rp) (hne : ¬ (sp = .fin ∧ rp = .fin)) {B : Nat} (hB : 0 < B)
    (hB' : x.stale + (min x.c x.M - 1) ≤ B) (hd : x.sent sp ≤ x.got rp + 1) (ha : x.avail sp rp ≤ B) :
    (∃ sp', x.sStep sp rp = some sp' ∧ x.sent sp' ≤ x.got rp + 1) ∨
      (∃ rp', x.rStep sp rp = some rp' ∧ x.avail sp rp' ≤ B) := by
  have hM := h.M
  have hc := c_pos h
  have hrd := hv.reads
  cases rp with
  | start =>
    by_cases hf : x.avail sp .start < B
    · refine Or.inr ⟨_, rfl, ?_⟩
      simp only [avail, acks] at hf ⊢
      omega
    · left
      cases sp with
      | wait =>
        refine ⟨.loop 0 0, ?_, by simp [sent]⟩
        simp only [sStep]
        rw [if_neg (by omega)]
      | loop s infl =>
        obtain ⟨h1, h2⟩ := hv.s
        simp only [avail, acks, reads] at hf hrd
        omega
      | fin =>
        simp only [avail, acks, reads] at hf hrd
        omega
  | ack k =>
    have hk := hv.r
    simp only [RValid] at hk
    have hle := hv.le
    by_cases hf : x.avail sp (.ack k) < B
    · right
      simp only [rStep]
      split
      · refine ⟨_, rfl, ?_⟩
        simp only [avail, acks] at hf ⊢
        omega
      · refine ⟨_, rfl, ?_⟩
        simp only [avail, acks] at hf ⊢
        omega
    · left
      cases sp with
      | wait => simp only [sent, got] at hle; omega
      | loop s infl =>
        obtain ⟨h1, h2⟩ := hv.s
        simp only [sent, got] at hle hd
        have hav : x.avail (.loop s infl) (.ack k) ≠ 0 := by omega
        simp only [avail, acks, reads] at hf hrd
        simp only [sStep]
        rw [if_neg (by omega), if_neg hav]
        split
        · exact ⟨_, rfl, by simp only [sent, got]; omega⟩
        · exact ⟨_, rfl, by simp only [sent, got]; omega⟩
      | fin =>
        simp only [avail, acks, reads] at hf hrd
        omega
  | want k =>
    by_cases hk : k < x.sent sp
    · right
      exact ⟨.ack (k + 1), by simp only [rStep, if_pos hk], by simp only [avail, acks] at ha ⊢; omega⟩
    · left
      rcases progress h hv hne with ⟨sp', hs⟩ | ⟨rp', hs⟩
      · refine ⟨sp', hs, ?_⟩
        have hkc := hv.r
        simp only [RValid] at hkc
        simp only [got]
        cases sp with
        | wait =>
          simp only [sStep] at hs
          split at hs
          · cases hs
          · injection hs with hs
            subst hs
            simp [sent]
        | loop s infl =>
          simp only [sent] at hk
          simp only [sStep] at hs
          split at hs
          · injection hs with hs
            subst hs
            simp only [sent]
            omega
          · split at hs
            · cases hs
            · split at hs
              · injection hs with hs
                subst hs
                simp only [sent]
                omega
              · omega
        | fin => simp [sStep] at hs
      · simp [rStep, hk] at hs
  | fin =>
    rcases progress h hv hne with ⟨sp', hs⟩ | ⟨rp', hs⟩
    · left
      refine ⟨sp', hs, ?_⟩
      have := bounds (valid_sStep h hv hs).1 hM hc
      simp only [got]
      omega
    · simp [rStep] at hs

theorem runsB_fin (h : x.OK prm) (he : x.ep = nextTask x.tp) (he' : x.er = nextTask x.tq)
    {cap : Pid × Pid → Option Nat} (hcd : hasRoom (cap (some x.p, some x.q)) 1 = true) {B : Nat} (hB : 0 < B)
    (hB' : x.stale + (min x.c x.M - 1) ≤ B) (hca : hasRoom (cap (some x.q, some x.p)) B = true) (pm f buf) (m : Nat)
    {sp rp} (hv : x.Valid sp rp) (hd : x.sent sp ≤ x.got rp + 1) (ha : x.avail sp rp ≤ B)
    (hm : 4 * x.c + 3 - (x.sent sp + x.reads sp + (x.got rp + x.acks rp)) ≤ m) :
    RunsB (netAct prm) cap (x.cfg pm f buf sp rp) (x.cfg pm f buf .fin .fin) := by
  have hc := c_pos h
  have hpq : (some x.p : Pid) ≠ some x.q := by simpa using h.ne
  induction m generalizing sp rp with
  | zero =>
    by_cases hne : sp = .fin ∧ rp = .fin
    · obtain ⟨rfl, rfl⟩ := hne
      exact RunsB.refl _
    · exfalso
      rcases progress h hv hne with ⟨sp', hs⟩ | ⟨rp', hs⟩
      · obtain ⟨hv', e⟩ := valid_sStep h hv hs
        have := bounds hv' h.M hc
        omega
      · obtain ⟨hv', e⟩ := valid_rStep hc hv hs
        have := bounds hv' h.M hc
        omega
  | succ m ih =>
    by_cases hne : sp = .fin ∧ rp = .fin
    · obtain ⟨rfl, rfl⟩ := hne
      exact RunsB.refl _
    · rcases progress_room h hv hne hB hB' hd ha with ⟨sp', hs, hr⟩ | ⟨rp', hs, hr⟩
      · obtain ⟨hv', e⟩ := valid_sStep h hv hs
        have hmono := sStep_mono hs hv h.M
        have hsp : sp ≠ .fin := by
          rintro rfl
          simp [sStep] at hs
        refine RunsB.trans (RunsB.single (p := some x.p) (stepB_of_room ?_ ?_)) (ih hv' hr ?_ (by omega))
        · rw [step_p h he pm f buf hv hsp, hs]
          rfl
        · intro y
          have hy : (some x.p, y) ≠ ((some x.q, some x.p) : Pid × Pid) := fun e => hpq (Prod.ext_iff.1 e).1
          by_cases hyq : y = some x.q
          · subst hyq
            right
            simp only [cfg, netCfg, Function.update_of_ne hy, Function.update_self, dbuf, List.length_map, List.length_range']
            exact hasRoom_mono hcd (by omega)
          · left
            have hy' : (some x.p, y) ≠ ((some x.p, some x.q) : Pid × Pid) := fun e => hyq (Prod.ext_iff.1 e).2
            simp only [cfg, netCfg, Function.update_of_ne hy, Function.update_of_ne hy']
            exact le_rfl
        · simp only [avail] at ha ⊢
          omega
      · obtain ⟨hv', e⟩ := valid_rStep hc hv hs
        have hmono := rStep_mono hs
        have hrp : rp ≠ .fin := by
          rintro rfl
          simp [rStep] at hs
        refine RunsB.trans (RunsB.single (p := some x.q) (stepB_of_room ?_ ?_)) (ih hv' (by omega) hr (by omega))
        · rw [step_q h he' pm f buf hv hrp, hs]
          rfl
        · intro y
          by_cases hyp : y = some x.p
          · subst hyp
            right
            simp only [cfg, netCfg, Function.update_self, List.length_replicate]
            exact hasRoom_mono hca hr
          · left
            have hy : (some x.q, y) ≠ ((some x.q, some x.p) : Pid × Pid) := fun e => hyp (Prod.ext_iff.1 e).2
            have hy' : (some x.q, y) ≠ ((some x.p, some x.q) : Pid × Pid) := fun e => hpq (Prod.ext_iff.1 e).1.symm
            simp only [cfg, netCfg, Function.update_of_ne hy, Function.update_of_ne hy']
            exact le_rfl

/-- The configuration before the transfer. -/
theorem cfg_start {pm f} {buf : Pid × Pid → List NMsg} (hp : f x.p = ⟨x.bp, nextTask (.sendTo x.q :: x.tp), x.cp⟩)
    (hq : f x.q = ⟨x.bq, nextTask (.recvFrom x.p x.ow :: x.tq), x.cq⟩)
    (hd : buf (some x.p, some x.q) = []) (ha : buf (some x.q, some x.p) = List.replicate x.stale (.accept x.C x.M)) :
    x.cfg pm f buf .wait .start = netCfg pm f buf := by
  unfold cfg
  congr 1
  · rw [update_keep f x.p (by rw [hp]; rfl), update_keep f x.q]
    rw [hq]
    simp [got, applied_zero, rPc, nextTask]
  · rw [update_keep buf _ (by rw [hd]; simp [dbuf, got, sent]), update_keep buf _ (by rw [ha]; simp [avail, acks, reads])]

/-- The configuration after the transfer. -/
theorem cfg_fin (h : x.OK prm) {pm f} {buf : Pid × Pid → List NMsg} (he : x.ep = nextTask x.tp)
    (he' : x.er = nextTask x.tq) (hd : buf (some x.p, some x.q) = []) :
    x.cfg pm f buf .fin .fin = netCfg pm
      (Function.update (Function.update f x.p ⟨x.bp, nextTask x.tp, x.cp⟩) x.q
        ⟨{ x.bq with state := if x.ow then x.bp.state else List.zipWith (· + ·) x.bq.state x.bp.state },
          nextTask x.tq, x.cq⟩)
      (Function.update buf (some x.q, some x.p)
        (List.replicate (x.stale + (min x.c x.M - 1)) (.accept x.C x.M))) := by
  have hc := c_pos h
  have hM := h.M
  unfold cfg
  congr 1
  · rw [show x.got .fin = x.c from rfl, applied_end h]
    simp only [sPc, rPc, he, he']
  · rw [update_keep buf _ (by rw [hd]; simp [dbuf, got, sent])]
    congr 2
    simp only [avail, acks, reads]
    omega

/-- A whole transfer, other processes waiting, with room for one chunk, and for the acknowledgements left at the end (at
least one). -/
theorem runB (h : x.OK prm) (he : x.ep = nextTask x.tp) (he' : x.er = nextTask x.tq) {cap : Pid × Pid → Option Nat}
    (hcd : hasRoom (cap (some x.p, some x.q)) 1 = true) (hca1 : hasRoom (cap (some x.q, some x.p)) 1 = true)
    (hca : hasRoom (cap (some x.q, some x.p)) (x.stale + (min x.c x.M - 1)) = true)
    {pm f} {buf : Pid × Pid → List NMsg} (hp : f x.p = ⟨x.bp, nextTask (.sendTo x.q :: x.tp), x.cp⟩)
    (hq : f x.q = ⟨x.bq, nextTask (.recvFrom x.p x.ow :: x.tq), x.cq⟩)
    (hd : buf (some x.p, some x.q) = []) (ha : buf (some x.q, some x.p) = List.replicate x.stale (.accept x.C x.M)) :
    RunsB (netAct prm) cap (netCfg pm f buf) (netCfg pm
      (Function.update (Function.update f x.p ⟨x.bp, nextTask x.tp, x.cp⟩) x.q
        ⟨{ x.bq with state := if x.ow then x.bp.state else List.zipWith (· + ·) x.bq.state x.bp.state },
          nextTask x.tq, x.cq⟩)
      (Function.update buf (some x.q, some x.p)
        (List.replicate (x.stale + (min x.c x.M - 1)) (.accept x.C x.M)))) := by
  rw [← cfg_start hp hq hd ha, ← cfg_fin h he he' hd]
  refine runsB_fin h he he' (B := max 1 (x.stale + (min x.c x.M - 1))) hcd (by omega) (by omega) ?_ pm f buf _
    ⟨trivial, trivial, ?_, ?_⟩ ?_ ?_ le_rfl
  · rcases le_total 1 (x.stale + (min x.c x.M - 1)) with h | h
    · rw [max_eq_right h]; exact hca
    · rw [max_eq_left h]; exact hca1
  · simp [got, sent]
  · simp [reads]
  · simp [got, sent]
  · simp only [avail, acks, reads]
    omega

/-- A whole transfer, other processes waiting. -/
theorem run (h : x.OK prm) (he : x.ep = nextTask x.tp) (he' : x.er = nextTask x.tq) {pm f} {buf : Pid × Pid → List NMsg}
    (hp : f x.p = ⟨x.bp, nextTask (.sendTo x.q :: x.tp), x.cp⟩)
    (hq : f x.q = ⟨x.bq, nextTask (.recvFrom x.p x.ow :: x.tq), x.cq⟩)
    (hd : buf (some x.p, some x.q) = []) (ha : buf (some x.q, some x.p) = List.replicate x.stale (.accept x.C x.M)) :
    Runs (netAct prm) (netCfg pm f buf) (netCfg pm
      (Function.update (Function.update f x.p ⟨x.bp, nextTask x.tp, x.cp⟩) x.q
        ⟨{ x.bq with state := if x.ow then x.bp.state else List.zipWith (· + ·) x.bq.state x.bp.state },
          nextTask x.tq, x.cq⟩)
      (Function.update buf (some x.q, some x.p)
        (List.replicate (x.stale + (min x.c x.M - 1)) (.accept x.C x.M)))) :=
  (runB (cap := noCap) h he he' rfl rfl rfl hp hq hd ha).runs

end Xfer

end QIP
