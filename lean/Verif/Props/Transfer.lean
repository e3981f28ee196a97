import Verif.Lemmas.NetStep

/-!
# One transfer of amplitudes between two workers (C62, C63)
-/

namespace QIP.Props

open QIP

variable {prm : Wid → WParam} {p q : Wid} {ow : Bool} {bp bq : BState} {cp cq stale : Nat} {f : Wid → WSt}
  {buf : Pid × Pid → List NMsg} {r : Except PyErr (Option (Nat × ℝ))}

/-- `p` is about to send its amplitudes to `q`, nothing else happens, `stale` unread acknowledgements are on the way from
`q` to `p` and no other messages. -/
structure PairStart (prm : Wid → WParam) (p q : Wid) (ow : Bool) (bp bq : BState) (cp cq stale : Nat) (f : Wid → WSt)
    (buf : Pid × Pid → List NMsg) : Prop where
  ne : p ≠ q
  chunk : 0 < (prm q).chunk
  inflight : 0 < (prm q).inflight
  sender : f p = ⟨bp, .xfer (.sAccept q) [], cp⟩
  receiver : f q = ⟨bq, .xfer (.rAccept p ow) [], cq⟩
  others : ∀ w, w ≠ p → w ≠ q → (f w).pc = .closed
  acks : buf (some q, some p) = List.replicate stale (.accept (prm q).chunk (prm q).inflight)
  empty : ∀ e, e ≠ (some q, some p) → buf e = []

/-! ## C62 -/

/-- The transfer as data for the lemmas. -/
def xferOf (prm : Wid → WParam) (p q : Wid) (ow : Bool) (bp bq : BState) (cp cq stale : Nat) : Xfer :=
  ⟨p, q, ow, (prm q).chunk, (prm q).inflight, stale, [], [], bp, bq, cp, cq, .reply .conf, .reply .conf⟩

theorem xferOf_ok (h : PairStart prm p q ow bp bq cp cq stale f buf) (hN : 0 < bp.state.length)
    (hlen : bq.state.length = bp.state.length) : (xferOf prm p q ow bp bq cp cq stale).OK prm :=
  ⟨h.ne, h.chunk, h.inflight, hN, hlen, rfl, rfl⟩

/-- C62 (vectors that are not empty): whatever the chunk size, the number of chunks in flight and the unread
acknowledgements of earlier transfers, every execution of a transfer ends; at the end the receiver's amplitudes are the
sender's (overwrite), or the sender's have been added once to the receiver's; all else is unchanged, no chunk is left
over, and both workers have reported. -/
theorem C62_transfer_partial (h : PairStart prm p q ow bp bq cp cq stale f buf) (hN : 0 < bp.state.length)
    (hlen : bq.state.length = bp.state.length) :
    ∃ g, AlwaysEnds (netAct prm) (netCfg (.done r) f buf) g ∧
      g.loc (some p) = .wkr ⟨bp, .idle, cp⟩ ∧
      g.loc (some q) = .wkr ⟨{ bq with state := if ow then bp.state else List.zipWith (· + ·) bq.state bp.state }, .idle, cq⟩ ∧
      g.buf (some p, some q) = [] ∧ g.buf (some p, none) = [.conf] ∧ g.buf (some q, none) = [.conf] ∧
      ∀ w, w ≠ p → w ≠ q → g.loc (some w) = .wkr (f w) := by
  have hok := xferOf_ok h hN hlen
  have hd : buf (some p, some q) = [] := h.empty _ (Xfer.key_ne hok)
  have h1 := Xfer.run hok rfl rfl (pm := .done r) (f := f) (buf := buf) (by rw [show (xferOf prm p q ow bp bq cp cq stale).p = p from rfl, h.sender]; rfl)
    (by rw [show (xferOf prm p q ow bp bq cp cq stale).q = q from rfl, h.receiver]; rfl) hd h.acks
  simp only [xferOf, nextTask] at h1
  generalize hf1 : Function.update (Function.update f p ⟨bp, Pc.reply .conf, cp⟩) q
    ⟨{ bq with state := if ow then bp.state else List.zipWith (· + ·) bq.state bp.state }, Pc.reply .conf, cq⟩ = f1
  generalize hk : (List.replicate _ (NMsg.accept (prm q).chunk (prm q).inflight)) = acc at h1
  replace h1 : Runs (netAct prm) (netCfg (.done r) f buf)
      (netCfg (.done r) f1 (Function.update buf (some q, some p) acc)) := by
    rw [← hf1]; exact h1
  have h2 := worker_reply (prm := prm) (pm := .done r) (buf := Function.update buf (some q, some p) acc) (f := f1)
    (w := p) (b := bp) (m := .conf) (cnt := cp) (by rw [← hf1]; simp [Function.update_of_ne h.ne])
  have h3 := worker_reply (prm := prm) (pm := .done r)
    (buf := Function.update (Function.update buf (some q, some p) acc) (some p, none)
      (Function.update buf (some q, some p) acc (some p, none) ++ [.conf]))
    (f := Function.update f1 p ⟨bp, .idle, cp⟩) (w := q)
    (b := { bq with state := if ow then bp.state else List.zipWith (· + ·) bq.state bp.state }) (m := .conf) (cnt := cq)
    (by rw [Function.update_of_ne h.ne.symm, ← hf1]; simp)
  refine ⟨_, Runs.alwaysEnds ((h1.trans h2).trans h3) (stuck_of ?_), ?_, ?_, ?_, ?_, ?_, ?_⟩
  · intro w
    by_cases hq : w = q
    · subst hq
      refine Or.inr (Or.inr ⟨by simp, ?_⟩)
      simp [h.empty]
    · by_cases hp : w = p
      · subst hp
        refine Or.inr (Or.inr ⟨by simp [Function.update_of_ne hq], ?_⟩)
        simp [h.empty]
      · left
        simp [← hf1, Function.update_of_ne hq, Function.update_of_ne hp, h.others w hp hq]
  · simp [netCfg, Function.update_of_ne h.ne]
  · simp [netCfg]
  · simp [netCfg, Function.update_of_ne (Xfer.key_ne hok), hd, show ((some p, some q) : Pid × Pid) ≠ (some q, some p) from Xfer.key_ne hok]
  · simp [netCfg, h.ne, h.empty]
  · simp [netCfg, h.ne.symm, h.empty]
  · intro w hp hq
    simp [netCfg, ← hf1, Function.update_of_ne hp, Function.update_of_ne hq]

/-- C62 (negation of the full property): with an empty vector the sender reports at once and the receiver waits for a
first chunk for ever. -/
theorem C62_empty_false (h : PairStart prm p q ow bp bq cp cq 0 f buf) (hN : bp.state.length = 0) :
    ∃ g, AlwaysEnds (netAct prm) (netCfg (.done r) f buf) g ∧ g.loc (some q) = .wkr ⟨bq, .xfer (.rData p ow) [], cq⟩ := by
  have hkey : ((some p, some q) : Pid × Pid) ≠ (some q, some p) := by
    intro e
    simp only [Prod.mk.injEq, Option.some.injEq] at e
    exact h.ne e.1
  have h1 := worker_send (prm := prm) (pm := .done r) (f := f) (buf := buf) (w := q) (q := some p)
    (m := .accept (prm q).chunk (prm q).inflight) (s := ⟨bq, .xfer (.rData p ow) [], cq⟩) (by rw [h.receiver]; rfl)
  have h2 := worker_recv (prm := prm) (pm := .done r) (f := Function.update f q ⟨bq, .xfer (.rData p ow) [], cq⟩)
    (buf := Function.update buf (some q, some p)
      (buf (some q, some p) ++ [.accept (prm q).chunk (prm q).inflight])) (w := p) (q := some q)
    (m := .accept (prm q).chunk (prm q).inflight) (rest := [])
    (k := fun m => match m with
      | .accept ch mx =>
        if 0 < bp.state.length then ⟨bp, .xfer (.sLoop q 0 0 ch mx) [], cp⟩ else ⟨bp, nextTask [], cp⟩
      | _ => ⟨bp, .crashed, cp⟩)
    (by rw [Function.update_of_ne h.ne, h.sender]; rfl) (by simp [h.acks])
  rw [hN] at h2
  simp only [lt_irrefl, if_false, nextTask] at h2
  have h3 := worker_reply (prm := prm) (pm := .done r)
    (f := Function.update (Function.update f q ⟨bq, .xfer (.rData p ow) [], cq⟩) p ⟨bp, .reply .conf, cp⟩)
    (buf := Function.update (Function.update buf (some q, some p)
      (buf (some q, some p) ++ [.accept (prm q).chunk (prm q).inflight])) (some q, some p) []) (w := p)
    (b := bp) (m := .conf) (cnt := cp) (by simp)
  refine ⟨_, Runs.alwaysEnds ((h1.trans h2).trans h3) ?_, by simp [netCfg, Function.update_of_ne h.ne.symm]⟩
  intro x
  rcases x with _ | w
  · simp [stepP, netAct, netCfg]
  by_cases hq : w = q
  · subst hq
    unfold stepP
    have e : (netCfg (.done r) (Function.update (Function.update (Function.update f w ⟨bq, .xfer (.rData p ow) [], cq⟩) p
      ⟨bp, .reply .conf, cp⟩) p ⟨bp, .idle, cp⟩) (Function.update (Function.update (Function.update buf (some w, some p)
      (buf (some w, some p) ++ [.accept (prm w).chunk (prm w).inflight])) (some w, some p) []) (some p, none)
      ((Function.update (Function.update buf (some w, some p)
      (buf (some w, some p) ++ [.accept (prm w).chunk (prm w).inflight])) (some w, some p) []) (some p, none) ++ [.conf]))).loc
        (some w) = .wkr ⟨bq, .xfer (.rData p ow) [], cq⟩ := by
      simp [netCfg, Function.update_of_ne h.ne.symm]
    rw [e]
    simp only [netAct, workerAct]
    have eb : (netCfg (.done r) (Function.update (Function.update (Function.update f w ⟨bq, .xfer (.rData p ow) [], cq⟩) p
      ⟨bp, .reply .conf, cp⟩) p ⟨bp, .idle, cp⟩) (Function.update (Function.update (Function.update buf (some w, some p)
      (buf (some w, some p) ++ [.accept (prm w).chunk (prm w).inflight])) (some w, some p) []) (some p, none)
      ((Function.update (Function.update buf (some w, some p)
      (buf (some w, some p) ++ [.accept (prm w).chunk (prm w).inflight])) (some w, some p) []) (some p, none) ++ [.conf]))).buf
        (some p, some w) = [] := by
      simp [netCfg, h.ne, h.ne.symm, h.empty, hkey]
    rw [eb]
  · unfold stepP
    by_cases hp : w = p
    · subst hp
      simp [netCfg, netAct, workerAct, h.empty]
    · simp [netCfg, netAct, workerAct, h.others w hp hq, Function.update_of_ne hp, Function.update_of_ne hq]

/-! ## C63 -/

/-- 1 if the process has received a chunk and not yet acknowledged it. -/
def pendingAck : NLoc → Nat
  | .wkr ⟨_, .xfer (.rAck _ _ _) _, _⟩ => 1
  | _ => 0

/-- Chunks sent by `p` to `q` that `q` has not acknowledged: those on the way, and the one `q` has received but not
acknowledged. -/
def unacked (p q : Wid) (g : Cfg Pid NMsg NLoc) : Nat :=
  (g.buf (some p, some q)).length + pendingAck (g.loc (some q))

/-- The configurations of a transfer between two workers that then report. -/
def PairInv (x0 : Xfer) (r : Except PyErr (Option (Nat × ℝ))) (g : Cfg Pid NMsg NLoc) : Prop :=
  ∃ (ep er : Pc) (f : Wid → WSt) (buf : Pid × Pid → List NMsg) (sp : Xfer.SP) (rp : Xfer.RP),
    g = ({ x0 with ep := ep, er := er } : Xfer).cfg (.done r) f buf sp rp ∧
    ({ x0 with ep := ep, er := er } : Xfer).Valid sp rp ∧
    (sp ≠ .fin → ep = .reply .conf) ∧ (rp ≠ .fin → er = .reply .conf) ∧ (ep = .reply .conf ∨ ep = .idle) ∧
    (er = .reply .conf ∨ er = .idle) ∧ (∀ w, w ≠ x0.p → w ≠ x0.q → (f w).pc = .closed) ∧
    buf (none, some x0.p) = [] ∧ buf (none, some x0.q) = []

theorem PairInv.step {x0 : Xfer} (hok : x0.OK prm) (htp : x0.tp = []) (htq : x0.tq = []) {g g' : Cfg Pid NMsg NLoc}
    (h : PairInv x0 r g) {y : Pid} (hs : stepP (netAct prm) y g = some g') : PairInv x0 r g' := by
  obtain ⟨ep, er, f, buf, sp, rp, rfl, hv, h1, h2, h3, h4, ho, hb1, hb2⟩ := h
  generalize hx : ({ x0 with ep := ep, er := er } : Xfer) = x at *
  have hokx : x.OK prm := by subst hx; exact ⟨hok.ne, hok.C, hok.M, hok.N, hok.len, hok.chunk, hok.inflight⟩
  have hp0 : x.p = x0.p := by subst hx; rfl
  have hq0 : x.q = x0.q := by subst hx; rfl
  have hep : x.ep = ep := by subst hx; rfl
  have her : x.er = er := by subst hx; rfl
  have htp' : x.tp = [] := by subst hx; exact htp
  have htq' : x.tq = [] := by subst hx; exact htq
  rcases y with _ | w
  · simp [stepP, netAct, Xfer.cfg, netCfg] at hs
  by_cases hwp : w = x.p
  · subst hwp
    by_cases hsp : sp = .fin
    · subst hsp
      unfold stepP netAct at hs
      rw [Xfer.cfg_loc_p hokx] at hs
      simp only [Xfer.sPc, hep] at hs
      rcases h3 with rfl | rfl
      · simp only [workerAct, Option.some.injEq] at hs
        refine ⟨.idle, er, f, Function.update buf (some x.p, none) (buf (some x.p, none) ++ [.conf]), .fin, rp, ?_,
          ?_, fun h => absurd rfl h, h2, Or.inr rfl, h4, ho, ?_, ?_⟩
        · rw [← hs]
          subst hx
          apply cfg_ext
          · simp only [Xfer.cfg]
            rw [Xfer.netCfg_update, Function.update_comm hok.ne.symm, Function.update_idem]
            rfl
          · simp only [Xfer.cfg, netCfg]
            have k1 : ((some x0.p, none) : Pid × Pid) ≠ (some x0.p, some x0.q) := by simp
            have k2 : ((some x0.p, none) : Pid × Pid) ≠ (some x0.q, some x0.p) := by simp
            rw [Function.update_comm k2.symm, Function.update_comm k1.symm, Function.update_of_ne k2, Function.update_of_ne k1]
            rfl
        · subst hx
          exact ⟨hv.s, hv.r, hv.le, hv.reads⟩
        · simpa using hb1
        · simpa using hb2
      · exfalso
        have hb : (x.cfg (.done r) f buf .fin rp).buf (none, some x.p) = [] := by
          simp [Xfer.cfg, netCfg, hp0, hb1]
        simp only [workerAct, hb] at hs
        cases hs
    · have he : x.ep = nextTask x.tp := by rw [hep, htp', h1 hsp]; rfl
      rw [Xfer.step_p hokx he _ _ _ hv hsp] at hs
      rcases hst : x.sStep sp rp with _ | sp' <;> rw [hst] at hs
      · cases hs
      simp only [Option.map_some, Option.some.injEq] at hs
      refine ⟨ep, er, f, buf, sp', rp, ?_, ?_, fun _ => h1 hsp, h2, h3, h4, ho, hb1, hb2⟩
      · rw [hx, hs]
      · rw [hx]; exact (Xfer.valid_sStep hokx hv hst).1
  by_cases hwq : w = x.q
  · subst hwq
    by_cases hrp : rp = .fin
    · subst hrp
      unfold stepP netAct at hs
      rw [Xfer.cfg_loc_q] at hs
      simp only [Xfer.rPc, her] at hs
      rcases h4 with rfl | rfl
      · simp only [workerAct, Option.some.injEq] at hs
        refine ⟨ep, .idle, f, Function.update buf (some x.q, none) (buf (some x.q, none) ++ [.conf]), sp, .fin, ?_,
          ?_, h1, fun h => absurd rfl h, h3, Or.inr rfl, ho, ?_, ?_⟩
        · rw [← hs]
          subst hx
          apply cfg_ext
          · simp only [Xfer.cfg]
            rw [Xfer.netCfg_update, Function.update_idem]
            rfl
          · simp only [Xfer.cfg, netCfg]
            have k1 : ((some x0.q, none) : Pid × Pid) ≠ (some x0.p, some x0.q) := by simp
            have k2 : ((some x0.q, none) : Pid × Pid) ≠ (some x0.q, some x0.p) := by simp
            rw [Function.update_comm k2.symm, Function.update_comm k1.symm, Function.update_of_ne k2, Function.update_of_ne k1]
            rfl
        · subst hx
          exact ⟨hv.s, hv.r, hv.le, hv.reads⟩
        · simpa using hb1
        · simpa using hb2
      · exfalso
        have hb : (x.cfg (.done r) f buf sp .fin).buf (none, some x.q) = [] := by
          simp [Xfer.cfg, netCfg, hq0, hb2]
        simp only [workerAct, hb] at hs
        cases hs
    · have he : x.er = nextTask x.tq := by rw [her, htq', h2 hrp]; rfl
      rw [Xfer.step_q hokx he _ _ _ hv hrp] at hs
      rcases hst : x.rStep sp rp with _ | rp' <;> rw [hst] at hs
      · cases hs
      simp only [Option.map_some, Option.some.injEq] at hs
      refine ⟨ep, er, f, buf, sp, rp', ?_, ?_, h1, fun _ => h2 hrp, h3, h4, ho, hb1, hb2⟩
      · rw [hx, hs]
      · rw [hx]; exact (Xfer.valid_rStep (Xfer.c_pos hokx) hv hst).1
  · exfalso
    have hc := ho w (by rw [← hp0]; exact hwp) (by rw [← hq0]; exact hwq)
    simp [stepP, netAct, Xfer.cfg, netCfg, Function.update_of_ne hwp, Function.update_of_ne hwq, workerAct, hc] at hs

theorem PairInv.unacked {x0 : Xfer} (hok : x0.OK prm) (h0 : x0.stale = 0) {g : Cfg Pid NMsg NLoc} (h : PairInv x0 r g) :
    unacked x0.p x0.q g ≤ x0.M := by
  obtain ⟨ep, er, f, buf, sp, rp, rfl, hv, h1, h2, h3, h4, ho, hb1, hb2⟩ := h
  generalize hx : ({ x0 with ep := ep, er := er } : Xfer) = x at *
  have hokx : x.OK prm := by subst hx; exact ⟨hok.ne, hok.C, hok.M, hok.N, hok.len, hok.chunk, hok.inflight⟩
  have hp0 : x.p = x0.p := by subst hx; rfl
  have hq0 : x.q = x0.q := by subst hx; rfl
  have hM0 : x.M = x0.M := by subst hx; rfl
  have her : x.er = er := by subst hx; rfl
  have hs0 : x.stale = 0 := by subst hx; exact h0
  rw [← hp0, ← hq0, ← hM0]
  unfold Props.unacked
  rw [Xfer.cfg_buf_pq hokx, Xfer.cfg_loc_q]
  have hl : (x.dbuf sp rp).length = x.sent sp - x.got rp := by simp [Xfer.dbuf]
  rw [hl]
  have hM := hokx.M
  have hc := Xfer.c_pos hokx
  have hle := hv.le
  have hrd := hv.reads
  have hvs := hv.s
  have hvr := hv.r
  have hbd := Xfer.bounds hv hM hc
  rw [hs0] at hrd
  cases rp with
  | start =>
    cases sp with
    | wait => simp [Xfer.sent, Xfer.rPc, pendingAck]
    | loop s infl => simp only [Xfer.reads, Xfer.acks] at hrd; omega
    | fin => simp only [Xfer.reads, Xfer.acks] at hrd; omega
  | want k =>
    simp only [Xfer.rPc, pendingAck]
    cases sp with
    | wait => simp [Xfer.sent]
    | loop s infl =>
      simp only [Xfer.reads, Xfer.acks, Xfer.sent, Xfer.got, Xfer.SValid] at *
      omega
    | fin =>
      simp only [Xfer.reads, Xfer.acks, Xfer.sent, Xfer.got] at *
      omega
  | ack k =>
    simp only [Xfer.rPc, pendingAck]
    cases sp with
    | wait => simp only [Xfer.sent, Xfer.got, Xfer.RValid] at *; omega
    | loop s infl =>
      simp only [Xfer.reads, Xfer.acks, Xfer.sent, Xfer.got, Xfer.SValid, Xfer.RValid] at *
      omega
    | fin =>
      simp only [Xfer.reads, Xfer.acks, Xfer.sent, Xfer.got, Xfer.RValid] at *
      omega
  | fin =>
    have : x.sent sp - x.got .fin = 0 := by
      simp only [Xfer.got] at *; omega
    rw [this]
    simp only [Xfer.rPc, her]
    rcases h4 with rfl | rfl <;> simp [pendingAck]

/-- C63 (first transfer over a connection): at no time during the transfer and after it are more than `max_inflight`
chunks unacknowledged. -/
theorem C63_first_partial (h : PairStart prm p q ow bp bq cp cq 0 f buf) (hN : 0 < bp.state.length)
    (hlen : bq.state.length = bp.state.length) {t : List Pid} {g : Cfg Pid NMsg NLoc}
    (hg : exec (netAct prm) t (netCfg (.done r) f buf) = some g) : unacked p q g ≤ (prm q).inflight := by
  have hok := xferOf_ok h hN hlen
  have hstart : PairInv (xferOf prm p q ow bp bq cp cq 0) r (netCfg (.done r) f buf) := by
    refine ⟨.reply .conf, .reply .conf, f, buf, .wait, .start, ?_, ⟨trivial, trivial, ?_, ?_⟩, fun _ => rfl, fun _ => rfl,
      Or.inl rfl, Or.inl rfl, h.others, h.empty _ (by simp), h.empty _ (by simp)⟩
    · symm
      exact Xfer.cfg_start (x := xferOf prm p q ow bp bq cp cq 0)
        (by rw [show (xferOf prm p q ow bp bq cp cq 0).p = p from rfl, h.sender]; rfl)
        (by rw [show (xferOf prm p q ow bp bq cp cq 0).q = q from rfl, h.receiver]; rfl)
        (h.empty _ (Xfer.key_ne hok)) h.acks
    · simp [Xfer.got, Xfer.sent]
    · simp [Xfer.reads]
  have main : PairInv (xferOf prm p q ow bp bq cp cq 0) r g := by
    generalize netCfg (.done r) f buf = c0 at hg hstart
    induction t generalizing c0 with
    | nil =>
      simp only [exec, Option.some.injEq] at hg
      subst hg
      exact hstart
    | cons y t ih =>
      simp only [exec] at hg
      rcases hy : stepP (netAct prm) y c0 with _ | c1 <;> rw [hy] at hg <;> simp only at hg
      · cases hg
      exact ih c1 hg (hstart.step hok rfl rfl hy)
  exact main.unacked hok rfl

/-- The sender can have `s` chunks on the way before the receiver takes the first one. -/
theorem reach_unacked {x : Xfer} (hok : x.OK prm) (he : x.ep = nextTask x.tp) (he' : x.er = nextTask x.tq) (pm f buf)
    (s : Nat) (hs : s ≤ x.c) (hs' : s ≤ x.M + x.stale) :
    Runs (netAct prm) (x.cfg pm f buf .wait .start) (x.cfg pm f buf (.loop s (min s x.M)) (.want 0)) := by
  have hM := hok.M
  have hc := Xfer.c_pos hok
  induction s with
  | zero =>
    have v0 : x.Valid .wait .start := ⟨trivial, trivial, by simp [Xfer.got], by simp [Xfer.reads]⟩
    have v1 := (Xfer.valid_rStep hc v0 (rp' := .want 0) rfl).1
    have e : x.sStep .wait (.want 0) = some (.loop 0 0) := by
      simp only [Xfer.sStep]
      rw [if_neg (by simp only [Xfer.avail, Xfer.acks, Xfer.reads]; omega)]
    have s1 := Runs.single (p := some x.q) (c := x.cfg pm f buf .wait .start) (d := x.cfg pm f buf .wait (.want 0))
      (act := netAct prm) (by rw [Xfer.step_q hok he' pm f buf v0 (by simp)]; rfl)
    have s2 := Runs.single (p := some x.p) (c := x.cfg pm f buf .wait (.want 0)) (d := x.cfg pm f buf (.loop 0 0) (.want 0))
      (act := netAct prm) (by rw [Xfer.step_p hok he pm f buf v1 (by simp), e]; rfl)
    rw [Nat.zero_min]
    exact s1.trans s2
  | succ s ih =>
    have ih' := ih (by omega) (by omega)
    have v : x.Valid (.loop s (min s x.M)) (.want 0) := by
      refine ⟨⟨by omega, ?_⟩, hc, by simp [Xfer.got], ?_⟩
      · by_cases hsM : s < x.M
        · exact Or.inl ⟨hsM, by omega⟩
        · exact Or.inr ⟨by omega, Or.inl (by omega)⟩
      · simp only [Xfer.reads, Xfer.acks]; omega
    refine ih'.trans ?_
    by_cases hsM : s < x.M
    · refine Runs.single (p := some x.p) ?_
      have e : x.sStep (.loop s (min s x.M)) (.want 0) = some (.loop (s + 1) (min s x.M + 1)) := by
        simp only [Xfer.sStep]
        rw [if_pos ⟨by omega, by omega⟩]
      rw [Xfer.step_p hok he pm f buf v (by simp), e]
      simp only [Option.map_some]
      rw [show min s x.M + 1 = min (s + 1) x.M by omega]
    · have e1 : x.sStep (.loop s (min s x.M)) (.want 0) = some (.loop s (min s x.M - 1)) := by
        simp only [Xfer.sStep]
        rw [if_neg (by omega), if_neg (by simp only [Xfer.avail, Xfer.acks, Xfer.reads]; omega), if_pos (by omega)]
      have v' := (Xfer.valid_sStep hok v e1).1
      have e2 : x.sStep (.loop s (min s x.M - 1)) (.want 0) = some (.loop (s + 1) (min s x.M - 1 + 1)) := by
        simp only [Xfer.sStep]
        rw [if_pos ⟨by omega, by omega⟩]
      have s1 := Runs.single (p := some x.p) (c := x.cfg pm f buf (.loop s (min s x.M)) (.want 0))
        (d := x.cfg pm f buf (.loop s (min s x.M - 1)) (.want 0)) (act := netAct prm)
        (by rw [Xfer.step_p hok he pm f buf v (by simp), e1]; rfl)
      have s2 := Runs.single (p := some x.p) (c := x.cfg pm f buf (.loop s (min s x.M - 1)) (.want 0))
        (d := x.cfg pm f buf (.loop (s + 1) (min s x.M - 1 + 1)) (.want 0)) (act := netAct prm)
        (by rw [Xfer.step_p hok he pm f buf v' (by simp), e2]; rfl)
      rw [show min (s + 1) x.M = min s x.M - 1 + 1 by omega]
      exact s1.trans s2

/-- Number of chunks of a vector of length `N`. -/
def chunks (N C : Nat) : Nat := (N + C - 1) / C

/-- C63 (negation of the full property): when `k` transfers over the same connection (of the same size, `c` chunks) have
been completed, `max_inflight + k * (min c max_inflight - 1)` chunks (if there are so many) can be unacknowledged at the
same time, because the acknowledgements that the earlier transfers left unread are taken for acknowledgements of this
one. -/
theorem C63_later_false (hpq : p ≠ q) (hC : 0 < (prm q).chunk) (hM : 0 < (prm q).inflight) (hN : 0 < bp.state.length)
    (hlen : bq.state.length = bp.state.length) (k : Nat)
    (hp : f p = ⟨bp, .xfer (.sAccept q) (List.replicate k (.sendTo q)), cp⟩)
    (hq : f q = ⟨bq, .xfer (.rAccept p ow) (List.replicate k (.recvFrom p ow)), cq⟩)
    (hacks : buf (some q, some p) = List.replicate stale (.accept (prm q).chunk (prm q).inflight))
    (hempty : buf (some p, some q) = []) :
    ∃ t g, exec (netAct prm) t (netCfg (.done r) f buf) = some g ∧
      unacked p q g = min (chunks bp.state.length (prm q).chunk)
        ((prm q).inflight + stale + k * (min (chunks bp.state.length (prm q).chunk) (prm q).inflight - 1)) := by
  suffices h : ∃ g, Runs (netAct prm) (netCfg (.done r) f buf) g ∧
      unacked p q g = min (chunks bp.state.length (prm q).chunk)
        ((prm q).inflight + stale + k * (min (chunks bp.state.length (prm q).chunk) (prm q).inflight - 1)) by
    obtain ⟨g, ⟨t, ht⟩, hu⟩ := h
    exact ⟨t, g, ht, hu⟩
  induction k generalizing f buf bq stale with
  | zero =>
    have hok : (xferOf prm p q ow bp bq cp cq stale).OK prm := ⟨hpq, hC, hM, hN, hlen, rfl, rfl⟩
    have h1 := reach_unacked hok rfl rfl (.done r) f buf
      (min (chunks bp.state.length (prm q).chunk) ((prm q).inflight + stale)) (by simp [Xfer.c, Xfer.N, xferOf, chunks])
      (by simp [xferOf])
    rw [Xfer.cfg_start (x := xferOf prm p q ow bp bq cp cq stale) hp hq hempty hacks] at h1
    refine ⟨_, h1, ?_⟩
    have e1 := Xfer.cfg_buf_pq hok (.done r) f buf (.loop (min (chunks bp.state.length (prm q).chunk) ((prm q).inflight + stale))
      (min (min (chunks bp.state.length (prm q).chunk) ((prm q).inflight + stale)) (xferOf prm p q ow bp bq cp cq stale).M))
      (.want 0)
    have e2 := Xfer.cfg_loc_q (x := xferOf prm p q ow bp bq cp cq stale) (.done r) f buf
      (.loop (min (chunks bp.state.length (prm q).chunk) ((prm q).inflight + stale))
      (min (min (chunks bp.state.length (prm q).chunk) ((prm q).inflight + stale)) (xferOf prm p q ow bp bq cp cq stale).M))
      (.want 0)
    unfold unacked
    rw [show ((some p, some q) : Pid × Pid) = (some (xferOf prm p q ow bp bq cp cq stale).p,
      some (xferOf prm p q ow bp bq cp cq stale).q) from rfl, e1,
      show (some q : Pid) = some (xferOf prm p q ow bp bq cp cq stale).q from rfl, e2]
    simp [Xfer.dbuf, Xfer.sent, Xfer.got, Xfer.rPc, pendingAck]
  | succ k ih =>
    let x : Xfer := ⟨p, q, ow, (prm q).chunk, (prm q).inflight, stale, List.replicate (k + 1) (.sendTo q),
      List.replicate (k + 1) (.recvFrom p ow), bp, bq, cp, cq, nextTask (List.replicate (k + 1) (.sendTo q)),
      nextTask (List.replicate (k + 1) (.recvFrom p ow))⟩
    have hok : x.OK prm := ⟨hpq, hC, hM, hN, hlen, rfl, rfl⟩
    have h1 := Xfer.run hok rfl rfl (pm := .done r) (f := f) (buf := buf) hp hq hempty hacks
    have hkey : ((some p, some q) : Pid × Pid) ≠ (some q, some p) := Xfer.key_ne hok
    obtain ⟨g, hg, hu⟩ := ih (bq := { bq with state := if ow then bp.state else List.zipWith (· + ·) bq.state bp.state })
      (stale := stale + (min (chunks bp.state.length (prm q).chunk) (prm q).inflight - 1))
      (f := Function.update (Function.update f p ⟨bp, nextTask (List.replicate (k + 1) (.sendTo q)), cp⟩) q
        ⟨{ bq with state := if ow then bp.state else List.zipWith (· + ·) bq.state bp.state },
          nextTask (List.replicate (k + 1) (.recvFrom p ow)), cq⟩)
      (buf := Function.update buf (some q, some p)
        (List.replicate (stale + (min (chunks bp.state.length (prm q).chunk) (prm q).inflight - 1))
          (.accept (prm q).chunk (prm q).inflight)))
      (by split <;> simp [hlen]) (by simp [Function.update_of_ne hpq, List.replicate_succ, nextTask])
      (by simp [List.replicate_succ, nextTask]) (by simp) (by simp [Function.update_of_ne hkey, hempty])
    refine ⟨g, h1.trans hg, ?_⟩
    rw [hu, Nat.succ_mul]
    congr 1
    omega

/-- A pair of workers: 3 amplitudes, chunks of one amplitude, two in flight. -/
def demoPrm : Wid → WParam := fun _ => ⟨3, [], 1, 2, fun _ => [], fun _ => 0, fun _ => 0⟩

noncomputable def demoPair (ts : List Task) (rs : List Task) : Wid → WSt := fun w =>
  if w = (0, 1) then ⟨⟨2, [1, 2, 3], []⟩, .xfer (.sAccept (1, 1)) ts, 0⟩
  else if w = (1, 1) then ⟨⟨2, [4, 5, 6], []⟩, .xfer (.rAccept (0, 1) false) rs, 0⟩
  else ⟨⟨0, [], []⟩, .closed, 0⟩

theorem demoStart : PairStart demoPrm (0, 1) (1, 1) false ⟨2, [1, 2, 3], []⟩ ⟨2, [4, 5, 6], []⟩ 0 0 0 (demoPair [] [])
    (fun _ => []) := by
  refine ⟨by decide, by decide, by decide, by simp [demoPair], by simp [demoPair], ?_, rfl, fun _ _ => rfl⟩
  intro w h1 h2
  simp [demoPair, h1, h2]

example : ∃ g, AlwaysEnds (netAct demoPrm) (netCfg (.done (.ok none)) (demoPair [] []) (fun _ => [])) g ∧
    g.loc (some (1, 1)) = .wkr ⟨⟨2, [5, 7, 9], []⟩, .idle, 0⟩ := by
  obtain ⟨g, h1, -, h2, -⟩ := C62_transfer_partial (r := .ok none) demoStart (by simp) (by simp)
  refine ⟨g, h1, ?_⟩
  rw [h2]
  norm_num

/-- After one transfer, three chunks can be unacknowledged although at most two should be. -/
example : ∃ t g, exec (netAct demoPrm) t (netCfg (.done (.ok none))
      (demoPair [.sendTo (1, 1)] [.recvFrom (0, 1) false]) (fun _ => [])) = some g ∧ unacked (0, 1) (1, 1) g = 3 := by
  have := C63_later_false (r := .ok none) (prm := demoPrm) (p := (0, 1)) (q := (1, 1)) (ow := false) (stale := 0)
    (bp := ⟨2, [1, 2, 3], []⟩) (bq := ⟨2, [4, 5, 6], []⟩) (cp := 0) (cq := 0)
    (f := demoPair [.sendTo (1, 1)] [.recvFrom (0, 1) false]) (buf := fun _ => []) (by decide) (by decide) (by decide)
    (by simp) (by simp) 1 (by simp [demoPair]) (by simp [demoPair]) rfl rfl
  simpa [chunks, demoPrm] using this

end QIP.Props
