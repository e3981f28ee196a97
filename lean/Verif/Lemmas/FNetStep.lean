import Verif.Lemmas.FNetTransfer

/-!
# Single steps of workers and of the manager

As without `F`, for rounded amplitudes.
-/

namespace QIP.FNet

open QIP

variable {A : Arith}

variable {prm : Wid → WParam} {pm : MProg A} {f : Wid → WSt A} {buf : Pid × Pid → List (NMsg A)} {cap : Pid × Pid → Option Nat}

/-- Room for what has been sent to one process. -/
theorem room_send {p q : Pid} {l : List (NMsg A)} (h : hasRoom (cap (p, q)) l.length = true) (y : Pid) :
    (Function.update buf (p, q) l (p, y)).length ≤ (buf (p, y)).length ∨
      hasRoom (cap (p, y)) (Function.update buf (p, q) l (p, y)).length = true := by
  by_cases hy : y = q
  · subst hy
    right
    rw [Function.update_self]
    exact h
  · left
    rw [Function.update_of_ne (fun e => hy (Prod.ext_iff.1 e).2)]

/-- Receiving needs no room. -/
theorem room_recv {p q : Pid} {m : NMsg A} {l : List (NMsg A)} (h : buf (q, p) = m :: l) (y : Pid) :
    (Function.update buf (q, p) l (p, y)).length ≤ (buf (p, y)).length ∨
      hasRoom (cap (p, y)) (Function.update buf (q, p) l (p, y)).length = true := by
  left
  by_cases hy : (p, y) = (q, p)
  · rw [hy, Function.update_self, h]
    simp
  · rw [Function.update_of_ne hy]

theorem worker_sendB {w : Wid} {q : Pid} {m : NMsg A} {s : WSt A} (h : workerAct (prm w) w (f w) = .send q m s)
    (hr : hasRoom (cap (some w, q)) ((buf (some w, q)).length + 1) = true) :
    RunsB (netAct prm) cap (netCfg pm f buf)
      (netCfg pm (Function.update f w s) (Function.update buf (some w, q) (buf (some w, q) ++ [m]))) := by
  refine RunsB.single (p := some w) (stepB_of_room ?_ (room_send (by simpa using hr)))
  unfold stepP
  have e : netAct prm (some w) ((netCfg pm f buf).loc (some w)) = .send q m (.wkr s) := by
    simp only [netCfg, netAct, h]
  rw [e]
  simp only [Option.some.injEq]
  apply cfg_ext
  · exact Xfer.netCfg_update pm f _ w s
  · rfl

theorem worker_recvB {w : Wid} {q : Pid} {m : NMsg A} {rest : List (NMsg A)} {k : (NMsg A) → WSt A}
    (h : workerAct (prm w) w (f w) = .recv q k) (hb : buf (q, some w) = m :: rest) :
    RunsB (netAct prm) cap (netCfg pm f buf)
      (netCfg pm (Function.update f w (k m)) (Function.update buf (q, some w) rest)) := by
  refine RunsB.single (p := some w) (stepB_of_room ?_ (room_recv hb))
  unfold stepP
  have e : netAct prm (some w) ((netCfg pm f buf).loc (some w)) = .recv q fun m => .wkr (k m) := by
    simp only [netCfg, netAct, h]
  rw [e]
  have hb' : (netCfg pm f buf).buf (q, some w) = m :: rest := hb
  simp only [hb', Option.some.injEq]
  apply cfg_ext
  · exact Xfer.netCfg_update pm f _ w (k m)
  · rfl

theorem netCfg_mgr (pm pm' : MProg A) (f : Wid → WSt A) (buf : Pid × Pid → List (NMsg A)) :
    Function.update (netCfg pm f buf).loc none (.mgr pm') = (netCfg pm' f buf).loc := by
  funext y
  rcases y with _ | y <;> simp [netCfg]

theorem mgr_sendB {w : Wid} {o : WOp A} {k : MProg A}
    (hr : hasRoom (cap (none, some w)) ((buf (none, some w)).length + 1) = true) :
    RunsB (netAct prm) cap (netCfg (.send w o k) f buf)
      (netCfg k f (Function.update buf (none, some w) (buf (none, some w) ++ [.op o]))) := by
  refine RunsB.single (p := none) (stepB_of_room ?_ (room_send (by simpa using hr)))
  unfold stepP
  simp only [netAct, show (netCfg (.send w o k) f buf).loc none = .mgr (.send w o k) from rfl, Option.some.injEq]
  apply cfg_ext
  · exact netCfg_mgr _ _ _ _
  · rfl

theorem mgr_recvB {w : Wid} {k : (NMsg A) → MProg A} {m : NMsg A} {rest : List (NMsg A)} (hb : buf (some w, none) = m :: rest) :
    RunsB (netAct prm) cap (netCfg (.recv w k) f buf) (netCfg (k m) f (Function.update buf (some w, none) rest)) := by
  refine RunsB.single (p := none) (stepB_of_room ?_ (room_recv hb))
  unfold stepP
  have hb' : (netCfg (.recv w k) f buf).buf (some w, none) = m :: rest := hb
  simp only [netAct, show (netCfg (.recv w k) f buf).loc none = .mgr (.recv w k) from rfl, hb', Option.some.injEq]
  apply cfg_ext
  · exact netCfg_mgr _ _ _ _
  · rfl

/-- A worker reports. -/
theorem worker_replyB {w : Wid} {b : FState A} {m : NMsg A} {cnt : Nat} (h : f w = ⟨b, .reply m, cnt⟩)
    (hr : hasRoom (cap (some w, none)) ((buf (some w, none)).length + 1) = true) :
    RunsB (netAct prm) cap (netCfg pm f buf) (netCfg pm (Function.update f w ⟨b, .idle, cnt⟩)
      (Function.update buf (some w, none) (buf (some w, none) ++ [m]))) := by
  refine worker_sendB ?_ hr
  rw [h]
  rfl

/-- A worker gets an operation. -/
theorem worker_opB {w : Wid} {b : FState A} {cnt : Nat} {o : WOp A} {rest : List (NMsg A)} (h : f w = ⟨b, .idle, cnt⟩)
    (hb : buf (none, some w) = .op o :: rest) :
    RunsB (netAct prm) cap (netCfg pm f buf) (netCfg pm (Function.update f w
      ⟨(handleOp (prm w) w ⟨b, .idle, cnt⟩ o).1, (handleOp (prm w) w ⟨b, .idle, cnt⟩ o).2, cnt + 1⟩)
      (Function.update buf (none, some w) rest)) := by
  have := worker_recvB (cap := cap) (prm := prm) (pm := pm) (f := f) (buf := buf) (w := w) (q := none) (m := .op o) (rest := rest)
    (k := fun m => match m with
      | .op o => ⟨(handleOp (prm w) w ⟨b, .idle, cnt⟩ o).1, (handleOp (prm w) w ⟨b, .idle, cnt⟩ o).2, cnt + 1⟩
      | _ => ⟨b, .crashed, cnt⟩)
    (by
      rw [h]
      simp only [workerAct]
      congr 1) hb
  exact this

theorem worker_send {w : Wid} {q : Pid} {m : NMsg A} {s : WSt A} (h : workerAct (prm w) w (f w) = .send q m s) :
    Runs (netAct prm) (netCfg pm f buf)
      (netCfg pm (Function.update f w s) (Function.update buf (some w, q) (buf (some w, q) ++ [m]))) :=
  (worker_sendB (cap := noCap) h rfl).runs

theorem worker_recv {w : Wid} {q : Pid} {m : NMsg A} {rest : List (NMsg A)} {k : (NMsg A) → WSt A}
    (h : workerAct (prm w) w (f w) = .recv q k) (hb : buf (q, some w) = m :: rest) :
    Runs (netAct prm) (netCfg pm f buf)
      (netCfg pm (Function.update f w (k m)) (Function.update buf (q, some w) rest)) :=
  (worker_recvB (cap := noCap) h hb).runs

theorem worker_reply {w : Wid} {b : FState A} {m : NMsg A} {cnt : Nat} (h : f w = ⟨b, .reply m, cnt⟩) :
    Runs (netAct prm) (netCfg pm f buf) (netCfg pm (Function.update f w ⟨b, .idle, cnt⟩)
      (Function.update buf (some w, none) (buf (some w, none) ++ [m]))) :=
  (worker_replyB (cap := noCap) h rfl).runs

/-- No step is possible if the manager is done and every worker has stopped, or waits for an operation that has not
been sent. -/
theorem stuck_of {outs : List Nat} {err : Option PyErr} (h : ∀ w, (f w).pc = .closed ∨ (f w).pc = .crashed ∨ ((f w).pc = .idle ∧ buf (none, some w) = [])) :
    Stuck (netAct prm) (netCfg (.done outs err) f buf) := by
  intro p
  rcases p with _ | w
  · simp [stepP, netAct, netCfg]
  · unfold stepP
    have e : (netCfg (.done outs err) f buf).loc (some w) = .wkr (f w) := rfl
    rw [e]
    rcases h w with h | h | ⟨h, hb⟩
    · simp [netAct, workerAct, h]
    · simp [netAct, workerAct, h]
    · have hb' : (netCfg (.done outs err) f buf).buf (none, some w) = [] := hb
      simp [netAct, workerAct, h, hb']

end QIP.FNet
