import Mathlib.Data.List.Nodup
import Verif.Lemmas.FNetStep

/-!
# Phases of an operation on all workers

As without `F`, for rounded amplitudes.
-/

namespace QIP.FNet

open QIP

variable {A : Arith}

/-- Messages on the way: unread acknowledgements between workers, operations, reports. -/
def nbuf (C M : Nat) (st : Wid → Wid → Nat) (ops cf : Wid → List (NMsg A)) : Pid × Pid → List (NMsg A)
  | (none, none) => []
  | (none, some w) => ops w
  | (some w, none) => cf w
  | (some a, some b) => List.replicate (st a b) (.accept C M)

/-- Nothing. -/
def noMsg : Wid → List (NMsg A) := fun _ => []

section Buf

variable {C M : Nat} {st : Wid → Wid → Nat} {ops cf : Wid → List (NMsg A)}

theorem nbuf_ops (w : Wid) (l : List (NMsg A)) :
    Function.update (nbuf C M st ops cf) (none, some w) l = nbuf C M st (Function.update ops w l) cf := by
  funext e
  rcases e with ⟨_ | a, _ | b⟩
  · simp [nbuf]
  · by_cases h : b = w
    · subst h; simp [nbuf]
    · rw [Function.update_of_ne (by simpa using h)]
      simp [nbuf, Function.update_of_ne h]
  · simp [nbuf]
  · simp [nbuf]

theorem nbuf_cf (w : Wid) (l : List (NMsg A)) :
    Function.update (nbuf C M st ops cf) (some w, none) l = nbuf C M st ops (Function.update cf w l) := by
  funext e
  rcases e with ⟨_ | a, _ | b⟩
  · simp [nbuf]
  · simp [nbuf]
  · by_cases h : a = w
    · subst h; simp [nbuf]
    · rw [Function.update_of_ne (by simpa using h)]
      simp [nbuf, Function.update_of_ne h]
  · simp [nbuf]

/-- `k` acknowledgements from `a` to `b`. -/
def setSt (st : Wid → Wid → Nat) (a b : Wid) (k : Nat) : Wid → Wid → Nat :=
  fun x y => if x = a ∧ y = b then k else st x y

theorem nbuf_st (a b : Wid) (k : Nat) :
    Function.update (nbuf C M st ops cf) (some a, some b) (List.replicate k (.accept C M))
      = nbuf C M (setSt st a b k) ops cf := by
  funext e
  rcases e with ⟨_ | x, _ | y⟩
  · simp [nbuf]
  · simp [nbuf]
  · simp [nbuf]
  · by_cases h : x = a ∧ y = b
    · obtain ⟨rfl, rfl⟩ := h; simp [nbuf, setSt]
    · rw [Function.update_of_ne (by simpa using h)]
      simp [nbuf, setSt, h]

end Buf

variable {prm : Wid → WParam} {pm : MProg A} {f : Wid → WSt A} {C M : Nat} {st : Wid → Wid → Nat}
  {ops cf : Wid → List (NMsg A)} {cap : Pid × Pid → Option Nat}

/-- Worker `w` in state `s` after receiving `o`. -/
noncomputable def handled (prm : Wid → WParam) (o : WOp A) (w : Wid) (s : WSt A) : (WSt A) :=
  ⟨(handleOp (prm w) w s o).1, (handleOp (prm w) w s o).2, s.cnt + 1⟩

theorem sendEach_runsB (o : WOp A) (k : MProg A) {l : List Wid} (hl : l.Nodup)
    (hr : ∀ w ∈ l, hasRoom (cap (none, some w)) ((ops w).length + 1) = true) :
    RunsB (netAct prm) cap (netCfg (sendEach o l k) f (nbuf C M st ops cf))
      (netCfg k f (nbuf C M st (fun w => if w ∈ l then ops w ++ [.op o] else ops w) cf)) := by
  induction l generalizing ops with
  | nil => simpa [sendEach] using RunsB.refl _
  | cons w l ih =>
    have hn := List.nodup_cons.1 hl
    have h1 := mgr_sendB (cap := cap) (prm := prm) (w := w) (o := o) (k := sendEach o l k) (f := f) (buf := nbuf C M st ops cf)
      (hr w List.mem_cons_self)
    rw [nbuf_ops] at h1
    refine RunsB.trans h1 ?_
    have h2 := ih (ops := Function.update ops w (ops w ++ [.op o])) hn.2 (by
      intro x hx
      have hxw : x ≠ w := fun e => hn.1 (e ▸ hx)
      rw [Function.update_of_ne hxw]
      exact hr x (List.mem_cons_of_mem _ hx))
    refine Eq.mp ?_ h2
    congr 3
    funext x
    by_cases hx : x = w
    · subst hx
      simp [hn.1]
    · simp [hx, Function.update_of_ne hx]

theorem deliver_runsB (o : WOp A) {l : List Wid} (hl : l.Nodup) (hidle : ∀ w ∈ l, (f w).pc = .idle) :
    RunsB (netAct prm) cap (netCfg pm f (nbuf C M st (fun w => if w ∈ l then [.op o] else []) cf))
      (netCfg pm (fun w => if w ∈ l then handled prm o w (f w) else f w) (nbuf C M st noMsg cf)) := by
  induction l generalizing f with
  | nil =>
    simp only [List.not_mem_nil, if_false]
    exact RunsB.refl _
  | cons w l ih =>
    have hn := List.nodup_cons.1 hl
    have hw : f w = ⟨(f w).b, .idle, (f w).cnt⟩ := by
      rw [← hidle w List.mem_cons_self]
    have h1 := worker_opB (cap := cap) (prm := prm) (pm := pm) (f := f) (w := w) (o := o) (rest := [])
      (buf := nbuf C M st (fun x => if x ∈ w :: l then [.op o] else []) cf) hw (by simp [nbuf])
    rw [nbuf_ops, ← hw] at h1
    refine RunsB.trans h1 ?_
    have h2 := ih (f := Function.update f w (handled prm o w (f w))) hn.2 (by
      intro x hx
      have : x ≠ w := fun e => hn.1 (e ▸ hx)
      rw [Function.update_of_ne this]
      exact hidle x (List.mem_cons_of_mem _ hx))
    have e1 : (Function.update (fun x => if x ∈ w :: l then [NMsg.op o] else []) w [])
        = fun x => if x ∈ l then [NMsg.op o] else [] := by
      funext x
      by_cases hx : x = w
      · subst hx; simp [hn.1]
      · simp [hx]
    have e2 : (fun x => if x ∈ l then handled prm o x (Function.update f w (handled prm o w (f w)) x)
          else Function.update f w (handled prm o w (f w)) x)
        = fun x => if x ∈ w :: l then handled prm o x (f x) else f x := by
      funext x
      by_cases hx : x = w
      · subst hx; simp [hn.1]
      · simp [hx]
    rw [e2] at h2
    rw [e1]
    exact h2

theorem reply_runsB {m : Wid → NMsg A} {l : List Wid} (hl : l.Nodup) (hr : ∀ w ∈ l, (f w).pc = .reply (m w))
    (hroom : ∀ w ∈ l, hasRoom (cap (some w, none)) ((cf w).length + 1) = true) :
    RunsB (netAct prm) cap (netCfg pm f (nbuf C M st ops cf))
      (netCfg pm (fun w => if w ∈ l then ⟨(f w).b, .idle, (f w).cnt⟩ else f w)
        (nbuf C M st ops (fun w => if w ∈ l then cf w ++ [m w] else cf w))) := by
  induction l generalizing f cf with
  | nil => simpa using RunsB.refl _
  | cons w l ih =>
    have hn := List.nodup_cons.1 hl
    have hw : f w = ⟨(f w).b, .reply (m w), (f w).cnt⟩ := by
      rw [← hr w List.mem_cons_self]
    have h1 := worker_replyB (cap := cap) (prm := prm) (pm := pm) (f := f) (w := w) (buf := nbuf C M st ops cf) hw
      (hroom w List.mem_cons_self)
    rw [nbuf_cf] at h1
    refine RunsB.trans h1 ?_
    have h2 := ih (f := Function.update f w ⟨(f w).b, .idle, (f w).cnt⟩)
      (cf := Function.update cf w (nbuf C M st ops cf (some w, none) ++ [m w])) hn.2 (by
      intro x hx
      have : x ≠ w := fun e => hn.1 (e ▸ hx)
      rw [Function.update_of_ne this]
      exact hr x (List.mem_cons_of_mem _ hx)) (by
      intro x hx
      have hxw : x ≠ w := fun e => hn.1 (e ▸ hx)
      rw [Function.update_of_ne hxw]
      exact hroom x (List.mem_cons_of_mem _ hx))
    have e1 : (fun x => if x ∈ l then Function.update cf w (nbuf C M st ops cf (some w, none) ++ [m w]) x ++ [m x]
          else Function.update cf w (nbuf C M st ops cf (some w, none) ++ [m w]) x)
        = fun x => if x ∈ w :: l then cf x ++ [m x] else cf x := by
      funext x
      by_cases hx : x = w
      · subst hx; simp [hn.1, nbuf]
      · simp [hx]
    have e2 : (fun x => if x ∈ l then ⟨(Function.update f w ⟨(f w).b, Pc.idle, (f w).cnt⟩ x).b, .idle,
          (Function.update f w ⟨(f w).b, .idle, (f w).cnt⟩ x).cnt⟩ else Function.update f w ⟨(f w).b, .idle, (f w).cnt⟩ x)
        = fun x => if x ∈ w :: l then (⟨(f x).b, .idle, (f x).cnt⟩ : WSt A) else f x := by
      funext x
      by_cases hx : x = w
      · subst hx; simp [hn.1]
      · simp [hx]
    rw [e1, e2] at h2
    exact h2

theorem recvEach_runsB {m : Wid → NMsg A} {l : List Wid} (hl : l.Nodup) (k : List (NMsg A) → MProg A) :
    RunsB (netAct prm) cap (netCfg (recvEach l k) f (nbuf C M st ops (fun w => if w ∈ l then [m w] else [])))
      (netCfg (k (l.map m)) f (nbuf C M st ops noMsg)) := by
  induction l generalizing k with
  | nil =>
    simp only [List.not_mem_nil, if_false, recvEach, List.map_nil]
    exact RunsB.refl _
  | cons w l ih =>
    have hn := List.nodup_cons.1 hl
    have h1 := mgr_recvB (cap := cap) (prm := prm) (f := f) (w := w) (m := m w) (rest := [])
      (k := fun m => recvEach l fun ms => k (m :: ms))
      (buf := nbuf C M st ops (fun x => if x ∈ w :: l then [m x] else [])) (by simp [nbuf])
    rw [nbuf_cf] at h1
    refine RunsB.trans h1 ?_
    have e1 : (Function.update (fun x => if x ∈ w :: l then [m x] else []) w [])
        = fun x => if x ∈ l then [m x] else [] := by
      funext x
      by_cases hx : x = w
      · subst hx; simp [hn.1]
      · simp [hx]
    rw [e1]
    exact ih hn.2 _

/-- An operation on the workers `l`: it is delivered, the workers do something (`hmid`), and report. -/
theorem mapWorkers_runsB (hpos : ∀ e, hasRoom (cap e) 1 = true) {o : WOp A} {l : List Wid} (hl : l.Nodup) (k : List (NMsg A) → MProg A)
    (hidle : ∀ w ∈ l, (f w).pc = .idle) {f2 : Wid → WSt A} {st' : Wid → Wid → Nat} {m : Wid → NMsg A}
    (hmid : ∀ pm, RunsB (netAct prm) cap
      (netCfg pm (fun w => if w ∈ l then handled prm o w (f w) else f w) (nbuf C M st noMsg noMsg))
      (netCfg pm f2 (nbuf C M st' noMsg noMsg)))
    (hr : ∀ w ∈ l, (f2 w).pc = .reply (m w)) :
    RunsB (netAct prm) cap (netCfg (mapWorkers o l k) f (nbuf C M st noMsg noMsg))
      (netCfg (k (l.map m)) (fun w => if w ∈ l then ⟨(f2 w).b, .idle, (f2 w).cnt⟩ else f2 w)
        (nbuf C M st' noMsg noMsg)) := by
  have h1 := sendEach_runsB (cap := cap) (prm := prm) (f := f) (C := C) (M := M) (st := st) (ops := noMsg) (cf := noMsg) o
    (recvEach l k) hl (fun _ _ => hpos _)
  have h2 := deliver_runsB (cap := cap) (prm := prm) (pm := recvEach l k) (f := f) (C := C) (M := M) (st := st) (cf := noMsg) o hl hidle
  have h3 := hmid (recvEach l k)
  have h4 := reply_runsB (cap := cap) (prm := prm) (pm := recvEach l k) (f := f2) (C := C) (M := M) (st := st') (ops := noMsg)
    (cf := noMsg) hl hr (fun _ _ => hpos _)
  have h5 := recvEach_runsB (cap := cap) (prm := prm) (f := fun w => if w ∈ l then ⟨(f2 w).b, .idle, (f2 w).cnt⟩ else f2 w)
    (C := C) (M := M) (st := st') (ops := noMsg) (m := m) hl k
  exact (((h1.trans h2).trans h3).trans h4).trans h5

/-- An operation that every worker does on its own. -/
theorem mapWorkers_localB (hpos : ∀ e, hasRoom (cap e) 1 = true) {o : WOp A} {l : List Wid} (hl : l.Nodup) (k : List (NMsg A) → MProg A)
    (hidle : ∀ w ∈ l, (f w).pc = .idle) {m : Wid → NMsg A} (hr : ∀ w ∈ l, (handleOp (prm w) w (f w) o).2 = .reply (m w)) :
    RunsB (netAct prm) cap (netCfg (mapWorkers o l k) f (nbuf C M st noMsg noMsg))
      (netCfg (k (l.map m)) (fun w => if w ∈ l then ⟨(handleOp (prm w) w (f w) o).1, .idle, (f w).cnt + 1⟩ else f w)
        (nbuf C M st noMsg noMsg)) := by
  have h := mapWorkers_runsB (cap := cap) (prm := prm) (C := C) (M := M) (st := st) (o := o) hpos hl k hidle (m := m)
    (fun pm => RunsB.refl _) (by
      intro w hw
      simp [hw, handled, hr w hw])
  refine Eq.mp ?_ h
  congr 2
  funext w
  by_cases hw : w ∈ l <;> simp [hw, handled]

/-! ### Transfers -/

/-- Unread acknowledgements added by the transfer of `N` amplitudes. -/
def leftover (N C M : Nat) : Nat := min ((N + C - 1) / C) M - 1

theorem transfer_runsB (hpos : ∀ e, hasRoom (cap e) 1 = true) {p q : Wid} (hpq : p ≠ q) (hC : 0 < C) (hM : 0 < M) (hch : (prm q).chunk = C)
    (hin : (prm q).inflight = M) {ow : Bool} {tp tq : List Task} {bp bq : FState A} {cp cq : Nat}
    (hN : 0 < bp.state.length) (hlen : bq.state.length = bp.state.length)
    (hp : f p = ⟨bp, nextTask (.sendTo q :: tp), cp⟩) (hq : f q = ⟨bq, nextTask (.recvFrom p ow :: tq), cq⟩)
    (hst : st p q = 0)
    (hca : hasRoom (cap (some q, some p)) (st q p + leftover bp.state.length C M) = true) :
    RunsB (netAct prm) cap (netCfg pm f (nbuf C M st ops cf))
      (netCfg pm (Function.update (Function.update f p ⟨bp, nextTask tp, cp⟩) q
        ⟨{ bq with state := if ow then bp.state else List.zipWith (· + ·) bq.state bp.state }, nextTask tq, cq⟩)
      (nbuf C M (setSt st q p (st q p + leftover bp.state.length C M)) ops cf)) := by
  have h := Xfer.runB (cap := cap) (x := ⟨p, q, ow, C, M, st q p, tp, tq, bp, bq, cp, cq, nextTask tp, nextTask tq⟩) (prm := prm)
    ⟨hpq, hC, hM, hN, hlen, hch, hin⟩ rfl rfl (hpos _) (hpos _) hca (pm := pm) (f := f) (buf := nbuf C M st ops cf) hp hq
    (by simp [nbuf, hst]) rfl
  simp only at h
  rw [nbuf_st] at h
  exact h

/-- Unread acknowledgements after transfers with the workers of `L`, towards (`inc`) or from `d`. -/
def addSt (st : Wid → Wid → Nat) (P : Wid → Wid → Prop) [∀ a b, Decidable (P a b)] (k : Nat) : Wid → Wid → Nat :=
  fun a b => if P a b then st a b + k else st a b

/-- Worker `d` receives from all of `L`, adding. -/
theorem gather_runsB (hpos : ∀ e, hasRoom (cap e) 1 = true) {N : Nat} (hC : 0 < C) (hM : 0 < M) (hN : 0 < N) {d : Wid} (hch : (prm d).chunk = C)
    (hin : (prm d).inflight = M) {ts : List Task} {tq : Wid → List Task} {L : List Wid} (hL : L.Nodup) (hd : d ∉ L)
    (hdst : f d = ⟨(f d).b, nextTask (L.map (fun r => Task.recvFrom r false) ++ ts), (f d).cnt⟩)
    (hdl : (f d).b.state.length = N)
    (hw : ∀ r ∈ L, f r = ⟨(f r).b, nextTask (.sendTo d :: tq r), (f r).cnt⟩ ∧ (f r).b.state.length = N)
    (hst : ∀ r ∈ L, st r d = 0)
    (hca : ∀ r ∈ L, hasRoom (cap (some d, some r)) (st d r + leftover N C M) = true) :
    RunsB (netAct prm) cap (netCfg pm f (nbuf C M st ops cf))
      (netCfg pm (fun w => if w = d then
          ⟨{ (f d).b with state := L.foldl (fun acc r => List.zipWith (· + ·) acc (f r).b.state) (f d).b.state },
            nextTask ts, (f d).cnt⟩
        else if w ∈ L then ⟨(f w).b, nextTask (tq w), (f w).cnt⟩ else f w)
      (nbuf C M (addSt st (fun a b => a = d ∧ b ∈ L) (leftover N C M)) ops cf)) := by
  induction L generalizing f st with
  | nil =>
    have e : (fun w => if w = d then (⟨{ (f d).b with
        state := List.foldl (fun acc r => List.zipWith (· + ·) acc (f r).b.state) (f d).b.state [] },
        nextTask ts, (f d).cnt⟩ : WSt A) else if w ∈ [] then ⟨(f w).b, nextTask (tq w), (f w).cnt⟩ else f w) = f := by
      funext w
      by_cases hwd : w = d
      · subst hwd
        rw [if_pos rfl]
        exact hdst.symm
      · simp [hwd]
    have e2 : addSt st (fun a b => a = d ∧ b ∈ ([] : List Wid)) (leftover N C M) = st := by
      funext a b
      simp [addSt]
    rw [e, e2]
    exact RunsB.refl _
  | cons r L ih =>
    have hn := List.nodup_cons.1 hL
    have hdr : r ≠ d := fun e => hd (e ▸ List.mem_cons_self)
    have hdL : d ∉ L := fun h => hd (List.mem_cons_of_mem _ h)
    obtain ⟨hr1, hr2⟩ := hw r List.mem_cons_self
    have h1 := transfer_runsB (cap := cap) (prm := prm) (pm := pm) (f := f) (C := C) (M := M) (st := st) (ops := ops) (cf := cf)
      (p := r) (q := d) hpos hdr hC hM hch hin (ow := false) (tq := L.map (fun r => Task.recvFrom r false) ++ ts)
      (tp := tq r) (bp := (f r).b) (bq := (f d).b) (cp := (f r).cnt) (cq := (f d).cnt) (by omega) (by omega) hr1
      hdst (hst r List.mem_cons_self) (by rw [hr2]; exact hca r List.mem_cons_self)
    simp only [Bool.false_eq_true, if_false] at h1
    refine RunsB.trans h1 ?_
    generalize hf' : Function.update (Function.update f r ⟨(f r).b, nextTask (tq r), (f r).cnt⟩) d
      ⟨{ (f d).b with state := List.zipWith (· + ·) (f d).b.state (f r).b.state },
        nextTask (L.map (fun r => Task.recvFrom r false) ++ ts), (f d).cnt⟩ = f'
    have fd : f' d = ⟨{ (f d).b with state := List.zipWith (· + ·) (f d).b.state (f r).b.state },
        nextTask (L.map (fun r => Task.recvFrom r false) ++ ts), (f d).cnt⟩ := by
      rw [← hf', Function.update_self]
    have fr : f' r = ⟨(f r).b, nextTask (tq r), (f r).cnt⟩ := by
      rw [← hf', Function.update_of_ne hdr, Function.update_self]
    have fo : ∀ w, w ≠ d → w ≠ r → f' w = f w := by
      intro w h1 h2
      rw [← hf', Function.update_of_ne h1, Function.update_of_ne h2]
    have foL : ∀ w ∈ L, f' w = f w := fun w hwL =>
      fo w (fun e => hdL (e ▸ hwL)) (fun e => hn.1 (e ▸ hwL))
    have h2 := ih (f := f') (st := setSt st d r (st d r + leftover (f r).b.state.length C M)) hn.2 hdL
      (by rw [fd]) (by rw [fd]; simp; omega)
      (by
        intro w hwL
        rw [foL w hwL]
        exact hw w (List.mem_cons_of_mem _ hwL))
      (by
        intro w hwL
        simp only [setSt]
        rw [if_neg (by rintro ⟨rfl, -⟩; exact hdL hwL)]
        exact hst w (List.mem_cons_of_mem _ hwL))
      (by
        intro w hwL
        simp only [setSt]
        rw [if_neg (by rintro ⟨-, rfl⟩; exact hn.1 hwL)]
        exact hca w (List.mem_cons_of_mem _ hwL))
    refine Eq.mp ?_ h2
    congr 2
    · funext w
      by_cases hwd : w = d
      · subst hwd
        rw [if_pos rfl, if_pos rfl, fd]
        simp only [List.foldl_cons]
        congr 2
        refine List.foldl_ext _ _ _ ?_
        intro acc x hx
        rw [foL x hx]
      · rw [if_neg hwd, if_neg hwd]
        by_cases hwr : w = r
        · subst hwr
          rw [if_neg hn.1, if_pos List.mem_cons_self, fr]
        · by_cases hwL : w ∈ L
          · rw [if_pos hwL, if_pos (List.mem_cons_of_mem _ hwL), foL w hwL]
          · rw [if_neg hwL, if_neg (by simp [hwr, hwL]), fo w hwd hwr]
    · congr 1
      funext a b
      simp only [addSt, setSt, hr2, List.mem_cons]
      by_cases ha : a = d
      · subst ha
        by_cases hb : b = r
        · subst hb
          simp [hn.1]
        · simp [hb]
      · simp [ha]

/-- Worker `d` sends to all of `L`, which overwrite. -/
theorem scatter_runsB (hpos : ∀ e, hasRoom (cap e) 1 = true) {N : Nat} (hC : 0 < C) (hM : 0 < M) (hN : 0 < N) {d : Wid} {ts : List Task} {L : List Wid}
    (hch : ∀ r ∈ L, (prm r).chunk = C) (hin : ∀ r ∈ L, (prm r).inflight = M) (hL : L.Nodup) (hd : d ∉ L)
    (hdst : f d = ⟨(f d).b, nextTask (L.map Task.sendTo ++ ts), (f d).cnt⟩) (hdl : (f d).b.state.length = N)
    (hw : ∀ r ∈ L, f r = ⟨(f r).b, nextTask [.recvFrom d true], (f r).cnt⟩ ∧ (f r).b.state.length = N)
    (hst : ∀ r ∈ L, st d r = 0)
    (hca : ∀ r ∈ L, hasRoom (cap (some r, some d)) (st r d + leftover N C M) = true) :
    RunsB (netAct prm) cap (netCfg pm f (nbuf C M st ops cf))
      (netCfg pm (fun w => if w = d then ⟨(f d).b, nextTask ts, (f d).cnt⟩
        else if w ∈ L then ⟨{ (f w).b with state := (f d).b.state }, .reply .conf, (f w).cnt⟩ else f w)
      (nbuf C M (addSt st (fun a b => b = d ∧ a ∈ L) (leftover N C M)) ops cf)) := by
  induction L generalizing f st with
  | nil =>
    have e : (fun w => if w = d then (⟨(f d).b, nextTask ts, (f d).cnt⟩ : WSt A)
        else if w ∈ [] then ⟨{ (f w).b with state := (f d).b.state }, .reply .conf, (f w).cnt⟩ else f w) = f := by
      funext w
      by_cases hwd : w = d
      · subst hwd
        rw [if_pos rfl]
        exact hdst.symm
      · simp [hwd]
    have e2 : addSt st (fun a b => b = d ∧ a ∈ ([] : List Wid)) (leftover N C M) = st := by
      funext a b
      simp [addSt]
    rw [e, e2]
    exact RunsB.refl _
  | cons r L ih =>
    have hn := List.nodup_cons.1 hL
    have hdr : d ≠ r := fun e => hd (e ▸ List.mem_cons_self)
    have hdL : d ∉ L := fun h => hd (List.mem_cons_of_mem _ h)
    obtain ⟨hr1, hr2⟩ := hw r List.mem_cons_self
    have h1 := transfer_runsB (cap := cap) (prm := prm) (pm := pm) (f := f) (C := C) (M := M) (st := st) (ops := ops) (cf := cf)
      (p := d) (q := r) hpos hdr hC hM (hch r List.mem_cons_self) (hin r List.mem_cons_self) (ow := true) (tq := [])
      (tp := L.map Task.sendTo ++ ts) (bp := (f d).b) (bq := (f r).b) (cp := (f d).cnt) (cq := (f r).cnt) (by omega)
      (by omega) hdst hr1 (hst r List.mem_cons_self) (by rw [hdl]; exact hca r List.mem_cons_self)
    simp only [if_true] at h1
    refine RunsB.trans h1 ?_
    generalize hf' : Function.update (Function.update f d ⟨(f d).b, nextTask (L.map Task.sendTo ++ ts), (f d).cnt⟩) r
      ⟨{ (f r).b with state := (f d).b.state }, nextTask [], (f r).cnt⟩ = f'
    have fd : f' d = ⟨(f d).b, nextTask (L.map Task.sendTo ++ ts), (f d).cnt⟩ := by
      rw [← hf', Function.update_of_ne hdr, Function.update_self]
    have fr : f' r = ⟨{ (f r).b with state := (f d).b.state }, .reply .conf, (f r).cnt⟩ := by
      rw [← hf', Function.update_self]
      rfl
    have fo : ∀ w, w ≠ d → w ≠ r → f' w = f w := by
      intro w h1 h2
      rw [← hf', Function.update_of_ne h2, Function.update_of_ne h1]
    have foL : ∀ w ∈ L, f' w = f w := fun w hwL =>
      fo w (fun e => hdL (e ▸ hwL)) (fun e => hn.1 (e ▸ hwL))
    have h2 := ih (f := f') (st := setSt st r d (st r d + leftover (f d).b.state.length C M))
      (fun x hx => hch x (List.mem_cons_of_mem _ hx)) (fun x hx => hin x (List.mem_cons_of_mem _ hx)) hn.2 hdL
      (by rw [fd]) (by rw [fd]; exact hdl)
      (by
        intro w hwL
        rw [foL w hwL]
        exact hw w (List.mem_cons_of_mem _ hwL))
      (by
        intro w hwL
        simp only [setSt]
        rw [if_neg (by rintro ⟨rfl, -⟩; exact hdr rfl)]
        exact hst w (List.mem_cons_of_mem _ hwL))
      (by
        intro w hwL
        simp only [setSt]
        rw [if_neg (by rintro ⟨rfl, -⟩; exact hn.1 hwL)]
        exact hca w (List.mem_cons_of_mem _ hwL))
    refine Eq.mp ?_ h2
    congr 2
    · funext w
      by_cases hwd : w = d
      · subst hwd
        rw [if_pos rfl, if_pos rfl, fd]
      · rw [if_neg hwd, if_neg hwd]
        by_cases hwr : w = r
        · subst hwr
          rw [if_neg hn.1, if_pos List.mem_cons_self, fr]
        · by_cases hwL : w ∈ L
          · rw [if_pos hwL, if_pos (List.mem_cons_of_mem _ hwL), foL w hwL, fd]
          · rw [if_neg hwL, if_neg (by simp [hwr, hwL]), fo w hwd hwr]
    · congr 1
      funext a b
      simp only [addSt, setSt, hdl, List.mem_cons]
      by_cases hb : b = d
      · subst hb
        by_cases ha : a = r
        · subst ha
          simp [hn.1]
        · simp [ha]
      · simp [hb]

/-! ### Without bounds -/

theorem sendEach_runs (o : WOp A) (k : MProg A) {l : List Wid} (hl : l.Nodup) :
    Runs (netAct prm) (netCfg (sendEach o l k) f (nbuf C M st ops cf))
      (netCfg k f (nbuf C M st (fun w => if w ∈ l then ops w ++ [.op o] else ops w) cf)) :=
  (sendEach_runsB (cap := noCap) o k hl fun _ _ => rfl).runs

theorem deliver_runs (o : WOp A) {l : List Wid} (hl : l.Nodup) (hidle : ∀ w ∈ l, (f w).pc = .idle) :
    Runs (netAct prm) (netCfg pm f (nbuf C M st (fun w => if w ∈ l then [.op o] else []) cf))
      (netCfg pm (fun w => if w ∈ l then handled prm o w (f w) else f w) (nbuf C M st noMsg cf)) :=
  (deliver_runsB (cap := noCap) o hl hidle).runs

theorem reply_runs {m : Wid → NMsg A} {l : List Wid} (hl : l.Nodup) (hr : ∀ w ∈ l, (f w).pc = .reply (m w)) :
    Runs (netAct prm) (netCfg pm f (nbuf C M st ops cf))
      (netCfg pm (fun w => if w ∈ l then ⟨(f w).b, .idle, (f w).cnt⟩ else f w)
        (nbuf C M st ops (fun w => if w ∈ l then cf w ++ [m w] else cf w))) :=
  (reply_runsB (cap := noCap) hl hr fun _ _ => rfl).runs

theorem recvEach_runs {m : Wid → NMsg A} {l : List Wid} (hl : l.Nodup) (k : List (NMsg A) → MProg A) :
    Runs (netAct prm) (netCfg (recvEach l k) f (nbuf C M st ops (fun w => if w ∈ l then [m w] else [])))
      (netCfg (k (l.map m)) f (nbuf C M st ops noMsg)) :=
  (recvEach_runsB (cap := noCap) hl k).runs

theorem mapWorkers_runs {o : WOp A} {l : List Wid} (hl : l.Nodup) (k : List (NMsg A) → MProg A)
    (hidle : ∀ w ∈ l, (f w).pc = .idle) {f2 : Wid → WSt A} {st' : Wid → Wid → Nat} {m : Wid → NMsg A}
    (hmid : ∀ pm, Runs (netAct prm)
      (netCfg pm (fun w => if w ∈ l then handled prm o w (f w) else f w) (nbuf C M st noMsg noMsg))
      (netCfg pm f2 (nbuf C M st' noMsg noMsg)))
    (hr : ∀ w ∈ l, (f2 w).pc = .reply (m w)) :
    Runs (netAct prm) (netCfg (mapWorkers o l k) f (nbuf C M st noMsg noMsg))
      (netCfg (k (l.map m)) (fun w => if w ∈ l then ⟨(f2 w).b, .idle, (f2 w).cnt⟩ else f2 w)
        (nbuf C M st' noMsg noMsg)) :=
  (mapWorkers_runsB (cap := noCap) (fun _ => rfl) hl k hidle (fun pm => (hmid pm).bounded) hr).runs

theorem mapWorkers_local {o : WOp A} {l : List Wid} (hl : l.Nodup) (k : List (NMsg A) → MProg A)
    (hidle : ∀ w ∈ l, (f w).pc = .idle) {m : Wid → NMsg A} (hr : ∀ w ∈ l, (handleOp (prm w) w (f w) o).2 = .reply (m w)) :
    Runs (netAct prm) (netCfg (mapWorkers o l k) f (nbuf C M st noMsg noMsg))
      (netCfg (k (l.map m)) (fun w => if w ∈ l then ⟨(handleOp (prm w) w (f w) o).1, .idle, (f w).cnt + 1⟩ else f w)
        (nbuf C M st noMsg noMsg)) :=
  (mapWorkers_localB (cap := noCap) (fun _ => rfl) hl k hidle hr).runs

end QIP.FNet
