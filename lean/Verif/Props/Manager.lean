import Mathlib.Algebra.BigOperators.Group.List.Basic
import Mathlib.Data.List.Nodup
import Verif.Model.Manager
import Verif.Props.Pool

/-!
# C67: workers are neither lost nor double-booked
-/

namespace QIP.Props

open QIP

/-- How often a worker is free or held by a live job. -/
def occurrences (s : MState) (w : Wkr) : Nat :=
  s.free.count w + (s.live.map fun h => ((s.pools h).map Placed.worker).count w).sum

/-- Histories: a worker connects at most once and handles are fresh (uuid4). -/
inductive Valid (P : MEvent → Prop) : List MEvent → MState → Prop
  | nil : Valid P [] MState.init
  | snoc {es s e} : Valid P es s → P e →
      (∀ w, e = .connect w → w ∉ s.connected) →
      (∀ n h o, e = .setup n h o → h ∉ s.live ∧ ∀ n' o', .setup n' h o' ∉ es) → Valid P (es ++ [e]) (mgrStep s e)

/-- No message of the manager fails: workers and clients receive what is sent to them at setup and at the end.
Operations may fail in any way. -/
def Benign : MEvent → Prop
  | .setup _ _ o => o = .ok
  | .finish _ sent => sent = true
  | _ => True

theorem sum_update {live : List Nat} (hnd : live.Nodup) {h : Nat} (hh : h ∈ live) (pools : Nat → List Placed)
    (l : List Placed) (w : Wkr) :
    (live.map fun x => ((Function.update pools h l x).map Placed.worker).count w).sum
        + ((pools h).map Placed.worker).count w
      = (live.map fun x => ((pools x).map Placed.worker).count w).sum + (l.map Placed.worker).count w := by
  induction live with
  | nil => cases hh
  | cons a live ih =>
    simp only [List.map_cons, List.sum_cons]
    by_cases ha : a = h
    · subst ha
      have e : live.map (fun x => ((Function.update pools a l x).map Placed.worker).count w)
          = live.map fun x => ((pools x).map Placed.worker).count w := by
        apply List.map_congr_left
        intro x hx
        rw [Function.update_of_ne]
        rintro rfl
        exact (List.nodup_cons.1 hnd).1 hx
      rw [e, Function.update_self]
      omega
    · have := ih (List.nodup_cons.1 hnd).2 (by
        rcases List.mem_cons.1 hh with h' | h'
        · exact absurd h'.symm ha
        · exact h')
      rw [Function.update_of_ne ha]
      omega

theorem sum_update_fresh {live : List Nat} {h : Nat} (hh : h ∉ live) (pools : Nat → List Placed)
    (l : List Placed) (w : Wkr) :
    (live.map fun x => ((Function.update pools h l x).map Placed.worker).count w)
      = live.map fun x => ((pools x).map Placed.worker).count w := by
  apply List.map_congr_left
  intro x hx
  rw [Function.update_of_ne]
  rintro rfl
  exact hh hx

theorem sum_erase {live : List Nat} {h : Nat} (hh : h ∈ live) (f : Nat → Nat) :
    ((live.erase h).map f).sum + f h = (live.map f).sum := by
  have := ((List.perm_cons_erase hh).map f).sum_eq
  rw [this]
  simp; omega

theorem count_draw {n : Nat} {free un rest : List Wkr} {wn : Nat} (h : drawWorkers n free = .ok (un, rest, wn)) (w : Wkr) :
    un.count w + rest.count w = free.count w := by
  rw [← List.count_append]
  exact (C59_drawn h).1.count_eq w

/-- One event changes the number of occurrences of a worker only if the worker connects, or downwards if a message
fails. -/
theorem occurrences_step {s : MState} (hnd : s.live.Nodup) {e : MEvent} (hf : ∀ n h o, e = .setup n h o → h ∉ s.live)
    (w : Wkr) :
    occurrences (mgrStep s e) w ≤ occurrences s w + (if e = .connect w then 1 else 0) ∧
    (Benign e → occurrences (mgrStep s e) w = occurrences s w + (if e = .connect w then 1 else 0)) ∧
    (mgrStep s e).live.Nodup := by
  cases e with
  | connect w' =>
    have : occurrences (mgrStep s (.connect w')) w = occurrences s w + (if MEvent.connect w' = .connect w then 1 else 0) := by
      simp only [occurrences, mgrStep, List.count_append, List.count_singleton, MEvent.connect.injEq, beq_iff_eq]
      omega
    exact ⟨this.le, fun _ => this, hnd⟩
  | setup n h o =>
    have hh := hf n h o rfl
    simp only [reduceCtorEq, if_false, Nat.add_zero]
    unfold mgrStep
    rcases hd : drawWorkers n s.free with er | ⟨un, rest, wn⟩
    · simp only [hd]
      exact ⟨le_rfl, fun _ => by trivial, hnd⟩
    · obtain ⟨placed, hp, hperm, -⟩ := C60_tiles hd
      have hc := count_draw hd w
      have hpc : (placed.map Placed.worker).count w = un.count w := hperm.count_eq w
      cases o with
      | ok =>
        have : occurrences { s with free := rest, pools := Function.update s.pools h placed, live := s.live ++ [h] } w
            = occurrences s w := by
          simp only [occurrences, List.map_append, List.sum_append, sum_update_fresh hh, List.map_cons, List.map_nil,
            List.sum_cons, List.sum_nil, Function.update_self]
          omega
        simp only [hd, hp]
        refine ⟨this.le, fun _ => this, ?_⟩
        rw [List.nodup_append]
        refine ⟨hnd, by simp, ?_⟩
        rintro a ha b hb rfl
        simp only [List.mem_singleton] at hb
        exact hh (hb ▸ ha)
      | allocateFails =>
        simp only [hd]
        refine ⟨?_, fun hb => absurd hb (by simp [Benign]), hnd⟩
        simp only [occurrences]
        omega
      | replyFails =>
        simp only [hd, hp]
        refine ⟨?_, fun hb => absurd hb (by simp [Benign]), hnd⟩
        simp only [occurrences, sum_update_fresh hh]
        omega
  | reduce h t =>
    simp only [reduceCtorEq, if_false, Nat.add_zero]
    unfold mgrStep
    by_cases hh : h ∈ s.live
    · simp only [hh, if_true]
      have hsplit : (((s.pools h).filter fun p => !keeps t p).map Placed.worker).count w
          + (((s.pools h).filter (keeps t)).map Placed.worker).count w = ((s.pools h).map Placed.worker).count w := by
        rw [← List.count_append, ← List.map_append]
        refine (List.Perm.map _ ?_).count_eq w
        exact (List.perm_append_comm).trans (List.filter_append_perm _ _)
      have hu := sum_update hnd hh s.pools ((s.pools h).filter (keeps t)) w
      have : occurrences { s with free := s.free ++ (((s.pools h).filter fun p => !keeps t p).map Placed.worker),
                                  pools := Function.update s.pools h ((s.pools h).filter (keeps t)) } w
          = occurrences s w := by
        simp only [occurrences, List.count_append]
        omega
      exact ⟨this.le, fun _ => this, hnd⟩
    · simp only [hh, if_false]
      exact ⟨le_rfl, fun _ => by trivial, hnd⟩
  | finish h sent =>
    simp only [reduceCtorEq, if_false, Nat.add_zero]
    unfold mgrStep
    by_cases hh : h ∈ s.live
    · simp only [hh, if_true]
      have he := sum_erase hh fun x => ((s.pools x).map Placed.worker).count w
      have hne : h ∉ s.live.erase h := List.Nodup.not_mem_erase hnd
      cases sent with
      | true =>
        have : occurrences { s with free := s.free ++ (s.pools h).map Placed.worker,
                                    pools := Function.update s.pools h [], live := s.live.erase h } w
            = occurrences s w := by
          simp only [occurrences, List.count_append, sum_update_fresh hne]
          omega
        exact ⟨this.le, fun _ => this, hnd.erase _⟩
      | false =>
        simp only [Bool.false_eq_true, if_false]
        refine ⟨?_, fun hb => absurd hb (by simp [Benign]), hnd.erase _⟩
        simp only [occurrences]
        omega
    · simp only [hh, if_false]
      exact ⟨le_rfl, fun _ => by trivial, hnd⟩

theorem connected_step (s : MState) (e : MEvent) (w : Wkr) :
    w ∈ (mgrStep s e).connected ↔ w ∈ s.connected ∨ e = .connect w := by
  cases e with
  | connect w' => simp [mgrStep, eq_comm]
  | setup n h o =>
    unfold mgrStep
    rcases hd : drawWorkers n s.free with er | ⟨un, rest, wn⟩
    · simp [hd]
    · rcases hp : allocateWorkers n wn un with er | placed <;> cases o <;> simp [hd, hp]
  | reduce h t => by_cases hh : h ∈ s.live <;> simp [mgrStep, hh]
  | finish h sent => by_cases hh : h ∈ s.live <;> cases sent <;> simp [mgrStep, hh]

theorem valid_facts {P : MEvent → Prop} {es : List MEvent} {s : MState} (h : Valid P es s) : s.live.Nodup := by
  induction h with
  | nil => exact List.nodup_nil
  | snoc _ _ _ hf ih => exact (occurrences_step ih (fun n h o e => (hf n h o e).1) ⟨0, 0⟩).2.2

/-- C67 (partial: no message of the manager itself fails at setup or at the end of a session; operations may fail):
at every moment every connected worker is free or held by exactly one live job, and nobody else is. -/
theorem C67_conservation_partial {es : List MEvent} {s : MState} (h : Valid Benign es s) (w : Wkr) :
    occurrences s w = if w ∈ s.connected then 1 else 0 := by
  induction h with
  | nil => simp [occurrences, MState.init]
  | @snoc es s e hv hb hc hf ih =>
    rw [(occurrences_step (valid_facts hv) (fun n h o e => (hf n h o e).1) w).2.1 hb, ih]
    have := connected_step s e w
    by_cases h1 : e = .connect w
    · have h2 := hc w h1
      rw [if_pos (this.2 (Or.inr h1)), if_pos h1, if_neg h2]
    · simp [this, h1]

/-- C67: when a session ends and its workers can be told, all of them are free again. -/
theorem C67_finished {s : MState} {h : Nat} (hl : h ∈ s.live) :
    (mgrStep s (.finish h true)).free = s.free ++ (s.pools h).map Placed.worker ∧
      (mgrStep s (.finish h true)).pools h = [] := by
  simp [mgrStep, hl]

/-- C67: a reducing measurement leaves with the job the workers that read and write only basis states of the reduced register
(those below `t`), and frees all others. -/
theorem C67_reduced {s : MState} {h t : Nat} (hl : h ∈ s.live) (hr : ∀ p ∈ s.pools h, p.inp.1 < p.inp.2 ∧ p.out.1 < p.out.2) :
    (∀ p, p ∈ (mgrStep s (.reduce h t)).pools h ↔
      p ∈ s.pools h ∧ (∀ i, p.inp.1 ≤ i → i < p.inp.2 → i < t) ∧ ∀ i, p.out.1 ≤ i → i < p.out.2 → i < t) ∧
    ∀ w, w ∈ (mgrStep s (.reduce h t)).free ↔
      w ∈ s.free ∨ ∃ p ∈ s.pools h, p.worker = w ∧ p ∉ (mgrStep s (.reduce h t)).pools h := by
  have key : ∀ p ∈ s.pools h, keeps t p = true ↔
      (∀ i, p.inp.1 ≤ i → i < p.inp.2 → i < t) ∧ ∀ i, p.out.1 ≤ i → i < p.out.2 → i < t := by
    intro p hp
    obtain ⟨h1, h2⟩ := hr p hp
    simp only [keeps, decide_eq_true_eq]
    constructor
    · rintro ⟨h3, h4⟩
      exact ⟨fun i _ hi => by omega, fun i _ hi => by omega⟩
    · rintro ⟨h3, h4⟩
      have a := h3 (p.inp.2 - 1) (by omega) (by omega)
      have b := h4 (p.out.2 - 1) (by omega) (by omega)
      omega
  have hmem : ∀ p, p ∈ (mgrStep s (.reduce h t)).pools h ↔ p ∈ s.pools h ∧ keeps t p = true := by
    intro p
    simp [mgrStep, hl]
  refine ⟨fun p => ?_, fun w => ?_⟩
  · rw [hmem]
    exact and_congr_right fun hp => key p hp
  · have : (mgrStep s (.reduce h t)).free = s.free ++ (((s.pools h).filter fun p => !keeps t p).map Placed.worker) := by
      simp [mgrStep, hl]
    rw [this, List.mem_append, List.mem_map]
    refine or_congr_right ⟨?_, ?_⟩
    · rintro ⟨p, hp, rfl⟩
      obtain ⟨hp, hk⟩ := List.mem_filter.1 hp
      exact ⟨p, hp, rfl, fun hc => by simp [((hmem p).1 hc).2] at hk⟩
    · rintro ⟨p, hp, rfl, hn⟩
      refine ⟨p, List.mem_filter.2 ⟨hp, ?_⟩, rfl⟩
      by_contra hc
      exact hn ((hmem p).2 ⟨hp, by simpa using hc⟩)

/-- A job on 2 qubits and four workers of 1 qubit: one worker stays after one qubit is measured. -/
example : ((mgrStep ⟨[], [], fun _ => [⟨(0, 2), (0, 2), ⟨0, 1⟩⟩, ⟨(0, 2), (2, 4), ⟨1, 1⟩⟩, ⟨(2, 4), (0, 2), ⟨2, 1⟩⟩,
    ⟨(2, 4), (2, 4), ⟨3, 1⟩⟩], [7]⟩ (.reduce 7 2)).pools 7).map Placed.worker = [⟨0, 1⟩] := by decide

/-- C67 (negation of the full property): if telling the workers fails at setup, or the client has gone when its handle
is sent, all workers drawn for it are neither free nor held by a live job … -/
theorem C67_setup_failure_loses {es : List MEvent} {s : MState} (hv : Valid Benign es s) {n handle : Nat}
    (hfresh : handle ∉ s.live) {un rest : List Wkr} {wn : Nat} (hd : drawWorkers n s.free = .ok (un, rest, wn))
    {o : SetupOutcome} (ho : o ≠ .ok) {w : Wkr} (hw : w ∈ un) :
    w ∈ s.connected ∧ occurrences (mgrStep s (.setup n handle o)) w = 0 := by
  have hc := count_draw hd w
  have hpos : 0 < un.count w := List.count_pos_iff.2 hw
  have hocc := C67_conservation_partial hv w
  have hmem : w ∈ s.connected := by
    by_contra hn
    rw [if_neg hn] at hocc
    simp only [occurrences] at hocc
    omega
  rw [if_pos hmem] at hocc
  obtain ⟨placed, hp, -⟩ := C60_tiles hd
  refine ⟨hmem, ?_⟩
  unfold mgrStep
  simp only [hd, hp]
  cases o with
  | ok => exact absurd rfl ho
  | allocateFails =>
    simp only [occurrences] at hocc ⊢
    omega
  | replyFails =>
    simp only [occurrences, sum_update_fresh hfresh] at hocc ⊢
    omega

/-- … and if a worker's socket is broken when the session ends, so are all workers of the session … -/
theorem C67_close_failure_loses {es : List MEvent} {s : MState} (hv : Valid Benign es s) {handle : Nat}
    (hl : handle ∈ s.live) {p : Placed} (hp : p ∈ s.pools handle) :
    p.worker ∈ s.connected ∧ occurrences (mgrStep s (.finish handle false)) p.worker = 0 := by
  have hocc := C67_conservation_partial hv p.worker
  have he := sum_erase hl fun x => ((s.pools x).map Placed.worker).count p.worker
  have hpos : 0 < ((s.pools handle).map Placed.worker).count p.worker :=
    List.count_pos_iff.2 (List.mem_map_of_mem hp)
  have hmem : p.worker ∈ s.connected := by
    by_contra hn
    rw [if_neg hn] at hocc
    simp only [occurrences] at hocc
    omega
  rw [if_pos hmem] at hocc
  refine ⟨hmem, ?_⟩
  simp only [mgrStep, hl, if_true, Bool.false_eq_true, if_false, occurrences] at hocc ⊢
  omega

/-- … and they stay lost, whatever happens later (the socket of a worker never connects a second time). -/
theorem C67_lost_forever {s : MState} (hnd : s.live.Nodup) {w : Wkr} (h0 : occurrences s w = 0) (es : List MEvent)
    (hc : .connect w ∉ es) (hf : (es.filterMap fun e => match e with | .setup _ h _ => some h | _ => none).Nodup)
    (hfl : ∀ h ∈ es.filterMap fun e => match e with | .setup _ h _ => some h | _ => none, h ∉ s.live) :
    occurrences (mgrRun s es) w = 0 := by
  induction es generalizing s with
  | nil => exact h0
  | cons e es ih =>
    have hfresh : ∀ n h o, e = .setup n h o → h ∉ s.live := by
      rintro n h o rfl
      exact hfl h (by simp)
    obtain ⟨h1, -, h3⟩ := occurrences_step hnd hfresh w
    rw [if_neg (by rintro rfl; exact hc (by simp))] at h1
    refine ih (s := mgrStep s e) h3 (by omega) (fun h => hc (by simp [h])) ?_ ?_
    · rw [List.filterMap_cons] at hf
      split at hf
      · exact hf
      · exact (List.nodup_cons.1 hf).2
    · intro h hh hl
      have hold : h ∉ s.live := hfl h (by
        rw [List.filterMap_cons]
        split
        · exact hh
        · exact List.mem_cons_of_mem _ hh)
      -- the handle became live with this event
      cases e with
      | connect w' => exact hold hl
      | setup n h' o =>
        have hne : h ≠ h' := by
          rintro rfl
          simp only [List.filterMap_cons] at hf
          exact (List.nodup_cons.1 hf).1 hh
        unfold mgrStep at hl
        rcases hd : drawWorkers n s.free with er | ⟨un, rest, wn⟩
        · simp only [hd] at hl; exact hold hl
        · obtain ⟨placed, hp, -⟩ := C60_tiles hd
          simp only [hd, hp] at hl
          cases o <;> simp only [List.mem_append, List.mem_singleton] at hl
          · rcases hl with hl | hl
            · exact hold hl
            · exact hne hl
          · exact hold hl
          · exact hold hl
      | reduce h' t =>
        by_cases hh' : h' ∈ s.live <;> simp only [mgrStep, hh', if_true, if_false] at hl <;> exact hold hl
      | finish h' sent =>
        by_cases hh' : h' ∈ s.live
        · cases sent <;>
            simp only [mgrStep, hh', if_true, Bool.false_eq_true, if_false] at hl <;>
            exact hold (List.mem_of_mem_erase hl)
        · simp only [mgrStep, hh', if_false] at hl
          exact hold hl

/-! ### Examples -/

/-- Four workers with one qubit each connect, a client with two qubits uses them all, and leaves. -/
example : Valid Benign
    [.connect ⟨0, 1⟩, .connect ⟨1, 1⟩, .connect ⟨2, 1⟩, .connect ⟨3, 1⟩, .setup 2 7 .ok, .reduce 7 2, .finish 7 true]
    (mgrRun MState.init
      [.connect ⟨0, 1⟩, .connect ⟨1, 1⟩, .connect ⟨2, 1⟩, .connect ⟨3, 1⟩, .setup 2 7 .ok, .reduce 7 2,
        .finish 7 true]) := by
  refine Valid.snoc (es := [_, _, _, _, _, _]) (Valid.snoc (es := [_, _, _, _, _]) (Valid.snoc (es := [_, _, _, _])
    (Valid.snoc (es := [_, _, _]) (Valid.snoc (es := [_, _]) (Valid.snoc (es := [_]) (Valid.snoc (es := []) Valid.nil
    ?_ ?_ ?_) ?_ ?_ ?_) ?_ ?_ ?_) ?_ ?_ ?_) ?_ ?_ ?_) ?_ ?_ ?_) ?_ ?_ ?_ <;>
  simp [Benign, mgrStep, MState.init]

/-- Drawing for the client of the second example succeeds, so the hypotheses of `C67_setup_failure_loses` are met. -/
example : drawWorkers 1 (mgrRun MState.init [.connect ⟨0, 1⟩]).free = .ok ([⟨0, 1⟩], [], 1) := by
  simp [mgrRun, mgrStep, MState.init, drawWorkers, drawLoop, requiredWorkers, bind, Except.bind]

/-- A client that disconnects before its handle arrives costs the manager the worker: the next client is refused. -/
example : (mgrRun MState.init [.connect ⟨0, 1⟩, .setup 1 7 .replyFails, .setup 1 8 .ok]).live = [] := by
  have h1 : drawWorkers 1 [⟨0, 1⟩] = .ok ([⟨0, 1⟩], [], 1) := by
    simp [drawWorkers, drawLoop, requiredWorkers, bind, Except.bind]
  have h2 : allocateWorkers 1 1 [⟨0, 1⟩] = .ok [⟨(0, 2), (0, 2), ⟨0, 1⟩⟩] := by decide
  have h3 : drawWorkers 1 [] = .error .indexError := by simp [drawWorkers]
  simp only [mgrRun, List.foldl_cons, List.foldl_nil, mgrStep, MState.init, List.nil_append, h1, h2, h3]

end QIP.Props
