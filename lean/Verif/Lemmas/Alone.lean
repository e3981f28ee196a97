import Verif.Lemmas.Net
import Verif.Model.Cluster

/-!
# One job of a cluster, alone
-/

namespace QIP

section

variable {P M S : Type} [DecidableEq P] {act : P → S → Act P M S}

/-- A process that has halted stays so; the others can only read what it has sent, and add to what it has not read. -/
theorem halted_step {p x : P} {c c' : Cfg P M S} (hh : act p (c.loc p) = .halt) (ht : stepP act x c = some c') :
    c'.loc p = c.loc p ∧ (∀ q, c'.buf (p, q) <:+ c.buf (p, q)) ∧ ∀ q, c.buf (q, p) <+: c'.buf (q, p) := by
  unfold stepP at ht
  have hne : p ≠ x := by
    rintro rfl
    simp [hh] at ht
  rcases ha : act x (c.loc x) with _ | ⟨d, m, s⟩ | ⟨r, k⟩ <;> rw [ha] at ht <;> simp only at ht
  · cases ht
  · injection ht with ht
    subst ht
    refine ⟨Function.update_of_ne hne _ _, fun q => ?_, fun q => ?_⟩
    · simp only
      rw [Function.update_of_ne (fun e => hne (Prod.ext_iff.1 e).1)]
    · simp only
      by_cases he : (q, p) = (x, d)
      · rw [he, Function.update_self]
        exact List.prefix_append _ _
      · rw [Function.update_of_ne he]
  · rcases hb : c.buf (r, x) with _ | ⟨m, rest⟩ <;> rw [hb] at ht <;> simp only at ht
    · cases ht
    injection ht with ht
    subst ht
    refine ⟨Function.update_of_ne hne _ _, fun q => ?_, fun q => ?_⟩
    · simp only
      by_cases he : (p, q) = (r, x)
      · rw [he, Function.update_self, hb]
        exact List.suffix_cons _ _
      · rw [Function.update_of_ne he]
    · simp only
      rw [Function.update_of_ne (fun e => hne (Prod.ext_iff.1 e).2)]

theorem halted_exec {p : P} {t : List P} {c c' : Cfg P M S} (hh : act p (c.loc p) = .halt) (ht : exec act t c = some c') :
    c'.loc p = c.loc p ∧ (∀ q, c'.buf (p, q) <:+ c.buf (p, q)) ∧ ∀ q, c.buf (q, p) <+: c'.buf (q, p) := by
  induction t generalizing c with
  | nil =>
    simp only [exec, Option.some.injEq] at ht
    subst ht
    exact ⟨rfl, fun _ => List.suffix_refl _, fun _ => List.prefix_refl _⟩
  | cons x t ih =>
    rw [exec] at ht
    rcases hs : stepP act x c with _ | c1 <;> rw [hs] at ht <;> simp only at ht
    · cases ht
    obtain ⟨h1, h2, h3⟩ := halted_step hh hs
    obtain ⟨i1, i2, i3⟩ := ih (h1 ▸ hh) ht
    exact ⟨i1.trans h1, fun q => (i2 q).trans (h2 q), fun q => (h3 q).trans (i3 q)⟩

/-- A process that waits for one that has halted waits for ever. -/
theorem blocked_exec {p q : P} {t : List P} {c c' : Cfg P M S} {k : M → S} (hh : act q (c.loc q) = .halt)
    (hp : act p (c.loc p) = .recv q k) (hb : c.buf (q, p) = []) (ht : exec act t c = some c') : c'.loc p = c.loc p := by
  induction t generalizing c with
  | nil =>
    simp only [exec, Option.some.injEq] at ht
    subst ht
    rfl
  | cons x t ih =>
    rw [exec] at ht
    rcases hs : stepP act x c with _ | c1 <;> rw [hs] at ht <;> simp only at ht
    · cases ht
    obtain ⟨h1, h2, -⟩ := halted_step hh hs
    have hb1 : c1.buf (q, p) = [] := List.suffix_nil.1 (hb ▸ h2 p)
    have hx : x ≠ p := by
      rintro rfl
      simp [stepP, hp, hb] at hs
    have hl : c1.loc p = c.loc p := by
      unfold stepP at hs
      split at hs
      · cases hs
      · injection hs with hs
        subst hs
        exact Function.update_of_ne hx.symm _ _
      · split at hs
        · cases hs
        · injection hs with hs
          subst hs
          exact Function.update_of_ne hx.symm _ _
    rw [ih (h1 ▸ hh) (hl ▸ hp) hb1 ht, hl]

end

/-- Where a process of a single job is. -/
inductive ALoc where
  | thr (t : Thread)
  | before
  | inside (s : WSt)
  | left
  | dead

/-- After a step of a worker in the job. -/
def leave (s : WSt) : ALoc :=
  match s.pc with
  | .closed => .left
  | .crashed => .dead
  | _ => .inside s

/-- A worker reads its first message. -/
noncomputable def enter (j : ClusterJob) (h : Nat) (w : Wid) : CMsg → ALoc
  | .setup h' w' => if h' = h ∧ w' = w then
      match j.setUp w with
      | some s => .inside s
      | none => .dead
    else .dead
  | .msg _ => .dead

/-- The processes of a job of the cluster, as if there were no other jobs. -/
noncomputable def aloneAct (j : ClusterJob) (h : Nat) : Pid → ALoc → Act Pid CMsg ALoc
  | none, .thr (.setup (w :: ws)) => .send (some w) (.setup h w) (.thr (j.next ws))
  | none, .thr (.run (.mgr rs (.send w o k) todo)) => .send (some w) (.msg (.op o)) (.thr (.run (settle rs k todo)))
  | none, .thr (.run (.mgr rs (.recv w k) todo)) => .recv (some w) fun m =>
      .thr (.run (m.read (.mgr rs (.done (.error .exception)) todo) fun m => settle rs (k m) todo))
  | some w, .before => .recv none (enter j h w)
  | some w, .inside s =>
    match workerAct (j.prm w) w s with
    | .halt => .halt
    | .send q m s' => .send q (.msg m) (leave s')
    | .recv q k => .recv q fun m => m.read .dead fun m => leave (k m)
  | _, _ => .halt

/-- The start: no worker has been set up. -/
def aloneStart (j : ClusterJob) : Cfg Pid CMsg ALoc :=
  ⟨fun x => match x with
    | none => .thr (j.next j.wids)
    | some w => if w ∈ j.wids then .before else .left, fun _ => []⟩

/-- The job, alone, ends under every schedule: all results reported, all workers left, no message between manager and workers. -/
structure Good (j : ClusterJob) (h : Nat) (F : Cfg Pid CMsg ALoc) : Prop where
  ends : AlwaysEnds (aloneAct j h) (aloneStart j) F
  fin : ∃ rs, F.loc none = .thr (.run (.fin rs))
  gone : ∀ w, F.loc (some w) = .left
  down : ∀ w, F.buf (none, some w) = []
  up : ∀ w, F.buf (some w, none) = []

variable {j : ClusterJob} {h : Nat} {F d : Cfg Pid CMsg ALoc}

theorem Good.toEnd (hg : Good j h F) (hd : Runs (aloneAct j h) (aloneStart j) d) : ∃ t, exec (aloneAct j h) t d = some F := by
  obtain ⟨-, n, hn⟩ := hg.ends
  obtain ⟨s, hs⟩ := hd
  obtain ⟨t, ht, -⟩ := hn s d hs
  exact ⟨t, ht⟩

theorem Good.halted (hg : Good j h F) (hd : Runs (aloneAct j h) (aloneStart j) d) {w : Wid}
    (ha : aloneAct j h (some w) (d.loc (some w)) = .halt) : d.loc (some w) = .left := by
  obtain ⟨t, ht⟩ := hg.toEnd hd
  rw [← (halted_exec ha ht).1, hg.gone]

theorem Good.halted_none (hg : Good j h F) (hd : Runs (aloneAct j h) (aloneStart j) d)
    (ha : aloneAct j h none (d.loc none) = .halt) : d.loc none = F.loc none := by
  obtain ⟨t, ht⟩ := hg.toEnd hd
  rw [← (halted_exec ha ht).1]

theorem Good.left_down (hg : Good j h F) (hd : Runs (aloneAct j h) (aloneStart j) d) {w : Wid} (hl : d.loc (some w) = .left) :
    d.buf (none, some w) = [] := by
  obtain ⟨t, ht⟩ := hg.toEnd hd
  have := (halted_exec (p := some w) (by rw [hl]; rfl) ht).2.2 none
  rw [hg.down] at this
  exact List.prefix_nil.1 this

theorem Good.fin_up (hg : Good j h F) (hd : Runs (aloneAct j h) (aloneStart j) d) {rs : List (Option (Nat × ℝ))}
    (hl : d.loc none = .thr (.run (.fin rs))) (w : Wid) : d.buf (some w, none) = [] := by
  obtain ⟨t, ht⟩ := hg.toEnd hd
  have := (halted_exec (p := none) (by rw [hl]; rfl) ht).2.2 (some w)
  rw [hg.up] at this
  exact List.prefix_nil.1 this

theorem Good.fin_down (hg : Good j h F) (hd : Runs (aloneAct j h) (aloneStart j) d) {rs : List (Option (Nat × ℝ))}
    (hl : d.loc none = .thr (.run (.fin rs))) {w : Wid} {k : CMsg → ALoc}
    (ha : aloneAct j h (some w) (d.loc (some w)) = .recv none k) : d.buf (none, some w) ≠ [] := by
  intro hb
  obtain ⟨t, ht⟩ := hg.toEnd hd
  have := blocked_exec (p := some w) (q := none) (by rw [hl]; rfl) ha hb ht
  rw [← this, hg.gone] at ha
  cases ha

/-- Positions that the job does not have. -/
theorem absent (hd : Runs (aloneAct j h) (aloneStart j) d) {w : Wid} (hw : w ∉ j.wids) :
    d.loc (some w) = .left ∧ ∀ q, d.buf (some w, q) = [] := by
  obtain ⟨t, ht⟩ := hd
  have h0 : (aloneStart j).loc (some w) = .left := by simp [aloneStart, hw]
  obtain ⟨h1, h2, -⟩ := halted_exec (p := some w) (by rw [h0]; rfl) ht
  exact ⟨h1.trans h0, fun q => List.suffix_nil.1 (h2 q)⟩

theorem runs_step {d' : Cfg Pid CMsg ALoc} {p : Pid} (hd : Runs (aloneAct j h) (aloneStart j) d)
    (hs : stepP (aloneAct j h) p d = some d') : Runs (aloneAct j h) (aloneStart j) d' := hd.trans (.single hs)

theorem who_some {w : Wid} : (∃ x, j.who w = some x) ↔ w ∈ j.wids := by
  unfold ClusterJob.who ClusterJob.wids
  constructor
  · rintro ⟨x, hx⟩
    rcases hf : j.placed.find? (fun p => decide (p.wid = w)) with _ | p
    · simp [hf] at hx
    · have := List.find?_some hf
      exact List.mem_map.2 ⟨p, List.mem_of_find?_eq_some hf, by simpa using this⟩
  · intro hw
    obtain ⟨p, hp, he⟩ := List.mem_map.1 hw
    rcases hf : j.placed.find? (fun p => decide (p.wid = w)) with _ | p
    · have := List.find?_eq_none.1 hf p hp
      simp [he] at this
    · exact ⟨p.worker, by simp [hf]⟩

theorem who_mem {w : Wid} {x : Wkr} (hx : j.who w = some x) : ∃ p ∈ j.placed, p.wid = w ∧ p.worker = x := by
  unfold ClusterJob.who at hx
  rcases hf : j.placed.find? (fun p => decide (p.wid = w)) with _ | p
  · simp [hf] at hx
  · have := List.find?_some hf
    simp only [hf, Option.map_some, Option.some.injEq] at hx
    exact ⟨p, List.mem_of_find?_eq_some hf, by simpa using this, hx⟩

theorem who_inj (hn : (j.placed.map Placed.worker).Nodup) {v w : Wid} {x : Wkr} (hv : j.who v = some x) (hw : j.who w = some x) :
    v = w := by
  obtain ⟨p, hp, rfl, e1⟩ := who_mem hv
  obtain ⟨q, hq, rfl, e2⟩ := who_mem hw
  rw [List.inj_on_of_nodup_map hn hp hq (e1.trans e2.symm)]

theorem who_of_mem (hn : j.wids.Nodup) {p : Placed} (hp : p ∈ j.placed) : j.who p.wid = some p.worker := by
  obtain ⟨x, hx⟩ := who_some.2 (List.mem_map.2 ⟨p, hp, rfl⟩ : p.wid ∈ j.wids)
  obtain ⟨q, hq, e1, e2⟩ := who_mem hx
  rw [hx, ← e2, List.inj_on_of_nodup_map hn hq hp e1]

end QIP
