import Verif.Lemmas.Alone
import Verif.Props.Pool

/-!
# Every job of a cluster is in a state that it could have reached alone
-/

namespace QIP

section

variable {P M S : Type} [DecidableEq P] {act : P → S → Act P M S}

theorem step_frame {p : P} {c c' : Cfg P M S} (hs : stepP act p c = some c') :
    (∀ q, q ≠ p → c'.loc q = c.loc q) ∧ ∀ a b, a ≠ p → b ≠ p → c'.buf (a, b) = c.buf (a, b) := by
  unfold stepP at hs
  split at hs
  · cases hs
  · injection hs with hs
    subst hs
    exact ⟨fun q hq => Function.update_of_ne hq _ _, fun a b ha _ => Function.update_of_ne (fun e => ha (Prod.ext_iff.1 e).1) _ _⟩
  · split at hs
    · cases hs
    · injection hs with hs
      subst hs
      exact ⟨fun q hq => Function.update_of_ne hq _ _, fun a b _ hb => Function.update_of_ne (fun e => hb (Prod.ext_iff.1 e).2) _ _⟩

theorem exec_snoc {t : List P} {p : P} {c d d' : Cfg P M S} (h1 : exec act t c = some d) (h2 : stepP act p d = some d') :
    exec act (t ++ [p]) c = some d' := by
  rw [exec_append, h1]
  simp [exec, h2]

end

/-- The workers have been given back. -/
def Ended (C : Cluster) (h : Nat) : Prop := ∃ rs, C.thread h = some (.ended rs)

/-- What a worker does, given the jobs it has been placed for and has not left, and where it is in each of them. -/
def headLife (d : Nat → Cfg Pid CMsg ALoc) : List (Nat × Wid) → Life
  | [] => .waiting
  | (h, w) :: _ =>
    match (d h).loc (some w) with
    | .inside s => .working h w s
    | _ => .waiting

/-- Every job `h` of `L` is in the state `d h`, reached alone by `ts h`; `q x` are the jobs that worker `x` has been placed for and
has not left. -/
structure Inv (jobs : Nat → ClusterJob) (C : Cluster) (d : Nat → Cfg Pid CMsg ALoc) (ts : Nat → List Pid)
    (q : Wkr → List (Nat × Wid)) (L : List Nat) : Prop where
  started : ∀ h, h ∈ L ↔ C.thread h ≠ none
  once : L.Nodup
  runs : ∀ h ∈ L, exec (aloneAct (jobs h) h) (ts h) (aloneStart (jobs h)) = some (d h)
  thread : ∀ h ∈ L, (∃ t, C.thread h = some t ∧ (∀ rs, t ≠ .ended rs) ∧ (d h).loc none = .thr t) ∨
    ∃ rs, C.thread h = some (.ended rs) ∧ (d h).loc none = .thr (.run (.fin rs))
  peer : ∀ h ∈ L, ∀ v w, C.peer h (v, w) = (d h).buf (some v, some w)
  nopeer : ∀ h, h ∉ L → ∀ vw, C.peer h vw = []
  queue : ∀ x h w, (h, w) ∈ q x ↔ h ∈ L ∧ (jobs h).who w = some x ∧ (d h).loc (some w) ≠ .left
  order : ∀ x, (q x).Pairwise fun a b => Ended C a.1 ∧ (d b.1).loc (some b.2) = .before ∧ L.idxOf a.1 < L.idxOf b.1
  life : ∀ x, C.life x = headLife d (q x)
  down : ∀ x, C.down x = (q x).flatMap fun r => (d r.1).buf (none, some r.2)
  up : ∀ h ∈ L, ¬ Ended C h → ∀ w x, (jobs h).who w = some x → C.up x = (d h).buf (some w, none)
  noup : ∀ x, (∀ h ∈ L, ¬ Ended C h → ∀ w, (jobs h).who w ≠ some x) → C.up x = []
  freeKnown : ∀ x ∈ C.free, x ∈ C.known
  jobKnown : ∀ h ∈ L, ∀ w x, (jobs h).who w = some x → x ∈ C.known
  freeOnce : C.free.Nodup
  busy : ∀ h ∈ L, ¬ Ended C h → ∀ w x, (jobs h).who w = some x → x ∉ C.free
  apart : ∀ h ∈ L, ∀ h' ∈ L, ¬ Ended C h → ¬ Ended C h' → ∀ v w x, (jobs h).who v = some x → (jobs h').who w = some x → h = h'
  wids : ∀ h ∈ L, (jobs h).wids.Nodup
  workers : ∀ h ∈ L, ((jobs h).placed.map Placed.worker).Nodup
  knownOnce : C.known.Nodup
  kept : ∀ x ∈ C.known, x ∈ C.free ∨ ∃ h ∈ L, ¬ Ended C h ∧ ∃ w, (jobs h).who w = some x

variable {jobs : Nat → ClusterJob} {F : Nat → Cfg Pid CMsg ALoc} {C C' : Cluster} {d : Nat → Cfg Pid CMsg ALoc} {ts : Nat → List Pid}
  {q : Wkr → List (Nat × Wid)} {L : List Nat} {h : Nat} {w : Wid} {x : Wkr} {rest : List (Nat × Wid)} {dn : Cfg Pid CMsg ALoc}

theorem Inv.alone (I : Inv jobs C d ts q L) (hL : h ∈ L) : Runs (aloneAct (jobs h) h) (aloneStart (jobs h)) (d h) :=
  ⟨_, I.runs h hL⟩

theorem Inv.fin (I : Inv jobs C d ts q L) (hL : h ∈ L) (he : Ended C h) : ∃ rs, (d h).loc none = .thr (.run (.fin rs)) := by
  obtain ⟨rs, hr⟩ := he
  rcases I.thread h hL with ⟨t, h1, h2, -⟩ | ⟨rs, -, h2⟩
  · rw [hr] at h1
    injection h1 with h1
    exact absurd h1.symm (h2 rs)
  · exact ⟨rs, h2⟩

theorem Inv.live (I : Inv jobs C d ts q L) (hL : h ∈ L) (he : ¬ Ended C h) :
    ∃ t, C.thread h = some t ∧ (∀ rs, t ≠ .ended rs) ∧ (d h).loc none = .thr t := by
  rcases I.thread h hL with h1 | ⟨rs, h1, -⟩
  · exact h1
  · exact absurd ⟨rs, h1⟩ he

/-- The worker's state after a step in its job. -/
def lifeOf (h : Nat) (w : Wid) : ALoc → Life
  | .inside s => .working h w s
  | _ => .waiting

open Classical in
/-- A step of a worker in its job. -/
theorem inv_worker (hg : Good (jobs h) h (F h)) (I : Inv jobs C d ts q L) (hq : q x = (h, w) :: rest)
    (hs : stepP (aloneAct (jobs h) h) (some w) (d h) = some dn) (hfix : C'.known = C.known ∧ C'.free = C.free ∧ C'.thread = C.thread)
    (hlife : C'.life = Function.update C.life x (lifeOf h w (dn.loc (some w))))
    (hdown : C'.down = Function.update C.down x (dn.buf (none, some w) ++ rest.flatMap fun r => (d r.1).buf (none, some r.2)))
    (hup : (C'.up = C.up ∧ dn.buf (some w, none) = (d h).buf (some w, none)) ∨
      ¬ Ended C h ∧ C'.up = Function.update C.up x (dn.buf (some w, none)))
    (hpeer : C'.peer = Function.update C.peer h fun vw => dn.buf (some vw.1, some vw.2)) :
    Inv jobs C' (Function.update d h dn) (Function.update ts h (ts h ++ [some w]))
      (if dn.loc (some w) = .left then Function.update q x rest else q) L := by
  obtain ⟨f1, f2, f3⟩ := hfix
  obtain ⟨hL, hwho, -⟩ := (I.queue x h w).1 (by rw [hq]; simp)
  obtain ⟨g1, g2⟩ := step_frame hs
  have hruns := runs_step (I.alone hL) hs
  have hE : ∀ h', Ended C' h' ↔ Ended C h' := fun h' => by simp only [Ended, f3]
  have hord := I.order x
  rw [hq, List.pairwise_cons] at hord
  have hrest : ∀ r ∈ rest, r.1 ≠ h := by
    intro r hr e
    have := (hord.1 r hr).2.2
    rw [e] at this
    exact absurd this (lt_irrefl _)
  -- positions of the job other than `w`, and other jobs
  have hloc : ∀ h' w', (h', w') ≠ (h, w) → (Function.update d h dn h').loc (some w') = (d h').loc (some w') := by
    intro h' w' hne
    by_cases e : h' = h
    · subst e
      rw [Function.update_self]
      exact g1 _ fun e => hne (by rw [Option.some.inj e])
    · rw [Function.update_of_ne e]
  have hbuf : ∀ h' w', (h', w') ≠ (h, w) → (Function.update d h dn h').buf (none, some w') = (d h').buf (none, some w') := by
    intro h' w' hne
    by_cases e : h' = h
    · subst e
      rw [Function.update_self]
      exact g2 _ _ (by simp) fun e => hne (by rw [Option.some.inj e])
    · rw [Function.update_of_ne e]
  have hnone : ∀ h', (Function.update d h dn h').loc none = (d h').loc none := by
    intro h'
    by_cases e : h' = h
    · subst e
      rw [Function.update_self]
      exact g1 _ (by simp)
    · rw [Function.update_of_ne e]
  have hother : ∀ y, y ≠ x → (if dn.loc (some w) = .left then Function.update q x rest else q) y = q y := by
    intro y hy
    split
    · exact Function.update_of_ne hy _ _
    · rfl
  have hsame : (if dn.loc (some w) = .left then Function.update q x rest else q) x
      = if dn.loc (some w) = .left then rest else (h, w) :: rest := by
    split
    · exact Function.update_self _ _ _
    · exact hq
  have hnot : ∀ y, y ≠ x → ∀ r ∈ q y, r ≠ (h, w) := by
    rintro y hy r hr rfl
    have := ((I.queue y h w).1 hr).2.1
    rw [hwho] at this
    exact hy (Option.some.inj this).symm
  refine ⟨?_, I.once, ?_, ?_, ?_, ?_, ?_, ?_, ?_, ?_, ?_, ?_, ?_, ?_, ?_, ?_, ?_, I.wids, I.workers, f1 ▸ I.knownOnce, ?_⟩
  · intro h'
    rw [f3]
    exact I.started h'
  · intro h' hL'
    by_cases e : h' = h
    · subst e
      rw [Function.update_self, Function.update_self]
      exact exec_snoc (I.runs h' hL') hs
    · rw [Function.update_of_ne e, Function.update_of_ne e]
      exact I.runs h' hL'
  · intro h' hL'
    rw [f3, hnone]
    exact I.thread h' hL'
  · intro h' hL' v w'
    rw [hpeer]
    by_cases e : h' = h
    · subst e
      rw [Function.update_self, Function.update_self]
    · rw [Function.update_of_ne e, Function.update_of_ne e]
      exact I.peer h' hL' v w'
  · intro h' hL' vw
    rw [hpeer, Function.update_of_ne (by rintro rfl; exact hL' hL)]
    exact I.nopeer h' hL' vw
  · intro y h' w'
    by_cases he : (h', w') = (h, w)
    · obtain ⟨rfl, rfl⟩ := Prod.mk.inj he
      rw [Function.update_self]
      by_cases hy : y = x
      · subst hy
        rw [hsame]
        split
        · rename_i hl
          constructor
          · intro hm
            exact absurd rfl (hrest _ hm)
          · rintro ⟨-, -, h3⟩
            exact absurd hl h3
        · rename_i hl
          exact ⟨fun _ => ⟨hL, hwho, hl⟩, fun _ => by simp⟩
      · rw [hother y hy]
        constructor
        · intro hm
          exact absurd rfl (hnot y hy _ hm)
        · rintro ⟨-, h2, -⟩
          rw [hwho] at h2
          exact absurd (Option.some.inj h2).symm hy
    · rw [hloc h' w' he, ← I.queue y h' w']
      by_cases hy : y = x
      · subst hy
        rw [hsame, hq]
        split
        · simp [he]
        · rfl
      · rw [hother y hy]
  · intro y
    by_cases hy : y = x
    · subst hy
      have h2 : rest.Pairwise fun a b => Ended C' a.1 ∧ (Function.update d h dn b.1).loc (some b.2) = .before ∧
          L.idxOf a.1 < L.idxOf b.1 := by
        refine hord.2.imp_of_mem ?_
        rintro a b - hb ⟨i1, i2, i3⟩
        exact ⟨(hE _).2 i1, by rw [Function.update_of_ne (hrest b hb)]; exact i2, i3⟩
      rw [hsame]
      split
      · exact h2
      · rw [List.pairwise_cons]
        refine ⟨fun b hb => ?_, h2⟩
        obtain ⟨i1, i2, i3⟩ := hord.1 b hb
        exact ⟨(hE _).2 i1, by rw [Function.update_of_ne (hrest b hb)]; exact i2, i3⟩
    · rw [hother y hy]
      refine (I.order y).imp_of_mem ?_
      rintro a b - hb ⟨i1, i2, i3⟩
      exact ⟨(hE _).2 i1, by rw [hloc b.1 b.2 (hnot y hy b hb)]; exact i2, i3⟩
  · intro y
    rw [hlife]
    by_cases hy : y = x
    · subst hy
      rw [Function.update_self, hsame]
      split
      · rename_i hl
        rw [hl]
        cases hr : rest with
        | nil => rfl
        | cons r rest' =>
          obtain ⟨h', w'⟩ := r
          have hm : (h', w') ∈ rest := by rw [hr]; simp
          have := (hord.1 _ hm).2.1
          simp only [headLife, Function.update_of_ne (hrest _ hm)]
          rw [this]
          rfl
      · simp only [headLife, Function.update_self]
        cases dn.loc (some w) <;> rfl
    · rw [Function.update_of_ne hy, hother y hy, I.life y]
      cases hr : q y with
      | nil => rfl
      | cons r rest' =>
        obtain ⟨h', w'⟩ := r
        have hm : (h', w') ∈ q y := by rw [hr]; simp
        simp only [headLife, hloc h' w' (hnot y hy _ hm)]
  · intro y
    rw [hdown]
    by_cases hy : y = x
    · subst hy
      have h2 : rest.flatMap (fun r => (Function.update d h dn r.1).buf (none, some r.2))
          = rest.flatMap fun r => (d r.1).buf (none, some r.2) := by
        refine List.flatMap_congr fun r hr => ?_
        rw [Function.update_of_ne (hrest r hr)]
      rw [Function.update_self, hsame]
      split
      · rename_i hl
        rw [hg.left_down hruns hl, List.nil_append, h2]
      · rw [List.flatMap_cons, h2, Function.update_self]
    · rw [Function.update_of_ne hy, hother y hy, I.down y]
      refine List.flatMap_congr fun r hr => ?_
      rw [hbuf r.1 r.2 (hnot y hy r hr)]
  · intro h' hL' hne w' y hw'
    rw [hE] at hne
    by_cases e : h' = h
    · subst e
      rw [Function.update_self]
      by_cases ew : w' = w
      · subst ew
        rw [hwho] at hw'
        obtain rfl := Option.some.inj hw'
        rcases hup with ⟨e1, e2⟩ | ⟨-, e1⟩
        · rw [e1, e2]
          exact I.up h' hL' hne w' x hwho
        · rw [e1, Function.update_self]
      · have hyx : y ≠ x := by
          rintro rfl
          exact ew (who_inj (I.workers h' hL') hw' hwho)
        rw [g2 _ _ (fun e => ew (Option.some.inj e)) (by simp)]
        rcases hup with ⟨e1, -⟩ | ⟨-, e1⟩
        · rw [e1]
          exact I.up h' hL' hne w' y hw'
        · rw [e1, Function.update_of_ne hyx]
          exact I.up h' hL' hne w' y hw'
    · rw [Function.update_of_ne e]
      rcases hup with ⟨e1, -⟩ | ⟨e0, e1⟩
      · rw [e1]
        exact I.up h' hL' hne w' y hw'
      · have hyx : y ≠ x := by
          rintro rfl
          exact e (I.apart h' hL' h hL hne e0 _ _ _ hw' hwho)
        rw [e1, Function.update_of_ne hyx]
        exact I.up h' hL' hne w' y hw'
  · intro y hy
    have hy' : ∀ h ∈ L, ¬ Ended C h → ∀ w, (jobs h).who w ≠ some y := fun h' hL' hne => hy h' hL' (by rwa [hE])
    rcases hup with ⟨e1, -⟩ | ⟨e0, e1⟩
    · rw [e1]
      exact I.noup y hy'
    · have hyx : y ≠ x := by
        rintro rfl
        exact hy' h hL e0 w hwho
      rw [e1, Function.update_of_ne hyx]
      exact I.noup y hy'
  · rw [f1, f2]; exact I.freeKnown
  · rw [f1]; exact I.jobKnown
  · rw [f2]; exact I.freeOnce
  · intro h' hL' hne
    rw [f2]
    exact I.busy h' hL' (by rwa [hE] at hne)
  · intro h1 hL1 h2 hL2 n1 n2
    rw [hE] at n1 n2
    exact I.apart h1 hL1 h2 hL2 n1 n2
  · rw [f1, f2]
    intro y hy
    rcases I.kept y hy with h1 | ⟨h', i1, i2, i3⟩
    · exact Or.inl h1
    · exact Or.inr ⟨h', i1, by rwa [hE], i3⟩

theorem life_leave {s : WSt} (hl : leave s ≠ .dead) : afterStep h w s = lifeOf h w (leave s) := by
  unfold afterStep
  unfold leave at hl ⊢
  cases hp : s.pc <;> simp_all [lifeOf]

theorem Good.alive {j : ClusterJob} {F d : Cfg Pid CMsg ALoc} (hg : Good j h F) (hd : Runs (aloneAct j h) (aloneStart j) d) :
    d.loc (some w) ≠ .dead := by
  intro e
  have := hg.halted hd (w := w) (by rw [e]; rfl)
  rw [e] at this
  cases this

theorem read_alive {S : Type} {die : S} {k : NMsg → S} {m : CMsg} (hm : m.read die k ≠ die) : ∃ n, m = .msg n := by
  cases m with
  | setup => exact absurd rfl hm
  | msg n => exact ⟨n, rfl⟩

open Classical in
/-- Whatever a worker can do in its job alone, it does in the cluster. -/
theorem worker_ok (hg : Good (jobs h) h (F h)) (I : Inv jobs C d ts q L) (hq : q x = (h, w) :: rest)
    (hs : stepP (aloneAct (jobs h) h) (some w) (d h) = some dn) :
    ∃ C', workerStep jobs x C = some C' ∧ C'.thread = C.thread ∧
      Inv jobs C' (Function.update d h dn) (Function.update ts h (ts h ++ [some w]))
        (if dn.loc (some w) = .left then Function.update q x rest else q) L := by
  obtain ⟨hL, hwho, -⟩ := (I.queue x h w).1 (by rw [hq]; simp)
  have hruns := runs_step (I.alone hL) hs
  have halive := hg.alive hruns (w := w)
  have hlife := I.life x
  have hdown := I.down x
  rw [hq] at hlife hdown
  rw [List.flatMap_cons] at hdown
  have hs0 := hs
  unfold stepP at hs
  -- the messages between workers are those of the job
  have hpeers : (fun vw : Wid × Wid => (d h).buf (some vw.1, some vw.2)) = C.peer h := by
    funext vw
    exact (I.peer h hL vw.1 vw.2).symm
  rcases hl : (d h).loc (some w) with t | _ | s | _ | _
  · rw [hl] at hs; simp [aloneAct] at hs
  · simp only [headLife, hl] at hlife
    rw [hl] at hs
    simp only [aloneAct] at hs
    rcases hb : (d h).buf (none, some w) with _ | ⟨m, ms⟩ <;> rw [hb] at hs <;> simp only at hs
    · cases hs
    injection hs with hs
    subst hs
    rw [hb] at hdown
    simp only [Function.update_self] at halive
    have hm : ∃ s, m = .setup h w ∧ (jobs h).setUp w = some s := by
      rcases m with ⟨h', w'⟩ | m
      · simp only [enter] at halive
        split at halive
        · rename_i e
          obtain ⟨rfl, rfl⟩ := e
          rcases hu : (jobs h').setUp w' with _ | s
          · rw [hu] at halive
            exact absurd rfl halive
          · exact ⟨s, rfl, rfl⟩
        · exact absurd rfl halive
      · exact absurd rfl halive
    obtain ⟨s, rfl, hu⟩ := hm
    have hent : enter (jobs h) h w (.setup h w) = .inside s := by simp [enter, hu]
    refine ⟨{ C with
        life := Function.update C.life x (.working h w s)
        down := Function.update C.down x (ms ++ rest.flatMap fun r => (d r.1).buf (none, some r.2)) }, ?_, rfl,
      inv_worker hg I hq hs0 ⟨rfl, rfl, rfl⟩ ?_ ?_ (Or.inl ⟨rfl, ?_⟩) ?_⟩
    · unfold workerStep
      rw [hlife, hdown]
      simp [hu]
    · simp [hent, lifeOf]
    · simp
    · simp
    · simp only
      rw [show (fun vw : Wid × Wid => Function.update (d h).buf (none, some w) ms (some vw.1, some vw.2))
        = fun vw => (d h).buf (some vw.1, some vw.2) by funext vw; exact Function.update_of_ne (by simp) _ _, hpeers,
        Function.update_eq_self]
  · simp only [headLife, hl] at hlife
    rw [hl] at hs
    simp only [aloneAct] at hs
    rcases ha : workerAct ((jobs h).prm w) w s with _ | ⟨p, m, s'⟩ | ⟨p, k⟩ <;> rw [ha] at hs <;> simp only at hs
    · cases hs
    · injection hs with hs
      subst hs
      simp only [Function.update_self] at halive
      rcases p with _ | v
      · have hne : ¬ Ended C h := by
          intro he
          obtain ⟨rs, hf⟩ := I.fin hL he
          have := hg.fin_up hruns (rs := rs) (by simpa using hf) w
          simp at this
        refine ⟨{ C with
          life := Function.update C.life x (afterStep h w s')
          up := Function.update C.up x (C.up x ++ [.msg m]) }, ?_, rfl, inv_worker hg I hq hs0 ⟨rfl, rfl, rfl⟩ ?_ ?_
            (Or.inr ⟨hne, ?_⟩) ?_⟩
        · unfold workerStep
          rw [hlife]
          simp only [ha]
        · simp [life_leave halive]
        · simp only [ne_eq, Prod.mk.injEq, reduceCtorEq, and_self, not_false_eq_true, Function.update_of_ne]
          rw [← hdown, Function.update_eq_self]
        · simp [I.up h hL hne w x hwho]
        · simp only
          rw [show (fun vw : Wid × Wid => Function.update (d h).buf (some w, none) ((d h).buf (some w, none) ++ [.msg m])
              (some vw.1, some vw.2)) = fun vw => (d h).buf (some vw.1, some vw.2) by
            funext vw; exact Function.update_of_ne (by simp) _ _, hpeers, Function.update_eq_self]
      · refine ⟨{ C with
          life := Function.update C.life x (afterStep h w s')
          peer := Function.update C.peer h (Function.update (C.peer h) (w, v) (C.peer h (w, v) ++ [.msg m])) }, ?_, rfl,
            inv_worker hg I hq hs0 ⟨rfl, rfl, rfl⟩ ?_ ?_ (Or.inl ⟨rfl, ?_⟩) ?_⟩
        · unfold workerStep
          rw [hlife]
          simp only [ha]
        · simp [life_leave halive]
        · simp only [ne_eq, Prod.mk.injEq, reduceCtorEq, false_and, not_false_eq_true, Function.update_of_ne]
          rw [← hdown, Function.update_eq_self]
        · simp
        · simp only
          congr 1
          funext vw
          by_cases e : vw = (w, v)
          · subst e
            simp [I.peer h hL]
          · rw [Function.update_of_ne e, Function.update_of_ne, I.peer h hL]
            intro e'
            simp only [Prod.mk.injEq, Option.some.injEq] at e'
            exact e (Prod.ext e'.1 e'.2)
    · rcases hb : (d h).buf (p, some w) with _ | ⟨m, ms⟩ <;> rw [hb] at hs <;> simp only at hs
      · cases hs
      injection hs with hs
      subst hs
      simp only [Function.update_self] at halive
      obtain ⟨m, rfl⟩ := read_alive halive
      simp only [CMsg.read] at halive
      rcases p with _ | v
      · rw [hb] at hdown
        refine ⟨{ C with
          life := Function.update C.life x (afterStep h w (k m))
          down := Function.update C.down x (ms ++ rest.flatMap fun r => (d r.1).buf (none, some r.2)) }, ?_, rfl,
            inv_worker hg I hq hs0 ⟨rfl, rfl, rfl⟩ ?_ ?_ (Or.inl ⟨rfl, ?_⟩) ?_⟩
        · unfold workerStep
          rw [hlife, hdown]
          simp only [ha, List.cons_append]
          rfl
        · simp [life_leave halive, CMsg.read]
        · simp
        · simp
        · simp only
          rw [show (fun vw : Wid × Wid => Function.update (d h).buf (none, some w) ms (some vw.1, some vw.2))
            = fun vw => (d h).buf (some vw.1, some vw.2) by funext vw; exact Function.update_of_ne (by simp) _ _, hpeers,
            Function.update_eq_self]
      · refine ⟨{ C with
          life := Function.update C.life x (afterStep h w (k m))
          peer := Function.update C.peer h (Function.update (C.peer h) (v, w) ms) }, ?_, rfl,
            inv_worker hg I hq hs0 ⟨rfl, rfl, rfl⟩ ?_ ?_ (Or.inl ⟨rfl, ?_⟩) ?_⟩
        · unfold workerStep
          rw [hlife]
          simp only [ha, I.peer h hL, hb]
          rfl
        · simp [life_leave halive, CMsg.read]
        · simp only [ne_eq, Prod.mk.injEq, reduceCtorEq, false_and, not_false_eq_true, Function.update_of_ne]
          rw [← hdown, Function.update_eq_self]
        · simp
        · simp only
          congr 1
          funext vw
          by_cases e : vw = (v, w)
          · subst e
            simp
          · rw [Function.update_of_ne e, Function.update_of_ne, I.peer h hL]
            intro e'
            simp only [Prod.mk.injEq, Option.some.injEq] at e'
            exact e (Prod.ext e'.1 e'.2)
  · rw [hl] at hs; simp [aloneAct] at hs
  · rw [hl] at hs; simp [aloneAct] at hs

/-- A worker that can do nothing in its first job can do nothing. -/
theorem worker_none (hg : Good (jobs h) h (F h)) (I : Inv jobs C d ts q L) (hq : q x = (h, w) :: rest)
    (hs : stepP (aloneAct (jobs h) h) (some w) (d h) = none) : workerStep jobs x C = none := by
  obtain ⟨hL, hwho, hnl⟩ := (I.queue x h w).1 (by rw [hq]; simp)
  have hlife := I.life x
  have hdown := I.down x
  rw [hq] at hlife hdown
  rw [List.flatMap_cons] at hdown
  have hord := I.order x
  rw [hq, List.pairwise_cons] at hord
  -- nothing from the manager
  have hempty : ∀ k, aloneAct (jobs h) h (some w) ((d h).loc (some w)) = .recv none k → (d h).buf (none, some w) = [] →
      C.down x = [] := by
    intro k ha hb
    rw [hdown, hb]
    cases hr : rest with
    | nil => rfl
    | cons r rest' =>
      exfalso
      obtain ⟨rs, hf⟩ := I.fin hL (hord.1 r (by rw [hr]; simp)).1
      exact hg.fin_down (I.alone hL) hf ha hb
  unfold stepP at hs
  rcases hl : (d h).loc (some w) with t | _ | s | _ | _
  · exact absurd (hg.halted (I.alone hL) (w := w) (by rw [hl]; rfl)) hnl
  · simp only [headLife, hl] at hlife
    rw [hl] at hs
    simp only [aloneAct] at hs
    rcases hb : (d h).buf (none, some w) with _ | ⟨m, ms⟩ <;> rw [hb] at hs <;> simp only at hs
    · unfold workerStep
      rw [hlife, hempty (enter (jobs h) h w) (by rw [hl]; rfl) hb]
    · cases hs
  · simp only [headLife, hl] at hlife
    rw [hl] at hs
    simp only [aloneAct] at hs
    rcases ha : workerAct ((jobs h).prm w) w s with _ | ⟨p, m, s'⟩ | ⟨p, k⟩ <;> rw [ha] at hs <;> simp only at hs
    · exact absurd (hg.halted (I.alone hL) (w := w) (by rw [hl]; simp [aloneAct, ha])) hnl
    · cases hs
    · rcases hb : (d h).buf (p, some w) with _ | ⟨m, ms⟩ <;> rw [hb] at hs <;> simp only at hs
      · rcases p with _ | v
        · unfold workerStep
          rw [hlife, hempty (fun m => m.read .dead fun m => leave (k m)) (by rw [hl]; simp [aloneAct, ha]) hb]
          simp only [ha]
        · unfold workerStep
          rw [hlife]
          simp only [ha, I.peer h hL, hb]
      · cases hs
  · exact absurd hl hnl
  · exact absurd (hg.halted (I.alone hL) (w := w) (by rw [hl]; rfl)) hnl

/-- A worker without a job can do nothing. -/
theorem worker_nil (I : Inv jobs C d ts q L) (hq : q x = []) : workerStep jobs x C = none := by
  have hlife := I.life x
  have hdown := I.down x
  rw [hq] at hlife hdown
  unfold workerStep
  rw [hlife, hdown]
  rfl

end QIP
