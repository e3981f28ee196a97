import Verif.Model.Stop
import Verif.Props.Jobs

/-!
# C108: stopping the manager
-/

namespace QIP.Props

open QIP QIP.Spec

/-- How often a worker is free or in a pool of `job_pools`. -/
def holdings (s : MState) (keys : List Nat) (w : Wkr) : Nat :=
  s.free.count w + (keys.map fun h => ((s.pools h).map Placed.worker).count w).sum

/-- The workers drawn by a setup that fails half-way are not in any pool. -/
def Allocates : MEvent → Prop
  | .setup _ _ o => o ≠ .allocateFails
  | _ => True

theorem runKeys_snoc (es : List MEvent) (e : MEvent) :
    runKeys (es ++ [e]) = (mgrStep (runKeys es).1 e, (runKeys es).2 ++ (newKey (runKeys es).1 e).toList) := by
  simp [runKeys, List.foldl_append]

theorem newKey_setup {s : MState} {e : MEvent} {h : Nat} (hk : newKey s e = some h) : ∃ n o, e = .setup n h o := by
  cases e with
  | setup n h' o =>
    unfold newKey at hk
    rcases hd : drawWorkers n s.free with er | ⟨un, rest, wn⟩
    · simp [hd] at hk
    · obtain ⟨placed, hp, -⟩ := C60_tiles hd
      cases o <;> simp only [hd, hp, Option.some.injEq, reduceCtorEq] at hk
      · exact ⟨n, _, by rw [hk]⟩
      · exact ⟨n, _, by rw [hk]⟩
  | _ => simp [newKey] at hk

/-- One event: holdings change only when a worker connects, or when a setup fails half-way. -/
theorem holdings_step {s : MState} {keys : List Nat} (hnd : keys.Nodup) (hlive : ∀ h ∈ s.live, h ∈ keys) {e : MEvent}
    (hf : ∀ n h o, e = .setup n h o → h ∉ keys) (w : Wkr) :
    holdings (mgrStep s e) (keys ++ (newKey s e).toList) w ≤ holdings s keys w + (if e = .connect w then 1 else 0) ∧
    (Allocates e →
      holdings (mgrStep s e) (keys ++ (newKey s e).toList) w = holdings s keys w + (if e = .connect w then 1 else 0)) ∧
    ∀ h ∈ (mgrStep s e).live, h ∈ keys ++ (newKey s e).toList := by
  cases e with
  | connect w' =>
    have : holdings (mgrStep s (.connect w')) (keys ++ (newKey s (.connect w')).toList) w
        = holdings s keys w + (if MEvent.connect w' = .connect w then 1 else 0) := by
      simp only [holdings, newKey, mgrStep, List.count_append, List.count_singleton, MEvent.connect.injEq, beq_iff_eq,
        Option.toList_none, List.append_nil]
      omega
    refine ⟨this.le, fun _ => this, fun h hh => ?_⟩
    simpa [newKey] using hlive h hh
  | setup n h o =>
    have hh := hf n h o rfl
    simp only [reduceCtorEq, if_false, Nat.add_zero]
    unfold mgrStep newKey
    rcases hd : drawWorkers n s.free with er | ⟨un, rest, wn⟩
    · simp only [hd, Option.toList_none, List.append_nil]
      exact ⟨le_rfl, fun _ => by trivial, hlive⟩
    · obtain ⟨placed, hp, hperm, -⟩ := C60_tiles hd
      have hc := count_draw hd w
      have hpc : (placed.map Placed.worker).count w = un.count w := hperm.count_eq w
      have key : ∀ live, holdings ⟨s.connected, rest, Function.update s.pools h placed, live⟩ (keys ++ [h]) w = holdings s keys w := by
        intro live
        simp only [holdings, List.map_append, List.sum_append, sum_update_fresh hh, List.map_cons, List.map_nil,
          List.sum_cons, List.sum_nil, Function.update_self]
        omega
      cases o with
      | ok =>
        simp only [hd, hp, Option.toList_some]
        refine ⟨(key _).le, fun _ => key _, fun a ha => ?_⟩
        simp only [List.mem_append, List.mem_singleton] at ha ⊢
        exact ha.imp (hlive a) id
      | allocateFails =>
        simp only [hd, Option.toList_none, List.append_nil]
        refine ⟨?_, fun hb => absurd rfl hb, hlive⟩
        simp only [holdings]
        omega
      | replyFails =>
        simp only [hd, hp, Option.toList_some]
        refine ⟨(key _).le, fun _ => key _, fun a ha => ?_⟩
        simp only [List.mem_append, List.mem_singleton]
        exact Or.inl (hlive a ha)
  | reduce h t =>
    simp only [reduceCtorEq, if_false, Nat.add_zero, newKey, Option.toList_none, List.append_nil]
    unfold mgrStep
    by_cases hh : h ∈ s.live
    · simp only [hh, if_true]
      have hu := sum_update hnd (hlive h hh) s.pools ((s.pools h).filter (keeps t)) w
      have hsplit : ((s.pools h).map Placed.worker).count w
          = (((s.pools h).filter (keeps t)).map Placed.worker).count w
            + (((s.pools h).filter fun p => !keeps t p).map Placed.worker).count w := by
        rw [← List.count_append, ← List.map_append]
        exact ((List.filter_append_perm (keeps t) (s.pools h)).map Placed.worker).count_eq w |>.symm
      have : holdings { s with
          free := s.free ++ (((s.pools h).filter fun p => !keeps t p).map Placed.worker)
          pools := Function.update s.pools h ((s.pools h).filter (keeps t)) } keys w = holdings s keys w := by
        simp only [holdings, List.count_append]
        omega
      exact ⟨this.le, fun _ => this, hlive⟩
    · simp only [hh, if_false]
      exact ⟨le_rfl, fun _ => by trivial, hlive⟩
  | finish h sent =>
    simp only [reduceCtorEq, if_false, Nat.add_zero, newKey, Option.toList_none, List.append_nil]
    unfold mgrStep
    by_cases hh : h ∈ s.live
    · cases sent with
      | true =>
        simp only [hh, if_true]
        have hu := sum_update hnd (hlive h hh) s.pools [] w
        have : holdings { s with
            free := s.free ++ (s.pools h).map Placed.worker
            pools := Function.update s.pools h []
            live := s.live.erase h } keys w = holdings s keys w := by
          simp only [holdings, List.count_append]
          simp only [List.map_nil, List.count_nil] at hu
          omega
        exact ⟨this.le, fun _ => this, fun a ha => hlive a (List.mem_of_mem_erase ha)⟩
      | false =>
        simp only [hh, if_true, Bool.false_eq_true, if_false]
        exact ⟨le_rfl, fun _ => rfl, fun a ha => hlive a (List.mem_of_mem_erase ha)⟩
    · simp only [hh, if_false]
      exact ⟨le_rfl, fun _ => by trivial, hlive⟩

theorem pools_step {s : MState} {e : MEvent} {k : Nat} (hk : k ∉ s.live) (hn : newKey s e ≠ some k) :
    (mgrStep s e).pools k = s.pools k := by
  cases e with
  | connect w => rfl
  | setup n h o =>
    unfold newKey at hn
    unfold mgrStep
    rcases hd : drawWorkers n s.free with er | ⟨un, rest, wn⟩
    · simp only [hd]
    · obtain ⟨placed, hp, -⟩ := C60_tiles hd
      cases o <;> simp only [hd, hp, ne_eq, Option.some.injEq] at hn ⊢
      · exact Function.update_of_ne (Ne.symm hn) ..
      · exact Function.update_of_ne (Ne.symm hn) ..
  | reduce h t =>
    unfold mgrStep
    by_cases hh : h ∈ s.live
    · simp only [hh, if_true]
      exact Function.update_of_ne (by rintro rfl; exact hk hh) ..
    · simp only [hh, if_false]
  | finish h sent =>
    unfold mgrStep
    by_cases hh : h ∈ s.live
    · cases sent with
      | true =>
        simp only [hh, if_true]
        exact Function.update_of_ne (by rintro rfl; exact hk hh) ..
      | false => simp only [hh, if_true, Bool.false_eq_true, if_false]
    · simp only [hh, if_false]

/-- The facts about `job_pools` after a history. -/
theorem keys_facts {P : MEvent → Prop} {es : List MEvent} {s : MState} (h : Valid P es s) :
    (runKeys es).1 = s ∧ (runKeys es).2.Nodup ∧ (∀ k ∈ (runKeys es).2, ∃ n o, .setup n k o ∈ es) ∧
    (∀ k ∈ s.live, k ∈ (runKeys es).2) ∧ (∀ k ∉ (runKeys es).2, s.pools k = []) ∧ ∀ w, holdings s (runKeys es).2 w ≤ (if w ∈ s.connected then 1 else 0) ∧
      ((∀ e, P e → Allocates e) → holdings s (runKeys es).2 w = if w ∈ s.connected then 1 else 0) := by
  induction h with
  | nil => exact ⟨rfl, List.nodup_nil, by simp [runKeys], by simp [MState.init], by simp [MState.init], by simp [runKeys, MState.init, holdings]⟩
  | @snoc es s e hv hp hc hf ih =>
    obtain ⟨h1, h2, h3, h4, h4', h5⟩ := ih
    have hfr : ∀ n h o, e = .setup n h o → h ∉ (runKeys es).2 := by
      rintro n h o rfl hk
      obtain ⟨n', o', hm⟩ := h3 h hk
      exact (hf n h o rfl).2 n' o' hm
    have hst := holdings_step h2 h4 hfr
    rw [runKeys_snoc, h1]
    refine ⟨rfl, ?_, ?_, (hst ⟨0, 0⟩).2.2, fun k hk => ?_, fun w => ?_⟩
    · rcases hk : newKey s e with _ | k
      · simpa using h2
      · obtain ⟨n, o, rfl⟩ := newKey_setup hk
        simp only [Option.toList_some]
        rw [List.nodup_append]
        refine ⟨h2, by simp, ?_⟩
        rintro a ha b hb rfl
        simp only [List.mem_singleton] at hb
        exact hfr n k o rfl (hb ▸ ha)
    · intro k hk
      rcases List.mem_append.1 hk with hk | hk
      · obtain ⟨n, o, hm⟩ := h3 k hk
        exact ⟨n, o, by simp [hm]⟩
      · obtain ⟨n, o, rfl⟩ := newKey_setup (Option.mem_toList.1 hk)
        exact ⟨n, o, by simp⟩
    · simp only [List.mem_append, not_or] at hk
      rw [pools_step (fun h => hk.1 (h4 k h)) (fun h => hk.2 (Option.mem_toList.2 h)), h4' k hk.1]
    · show holdings (mgrStep s e) ((runKeys es).2 ++ (newKey s e).toList) w ≤ _ ∧ (_ → holdings (mgrStep s e) ((runKeys es).2 ++ (newKey s e).toList) w = _)
      have hcs := connected_step s e w
      obtain ⟨a1, a2, -⟩ := hst w
      obtain ⟨b1, b2⟩ := h5 w
      by_cases he : e = .connect w
      · have := hc w he
        rw [if_neg this] at b1 b2
        rw [if_pos he] at a1 a2
        rw [if_pos (hcs.2 (Or.inr he))]
        exact ⟨by omega, fun hP => by rw [a2 (hP e hp), b2 hP]⟩
      · rw [if_neg he] at a1 a2
        simp only [hcs, he, or_false]
        exact ⟨by omega, fun hP => by rw [a2 (hP e hp), b2 hP, Nat.add_zero]⟩

theorem poolClose_all {ok : Wkr → Bool} {l : List Placed} (h : ∀ p ∈ l, ok p.worker = true) :
    poolClose ok l = (l.map Placed.worker, true) := by
  induction l with
  | nil => rfl
  | cons p l ih =>
    rw [poolClose, if_pos (h p (by simp)), ih fun q hq => h q (by simp [hq])]
    rfl

theorem poolClose_sub (ok : Wkr → Bool) (l : List Placed) :
    (∀ w ∈ (poolClose ok l).1, w ∈ l.map Placed.worker ∧ ok w = true) ∧ ((poolClose ok l).2 = true ↔ ∀ p ∈ l, ok p.worker = true) := by
  induction l with
  | nil => simp [poolClose]
  | cons p l ih =>
    rw [poolClose]
    by_cases hp : ok p.worker = true
    · rw [if_pos hp]
      refine ⟨fun w hw => ?_, ?_⟩
      · simp only [List.mem_cons] at hw
        rcases hw with rfl | hw
        · exact ⟨by simp, hp⟩
        · obtain ⟨a, b⟩ := ih.1 w hw
          exact ⟨by simp [a], b⟩
      · simp only [ih.2, List.mem_cons, forall_eq_or_imp, hp, true_and]
    · rw [if_neg hp]
      exact ⟨by simp, by simp [hp]⟩

theorem closePools_all {ok : Wkr → Bool} {keys : List Nat} (hnd : keys.Nodup) {s : MState}
    (h : ∀ k ∈ keys, ∀ p ∈ s.pools k, ok p.worker = true) :
    ∃ s', closePools ok keys s = (keys.flatMap fun k => (s.pools k).map Placed.worker, s', true) ∧
      s'.free = s.free ++ (keys.flatMap fun k => (s.pools k).map Placed.worker) ∧ (∀ k ∈ keys, s'.pools k = []) ∧
      (∀ k ∉ keys, s'.pools k = s.pools k) ∧ s'.live = s.live ∧ s'.connected = s.connected := by
  induction keys generalizing s with
  | nil => exact ⟨s, rfl, by simp, by simp, by simp, rfl, rfl⟩
  | cons k keys ih =>
    obtain ⟨hk, hnd'⟩ := List.nodup_cons.1 hnd
    have hpools : ∀ k' ∈ keys, Function.update s.pools k [] k' = s.pools k' := fun k' hk' =>
      Function.update_of_ne (by rintro rfl; exact hk hk') ..
    obtain ⟨s', i1, i2, i3, i4, i5, i6⟩ := ih hnd' (s := { s with
      free := s.free ++ (s.pools k).map Placed.worker, pools := Function.update s.pools k [] }) (by
        intro k' hk' p hp
        simp only [hpools k' hk'] at hp
        exact h k' (by simp [hk']) p hp)
    have hfm : (keys.flatMap fun k' => (Function.update s.pools k [] k').map Placed.worker)
        = keys.flatMap fun k' => (s.pools k').map Placed.worker :=
      List.flatMap_congr fun k' hk' => by rw [hpools k' hk']
    refine ⟨s', ?_, ?_, ?_, ?_, i5, i6⟩
    · rw [closePools, poolClose_all (h k (by simp))]
      simp only [i1, List.flatMap_cons, hfm]
    · rw [i2, List.flatMap_cons, ← List.append_assoc]
      simp only [hfm]
    · intro k' hk'
      rcases List.mem_cons.1 hk' with rfl | hk'
      · rw [i4 k' hk]
        simp
      · exact i3 k' hk'
    · intro k' hk'
      simp only [List.mem_cons, not_or] at hk'
      rw [i4 k' hk'.2]
      exact Function.update_of_ne hk'.1 ..

theorem closePools_told (ok : Wkr → Bool) (keys : List Nat) : ∀ s : MState, ∀ w ∈ (closePools ok keys s).1, ok w = true := by
  induction keys with
  | nil => simp [closePools]
  | cons k keys ih =>
    intro s
    rw [closePools]
    obtain ⟨a1, -⟩ := poolClose_sub ok (s.pools k)
    rcases hc : poolClose ok (s.pools k) with ⟨told, all⟩
    rw [hc] at a1
    cases all with
    | false => exact fun w hw => (a1 w hw).2
    | true =>
      intro w hw
      rcases List.mem_append.1 hw with hw | hw
      · exact (a1 w hw).2
      · exact ih _ w hw

/-- The loop ends at the first pool with a worker that cannot be reached. -/
theorem closePools_broken {ok : Wkr → Bool} {k1 k2 : List Nat} {k : Nat} (hnd : (k1 ++ k :: k2).Nodup) {s : MState} {p : Placed}
    (hp : p ∈ s.pools k) (hb : ok p.worker = false) :
    (closePools ok (k1 ++ k :: k2) s).2.2 = false ∧
    ∀ w ∈ (closePools ok (k1 ++ k :: k2) s).1, ∃ k' ∈ k1 ++ [k], w ∈ (s.pools k').map Placed.worker := by
  induction k1 generalizing s with
  | nil =>
    rw [List.nil_append, closePools]
    obtain ⟨a1, a2⟩ := poolClose_sub ok (s.pools k)
    rcases hc : poolClose ok (s.pools k) with ⟨told, all⟩
    rw [hc] at a1 a2
    cases all with
    | false => exact ⟨rfl, fun w hw => ⟨k, by simp, (a1 w hw).1⟩⟩
    | true => rw [a2.1 rfl p hp] at hb; cases hb
  | cons k0 k1 ih =>
    rw [List.cons_append, closePools]
    obtain ⟨h0, hnd'⟩ := List.nodup_cons.1 hnd
    obtain ⟨a1, a2⟩ := poolClose_sub ok (s.pools k0)
    rcases hc : poolClose ok (s.pools k0) with ⟨told, all⟩
    rw [hc] at a1 a2
    cases all with
    | false => exact ⟨rfl, fun w hw => ⟨k0, by simp, (a1 w hw).1⟩⟩
    | true =>
      have hne : k ≠ k0 := by rintro rfl; exact h0 (by simp)
      obtain ⟨b1, b2⟩ := ih hnd' (s := { s with
        free := s.free ++ (s.pools k0).map Placed.worker, pools := Function.update s.pools k0 [] }) (by
          simp only
          rwa [Function.update_of_ne hne])
      refine ⟨b1, fun w hw => ?_⟩
      rcases List.mem_append.1 hw with hw | hw
      · exact ⟨k0, by simp, (a1 w hw).1⟩
      · obtain ⟨k', c1, c2⟩ := b2 w hw
        refine ⟨k', by simp at c1 ⊢; tauto, ?_⟩
        simp only at c2
        by_cases he : k' = k0
        · subst he; simp at c2
        · rwa [Function.update_of_ne he] at c2

/-- C108 (partial: no setup has failed half-way, and all workers can be reached): stopping the manager.  Every worker in the
pool of a job is told to leave it, every worker that ever connected has its connection closed, each exactly once, and no job
has workers any more. -/
theorem C108_stop_partial {P : MEvent → Prop} {es : List MEvent} {s : MState} (h : Valid P es s) (hP : ∀ e, P e → Allocates e)
    {ok : Wkr → Bool} (hok : ∀ w ∈ s.connected, ok w = true) :
    (managerClose ok (runKeys es).2 s).returned = true ∧
    (∀ w, (managerClose ok (runKeys es).2 s).shut.count w = if w ∈ s.connected then 1 else 0) ∧
    (∀ k ∈ s.live, ∀ p ∈ s.pools k, (managerClose ok (runKeys es).2 s).told.count p.worker = 1) ∧
    ∀ k, (managerClose ok (runKeys es).2 s).mgr.pools k = [] := by
  obtain ⟨h1, h2, h3, h4, h5, h6⟩ := keys_facts h
  have hmem : ∀ k ∈ (runKeys es).2, ∀ p ∈ s.pools k, ok p.worker = true := by
    intro k hk p hp
    refine hok _ ?_
    by_contra hn
    have h0 := (h6 p.worker).1
    rw [if_neg hn] at h0
    have hs := sum_erase hk fun x => ((s.pools x).map Placed.worker).count p.worker
    have hpos : 0 < ((s.pools k).map Placed.worker).count p.worker := List.count_pos_iff.2 (List.mem_map_of_mem hp)
    unfold holdings at h0
    omega
  obtain ⟨s', i1, i2, i3, i4, i5, i6⟩ := closePools_all h2 hmem
  have hcount : ∀ w, (List.flatMap (fun k => (s.pools k).map Placed.worker) (runKeys es).2).count w
      = ((runKeys es).2.map fun h => ((s.pools h).map Placed.worker).count w).sum := by
    intro w
    rw [List.count_flatMap]
    rfl
  unfold managerClose
  rw [i1]
  refine ⟨rfl, fun w => ?_, fun k hk p hp => ?_, fun k => ?_⟩
  · simp only [i2, List.count_append, hcount]
    exact (h6 w).2 hP
  · simp only [hcount]
    have h0 := (h6 p.worker).1
    have hs := sum_erase (h4 k hk) fun x => ((s.pools x).map Placed.worker).count p.worker
    have hpos : 0 < ((s.pools k).map Placed.worker).count p.worker := List.count_pos_iff.2 (List.mem_map_of_mem hp)
    unfold holdings at h0
    split at h0 <;> omega
  · by_cases hk : k ∈ (runKeys es).2
    · exact i3 k hk
    · rw [← h5 k hk]
      exact i4 k hk

/-- C108 (negation of the property): if one worker of a job cannot be reached, stopping ends there with an exception: no
connection is closed, and the workers of the jobs set up later are not told. -/
theorem C108_broken_false {P : MEvent → Prop} {es : List MEvent} {s : MState} (h : Valid P es s) {ok : Wkr → Bool} {k1 k2 : List Nat}
    {k : Nat} (hkeys : (runKeys es).2 = k1 ++ k :: k2) {p : Placed} (hp : p ∈ s.pools k) (hb : ok p.worker = false) :
    (managerClose ok (runKeys es).2 s).returned = false ∧ (managerClose ok (runKeys es).2 s).shut = [] ∧
    ∀ k' ∈ k2, ∀ q ∈ s.pools k', q.worker ∉ (managerClose ok (runKeys es).2 s).told := by
  obtain ⟨h1, h2, h3, h4, h5, h6⟩ := keys_facts h
  rw [hkeys] at h2 h6 ⊢
  obtain ⟨b1, b2⟩ := closePools_broken h2 hp hb
  unfold managerClose
  rcases hc : closePools ok (k1 ++ k :: k2) s with ⟨told, s', all⟩
  rw [hc] at b1 b2
  simp only at b1 b2
  subst b1
  refine ⟨rfl, rfl, fun k' hk' q hq hmem => ?_⟩
  obtain ⟨k0, c1, c2⟩ := b2 _ hmem
  have hk0 : k0 ∈ k1 ++ k :: k2 := by simp at c1 ⊢; tauto
  have hne : k0 ≠ k' := by
    rintro rfl
    obtain ⟨-, d2, d3⟩ := List.nodup_append.1 h2
    rcases List.mem_append.1 c1 with c1 | c1
    · exact d3 _ c1 _ (by simp [hk']) rfl
    · simp only [List.mem_singleton] at c1
      subst c1
      exact (List.nodup_cons.1 d2).1 hk'
  have h0 := (h6 q.worker).1
  have hs := sum_erase hk0 fun x => ((s.pools x).map Placed.worker).count q.worker
  have hs' := sum_erase ((List.mem_erase_of_ne hne.symm).2 (by simp [hk'] : k' ∈ k1 ++ k :: k2))
    fun x => ((s.pools x).map Placed.worker).count q.worker
  have p1 : 0 < ((s.pools k0).map Placed.worker).count q.worker := List.count_pos_iff.2 c2
  have p2 : 0 < ((s.pools k').map Placed.worker).count q.worker := List.count_pos_iff.2 (List.mem_map_of_mem hq)
  unfold holdings at h0
  split at h0 <;> omega

theorem closePools_free (ok : Wkr → Bool) (keys : List Nat) : ∀ s : MState, ∀ w ∈ (closePools ok keys s).2.1.free,
    w ∈ s.free ∨ ∃ k ∈ keys, w ∈ (s.pools k).map Placed.worker := by
  induction keys with
  | nil => exact fun s w hw => Or.inl hw
  | cons k keys ih =>
    intro s w hw
    rw [closePools] at hw
    rcases hc : poolClose ok (s.pools k) with ⟨told, all⟩
    rw [hc] at hw
    cases all with
    | false => exact Or.inl hw
    | true =>
      rcases ih _ w hw with h | ⟨k', h1, h2⟩
      · rcases List.mem_append.1 h with h | h
        · exact Or.inl h
        · exact Or.inr ⟨k, by simp, h⟩
      · by_cases he : k' = k
        · subst he; simp at h2
        · simp only [Function.update_of_ne he] at h2
          exact Or.inr ⟨k', by simp [h1], h2⟩

theorem valid_prefix {P : MEvent → Prop} {es : List MEvent} {e : MEvent} {s : MState} (h : Valid P (es ++ [e]) s) :
    ∃ s', Valid P es s' ∧ s = mgrStep s' e ∧ (∀ w, e = .connect w → w ∉ s'.connected) ∧
      ∀ n h o, e = .setup n h o → h ∉ s'.live ∧ ∀ n' o', .setup n' h o' ∉ es := by
  generalize hl : es ++ [e] = l at h
  cases h with
  | nil => simp at hl
  | snoc hv hp hc hf =>
    obtain ⟨rfl, e2⟩ := List.append_inj' hl rfl
    injection e2 with e2
    subst e2
    exact ⟨_, hv, rfl, hc, hf⟩

/-- C108 (negation of the property): the connections of the workers drawn for a setup that failed half-way are never closed,
whatever happens before the manager is stopped. -/
theorem C108_lost_false {P : MEvent → Prop} {es es' : List MEvent} {n handle : Nat} {s : MState}
    (h : Valid P (es ++ .setup n handle .allocateFails :: es') s) {un rest : List Wkr} {wn : Nat}
    (hd : drawWorkers n (runKeys es).1.free = .ok (un, rest, wn)) {w : Wkr} (hw : w ∈ un) (ok : Wkr → Bool) :
    w ∈ s.connected ∧ w ∉ (managerClose ok (runKeys (es ++ .setup n handle .allocateFails :: es')).2 s).shut := by
  have key : w ∈ s.connected ∧ holdings s (runKeys (es ++ .setup n handle .allocateFails :: es')).2 w = 0 := by
    induction es' using List.reverseRecOn generalizing s with
    | nil =>
      obtain ⟨s', hv, rfl, -⟩ := valid_prefix h
      obtain ⟨h1, -, -, -, -, h6⟩ := keys_facts hv
      subst h1
      have hc := count_draw hd w
      have hpos : 0 < un.count w := List.count_pos_iff.2 hw
      have h0 := (h6 w).1
      have hcon : w ∈ (runKeys es).1.connected := by
        by_contra hn
        rw [if_neg hn] at h0
        unfold holdings at h0
        omega
      rw [if_pos hcon] at h0
      refine ⟨(connected_step _ _ w).2 (Or.inl hcon), ?_⟩
      rw [runKeys_snoc]
      have e1 : newKey (runKeys es).1 (.setup n handle .allocateFails) = none := by simp [newKey, hd]
      have e2 : mgrStep (runKeys es).1 (.setup n handle .allocateFails) = { (runKeys es).1 with free := rest } := by
        simp [mgrStep, hd]
      simp only [e1, e2, Option.toList_none, List.append_nil]
      unfold holdings at h0 ⊢
      simp only at h0 ⊢
      omega
    | append_singleton es' e ih =>
      rw [← List.cons_append, ← List.append_assoc] at h
      obtain ⟨s', hv, rfl, hc, hf⟩ := valid_prefix h
      obtain ⟨a1, a2⟩ := ih hv
      obtain ⟨h1, h2, h3, h4, h5, h6⟩ := keys_facts hv
      refine ⟨(connected_step _ _ w).2 (Or.inl a1), ?_⟩
      rw [← List.cons_append, ← List.append_assoc, runKeys_snoc, h1]
      have := (holdings_step h2 h4 (e := e) (by
        rintro n' h' o rfl hk
        obtain ⟨m, o', hm⟩ := h3 h' hk
        exact (hf n' h' o rfl).2 m o' hm) w).1
      rw [if_neg (fun he => hc w he a1), a2] at this
      simpa using this
  refine ⟨key.1, fun hmem => ?_⟩
  obtain ⟨-, key⟩ := key
  unfold managerClose at hmem
  have hfree := closePools_free ok (runKeys (es ++ .setup n handle .allocateFails :: es')).2 s w
  rcases hcl : closePools ok (runKeys (es ++ .setup n handle .allocateFails :: es')).2 s with ⟨told, s', all⟩
  rw [hcl] at hmem hfree
  cases all with
  | false => simp at hmem
  | true =>
    unfold holdings at key
    rcases hfree hmem with h0 | ⟨k, h0, h1⟩
    · have := List.count_pos_iff.2 h0
      omega
    · have := List.count_pos_iff.2 h1
      have hs := sum_erase h0 fun x => ((s.pools x).map Placed.worker).count w
      omega

/-- C108 (negation of the property): after stopping the manager clients go on, and a gate is confirmed at once although no worker
does it: nothing is sent. -/
theorem C108_confirmed_false {P : MEvent → Prop} {es : List MEvent} {s : MState} (h : Valid P es s) (hP : ∀ e, P e → Allocates e)
    {ok : Wkr → Bool} (hok : ∀ w ∈ s.connected, ok w = true) {k : Nat} (hk : k ∈ s.live) {n : Nat} (hn : n ≤ 30)
    {mats : List (Key × Mat ℂ)} (hm : OpOK n (.kron mats)) (r : ℝ) :
    k ∈ (managerClose ok (runKeys es).2 s).mgr.live ∧
    opProg (((managerClose ok (runKeys es).2 s).mgr.pools k).map Placed.wid) r (.kron mats) = .ok (.done (.ok none)) := by
  obtain ⟨-, -, -, h4⟩ := C108_stop_partial h hP hok
  refine ⟨?_, ?_⟩
  · have : ∀ (keys : List Nat) (s : MState), (closePools ok keys s).2.1.live = s.live := by
      intro keys
      induction keys with
      | nil => exact fun _ => rfl
      | cons k keys ih =>
        intro s
        rw [closePools]
        rcases hc : poolClose ok (s.pools k) with ⟨told, all⟩
        cases all with
        | false => rfl
        | true => exact ih _
    have hl := this (runKeys es).2 s
    unfold managerClose
    rcases hcl : closePools ok (runKeys es).2 s with ⟨told, s', all⟩
    rw [hcl] at hl
    simp only at hl
    cases all <;> simp only [hl] <;> exact hk
  · obtain ⟨pb, m1, m2⟩ := mats_wire hn hm
    rw [h4 k]
    simp only [opProg, m1, m2, bind, Except.bind]
    rfl

/-! ## Such histories exist -/

theorem valid_mono {P Q : MEvent → Prop} (hPQ : ∀ e, P e → Q e) {es : List MEvent} {s : MState} (h : Valid P es s) : Valid Q es s := by
  induction h with
  | nil => exact .nil
  | snoc _ hp hc hf ih => exact .snoc ih (hPQ _ hp) hc hf

theorem two_keys : (runKeys twoClients).2 = [7, 8] := by
  have e8 : runKeys (twoClients.take 8) = (mgrRun MState.init (twoClients.take 8), []) := rfl
  have e9 : runKeys (twoClients.take 9) = (mgrRun MState.init (twoClients.take 9), [7]) := by
    have : twoClients.take 9 = twoClients.take 8 ++ [.setup 2 7 .ok] := rfl
    rw [this, runKeys_snoc, e8]
    refine Prod.ext rfl ?_
    simp only [before_two, newKey, draw_eight]
    rw [grid_four 4]
    rfl
  have : twoClients = twoClients.take 9 ++ [.setup 2 8 .ok] := rfl
  rw [this, runKeys_snoc, e9]
  simp only [between_two, newKey, draw_four]
  rw [grid_four 0]
  rfl

/-- Two jobs are running, and all workers can be reached, or not the third of the first job. -/
example : Valid Allocates twoClients (mgrRun MState.init twoClients) ∧ (runKeys twoClients).2 = [7, 8] ∧
    (managerClose (fun _ => true) (runKeys twoClients).2 (mgrRun MState.init twoClients)).told
      = [⟨4, 1⟩, ⟨5, 1⟩, ⟨6, 1⟩, ⟨7, 1⟩, ⟨0, 1⟩, ⟨1, 1⟩, ⟨2, 1⟩, ⟨3, 1⟩] ∧
    (managerClose (fun w => w.sock != 6) (runKeys twoClients).2 (mgrRun MState.init twoClients)).told = [⟨4, 1⟩, ⟨5, 1⟩] := by
  refine ⟨valid_mono (fun e he => ?_) two_valid, two_keys, ?_, ?_⟩
  · cases e <;> simp_all [Benign, Allocates]
  · rw [two_keys, after_two]; rfl
  · rw [two_keys, after_two]; rfl

/-- A setup fails half-way, then another client comes. -/
example : ∃ s, Valid (fun _ => True) ([.connect ⟨0, 1⟩, .connect ⟨1, 1⟩] ++ .setup 1 7 .allocateFails :: [.setup 1 8 .ok]) s ∧
    ∃ rest, drawWorkers 1 (runKeys [.connect ⟨0, 1⟩, .connect ⟨1, 1⟩]).1.free = .ok ([⟨1, 1⟩], rest, 1) := by
  refine ⟨_, Valid.snoc (es := [_, _, _]) (Valid.snoc (es := [_, _]) (Valid.snoc (es := [_]) (Valid.snoc (es := []) Valid.nil
    trivial ?_ ?_) trivial ?_ ?_) trivial ?_ ?_) trivial ?_ ?_, [⟨0, 1⟩], ?_⟩
  · simp [MState.init]
  · simp
  · simp [MState.init, mgrStep]
  · simp
  · simp
  · simp [MState.init, mgrStep]
  · simp
  · rintro n h o ⟨⟩
    refine ⟨?_, by simp⟩
    simp only [mgrStep]
    split <;> simp [MState.init]
  · show drawWorkers 1 [⟨0, 1⟩, ⟨1, 1⟩] = _
    unfold drawWorkers
    rw [List.mergeSort_of_pairwise (by simp)]
    simp only [List.getLast?, List.getLast, List.dropLast]
    rw [drawLoop, if_neg (by decide)]
    rfl

/-- A gate that can be sent. -/
example : ∃ m, (Gate.swap 1).feedMats false [[0], [1]] = .ok m ∧ OpOK 2 (.kron m) :=
  opOK_gate (n := 2) (by norm_num) (g := .swap 1) (d := false) rfl (by simp [Fits]) ⟨by decide, by simp⟩ (by simp)

end QIP.Props
