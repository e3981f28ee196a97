import Verif.Lemmas.ClusterThread
import Verif.Lemmas.Job

/-!
# Histories of a cluster
-/

namespace QIP

open Props

variable {jobs : Nat → ClusterJob} {F : Nat → Cfg Pid CMsg ALoc} {C C' : Cluster} {d : Nat → Cfg Pid CMsg ALoc} {ts : Nat → List Pid}
  {q : Wkr → List (Nat × Wid)} {L : List Nat} {h : Nat} {w : Wid} {x : Wkr} {rest : List (Nat × Wid)} {dn : Cfg Pid CMsg ALoc}

/-- The placed workers are taken from the given ones. -/
theorem place_perm {n : Nat} {workers rest : List Wkr} {placed : List Placed} (hp : placeWorkers n workers = .ok (placed, rest)) :
    (placed.map Placed.worker ++ rest).Perm workers := by
  unfold placeWorkers at hp
  rcases hd : drawWorkers n workers with e | ⟨un, rest', wn⟩
  · simp [hd, bind, Except.bind] at hp
  simp only [hd, bind, Except.bind] at hp
  obtain ⟨placed', h1, h2, -⟩ := C60_tiles hd
  simp only [h1] at hp
  split at hp
  · injection hp with hp
    obtain ⟨rfl, rfl⟩ := Prod.mk.inj hp
    exact (h2.append_right _).trans (C59_drawn hd).1
  · cases hp

theorem place_wids {n : Nat} {workers rest : List Wkr} {placed : List Placed} (hp : placeWorkers n workers = .ok (placed, rest)) :
    (placed.map Placed.wid).Nodup := by
  obtain ⟨k, -, hg⟩ := place_grid hp
  rw [grid_wids (by positivity) hg]
  exact wids_nodup _

/-- A worker connects. -/
theorem inv_connect (I : Inv jobs C d ts q L) (hx : x ∉ C.known) :
    Inv jobs { C with known := C.known ++ [x], free := C.free ++ [x] } d ts q L := by
  refine ⟨I.started, I.once, I.runs, I.thread, I.peer, I.nopeer, I.queue, I.order, I.life, I.down, I.up, I.noup, ?_, ?_, ?_, ?_, I.apart,
    I.wids, I.workers, ?_, ?_⟩
  · intro y hy
    rcases List.mem_append.1 hy with hy | hy
    · exact List.mem_append_left _ (I.freeKnown y hy)
    · exact List.mem_append_right _ hy
  · intro h hL w y hw
    exact List.mem_append_left _ (I.jobKnown h hL w y hw)
  · refine List.Nodup.append I.freeOnce (List.nodup_singleton x) ?_
    intro y h1 h2
    obtain rfl := List.mem_singleton.1 h2
    exact hx (I.freeKnown y h1)
  · intro h hL hne w y hw hy
    rcases List.mem_append.1 hy with hy | hy
    · exact I.busy h hL hne w y hw hy
    · obtain rfl := List.mem_singleton.1 hy
      exact hx (I.jobKnown h hL w y hw)
  · refine List.Nodup.append I.knownOnce (List.nodup_singleton x) ?_
    intro y h1 h2
    obtain rfl := List.mem_singleton.1 h2
    exact hx h1
  · intro y hy
    rcases List.mem_append.1 hy with hy | hy
    · rcases I.kept y hy with h1 | h1
      · exact Or.inl (List.mem_append_left _ h1)
      · exact Or.inr h1
    · exact Or.inl (List.mem_append_right _ hy)

/-- The position of a worker in a job. -/
def roleOf (j : ClusterJob) (h : Nat) (x : Wkr) : List (Nat × Wid) :=
  ((j.placed.find? fun p => decide (p.worker = x)).map fun p => (h, p.wid)).toList

theorem mem_roleOf {j : ClusterJob} (hw : j.wids.Nodup) (hn : (j.placed.map Placed.worker).Nodup) {r : Nat × Wid} :
    r ∈ roleOf j h x ↔ r.1 = h ∧ j.who r.2 = some x := by
  unfold roleOf
  rw [Option.mem_toList, Option.map_eq_some_iff]
  constructor
  · rintro ⟨p, hp, rfl⟩
    have := List.find?_some hp
    simp only [decide_eq_true_eq] at this
    exact ⟨rfl, by rw [who_of_mem hw (List.mem_of_find?_eq_some hp), this]⟩
  · rintro ⟨h1, h2⟩
    obtain ⟨p, hp, e1, e2⟩ := who_mem h2
    rcases hf : j.placed.find? (fun p => decide (p.worker = x)) with _ | p'
    · have := List.find?_eq_none.1 hf p hp
      simp [e2] at this
    · have := List.find?_some hf
      simp only [decide_eq_true_eq] at this
      have e3 := List.inj_on_of_nodup_map hn (List.mem_of_find?_eq_some hf) hp (this.trans e2.symm)
      subst e3
      exact ⟨p', hf, Prod.ext h1.symm e1⟩

/-- A client asks for a job. -/
theorem inv_ask (I : Inv jobs C d ts q L) (hL : h ∉ L) {free : List Wkr}
    (hp : placeWorkers (jobs h).n C.free = .ok ((jobs h).placed, free)) :
    Inv jobs { C with free := free, thread := Function.update C.thread h (some ((jobs h).next (jobs h).wids)) }
      (Function.update d h (aloneStart (jobs h))) (Function.update ts h []) (fun x => q x ++ roleOf (jobs h) h x) (L ++ [h]) := by
  have hperm := place_perm hp
  have hnd : ((jobs h).placed.map Placed.worker ++ free).Nodup := hperm.nodup_iff.2 I.freeOnce
  have hwk : ((jobs h).placed.map Placed.worker).Nodup := (List.nodup_append'.1 hnd).1
  have hwi : (jobs h).wids.Nodup := place_wids hp
  have hfree : ∀ w x, (jobs h).who w = some x → x ∈ C.free ∧ x ∉ free := by
    intro w x hw
    obtain ⟨p, hp, -, rfl⟩ := who_mem hw
    have hm : p.worker ∈ (jobs h).placed.map Placed.worker := List.mem_map.2 ⟨p, hp, rfl⟩
    exact ⟨hperm.subset (List.mem_append_left _ hm), (List.nodup_append'.1 hnd).2.2 hm⟩
  have hsub : ∀ x ∈ free, x ∈ C.free := fun x hx => hperm.subset (List.mem_append_right _ hx)
  have hnot : ∀ h', h' ∈ L → h' ≠ h := by
    rintro h' h1 rfl
    exact hL h1
  have hthr : C.thread h = none := by
    by_contra hne
    exact hL ((I.started h).2 hne)
  have hE : ∀ h', Ended { C with
      free := free, thread := Function.update C.thread h (some ((jobs h).next (jobs h).wids)) } h' ↔ Ended C h' := by
    intro h'
    by_cases e : h' = h
    · subst e
      simp only [Ended, Function.update_self, hthr, reduceCtorEq, exists_false, iff_false, not_exists]
      intro rs e
      exact next_not_ended _ _ rs (Option.some.inj e)
    · simp only [Ended, Function.update_of_ne e]
  have hmem : ∀ h', h' ∈ L ++ [h] ↔ h' ∈ L ∨ h' = h := by simp
  have hfreeEnded : ∀ h' ∈ L, ∀ w x, (jobs h').who w = some x → x ∈ C.free → Ended C h' := by
    intro h' hL' w x hw hx
    by_contra hne
    exact I.busy h' hL' hne w x hw hx
  have hqL : ∀ x, ∀ r ∈ q x, r.1 ∈ L := fun x r hr => ((I.queue x r.1 r.2).1 hr).1
  refine ⟨?_, ?_, ?_, ?_, ?_, ?_, ?_, ?_, ?_, ?_, ?_, ?_, ?_, ?_, ?_, ?_, ?_, ?_, ?_, I.knownOnce, ?_⟩
  · intro h'
    rw [hmem]
    by_cases e : h' = h
    · subst e
      simp
    · simp only [e, or_false, Function.update_of_ne e]
      exact I.started h'
  · refine List.Nodup.append I.once (List.nodup_singleton h) ?_
    intro y h1 h2
    obtain rfl := List.mem_singleton.1 h2
    exact hL h1
  · intro h' hL'
    rcases (hmem h').1 hL' with h1 | rfl
    · rw [Function.update_of_ne (hnot h' h1), Function.update_of_ne (hnot h' h1)]
      exact I.runs h' h1
    · rw [Function.update_self, Function.update_self]
      rfl
  · intro h' hL'
    rcases (hmem h').1 hL' with h1 | rfl
    · simp only [Function.update_of_ne (hnot h' h1)]
      exact I.thread h' h1
    · simp only [Function.update_self]
      exact Or.inl ⟨_, rfl, next_not_ended _ _, rfl⟩
  · intro h' hL' v w
    rcases (hmem h').1 hL' with h1 | rfl
    · rw [Function.update_of_ne (hnot h' h1)]
      exact I.peer h' h1 v w
    · rw [Function.update_self]
      exact I.nopeer h' hL (v, w)
  · intro h' hL' vw
    rw [hmem, not_or] at hL'
    exact I.nopeer h' hL'.1 vw
  · intro x h' w'
    rw [List.mem_append, mem_roleOf hwi hwk, I.queue, hmem]
    by_cases e : h' = h
    · subst e
      simp only [hL, false_and, true_and, false_or, or_true, Function.update_self]
      constructor
      · intro hw
        refine ⟨hw, ?_⟩
        have : w' ∈ (jobs h').wids := who_some.1 ⟨x, hw⟩
        simp [aloneStart, this]
      · exact fun hw => hw.1
    · simp [e]
  · intro x
    rw [List.pairwise_append]
    refine ⟨?_, ?_, ?_⟩
    · refine (I.order x).imp_of_mem ?_
      rintro a b ha hb ⟨i1, i2, i3⟩
      refine ⟨(hE _).2 i1, by rw [Function.update_of_ne (hnot _ (hqL x b hb))]; exact i2, ?_⟩
      rw [List.idxOf_append_of_mem (hqL x a ha), List.idxOf_append_of_mem (hqL x b hb)]
      exact i3
    · unfold roleOf
      cases (jobs h).placed.find? (fun p => decide (p.worker = x)) <;> simp
    · intro a ha b hb
      obtain ⟨e1, e2⟩ := (mem_roleOf hwi hwk).1 hb
      obtain ⟨a1, a2, -⟩ := (I.queue x a.1 a.2).1 ha
      refine ⟨(hE _).2 (hfreeEnded a.1 a1 a.2 x a2 (hfree _ _ e2).1), ?_, ?_⟩
      · rw [e1, Function.update_self]
        simp [aloneStart, who_some.1 ⟨x, e2⟩]
      · rw [List.idxOf_append_of_mem a1, e1, List.idxOf_append_of_notMem hL]
        have := List.idxOf_lt_length_of_mem a1
        omega
  · intro x
    simp only
    rw [I.life x]
    cases hq : q x with
    | nil =>
      cases hr : roleOf (jobs h) h x with
      | nil => rfl
      | cons r rs =>
        obtain ⟨h', w'⟩ := r
        obtain ⟨e1, e2⟩ := (mem_roleOf hwi hwk (r := (h', w')) (h := h) (x := x)).1 (by rw [hr]; simp)
        simp only at e1 e2
        subst e1
        simp [headLife, aloneStart, who_some.1 ⟨x, e2⟩]
    | cons r rs =>
      obtain ⟨h', w'⟩ := r
      have : h' ≠ h := hnot h' (hqL x (h', w') (by rw [hq]; simp))
      simp [headLife, Function.update_of_ne this]
  · intro x
    simp only
    rw [I.down x, List.flatMap_append]
    have h1 : (roleOf (jobs h) h x).flatMap (fun r => (Function.update d h (aloneStart (jobs h)) r.1).buf (none, some r.2)) = [] := by
      rw [List.flatMap_eq_nil_iff]
      intro r hr
      rw [((mem_roleOf hwi hwk).1 hr).1, Function.update_self]
      rfl
    rw [h1, List.append_nil]
    refine List.flatMap_congr fun r hr => ?_
    rw [Function.update_of_ne (hnot _ (hqL x r hr))]
  · intro h' hL' hne w x hw
    rw [hE] at hne
    rcases (hmem h').1 hL' with h1 | rfl
    · rw [Function.update_of_ne (hnot h' h1)]
      exact I.up h' h1 hne w x hw
    · rw [Function.update_self]
      exact I.noup x fun h'' hL'' hne'' w'' hw'' => hne'' (hfreeEnded h'' hL'' w'' x hw'' (hfree w x hw).1)
  · intro x hx
    exact I.noup x fun h' hL' hne w => hx h' ((hmem h').2 (Or.inl hL')) (by rwa [hE]) w
  · exact fun x hx => I.freeKnown x (hsub x hx)
  · intro h' hL' w x hw
    rcases (hmem h').1 hL' with h1 | rfl
    · exact I.jobKnown h' h1 w x hw
    · exact I.freeKnown x (hfree w x hw).1
  · exact (List.nodup_append'.1 hnd).2.1
  · intro h' hL' hne w x hw
    rw [hE] at hne
    rcases (hmem h').1 hL' with h1 | rfl
    · exact fun hx => I.busy h' h1 hne w x hw (hsub x hx)
    · exact (hfree w x hw).2
  · intro h1 hL1 h2 hL2 n1 n2 v w x hv hw
    rw [hE] at n1 n2
    rcases (hmem h1).1 hL1 with i1 | rfl <;> rcases (hmem h2).1 hL2 with i2 | rfl
    · exact I.apart h1 i1 h2 i2 n1 n2 v w x hv hw
    · exact absurd (hfreeEnded h1 i1 v x hv (hfree w x hw).1) n1
    · exact absurd (hfreeEnded h2 i2 w x hw (hfree v x hv).1) n2
    · rfl
  · intro h' hL'
    rcases (hmem h').1 hL' with h1 | rfl
    · exact I.wids h' h1
    · exact hwi
  · intro h' hL'
    rcases (hmem h').1 hL' with h1 | rfl
    · exact I.workers h' h1
    · exact hwk
  · intro x hx
    rcases I.kept x hx with h1 | ⟨h', hL', hne, w, hw⟩
    · rcases List.mem_append.1 (hperm.symm.subset h1) with h2 | h2
      · obtain ⟨p, hp, rfl⟩ := List.mem_map.1 h2
        refine Or.inr ⟨h, (hmem h).2 (Or.inr rfl), ?_, p.wid, who_of_mem hwi hp⟩
        rw [hE]
        rintro ⟨rs, hr⟩
        rw [hthr] at hr
        cases hr
      · exact Or.inl h2
    · exact Or.inr ⟨h', (hmem h').2 (Or.inl hL'), by rwa [hE], w, hw⟩

theorem inv_init : Inv jobs Cluster.init d ts (fun _ => []) [] := by
  constructor <;> simp [Cluster.init, headLife]

open Classical in
/-- How much of the jobs has been done. -/
noncomputable def used (C : Cluster) (ts : Nat → List Pid) (L : List Nat) : Nat :=
  (L.map fun h => (ts h).length + if Ended C h then 1 else 0).sum

theorem sum_update {L : List Nat} (hn : L.Nodup) {f g : Nat → Nat} (hL : h ∈ L) (h1 : g h = f h + 1) (h2 : ∀ h', h' ≠ h → g h' = f h') :
    (L.map g).sum = (L.map f).sum + 1 := by
  induction L with
  | nil => simp at hL
  | cons a L ih =>
    rw [List.nodup_cons] at hn
    rcases List.mem_cons.1 hL with rfl | hL
    · have : L.map g = L.map f := List.map_congr_left fun b hb => h2 b (by rintro rfl; exact hn.1 hb)
      simp [this, h1]
      omega
    · have := ih hn.2 hL
      have ha : a ≠ h := by rintro rfl; exact hn.1 hL
      simp [this, h2 a ha]
      omega

/-- One event. -/
theorem inv_step (hg : ∀ h ∈ L, Good (jobs h) h (F h)) (I : Inv jobs C d ts q L) {e : CEvent} (he : C.step jobs e = some C') :
    ∃ d' ts' q' L', Inv jobs C' d' ts' q' L' ∧ (∀ h, h ∈ L' ↔ h ∈ L ∨ e = .ask h) ∧
      (e.isStep → L' = L ∧ used C' ts' L = used C ts L + 1) := by
  classical
  rcases e with x | h | h | x
  · simp only [Cluster.step] at he
    split at he
    · cases he
    · rename_i hx
      injection he with he
      subst he
      exact ⟨d, ts, q, L, inv_connect I hx, by simp, by simp [CEvent.isStep]⟩
  · simp only [Cluster.step] at he
    split at he
    · rename_i placed free h1 h2
      split at he
      · rename_i h3
        injection he with he
        subst he h3
        exact ⟨_, _, _, _, inv_ask I (fun hL => (I.started h).1 hL h1) h2, by simp [eq_comm], by simp [CEvent.isStep]⟩
      · cases he
    · cases he
  · have hL : h ∈ L := by
      rw [I.started]
      intro hn
      simp [Cluster.step, threadStep, hn] at he
    simp only [Cluster.step] at he
    rcases hs : stepP (aloneAct (jobs h) h) none (d h) with _ | dn
    · by_cases hf : ∃ rs, C.thread h = some (.run (.fin rs))
      · obtain ⟨rs, hf⟩ := hf
        obtain ⟨C1, h1, h2, h3, h4⟩ := thread_fin (hg h hL) I hL hf
        rw [he] at h1
        obtain rfl := Option.some.inj h1
        refine ⟨d, ts, q, L, h4, by simp, fun _ => ⟨rfl, sum_update I.once hL ?_ ?_⟩⟩
        · have : ¬ Ended C h := by
            rintro ⟨rs', hr⟩
            rw [hf] at hr
            cases hr
          simp [h2, this]
        · intro h' hne
          simp [h3 h' hne]
      · rw [thread_none (hg h hL) I hL hs fun rs hr => hf ⟨rs, hr⟩] at he
        cases he
    · obtain ⟨C1, h1, h2, h3⟩ := thread_ok (hg h hL) I hL hs
      rw [he] at h1
      obtain rfl := Option.some.inj h1
      refine ⟨_, _, _, L, h3, by simp, fun _ => ⟨rfl, sum_update I.once hL ?_ ?_⟩⟩
      · simp [h2]
        omega
      · intro h' hne
        simp [h2, Function.update_of_ne hne]
  · simp only [Cluster.step] at he
    rcases hq : q x with _ | ⟨⟨h, w⟩, rest⟩
    · rw [worker_nil I hq] at he
      cases he
    have hL : h ∈ L := ((I.queue x h w).1 (by rw [hq]; simp)).1
    rcases hs : stepP (aloneAct (jobs h) h) (some w) (d h) with _ | dn
    · rw [worker_none (hg h hL) I hq hs] at he
      cases he
    · obtain ⟨C1, h1, h2, h3⟩ := worker_ok (hg h hL) I hq hs
      rw [he] at h1
      obtain rfl := Option.some.inj h1
      have hE : ∀ h', Ended C' h' ↔ Ended C h' := fun h' => by simp only [Ended, h2]
      refine ⟨_, _, _, L, h3, by simp, fun _ => ⟨rfl, sum_update I.once hL ?_ ?_⟩⟩
      · simp [hE]
        omega
      · intro h' hne
        simp [hE, Function.update_of_ne hne]

/-- A history. -/
theorem inv_run (es : List CEvent) (hg : ∀ h, h ∈ L ∨ .ask h ∈ es → Good (jobs h) h (F h)) (I : Inv jobs C d ts q L)
    (he : C.run jobs es = some C') : ∃ d' ts' q' L', Inv jobs C' d' ts' q' L' ∧ (∀ h, h ∈ L' ↔ h ∈ L ∨ .ask h ∈ es) ∧
      ((∀ e ∈ es, e.isStep) → L' = L ∧ used C' ts' L = used C ts L + es.length) := by
  induction es generalizing C d ts q L with
  | nil =>
    simp only [Cluster.run, Option.some.injEq] at he
    subst he
    exact ⟨d, ts, q, L, I, by simp, by simp⟩
  | cons e es ih =>
    rw [Cluster.run] at he
    rcases hs : C.step jobs e with _ | C1 <;> rw [hs] at he
    · cases he
    simp only [Option.bind_some] at he
    obtain ⟨d1, ts1, q1, L1, I1, m1, u1⟩ := inv_step (fun h hL => hg h (Or.inl hL)) I hs
    obtain ⟨d2, ts2, q2, L2, I2, m2, u2⟩ := ih (fun h hh => hg h (by
      rcases hh with hh | hh
      · rcases (m1 h).1 hh with hh | rfl
        · exact Or.inl hh
        · exact Or.inr (by simp)
      · exact Or.inr (by simp [hh]))) I1 he
    refine ⟨d2, ts2, q2, L2, I2, ?_, ?_⟩
    · intro h
      rw [m2, m1, List.mem_cons, or_assoc]
      constructor
      · rintro (hh | rfl | hh) <;> simp [*]
      · rintro (hh | hh | hh)
        · exact Or.inl hh
        · exact Or.inr (Or.inl hh.symm)
        · exact Or.inr (Or.inr hh)
    · intro hall
      obtain ⟨rfl, e1⟩ := u1 (hall e (by simp))
      obtain ⟨rfl, e2⟩ := u2 fun e he => hall e (by simp [he])
      refine ⟨rfl, ?_⟩
      rw [e2, e1, List.length_cons]
      omega

/-- At most so much can be done. -/
theorem used_le (hg : ∀ h ∈ L, Good (jobs h) h (F h)) : ∃ N, ∀ C d ts q, Inv jobs C d ts q L → used C ts L ≤ N := by
  classical
  have h1 : ∀ h, ∃ n, h ∈ L → ∀ t c, exec (aloneAct (jobs h) h) t (aloneStart (jobs h)) = some c → t.length ≤ n := by
    intro h
    by_cases hL : h ∈ L
    · obtain ⟨-, n, hn⟩ := (hg h hL).ends
      refine ⟨n, fun _ t c ht => ?_⟩
      obtain ⟨t', -, e⟩ := hn t c ht
      omega
    · exact ⟨0, fun h' => absurd h' hL⟩
  choose n hn using h1
  refine ⟨(L.map fun h => n h + 1).sum, fun C d ts q I => ?_⟩
  unfold used
  refine List.sum_le_sum fun h hL => ?_
  have := hn h hL _ _ (I.runs h hL)
  split <;> omega

/-- If nothing can be done any more, all jobs are at their end. -/
theorem inv_done (hg : ∀ h ∈ L, Good (jobs h) h (F h)) (I : Inv jobs C d ts q L)
    (hst : ∀ e : CEvent, e.isStep → C.step jobs e = none) : ∀ h ∈ L, Ended C h ∧ d h = F h := by
  suffices key : ∀ n, ∀ h ∈ L, L.idxOf h = n → d h = F h by
    intro h hL
    have hd := key _ h hL rfl
    refine ⟨?_, hd⟩
    by_contra hne
    obtain ⟨rs, hf⟩ := (hg h hL).fin
    obtain ⟨t, h1, -, h2⟩ := I.live hL hne
    rw [hd, hf] at h2
    injection h2 with h2
    subst h2
    obtain ⟨C1, i1, -⟩ := thread_fin (hg h hL) I hL h1
    have := hst (.thread h) rfl
    simp only [Cluster.step] at this
    rw [this] at i1
    cases i1
  intro n
  induction n using Nat.strong_induction_on with
  | _ n ih =>
    intro h hL hn
    refine (hg h hL).ends.unique (I.alone hL) fun p => ?_
    rcases hs : stepP (aloneAct (jobs h) h) p (d h) with _ | dn
    · rfl
    exfalso
    rcases p with _ | w
    · obtain ⟨C1, i1, -⟩ := thread_ok (hg h hL) I hL hs
      have := hst (.thread h) rfl
      simp only [Cluster.step] at this
      rw [this] at i1
      cases i1
    · have hnl : (d h).loc (some w) ≠ .left := by
        intro e
        simp [stepP, e, aloneAct] at hs
      have hw : w ∈ (jobs h).wids := by
        by_contra hw
        exact hnl (absent (I.alone hL) hw).1
      obtain ⟨x, hx⟩ := who_some.2 hw
      have hm := (I.queue x h w).2 ⟨hL, hx, hnl⟩
      rcases hq : q x with _ | ⟨⟨h0, w0⟩, rest⟩
      · rw [hq] at hm
        simp at hm
      rw [hq] at hm
      rcases List.mem_cons.1 hm with e | hr
      · obtain ⟨rfl, rfl⟩ := Prod.mk.inj e
        obtain ⟨C1, i1, -⟩ := worker_ok (hg h hL) I hq hs
        have := hst (.worker x) rfl
        simp only [Cluster.step] at this
        rw [this] at i1
        cases i1
      · have hord := I.order x
        rw [hq, List.pairwise_cons] at hord
        have hlt := (hord.1 _ hr).2.2
        obtain ⟨j1, -, j3⟩ := (I.queue x h0 w0).1 (by rw [hq]; simp)
        have := ih (L.idxOf h0) (by simpa [hn] using hlt) h0 j1 rfl
        rw [this] at j3
        exact j3 ((hg h0 j1).gone w0)

/-- Then every worker waits for a setup, and nothing is on the way between the manager and the workers. -/
theorem inv_rest (hg : ∀ h ∈ L, Good (jobs h) h (F h)) (I : Inv jobs C d ts q L)
    (hd : ∀ h ∈ L, Ended C h ∧ d h = F h) (x : Wkr) : C.life x = .waiting ∧ C.down x = [] ∧ C.up x = [] := by
  have hq : q x = [] := by
    rw [List.eq_nil_iff_forall_not_mem]
    rintro ⟨h, w⟩ hm
    obtain ⟨h1, -, h3⟩ := (I.queue x h w).1 hm
    rw [(hd h h1).2] at h3
    exact h3 ((hg h h1).gone w)
  refine ⟨by rw [I.life, hq]; rfl, by rw [I.down, hq]; rfl, I.noup x fun h hL hne => absurd (hd h hL).1 hne⟩

end QIP
