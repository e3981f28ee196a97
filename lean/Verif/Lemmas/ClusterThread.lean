import Verif.Lemmas.Cluster

/-!
# Steps of the manager's threads, new workers and new jobs
-/

namespace QIP

variable {jobs : Nat → ClusterJob} {F : Nat → Cfg Pid CMsg ALoc} {C C' : Cluster} {d : Nat → Cfg Pid CMsg ALoc} {ts : Nat → List Pid}
  {q : Wkr → List (Nat × Wid)} {L : List Nat} {h : Nat} {w : Wid} {x : Wkr} {rest : List (Nat × Wid)} {dn : Cfg Pid CMsg ALoc}

/-- A step of a thread. -/
theorem inv_thread (hg : Good (jobs h) h (F h)) (I : Inv jobs C d ts q L) (hL : h ∈ L) (hne : ¬ Ended C h) {t : Thread}
    (hs : stepP (aloneAct (jobs h) h) none (d h) = some dn)
    (hfix : C'.known = C.known ∧ C'.free = C.free ∧ C'.life = C.life ∧ C'.peer = C.peer)
    (ht : C'.thread = Function.update C.thread h (some t)) (hte : ∀ rs, t ≠ .ended rs) (hdn : dn.loc none = .thr t)
    (hio : (∃ w x m, (jobs h).who w = some x ∧ C'.up = C.up ∧ C'.down = Function.update C.down x (C.down x ++ [m]) ∧
        dn.buf = Function.update (d h).buf (none, some w) ((d h).buf (none, some w) ++ [m])) ∨
      ∃ w x ms, (jobs h).who w = some x ∧ C'.down = C.down ∧ C'.up = Function.update C.up x ms ∧
        dn.buf = Function.update (d h).buf (some w, none) ms) :
    Inv jobs C' (Function.update d h dn) (Function.update ts h (ts h ++ [none])) q L := by
  obtain ⟨f1, f2, f3, f4⟩ := hfix
  obtain ⟨g1, g2⟩ := step_frame hs
  have hruns := runs_step (I.alone hL) hs
  have hE : ∀ h', Ended C' h' ↔ Ended C h' := by
    intro h'
    by_cases e : h' = h
    · subst e
      simp only [hne, iff_false]
      rintro ⟨rs, hr⟩
      rw [ht, Function.update_self] at hr
      exact hte rs (Option.some.inj hr)
    · simp only [Ended, ht, Function.update_of_ne e]
  have hloc : ∀ h' w', (Function.update d h dn h').loc (some w') = (d h').loc (some w') := by
    intro h' w'
    by_cases e : h' = h
    · subst e
      rw [Function.update_self]
      exact g1 _ (by simp)
    · rw [Function.update_of_ne e]
  have hlast : ∀ y w', (h, w') ∈ q y → ∃ l, q y = l ++ [(h, w')] ∧ ∀ r ∈ l, r.1 ≠ h := by
    intro y w' hm
    obtain ⟨l, r, e⟩ := List.append_of_mem hm
    have hord := I.order y
    rw [e, List.pairwise_append, List.pairwise_cons] at hord
    cases r with
    | nil =>
      refine ⟨l, e, fun r hr e' => ?_⟩
      have := (hord.2.2 r hr (h, w') (by simp)).2.2
      rw [e'] at this
      exact absurd this (lt_irrefl _)
    | cons r rs => exact absurd (hord.2.1.1 r (by simp)).1 hne
  refine ⟨?_, I.once, ?_, ?_, ?_, ?_, ?_, ?_, ?_, ?_, ?_, ?_, ?_, ?_, ?_, ?_, ?_, I.wids, I.workers, f1 ▸ I.knownOnce, ?_⟩
  · intro h'
    rw [ht]
    by_cases e : h' = h
    · subst e
      simp [hL]
    · rw [Function.update_of_ne e]
      exact I.started h'
  · intro h' hL'
    by_cases e : h' = h
    · subst e
      rw [Function.update_self, Function.update_self]
      exact exec_snoc (I.runs h' hL') hs
    · rw [Function.update_of_ne e, Function.update_of_ne e]
      exact I.runs h' hL'
  · intro h' hL'
    rw [ht]
    by_cases e : h' = h
    · subst e
      rw [Function.update_self, Function.update_self]
      exact Or.inl ⟨t, rfl, hte, hdn⟩
    · rw [Function.update_of_ne e, Function.update_of_ne e]
      exact I.thread h' hL'
  · intro h' hL' v w'
    rw [f4, I.peer h' hL']
    by_cases e : h' = h
    · subst e
      rw [Function.update_self]
      exact (g2 _ _ (by simp) (by simp)).symm
    · rw [Function.update_of_ne e]
  · rw [f4]; exact I.nopeer
  · intro y h' w'
    rw [hloc]
    exact I.queue y h' w'
  · intro y
    refine (I.order y).imp ?_
    rintro a b ⟨i1, i2, i3⟩
    exact ⟨(hE _).2 i1, by rw [hloc]; exact i2, i3⟩
  · intro y
    rw [f3, I.life y]
    cases q y with
    | nil => rfl
    | cons r rest => simp only [headLife, hloc]
  · intro y
    rcases hio with ⟨w, x, m, hwho, -, e1, e2⟩ | ⟨w, x, ms, -, e1, -, e2⟩
    · -- the receiver has not left the job
      have hnl : (d h).loc (some w) ≠ .left := by
        intro hl
        have := hg.left_down hruns (w := w) (by rw [g1 _ (by simp)]; exact hl)
        rw [e2, Function.update_self] at this
        simp at this
      have hm : (h, w) ∈ q x := (I.queue x h w).2 ⟨hL, hwho, hnl⟩
      by_cases hy : y = x
      · subst hy
        obtain ⟨l, el, hl⟩ := hlast y w hm
        rw [e1, Function.update_self, I.down y, el, List.flatMap_append, List.flatMap_append, List.append_assoc]
        congr 1
        · refine List.flatMap_congr fun r hr => ?_
          rw [Function.update_of_ne (hl r hr)]
        · simp [e2]
      · rw [e1, Function.update_of_ne hy, I.down y]
        refine List.flatMap_congr fun r hr => ?_
        by_cases e : r.1 = h
        · have hrw : r.2 ≠ w := by
            intro e'
            have := ((I.queue y r.1 r.2).1 hr).2.1
            rw [e, e', hwho] at this
            exact hy (Option.some.inj this).symm
          rw [e, Function.update_self, e2, Function.update_of_ne (by simpa using hrw)]
        · rw [Function.update_of_ne e]
    · rw [e1, I.down y]
      refine List.flatMap_congr fun r hr => ?_
      by_cases e : r.1 = h
      · rw [e, Function.update_self, e2, Function.update_of_ne (by simp)]
      · rw [Function.update_of_ne e]
  · intro h' hL' hne' w' y hw'
    rw [hE] at hne'
    have hu := I.up h' hL' hne' w' y hw'
    rcases hio with ⟨w, x, m, hwho, e1, -, e2⟩ | ⟨w, x, ms, hwho, -, e1, e2⟩
    · rw [e1, hu]
      by_cases e : h' = h
      · subst e
        rw [Function.update_self, e2, Function.update_of_ne (by simp)]
      · rw [Function.update_of_ne e]
    · by_cases e : h' = h
      · subst e
        rw [Function.update_self, e1, e2]
        by_cases hy : y = x
        · subst hy
          obtain rfl := who_inj (I.workers h' hL') hw' hwho
          rw [Function.update_self, Function.update_self]
        · have hww : w' ≠ w := by
            rintro rfl
            rw [hwho] at hw'
            exact hy (Option.some.inj hw').symm
          rw [Function.update_of_ne hy, Function.update_of_ne (by simpa using hww), hu]
      · have hy : y ≠ x := by
          rintro rfl
          exact e (I.apart h' hL' h hL hne' hne _ _ _ hw' hwho)
        rw [Function.update_of_ne e, e1, Function.update_of_ne hy, hu]
  · intro y hy
    have hy' : ∀ h ∈ L, ¬ Ended C h → ∀ w, (jobs h).who w ≠ some y := fun h' hL' hne => hy h' hL' (by rwa [hE])
    rcases hio with ⟨w, x, m, hwho, e1, -, e2⟩ | ⟨w, x, ms, hwho, -, e1, e2⟩
    · rw [e1]
      exact I.noup y hy'
    · have hyx : y ≠ x := by
        rintro rfl
        exact hy' h hL hne w hwho
      rw [e1, Function.update_of_ne hyx]
      exact I.noup y hy'
  · rw [f1, f2]; exact I.freeKnown
  · rw [f1]; exact I.jobKnown
  · rw [f2]; exact I.freeOnce
  · intro h' hL' hne
    rw [f2]
    exact I.busy h' hL' (by rwa [hE] at hne)
  · intro h1 hL1 h2 hL2 n1 n2
    rw [hE] at n1 n2
    exact I.apart h1 hL1 h2 hL2 n1 n2
  · rw [f1, f2]
    intro y hy
    rcases I.kept y hy with h1 | ⟨h', i1, i2, i3⟩
    · exact Or.inl h1
    · exact Or.inr ⟨h', i1, by rwa [hE], i3⟩

theorem next_not_ended (j : ClusterJob) (ws : List Wid) (rs : List (Option (Nat × ℝ))) : j.next ws ≠ .ended rs := by
  cases ws <;> simp [ClusterJob.next]

/-- Whatever a thread can do alone, it does in the cluster. -/
theorem thread_ok (hg : Good (jobs h) h (F h)) (I : Inv jobs C d ts q L) (hL : h ∈ L)
    (hs : stepP (aloneAct (jobs h) h) none (d h) = some dn) :
    ∃ C', threadStep jobs h C = some C' ∧ (∀ h', Ended C' h' ↔ Ended C h') ∧
      Inv jobs C' (Function.update d h dn) (Function.update ts h (ts h ++ [none])) q L := by
  have hne : ¬ Ended C h := by
    intro he
    obtain ⟨rs, hf⟩ := I.fin hL he
    simp [stepP, hf, aloneAct] at hs
  obtain ⟨t, ht, -, hloc⟩ := I.live hL hne
  have hruns := runs_step (I.alone hL) hs
  have key : ∀ C' : Cluster, ∀ t', C'.thread = Function.update C.thread h (some t') → (∀ rs, t' ≠ .ended rs) →
      ∀ h', Ended C' h' ↔ Ended C h' := by
    intro C' t' e1 e2 h'
    by_cases e : h' = h
    · subst e
      simp only [hne, iff_false]
      rintro ⟨rs, hr⟩
      rw [e1, Function.update_self] at hr
      exact e2 rs (Option.some.inj hr)
    · simp only [Ended, e1, Function.update_of_ne e]
  -- a message is sent to a worker of the job
  have hsend : ∀ w m, dn.buf = Function.update (d h).buf (none, some w) ((d h).buf (none, some w) ++ [m]) →
      ∃ x, (jobs h).who w = some x := by
    intro w m e
    rw [who_some]
    by_contra hw
    have := hg.left_down hruns (absent hruns hw).1
    rw [e, Function.update_self] at this
    simp at this
  have hs0 := hs
  unfold stepP at hs
  rw [hloc] at hs
  rcases t with ws | l | rs
  · rcases ws with _ | ⟨w, ws⟩
    · simp [aloneAct] at hs
    · simp only [aloneAct, Option.some.injEq] at hs
      obtain ⟨x, hx⟩ := hsend w (.setup h w) (by rw [← hs])
      refine ⟨{ C with
        thread := Function.update C.thread h (some ((jobs h).next ws))
        down := Function.update C.down x (C.down x ++ [.setup h w]) }, ?_, key _ _ rfl (next_not_ended _ _),
        inv_thread hg I hL hne hs0 ⟨rfl, rfl, rfl, rfl⟩ rfl (next_not_ended _ _) (by rw [← hs]; simp)
          (Or.inl ⟨w, x, _, hx, rfl, rfl, by rw [← hs]⟩)⟩
      simp only [threadStep, ht, hx]
  · rcases l with ⟨rs, p, todo⟩ | rs | s
    · rcases p with r | r | ⟨w, o, k⟩ | ⟨w, k⟩
      · simp [aloneAct] at hs
      · simp [aloneAct] at hs
      · simp only [aloneAct, Option.some.injEq] at hs
        obtain ⟨x, hx⟩ := hsend w (.msg (.op o)) (by rw [← hs])
        refine ⟨{ C with
          thread := Function.update C.thread h (some (.run (settle rs k todo)))
          down := Function.update C.down x (C.down x ++ [.msg (.op o)]) }, ?_, key _ _ rfl (by simp),
          inv_thread hg I hL hne hs0 ⟨rfl, rfl, rfl, rfl⟩ rfl (by simp) (by rw [← hs]; simp)
            (Or.inl ⟨w, x, _, hx, rfl, rfl, by rw [← hs]⟩)⟩
        simp only [threadStep, ht, hx]
      · simp only [aloneAct] at hs
        rcases hb : (d h).buf (some w, none) with _ | ⟨m, ms⟩ <;> rw [hb] at hs <;> simp only at hs
        · cases hs
        injection hs with hs
        have hx : ∃ x, (jobs h).who w = some x := by
          rw [who_some]
          by_contra hw
          have := (absent (I.alone hL) hw).2 none
          rw [hb] at this
          cases this
        obtain ⟨x, hx⟩ := hx
        refine ⟨{ C with
          thread := Function.update C.thread h (some (.run (m.read (.mgr rs (.done (.error .exception)) todo)
            fun m => settle rs (k m) todo)))
          up := Function.update C.up x ms }, ?_, key _ _ rfl (by simp),
          inv_thread hg I hL hne hs0 ⟨rfl, rfl, rfl, rfl⟩ rfl (by simp) (by rw [← hs]; simp)
            (Or.inr ⟨w, x, ms, hx, rfl, rfl, by rw [← hs]⟩)⟩
        simp only [threadStep, ht, hx, I.up h hL hne w x hx, hb]
    · simp [aloneAct] at hs
    · simp [aloneAct] at hs
  · simp [aloneAct] at hs

/-- A thread at its end gives the workers back. -/
theorem thread_fin (hg : Good (jobs h) h (F h)) (I : Inv jobs C d ts q L) (hL : h ∈ L) {rs : List (Option (Nat × ℝ))}
    (ht : C.thread h = some (.run (.fin rs))) :
    ∃ C', threadStep jobs h C = some C' ∧ Ended C' h ∧ (∀ h', h' ≠ h → (Ended C' h' ↔ Ended C h')) ∧ Inv jobs C' d ts q L := by
  have hne : ¬ Ended C h := by
    rintro ⟨rs', hr⟩
    rw [ht] at hr
    cases hr
  have hfin : (d h).loc none = .thr (.run (.fin rs)) := by
    obtain ⟨t, h1, -, h2⟩ := I.live hL hne
    rw [ht] at h1
    rw [h2, ← Option.some.inj h1]
  have hE : ∀ h', Ended { C with
      thread := Function.update C.thread h (some (.ended rs))
      free := C.free ++ (jobs h).placed.map Placed.worker } h' ↔ h' = h ∨ Ended C h' := by
    intro h'
    by_cases e : h' = h
    · subst e
      simp [Ended]
    · simp [Ended, Function.update_of_ne e, e]
  have hmem : ∀ y, y ∈ (jobs h).placed.map Placed.worker ↔ ∃ w, (jobs h).who w = some y := by
    intro y
    constructor
    · intro hy
      obtain ⟨p, hp, rfl⟩ := List.mem_map.1 hy
      exact ⟨p.wid, who_of_mem (I.wids h hL) hp⟩
    · rintro ⟨w, hw⟩
      obtain ⟨p, hp, -, rfl⟩ := who_mem hw
      exact List.mem_map.2 ⟨p, hp, rfl⟩
  refine ⟨{ C with
      thread := Function.update C.thread h (some (.ended rs))
      free := C.free ++ (jobs h).placed.map Placed.worker }, by simp only [threadStep, ht], (hE h).2 (Or.inl rfl),
      fun h' e => by rw [hE]; simp [e], ?_⟩
  refine ⟨?_, I.once, I.runs, ?_, I.peer, I.nopeer, I.queue, ?_, I.life, I.down, ?_, ?_, ?_, I.jobKnown, ?_, ?_, ?_, I.wids,
    I.workers, I.knownOnce, ?_⟩
  · intro h'
    by_cases e : h' = h
    · subst e
      simp [hL]
    · simp only [Function.update_of_ne e]
      exact I.started h'
  · intro h' hL'
    by_cases e : h' = h
    · subst e
      exact Or.inr ⟨rs, by simp, hfin⟩
    · simp only [Function.update_of_ne e]
      exact I.thread h' hL'
  · intro y
    refine (I.order y).imp ?_
    rintro a b ⟨i1, i2, i3⟩
    exact ⟨(hE _).2 (Or.inr i1), i2, i3⟩
  · intro h' hL' hne' w' y hw'
    rw [hE, not_or] at hne'
    exact I.up h' hL' hne'.2 w' y hw'
  · intro y hy
    by_cases hyh : ∃ w, (jobs h).who w = some y
    · obtain ⟨w, hw⟩ := hyh
      simp only
      rw [I.up h hL hne w y hw, hg.fin_up (I.alone hL) hfin]
    · refine I.noup y fun h' hL' hne' w' hw' => ?_
      by_cases e : h' = h
      · subst e
        exact hyh ⟨w', hw'⟩
      · exact hy h' hL' (by rw [hE]; simp [e, hne']) w' hw'
  · intro y hy
    rcases List.mem_append.1 hy with hy | hy
    · exact I.freeKnown y hy
    · obtain ⟨w, hw⟩ := (hmem y).1 hy
      exact I.jobKnown h hL w y hw
  · refine List.Nodup.append I.freeOnce (I.workers h hL) ?_
    intro y h1 h2
    obtain ⟨w, hw⟩ := (hmem y).1 h2
    exact I.busy h hL hne w y hw h1
  · intro h' hL' hne' w y hw hy
    rw [hE, not_or] at hne'
    rcases List.mem_append.1 hy with hy | hy
    · exact I.busy h' hL' hne'.2 w y hw hy
    · obtain ⟨w', hw'⟩ := (hmem y).1 hy
      exact hne'.1 (I.apart h' hL' h hL hne'.2 hne w w' y hw hw')
  · intro h1 hL1 h2 hL2 n1 n2
    rw [hE, not_or] at n1 n2
    exact I.apart h1 hL1 h2 hL2 n1.2 n2.2
  · intro y hy
    rcases I.kept y hy with h1 | ⟨h', i1, i2, w, i3⟩
    · exact Or.inl (List.mem_append_left _ h1)
    · by_cases e : h' = h
      · subst e
        exact Or.inl (List.mem_append_right _ ((hmem y).2 ⟨w, i3⟩))
      · exact Or.inr ⟨h', i1, by rw [hE]; simp [e, i2], w, i3⟩

/-- A thread that can do nothing alone, and is not at its end, can do nothing. -/
theorem thread_none (hg : Good (jobs h) h (F h)) (I : Inv jobs C d ts q L) (hL : h ∈ L)
    (hs : stepP (aloneAct (jobs h) h) none (d h) = none) (ht : ∀ rs, C.thread h ≠ some (.run (.fin rs))) :
    threadStep jobs h C = none := by
  by_cases he : Ended C h
  · obtain ⟨rs, hr⟩ := he
    simp [threadStep, hr]
  obtain ⟨t, h1, h2, h3⟩ := I.live hL he
  unfold stepP at hs
  rw [h3] at hs
  rcases t with ws | l | rs
  · rcases ws with _ | ⟨w, ws⟩
    · simp [threadStep, h1]
    · simp [aloneAct] at hs
  · rcases l with ⟨rs, p, todo⟩ | rs | s
    · rcases p with r | r | ⟨w, o, k⟩ | ⟨w, k⟩
      · simp [threadStep, h1]
      · simp [threadStep, h1]
      · simp [aloneAct] at hs
      · simp only [aloneAct] at hs
        rcases hb : (d h).buf (some w, none) with _ | ⟨m, ms⟩ <;> rw [hb] at hs <;> simp only at hs
        · rcases hx : (jobs h).who w with _ | x
          · simp [threadStep, h1, hx]
          · simp [threadStep, h1, hx, I.up h hL he w x hx, hb]
        · cases hs
    · exact absurd h1 (ht rs)
    · simp [threadStep, h1]
  · simp [threadStep, h1]

end QIP
