import Verif.Spec.Phase
import Verif.Lemmas.Born
import Verif.Lemmas.RunInit

/-!
# Lemmas: states that differ by a phase
-/

namespace QIP

open Spec Heap Finset

variable {h : Heap} {V : Nat → Prop} {args : List Nat}

section Kernels

variable {n : Nat} {indices : List Nat} {vec vec' : List ℂ} (hl : vec'.length = vec.length)
  (hn : ∀ i, Complex.normSq (vec'.getD i 0) = Complex.normSq (vec.getD i 0))

include hl hn

theorem softMeasure_phase (measured : Option Nat) (inOff : Nat) (u g : ℝ) :
    softMeasure indices n vec' measured inOff u g = softMeasure indices n vec measured inOff u g := by
  have h1 : softAcc n indices vec' inOff = softAcc n indices vec inOff := by
    funext p
    unfold softAcc
    simp only [hl, hn]
  have h2 : probMagnitude g vec' = probMagnitude g vec := by
    unfold probMagnitude
    simp only [hl, hn]
  unfold softMeasure
  rw [h1, h2]

theorem chooseOutcome_phase (inOff : Nat) (measured : Option Int) (mp : Option ℝ) (u g : ℝ) :
    chooseOutcome indices n vec' inOff measured mp u g = chooseOutcome indices n vec inOff measured mp u g := by
  unfold chooseOutcome
  simp only [softMeasure_phase hl hn]

theorem measureProbabilities_phase : measureProbabilities indices n vec' = measureProbabilities indices n vec := by
  have hz : ∀ i, vec'.getD i 0 = 0 ↔ vec.getD i 0 = 0 := fun i => by
    rw [← Complex.normSq_eq_zero, hn, Complex.normSq_eq_zero]
  unfold measureProbabilities
  rw [hl]
  have : (fun (p : List ℝ) i => if vec'.getD i 0 = 0 then p
        else p.set (probIndex n indices i) (p.getD (probIndex n indices i) 0 + Complex.normSq (vec'.getD i 0)))
      = fun (p : List ℝ) i => if vec.getD i 0 = 0 then p
        else p.set (probIndex n indices i) (p.getD (probIndex n indices i) 0 + Complex.normSq (vec.getD i 0)) := by
    funext p i
    rw [hn]
    by_cases h0 : vec.getD i 0 = 0
    · rw [if_pos h0, if_pos ((hz i).2 h0)]
    · rw [if_neg h0, if_neg (mt (hz i).1 h0)]
  rw [this]

theorem measureTop_phase (topK : Nat) :
    measureTopProbabilities indices n topK vec' = measureTopProbabilities indices n topK vec := by
  have h1 : topProb n indices vec' = topProb n indices vec := by
    funext m
    unfold topProb
    simp only [hn]
  unfold measureTopProbabilities
  rw [hl, h1]

end Kernels

theorem Local.scaleC {n : Nat} {S : List Nat} {T : (Nat → ℂ) → Nat → ℂ} (h : Local n S T) {v w : Nat → ℂ} {a : ℂ}
    (hv : ∀ r < 2 ^ n, v r = a * w r) {r : Nat} (hr : r < 2 ^ n) : T v r = a * T w r := by
  obtain ⟨E, hE, -⟩ := h
  rw [hE v r hr, hE w r hr, Finset.mul_sum]
  apply Finset.sum_congr rfl
  intro c hc
  rw [hv c (mem_range.1 hc)]
  ring

/-- Two feeders that differ by the factor `z`. -/
structure Rotated (h : Heap) (args : List Nat) (z : ℂ) (st st' : Feeder) : Prop where
  ok : FeederOK h args st
  ok' : FeederOK h args st'
  ms : st'.ms = st.ms
  classic : st'.classic = st.classic
  amp : ∀ r < 2 ^ width h args, st'.state.amp r = z * st.state.amp r

theorem Rotated.normSq {z : ℂ} (hz : Complex.normSq z = 1) {st st' : Feeder} (hr : Rotated h args z st st') (i : Nat) :
    Complex.normSq (st'.state.state.getD i 0) = Complex.normSq (st.state.state.getD i 0) := by
  by_cases hi : i < 2 ^ width h args
  · have := hr.amp i hi
    unfold BState.amp at this
    rw [this, Complex.normSq_mul, hz, one_mul]
  · have h1 : st.state.state.length ≤ i := by rw [hr.ok.full.state, hr.ok.n]; omega
    have h2 : st'.state.state.length ≤ i := by rw [hr.ok'.full.state, hr.ok'.n]; omega
    simp [List.getD_eq_getElem?_getD, List.getElem?_eq_none h1, List.getElem?_eq_none h2]

/-- The results of feeding two feeders agree up to the factor. -/
def RotatedRes (h : Heap) (args : List Nat) (z : ℂ) : Except PyErr Feeder → Except PyErr Feeder → Prop
  | .ok st, .ok st' => Rotated h args z st st'
  | .error e, .error e' => e' = e
  | _, _ => False

theorem nodeFeed_rotated (c : Ctx h V args) {x : Nat} (hx : Reach h args x) (hok : NodeOK h args x) {orc orc' : Nat → Oracle}
    (ho : OracleOK h args orc) (ho' : OracleOK h args orc') (hd : (orc' x).u = (orc x).u ∧ (orc' x).garbage = (orc x).garbage)
    {z : ℂ} (hz : Complex.normSq z = 1) {st st' : Feeder} (hr : Rotated h args z st st') (own own' : List Nat) :
    RotatedRes h args z (nodeFeed h orc st (groups h args x) own x) (nodeFeed h orc' st' (groups h args x) own' x) := by
  obtain ⟨s1, s2⟩ := nodeFeed_spec c hx hok ho hr.ok own
  obtain ⟨s1', s2'⟩ := nodeFeed_spec c hx hok ho' hr.ok' own'
  have hlen : st'.state.state.length = st.state.state.length := by
    rw [hr.ok.full.state, hr.ok'.full.state, hr.ok.n, hr.ok'.n]
  have hnn : st'.state.n = st.state.n := by rw [hr.ok.n, hr.ok'.n]
  have hns := hr.normSq hz
  have hidx : IdxOK st.state.n (groups h args x).flatten := by
    rw [hr.ok.n]
    exact ⟨hok.distinct, fun q hq => c.groups_lt hx hq⟩
  have hbad : ¬ badIndices st.state.n (groups h args x).flatten := by
    rintro (⟨q, hq, hlt⟩ | hnd)
    · exact absurd (hidx.lt q hq) (by omega)
    · exact hnd hidx.nodup
  -- operations that are no measurements
  have hop : NoMeasure h args x → (∀ k, h.kind x ≠ .smeasure k) →
      (∀ a b, nodeFeed h orc st (groups h args x) own x = .ok a → nodeFeed h orc' st' (groups h args x) own' x = .ok b → b.ms = a.ms) →
      RotatedRes h args z (nodeFeed h orc st (groups h args x) own x) (nodeFeed h orc' st' (groups h args x) own' x) := by
    intro hm hns' hms
    obtain ⟨a, ha⟩ := s1 hm
    obtain ⟨b, hb⟩ := s1' hm
    obtain ⟨a1, cl, a2, a3, -⟩ := s2 a ha
    obtain ⟨b1, cl', b2, b3, -⟩ := s2' b hb
    rw [ha, hb]
    have key : (∀ r < 2 ^ width h args, a.state.amp r = nodeApply (width h args) h args x st.state.amp r) ∧ cl = .zero ∧
        (∀ r < 2 ^ width h args, b.state.amp r = nodeApply (width h args) h args x st'.state.amp r) ∧ cl' = .zero := by
      unfold StepSpec at a3 b3
      rcases hk : h.kind x with _ | is | ⟨g, d⟩ | f | _ | k <;> simp only [hk] at a3 b3
      · exact ⟨a3.1, a3.2, b3.1, b3.2⟩
      · exact ⟨a3.1, a3.2, b3.1, b3.2⟩
      · exact ⟨a3.1, a3.2, b3.1, b3.2⟩
      · exact ⟨a3.1, a3.2, b3.1, b3.2⟩
      · exact absurd hk hm.1
      · exact absurd hk (hns' k)
    obtain ⟨k1, rfl, k2, rfl⟩ := key
    refine ⟨a1, b1, hms a b ha hb, by rw [a2, b2, hr.classic], fun r hr' => ?_⟩
    rw [k1 r hr', k2 r hr']
    exact (local_node c hx hok).scaleC hr.amp hr'
  rcases hk : h.kind x with _ | is | ⟨g, d⟩ | f | _ | k
  · refine hop ⟨by simp [hk], by simp [hk]⟩ (by simp [hk]) ?_
    intro a b ha hb
    simp only [nodeFeed, hk, Except.ok.injEq] at ha hb
    rw [← ha, ← hb]
    exact hr.ms
  · refine hop ⟨by simp [hk], by simp [hk]⟩ (by simp [hk]) ?_
    intro a b ha hb
    simp only [nodeFeed, hk, Except.ok.injEq] at ha hb
    rw [← ha, ← hb]
    exact hr.ms
  · refine hop ⟨by simp [hk], by simp [hk]⟩ (by simp [hk]) ?_
    intro a b ha hb
    simp only [nodeFeed, hk, bind, Except.bind, hr.ms] at ha hb
    rcases hm : opMats (st.ms x) g d (groups h args x) with e | m <;> simp only [hm] at ha hb
    · cases ha
    · split at ha
      · cases ha
      · split at hb
        · cases hb
        · simp only [Except.ok.injEq] at ha hb
          rw [← ha, ← hb]
  · refine hop ⟨by simp [hk], by simp [hk]⟩ (by simp [hk]) ?_
    intro a b ha hb
    simp only [nodeFeed, hk, bind, Except.bind] at ha hb
    split at ha
    · cases ha
    · split at hb
      · cases hb
      · simp only [Except.ok.injEq] at ha hb
        rw [← ha, ← hb]
        exact hr.ms
  · have hc := chooseOutcome_phase (n := st.state.n) (indices := (groups h args x).flatten) hlen hns 0 none none (orc x).u
      (orc x).garbage
    rcases hq : chooseOutcome (groups h args x).flatten st.state.n st.state.state 0 none none (orc x).u (orc x).garbage
      with e | ⟨m, p, mult⟩
    · rw [hq] at hc
      have h1 : nodeFeed h orc st (groups h args x) own x = .error e := by
        simp [nodeFeed, hk, BState.measure_error st.state hq, bind, Except.bind]
      have h2 : nodeFeed h orc' st' (groups h args x) own' x = .error e := by
        rw [← hnn] at hc
        simp [nodeFeed, hk, hd.1, hd.2, BState.measure_error st'.state hc, bind, Except.bind]
      rw [h1, h2]
      exact rfl
    · rw [hq] at hc
      obtain ⟨a, ha, ha1, ha2⟩ : ∃ a, nodeFeed h orc st (groups h args x) own x = .ok a ∧ a.ms = st.ms ∧
          a.classic = st.classic ++ [(x, .bits m p)] := by
        simp only [nodeFeed, hk, BState.measure, QIP.measure, hq, bind, Except.bind, if_neg hbad]
        exact ⟨_, rfl, rfl, rfl⟩
      obtain ⟨b, hb, hb1, hb2⟩ : ∃ b, nodeFeed h orc' st' (groups h args x) own' x = .ok b ∧ b.ms = st'.ms ∧
          b.classic = st'.classic ++ [(x, .bits m p)] := by
        simp only [nodeFeed, hk, BState.measure, QIP.measure, hd.1, hd.2, hnn, hc, bind, Except.bind, if_neg hbad]
        exact ⟨_, rfl, rfl, rfl⟩
      obtain ⟨a1, cl, a2, a3, -⟩ := s2 a ha
      obtain ⟨b1, cl', b2, b3, -⟩ := s2' b hb
      rw [ha2] at a2
      rw [hb2] at b2
      simp only [List.append_cancel_left_eq, List.cons.injEq, Prod.mk.injEq, true_and, and_true] at a2 b2
      subst a2 b2
      unfold StepSpec at a3 b3
      simp only [hk] at a3 b3
      obtain ⟨m1, p1, e1, -, -, -, a4⟩ := a3
      obtain ⟨m2, p2, e2, -, -, -, b4⟩ := b3
      injection e1 with e1 e1'
      injection e2 with e2 e2'
      subst e1 e1' e2 e2'
      rw [ha, hb]
      refine ⟨a1, b1, by rw [ha1, hb1, hr.ms], by rw [ha2, hb2, hr.classic], fun r hr' => ?_⟩
      rw [a4 r hr', b4 r hr', hr.amp r hr']
      split
      · ring
      · simp
  · have h1 := measureProbabilities_phase (n := st.state.n) (indices := (groups h args x).flatten) hlen hns
    have h2 := measureTop_phase (n := st.state.n) (indices := (groups h args x).flatten) hlen hns k.toNat
    have h3 : st'.state.measureProbabilities (groups h args x).flatten k
        = st.state.measureProbabilities (groups h args x).flatten k := by
      unfold BState.measureProbabilities
      rw [hnn, h1, h2]
    simp only [nodeFeed, hk, h3, bind, Except.bind]
    rcases st.state.measureProbabilities (groups h args x).flatten k with e | r
    · exact rfl
    · exact ⟨⟨hr.ok.n, hr.ok.full, hr.ok.cache⟩, ⟨hr.ok'.n, hr.ok'.full, hr.ok'.cache⟩, hr.ms, by simp only [hr.classic], hr.amp⟩

theorem feedAll_rotated (c : Ctx h V args) {orc orc' : Nat → Oracle} (ho : OracleOK h args orc) (ho' : OracleOK h args orc')
    (hd : ∀ x, (orc' x).u = (orc x).u ∧ (orc' x).garbage = (orc x).garbage) {z : ℂ} (hz : Complex.normSq z = 1) (L : List Nat)
    (hL : ∀ x ∈ L, Reach h args x ∧ NodeOK h args x) {st st' : Feeder} (hr : Rotated h args z st st') :
    RotatedRes h args z (L.foldlM (fun a x => nodeFeed h orc a (groups h args x) (wires h args x) x) st)
      (L.foldlM (fun a x => nodeFeed h orc' a (groups h args x) (wires h args x) x) st') := by
  induction L generalizing st st' with
  | nil => exact hr
  | cons x L ih =>
    have hx := hL x (by simp)
    have h1 := nodeFeed_rotated c hx.1 hx.2 ho ho' (hd x) hz hr (wires h args x) (wires h args x)
    rw [List.foldlM_cons, List.foldlM_cons]
    simp only [bind, Except.bind]
    revert h1
    rcases nodeFeed h orc st (groups h args x) (wires h args x) x with e | a <;>
      rcases nodeFeed h orc' st' (groups h args x) (wires h args x) x with e' | b <;> intro h1
    · exact h1
    · exact False.elim h1
    · exact False.elim h1
    · exact ih (fun y hy => hL y (by simp [hy])) h1

/-! ## The initial state -/

theorem rotate_keys {zs : List ℂ} {feed : List (List Nat × List ℂ)} (hlen : zs.length = feed.length) :
    (rotate zs feed).map (·.1) = feed.map (·.1) := by
  unfold rotate
  induction feed generalizing zs with
  | nil => simp
  | cons kv feed ih =>
    cases zs with
    | nil => simp at hlen
    | cons z zs => simp [ih (zs := zs) (by simpa using hlen)]

theorem feedOK_rotate {zs : List ℂ} {feed : List (List Nat × List ℂ)} (hlen : zs.length = feed.length)
    (hf : FeedOK h args feed) : FeedOK h args (rotate zs feed) := by
  refine ⟨by rw [rotate_keys hlen]; exact hf.nodup, by rw [rotate_keys hlen]; exact hf.mem, fun kv hkv => ?_⟩
  unfold rotate at hkv
  rw [List.zipWith_eq_zipWith_take_min] at hkv
  obtain ⟨z, kv', hm, rfl⟩ : ∃ z kv', kv' ∈ feed ∧ (kv'.1, kv'.2.map (z * ·)) = kv := by
    rw [← List.zipWith_eq_zipWith_take_min] at hkv
    obtain ⟨i, hi, rfl⟩ := List.getElem_of_mem hkv
    rw [List.length_zipWith] at hi
    exact ⟨zs[i], feed[i], List.getElem_mem _, by simp⟩
  simpa using hf.size kv' hm

theorem startAmp_rotate {zs : List ℂ} {feed : List (List Nat × List ℂ)} (hlen : zs.length = feed.length) (r : Nat) :
    startAmp h args (rotate zs feed) r = zs.prod * startAmp h args feed r := by
  unfold startAmp
  simp only
  rw [rotate_keys hlen, ← mul_assoc]
  congr 1
  unfold rotate
  clear * - hlen
  induction feed generalizing zs with
  | nil =>
    cases zs with
    | nil => simp
    | cons z zs => simp at hlen
  | cons kv feed ih =>
    cases zs with
    | nil => simp at hlen
    | cons z zs =>
      have hg : ∀ k, (kv.2.map (z * ·)).getD k 0 = z * kv.2.getD k 0 := by
        intro k
        simp only [List.getD_eq_getElem?_getD, List.getElem?_map]
        rcases kv.2[k]? with _ | y <;> simp
      simp only [List.zipWith_cons_cons, List.map_cons, List.prod_cons, hg, ih (zs := zs) (by simpa using hlen)]
      ring

end QIP
