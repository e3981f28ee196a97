import Verif.Lemmas.Phase
import Verif.Props.Run
import Verif.Props.Born

/-!
# Global phases of fed states: C121
-/

namespace QIP.Props

open QIP Spec Heap

theorem normSq_prod {zs : List ℂ} (hz : ∀ z ∈ zs, ‖z‖ = 1) : Complex.normSq zs.prod = 1 := by
  induction zs with
  | nil => simp
  | cons z zs ih =>
    rw [List.prod_cons, Complex.normSq_mul, ih fun y hy => hz y (by simp [hy]), Complex.normSq_eq_norm_sq, hz z (by simp)]
    norm_num

/-- **C121**: multiplying fed vectors by numbers of absolute value 1 changes nothing but the phase of the result: with the same
draws, `run` raises the same exception or none, every measurement and every distribution is reported the same, and the returned
state is multiplied by the product of the numbers.  The orders of sets, the schedules of threads and the content of the second
buffer may differ between the two runs. -/
theorem C121_phase_partial {h : Heap} {env args : List Nat} (c : Circuit h env args)
    (hok : ∀ x, Reach h args x → NodeOK h args x) {feed : List (List Nat × List ℂ)} (hf : FeedOK h args feed)
    (hdef : ∀ q ∈ leaves h args, q ∉ (feed.map (·.1)).flatten → DefaultOK h q) {e e' : Env} (he : EnvOK h args e)
    (he' : EnvOK h args e') (hd : SameDraws e e') {zs : List ℂ} (hlen : zs.length = feed.length) (hz : ∀ z ∈ zs, ‖z‖ = 1) :
    run h (fun _ => none) args ((rotate zs feed).map asFeed) false none e'.pick e'.shuffle e'.orc e'.arena
      = (run h (fun _ => none) args (feed.map asFeed) false none e.pick e.shuffle e.orc e.arena).map
          fun r => (r.1.map (zs.prod * ·), r.2) := by
  obtain ⟨V, c⟩ := c.ctx
  have hf' := feedOK_rotate hlen hf
  rw [run_spec c hf' (by rw [rotate_keys hlen]; exact hdef) _ false e'.pick e'.shuffle he'.shuffle e'.orc e'.arena (by simp),
    run_spec c hf hdef _ false e.pick e.shuffle he.shuffle e.orc e.arena (by simp)]
  have hL : ∀ x ∈ needed h args, Reach h args x ∧ NodeOK h args x := by
    intro x hx
    have := (mem_needed c.wf c.vargs).1 hx
    exact ⟨this, hok x this⟩
  have hstart : Rotated h args zs.prod ⟨startState h args feed e.arena, fun _ => none, []⟩
      ⟨startState h args (rotate zs feed) e'.arena, fun _ => none, []⟩ := by
    refine ⟨feederOK_start he feed (cache_fresh h args), feederOK_start he' _ (cache_fresh h args), rfl, rfl, fun r hr => ?_⟩
    have h1 := start_scale (h := h) (args := args) (feed := feed) e.arena r hr
    have h2 := start_scale (h := h) (args := args) (feed := rotate zs feed) e'.arena r hr
    simp only [Complex.ofReal_one, one_mul] at h1 h2
    simp only [h1, h2]
    exact startAmp_rotate hlen r
  have hall := feedAll_rotated c (oracleOK he) (oracleOK he') hd (normSq_prod hz) (needed h args) hL hstart
  revert hall
  simp only [bind, Except.bind]
  rcases (needed h args).foldlM (fun a x => nodeFeed h e.orc a (groups h args x) (wires h args x) x)
      ⟨startState h args feed e.arena, fun _ => none, []⟩ with err | a <;>
    rcases (needed h args).foldlM (fun a x => nodeFeed h e'.orc a (groups h args x) (wires h args x) x)
      ⟨startState h args (rotate zs feed) e'.arena, fun _ => none, []⟩ with err' | b <;> intro hall
  · exact congrArg Except.error hall
  · exact False.elim hall
  · exact False.elim hall
  · have hr : Rotated h args zs.prod a b := hall
    simp only [Except.map, hr.classic, hr.ms]
    congr 2
    apply List.ext_getElem
    · rw [List.length_map, hr.ok.full.state, hr.ok'.full.state, hr.ok.n, hr.ok'.n]
    · intro i h1 h2
      have hi : i < 2 ^ width h args := by rw [← hr.ok'.n, ← hr.ok'.full.state]; exact h1
      have := hr.amp i hi
      unfold BState.amp at this
      rw [List.length_map] at h2
      rw [List.getElem_map]
      simpa [List.getD_eq_getElem?_getD, List.getElem?_eq_getElem h1, List.getElem?_eq_getElem h2] using this

/-- **C121**, without phases: a run is determined by the circuit, the feed and what the measurements draw. -/
theorem C121_determined_partial {h : Heap} {env args : List Nat} (c : Circuit h env args)
    (hok : ∀ x, Reach h args x → NodeOK h args x) {feed : List (List Nat × List ℂ)} (hf : FeedOK h args feed)
    (hdef : ∀ q ∈ leaves h args, q ∉ (feed.map (·.1)).flatten → DefaultOK h q) {e e' : Env} (he : EnvOK h args e)
    (he' : EnvOK h args e') (hd : SameDraws e e') :
    run h (fun _ => none) args (feed.map asFeed) false none e'.pick e'.shuffle e'.orc e'.arena
      = run h (fun _ => none) args (feed.map asFeed) false none e.pick e.shuffle e.orc e.arena := by
  have h1 : rotate (List.replicate feed.length 1) feed = feed := by
    unfold rotate
    clear * -
    induction feed with
    | nil => simp
    | cons kv feed ih => simp [List.replicate_succ, ih]
  have := C121_phase_partial c hok hf hdef he he' hd (zs := List.replicate feed.length 1) (by simp) (by simp)
  rw [h1] at this
  rw [this]
  rcases run h (fun _ => none) args (feed.map asFeed) false none e.pick e.shuffle e.orc e.arena with err | r
  · rfl
  · simp [Except.map]

/-! ## Cases -/

/-- An environment for the two coins: draws `u`, accumulators containing `g`, a schedule and the content of the second buffer. -/
noncomputable def coinsEnv (u g : Nat → ℝ) (sched : List Nat) (junk : ℂ) : Env :=
  ⟨fun _ => 0, id, fun x => ⟨sched,
    (faCounters (width coins [4]) ((groups coins [4] x).getD 0 []) ((groups coins [4] x).getD 1 [])), fun _ => 0, u x, g x⟩,
    [junk, junk]⟩

theorem coinsEnv_ok (u g : Nat → ℝ) {sched : List Nat} (hs : sched.Perm [0, 1]) (junk : ℂ) :
    EnvOK coins [4] (coinsEnv u g sched junk) := by
  have hw := coins_wires.2.2.1
  refine ⟨fun _ => .refl _, fun _ => ?_, fun _ => .refl _, by simp [coinsEnv, hw]⟩
  rw [hw]
  exact hs

/-- A fed qubit that is measured twice: feeding `i` times the vector gives the same results, for all draws. -/
example (u g : Nat → ℝ) : run coins (fun _ => none) [4] [([0], .vec [Complex.I * 3 / 5, Complex.I * 4 / 5])] false none
      (coinsEnv u g [1, 0] 7).pick (coinsEnv u g [1, 0] 7).shuffle (coinsEnv u g [1, 0] 7).orc (coinsEnv u g [1, 0] 7).arena
    = (run coins (fun _ => none) [4] [([0], .vec [3 / 5, 4 / 5])] false none (coinsEnv u g [0, 1] 0).pick
        (coinsEnv u g [0, 1] 0).shuffle (coinsEnv u g [0, 1] 0).orc (coinsEnv u g [0, 1] 0).arena).map
      fun r => (r.1.map (Complex.I * ·), r.2) := by
  have hf : FeedOK coins [4] [([0], [3 / 5, 4 / 5])] := by
    refine ⟨by simp, by simp [coins_wires.2.1], ?_⟩
    simp [coins_facts.2.2.2.2.2.2.2.2.2.2.1]
  have := C121_phase_partial coins_circuit coins_ok hf (by simp [coins_wires.2.1])
    (coinsEnv_ok u g (sched := [0, 1]) (.refl _) 0) (coinsEnv_ok u g (sched := [1, 0]) (List.Perm.swap 0 1 []) 7)
    (fun _ => ⟨rfl, rfl⟩) (zs := [Complex.I]) rfl (by simp)
  simpa [rotate, asFeed, mul_div_assoc] using this

end QIP.Props
