import Verif.Model.Runner
import Verif.Props.Accept

/-!
# C116: the life of a worker process
-/

namespace QIP.Props

open QIP QIP.Spec

/-- What a manager sends that gives the jobs `js` to the worker. -/
def given {σ : Type} (js : List σ) : List (Heard σ) := js.map fun s => .cmd (.setup s)

theorem runner_given {σ : Type} {serve : σ → Option RunnerErr} {js : List σ} (h : ∀ s ∈ js, serve s = none) (hs : List (Heard σ)) :
    runnerRun serve (given js ++ hs) = (js ++ (runnerRun serve hs).1, (runnerRun serve hs).2) := by
  induction js with
  | nil => simp [given]
  | cons s js ih =>
    have h1 := ih fun s' hs' => h s' (by simp [hs'])
    have h2 : runnerBody serve (.cmd (.setup s)) = ([s], .ok true) := by
      simp [runnerBody, WorkerCmd.hasField, WorkerCmd.fields, WorkerCmd.which, h s (by simp)]
    simp only [runnerRun, given, List.map_cons, List.cons_append, runnerLoop, h2] at h1 ⊢
    simp [h1]

/-- C116, the part that holds: the jobs are served, each once and in the order in which they are given, as long as none of them fails;
then the worker waits for the next.  Missing: an end of the process. -/
theorem C116_serves_partial {σ : Type} {serve : σ → Option RunnerErr} {js : List σ} (h : ∀ s ∈ js, serve s = none) :
    runnerRun serve (given js) = (js, .waiting) := by
  have := runner_given h []
  simpa [runnerRun, runnerLoop] using this

/-- C116 is false: the command to shut down raises ValueError, whatever was served before and is sent after.  So does a command
without content. -/
theorem C116_shutdown_false {σ : Type} {serve : σ → Option RunnerErr} {js : List σ} (h : ∀ s ∈ js, serve s = none)
    {c : WorkerCmd σ} (hc : (∃ b, c = .shutdown b) ∨ c = .unset) (hs : List (Heard σ)) :
    runnerRun serve (given js ++ .cmd c :: hs) = (js, .raised (.py .valueError)) := by
  rw [runner_given h]
  rcases hc with ⟨b, rfl⟩ | rfl <;>
    simp [runnerRun, runnerLoop, runnerBody, WorkerCmd.hasField, WorkerCmd.fields, WorkerCmd.which]

/-- C116 fails for the jobs, too: after one that fails, a loss of the connection or data that is no command, no job is served. -/
theorem C116_failure {σ : Type} {serve : σ → Option RunnerErr} {js : List σ} (h : ∀ s ∈ js, serve s = none) (hs : List (Heard σ)) :
    (∀ s e, serve s = some e → runnerRun serve (given js ++ .cmd (.setup s) :: hs) = (js ++ [s], .raised e)) ∧
    runnerRun serve (given js ++ .lost :: hs) = (js, .raised .ioError) ∧
    runnerRun serve (given js ++ .garbage :: hs) = (js, .raised .decodeError) := by
  refine ⟨fun s e he => ?_, ?_, ?_⟩ <;> rw [runner_given h]
  · simp [runnerRun, runnerLoop, runnerBody, WorkerCmd.hasField, WorkerCmd.fields, WorkerCmd.which, he]
  · simp [runnerRun, runnerLoop, runnerBody]
  · simp [runnerRun, runnerLoop, runnerBody]

/-- C116 is false: nothing that a manager sends lets the loop end without an exception. -/
theorem C116_never_returns {σ : Type} (serve : σ → Option RunnerErr) (hs : List (Heard σ)) : (runnerRun serve hs).2 ≠ .returned := by
  induction hs with
  | nil => simp [runnerRun, runnerLoop]
  | cons a hs ih =>
    by_cases ha : ∃ s, a = .cmd (.setup s) ∧ serve s = none
    · obtain ⟨s, rfl, h1⟩ := ha
      have := runner_given (js := [s]) (by simpa using h1) hs
      simp only [given, List.map_cons, List.map_nil, List.cons_append, List.nil_append] at this
      rw [this]
      exact ih
    · match a, ha with
      | .lost, _ => rw [show (.lost :: hs : List (Heard σ)) = given [] ++ .lost :: hs from rfl, (C116_failure (by simp) hs).2.1]; simp
      | .garbage, _ =>
        rw [show (.garbage :: hs : List (Heard σ)) = given [] ++ .garbage :: hs from rfl, (C116_failure (by simp) hs).2.2]; simp
      | .cmd (.shutdown b), _ =>
        rw [show (.cmd (.shutdown b) :: hs : List (Heard σ)) = given [] ++ .cmd (.shutdown b) :: hs from rfl,
          C116_shutdown_false (by simp) (.inl ⟨b, rfl⟩)]; simp
      | .cmd .unset, _ =>
        rw [show (.cmd .unset :: hs : List (Heard σ)) = given [] ++ .cmd .unset :: hs from rfl,
          C116_shutdown_false (by simp) (.inr rfl)]; simp
      | .cmd (.setup s), ha =>
        cases he : serve s with
        | none => exact (ha ⟨s, rfl, he⟩).elim
        | some e =>
          rw [show (.cmd (.setup s) :: hs : List (Heard σ)) = given [] ++ .cmd (.setup s) :: hs from rfl,
            (C116_failure (by simp) hs).1 s e he]; simp

/-- C116 is false: `self.running` is never set to False; if it were, the loop would end. -/
theorem C116_keeps_running {σ : Type} (serve : σ → Option RunnerErr) :
    (∀ h js running, runnerBody serve h = (js, .ok running) → running = true) ∧ ∀ hs, runnerLoop serve false hs = ([], .returned) := by
  refine ⟨fun h js running hb => ?_, fun hs => by rw [runnerLoop]⟩
  match h with
  | .lost => simp [runnerBody] at hb
  | .garbage => simp [runnerBody] at hb
  | .cmd (.shutdown b) => simp [runnerBody, WorkerCmd.hasField, WorkerCmd.fields, WorkerCmd.which] at hb
  | .cmd .unset => simp [runnerBody, WorkerCmd.hasField, WorkerCmd.fields, WorkerCmd.which] at hb
  | .cmd (.setup s) =>
    simp only [runnerBody, WorkerCmd.hasField, WorkerCmd.fields, WorkerCmd.which] at hb
    cases he : serve s <;> simp [he] at hb
    exact hb.2

/-- C116 is false of the process: as long as the other workers connect as they should, it does not end, whatever comes from the
manager: neither on a command to shut down nor when the manager is gone. -/
theorem C116_process_false {σ α : Type} (serve : σ → Option RunnerErr) {decode : Bytes → Option α} (hs : List (Heard σ))
    {cs : List Incoming} {l : List α} (h : List.Forall₂ (PartnerOf decode) cs l) : processEnded serve decode hs cs = false := by
  simp [processEnded, (C104_partners_partial h).1]

theorem partners_loop {α : Type} (decode : Bytes → Option α) (cs : List Incoming) :
    (serverRun (partnerOne decode) (cs.map .conn)).loop ≠ .ended := by
  have key : ∀ s : Server α, s.loop ≠ .ended → s.running = true →
      (List.foldl (serverStep (partnerOne decode)) s (cs.map .conn)).loop ≠ .ended := by
    induction cs with
    | nil => intro s h _; simpa using h
    | cons c cs ih =>
      intro s h1 h2
      simp only [List.map_cons, List.foldl_cons]
      apply ih
      · simp only [serverStep, h2]
        split
        · split <;> simp
        · exact h1
      · simp only [serverStep]
        split
        · split <;> exact h2
        · exact h2
  exact key _ (by simp [Server.start]) rfl

/-- The process ends only when exceptions have ended both of its threads. -/
theorem C116_process_ends {σ α : Type} {serve : σ → Option RunnerErr} {decode : Bytes → Option α} {hs : List (Heard σ)}
    {cs : List Incoming} (h : processEnded serve decode hs cs = true) :
    (∃ e, (runnerRun serve hs).2 = .raised e) ∧ ∃ c ∈ cs, partnerOne decode c = .dies := by
  simp only [processEnded, decide_eq_true_eq] at h
  obtain ⟨h1, h2⟩ := h
  constructor
  · cases he : (runnerRun serve hs).2 with
    | waiting => exact (h1 he).elim
    | returned => exact (C116_never_returns serve hs he).elim
    | raised e => exact ⟨e, rfl⟩
  · have h3 := h2.resolve_right (partners_loop decode cs)
    by_contra hc
    push Not at hc
    have key : ∀ s : Server α, s.loop ≠ .dead → (List.foldl (serverStep (partnerOne decode)) s (cs.map .conn)).loop ≠ .dead := by
      clear h1 h2 h3
      induction cs with
      | nil => intro s h; simpa using h
      | cons c cs ih =>
        intro s h
        simp only [List.map_cons, List.foldl_cons]
        apply ih (fun c hm => hc c (by simp [hm]))
        have h5 := hc c (by simp)
        simp only [serverStep]
        split
        · split
          · split <;> simp
          · split <;> simp
          · simp
          · exact (h5 ‹_›).elim
        · exact h
    exact key _ (by simp [Server.start]) h3

/-! Concrete cases: two jobs are served and a shutdown is sent; the third job fails; the process ends after a partner's connection has
broken and the manager's. -/

example : ∀ s ∈ [3, 5], (fun n : Nat => if n = 4 then some RunnerErr.ioError else none) s = none := by decide

example : runnerRun (fun n : Nat => if n = 4 then some RunnerErr.ioError else none) (given [3, 5] ++ [.cmd (.shutdown true)]) =
    ([3, 5], .raised (.py .valueError)) :=
  C116_shutdown_false (by decide) (.inl ⟨true, rfl⟩) []

example : runnerRun (fun n : Nat => if n = 4 then some RunnerErr.ioError else none) (given [3, 4, 5]) =
    ([3, 4], .raised .ioError) :=
  (C116_failure (js := [3]) (by decide) (given [5])).1 4 _ rfl

example : processEnded (fun _ : Nat => none) (fun _ => some ()) (given [3] ++ [.lost]) [⟨true, true, [[0, 0, 0, 2, 5], []]⟩] = true := by
  decide

end QIP.Props
