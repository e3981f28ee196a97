import Mathlib.Data.Real.Basic
import Verif.Model.Err

/-!
# Aggregation of the workers' top-k reports (`qip/distributed/manager.py`, `send_measure_top`)
-/

namespace QIP

/-- What one worker reports: pairs of an outcome and its probability. -/
abbrev Report := List (Nat × ℝ)

open Classical in
/-- `sorted(zip(indices, probs), reverse=True)`, manager.py:322-324, kept in the opposite order: the first element
here is the one `pop()` takes. -/
noncomputable def sortReport (r : Report) : Report :=
  r.mergeSort fun a b => decide (a.1 < b.1 ∨ a.1 = b.1 ∧ a.2 ≤ b.2)

/-- The `for` loop, manager.py:334-343: takes the entries of outcome `m`; returns the remaining reports, `agg_p` and
`agg_err`. -/
noncomputable def aggFor (m : Nat) : List Report → List ℝ → List Report × ℝ × ℝ
  | [], _ => ([], 0, 0)
  | r :: rs, mins =>
    let (rs', p, e) := aggFor m rs mins.tail
    match r with
    | (i, q) :: t => if i = m then (t :: rs', q + p, e) else (r :: rs', p, mins.headD 0 + e)
    | [] => ([] :: rs', p, mins.headD 0 + e)

/-- The `while` loop, manager.py:328-344.  `min(res[-1][0] for res in conf_results)` raises IndexError at an exhausted
report.  Every iteration takes at least one entry, `fuel` is the initial number of entries. -/
noncomputable def aggLoop (mins : List ℝ) : Nat → List Report → Except PyErr (List (Nat × ℝ × ℝ))
  | 0, _ => .ok []
  | fuel + 1, rs =>
    if (rs.map List.length).sum = 0 then .ok []
    else
      match rs.mapM fun r => r.head?.map Prod.fst with
      | none => .error .indexError
      | some heads =>
        let m := heads.tail.foldl min (heads.headD 0)
        let (rs', p, e) := aggFor m rs mins
        match aggLoop mins fuel rs' with
        | .error er => .error er
        | .ok rest => .ok ((m, p, e) :: rest)

/-- `min(conf.measure_result.top_k_probs)`, manager.py:319. -/
noncomputable def reportMin (r : Report) : Except PyErr ℝ :=
  match r with
  | [] => .error .valueError
  | a :: t => .ok ((t.map Prod.snd).foldl min a.2)

open Classical in
/-- `send_measure_top` after the reports have arrived, manager.py:318-354: outcomes, probabilities and error bounds. -/
noncomputable def measureTop (topK : Nat) (reports : List Report) : Except PyErr (List (Nat × ℝ × ℝ)) := do
  let mins ← reports.mapM reportMin
  let agg ← aggLoop mins (reports.map List.length).sum (reports.map sortReport)
  let items := agg.mergeSort fun a b => decide (b.2.1 ≤ a.2.1)
  if items = [] then .error .valueError else .ok (items.take topK)

end QIP
