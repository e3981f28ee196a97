import Verif.Model.Bits
import Verif.Model.FuncApply
import Verif.Model.Gates
import Verif.Model.Measure

/-!
# The local backend (`qip/backend.py`): initial states and the remaining operations
-/

namespace QIP

/-- An initial state given by the user (`InitialState`, qip/util.py:11: a sequence of amplitudes or an int). -/
inductive InitState where
  | vec (amps : List ℂ)
  | int (k : Int)

/-- `qbit_state_indices`, qip/util.py:117-123: one number per group, from consecutive pieces of `flips`. -/
def groupFlips (flips : List Bool) : List (List Nat) → Nat → List Nat
  | [], _ => []
  | g :: gs, start => bitarrayToUint ((flips.drop start).take g.length) :: groupFlips flips gs (start + g.length)

/-- `gen_edit_indices(index_groups, n - 1)`, qip/util.py:108-124: list of the yielded `(index, flips)`.  `bits` persists
between iterations.  An index `≥ n` raises IndexError at the first iteration (line 116). -/
def genEditIndices (groups : List (List Nat)) (n : Nat) : Except PyErr (List (Nat × List Nat)) :=
  if groups = [] then .ok []
  else
    let allindices := groups.flatten
    if ∃ q ∈ allindices, n ≤ q then .error .indexError
    else .ok ((List.range (2 ^ allindices.length)).foldl
      (fun (st : List Bool × List (Nat × List Nat)) (i : Nat) =>
        let flips := uintToBitarray (i : Int) allindices.length
        let bits := (allindices.zip flips).foldl (fun cb p => cb.set p.1 p.2) st.1
        (bits, st.2 ++ [(bitarrayToUint bits, groupFlips flips groups 0)]))
      (List.replicate n false, [])).2

/-- `feed_list[qindex][flip]`, qip/backend.py:101. -/
noncomputable def feedGet (feeds : List InitState) (qindex flip : Nat) : Except PyErr ℂ :=
  match feeds[qindex]? with
  | none => .error .indexError
  | some (.int _) => .error .typeError
  | some (.vec amps) =>
    match amps[flip]? with
    | none => .error .indexError
    | some a => .ok a

/-- The product of lines qip/backend.py:99-101. -/
noncomputable def feedProduct (feeds : List InitState) (flips : List Nat) : Except PyErr ℂ :=
  flips.zipIdx.foldlM (fun acc fq => do
    let a ← feedGet feeds fq.2 fq.1
    pure (acc * a)) 1

/-- Loop body, qip/backend.py:94-101. -/
noncomputable def editStep (feeds : List InitState) (inStart inEnd : Nat) (st : List ℂ) (e : Nat × List Nat) :
    Except PyErr (List ℂ) :=
  if e.1 < inStart ∨ e.1 ≥ inEnd then .ok st
  else do
    let v ← feedProduct feeds e.2
    pure (st.set (e.1 - inStart) v)

/-- `CythonBackend.make_state`, qip/backend.py:73-104.  `arena` is the uninitialised output buffer (its length is
`outputendindex - outputstartindex`).  Defaults for the window are `0` and `2 ** n`. -/
noncomputable def makeState (n : Nat) (groups : List (List Nat)) (feeds : List InitState) (inStart inEnd : Nat)
    (arena : List ℂ) : Except PyErr BState :=
  if inEnd < inStart then .error .valueError
  else do
    let state0 := List.replicate (inEnd - inStart) (0 : ℂ)
    let state1 ← if feeds = [] then (if inEnd - inStart = 0 then .error .indexError else .ok (state0.set 0 1))
      else .ok state0
    let edits ← genEditIndices groups n
    let state ← edits.foldlM (editStep feeds inStart inEnd) state1
    .ok ⟨n, state, arena⟩

/-- `CythonBackend.kronselect_dot`, qip/backend.py:112-116. -/
noncomputable def BState.kronselectDot (b : BState) (mats : List (Key × Mat ℂ)) (inOff outOff : Nat)
    (sched : List Nat) : Except PyErr Unit × BState :=
  match QIP.kronselectDot mats b.state b.n b.arena inOff outOff (.cython sched) with
  | .error e => (.error e, b)
  | .ok out => (.ok (), { b with state := out, arena := b.state })

/-- `CythonBackend.get_relative_range`, qip/backend.py:168-169 (`state[start:end]`, indices clipped). -/
def BState.getRange (b : BState) (start stop : Nat) : List ℂ := (b.state.take stop).drop start

/-- numpy's broadcasting of one-dimensional data to `len` entries: data of one entry is repeated. -/
def broadcast (len : Nat) : List ℂ → List ℂ
  | [x] => List.replicate len x
  | data => data

/-- `CythonBackend.overwrite_relative_range`, qip/backend.py:171-172: numpy slice assignment (data that does not fit raises
ValueError). -/
noncomputable def BState.overwriteRange (b : BState) (start stop : Nat) (data : List ℂ) : Except PyErr BState :=
  let d := broadcast (b.getRange start stop).length data
  if (b.getRange start stop).length = d.length then
    .ok { b with state := b.state.take start ++ d ++ b.state.drop (start + d.length) }
  else .error .valueError

/-- `CythonBackend.addto_relative_range`, qip/backend.py:174-175. -/
noncomputable def BState.addtoRange (b : BState) (start stop : Nat) (data : List ℂ) : Except PyErr BState :=
  let d := broadcast (b.getRange start stop).length data
  if (b.getRange start stop).length = d.length then
    .ok { b with state := b.state.take start ++ List.zipWith (· + ·) (b.getRange start stop) d
      ++ b.state.drop (start + d.length) }
  else .error .valueError

theorem broadcast_same {len : Nat} {data : List ℂ} (h : len = data.length) : broadcast len data = data := by
  unfold broadcast
  split
  · subst h; rfl
  · rfl

/-- `CythonBackend.measure_probabilities`, qip/backend.py:158-163: `top_k` truthy or not (a negative `top_k` makes
numpy raise ValueError). -/
noncomputable def BState.measureProbabilities (b : BState) (indices : List Nat) (topK : Int) :
    Except PyErr (List ℝ ⊕ (List Nat × List ℝ)) :=
  if topK = 0 then do
    let ps ← QIP.measureProbabilities indices b.n b.state
    pure (.inl ps)
  else if topK < 0 then .error .valueError
  else do
    let r ← QIP.measureTopProbabilities indices b.n topK.toNat b.state
    pure (.inr r)

end QIP
