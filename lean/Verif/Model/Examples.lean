import Verif.Model.Wrap
import Mathlib.Analysis.SpecialFunctions.Pow.Real

/-!
# Programs given as examples (`README.md`, `examples/`)
-/

namespace QIP

/-- README.md:12-22 and examples/cswap_measure.py:9-11, run after `q1 = Qubit(n=1); q2 = Qubit(n=k); q3 = Qubit(n=k)`
(objects 0, 1, 2): `h1 = H(q1); c1, c2, c3 = C(Swap)(h1, q2, q3); m1 = H(c1)`. -/
def swapTest : W Nat := do
  let h1 ← callWrapper (.op .h) [] [0]
  match h1 with
  | [h1] => do
    let cs ← callWrapper (.c (.op (.swap 0))) [] [h1, 1, 2]
    match cs with
    | [c1, _, _] => do
      let m1 ← callWrapper (.op .h) [] [c1]
      match m1 with
      | [m1] => pure m1
      | _ => W.raise .valueError
    | _ => W.raise .valueError
  | _ => W.raise .valueError

/-- examples/grovers_iterative.py:20-21: `F(lambda x: int(x == x0), search, ancillary)`. -/
def groverUw (search ancillary x0 : Nat) : W (Nat × Nat) := do
  let r ← callWrapper (.fop fun i => .ok (if i = x0 then 1 else 0)) [] [search, ancillary]
  match r with
  | [a, b] => pure (a, b)
  | _ => W.raise .valueError

/-- examples/grovers_iterative.py:24-26. -/
def groverUs (search ancillary : Nat) : W (Nat × Nat) := do
  let hs ← callWrapper (.op .h) [] [search]
  match hs with
  | [hs] => do
    let f ← groverUw hs ancillary 0
    let r ← callWrapper (.op .h) [] [f.1]
    match r with
    | [r] => pure (r, f.2)
    | _ => W.raise .valueError
  | _ => W.raise .valueError

/-- One object from a call that returns one. -/
def single (m : W (List Nat)) : W Nat := do
  let r ← m
  match r with
  | [x] => pure x
  | _ => W.raise .valueError

/-- examples/grovers_iterative.py:34, `numpy.ones(shape=(2 ** n,)) / numpy.sqrt(2 ** n)`. -/
noncomputable def searchDefault (n : Nat) : List ℂ := List.replicate (2 ^ n) (1 / (√(2 ^ n) : ℝ))

/-- examples/grovers_iterative.py:35, `[1 / numpy.sqrt(2), -1 / numpy.sqrt(2)]`. -/
noncomputable def ancDefault : List ℂ := [1 / (√2 : ℝ), -1 / (√2 : ℝ)]

/-- examples/grovers_iterative.py:34-39, for any `n` and `x` (the file has 10 and 42): the two registers with their
defaults, the oracle, the diffusion, and the two reports `sm_ds`, `sm_da`.  (`make_svg` and `graph` in between do not
change the objects.) -/
noncomputable def grover (n x : Nat) : W (Nat × Nat) := do
  let q ← single (direct (.qubit [] (some n) (some (.array (searchDefault n)))))
  let anc ← single (direct (.qubit [] (some 1) (some (.list ancDefault))))
  let o ← groverUw q anc x
  let d ← groverUs o.1 o.2
  let ds ← single (direct (.smeasure [d.1] 0))
  let da ← single (direct (.smeasure [d.2] 0))
  pure (ds, da)

/-- examples/shors.py:110, `numpy.ones((2 ** m,)) * pow((2 ** m), -1.0 / 2.0)`. -/
noncomputable def shorDefault (m : Nat) : List ℂ := List.replicate (2 ^ m) ((1 * (2 ^ m : ℝ) ^ (-1 / 2 : ℝ) : ℝ) : ℂ)

/-- `pow(x, i, N)` for `i >= 0` (ValueError for `N = 0`). -/
def powMod (x N i : Nat) : Except PyErr Int := if N = 0 then .error .valueError else .ok ((x ^ i % N : Nat) : Int)

/-- `make_circuit(m, n, x, N)`, examples/shors.py:102-124; the function object of `QFFT` is 0. -/
noncomputable def shorCircuit (m n x N : Nat) : W (Nat × Nat) := do
  let reg1 ← single (direct (.qubit [] (some m) (some (.array (shorDefault m)))))
  let reg2 ← single (direct (.qubit [] (some n) none))
  let uf ← callWrapper (.fop (powMod x N)) [] [reg1, reg2]
  match uf with
  | [ufreg1, ufreg2] => do
    let qft ← single (qfft 0 true [ufreg1])
    let both ← single (direct (.qubit [qft, ufreg2] none none))
    let out ← direct (.split both none)
    match out with
    | [out1, _] => do
      let mqft ← single (direct (.smeasure [out1] 0))
      let m ← single (direct (.measure [qft]))
      pure (mqft, m)
    | _ => W.raise .valueError
  | _ => W.raise .valueError

/-- examples/qfft_example.py:9-13, for any `n` (the file has 6): `q`, `mq` and `mqft`; the function object of `QFFT` is 0.  (The
rest of the file makes a vector, runs `run(mqft, feed={q: state})` and plots `c[mq]` and `c[mqft]`.) -/
def spectrum (n : Nat) : W (Nat × Nat × Nat) := do
  let q ← single (direct (.qubit [] (some n) none))
  let mq ← single (direct (.smeasure [q] 0))
  let qft ← single (qfft 0 true [mq])
  let mqft ← single (direct (.smeasure [qft] 0))
  pure (q, mq, mqft)

end QIP
