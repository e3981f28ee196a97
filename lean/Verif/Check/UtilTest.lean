import Mathlib.Data.Int.Basic
import Verif.Model.Kron
import Verif.Model.FuncApply

/-!
# The unit tests of the repository, run on the model: `tests/utiltest.py`

These are tests of the model, not proofs: what the tests of the repository expect of the code, the model gives too.  Matrices and
amplitudes of these tests are integers.
-/

namespace QIP.Check

/-- `numpy.kron(a, b)` of square matrices given by rows. -/
def kron (a b : List (List Int)) : List (List Int) :=
  a.flatMap fun r => b.map fun s => r.flatMap fun x => s.map fun y => x * y

def mat (a : List (List Int)) : Mat Int := .dense a.length a.length a.flatten

def col (a : List (List Int)) (i : Nat) : List Int := a.map fun r => r.getD i 0

/-- `numpy.zeros` with a one at `i`. -/
def unit (k i : Nat) : List Int := (List.replicate k 0).set i 1

def zeros (k : Nat) : List Int := List.replicate k 0

def one : List (List Int) := [[1, 0], [0, 1]]
def h : List (List Int) := [[1, 1], [1, -1]]
def g : List (List Int) := [[1, 2], [3, 4]]
def g' : List (List Int) := [[5, 6], [7, 8]]

/-- The call of `kronselect_dot` gives `w`, with either kernel; the compiled one with two orders of the rows. -/
def gives (mats : List (Key × Mat Int)) (vec : List Int) (n k inOff outOff : Nat) (w : List Int) : Bool :=
  [DotImpl.python, .cython (List.range k), .cython (List.range k).reverse].all fun impl =>
    match kronselectDot mats vec n (zeros k) inOff outOff impl with
    | .ok o => o == w
    | .error _ => false

/-- utiltest.py:9-25 -/
def testSimpleKron : Bool := (List.range 8).all fun i =>
  gives [(.int 0, mat h), (.int 2, mat h)] (unit 8 i) 3 8 0 0 (col (kron h (kron one h)) i) &&
  gives [(.tup [0, 2], mat (kron h h))] (unit 8 i) 3 8 0 0 (col (kron h (kron one h)) i)

/-- utiltest.py:27-43 -/
def testNonsymKron : Bool := (List.range 8).all fun i =>
  gives [(.int 0, mat g), (.int 2, mat g)] (unit 8 i) 3 8 0 0 (col (kron g (kron one g)) i) &&
  gives [(.tup [0, 2], mat (kron g g))] (unit 8 i) 3 8 0 0 (col (kron g (kron one g)) i)

/-- utiltest.py:45-66 -/
def testNonsymKronRev : Bool := (List.range 8).all fun i =>
  gives [(.int 0, mat g), (.int 2, mat g')] (unit 8 i) 3 8 0 0 (col (kron g (kron one g')) i) &&
  gives [(.tup [0, 2], mat (kron g g'))] (unit 8 i) 3 8 0 0 (col (kron g (kron one g')) i) &&
  gives [(.tup [2, 0], mat (kron g' g))] (unit 8 i) 3 8 0 0 (col (kron g (kron one g')) i)

/-- utiltest.py:68-92 -/
def testOutputOffset : Bool := (List.range 8).all fun i => (List.range 4).all fun off =>
  gives [(.int 0, mat h), (.int 2, mat h)] (unit 8 i) 3 4 0 off (((col (kron h (kron one h)) i).drop off).take 4) &&
  gives [(.tup [0, 2], mat (kron h h))] (unit 8 i) 3 4 0 off (((col (kron h (kron one h)) i).drop off).take 4)

/-- utiltest.py:94-125: the results for the four parts of the input add up. -/
def testInputOffset : Bool := (List.range 8).all fun i =>
  [[(Key.int 0, mat h), (.int 2, mat h)], [(.tup [0, 2], mat (kron h h))]].all fun mats =>
    ((List.range 4).foldl (fun acc s =>
      match kronselectDot mats (((unit 8 i).drop (2 * s)).take 2) 3 (zeros 8) (2 * s) 0 (.cython (List.range 8)) with
      | .ok o => (acc.zip o).map fun p => p.1 + p.2
      | .error _ => []) (zeros 8)) == col (kron h (kron one h)) i

/-- utiltest.py:127-154 -/
def testFuncApply : Bool :=
  match funcApply [0, 1] [2, 3] (fun x => .ok ((x + 1) % 4 : Nat)) ((((zeros 16).set 0 1).set 8 2).set 4 3 |>.set 12 4) 4 (zeros 16) 0 0
    true (faCounters 4 [0, 1] [2, 3]) (fun _ => 0) with
  | .ok o => o.getD 1 0 == 1 && o.getD 11 0 == 2 && o.getD 6 0 == 3 && o.getD 12 0 == 4
  | .error _ => false

#guard testSimpleKron
#guard testNonsymKron
#guard testNonsymKronRev
#guard testOutputOffset
#guard testInputOffset
#guard testFuncApply

end QIP.Check
