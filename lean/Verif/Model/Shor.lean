import Mathlib.Data.Nat.GCD.Basic
import Mathlib.Data.Nat.Log

/-!
# The classical part of Shor's algorithm (`examples/shors.py`)

Python's `int / int` is a correctly rounded binary64 division; the code converts the result back with `int`.
-/

namespace QIP

/-- `a / b` rounded to the nearest integer, ties to even. -/
def roundHalfEven (a b : Nat) : Nat :=
  if 2 * (a % b) < b ∨ (2 * (a % b) = b ∧ a / b % 2 = 0) then a / b else a / b + 1

/-- `int(c / q)` for `c, q > 0` (binary64, 53 significant bits).  For a quotient below 1 only the integer part matters, so
the finer spacing of the floats below 1/2 need not be represented.  (Python raises OverflowError from about `2**1024`
on; not represented.) -/
def floatDivInt (c q : Nat) : Nat :=
  let k := c / q
  if k = 0 then roundHalfEven (c * 2 ^ 53) q / 2 ^ 53
  else if Nat.log 2 k ≤ 52 then roundHalfEven (c * 2 ^ (52 - Nat.log 2 k)) q / 2 ^ (52 - Nat.log 2 k)
  else roundHalfEven c (q * 2 ^ (Nat.log 2 k - 52)) * 2 ^ (Nat.log 2 k - 52)

/-- `gen_continued_fraction_coefs`, shors.py:91-99: the values yielded, if the loop ends within the given number of
iterations. -/
def cfCoefs : Nat → Int → Int → Option (List Int)
  | 0, _, _ => none
  | fuel + 1, c, q =>
    if c > 0 ∧ q > 0 then
      let a : Int := floatDivInt c.toNat q.toNat
      (cfCoefs fuel q (c - q * a)).map (a :: ·)
    else some []

/-- The loop of `gen_continued_fractions`, shors.py:79-88. -/
def cfLoop : List Int → Int → Int → Int → Int → List (Int × Int)
  | [], _, _, _, _ => []
  | an :: coefs, dn2, dn1, rn2, rn1 =>
    let dn := an * dn1 + dn2
    let rn := an * rn1 + rn2
    (dn, rn) :: cfLoop coefs dn1 dn rn1 rn

/-- `list(gen_continued_fractions(c, q))`, shors.py:73-88. -/
def continuedFractions (fuel : Nat) (c q : Int) : Option (List (Int × Int)) :=
  (cfCoefs fuel c q).map fun coefs => cfLoop coefs 0 1 1 0

/-- `for d, r in reversed(list(...))` with its `break`, shors.py:62-66, on the reversed list; the value of `r` afterwards. -/
def pickLoop (q : Int) : List (Int × Int) → Int → Int
  | [], r => r
  | (d, r) :: rest, _ => if 1 < d ∧ d < r ∧ r < q ∧ r % 2 = 0 ∧ Int.gcd d r = 1 then r else pickLoop q rest r

/-- The loop of `quantum`, shors.py:51-70: the circuits run report the given peaks (shors.py:54-56), `fuel` bounds the
iterations of `gen_continued_fraction_coefs`; `none`: the loop goes on after the last of them. -/
def quantumLoop (fuel : Nat) (q : Nat) : List Nat → Nat → Int → Option Int
  | peaks, maxIters, r =>
    if r = 1 ∧ 0 < maxIters then
      match peaks with
      | [] => none
      | 0 :: peaks => quantumLoop fuel q peaks maxIters r
      | peak :: peaks => (continuedFractions fuel peak q).bind fun l =>
        quantumLoop fuel q peaks (maxIters - 1) (pickLoop q l.reverse r)
    else some r

/-- `q_qubits`, shors.py:46 (the float `numpy.log2` is taken as exact). -/
def qQubits (N : Nat) : Nat := Nat.clog 2 (N ^ 2)

/-- `n_qubits`, shors.py:48. -/
def nQubits (N : Nat) : Nat := Nat.clog 2 N

/-- `quantum(x, N)`, shors.py:45-70, if the circuits `make_circuit(q_qubits, n_qubits, x, N)` report the given peaks. -/
def quantum (fuel N : Nat) (peaks : List Nat) : Option Int := quantumLoop fuel (2 ^ qQubits N) peaks 10 1

/-- One iteration of the loop of `classical`, shors.py:17-42: `a` is the random number drawn, `r` the result of
`quantum(a, N)`; `none`: the loop continues. -/
def classicalStep (N a r : Nat) : Option (Nat × Nat) :=
  let gcd := Nat.gcd a N
  if gcd ≠ 1 then some (gcd, floatDivInt N gcd)
  else if r % 2 = 1 then none
  else
    let apow := a ^ floatDivInt r 2 % N
    if apow = N - 1 then none
    else
      let f := (Nat.gcd (apow + 1) N, Int.gcd ((apow : Int) - 1) N)
      if f.1 = 1 ∨ f.2 = 1 then none else some f

/-- `classical(N)`, shors.py:13-42, after the check: the iterations draw and compute the given pairs. -/
def classicalLoop (N : Nat) : List (Nat × Nat) → Option (Nat × Nat)
  | [] => none
  | (a, r) :: draws => (classicalStep N a r).orElse fun _ => classicalLoop N draws

end QIP
