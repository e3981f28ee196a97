import Verif.Spec.Gates

/-!
# Specification: the discrete Fourier transform of a register
-/

namespace QIP.Spec

open Finset

/-- The amplitude at `r` of the discrete Fourier transform of `v` in the register spelled by the qubits `ws`, with output
index `k`: `1/√N ∑_j exp(2πi j k / N) v_j`, `N = 2^|ws|`, the other qubits as in `r`. -/
noncomputable def dftAt (n : Nat) (ws : List Nat) (k : Nat) (v : Nat → ℂ) (r : Nat) : ℂ :=
  ((1 / √(2 ^ ws.length) : ℝ) : ℂ) * ∑ c ∈ (range (2 ^ n)).filter (fun c => AgreeOff n ws r c),
    Complex.exp (2 * Real.pi * Complex.I * (subIndex n ws c * k) / 2 ^ ws.length) * v c

/-- Amplitude `k` of the discrete Fourier transform of a vector of length `2^N`. -/
noncomputable def dft (N : Nat) (v : List ℂ) (k : Nat) : ℂ :=
  ((1 / √(2 ^ N) : ℝ) : ℂ) * ∑ j ∈ range (2 ^ N), Complex.exp (2 * Real.pi * Complex.I * (j * k) / 2 ^ N) * v.getD j 0

/-- `k` with its `N` bits in reverse order. -/
def bitRev (N k : Nat) : Nat := bitsVal ((List.range N).map fun i => k.testBit i)

/-- A pure tone of frequency `k` on `2 ^ n` points, normalised. -/
noncomputable def tone (n k : Nat) : List ℂ :=
  (List.range (2 ^ n)).map fun (j : Nat) => Complex.exp (-(2 * Real.pi * Complex.I * (j * k) / 2 ^ n)) / (√(2 ^ n) : ℝ)

end QIP.Spec
