import Mathlib.Analysis.SpecialFunctions.Complex.Circle
import Mathlib.Algebra.BigOperators.NatAntidiagonal

/-!
# What the transforms are supposed to compute

Stated with `Complex.exp` on plain sequences, without the model's helpers.
-/

namespace Mandelbrot.Spec

open Complex Finset

/-- `exp(2πi t)`. -/
noncomputable def turn (t : ℝ) : ℂ := exp (2 * Real.pi * I * t)

/-- Discrete Fourier transform of `z_0, ..., z_{n-1}` at frequency `k`. -/
noncomputable def dft (n : ℕ) (z : ℕ → ℂ) (k : ℕ) : ℂ := ∑ j ∈ range n, z j * turn (-(j * k) / n)

/-- Inverse transform, not divided by `n`. -/
noncomputable def idft (n : ℕ) (y : ℕ → ℂ) (j : ℕ) : ℂ := ∑ k ∈ range n, y k * turn (j * k / n)

/-- Real numbers taken two at a time as complex numbers. -/
def pairs (x : ℕ → ℝ) (j : ℕ) : ℂ := ⟨x (2 * j), x (2 * j + 1)⟩

/-- Real number `i` of a sequence of complex numbers. -/
def flat (z : ℕ → ℂ) (i : ℕ) : ℝ := if i % 2 = 0 then (z (i / 2)).re else (z (i / 2)).im

/-- The spectrum of `2N` real numbers in `N` complex ones: frequencies `1, ..., N-1`, and in cell 0 the two
frequencies `0` and `N`, which are real. -/
noncomputable def halfSpectrum (N : ℕ) (x : ℕ → ℝ) (k : ℕ) : ℂ :=
  if k = 0 then ⟨(dft (2 * N) (fun j => x j) 0).re, (dft (2 * N) (fun j => x j) N).re⟩
  else dft (2 * N) (fun j => x j) k

/-- The whole spectrum belonging to such a half. -/
noncomputable def fullSpectrum (N : ℕ) (y : ℕ → ℂ) (k : ℕ) : ℂ :=
  if k = 0 then (y 0).re else if k < N then y k else if k = N then (y 0).im else (starRingEnd ℂ) (y (2 * N - k))

/-- Value of the polynomial with coefficients `x_0, ..., x_{n-1}`. -/
noncomputable def polyAt (n : ℕ) (x : ℕ → ℝ) (ζ : ℂ) : ℂ := ∑ i ∈ range n, (x i : ℂ) * ζ ^ i

/-- Coefficient `k` of a product. -/
def conv (a b : ℕ → ℝ) (k : ℕ) : ℝ := ∑ p ∈ antidiagonal k, a p.1 * b p.2

end Mandelbrot.Spec
