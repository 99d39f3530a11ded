import Verif.Spec.Series
import Mathlib.Algebra.Ring.Defs

/-!
# What the functions of /repo/area.cc are supposed to compute

Stated on plain coefficient sequences.
-/

namespace Mandelbrot

namespace Spec

variable {K : Type} [Field K]

/-- The Mandelbrot iterates: `M_0 = c`, `M_(i+1) = M_i^2 + c`. -/
def mandel {R : Type} [Semiring R] (c : R) : ℕ → R
  | 0 => c
  | i + 1 => mandel c i * mandel c i + c

/-- `Q_0 = f`, `Q_(i+1) = Q_i^2 + z^(2^(i+1)-1) f`.  This is `z^(2^k)` times the `k`-th Mandelbrot iterate at
`c = f/z` (theorem `C27_mandelbrot`). -/
def mandelQ (f : ℕ → K) : ℕ → ℕ → K
  | 0 => f
  | i + 1 => fun j => prod (mandelQ f i) (mandelQ f i) j + shift (2 ^ (i + 1) - 1) f j

/-- The derivative of `Q_k` when `f` changes by `df`. -/
def dmandelQ (f df : ℕ → K) : ℕ → ℕ → K
  | 0 => df
  | i + 1 => fun j => 2 * prod (mandelQ f i) (dmandelQ f df i) j + shift (2 ^ (i + 1) - 1) df j

/-- `g` is the logarithm of the Böttcher series up to `2^k` terms: `g(0) = 0`, and for `f = exp(g)` the
normalized iterate `Q_k` is `1 + O(z^(2^k))`. -/
def IsBottcher (k : ℕ) (g : ℕ → K) : Prop :=
  g 0 = 0 ∧ ∀ f, IsExp (2 ^ k) g f → ∀ j < 2 ^ k, mandelQ f k j = one j

end Spec

end Mandelbrot
