import Verif.Arb.Model
import Mathlib.RingTheory.PowerSeries.Exp
import Mathlib.RingTheory.PowerSeries.Log
import Mathlib.RingTheory.PowerSeries.Inverse
import Mathlib.RingTheory.PowerSeries.Derivative
import Mathlib.Analysis.SpecialFunctions.Log.Basic
import Mathlib.Analysis.Real.Pi.Bounds

/-!
# Enclosures of real power series

What it means for a polynomial of balls to enclose a real power series, the exact functions the routines of /repo/poly.cc are
supposed to enclose, and what is assumed of the Arb library.
-/

namespace Mandelbrot

open PowerSeries

namespace Spec

/-- `exp F` for a real power series: `e^(F(0)) exp(F - F(0))`. -/
noncomputable def rexp (F : ℝ⟦X⟧) : ℝ⟦X⟧ :=
  C (Real.exp (constantCoeff F)) * (PowerSeries.exp ℝ).subst (F - C (constantCoeff F))

/-- `log F` for a real power series with a positive constant term: `log F(0) + log(F / F(0))`. -/
noncomputable def rlog (F : ℝ⟦X⟧) : ℝ⟦X⟧ :=
  C (Real.log (constantCoeff F)) + PowerSeries.logOf (C (constantCoeff F)⁻¹ * F)

/-- `mem x b` is `x ∈ b`.  The first `n` balls of `P` contain the first `n` coefficients of `F`; balls beyond the end of `P`
are the ball `z`. -/
def Encloses {B : Type} (mem : ℝ → B → Prop) (z : B) (n : ℕ) (P : List B) (F : ℝ⟦X⟧) : Prop :=
  ∀ i < n, mem (coeff i F) (P.getD i z)

/-- What is assumed of the Arb library: the documented enclosure property of every operation, for every choice of elements of
the operands, plus the facts about midpoints, tests and exact zeros that /repo/poly.cc relies on.  An aliased product such
as `mullow(u, u, u)` is assumed to enclose the products of *different* elements of `u` too: the error bound
`2|m|r + r^2` that Arb uses for the square of a ball with midpoint `m` and radius `r` covers them. -/
structure ArbSound {B : Type} (A : ArbPoly.Arb B) (mem : ℝ → B → Prop) : Prop where
  /-- the exact zero -/
  zero : ∀ x, mem x A.zero ↔ x = 0
  one : mem 1 A.one
  add : ∀ {x y b c}, mem x b → mem y c → mem (x + y) (A.add b c)
  sub : ∀ {x y b c}, mem x b → mem y c → mem (x - y) (A.sub b c)
  neg : ∀ {x b}, mem x b → mem (-x) (A.neg b)
  mul : ∀ {x y b c}, mem x b → mem y c → mem (x * y) (A.mul b c)
  sqr : ∀ {x b}, mem x b → mem (x ^ 2) (A.sqr b)
  mulSi : ∀ {x b} (k : ℤ), mem x b → mem (x * k) (A.mulSi b k)
  divSi : ∀ {x b} (k : ℤ), k ≠ 0 → mem x b → mem (x / k) (A.divSi b k)
  addmulSi : ∀ {x y b c} (k : ℤ), mem x b → mem y c → mem (x + y * k) (A.addmulSi b c k)
  mul2exp : ∀ {x b} (k : ℤ), mem x b → mem (x * 2 ^ k) (A.mul2exp b k)
  log : ∀ {x b}, 0 < x → mem x b → mem (Real.log x) (A.log b)
  exp : ∀ {x b}, mem x b → mem (Real.exp x) (A.exp b)
  pi : mem Real.pi A.pi
  /-- the midpoint is a point of the ball, and no point is further from it than the radius -/
  mid : ∀ {x b}, mem x b → ∃ m, mem m b ∧ mem m (A.mid b) ∧
    ∀ y, mem y b → mem (y - m) (A.radSym b) ∧ mem (m - y) (A.radSym b)
  inter : ∀ {x b c}, mem x b → mem x c → mem x (A.inter b c)
  overlaps : ∀ {x b c}, mem x b → mem x c → A.overlaps b c = true
  containsZero : ∀ {b}, mem 0 b → A.containsZero b = true
  isPositive : ∀ {x b}, A.isPositive b = true → mem x b → 0 < x
  isOne : ∀ {x b}, A.isOne b = true → mem x b → x = 1
  addSi : ∀ {n P F} (k : ℤ), Encloses mem A.zero n P F → Encloses mem A.zero n (A.addSi P k) (F + C (k : ℝ))
  negP : ∀ {n P F}, Encloses mem A.zero n P F → Encloses mem A.zero n (A.negP P) (-F)
  negP_length : ∀ P, (A.negP P).length ≤ P.length
  scalar2exp : ∀ {n P F} (k : ℤ), Encloses mem A.zero n P F →
    Encloses mem A.zero n (A.scalar2exp P k) (C ((2 : ℝ) ^ k) * F)
  derivative : ∀ {n P F}, Encloses mem A.zero (n + 1) P F → Encloses mem A.zero n (A.derivative P) (d⁄dX ℝ F)
  /-- the integral without constant term -/
  integral : ∀ {n P F}, constantCoeff F = 0 → Encloses mem A.zero n P (d⁄dX ℝ F) →
    Encloses mem A.zero (n + 1) (A.integral P) F
  addSeries : ∀ {n P Q F G}, Encloses mem A.zero n P F → Encloses mem A.zero n Q G →
    Encloses mem A.zero n (A.addSeries P Q n) (F + G)
  subSeries : ∀ {n P Q F G}, Encloses mem A.zero n P F → Encloses mem A.zero n Q G →
    Encloses mem A.zero n (A.subSeries P Q n) (F - G)
  /-- no coefficients from `n` on -/
  subSeries_length : ∀ P Q n, (A.subSeries P Q n).length ≤ n
  mullow : ∀ {n P Q F G}, Encloses mem A.zero n P F → Encloses mem A.zero n Q G →
    Encloses mem A.zero n (A.mullow P Q n) (F * G)
  invSeries : ∀ {n P F}, constantCoeff F ≠ 0 → Encloses mem A.zero n P F →
    Encloses mem A.zero n (A.invSeries P n) F⁻¹
  /-- the midpoint of a reciprocal is not zero -/
  invSeries_mid : ∀ {n P F}, 0 < n → constantCoeff F ≠ 0 → Encloses mem A.zero n P F →
    ∃ m, m ≠ 0 ∧ mem m ((A.invSeries P n).getD 0 A.zero) ∧ mem m (A.mid ((A.invSeries P n).getD 0 A.zero))
  divSeries : ∀ {n P Q F G}, constantCoeff G ≠ 0 → Encloses mem A.zero n P F → Encloses mem A.zero n Q G →
    Encloses mem A.zero n (A.divSeries P Q n) (F * G⁻¹)
  expSeries : ∀ {n P F}, Encloses mem A.zero n P F → Encloses mem A.zero n (A.expSeries P n) (rexp F)
  /-- no coefficients from `n` on -/
  expSeries_length : ∀ P n, (A.expSeries P n).length ≤ n
  logSeries : ∀ {n P F}, 0 < constantCoeff F → Encloses mem A.zero n P F →
    Encloses mem A.zero n (A.logSeries P n) (rlog F)
  log1pSeries : ∀ {n P F}, 0 < constantCoeff (1 + F) → Encloses mem A.zero n P F →
    Encloses mem A.zero n (A.log1pSeries P n) (rlog (1 + F))

/-- Balls are intervals. -/
def Intervals {B : Type} (mem : ℝ → B → Prop) : Prop := ∀ x y z b, mem x b → mem z b → x ≤ y → y ≤ z → mem y b

end Spec

end Mandelbrot
