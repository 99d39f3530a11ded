import Verif.Loops.Model
import Mathlib.Analysis.Real.Pi.Bounds

/-!
# Model of `area` (/repo/area.cc 71-91)
-/

namespace Mandelbrot

namespace Area

/-- The operations of ball arithmetic that `area` uses; the first argument of a rounded operation is the
precision.  `A` is the type of balls (`Arb`). -/
structure ArbOps (A : Type) where
  /-- the value of a default-constructed `Arb` -/
  zero : A
  add : ℕ → A → A → A
  sqr : ℕ → A → A
  mulSi : ℕ → A → ℤ → A
  pi : ℕ → A
  mul : ℕ → A → A → A

/-- What the library promises: `mem x a` (the real `x` is in the ball `a`) is preserved. -/
structure ArbOps.Encloses {A : Type} (ops : ArbOps A) (mem : ℝ → A → Prop) : Prop where
  zero : mem 0 ops.zero
  add : ∀ p x y a b, mem x a → mem y b → mem (x + y) (ops.add p a b)
  sqr : ∀ p x a, mem x a → mem (x ^ 2) (ops.sqr p a)
  mulSi : ∀ p x a (n : ℤ), mem x a → mem (x * n) (ops.mulSi p a n)
  pi : ∀ p, mem Real.pi (ops.pi p)
  mul : ∀ p x y a b, mem x a → mem y b → mem (x * y) (ops.mul p a b)

/-- /repo/area.cc 79-84, the function `map`: `f i` is the ball `exact_arb(f[i])`. -/
def areaMap {A : Type} (ops : ArbOps A) (prec : ℕ) (f : ℤ → A) (i : ℤ) : A :=
  let t := f i
  let t := ops.sqr prec t
  ops.mulSi prec t (1 - i)

/-- /repo/area.cc 73-90, the function given to `nearest`, at one precision: the possible results, one for
each interleaving of the threads that `map_reduce` runs. -/
def AreaAt {A : Type} (ops : ArbOps A) (prec : ℕ) (threads : ℕ) (f : ℤ → A) (nonzero : ℤ) (r : A) : Prop :=
  ∃ s : MRState A,
    MRState.Steps (ops.add prec) (areaMap ops prec f) nonzero threads MRState.init (.ok s) ∧
    (∀ t < threads, s.pc t = .done) ∧
    r = ops.mul prec (s.finish (ops.add prec) ops.zero) (ops.pi prec)

/-- Exact real arithmetic. -/
noncomputable def realOps : ArbOps ℝ where
  zero := 0
  add _ x y := x + y
  sqr _ x := x ^ 2
  mulSi _ x n := x * n
  pi _ := Real.pi
  mul _ x y := x * y

end Area

end Mandelbrot
