import Verif.Sym.MulBase
import Verif.Series.Model

/-!
# Model of `series_bases` in /repo/codelets.cc: the generated base cases of `inv` and `exp`

The generator runs the series functions of /repo/series.h on expressions.  Here they are written once for any arithmetic with a
state, so that they run both on expressions, where the state is the active `CSE`, and on numbers, where there is none.  The loops
are run on the storage in their order: a product into one of its operands reads what the loop has already written there.

Simplifications: views are values that hold the cells they refer to, except in the products, where it is said which operand is the
destination; the tests for aliasing in the assertions are left out, none of them fails; counts are unbounded.
-/

namespace Mandelbrot.Sym

open Sig (Sg)
open Spec

/-- A computation with a state that may fail. -/
abbrev Gen (S : Type) := StateT S (Except Err)

/-- A result without use of the state. -/
def ofRes {S α : Type} (r : Res α) : Gen S α := fun st => r.map fun a => (a, st)

/-- The operations of a coefficient type: /repo/exp.h 103-113 for expressions. -/
structure Arith (S E : Type) where
  int : ℤ → E
  neg : E → Gen S E
  add : E → E → Gen S E
  mul : E → E → Gen S E
  div : E → ℤ → Gen S E
  sum : List E → Gen S E
  inv : E → Gen S E

/-- The operations on expressions, /repo/exp.cc 148-214. -/
def exArith (C : Cfg) : Arith CSt Ex where
  int := .int
  neg := neg C
  add := add C
  mul := mul C
  div := div C
  sum := sum C
  inv := inv C

section
variable {S E : Type} (A : Arith S E)

/-- A loop `for (i...) y[i] = f(i)` over storage, where `f` reads the storage as it is then. -/
def loopG (f : (ℕ → E) → ℕ → Gen S E) : ℕ → ℕ → (ℕ → E) → Gen S (ℕ → E)
  | _, 0, d => pure d
  | i, n + 1, d => do
    let v ← f d i
    loopG f (i + 1) n (Function.update d i v)

/-- /repo/codelets.cc 397-400: the products, from left to right. -/
def prodsG : List (E × E) → Gen S (List E)
  | [] => pure []
  | p :: l => do
    let t ← A.mul p.1 p.2
    let ts ← prodsG l
    return t :: ts

/-- /repo/codelets.cc 397-401: one coefficient of the product. -/
def coefG (nx ny : ℕ) (x y : ℕ → E) (i : ℕ) : Gen S E := do
  let ts ← prodsG A (((List.range (i + 1)).filter fun j => j < nx ∧ i - j < ny).map fun j => (x j, y (i - j)))
  A.sum ts

/-- Which operand of a product is the destination. -/
inductive Al where
  | none
  | left
  | right
deriving DecidableEq

/-- /repo/codelets.cc 393-404: the `fft_mul` of the generator. -/
def fftMulG (al : Al) (nz nx ny : ℕ) (x y z : ℕ → E) : Gen S (ℕ → E) :=
  loopG (fun d i => coefG A nx ny (if al = .left then d else x) (if al = .right then d else y) i) 0 nz z

/-- /repo/series.h 273-279 `mul`. -/
def mulG (al : Al) (z x y : Ser E) : Gen S (Ser E) := do
  let nk := min x.known y.known
  let nz := min nk (relu (x.nonzero + y.nonzero - 1))
  let z ← ofRes (z.setCounts nk nz)
  let d ← fftMulG A al z.span.len (x.lowSpan nz).len (y.lowSpan nz).len x.data y.data z.data
  return { z with data := d }

/-- /repo/codelets.cc 372-375 `add_scalar`. -/
def addScalarG (x : Ser E) (a : E) : Gen S (Ser E) := do
  ofRes (slowAssert (x.nonzero ≠ 0))
  let v ← A.add (x.data 0) a
  return { x with data := Function.update x.data 0 v }

/-- /repo/codelets.cc 380-392 `high_addsub_ldexp`, for `b = 0`; `ldexp` (376-379) then does nothing.  `x_` is a copy of `x`. -/
def highAddsubG (y : Ser E) (sign : ℤ) (s : ℤ) (x : Ser E) : Gen S (Ser E) := do
  let ynz := y.nonzero
  let xnz := x.nonzero
  let nk := min y.known (x.known + s)
  let nz := min nk (max ynz (if xnz ≠ 0 then xnz + s else 0))
  ofRes (slowAssert ((sign = 1 ∨ sign = -1) ∧ nz ≤ y.limit))
  let y ← ofRes (y.setCounts nk nz)
  let d ← loopG (fun d i => do
    let yi := if (i : ℤ) < ynz then d i else A.int 0
    let xi := if 0 ≤ (i : ℤ) - s ∧ (i : ℤ) - s < xnz then x.data ((i : ℤ) - s).toNat else A.int 0
    let xi ← if sign < 0 then A.neg xi else pure xi
    A.add yi xi) 0 nz.toNat y.data
  return { y with data := d }

/-- A new series: /repo/array.h 42 `new T[size_]` and /repo/exp.h 40, all cells are the expression zero. -/
def newG (n : ℤ) : Ser E := Ser.new n fun _ => A.int 0

/-- /repo/series.h 324-349 `newton_iterate`. -/
def newtonG {σ : Type} (step : ℤ → ℤ → Bool → σ → Gen S σ) (n0 n : ℤ) (s : σ) : Gen S σ := fun st =>
  newtonIterate (fun m0 m r p => step m0 m r p.1 p.2) n0 n (s, st)

/-- /repo/series.h 304-312, 352: the base case of `inv` in the generator, one term. -/
def invBaseG (y x : Ser E) : Gen S (Ser E) := do
  let y ← ofRes (y.setCounts 1 1)
  let x0 := if x.nonzero ≠ 0 then x.data 0 else A.int 0
  let v ← A.inv x0
  return { y with data := Function.update y.data 0 v }

/-- /repo/series.h 304-312, 526: the base case of `exp` in the generator, one term. -/
def expBaseG (y : Ser E) : Gen S (Ser E) := do
  let y ← ofRes (y.setCounts 1 1)
  return { y with data := Function.update y.data 0 (A.int 1) }

/-- /repo/series.h 369-380: the Newton step of `inv`; the second product is into its left operand. -/
def invStepG (x : Ser E) (m0 m : ℤ) (_refine : Bool) (p : Ser E × Ser E) : Gen S (Ser E × Ser E) := do
  let (y, dy) := p
  let y ← ofRes (y.setKnown m)
  let dy ← mulG A .none dy x y
  let dy ← addScalarG A dy (A.int (-1))
  let dy ← mulG A .left dy dy y
  let y ← highAddsubG A y (-1) m0 (dy.high m0)
  return (y, dy)

/-- /repo/series.h 353-381 `inv`. -/
def invG (y x : Ser E) : Gen S (Ser E) := do
  let n := x.known
  if n = 0 then return y.setUnknown
  ofRes (slowAssert (x.nonzero ≠ 0))
  let y ← invBaseG A y x
  let p ← newtonG (invStepG A x) y.known n (y, newG A n)
  return p.1

/-- /repo/series.h 422-446 `div`; the third product is into its left operand. -/
def divG (y a b : Ser E) : Gen S (Ser E) := do
  let n := min a.known b.known
  let inv_b ← invG A (newG A n) (b.low n)
  let y ← mulG A .none y a inv_b
  let dy ← mulG A .none (newG A n) b y
  let dy ← highAddsubG A dy (-1) 0 a
  let dy ← mulG A .left dy dy inv_b
  highAddsubG A y (-1) 0 dy

/-- /repo/series.h 478-484 `derivative_shift`, with `s = 0`. -/
def derivativeG (y x : Ser E) : Gen S (Ser E) := do
  let y ← ofRes (y.setCounts x.known x.nonzero)
  let d ← loopG (fun _ i => A.mul (A.int (0 + i)) (x.data i)) 0 x.nonzero.toNat y.data
  return { y with data := d }

/-- /repo/series.h 488-494 `integral_shift`, with `s = 0`, of a series into itself. -/
def integralG (y : Ser E) : Gen S (Ser E) := do
  let y ← ofRes (y.setCounts y.known y.nonzero)
  let d ← loopG (fun d i => if 0 + (i : ℤ) ≠ 0 then A.div (d i) (0 + i) else pure (A.int 0)) 0 y.nonzero.toNat y.data
  return { y with data := d }

/-- /repo/series.h 497-509 `log`; the generator does not check the constant term. -/
def logG (y x : Ser E) : Gen S (Ser E) := do
  let n := x.known
  if n = 0 then return y.setUnknown
  ofRes (slowAssert (x.nonzero ≠ 0))
  let dx ← derivativeG A (newG A n) x
  let y ← divG A y dx x
  integralG A y

/-- /repo/series.h 543-554: the Newton step of `exp`; the product is into its right operand. -/
def expStepG (x : Ser E) (m0 m : ℤ) (_refine : Bool) (p : Ser E × Ser E) : Gen S (Ser E × Ser E) := do
  let (y, dy) := p
  let y ← ofRes (y.setKnown m)
  let dy ← logG A dy y
  let dy ← highAddsubG A dy (-1) 0 x
  let dy ← mulG A .right dy y dy
  let y ← highAddsubG A y (-1) m0 (dy.high m0)
  return (y, dy)

/-- /repo/series.h 527-555 `exp`; the generator does not check the constant term. -/
def expG (y x : Ser E) : Gen S (Ser E) := do
  let n := x.known
  if n = 0 then return y.setUnknown
  let y ← expBaseG A y
  let p ← newtonG (expStepG A x) y.known n (y, newG A n)
  return p.1

/-- /repo/codelets.cc 449-455: the body of `inv_base`. -/
def invBodyG (y x : Ser E) : Gen S (Ser E) := do
  let i0 ← A.inv (x.data 0)
  let r ← ofRes ((newG A 5).setScalar 5 i0)
  let rx ← mulG A .none (newG A 5) r x
  let inv_rx ← invG A (newG A 5) rx.view
  mulG A .none y r inv_rx

end

/-! ## The generated function -/

/-- A line of the generated function. -/
inductive SLine where
  /-- /repo/codelets.cc 429: `const auto v = i < nx ? x[i] : S(0);` -/
  | load (v : String) (i : ℕ)
  /-- /repo/codelets.cc 146: `const auto v = e;` -/
  | temp (v : String) (e : Ex)
  /-- /repo/codelets.cc 437: `y[i] = e;` -/
  | store (i : ℕ) (e : Ex)
  /-- /repo/codelets.cc 440: `if (ny == i) return;` -/
  | exit (i : ℕ)

/-- /repo/codelets.cc 415: the arguments of the generated function, with pointers as addresses. -/
structure SArgs where
  y : ℕ
  ny : ℤ
  x : ℕ
  nx : ℤ

/-- Runs lines; `env` are the values of the local names. -/
def execS {R : Type} [CommRing R] (ρ : Interp R) (a : SArgs) : List SLine → (String → R) → (ℕ → R) → (ℕ → R)
  | [], _, mem => mem
  | .load v i :: l, env, mem => execS ρ a l (Function.update env v (if (i : ℤ) < a.nx then mem (a.x + i) else 0)) mem
  | .temp v e :: l, env, mem => execS ρ a l (Function.update env v (e.val (withVar ρ env))) mem
  | .store i e :: l, env, mem => execS ρ a l env (Function.update mem (a.y + i) (e.val (withVar ρ env)))
  | .exit i :: l, env, mem => if a.ny = i then mem else execS ρ a l env mem

/-- /repo/codelets.cc 418-419, 426: the names of the arguments and of the terms. -/
def serNames : List String := ["y", "ny", "x", "nx"] ++ (List.range 5).map (inName false)

/-- The lines for what a block wrote: the arguments and the leading terms have no line; each term is computed twice and stored the
second time (/repo/codelets.cc 436-437), with a return before the next one. -/
def toSLines (leading : ℕ) : ℕ → ℕ → List Item → List SLine
  | _, _, [] => []
  | d, k, .decl v :: l => (if 4 + leading ≤ d then [SLine.load v (d - 4)] else []) ++ toSLines leading (d + 1) k l
  | d, k, .def v e :: l => .temp v e :: toSLines leading d k l
  | d, k, .out e :: l =>
    (if k % 2 = 1 then .store (k / 2) e :: (if k / 2 + 1 < 5 then [SLine.exit (k / 2 + 1)] else []) else []) ++
      toSLines leading d (k + 1) l

/-- /repo/codelets.cc 418-443: what the block is asked to do. -/
def serActs (ts : List Ex) : List Act :=
  serNames.map .input ++ ts.map .use ++ ts.flatMap fun t => [.out t, .out t]

/-- /repo/codelets.cc 420-430: the argument, with random signatures `s`; the leading terms are zero, and here also what
is beyond the allocated cells. -/
def serArg {E : Type} (leading : ℕ) (zero : E) (x : ℕ → E) : Ser E := ⟨5, 5, 5, fun i => if leading ≤ i ∧ i < 5 then x i else zero⟩

/-- /repo/codelets.cc 412-443: the generated `*_base_serial`; also the expressions and the table.  The block does not change the
table, so that its inputs are declared here when the expressions are known. -/
def serBaseCode (C : Cfg) (leading : ℕ) (set : Ser Ex → Ser Ex → Gen CSt (Ser Ex)) (s : ℕ → Sg) : Res (List SLine × List Ex × CSt) :=
  match set (newG (exArith C) 5) (serArg leading (.int 0) fun i => .var (inName false i) (s i)) ⟨true, [], []⟩ with
  | .error e => .error e
  | .ok (y, st) =>
    let ts := (List.range 5).map y.data
    match runActs C (serActs ts) Blk.empty with
    | .error e => .error e
    | .ok B => .ok (toSLines leading 0 0 B.code, ts, st)

/-- /repo/codelets.cc 449-455. -/
def invBaseCode (C : Cfg) : (ℕ → Sg) → Res (List SLine × List Ex × CSt) := serBaseCode C 0 (invBodyG (exArith C))

/-- /repo/codelets.cc 456. -/
def expBaseCode (C : Cfg) : (ℕ → Sg) → Res (List SLine × List Ex × CSt) := serBaseCode C 1 (expG (exArith C))

end Mandelbrot.Sym
