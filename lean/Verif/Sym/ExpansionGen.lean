import Verif.Sym.SeriesGen

/-!
# Model of `expansion_arithmetic` in /repo/codelets.cc: the generated code for sums, differences and products of expansions

`Verif/Float/Expansion.lean` evaluates the algorithms on numbers.  Here they run on expressions, as in the code, with the `CSE` that
tells expressions apart by their structure, and a `Block` writes lines for the results.
-/

namespace Mandelbrot.Sym

open Sig (Sg)
open Spec

/-- /repo/codelets.cc 193-200 `two_sum`. -/
def twoSumX (C : Cfg) (a b : Ex) : Gen CSt (Ex × Ex) :=
  if a.isZero then pure (b, .int 0)
  else if b.isZero then pure (a, .int 0)
  else do
    let x ← add C a b
    let v ← sub C x a
    let w ← sub C x v
    let p ← sub C a w
    let q ← sub C b v
    let y ← add C p q
    return (x, y)

/-- /repo/codelets.cc 203-207 `two_prod`; `w` is the random signature of /repo/exp.cc 204, which line 140 replaces. -/
def twoProdX (C : Cfg) (w : Sg) (a b : Ex) : Gen CSt (Ex × Ex) := do
  let x ← mul C a b
  let m ← neg C x
  let y ← fun st => .ok (fma C a b m w st)
  return (x, y)

/-- /repo/codelets.cc 222-224: one expression passes through the state and is added to its end. -/
def passX (C : Cfg) : Ex → List Ex → Gen CSt (List Ex)
  | t, [] => pure [t]
  | t, s :: l => do
    let r ← twoSumX C t s
    let q ← passX C r.2 l
    return r.1 :: q

/-- /repo/codelets.cc 220-225: the loop over `rest`. -/
def sumStateX (C : Cfg) : List Ex → List Ex → Gen CSt (List Ex)
  | [], state => pure state
  | t :: rest, state => do
    let state ← passX C t state
    sumStateX C rest state

/-- /repo/codelets.cc 214-218: the two operands alternate. -/
def interleaveX : List Ex → List Ex → List Ex
  | a :: x, b :: y => a :: b :: interleaveX x y
  | _, _ => []

/-- /repo/codelets.cc 211-228 `collange_add`. -/
def collangeAddX (C : Cfg) (x y : List Ex) : Gen CSt (List Ex) := do
  ofRes (slowAssert (x.length = y.length))
  let state ← sumStateX C (interleaveX x y) []
  ofRes (slowAssert (state.length = 2 * x.length))
  return state.take x.length

/-- /repo/exp.cc 154-159 `operator-` of a list. -/
def negX (C : Cfg) : List Ex → Gen CSt (List Ex)
  | [] => pure []
  | x :: l => do
    let y ← neg C x
    let r ← negX C l
    return y :: r

/-- /repo/codelets.cc 231-233 `collange_sub`. -/
def collangeSubX (C : Cfg) (x y : List Ex) : Gen CSt (List Ex) := do
  let y ← negX C y
  collangeAddX C x y

/-- /repo/codelets.cc 252-253, 258-259: one `two_sum` for every place. -/
def addPlacesX (C : Cfg) : List Ex → List Ex → Gen CSt (List Ex × List Ex)
  | s :: l, e :: m => do
    let r ← twoSumX C s e
    let q ← addPlacesX C l m
    return (r.1 :: q.1, r.2 :: q.2)
  | _, _ => pure ([], [])

/-- /repo/codelets.cc 251-256, 257-262: `while (any(e))`; it is an error if it does not end within `fuel` rounds. -/
def drainX (C : Cfg) : ℕ → List Ex → List Ex → Gen CSt (List Ex)
  | 0, s, e => if e.any fun x => !x.isZero then ofRes (.error .ub) else pure s
  | fuel + 1, s, e =>
    if e.any fun x => !x.isZero then do
      let r ← addPlacesX C s e
      drainX C fuel r.1 (.int 0 :: r.2.dropLast)
    else pure s

/-- /repo/codelets.cc 244-248: the loop over `j`; the new `s`, `e` and `ep`. -/
def prodRowX (C : Cfg) (w : Sg) (yi : Ex) : List Ex → List Ex → Gen CSt (List Ex × List Ex × List Ex)
  | s :: l, xj :: x => do
    let p ← twoProdX C w xj yi
    let r ← twoSumX C s p.1
    let q ← prodRowX C w yi l x
    return (r.1 :: q.1, p.2 :: q.2.1, r.2 :: q.2.2)
  | _, _ => pure ([], [], [])

/-- /repo/codelets.cc 242-263: the loop over `i`; the components `pi`. -/
def mulRoundsX (C : Cfg) (w : Sg) (x : List Ex) : List Ex → List Ex → Gen CSt (List Ex)
  | [], _ => pure []
  | yi :: y, s => do
    let r ← prodRowX C w yi s x
    let s ← drainX C x.length (r.1.tail ++ [.int 0]) r.2.1
    let s ← drainX C x.length s r.2.2
    let q ← mulRoundsX C w x y s
    return r.1.headD (.int 0) :: q

/-- /repo/codelets.cc 237-266 `collange_mul`. -/
def collangeMulX (C : Cfg) (w : Sg) (x y : List Ex) : Gen CSt (List Ex) := do
  ofRes (slowAssert (x.length = y.length))
  let r ← mulRoundsX C w x y (List.replicate x.length (.int 0))
  ofRes (slowAssert (x.length = r.length))
  return r

/-- The operator to generate code for. -/
inductive Oper where
  | add
  | sub
  | mul

/-- /repo/codelets.cc 301-303: the three bodies. -/
def Oper.body (C : Cfg) (w : Sg) : Oper → List Ex → List Ex → Gen CSt (List Ex)
  | .add => collangeAddX C
  | .sub => collangeSubX C
  | .mul => collangeMulX C w

/-- /repo/codelets.cc 180-185 `compute` of a list. -/
def computeAll (C : Cfg) : List Ex → Blk → Res (List Ex × Blk)
  | [], B => .ok ([], B)
  | x :: l, B => do
    let r ← compute C x B
    let q ← computeAll C l r.2
    return (r.1 :: q.1, q.2)

/-- /repo/codelets.cc 134-140, 292: the components of an operand, with their random signatures. -/
def operand (n : ℕ) (s : Bool → ℕ → Sg) (second : Bool) : List Ex := (List.range n).map fun j => .var (inName second j) (s second j)

/-- /repo/codelets.cc 290-292: the names that are declared. -/
def operandNames (n : ℕ) : List String := ["x", "y"] ++ ((List.range n).map (inName false) ++ (List.range n).map (inName true))

/-- What is generated for an operator: the lines, the arguments of the constructor in the `return` statement, the expressions they
are for, and the final state of the `CSE`. -/
structure Written where
  code : List Item
  ret : List Ex
  results : List Ex
  cse : CSt

/-- /repo/codelets.cc 283-300: one operator.  The declarations of the components are by structured bindings (lines 293-294); the
parameters `x` and `y` are declared names without a value here. -/
def operatorCode (C : Cfg) (w : Sg) (n : ℕ) (s : Bool → ℕ → Sg) (o : Oper) : Res Written := do
  let B ← runActs C ((operandNames n).map .input) Blk.empty
  let r ← o.body C w (operand n s false) (operand n s true) ⟨false, [], []⟩
  let B ← runActs C (r.1.map .use) B
  let q ← computeAll C r.1 B
  return ⟨q.2.code, q.1, r.1, r.2⟩

end Mandelbrot.Sym
