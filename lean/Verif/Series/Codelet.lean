import Verif.Series.Model

/-!
# Model of the generated base cases of `inv` and `exp`

`codelets` runs the series functions on symbolic expressions with a one-term base case and naive
multiplication, and prints the resulting five-term straight-line programs.  The model evaluates these
programs directly in the coefficient type.  That the printed program computes the value of the symbolic
expression is the subject of `Verif/Sym`.
-/

namespace Mandelbrot

variable {K : Type} [Zero K] [One K] [Add K] [Sub K] [Neg K] [Mul K] [Div K] [IntCast K] [Ldexp K]
  [DecidableEq K]

/-- /repo/exp.cc 207-212 `sum`: balanced summation. -/
def treeSum : List K → K
  | [] => 0
  | [x] => x
  | x :: y :: l =>
    treeSum ((x :: y :: l).take ((x :: y :: l).length / 2)) +
      treeSum ((x :: y :: l).drop ((x :: y :: l).length / 2))
  termination_by l => l.length
  decreasing_by all_goals simp +arith; try omega

/-- /repo/codelets.cc 393-404: the `fft_mul` of the code generator, one coefficient. -/
def naiveCoeff (x y : Span K) (i : ℕ) : K :=
  treeSum (((List.range (i + 1)).filter fun j => j < x.len ∧ i - j < y.len).map
    fun j => x.get j * y.get (i - j))

/-- /repo/codelets.cc 393-404: naive multiplication, no assertion on the sizes. -/
def naiveMul (_nz : ℕ) (x y : Span K) : Res (ℕ → K) := .ok (naiveCoeff x y)

/-- /repo/series.h 304-312 `SERIES_BASE` in the code generator: one term from the constant term. -/
def oneTermBase (f : K → K) (y x : Ser K) : Res (Ser K) := do
  let y ← y.setCounts 1 1
  let x0 := if x.nonzero ≠ 0 then x.data 0 else 0
  return y.loopSet 1 fun _ => f x0

/-- The kernels of the code generator: naive products, one-term base cases (/repo/series.h 352, 526),
no checks of constant terms (`codelets` is true, /repo/series.h 502, 533). -/
def codeletKer : Ker K where
  mul := naiveMul
  addmul := naiveMul
  sqr := fun nz x => naiveMul nz x x
  invBase := oneTermBase fun x0 => 1 / x0
  expBase := oneTermBase fun _ => 1
  check := false

/-- /repo/codelets.cc 412-448: the generated `*_base`: run `set` on five zero-extended terms of `x`
(the first `leading` replaced by zero), keep `min(5, x.known())` terms.  `J` is uninitialised memory. -/
def serialBase (leading : ℕ) (set : Junk K → Ser K → Ser K → Res (Ser K)) (J : Junk K) (y x : Ser K) :
    Res (Ser K) := do
  let n : ℤ := 5
  let ny := min n x.known
  let y ← y.setCounts ny ny
  if ny ≠ 0 then
    let xs : Ser K := ⟨n, n, n, fun i =>
      if i < leading then 0 else if (i : ℤ) < x.nonzero then x.data i else 0⟩
    let ys ← set (J.sub 1) (Ser.new n (J [0])) xs.view
    return y.loopSet ny ys.data
  else
    return y

/-- /repo/codelets.cc 449-455: the body generating `inv_base`; the series is normalized first. -/
def invBaseBody (J : Junk K) (y x : Ser K) : Res (Ser K) := do
  let r ← (Ser.new 5 (J [0])).setScalar 5 (1 / x.data 0)
  let rx ← Ser.mul codeletKer (Ser.new 5 (J [1])) r x
  let inv_rx ← Ser.inv codeletKer (J.sub 2) (Ser.new 5 (J [3])) rx
  Ser.mul codeletKer y r inv_rx

/-- The generated `inv_base`. -/
def invBase (J : Junk K) : Ser K → Ser K → Res (Ser K) := serialBase 0 invBaseBody J

/-- /repo/codelets.cc 456: the generated `exp_base`. -/
def expBase (J : Junk K) : Ser K → Ser K → Res (Ser K) := serialBase 1 (Ser.exp codeletKer) J

/-- Kernels on the host with the generated base cases and the given multiplication functions
(`fft_mul`, `fft_addmul`, `fft_sqr`). -/
def hostKer (J : Junk K) (mul addmul : ℕ → Span K → Span K → Res (ℕ → K))
    (sqr : ℕ → Span K → Res (ℕ → K)) : Ker K where
  mul := mul
  addmul := addmul
  sqr := sqr
  invBase := invBase (J.sub 0)
  expBase := expBase (J.sub 1)
  check := true

end Mandelbrot
