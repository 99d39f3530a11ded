import Verif.Basic
import Mathlib.Data.Nat.Log
import Mathlib.NumberTheory.Padics.PadicVal.Defs

/-!
# Model of `Series` and of the series functions (/repo/series.h, /repo/series.cc)

A series is a block of storage of `limit` cells together with two counts: `known` (terms known) and
`nonzero` (terms stored; further terms are zero).  Cells at or beyond `nonzero` hold arbitrary values.

Simplifications, valid for the whole file:
* counts are unbounded integers (`int64_t` in the source);
* a view (`SeriesView`) is a value holding a copy of the cells it would refer to; operations with the
  destination among the operands are therefore modelled as reading all operands first.  The storage-level
  file `Verif/Series/Alias.lean` justifies this for the kernels that allow aliasing;
* the test `alias` in the assertions of the non-aliasing functions is not modelled here;
* the arithmetic of the coefficients is an arbitrary interpretation of `0, 1, +, -, *, /, ldexp`.
-/

namespace Mandelbrot

/-- Multiplication by a power of two (`ldexp` of <cmath>, /repo/expansion.h). -/
class Ldexp (K : Type) where
  ldexp : K → ℤ → K

export Ldexp (ldexp)

/-- A `std::span`: a length and the cells.  Cells beyond the length are never legitimately read. -/
structure Span (K : Type) where
  len : ℕ
  get : ℕ → K

/-- A cell of a span, zero beyond its length (the idiom `i < nx ? x[i] : 0` of the source). -/
def Span.getZ {K : Type} [Zero K] (x : Span K) (i : ℕ) : K := if i < x.len then x.get i else 0

/-- /repo/series.h 59-70: storage (`Array<T>` with `size_ = limit` cells) and the two counts. -/
structure Ser (K : Type) where
  limit : ℤ
  known : ℤ
  nonzero : ℤ
  data : ℕ → K

/-- Contents of freshly allocated memory, one arbitrary function for each allocation site. -/
abbrev Junk (K : Type) := List ℕ → ℕ → K

/-- Junk for a nested call. -/
def Junk.sub {K : Type} (J : Junk K) (i : ℕ) : Junk K := fun l => J (i :: l)

namespace Ser

variable {K : Type}

/-- /repo/series.h 77 `Series(int64_t limit)` and /repo/array.h 36-44: `malloc` of `relu(limit)` cells,
contents arbitrary. -/
def new (limit : ℤ) (junk : ℕ → K) : Ser K := ⟨relu limit, 0, 0, junk⟩

/-- /repo/series.h 99-109 `set_scalar`. -/
def setScalar (x : Ser K) (known : ℤ) (a : K) : Res (Ser K) := do
  let known := relu known
  slowAssert (x.limit ≥ if known > 0 then 1 else 0)
  return { x with
    known := known
    nonzero := if known > 0 then 1 else 0
    data := fun i => if known ≠ 0 ∧ i = 0 then a else x.data i }

/-- /repo/series.h 111-122 `operator=`: copies counts and the stored terms. -/
def assign (x g : Ser K) : Res (Ser K) := do
  slowAssert (x.limit ≥ g.nonzero)
  return { x with
    known := g.known
    nonzero := g.nonzero
    data := fun i => if (i : ℤ) < g.nonzero then g.data i else x.data i }

/-- /repo/series.h 167 `set_unknown`. -/
def setUnknown (x : Ser K) : Ser K := { x with known := 0, nonzero := 0 }

/-- /repo/series.h 168-172 `set_counts`, with the conversion to `uint64_t` in the comparison. -/
def setCounts (x : Ser K) (known nonzero : ℤ) : Res (Ser K) := do
  slowAssert (toU64 nonzero ≤ toU64 (min x.limit known))
  return { x with known := known, nonzero := nonzero }

/-- /repo/series.h 173-177 `set_known`. -/
def setKnown (x : Ser K) (known : ℤ) : Res (Ser K) := do
  slowAssert (known ≥ 0)
  return { x with known := known, nonzero := min x.nonzero known }

/-- /repo/series.h 178-180 `reduce_known`. -/
def reduceKnown (x : Ser K) (known : ℤ) : Res (Ser K) :=
  x.setKnown (min x.known (relu known))

/-- /repo/series.h 183-187 `copy(limit)`. -/
def copy (x : Ser K) (limit : ℤ) (junk : ℕ → K) : Res (Ser K) :=
  (new limit junk).assign x

/-- /repo/series.h 190 `span()`. -/
def span (x : Ser K) : Span K := ⟨x.nonzero.toNat, x.data⟩

/-- /repo/series.h 191 `low_span(n)`. -/
def lowSpan (x : Ser K) (n : ℤ) : Span K := ⟨(min (relu n) x.nonzero).toNat, x.data⟩

/-- /repo/series.h 192 `high_span(n)` (for `n ≥ 0`). -/
def highSpan (x : Ser K) (n : ℤ) : Span K := ⟨(relu (x.nonzero - n)).toNat, fun i => x.data (i + n.toNat)⟩

/-- /repo/series.h 195-201 `view()`: same terms, and the limit of a view is its `nonzero` (137). -/
def view (x : Ser K) : Ser K := { x with limit := x.nonzero }

/-- /repo/series.h 204-213 `low(n)`. -/
def low (x : Ser K) (n : ℤ) : Ser K :=
  let nk := min (relu n) x.known
  let nz := min nk x.nonzero
  { limit := nz, known := nk, nonzero := nz, data := x.data }

/-- /repo/series.h 216-226 `high(n)`. -/
def high (x : Ser K) (n : ℤ) : Ser K :=
  let n := relu n
  let nk := relu (x.known - n)
  let nz := relu (x.nonzero - n)
  { limit := nz, known := nk, nonzero := nz, data := fun i => x.data (i + n.toNat) }

/-- A loop `for (i = 0; i < n; i++) y[i] = f(i)` over the storage (/repo/loops.h 38-51). -/
def loopSet (y : Ser K) (n : ℤ) (f : ℕ → K) : Ser K :=
  { y with data := fun i => if (i : ℤ) < n then f i else y.data i }

end Ser

/-- The multiplication kernels and base cases the series functions call.
`mul nz x y` is what `fft_mul` leaves in the destination span of `nz` cells (/repo/fft.cc 436-460),
`addmul nz x y` what `fft_addmul` adds to it (462-477), `sqr` as `fft_sqr` (479-499);
`invBase`, `expBase` are the generated base cases (/repo/codelets.cc 407-457);
`check` is `!codelets && !is_device` (/repo/series.h 502, 533). -/
structure Ker (K : Type) where
  mul : ℕ → Span K → Span K → Res (ℕ → K)
  addmul : ℕ → Span K → Span K → Res (ℕ → K)
  sqr : ℕ → Span K → Res (ℕ → K)
  invBase : Ser K → Ser K → Res (Ser K)
  expBase : Ser K → Ser K → Res (Ser K)
  check : Bool

section Newton

/-- `std::bit_ceil`: the least power of two that is at least `n` (1 for `n = 0`). -/
def bitCeil (n : ℕ) : ℕ := 2 ^ Nat.clog 2 n

/-- `std::countr_zero` of a 64-bit word: number of trailing zero bits, 64 for zero. -/
def countrZero64 (n : ℕ) : ℕ := if n = 0 then 64 else padicValNat 2 n

/-- /repo/series.h 318-321 `newton_steps`. -/
def newtonSteps (n0 n : ℤ) : Res ℕ := do
  slowAssert (0 < n0 ∧ n0 ≤ n)
  return countrZero64 (bitCeil ((n + n0 - 1) / n0).toNat)

/-- /repo/series.h 341-348, the loop of `newton_iterate`; the first argument is `kr + 1`. -/
def newtonLoop {σ : Type} (step : ℤ → ℤ → Bool → σ → Res σ) (n : ℤ) : ℕ → ℤ → σ → Res σ
  | 0, _, s => .ok s
  | kr + 1, n0, s => do
    let k := kr / 2
    let refine := kr % 2 == 0
    let m := (n + 2 ^ k - 1) / 2 ^ k
    let s ← step n0 m refine s
    newtonLoop step n kr (if refine then m else n0) s

/-- /repo/series.h 324-349 `newton_iterate(n0, n, step)`; the state `σ` is what the lambda captures by
reference. -/
def newtonIterate {σ : Type} (step : ℤ → ℤ → Bool → σ → Res σ) (n0 n : ℤ) (s : σ) : Res σ :=
  if n ≤ n0 then .ok s else do
    slowAssert (n0 > 0)
    let k ← newtonSteps n0 n
    newtonLoop step n (2 * k) n0 s

end Newton

namespace Ser

variable {K : Type} [Zero K] [One K] [Add K] [Sub K] [Neg K] [Mul K] [Div K] [IntCast K] [Ldexp K]
  [DecidableEq K]

/-- /repo/series.cc 59-64 `add_scalar`. -/
def addScalar (x : Ser K) (a : K) : Res (Ser K) := do
  slowAssert (x.nonzero ≠ 0)
  return { x with data := fun i => if i = 0 then x.data 0 + a else x.data i }

/-- /repo/series.cc 66-90 `high_addsub_ldexp` and its two loops. -/
def highAddsubLdexp (y : Ser K) (sign : ℤ) (b : ℤ) (s : ℤ) (x : Ser K) : Res (Ser K) := do
  let ynz := y.nonzero
  let xnz := x.nonzero
  let nk := min y.known (x.known + s)
  let nz := min nk (max ynz (if xnz ≠ 0 then xnz + s else 0))
  slowAssert ((sign = 1 ∨ sign = -1) ∧ nz ≤ y.limit)
  let y := y.loopSet nz fun i =>
    let yi := if (i : ℤ) < ynz then y.data i else 0
    let xi := if 0 ≤ (i : ℤ) - s ∧ (i : ℤ) - s < xnz then x.data ((i : ℤ) - s).toNat else 0
    let xi := if b = 0 then xi else ldexp xi b
    let xi := if sign < 0 then -xi else xi
    yi + xi
  y.setCounts nk nz

/-- /repo/series.h 234-239: the named special cases of `high_addsub_ldexp`. -/
def addAssign (y x : Ser K) : Res (Ser K) := y.highAddsubLdexp 1 0 0 x
/-- /repo/series.h 235 `operator-=`. -/
def subAssign (y x : Ser K) : Res (Ser K) := y.highAddsubLdexp (-1) 0 0 x
/-- /repo/series.h 236 `high_add`. -/
def highAdd (y : Ser K) (s : ℤ) (x : Ser K) : Res (Ser K) := y.highAddsubLdexp 1 0 s x
/-- /repo/series.h 237 `high_sub`. -/
def highSub (y : Ser K) (s : ℤ) (x : Ser K) : Res (Ser K) := y.highAddsubLdexp (-1) 0 s x
/-- /repo/series.h 238 `high_add_ldexp`. -/
def highAddLdexp (y : Ser K) (s b : ℤ) (x : Ser K) : Res (Ser K) := y.highAddsubLdexp 1 b s x

/-- /repo/series.h 263-269 `neg`. -/
def neg (y x : Ser K) : Res (Ser K) := do
  let y ← y.setCounts x.known x.nonzero
  return y.loopSet x.nonzero fun i => -x.data i

/-- /repo/series.h 273-279 `mul`. -/
def mul (ker : Ker K) (z x y : Ser K) : Res (Ser K) := do
  let nk := min x.known y.known
  let nz := min nk (relu (x.nonzero + y.nonzero - 1))
  let z ← z.setCounts nk nz
  let r ← ker.mul z.span.len (x.lowSpan nz) (y.lowSpan nz)
  return z.loopSet nz r

/-- /repo/series.h 284-293 `mul1p`, /repo/series.cc 92-97 `mul1p_middle`: the stored terms of `x` are
copied (zero extended) to `z`, then the product is added from position `s` on. -/
def mul1p (ker : Ker K) (z x y : Ser K) (s : ℤ) : Res (Ser K) := do
  slowAssert (s > 0)
  let nk := min x.known (y.known + s)
  let nz := min nk (x.nonzero + y.nonzero + s - 1)
  let z ← z.setCounts nk nz
  let r ← ker.addmul (z.highSpan s).len (x.lowSpan (nz - s)) (y.lowSpan (nz - s))
  let z := z.loopSet nz fun i => if (i : ℤ) < x.nonzero then x.data i else 0
  return z.loopSet nz fun i => if s ≤ (i : ℤ) then z.data i + r ((i : ℤ) - s).toNat else z.data i

/-- /repo/series.h 296-301 `sqr`. -/
def sqr (ker : Ker K) (y x : Ser K) : Res (Ser K) := do
  let nk := x.known
  let nz := min nk (relu (2 * x.nonzero - 1))
  let y ← y.setCounts nk nz
  let r ← ker.sqr y.span.len x.span
  return y.loopSet nz r

/-- /repo/series.h 369-380, the Newton step of `inv`; the state is `(y, dy)`. -/
def invStep (ker : Ker K) (x : Ser K) (m0 m : ℤ) (_refine : Bool) (st : Ser K × Ser K) :
    Res (Ser K × Ser K) := do
  let (y, dy) := st
  let y ← y.setKnown m
  let dy ← mul ker dy x y
  let dy ← dy.addScalar ((-1 : ℤ) : K)
  let dy ← mul ker dy dy y
  let y ← y.highSub m0 (dy.high m0)
  return (y, dy)

/-- /repo/series.h 353-381 `inv`. -/
def inv (ker : Ker K) (J : Junk K) (y x : Ser K) : Res (Ser K) := do
  let n := x.known
  if n = 0 then return y.setUnknown
  slowAssert (x.nonzero ≠ 0)
  let y ← ker.invBase y x
  let dy := Ser.new n (J [0])
  let st ← newtonIterate (invStep ker x) y.known n (y, dy)
  return st.1

/-- /repo/series.h 407-418, the Newton step of `inv1p`. -/
def inv1pStep (ker : Ker K) (x : Ser K) (s : ℤ) (m0 m : ℤ) (_refine : Bool) (st : Ser K × Ser K) :
    Res (Ser K × Ser K) := do
  let (y, dy) := st
  let y ← y.setKnown m
  let dy ← mul1p ker dy x y s
  let dy ← dy.addAssign y
  let dy ← mul1p ker dy dy y s
  let y ← y.highSub m0 (dy.high m0)
  return (y, dy)

/-- /repo/series.h 384-419 `inv1p`. -/
def inv1p (ker : Ker K) (J : Junk K) (y x : Ser K) (s : ℤ) : Res (Ser K) := do
  let n := x.known
  if n = 0 then return y.setUnknown
  slowAssert (s > 0)
  let y ← neg y (x.low s)
  let dy := Ser.new n (J [0])
  let st ← newtonIterate (inv1pStep ker x s) y.known n (y, dy)
  return st.1

/-- /repo/series.h 422-446 `div`. -/
def div (ker : Ker K) (J : Junk K) (y a b : Ser K) : Res (Ser K) := do
  let n := min a.known b.known
  let inv_b := Ser.new n (J [0])
  let inv_b ← inv ker (J.sub 1) inv_b (b.low n)
  let y ← mul ker y a inv_b
  let dy := Ser.new n (J [2])
  let dy ← mul ker dy b y
  let dy ← dy.subAssign a
  let dy ← mul ker dy dy inv_b
  y.subAssign dy

/-- /repo/series.h 449-474 `div1p`. -/
def div1p (ker : Ker K) (J : Junk K) (y a b : Ser K) (s : ℤ) : Res (Ser K) := do
  slowAssert (s > 0)
  let n := min a.known (b.known + s)
  let inv_b := Ser.new (n - s) (J [0])
  let inv_b ← inv1p ker (J.sub 1) inv_b (b.low (n - s)) s
  let y ← mul1p ker y a inv_b s
  let dy := Ser.new n (J [2])
  let dy ← mul1p ker dy y b s
  let dy ← dy.subAssign a
  let dy ← mul1p ker dy dy inv_b s
  y.subAssign dy

/-- /repo/series.h 478-484 `derivative_shift`. -/
def derivativeShift (y x : Ser K) (s : ℤ) : Res (Ser K) := do
  let y ← y.setCounts x.known x.nonzero
  return y.loopSet x.nonzero fun i => ((s + (i : ℤ) : ℤ) : K) * x.data i

/-- /repo/series.h 488-494 `integral_shift`. -/
def integralShift (y x : Ser K) (s : ℤ) : Res (Ser K) := do
  let y ← y.setCounts x.known x.nonzero
  return y.loopSet x.nonzero fun i =>
    if s + (i : ℤ) ≠ 0 then x.data i / ((s + (i : ℤ) : ℤ) : K) else 0

/-- /repo/series.h 497-509 `log`. -/
def log (ker : Ker K) (J : Junk K) (y x : Ser K) : Res (Ser K) := do
  let n := x.known
  if n = 0 then return y.setUnknown
  slowAssert (x.nonzero ≠ 0)
  if ker.check then slowAssert (x.data 0 = 1)
  let dx := Ser.new n (J [0])
  let dx ← derivativeShift dx x 0
  let y ← div ker (J.sub 1) y dx x
  integralShift y y 0

/-- /repo/series.h 512-523 `log1p`. -/
def log1p (ker : Ker K) (J : Junk K) (y x : Ser K) (s : ℤ) : Res (Ser K) := do
  let n := x.known
  if n = 0 then return y.setUnknown
  slowAssert (s > 0)
  let dx := Ser.new n (J [0])
  let dx ← derivativeShift dx x s
  let y ← div1p ker (J.sub 1) y dx x s
  integralShift y y s

/-- /repo/series.h 543-554, the Newton step of `exp`. -/
def expStep (ker : Ker K) (J : Junk K) (x : Ser K) (m0 m : ℤ) (_refine : Bool)
    (st : Ser K × Ser K) : Res (Ser K × Ser K) := do
  let (y, dy) := st
  let y ← y.setKnown m
  let dy ← log ker J dy y
  let dy ← dy.subAssign x
  let dy ← mul ker dy y dy
  let y ← y.highSub m0 (dy.high m0)
  return (y, dy)

/-- /repo/series.h 527-555 `exp`. -/
def exp (ker : Ker K) (J : Junk K) (y x : Ser K) : Res (Ser K) := do
  let n := x.known
  if n = 0 then return y.setUnknown
  if ker.check then slowAssert (x.nonzero = 0 ∨ x.data 0 = 0)
  let y ← ker.expBase y x
  let dy := Ser.new n (J [0])
  let st ← newtonIterate (expStep ker (J.sub 1) x) y.known n (y, dy)
  return st.1

/-- /repo/series.h 584-596, the Newton step of `expm1`. -/
def expm1Step (ker : Ker K) (J : Junk K) (x : Ser K) (a : ℤ) (s : ℤ) (m0 m : ℤ) (_refine : Bool)
    (st : Ser K × Ser K) : Res (Ser K × Ser K) := do
  let (y, dy) := st
  let y ← y.setKnown m
  let dy ← log1p ker J dy y s
  let dy ← if a > 0 then dy.subAssign x else dy.addAssign x
  let dy ← mul1p ker dy dy y s
  let y ← y.highSub m0 (dy.high m0)
  return (y, dy)

/-- /repo/series.h 558-597 `expm1`. -/
def expm1 (ker : Ker K) (J : Junk K) (y x : Ser K) (a : ℤ) (s : ℤ) : Res (Ser K) := do
  slowAssert ((a = 1 ∨ a = -1) ∧ s > 0)
  let n := x.known
  let y ← if a > 0 then y.assign (x.low s) else neg y (x.low s)
  let dy := Ser.new n (J [0])
  let st ← newtonIterate (expm1Step ker (J.sub 1) x a s) y.known n (y, dy)
  return st.1

/-- /repo/series.h 624-636, the Newton step of `log1p_exp`; the state is `(y, ndy, t)`. -/
def log1pExpStep (ker : Ker K) (J : Junk K) (x : Ser K) (s : ℤ) (m0 m : ℤ) (_refine : Bool)
    (st : Ser K × Ser K × Ser K) : Res (Ser K × Ser K × Ser K) := do
  let (y, ndy, t) := st
  let y ← y.setKnown m
  let t ← t.assign (x.low m)
  let t ← t.highSub s y
  let ndy ← exp ker (J.sub 0) ndy t
  let t ← expm1 ker (J.sub 1) t y (-1) s
  let ndy ← ndy.addAssign t
  let y ← y.highAdd m0 (ndy.high m0)
  return (y, ndy, t)

/-- /repo/series.h 600-637 `log1p_exp`. -/
def log1pExp (ker : Ker K) (J : Junk K) (y x : Ser K) (s : ℤ) : Res (Ser K) := do
  let n := x.known
  if n = 0 then return y.setUnknown
  slowAssert (s > 0)
  let y ← exp ker (J.sub 0) y (x.low s)
  let ndy := Ser.new n (J [1])
  let t := Ser.new n (J [2])
  let st ← newtonIterate (log1pExpStep ker (J.sub 3) x s) y.known n (y, ndy, t)
  return st.1

/-- /repo/series.h 640-646 `ldexp`. -/
def ldexpSer (y x : Ser K) (k : ℤ) : Res (Ser K) := do
  let y ← y.setCounts x.known x.nonzero
  return y.loopSet x.nonzero fun i => ldexp (x.data i) k

end Ser

end Mandelbrot
