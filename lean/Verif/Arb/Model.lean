import Verif.Basic
import Mathlib.Data.List.Basic

/-!
# Model of /repo/poly.cc and /repo/poly.h

`poly.cc` works on `arb_poly_t`, the polynomials of the FLINT/Arb library whose coefficients are balls (an interval of real
numbers).  The library is not part of /repo.  It appears here as a record of operations on an arbitrary type `B` of balls;
what the library promises about them is stated apart from the model, in `Verif/Spec/Arb.lean`.

Simplifications, used throughout:

* one fixed precision: the argument `prec` is part of the record of operations;
* a polynomial is the list of its coefficients, so output parameters become results.  Every routine that calls itself with a
  temporary when its output aliases an input returns the same value in both cases, so the aliasing test disappears;
  the two routines that work in place with aliasing (`poly_add_shift_series`, `poly_sub_shift_series`) are modelled on a
  buffer, below;
* exactly zero top coefficients, which Arb sometimes strips, read as zero either way;
* `slong` arithmetic on lengths does not overflow.
-/

namespace Mandelbrot

namespace ArbPoly

/-- The calls into Arb made by /repo/poly.cc and /repo/arb_area.cc, at one precision.  Polynomials are lists of balls. -/
structure Arb (B : Type) where
  /-- `arb_init`, `arb_zero`: the exact zero -/
  zero : B
  /-- the exact one (`arb_poly_set_coeff_si(x, 0, 1)`) -/
  one : B
  /-- `arb_add` -/
  add : B → B → B
  /-- `arb_sub` -/
  sub : B → B → B
  /-- `arb_neg` -/
  neg : B → B
  /-- `arb_mul` -/
  mul : B → B → B
  /-- `arb_sqr` -/
  sqr : B → B
  /-- `arb_mul_si` -/
  mulSi : B → ℤ → B
  /-- `arb_div_si` -/
  divSi : B → ℤ → B
  /-- `arb_addmul_si z x y`: `z + x y` -/
  addmulSi : B → B → ℤ → B
  /-- `arb_mul_2exp_si` -/
  mul2exp : B → ℤ → B
  /-- `arb_log` -/
  log : B → B
  /-- `arb_exp` -/
  exp : B → B
  /-- `arb_const_pi` -/
  pi : B
  /-- `arb_get_mid_arb` -/
  mid : B → B
  /-- `arb_intersection` -/
  inter : B → B → B
  /-- `arb_set_interval_neg_pos_mag(r, r)` for the radius `r` of the ball -/
  radSym : B → B
  /-- `arb_overlaps` -/
  overlaps : B → B → Bool
  /-- `arb_contains_si(x, 0)` -/
  containsZero : B → Bool
  /-- `arb_is_positive` -/
  isPositive : B → Bool
  /-- `arb_equal_si(x, 1)` -/
  isOne : B → Bool
  /-- `arb_poly_add_si` -/
  addSi : List B → ℤ → List B
  /-- `arb_poly_neg` -/
  negP : List B → List B
  /-- `arb_poly_scalar_mul_2exp_si` -/
  scalar2exp : List B → ℤ → List B
  /-- `arb_poly_derivative` -/
  derivative : List B → List B
  /-- `arb_poly_integral` -/
  integral : List B → List B
  /-- `arb_poly_add_series` -/
  addSeries : List B → List B → ℕ → List B
  /-- `arb_poly_sub_series` -/
  subSeries : List B → List B → ℕ → List B
  /-- `arb_poly_mullow` -/
  mullow : List B → List B → ℕ → List B
  /-- `arb_poly_inv_series` -/
  invSeries : List B → ℕ → List B
  /-- `arb_poly_div_series` -/
  divSeries : List B → List B → ℕ → List B
  /-- `arb_poly_exp_series` -/
  expSeries : List B → ℕ → List B
  /-- `arb_poly_log_series` -/
  logSeries : List B → ℕ → List B
  /-- `arb_poly_log1p_series` -/
  log1pSeries : List B → ℕ → List B

variable {B : Type} (A : Arb B)

/-- /repo/poly.cc 17-21 `Poly::operator[]`: coefficients beyond the length read as the exact zero. -/
def get (P : List B) (i : ℕ) : B := P.getD i A.zero

/-- `arb_poly_shift_left` (/repo/poly.h 43): multiplication by `z^s`; the empty polynomial stays empty. -/
def shiftLeft (P : List B) (s : ℕ) : List B :=
  match P with
  | [] => []
  | _ => List.replicate s A.zero ++ P

/-- `arb_poly_shift_right` (/repo/poly.h 44). -/
def shiftRight (P : List B) (s : ℕ) : List B := P.drop s

/-- `arb_poly_truncate`, `arb_poly_set_trunc`. -/
def trunc (P : List B) (n : ℕ) : List B := P.take n

/-- /repo/poly.h 56-58 `safe_poly_set_trunc`. -/
def safeTrunc (P : List B) (n : ℤ) : List B := trunc P (max 0 n).toNat

/-- /repo/poly.cc 41-46 `safe_poly_mullow`. -/
def safeMullow (f g : List B) (n : ℤ) : List B := if n > 0 then A.mullow f g n.toNat else []

/-- /repo/poly.cc 48-51 `Poly::assert_low_zero`. -/
def assertLowZero (P : List B) (n : ℕ) : Res Unit :=
  (List.range n).forM fun i => slowAssert (A.containsZero (get A P i) = true)

/-- /repo/poly.cc 53-59 `overlaps`. -/
def overlapsP (f g : List B) : Bool :=
  (List.range (max f.length g.length)).all fun i => A.overlaps (get A f i) (get A g i)

/-- /repo/poly.cc 72-78 `poly_mid`. -/
def polyMid (f : List B) : List B := f.map A.mid

/-- /repo/poly.cc 80-91 `poly_intersect_sub`: `C = intersection(C, P - Q)`, for an `n` that is not negative and a `C` that
aliases neither operand (as in every call). -/
def intersectSub (C P Q : List B) (n : ℕ) : Res (List B) :=
  (List.range (min (min n C.length) (max P.length Q.length))).mapM fun i => do
    let t := A.sub (get A P i) (get A Q i)
    slowAssert (A.overlaps (get A C i) t = true)
    return A.inter (get A C i) t

/-- /repo/poly.cc 96-126 `poly_inv_refine`.  `skip` is the constant `skip_refine` of line 94 (`false` in the source; `true` is
the ablation mentioned there). -/
def invRefine (skip : Bool) (x : List B) (n : ℤ) : Res (List B) :=
  if n ≤ 0 then return []
  else
    let y := A.invSeries x n.toNat
    if skip then return y
    else do
      let n := min n.toNat y.length
      let y0 := polyMid A y
      let u := A.mullow x y0 n
      let u := A.addSi u (-1)
      let t := A.mullow u y0 n
      let u := A.divSeries y y0 n
      let u := A.mullow u u n
      let dy := A.mullow t u n
      intersectSub A y y0 dy n

/-- /repo/poly.cc 128-156 `poly_div_refine`. -/
def divRefine (skip : Bool) (a b : List B) (n : ℤ) : Res (List B) :=
  if n ≤ 0 then return []
  else if skip then return A.divSeries a b n.toNat
  else do
    let invb ← invRefine A skip b n
    let n := n.toNat
    let y := A.mullow a invb n
    let y0 := polyMid A y
    let dy := A.mullow b y0 n
    let dy := A.subSeries dy a n
    let dy := A.mullow dy invb n
    intersectSub A y y0 dy n

/-- /repo/poly.cc 158-164 `poly_add_arb`. -/
def addArb (f : List B) (a : B) : List B :=
  match f with
  | [] => [a]
  | f0 :: l => A.add f0 a :: l

/-! ### The in-place routines -/

/-- The loop of lines 173-174 and 193-194, `count` more steps from index `i + count - 1` down to `i`:
`h[j] = op(f[j], g[j - s])`, where `rf` and `rg` read `f` and `g` in the current state of the buffer. -/
def shiftLoop (op : B → B → B) (rf rg : (ℕ → B) → ℕ → B) (s : ℕ) : ℕ → (ℕ → B) → ℕ → B
  | 0, buf => buf
  | c + 1, buf => shiftLoop op rf rg s c (Function.update buf (s + c) (op (rf buf (s + c)) (rg buf c)))

/-- The loop of lines 176-177: `h[i] = f[i]` for `i` from `c - 1` down to 0. -/
def copyLoop (rf : (ℕ → B) → ℕ → B) : ℕ → (ℕ → B) → ℕ → B
  | 0, buf => buf
  | c + 1, buf => copyLoop rf c (Function.update buf c (rf buf c))

/-- The loop of lines 180-181: `h[i] = 0` for `i` from `c - 1` down to `lo`. -/
def zeroLoop (z : B) (lo : ℕ) : ℕ → (ℕ → B) → ℕ → B
  | 0, buf => buf
  | c + 1, buf => if lo ≤ c then zeroLoop z lo c (Function.update buf c z) else buf

/-- /repo/poly.cc 166-204 `poly_add_shift_series` and `poly_sub_shift_series` (they differ in `arb_add` and `arb_sub`):
`h = f ± z^s g`.  `hf` and `hg` say whether `h` is the same object as `f` and as `g`; an aliased operand is read from the
buffer of `h`, whose length does not change before the end.  `h` is the old value of the output.  A negative `s` below `n`
makes the loop write before the buffer. -/
def shiftOp (op : B → B → B) (hf hg : Bool) (h f g : List B) (s n : ℤ) : Res (List B) :=
  if n ≤ s then return safeTrunc f n
  else if s < 0 then .error .ub
  else
    let read (al : Bool) (f : List B) (buf : ℕ → B) (i : ℕ) : B :=
      if al then (if i < h.length then buf i else A.zero) else get A f i
    let buf := shiftLoop op (read hf f) (read hg g) s.toNat (n - s).toNat (get A h)
    let buf := if hf then zeroLoop A.zero h.length s.toNat buf else copyLoop (read hf f) s.toNat buf
    return (List.range n.toNat).map buf

/-- /repo/poly.cc 167-184 `poly_add_shift_series`. -/
def addShift (hf hg : Bool) (h f g : List B) (s n : ℤ) : Res (List B) := shiftOp A A.add hf hg h f g s n

/-- /repo/poly.cc 187-204 `poly_sub_shift_series`. -/
def subShift (hf hg : Bool) (h f g : List B) (s n : ℤ) : Res (List B) := shiftOp A A.sub hf hg h f g s n

/-! ### Logarithms and exponentials -/

/-- /repo/poly.cc 206-232 `poly_log_refine`. -/
def logRefine (skip : Bool) (x : List B) (n : ℤ) : Res (List B) :=
  if n ≤ 0 then return []
  else if skip then return A.logSeries x n.toNat
  else do
    let c := get A x 0
    slowAssert (A.isPositive c = true)
    let dx := A.derivative x
    let y ← divRefine A skip dx x (n - 1)
    let y := A.integral y
    if A.isOne c then return y
    else return addArb A y (A.log c)

/-- /repo/poly.cc 234-250 `poly_log1p_refine`. -/
def log1pRefine (skip : Bool) (x : List B) (n : ℤ) : Res (List B) :=
  if n ≤ 0 then return []
  else if skip then return A.log1pSeries x n.toNat
  else do
    slowAssert (A.containsZero (get A x 0) = true)
    logRefine A skip (A.addSi x 1) n

/-- /repo/poly.cc 252-277 `poly_exp_refine`. -/
def expRefine (skip : Bool) (x : List B) (n : ℤ) : Res (List B) :=
  if n ≤ 0 then return []
  else
    let y := A.expSeries x n.toNat
    if skip then return y
    else do
      let y0 := polyMid A y
      let dy ← logRefine A skip y0 n
      let dy := A.subSeries dy x n.toNat
      let dy := A.mullow y dy n.toNat
      intersectSub A y y0 dy n.toNat

/-- /repo/poly.cc 280-305 `poly_log1p_shift_refine`: `z^-s log(1 + z^s x)`. -/
def log1pShift (skip : Bool) (x : List B) (s n : ℤ) : Res (List B) :=
  if n ≤ 0 then return []
  else do
    slowAssert (s ≥ 1)
    let t := A.addSi (trunc (shiftLeft A x s.toNat) n.toNat) 1
    let y := (List.range n.toNat).map fun i => A.mulSi (get A x i) (s + i)
    let y ← divRefine A skip y t n
    return y.mapIdx fun i yi => A.divSi yi (s + i)

/-- /repo/poly.cc 308-312: the sizes of the Newton steps from one term to `m` terms, largest first (`n0` is 1 in both
calls). -/
def newtonSizes (m : ℕ) : List ℕ := if m > 1 then m :: newtonSizes ((m + 1) / 2) else []
termination_by m

/-- /repo/poly.cc 314-320: the steps, smallest size first; every step gets the previous size and its own. -/
def newtonSteps {α : Type} (step : ℕ → ℕ → α → Res α) : ℕ → List ℕ → α → Res α
  | _, [], a => return a
  | m0, m :: ms, a => do
    let a ← step m0 m a
    newtonSteps step m ms a

/-- /repo/poly.cc 308-321 `newton_iterate` with `n0 = 1`. -/
def newtonIterate {α : Type} (n : ℕ) (step : ℕ → ℕ → α → Res α) (a : α) : Res α :=
  newtonSteps step 1 (newtonSizes n).reverse a

/-- /repo/poly.cc 352-365, the lambda `delta` of `poly_expm1_shift_refine`. -/
def expm1Delta (skip : Bool) (x : List B) (a : ℤ) (s : ℤ) (y0 y : List B) (m0 m : ℕ) : Res (List B) := do
  let t ← log1pShift A skip y0 s m
  let t := if a > 0 then A.subSeries t x m else A.addSeries t x m
  assertLowZero A t m0
  let t := shiftRight t m0
  let u := trunc (A.addSi (shiftLeft A y s.toNat) 1) m
  let dy := safeMullow A t u ((m : ℤ) - m0)
  return shiftLeft A dy m0

/-- /repo/poly.cc 346-372: the base case and the Newton iteration of `poly_expm1_shift_refine`. -/
def expm1Newton (skip : Bool) (x : List B) (a s : ℤ) (n : ℕ) : Res (List B) :=
  let y := trunc x 1
  let y := if a < 0 then A.negP y else y
  newtonIterate n (fun m0 m y => do
    let dy ← expm1Delta A skip x a s y y m0 m
    return A.subSeries y dy m) y

/-- /repo/poly.cc 324-381 `poly_expm1_shift_refine`: `z^-s (exp(a z^s x) - 1)`. -/
def expm1Shift (skip : Bool) (x : List B) (a s n : ℤ) : Res (List B) :=
  if n ≤ 0 then return []
  else do
    slowAssert (|a| = 1)
    slowAssert (s ≥ 1)
    let y ← expm1Newton A skip x a s n.toNat
    if skip then return y
    else do
      let y0 := polyMid A y
      let dy ← expm1Delta A skip x a s y0 y 0 n.toNat
      intersectSub A y y0 dy n.toNat

/-- /repo/poly.cc 417-428, the lambda `delta` of `poly_log1p_exp_shift_refine`. -/
def log1pExpDelta (skip : Bool) (x : List B) (s : ℤ) (y : List B) (m0 m : ℕ) : Res (List B) := do
  let dy ← expm1Shift A skip y (-1) s m
  let t := A.subSeries x (shiftLeft A y s.toNat) m
  let e ← expRefine A skip t m
  let dy := A.negP (A.addSeries dy e m)
  assertLowZero A dy m0
  return dy

/-- /repo/poly.cc 405-435: the base case and the Newton iteration of `poly_log1p_exp_shift_refine`.  The test `if (!n)` of
line 406 is dead. -/
def log1pExpNewton (skip : Bool) (x : List B) (s : ℤ) (n : ℕ) : Res (List B) :=
  newtonIterate n (fun m0 m y => do
    let dy ← log1pExpDelta A skip x s y m0 m
    return A.subSeries y dy m) [A.exp (get A x 0)]

/-- /repo/poly.cc 444-450: the polynomial of symmetric intervals `z^s [-r, r]`, `r` the radii of `y`. -/
def radShift (y : List B) (s n : ℕ) : List B :=
  (List.range n).map fun j => if j < s then A.zero else A.radSym (get A y (j - s))

/-- /repo/poly.cc 384-457 `poly_log1p_exp_shift_refine`: `z^-s log(1 + z^s e^x)`. -/
def log1pExpShift (skip : Bool) (x : List B) (s n : ℤ) : Res (List B) :=
  if n ≤ 0 then return []
  else do
    let y ← log1pExpNewton A skip x s n.toNat
    if skip then return y
    else do
      let y0 := polyMid A y
      let dy ← log1pExpDelta A skip x s y0 0 n.toNat
      let e ← expRefine A skip (radShift A y s.toNat n.toNat) n
      let t := safeMullow A e dy n
      intersectSub A y y0 t n.toNat

end ArbPoly

end Mandelbrot
