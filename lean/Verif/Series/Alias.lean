import Verif.Series.History

/-!
# Series in memory: storage blocks, views as pointers, and functions run in place

The functions of `Verif/Series/Model.lean` are repeated here over a memory.  A series owns a block of cells, a view is a
pointer into a block, every loop reads the memory as it is at that moment, and every access is checked against the size of
the block.  `alias` and the assertions that use it are included.

Simplifications:
* an address is a block and an offset in it, and the number of a block is never used again after the block is freed;
  `Spec.Placed` and `C57_alias_addresses` relate this to the comparison of addresses the source makes;
* freeing a block is not modelled;
* the multiplication kernels read their operands completely before they store (`Verif/FFT/Mem.lean` proves this of
  `fft_mul`, `fft_addmul` and `fft_sqr`), and likewise the generated base cases (`Verif/Props/Codelets.lean`), which are only
  called when the operand does not overlap the destination;
* forming a pointer outside a block is not an error, only an access through it is: `z.high_span(s)` of
  /repo/series.h 291 forms `data() + s` also if the block is shorter than `s`.
-/

namespace Mandelbrot.Heap

/-- The memory: blocks `0, ..., next - 1` have been allocated, with their sizes and cells. -/
structure Mem (K : Type) where
  next : ℕ
  size : ℕ → ℕ
  cell : ℕ → ℕ → K

/-- /repo/series.h 59-70, /repo/array.h 21-33: a series that owns storage. -/
structure Obj where
  block : ℕ
  limit : ℤ
  known : ℤ
  nonzero : ℤ

/-- /repo/series.h 46, 59-70: a view, `std::span` and counts.  `null` says that the pointer is null, in which case `block` and
`off` mean nothing. -/
structure View where
  block : ℕ
  off : ℕ
  null : Bool
  known : ℤ
  nonzero : ℤ

variable {K : Type}

/-- What a series holds. -/
def Obj.ser (m : Mem K) (o : Obj) : Ser K := ⟨o.limit, o.known, o.nonzero, m.cell o.block⟩

/-- What a view shows. -/
def View.ser (m : Mem K) (v : View) : Ser K := ⟨v.nonzero, v.known, v.nonzero, fun i => m.cell v.block (v.off + i)⟩

/-- /repo/series.h 77 `Series(limit)`, /repo/array.h 36-44: a new block with arbitrary contents. -/
def alloc (m : Mem K) (limit : ℤ) (junk : ℕ → K) : Mem K × Obj :=
  ({ next := m.next + 1
     size := Function.update m.size m.next (relu limit).toNat
     cell := Function.update m.cell m.next junk },
   ⟨m.next, relu limit, 0, 0⟩)

/-- /repo/series.h 195-201 `view()`.  A series without storage has a null pointer (/repo/array.h 36-44). -/
def Obj.view (o : Obj) : View := ⟨o.block, 0, o.limit == 0, o.known, o.nonzero⟩

/-- /repo/series.h 204-213 `low(n)`, of a view; a series converts to its view. -/
def View.low (v : View) (n : ℤ) : View :=
  let nk := min (relu n) v.known
  let nz := min nk v.nonzero
  ⟨v.block, v.off, v.null || nz == 0, nk, nz⟩

/-- /repo/series.h 216-226 `high(n)`. -/
def View.high (v : View) (n : ℤ) : View :=
  let n := relu n
  let nk := relu (v.known - n)
  let nz := relu (v.nonzero - n)
  ⟨v.block, v.off + n.toNat, v.null || nz == 0, nk, nz⟩

/-- /repo/series.h 140-143 `alias`: the pointer of the view lies in the storage of the series. -/
def Obj.alias (o : Obj) (v : View) : Bool := !v.null && v.block == o.block && (v.off : ℤ) < o.limit

/-- Reading a cell. -/
def rd (m : Mem K) (b i : ℕ) : Res K := if i < m.size b then .ok (m.cell b i) else .error .ub

/-- Writing a cell. -/
def wr (m : Mem K) (b i : ℕ) (a : K) : Res (Mem K) :=
  if i < m.size b then .ok { m with cell := Function.update m.cell b (Function.update (m.cell b) i a) } else .error .ub

/-- Reading through a view: a null pointer must not be followed. -/
def View.rd (m : Mem K) (v : View) (i : ℕ) : Res K := if v.null then .error .ub else Heap.rd m v.block (v.off + i)

/-- The first `n` cells of a view as operand of a kernel. -/
def View.span (m : Mem K) (v : View) (n : ℕ) : Res (Span K) :=
  if n = 0 ∨ (v.null = false ∧ v.off + n ≤ m.size v.block) then .ok ⟨n, fun i => m.cell v.block (v.off + i)⟩
  else .error .ub

/-- The order in which the iterations of a loop of `n` take place (/repo/loops.h 24-51): on the host in order, on a device in
any order. -/
structure Sched (K : Type) where
  order : Mem K → ℕ → List ℕ
  perm : ∀ m n, (order m n).Perm (List.range n)

/-- The order on the host. -/
def Sched.host : Sched K := ⟨fun _ n => List.range n, fun _ _ => List.Perm.refl _⟩

/-- /repo/loops.h 38-51: a loop `for (i = 0; i < n; i++) y[base + i] = body(i)` into block `b`; the body reads the memory as it is. -/
def loop (sch : Sched K) (m : Mem K) (b base : ℕ) (n : ℤ) (body : Mem K → ℕ → Res K) : Res (Mem K) :=
  (sch.order m n.toNat).foldlM (fun m i => do
    let a ← body m i
    wr m b (base + i) a) m

/-- /repo/series.h 99-109 `set_scalar`. -/
def setScalar (m : Mem K) (y : Obj) (known : ℤ) (a : K) : Res (Mem K × Obj) := do
  let known := relu known
  slowAssert (y.limit ≥ if known > 0 then 1 else 0)
  let m ← (if known ≠ 0 then wr m y.block 0 a else pure m)
  return (m, { y with known := known, nonzero := if known > 0 then 1 else 0 })

/-- /repo/series.h 111-122 `operator=` and /repo/cutil.h 91-99.  `std::copy` must not be called with the destination inside
the source; it may be called with the destination in front of the source. -/
def assign (m : Mem K) (y : Obj) (x : View) : Res (Mem K × Obj) := do
  slowAssert (y.limit ≥ x.nonzero)
  if x.nonzero ≠ 0 ∧ x.null = false ∧ x.block = y.block ∧ x.off = 0 then .error .ub
  else do
    let m ← loop Sched.host m y.block 0 x.nonzero fun m i => x.rd m i
    return (m, { y with known := x.known, nonzero := x.nonzero })

/-- /repo/series.h 79-86: construction from a list of coefficients. -/
def ofList (m : Mem K) (limit : ℤ) (junk : ℕ → K) (cs : List K) : Res (Mem K × Obj) := do
  let (m, x) := alloc m limit junk
  slowAssert ((cs.length : ℤ) ≤ x.limit)
  let m ← loop Sched.host m x.block 0 cs.length fun m i => pure (cs.getD i (m.cell x.block i))
  return (m, { x with known := cs.length, nonzero := cs.length })

/-- /repo/series.h 167 `set_unknown`. -/
def Obj.setUnknown (y : Obj) : Obj := { y with known := 0, nonzero := 0 }

/-- /repo/series.h 168-172 `set_counts`. -/
def Obj.setCounts (y : Obj) (known nonzero : ℤ) : Res Obj := do
  slowAssert (toU64 nonzero ≤ toU64 (min y.limit known))
  return { y with known := known, nonzero := nonzero }

/-- /repo/series.h 173-177 `set_known`. -/
def Obj.setKnown (y : Obj) (known : ℤ) : Res Obj := do
  slowAssert (known ≥ 0)
  return { y with known := known, nonzero := min y.nonzero known }

/-- /repo/series.h 178-180 `reduce_known`. -/
def Obj.reduceKnown (y : Obj) (known : ℤ) : Res Obj := y.setKnown (min y.known (relu known))

variable [Zero K] [One K] [Add K] [Sub K] [Neg K] [Mul K] [Div K] [IntCast K] [Ldexp K] [DecidableEq K]

/-- /repo/series.cc 59-64 `add_scalar`. -/
def addScalar (m : Mem K) (x : Obj) (a : K) : Res (Mem K × Obj) := do
  slowAssert (x.nonzero ≠ 0)
  let c ← rd m x.block 0
  let m ← wr m x.block 0 (c + a)
  return (m, x)

/-- /repo/series.cc 66-94 `high_addsub_ldexp` and its two loops. -/
def addsub (sch : Sched K) (m : Mem K) (y : Obj) (sign b s : ℤ) (x : View) : Res (Mem K × Obj) := do
  let ynz := y.nonzero
  let xnz := x.nonzero
  let nk := min y.known (x.known + s)
  let nz := min nk (max ynz (if xnz ≠ 0 then xnz + s else 0))
  slowAssert ((sign = 1 ∨ sign = -1) ∧ y.alias x = false ∧ nz ≤ y.limit)
  let m ← loop sch m y.block 0 nz fun m i => do
    let yi ← (if (i : ℤ) < ynz then rd m y.block i else pure 0)
    let xi ← (if 0 ≤ (i : ℤ) - s ∧ (i : ℤ) - s < xnz then x.rd m ((i : ℤ) - s).toNat else pure 0)
    let xi := if b = 0 then xi else ldexp xi b
    let xi := if sign < 0 then -xi else xi
    return yi + xi
  let y ← y.setCounts nk nz
  return (m, y)

/-- The elementwise functions: set the counts of `y` to those of `x`, then `y[i] = f(i, x[i])`. -/
def cwise (sch : Sched K) (m : Mem K) (y : Obj) (x : View) (f : ℕ → K → K) : Res (Mem K × Obj) := do
  let y ← y.setCounts x.known x.nonzero
  let m ← loop sch m y.block 0 x.nonzero fun m i => do
    let a ← x.rd m i
    return f i a
  return (m, y)

/-- /repo/series.h 263-269 `neg`. -/
def neg (sch : Sched K) (m : Mem K) (y : Obj) (x : View) : Res (Mem K × Obj) := cwise sch m y x fun _ a => -a

/-- /repo/series.h 478-484 `derivative_shift`. -/
def derivativeShift (sch : Sched K) (m : Mem K) (y : Obj) (x : View) (s : ℤ) : Res (Mem K × Obj) :=
  cwise sch m y x fun i a => ((s + (i : ℤ) : ℤ) : K) * a

/-- /repo/series.h 488-494 `integral_shift`.  (`x[i]` is read also where the result is zero.) -/
def integralShift (sch : Sched K) (m : Mem K) (y : Obj) (x : View) (s : ℤ) : Res (Mem K × Obj) :=
  cwise sch m y x fun i a => if s + (i : ℤ) ≠ 0 then a / ((s + (i : ℤ) : ℤ) : K) else 0

/-- /repo/series.h 640-646 `ldexp`. -/
def ldexpSer (sch : Sched K) (m : Mem K) (y : Obj) (x : View) (k : ℤ) : Res (Mem K × Obj) :=
  cwise sch m y x fun _ a => ldexp a k

/-- /repo/series.h 273-279 `mul`, with /repo/fft.cc 436-460. -/
def mul (sch : Sched K) (ker : Ker K) (m : Mem K) (z : Obj) (x y : View) : Res (Mem K × Obj) := do
  let nk := min x.known y.known
  let nz := min nk (relu (x.nonzero + y.nonzero - 1))
  let z ← z.setCounts nk nz
  let xs ← x.span m (min (relu nz) x.nonzero).toNat
  let ys ← y.span m (min (relu nz) y.nonzero).toNat
  let r ← ker.mul z.nonzero.toNat xs ys
  let m ← loop sch m z.block 0 nz fun _ i => pure (r i)
  return (m, z)

/-- /repo/series.h 284-293 `mul1p`, /repo/fft.cc 462-477, /repo/series.cc 92-97 `mul1p_middle`: the product is computed, then
`x` is copied to `z`, then the product is added. -/
def mul1p (sch : Sched K) (ker : Ker K) (m : Mem K) (z : Obj) (x y : View) (s : ℤ) : Res (Mem K × Obj) := do
  slowAssert (s > 0)
  let nk := min x.known (y.known + s)
  let nz := min nk (x.nonzero + y.nonzero + s - 1)
  let z ← z.setCounts nk nz
  let xs ← x.span m (min (relu (nz - s)) x.nonzero).toNat
  let ys ← y.span m (min (relu (nz - s)) y.nonzero).toNat
  let r ← ker.addmul (relu (z.nonzero - s)).toNat xs ys
  let m ← loop sch m z.block 0 z.nonzero fun m i => if (i : ℤ) < x.nonzero then x.rd m i else pure 0
  let m ← loop sch m z.block s.toNat (relu (z.nonzero - s)) fun m i => do
    let c ← rd m z.block (s.toNat + i)
    return c + r i
  return (m, z)

/-- /repo/series.h 296-301 `sqr`, with /repo/fft.cc 479-499. -/
def sqr (sch : Sched K) (ker : Ker K) (m : Mem K) (y : Obj) (x : View) : Res (Mem K × Obj) := do
  let nk := x.known
  let nz := min nk (relu (2 * x.nonzero - 1))
  let y ← y.setCounts nk nz
  let xs ← x.span m x.nonzero.toNat
  let r ← ker.sqr y.nonzero.toNat xs
  let m ← loop sch m y.block 0 nz fun _ i => pure (r i)
  return (m, y)

/-- A generated base case (/repo/codelets.cc 407-457): the terms are computed and stored in `y`. -/
def base (sch : Sched K) (f : Ser K → Ser K → Res (Ser K)) (m : Mem K) (y : Obj) (x : View) : Res (Mem K × Obj) := do
  let r ← f (y.ser m) (x.ser m)
  let m ← loop sch m y.block 0 r.nonzero fun _ i => pure (r.data i)
  return (m, { y with known := r.known, nonzero := r.nonzero })

/-- /repo/series.h 369-380, the Newton step of `inv`. -/
def invStep (sch : Sched K) (ker : Ker K) (x : View) (m0 n : ℤ) (_refine : Bool) (st : Mem K × Obj × Obj) :
    Res (Mem K × Obj × Obj) := do
  let (m, y, dy) := st
  let y ← y.setKnown n
  let (m, dy) ← mul sch ker m dy x y.view
  let (m, dy) ← addScalar m dy ((-1 : ℤ) : K)
  let (m, dy) ← mul sch ker m dy dy.view y.view
  let (m, y) ← addsub sch m y (-1) 0 m0 (dy.view.high m0)
  return (m, y, dy)

/-- /repo/series.h 353-381 `inv`. -/
def inv (sch : Sched K) (ker : Ker K) (J : Junk K) (m : Mem K) (y : Obj) (x : View) : Res (Mem K × Obj) := do
  let n := x.known
  if n = 0 then return (m, y.setUnknown)
  slowAssert (y.alias x = false ∧ x.nonzero ≠ 0)
  let (m, y) ← base sch ker.invBase m y x
  let (m, dy) := alloc m n (J [0])
  let st ← newtonIterate (invStep sch ker x) y.known n (m, y, dy)
  return (st.1, st.2.1)

/-- /repo/series.h 407-418, the Newton step of `inv1p`. -/
def inv1pStep (sch : Sched K) (ker : Ker K) (x : View) (s : ℤ) (m0 n : ℤ) (_refine : Bool) (st : Mem K × Obj × Obj) :
    Res (Mem K × Obj × Obj) := do
  let (m, y, dy) := st
  let y ← y.setKnown n
  let (m, dy) ← mul1p sch ker m dy x y.view s
  let (m, dy) ← addsub sch m dy 1 0 0 y.view
  let (m, dy) ← mul1p sch ker m dy dy.view y.view s
  let (m, y) ← addsub sch m y (-1) 0 m0 (dy.view.high m0)
  return (m, y, dy)

/-- /repo/series.h 384-419 `inv1p`. -/
def inv1p (sch : Sched K) (ker : Ker K) (J : Junk K) (m : Mem K) (y : Obj) (x : View) (s : ℤ) : Res (Mem K × Obj) := do
  let n := x.known
  if n = 0 then return (m, y.setUnknown)
  slowAssert (y.alias x = false ∧ s > 0)
  let (m, y) ← neg sch m y (x.low s)
  let (m, dy) := alloc m n (J [0])
  let st ← newtonIterate (inv1pStep sch ker x s) y.known n (m, y, dy)
  return (st.1, st.2.1)

/-- /repo/series.h 422-446 `div`. -/
def div (sch : Sched K) (ker : Ker K) (J : Junk K) (m : Mem K) (y : Obj) (a b : View) : Res (Mem K × Obj) := do
  slowAssert (y.alias a = false ∧ y.alias b = false)
  let n := min a.known b.known
  let (m, inv_b) := alloc m n (J [0])
  let (m, inv_b) ← inv sch ker (J.sub 1) m inv_b (b.low n)
  let (m, y) ← mul sch ker m y a inv_b.view
  let (m, dy) := alloc m n (J [2])
  let (m, dy) ← mul sch ker m dy b y.view
  let (m, dy) ← addsub sch m dy (-1) 0 0 a
  let (m, dy) ← mul sch ker m dy dy.view inv_b.view
  addsub sch m y (-1) 0 0 dy.view

/-- /repo/series.h 449-474 `div1p`. -/
def div1p (sch : Sched K) (ker : Ker K) (J : Junk K) (m : Mem K) (y : Obj) (a b : View) (s : ℤ) : Res (Mem K × Obj) := do
  slowAssert (y.alias a = false ∧ y.alias b = false ∧ s > 0)
  let n := min a.known (b.known + s)
  let (m, inv_b) := alloc m (n - s) (J [0])
  let (m, inv_b) ← inv1p sch ker (J.sub 1) m inv_b (b.low (n - s)) s
  let (m, y) ← mul1p sch ker m y a inv_b.view s
  let (m, dy) := alloc m n (J [2])
  let (m, dy) ← mul1p sch ker m dy y.view b s
  let (m, dy) ← addsub sch m dy (-1) 0 0 a
  let (m, dy) ← mul1p sch ker m dy dy.view inv_b.view s
  addsub sch m y (-1) 0 0 dy.view

/-- /repo/series.h 497-509 `log`. -/
def log (sch : Sched K) (ker : Ker K) (J : Junk K) (m : Mem K) (y : Obj) (x : View) : Res (Mem K × Obj) := do
  let n := x.known
  if n = 0 then return (m, y.setUnknown)
  slowAssert (y.alias x = false ∧ x.nonzero ≠ 0)
  if ker.check then
    let c ← x.rd m 0
    slowAssert (c = 1)
  let (m, dx) := alloc m n (J [0])
  let (m, dx) ← derivativeShift sch m dx x 0
  let (m, y) ← div sch ker (J.sub 1) m y dx.view x
  integralShift sch m y y.view 0

/-- /repo/series.h 512-523 `log1p`. -/
def log1p (sch : Sched K) (ker : Ker K) (J : Junk K) (m : Mem K) (y : Obj) (x : View) (s : ℤ) : Res (Mem K × Obj) := do
  let n := x.known
  if n = 0 then return (m, y.setUnknown)
  slowAssert (y.alias x = false ∧ s > 0)
  let (m, dx) := alloc m n (J [0])
  let (m, dx) ← derivativeShift sch m dx x s
  let (m, y) ← div1p sch ker (J.sub 1) m y dx.view x s
  integralShift sch m y y.view s

/-- /repo/series.h 543-554, the Newton step of `exp`. -/
def expStep (sch : Sched K) (ker : Ker K) (J : Junk K) (x : View) (m0 n : ℤ) (_refine : Bool) (st : Mem K × Obj × Obj) :
    Res (Mem K × Obj × Obj) := do
  let (m, y, dy) := st
  let y ← y.setKnown n
  let (m, dy) ← log sch ker J m dy y.view
  let (m, dy) ← addsub sch m dy (-1) 0 0 x
  let (m, dy) ← mul sch ker m dy y.view dy.view
  let (m, y) ← addsub sch m y (-1) 0 m0 (dy.view.high m0)
  return (m, y, dy)

/-- /repo/series.h 527-555 `exp`. -/
def exp (sch : Sched K) (ker : Ker K) (J : Junk K) (m : Mem K) (y : Obj) (x : View) : Res (Mem K × Obj) := do
  let n := x.known
  if n = 0 then return (m, y.setUnknown)
  slowAssert (y.alias x = false)
  if ker.check then
    if x.nonzero ≠ 0 then
      let c ← x.rd m 0
      slowAssert (c = 0)
  let (m, y) ← base sch ker.expBase m y x
  let (m, dy) := alloc m n (J [0])
  let st ← newtonIterate (expStep sch ker (J.sub 1) x) y.known n (m, y, dy)
  return (st.1, st.2.1)

/-- /repo/series.h 584-596, the Newton step of `expm1`. -/
def expm1Step (sch : Sched K) (ker : Ker K) (J : Junk K) (x : View) (a s : ℤ) (m0 n : ℤ) (_refine : Bool)
    (st : Mem K × Obj × Obj) : Res (Mem K × Obj × Obj) := do
  let (m, y, dy) := st
  let y ← y.setKnown n
  let (m, dy) ← log1p sch ker J m dy y.view s
  let (m, dy) ← (if a > 0 then addsub sch m dy (-1) 0 0 x else addsub sch m dy 1 0 0 x)
  let (m, dy) ← mul1p sch ker m dy dy.view y.view s
  let (m, y) ← addsub sch m y (-1) 0 m0 (dy.view.high m0)
  return (m, y, dy)

/-- /repo/series.h 558-597 `expm1`. -/
def expm1 (sch : Sched K) (ker : Ker K) (J : Junk K) (m : Mem K) (y : Obj) (x : View) (a s : ℤ) : Res (Mem K × Obj) := do
  slowAssert (y.alias x = false ∧ (a = 1 ∨ a = -1) ∧ s > 0)
  let n := x.known
  let (m, y) ← (if a > 0 then assign m y (x.low s) else neg sch m y (x.low s))
  let (m, dy) := alloc m n (J [0])
  let st ← newtonIterate (expm1Step sch ker (J.sub 1) x a s) y.known n (m, y, dy)
  return (st.1, st.2.1)

/-- /repo/series.h 624-636, the Newton step of `log1p_exp`. -/
def log1pExpStep (sch : Sched K) (ker : Ker K) (J : Junk K) (x : View) (s : ℤ) (m0 n : ℤ) (_refine : Bool)
    (st : Mem K × Obj × Obj × Obj) : Res (Mem K × Obj × Obj × Obj) := do
  let (m, y, ndy, t) := st
  let y ← y.setKnown n
  let (m, t) ← assign m t (x.low n)
  let (m, t) ← addsub sch m t (-1) 0 s y.view
  let (m, ndy) ← exp sch ker (J.sub 0) m ndy t.view
  let (m, t) ← expm1 sch ker (J.sub 1) m t y.view (-1) s
  let (m, ndy) ← addsub sch m ndy 1 0 0 t.view
  let (m, y) ← addsub sch m y 1 0 m0 (ndy.view.high m0)
  return (m, y, ndy, t)

/-- /repo/series.h 600-637 `log1p_exp`. -/
def log1pExp (sch : Sched K) (ker : Ker K) (J : Junk K) (m : Mem K) (y : Obj) (x : View) (s : ℤ) : Res (Mem K × Obj) := do
  let n := x.known
  if n = 0 then return (m, y.setUnknown)
  slowAssert (y.alias x = false ∧ s > 0)
  let (m, y) ← exp sch ker (J.sub 0) m y (x.low s)
  let (m, ndy) := alloc m n (J [1])
  let (m, t) := alloc m n (J [2])
  let st ← newtonIterate (log1pExpStep sch ker (J.sub 3) x s) y.known n (m, y, ndy, t)
  return (st.1, st.2.1)

end Mandelbrot.Heap
