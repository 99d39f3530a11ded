import Verif.FFT.Model
import Mathlib.Analysis.SpecialFunctions.Exp
import Mathlib.Algebra.Order.Round

/-!
# Model of /repo/logo.cc

Simplifications: arithmetic on doubles is arithmetic on real numbers; conversions from double to `int` and the sizes of arrays are checked
and undefined outside the range of `int`; an access outside an array is undefined; colours are kept with the canvas although the methods
are `const` (they write through a pointer).  The random numbers are an arbitrary sequence.  The library that writes PNG files is left
out: a picture is the list of rows of bytes handed to it.
-/

namespace Mandelbrot.Logo

/-- /repo/logo.cc 15 `Color`: three components and the opacity. -/
structure Color where
  rgb : Fin 3 → ℝ
  a : ℝ

/-- /repo/logo.cc 16 `clear`. -/
def clear : Color := ⟨fun _ => 0, 0⟩

/-- /repo/logo.cc 18-23 `Box`. -/
structure Box where
  lo : ℂ
  hi : ℂ

/-- /repo/logo.cc 26-36 `over`. -/
noncomputable def overlay (x y : Color) : Color :=
  let sa := x.a
  let sb := (1 - sa) * y.a
  let s := sa + sb
  let inv := if s ≠ 0 then 1 / s else 0
  ⟨fun i => inv * (sa * x.rgb i + sb * y.rgb i), s⟩

/-- /repo/logo.cc 38-51 `average`. -/
noncomputable def average (cs : List Color) : Color :=
  let sum := cs.foldl (fun (sum : Color) c => ⟨fun i => sum.rgb i + c.rgb i * c.a, sum.a + c.a⟩) ⟨fun _ => 0, 0⟩
  let scale := if sum.a ≠ 0 then 1 / sum.a else 0
  ⟨fun i => scale * sum.rgb i, sum.a / cs.length⟩

/-- /repo/logo.cc 53-58 `Canvas`; `lo` is `box.lo`, and `inv_dx` is `1 / dx`. -/
structure Canvas where
  lo : ℂ
  dx : ℝ
  width : ℤ
  height : ℤ
  samples : ℤ
  points : ℕ → ℂ
  colors : ℕ → Color

/-- Conversion of a double with an integer value to `int`, or the result of an operation on `int`. -/
def int (n : ℤ) : Res ℤ := if -2 ^ 31 ≤ n ∧ n < 2 ^ 31 then .ok n else .error .ub

/-- The integers from `a` to `b`, without `b`. -/
def upto (a b : ℤ) : List ℤ := (List.range (b - a).toNat).map fun k : ℕ => a + (k : ℤ)

/-- The triples visited by the loops of /repo/logo.cc 80-82 and 107-109, in order. -/
def cells (i0 i1 j0 j1 samples : ℤ) : List (ℤ × ℤ × ℤ) :=
  (upto i0 i1).flatMap fun i => (upto j0 j1).flatMap fun j => (upto 0 samples).map fun s => (i, j, s)

/-- /repo/logo.cc 95-97 `index`, used as an index of an array of `width * height * samples` cells. -/
def Canvas.index (c : Canvas) (i j s : ℤ) : Res ℕ :=
  let n := (i * c.height + j) * c.samples + s
  if 0 ≤ n ∧ n < c.width * c.height * c.samples then .ok n.toNat else .error .ub

/-- /repo/logo.cc 60-93, the constructor; `u` are the values of `uniform(mt)`.  The arrays come from `malloc` (/repo/array.h 36-44), as
complex numbers and colours are trivially destructible, so they hold what the memory held: `junkP` and `junkC`. -/
noncomputable def make (b : Box) (size samples : ℤ) (u : ℕ → ℝ) (junkP : ℕ → ℂ) (junkC : ℕ → Color) : Res Canvas := do
  let center := (1 / 2 : ℝ) • (b.lo + b.hi)
  let shape := b.hi - b.lo
  let dx := min shape.re shape.im / size
  let width ← int ⌈1 / dx * shape.re⌉
  let height ← int ⌈1 / dx * shape.im⌉
  let h := (1 / 2 * dx) • (⟨width, height⟩ : ℂ)
  let _ ← int (width * height)
  let _ ← int (width * height * samples)
  let c : Canvas := ⟨center - h, dx, width, height, samples, junkP, junkC⟩
  let st ← (cells 0 width 0 height samples).foldlM (fun (st : (ℕ → ℂ) × ℕ) (t : ℤ × ℤ × ℤ) => do
    let lo := c.lo + dx • (⟨t.1, t.2.1⟩ : ℂ)
    let n ← c.index t.1 t.2.1 t.2.2
    .ok (Function.update st.1 n ⟨lo.re + dx * u st.2, lo.im + dx * u (st.2 + 1)⟩, st.2 + 2)) (junkP, 0)
  return { c with points := st.1 }

/-- /repo/logo.cc 100-117 `render`. -/
noncomputable def Canvas.render (c : Canvas) (b : Box) (f : ℂ → Color) : Res Canvas := do
  let ilo := (1 / c.dx) • (b.lo - c.lo)
  let ihi := (1 / c.dx) • (b.hi - c.lo)
  let i0 ← int ⌊ilo.re⌋
  let j0 ← int ⌊ilo.im⌋
  let i1 ← int ⌊ihi.re⌋
  let i1 ← int (1 + i1)
  let j1 ← int ⌊ihi.im⌋
  let j1 ← int (1 + j1)
  let colors ← (cells (max 0 i0) (min c.width i1) (max 0 j0) (min c.height j1) c.samples).foldlM (fun colors t => do
    let n ← c.index t.1 t.2.1 t.2.2
    .ok (Function.update colors n (overlay (f (c.points n)) (colors n)))) c.colors
  return { c with colors := colors }

open Classical in
/-- /repo/logo.cc 120-125 `circle`. -/
noncomputable def Canvas.circle (c : Canvas) (center : ℂ) (radius : ℝ) (color : Color) : Res Canvas :=
  let h : ℂ := ⟨radius, radius⟩
  c.render ⟨center - h, center + h⟩ fun z => if Complex.normSq (z - center) ≤ radius ^ 2 then color else clear

/-- /repo/logo.cc 128-136 `gaussian`. -/
noncomputable def Canvas.gaussian (c : Canvas) (center : ℂ) (radius : ℝ) (color : Color) : Res Canvas :=
  let scale := -(1 / 2) / radius ^ 2
  let bound := 5 * radius
  let h : ℂ := ⟨bound, bound⟩
  c.render ⟨center - h, center + h⟩ fun z => ⟨color.rgb, Real.exp (scale * Complex.normSq (z - center)) * color.a⟩

/-- A store at one index, for the loops of `border`. -/
def Canvas.store (c : Canvas) (colors : ℕ → Color) (i j s : ℤ) (color : Color) : Res (ℕ → Color) := do
  let n ← c.index i j s
  .ok (Function.update colors n color)

/-- /repo/logo.cc 139-147 `border`.  The right one of the two assignments in a line is done first. -/
def Canvas.border (c : Canvas) (color : Color) : Res Canvas := do
  slowAssert (c.width ≠ 0 ∧ c.height ≠ 0)
  let colors ← ((upto 0 c.width).flatMap fun i => (upto 0 c.samples).map fun s => (i, s)).foldlM (fun colors t => do
    let colors ← c.store colors t.1 (c.height - 1) t.2 color
    c.store colors t.1 0 t.2 color) c.colors
  let colors ← ((upto 0 c.height).flatMap fun j => (upto 0 c.samples).map fun s => (j, s)).foldlM (fun colors t => do
    let colors ← c.store colors (c.width - 1) t.1 t.2 color
    c.store colors 0 t.1 t.2 color) colors
  return { c with colors := colors }

/-- `rint` of <cmath> in the default mode: to nearest, ties to even. -/
noncomputable def rint (x : ℝ) : ℤ :=
  if Int.fract x < 1 / 2 then ⌊x⌋
  else if 1 / 2 < Int.fract x then ⌊x⌋ + 1
  else if ⌊x⌋ % 2 = 0 then ⌊x⌋ else ⌊x⌋ + 1

/-- /repo/logo.cc 163-164: one component of a pixel. -/
noncomputable def byte (x : ℝ) : Res ℤ := do
  let n ← int (rint (255 * x))
  .ok (max 0 (min 255 n))

/-- The components of a colour, in order. -/
def Color.comps (c : Color) : List ℝ := [c.rgb 0, c.rgb 1, c.rgb 2, c.a]

/-- /repo/logo.cc 162: the `samples` colours that belong to a pixel, as a range of cells. -/
def Canvas.pixel (c : Canvas) (i j : ℤ) : Res (List Color) := do
  let n ← c.index i j 0
  .ok ((List.range c.samples.toNat).map fun s => c.colors (n + s))

/-- /repo/logo.cc 149-170 `write`: the rows of bytes, for a file that can be opened.  Without samples the quotient of line 49 is not a
number, which cannot be converted. -/
noncomputable def Canvas.write (c : Canvas) : Res (List (List ℤ)) :=
  (upto 0 c.height).mapM fun j => do
    let px ← (upto 0 c.width).mapM fun i => do
      let cs ← c.pixel i j
      if c.samples ≤ 0 then .error .ub else (average cs).comps.mapM byte
    .ok px.flatten

/-! ## The picture -/

/-- /repo/logo.cc 173-176 `cis_tau`. -/
noncomputable def cisTau (t : ℝ) : ℂ := ⟨Real.cos (2 * Real.pi * t), Real.sin (2 * Real.pi * t)⟩

/-- A circle to draw. -/
structure Disc where
  center : ℂ
  radius : ℝ
  color : Color

/-- /repo/logo.cc 191-211, the lambda `render`: the circles that it draws, in order.  `f` are the terms of the series that was read, rounded
to double; `junk` is the content of the new array `fz`. -/
noncomputable def discs (f : ℕ → ℝ) (junk : ℕ → ℂ) (k : ℕ) (radius : ℝ) (color : Color) : Res (List Disc) := do
  let p := 2 ^ k
  let fz ← FFT.srfft FFT.sLimit (p / 2) junk ⟨p, f⟩
  return (List.range (p / 2)).flatMap fun i =>
    let z := cisTau (((i : ℕ) + 1 / 2 : ℝ) / p)
    let phi := z * fz i
    [⟨phi, radius, color⟩, ⟨(starRingEnd ℂ) phi, radius, color⟩]

/-- /repo/logo.cc 209: the circles are drawn one after the other. -/
noncomputable def Canvas.draw (c : Canvas) (l : List Disc) : Res Canvas :=
  l.foldlM (fun c d => c.circle d.center d.radius d.color) c

/-- A colour from four numbers. -/
def rgba (r g b a : ℝ) : Color := ⟨![r, g, b], a⟩

/-- /repo/logo.cc 212-217: the arguments of the six calls of `render`. -/
noncomputable def passes : List (ℕ × ℝ × Color) :=
  [(25, 0.001, rgba 0 0 1 1), (20, 0.002, rgba 0 0 1 1), (15, 0.003, rgba 0 0.7 0.2 1), (10, 0.006, rgba 0 0.2 1 1),
    (7, 0.01, rgba 0 1 0.7 1), (5, 0.02, rgba 0 0.9 0.3 1)]

/-- /repo/logo.cc 178-221 `logo`, after the series has been read. -/
noncomputable def logo (f : ℕ → ℝ) (u : ℕ → ℝ) (junkP : ℕ → ℂ) (junkC : ℕ → Color) (junkF : ℕ → ℕ → ℂ) : Res (List (List ℤ)) := do
  let c ← make ⟨⟨-2.01, -1.14⟩, ⟨0.5, 1.14⟩⟩ 256 256 u junkP junkC
  let c ← passes.foldlM (fun c x => do
    let l ← discs f (junkF x.1) x.1 x.2.1 x.2.2
    c.draw l) c
  c.write

end Mandelbrot.Logo
