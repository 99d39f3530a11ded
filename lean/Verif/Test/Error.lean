import Verif.Area.Check
import Verif.Series.Model
import Mathlib.Data.EReal.Operations

/-!
# Model of the comparison of series in tests (/repo/series.cc 18-56)

Doubles are real numbers, infinities or not a number (`Area.Dbl`); the difference and the quotient of real numbers are rounded by an
arbitrary function `rnd`, which may overflow.  Signed zeros are not told apart.
-/

namespace Mandelbrot

open Area (Dbl)

namespace Harness

/-- `std::abs` on doubles. -/
noncomputable def dabs : Dbl → Dbl
  | .nan => .nan
  | .val a => .val (max a (-a))

open Classical in
/-- `a - b` on doubles. -/
noncomputable def dsub (rnd : ℝ → EReal) : Dbl → Dbl → Dbl
  | .val a, .val b =>
    if a = ⊤ ∨ a = ⊥ then if a = b then .nan else .val a
    else if b = ⊤ ∨ b = ⊥ then .val (-b)
    else .val (rnd (a.toReal - b.toReal))
  | _, _ => .nan

open Classical in
/-- `a / b` on doubles, for `b > 0`; the code divides by numbers of at least 1 only. -/
noncomputable def ddiv (rnd : ℝ → EReal) : Dbl → Dbl → Dbl
  | .val a, .val b =>
    if a = ⊤ ∨ a = ⊥ then if b = ⊤ then .nan else .val a
    else if b = ⊤ then .val 0
    else .val (rnd (a.toReal / b.toReal))
  | _, _ => .nan

/-- `std::max(a, b)`, which is `a < b ? b : a`. -/
noncomputable def dmax (a b : Dbl) : Dbl := if a.lt b then b else a

/-- `std::min(a, b)`, which is `b < a ? b : a`. -/
noncomputable def dmin (a b : Dbl) : Dbl := if b.lt a then b else a

/-- A real number as a double. -/
noncomputable def dreal (x : ℝ) : Dbl := .val (x : EReal)

/-- /repo/series.cc 27-47 `error`.  The three loops are over the cells that both, only `x`, and only `y` store. -/
noncomputable def error (rnd : ℝ → EReal) (x y : Ser Dbl) (relative : Bool) : Dbl :=
  if x.known ≠ y.known then .val ⊤
  else
    let both := (min x.nonzero y.nonzero).toNat
    let e := (List.range both).foldl (fun e i =>
      let d := dabs (dsub rnd (x.data i) (y.data i))
      let d := if relative then ddiv rnd d (dmax (dreal 1) (dabs (y.data i))) else d
      dmax e d) (dreal 0)
    let e := (List.range' both (x.nonzero.toNat - both)).foldl (fun e i => dmax e (dabs (x.data i))) e
    (List.range' both (y.nonzero.toNat - both)).foldl (fun e i =>
      let d := dabs (y.data i)
      let d := if relative then dmin d (dreal 1) else d
      dmax e d) e

/-- /repo/series.cc 18-25 `approx`.  A polynomial is the list of the midpoints of its coefficients, `nearest` is `arf_get_d`; beyond its
length a polynomial has zeros (`Poly::operator[]`, /repo/poly.cc 17-21). -/
noncomputable def approx (nearest : ℝ → EReal) (x : List ℝ) (n : ℤ) : Res (Ser Dbl) := do
  slowAssert (n ≥ x.length)
  return ⟨n, n, n, fun i => .val (nearest (x.getD i 0))⟩

/-- /repo/series.cc 53-57 `error` of a series and a polynomial. -/
noncomputable def errorPoly (rnd nearest : ℝ → EReal) (x : Ser Dbl) (y : List ℝ) (relative : Bool) : Res Dbl :=
  if x.known < y.length then return .val ⊤
  else do
    let y ← approx nearest y x.known
    return error rnd x y relative

end Harness

end Mandelbrot
