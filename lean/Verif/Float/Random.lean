import Verif.Float.Expansion

/-!
# Model of the random expansions: /repo/expansion.cc 101-118, /repo/arith.h 32-36

What the generators of the standard library return is a list of draws, an integer or a bit, any that are given.
-/

namespace Mandelbrot.Float

/-- /repo/arith.h 32-36 `exponent`: the exponent that `frexp` stores, for which `x = m 2^e` with `1/2 ≤ |m| < 1`, or `0` for zero. -/
noncomputable def exponent (x : ℝ) : ℤ := if x = 0 then 0 else Int.log 2 |x| + 1

/-- /repo/expansion.cc 101-108 `random_expansion_with_exponent`: one draw from -1 to 1 for every component; `std::ldexp` rounds once. -/
noncomputable def randomWithExponent (rn : ℝ → ℝ) : List ℝ → ℤ → List ℝ
  | [], _ => []
  | u :: us, e =>
    let a := rn (u * (2 : ℝ) ^ e)
    a :: randomWithExponent rn us (exponent a - 52 - 1)

/-- /repo/expansion.cc 110-113 `random_expansion`: `e` is the drawn exponent, from -20 to 20. -/
noncomputable def randomExpansion (rn : ℝ → ℝ) (e : ℤ) (us : List ℝ) : List ℝ := randomWithExponent rn us e

/-- /repo/expansion.cc 115-118 `random_expansion_near`: `d` is drawn from 1 to `52 n`, `b` is the bit.  The operands of the sum may be
evaluated in either order, which only decides which draw comes first. -/
noncomputable def randomNear (rn : ℝ → ℝ) (x : List ℝ) (d : ℤ) (b : Bool) (us : List ℝ) : Res (List ℝ) :=
  let e := exponent (x.headD 0) - d
  collangeAdd rn (if b then x else negate x) (randomWithExponent rn us e)

end Mandelbrot.Float
