import Verif.Float.ToArb
import Verif.IO.Text

/-!
# Model of the parser of the literals in the table of earlier areas: /repo/known.cc 8-14

Simplifications: a string is the list of its characters; `atof` knows digits, a point and digits: exponents, a plus and white space are
refused by the last assertion, but a minus in front is accepted by the code and is not modelled, so theorems about all strings exclude it;
doubles do not overflow (the conversion to `int` is undefined long before).
-/

namespace Mandelbrot.Float.ToArb

open Mandelbrot.IO

/-- The characters `0` to `9`. -/
def isDigit (c : Char) : Bool := (digitVal c).isSome

/-- The number at the start of a string: digits, and a point with digits. -/
noncomputable def decimal (s : Str) : ℝ :=
  digitsVal 0 s +
    match s.dropWhile isDigit with
    | '.' :: r => (digitsVal 0 r : ℝ) / 10 ^ (r.takeWhile isDigit).length
    | _ => 0

/-- What `%.1f` prints for a number of tenths that is not negative. -/
def tenthsText (n : ℕ) : Str := showNat (n / 10) ++ ['.', Char.ofNat (48 + n % 10)]

/-- `%.1f` of a number that is not negative: rounded to tenths, ties to even. -/
noncomputable def text (x : ℝ) : Str := tenthsText (roundEven (10 * x)).toNat

open Classical in
/-- /repo/known.cc 9-14 `bittner`.  `rn` is the rounding of doubles, also of the literals `1e6` (exact) and `1e-6`; the conversion to `int`
truncates and is undefined when the result does not fit. -/
noncomputable def bittner (rn : ℝ → ℝ) (s : Str) (v : ℝ) : Res Bittner := do
  slowAssert (s.getLast? = some 'M')
  let x := rn (rn (decimal s.dropLast) * 1000000)
  if 2 ^ 31 ≤ x then .error .ub else
  let t := ⌊x⌋₊
  slowAssert (s = text (rn (rn (1 / 1000000) * t)) ++ ['M'])
  return ⟨t, v⟩

end Mandelbrot.Float.ToArb
