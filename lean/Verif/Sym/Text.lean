import Verif.Sym.Model
import Mathlib.NumberTheory.Padics.PadicVal.Defs

/-!
# Model of the text of expressions (/repo/exp.cc 18-76 and 102-104, /repo/exp.h 64, /repo/join.h)

Strings are lists of characters.
-/

namespace Mandelbrot.Sym

/-- /repo/exp.cc 18 `parens_if`. -/
def parensIf (s : List Char) (p : Bool) : List Char := if p then '(' :: (s ++ [')']) else s

/-- The format `%d` of an `int`. -/
def showInt (n : ℤ) : List Char := if n < 0 then '-' :: Nat.toDigits 10 n.natAbs else Nat.toDigits 10 n.natAbs

/-- /repo/exp.cc 80 `Exp::prec`, with the numbers of lines 30-70. -/
def Ex.prec : Ex → ℕ
  | .var _ _ => 0
  | .int _ => 0
  | .field _ _ _ => 2
  | .neg _ _ => 3
  | .add _ _ _ => 6
  | .sub _ _ _ => 6
  | .mul _ _ _ => 5
  | .div _ _ _ => 5
  | .call1 _ _ _ => 2
  | .call2 _ _ _ _ => 2
  | .call3 _ _ _ _ _ => 2
  | .other _ p _ => p

/-- /repo/exp.h 51 `Exp::two`. -/
def Ex.isTwo (e : Ex) : Bool := e.unint = some 2

/-- `std::has_single_bit` (/repo/exp.cc 49) on an `unsigned` of 32 bits. -/
def singleBit (a : ℕ) : Bool := (List.range 32).any fun k => a = 2 ^ k

/-- /repo/exp.cc 30-70 `show` of each kind, and 102-104 `Exp::show`.  A plain `%s` is `show(100)` (/repo/exp.h 64); `join` of
/repo/join.h 7-14 puts `, ` between.  `std::countr_zero` of a nonzero number is the exponent of two in it. -/
def Ex.text (C : Cfg) : Ex → ℕ → List Char
  | .var v _, p => parensIf v.toList (0 > p)
  | .int n, p => parensIf (showInt n) (0 > p)
  | .field x f _, p => parensIf (x.text C 2 ++ '.' :: f.toList) (2 > p)
  | .neg x _, p => parensIf ('-' :: x.text C 3) (3 > p)
  | .add x y _, p => parensIf (x.text C 6 ++ [' ', '+', ' '] ++ y.text C 5) (6 > p)
  | .sub x y _, p => parensIf (x.text C 6 ++ [' ', '-', ' '] ++ y.text C 5) (6 > p)
  | .mul x y _, p =>
    if ∀ i, x.sig C i = y.sig C i then "sqr".toList ++ '(' :: (x.text C 100 ++ [')'])
    else if x.isTwo then "twice".toList ++ '(' :: (y.text C 100 ++ [')'])
    else if y.isTwo then "twice".toList ++ '(' :: (x.text C 100 ++ [')'])
    else parensIf (x.text C 5 ++ [' ', '*', ' '] ++ y.text C 4) (5 > p)
  | .div x a _, p =>
    if a = 2 then "half".toList ++ '(' :: (x.text C 100 ++ [')'])
    else if a > 2 ∧ singleBit a.toNat then
      "ldexp".toList ++ '(' :: (x.text C 100 ++ [',', ' ', '-'] ++ showInt (padicValNat 2 a.toNat) ++ [')'])
    else parensIf (x.text C 5 ++ [' ', '/', ' '] ++ showInt a) (5 > p)
  | .call1 f x _, _ => f.toList ++ '(' :: (x.text C 100 ++ [')'])
  | .call2 f x y _, _ => f.toList ++ '(' :: (x.text C 100 ++ [',', ' '] ++ y.text C 100 ++ [')'])
  | .call3 f x y z _, _ =>
    f.toList ++ '(' :: (x.text C 100 ++ [',', ' '] ++ y.text C 100 ++ [',', ' '] ++ z.text C 100 ++ [')'])
  | .other t q _, p => parensIf t.toList (q > p)

end Mandelbrot.Sym
