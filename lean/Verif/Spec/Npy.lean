import Mathlib.Data.Nat.Basic
import Mathlib.Data.List.Basic

/-!
# Reader for `.npy` files, version 1.0

Written from the format description: magic string, version, length of the header as a little endian 16 bit number, header,
data.  The header is a Python dictionary, padded with blanks, and ends with a newline.  Only little endian doubles in C order
are accepted.
-/

namespace Mandelbrot.Spec

/-- What follows a given prefix. -/
def afterPrefix (p s : List Char) : Option (List Char) := if p.isPrefixOf s then some (s.drop p.length) else none

def isDigit (c : Char) : Bool := '0' ≤ c && c ≤ '9'

/-- Value of a string of decimal digits. -/
def decimalValue (s : List Char) : ℕ := s.foldl (fun a c => 10 * a + (c.toNat - 48)) 0

/-- The sizes of a tuple, each followed by a comma, up to the closing bracket. -/
def npyShape : ℕ → List Char → Option (List ℕ × List Char)
  | 0, _ => none
  | fuel + 1, s =>
    match s with
    | ')' :: rest => some ([], rest)
    | _ =>
      let d := s.takeWhile isDigit
      if d = [] then none
      else match s.dropWhile isDigit with
        | ',' :: rest => (npyShape fuel rest).map fun r => (decimalValue d :: r.1, r.2)
        | _ => none

/-- The shape in a header. -/
def npyHeader (h : List Char) : Option (List ℕ) := do
  let r ← afterPrefix "{'descr': '<f8', 'fortran_order': False, 'shape': (".toList h
  let (shape, r) ← npyShape r.length r
  let r ← afterPrefix ", }".toList r
  if r.dropWhile (· = ' ') = ['\n'] then some shape else none

/-- Shape and data of a file.  The data must begin at a multiple of 16. -/
def readNpy (file : List Char) : Option (List ℕ × List Char) := do
  let r ← afterPrefix (Char.ofNat 0x93 :: "NUMPY".toList ++ [Char.ofNat 1, Char.ofNat 0]) file
  match r with
  | lo :: hi :: r =>
    let len := lo.toNat + 256 * hi.toNat
    if r.length < len ∨ (10 + len) % 16 ≠ 0 then none
    else (npyHeader (r.take len)).map fun shape => (shape, r.drop len)
  | _ => none

end Mandelbrot.Spec
