import Verif.IO.Text

/-!
# `.npy` files (/repo/numpy.cc, /repo/series.cc 196-215)

A file is the list of its bytes, written as characters with codes below 256.
-/

namespace Mandelbrot.IO

/-- /repo/numpy.cc 19-20: the loop that pads with blanks. -/
def padLoop (h : Str) : Str :=
  if (h.length + 1) &&& 15 ≠ 0 then padLoop (h ++ [' ']) else h
termination_by 15 - h.length % 16
decreasing_by
  rename_i h1
  rw [show (15 : ℕ) = 2 ^ 4 - 1 from rfl, Nat.and_two_pow_sub_one_eq_mod] at h1
  simp only [List.length_append, List.length_cons, List.length_nil]
  omega

/-- The low and the high byte of an unsigned 16 bit number, as `memcpy` lays them down on a little endian machine. -/
def bytes16 (n : ℕ) : Str := [Char.ofNat (n % 2 ^ 16 % 256), Char.ofNat (n % 2 ^ 16 / 256)]

/-- /repo/numpy.cc 7-26 `numpy_header`.  The two bytes `??` at position 8 are replaced at the end. -/
def numpyHeader (shape : List ℤ) : Str :=
  let header := Char.ofNat 0x93 :: kw "NUMPY" ++ [Char.ofNat 1, Char.ofNat 0] ++ kw "??"
  let header := header ++ kw "{'descr': '<f8', 'fortran_order': False, 'shape': ("
  let header := header ++ shape.flatMap fun n => showInt n ++ kw ","
  let header := header ++ kw "), }"
  let header := padLoop header ++ ['\n']
  header.take 8 ++ bytes16 (header.length - 10) ++ header.drop 10

/-- /repo/series.cc 196-215 `write_series_npy`: the content of the file.  `parts` is 1 for double and 2 for `Expansion<2>`,
`encode` gives the `8 * parts` bytes of a coefficient in memory.  Failures of the stream are not noticed by the code. -/
def writeNpy {K : Type} (encode : K → Str) (parts : ℕ) (path : Str) (x : Ser K) : Res Str := do
  slowAssert (kw ".npy" <:+ path)
  let shape := toInt32 x.nonzero :: if parts = 2 then [2] else []
  return numpyHeader shape ++ (List.range x.nonzero.toNat).flatMap fun i => encode (x.data i)

end Mandelbrot.IO
