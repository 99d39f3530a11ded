import Verif.Sig.Model

/-!
# Model of /repo/sig.cc 205-214 and /repo/sig.h 76-80: the signature of a rounded operation

SHA-256 is a parameter: a function from byte strings to byte strings.  Bytes are natural numbers; the machine is little-endian.
-/

namespace Mandelbrot.Sig

/-- The bytes of a word in memory. -/
def bytes : ℕ → ℕ → List ℕ
  | 0, _ => []
  | n + 1, w => w % 256 :: bytes n (w / 256)

/-- The word that bytes in memory are. -/
def word : List ℕ → ℕ
  | [] => 0
  | b :: l => b + 256 * word l

/-- /repo/sig.h 39: the memory of a `Sig`, four words of 8 bytes. -/
def sigBytes (s : Sg) : List ℕ := bytes 8 (s 0) ++ bytes 8 (s 1) ++ bytes 8 (s 2) ++ bytes 8 (s 3)

/-- /repo/sig.cc 209-210: the bytes given to the hash.  `none` is the null pointer (/repo/sig.h 79-80). -/
def hashed (f : Option (List ℕ)) (ss : List Sg) : List ℕ :=
  (match f with
    | some f => f
    | none => []) ++ ss.flatMap sigBytes

/-- /repo/sig.cc 205-214 `arbitrary`: the digest is written over the memory of the result. -/
def arbitrary (sha : List ℕ → List ℕ) (f : Option (List ℕ)) (ss : List Sg) : Sg := fun i => word (((sha (hashed f ss)).drop (8 * i.1)).take 8)

end Mandelbrot.Sig
