import Verif.Area.Model
import Verif.IO.Text

/-!
# Model of the main loop of /repo/mandelbrot.cc and of the files it writes and reads
-/

namespace Mandelbrot.Area

open _root_.Mandelbrot.IO

variable {K : Type} [Zero K] [One K] [Add K] [Sub K] [Neg K] [Mul K] [Div K] [IntCast K] [Ldexp K]
  [DecidableEq K]

/-- A call `write_series("<output>/<letter>-k<k>", comments, series)` (/repo/area.cc 213-217). -/
structure FileReq (K : Type) where
  letter : Char
  k : ℕ
  comments : List Str
  series : Ser K

/-- What the program takes from its surroundings: the test of line 189 of /repo/area.cc, `safe(area(f))` as text
(/repo/area.cc 73-91, 216), the comparisons `a == 1` and `a == 0` of the number type, reading a number, and the mode. -/
structure Env (K : Type) where
  accept : ℕ → Bool → Ser K → Bool
  muText : Ser K → Str
  isOne : K → Bool
  isZero : K → Bool
  parse : Str → Res K
  mode : Str

/-- /repo/area.cc 212-217: the comments of a file. -/
def Env.comments (env : Env K) (name : Str) (k : ℕ) (f : Ser K) : List Str :=
  [name, kw "mode = " ++ env.mode, kw "k = " ++ showNat k, kw "mu = " ++ env.muText f]

/-- /repo/area.cc 204-221 `write_bottcher` on the host.  Reading `f[0]` of a series without stored terms is out of bounds. -/
def writeBottcher (env : Env K) (f g : Ser K) : Res (List (FileReq K)) := do
  let k ← knownToK f.known
  slowAssert (f.known = g.known)
  if f.nonzero = 0 ∨ g.nonzero = 0 then throw .ub
  slowAssert (env.isOne (f.data 0) = true ∧ env.isZero (g.data 0) = true)
  return [⟨'g', k, env.comments (kw "g = log(f)") k f, g⟩, ⟨'f', k, env.comments (kw "f = f(z) = 1/phi(1/z)") k f, f⟩]

/-- /repo/area.cc 223-230 `read_bottcher`, without the printing. -/
def readBottcher (env : Env K) (J : Junk K) (file : Str) : Res (Ser K) := do
  let (comments, g) ← readSeries env.parse J file
  slowAssert (comments.head? = some (kw "g = log(f)"))
  return g

/-- /repo/mandelbrot.cc 32-36: `n` iterations of the loop of `areas` from `g` with `2^k` terms; the calls of `write_series`
in order, and the final `g`. -/
def areasLoop (ker : Ker K) (J : Junk K) (env : Env K) (output : Bool) : ℕ → ℕ → Ser K → Res (List (FileReq K) × Ser K)
  | 0, _, g => .ok ([], g)
  | n + 1, k, g => do
    let (g, f) ← bottcherStep ker (J.sub (k + 1)) env.accept g
    let files ← if output then writeBottcher env f g else .ok []
    let (rest, g) ← areasLoop ker J env output n (k + 1) g
    return (files ++ rest, g)

/-- /repo/mandelbrot.cc 25-37 `areas`. -/
def areasMain (ker : Ker K) (J : Junk K) (env : Env K) (input : Option Str) (output : Bool) (maxK : ℤ) :
    Res (List (FileReq K) × Ser K) := do
  let g ← match input with
    | some file => readBottcher env (J.sub 0) file
    | none => bottcherBase (J.sub 0)
  let k0 ← knownToK g.known
  areasLoop ker J env output (maxK - k0).toNat k0 g

end Mandelbrot.Area
