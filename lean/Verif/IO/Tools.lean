import Verif.IO.Npy
import Verif.IO.Text

/-!
# Model of the two conversion programs /repo/series-to-npy.cc and /repo/series-exp.cc
-/

namespace Mandelbrot.IO

variable {K : Type}

/-- The files there are, by name. -/
abbrev Files := Str → Option Str

/-- `fopen(path, "wb")` and the writes of /repo/series.cc 210-214, if the file can be opened. -/
def Files.store (canOpen : Str → Bool) (fs : Files) (path file : Str) : Res Files := do
  slowAssert (canOpen path = true)
  return Function.update fs path (some file)

/-- /repo/series-to-npy.cc 9-21 `convert` on the files `fs`, without the printing.  A missing input reads as an empty file. -/
def convert (parse : Str → Res K) (J : Junk K) (encode : K → Str) (canOpen : Str → Bool) (fs : Files) (input output : Str) :
    Res Files := do
  slowAssert (kw ".npy" <:+ output)
  slowAssert (fs output = none)
  let (_, x) ← readSeries parse J ((fs input).getD [])
  let file ← writeNpy encode 2 output x
  fs.store canOpen output file

/-- /repo/series-exp.cc 9-32 `exp` on the files `fs`, without the printing. -/
def expTool [Zero K] [One K] [Add K] [Sub K] [Neg K] [Mul K] [Div K] [IntCast K] [Ldexp K] [DecidableEq K] (ker : Ker K)
    (parse : Str → Res K) (J : Junk K) (encode : K → Str) (canOpen : Str → Bool) (fs : Files) (input output : Str) : Res Files := do
  slowAssert (fs output = none)
  let (_, x) ← readSeries parse (J.sub 0) ((fs input).getD [])
  let y := Ser.new x.nonzero (J [1])
  let y ← Ser.exp ker (J.sub 2) y x
  let file ← writeNpy encode 2 output y
  fs.store canOpen output file

/-- /repo/series-to-npy.cc 23-31 and /repo/series-exp.cc 34-42 `main`: the arguments after the name of the program. -/
def toolMain (tool : Str → Str → Res Files) (args : List Str) : Res Files :=
  match args with
  | [input, output] => tool input output
  | _ => .error .assertion

end Mandelbrot.IO
