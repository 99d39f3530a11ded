import Verif.Basic

/-!
# Printing and the log file

Model of /repo/print.cc 20-52 and of `die` in /repo/debug.cc 23-29.

Simplifications: strings are lists of characters with `'\0'` as the byte that ends a C string;
standard output and standard error are what the process has handed to the C library (their
buffering is left out, so is the interleaving of the two on a terminal); writes do not fail;
`BREAK_ON_ASSERT` is not set.  Formatting (`tfm::format`) happens before these functions are called.
-/

namespace Verif.Print

/-- A byte string. -/
abbrev Str := List Char

/-- What the operating system answers.
* `creatable p`: `open(p, O_WRONLY | O_CREAT | O_EXCL)` works if `p` does not exist (the directory is
  there and writable), /repo/print.cc 28.
* `openError p`, `fdopenError`: texts of `strerror(errno)`, /repo/print.cc 29 and 31.
* `fdopens`: `fdopen` works, /repo/print.cc 30. -/
structure Os where
  creatable : Str → Bool
  fdopens : Bool
  openError : Str → Str
  fdopenError : Str

/-- The observable state: the two standard streams, the files by path, and the file being teed to
(`Tee::f` of /repo/print.cc 14-23; `none` is the null pointer).  `exited` is the exit code once
`exit` has been called. -/
structure World where
  out : Str
  err : Str
  files : Str → Option Str
  teeing : Option Str
  exited : Option ℕ

/-- `s.c_str()` read up to its end by `%s` or by `open`: the string is cut at the first NUL
(/repo/print.cc 28, 36, 44, 49). -/
def cstr (s : Str) : Str := s.takeWhile (· ≠ '\x00')

/-- `"%s\n"` applied to `s.c_str()`, /repo/print.cc 36, 44, 49. -/
def line (s : Str) : Str := cstr s ++ ['\n']

/-- `tee_print`, /repo/print.cc 34-39. -/
def teePrint (s : Str) (w : World) : World :=
  match w.teeing with
  | none => w
  | some p => { w with files := fun q => if q = p then (w.files q).map (· ++ line s) else w.files q }

/-- `print(const string&)`, /repo/print.cc 43-46. -/
def print (s : Str) (w : World) : World := teePrint s { w with out := w.out ++ line s }

/-- `print()`, /repo/print.cc 41. -/
def print0 (w : World) : World := print [] w

/-- `print_error`, /repo/print.cc 48-51. -/
def printError (s : Str) (w : World) : World := teePrint s { w with err := w.err ++ line s }

/-- `die`, /repo/debug.cc 23-29: an empty message prints nothing. -/
def die (msg : Str) (w : World) : World :=
  { (if msg.length ≠ 0 then printError ("\nerror: ".toList ++ msg) w else w) with exited := some 1 }

/-- `tee`, /repo/print.cc 25-32. -/
def tee (os : Os) (path : Str) (w : World) : World :=
  if w.teeing.isSome then die "can't tee to two files".toList w
  else
    let p := cstr path
    if (w.files p).isSome ∨ ¬ os.creatable p then
      die ("can't tee output to '".toList ++ path ++ "': ".toList ++ os.openError p) w
    else
      let w := { w with files := fun q => if q = p then some [] else w.files q }
      if os.fdopens then { w with teeing := some p }
      else die ("fdopen failed: ".toList ++ os.fdopenError) w

/-- A call of one of the functions of /repo/print.h 10-14, or of `die` (/repo/debug.h 8). -/
inductive Call
  | tee (path : Str)
  | print (s : Str)
  | print0
  | printError (s : Str)
  | die (msg : Str)

/-- One call; a process that has exited makes no more calls. -/
def step (os : Os) (w : World) (c : Call) : World :=
  if w.exited.isSome then w
  else match c with
    | .tee p => Print.tee os p w
    | .print s => Print.print s w
    | .print0 => Print.print0 w
    | .printError s => Print.printError s w
    | .die m => Print.die m w

/-- A history of calls. -/
def run (os : Os) (w : World) (cs : List Call) : World := cs.foldl (step os) w

end Verif.Print
