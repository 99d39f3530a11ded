import Verif.IO.Print
import Mathlib.Data.Set.Basic

/-!
# Model of temporary files and directories: /repo/tests.cc 40-61, /repo/tests.h 70-80

Simplifications: a file is its contents, a directory is the mark that it exists; what lies in a directory has its path and a slash in front.
The system answers through `Os`.  The objects are not copied (`Noncopyable`), so each lives for one scope.
-/

namespace Verif.Tmp

/-- A byte string. -/
abbrev Str := List Char

/-- The state of the system that matters here. -/
structure Fs where
  /-- what is at a path; `none` is nothing -/
  files : Str → Option Str
  /-- open descriptors of the process -/
  fds : ℕ

/-- The answers of the system: the path that `mkstemp` and `mkdtemp` make for a template, if they can; the number of descriptors a process
may have. -/
structure Os where
  file : Fs → Str → Option Str
  dir : Fs → Str → Option Str
  limit : ℕ

/-- Change what is at a path. -/
def Fs.set (s : Fs) (p : Str) (c : Option Str) : Fs := { s with files := fun q => if q = p then c else s.files q }

/-- /repo/tests.cc 41, 53: the template. -/
def template (pre : Str) : Str := "/tmp/".toList ++ pre ++ "XXXXXX".toList

/-- /repo/tests.cc 40-45 `Tmpfile::Tmpfile`: the new empty file stays open, nothing closes `fd`.  `none` is the failed assertion. -/
def makeFile (os : Os) (pre : Str) (s : Fs) : Option (Str × Fs) :=
  if s.fds < os.limit then (os.file s (template pre)).map fun p => (p, { s.set p (some []) with fds := s.fds + 1 }) else none

/-- /repo/tests.cc 47-50 `Tmpfile::~Tmpfile`. -/
def dropFile (p : Str) (s : Fs) : Fs := if p.length ≠ 0 then s.set p none else s

/-- /repo/tests.cc 52-56 `Tmpdir::Tmpdir`. -/
def makeDir (os : Os) (pre : Str) (s : Fs) : Option (Str × Fs) := (os.dir s (template pre)).map fun p => (p, s.set p (some []))

/-- The path itself or something in the directory. -/
def within (p q : Str) : Bool := q == p || (p ++ ['/']).isPrefixOf q

/-- /repo/tests.cc 58-61 `Tmpdir::~Tmpdir`: `remove_all`. -/
def dropDir (p : Str) (s : Fs) : Fs :=
  if p.length ≠ 0 then { s with files := fun q => if within p q then none else s.files q } else s

/-- A test that uses temporary objects.  `act` is any other code: it changes the state and may throw (`false`). -/
inductive Prog
  | act (f : Fs → Fs × Bool)
  | seq (a b : Prog)
  | file (pre : Str) (body : Str → Prog)
  | dir (pre : Str) (body : Str → Prog)

/-- The state after the program, and whether it ended without an exception.  Destructors run in both cases (/repo/tests.h 70-80); a constructor
that throws has no destructor. -/
def exec (os : Os) : Prog → Fs → Fs × Bool
  | .act f, s => f s
  | .seq a b, s =>
    let r := exec os a s
    if r.2 then exec os b r.1 else r
  | .file pre body, s =>
    match makeFile os pre s with
    | none => (s, false)
    | some (p, s1) =>
      let r := exec os (body p) s1
      (dropFile p r.1, r.2)
  | .dir pre body, s =>
    match makeDir os pre s with
    | none => (s, false)
    | some (p, s1) =>
      let r := exec os (body p) s1
      (dropDir p r.1, r.2)

end Verif.Tmp
