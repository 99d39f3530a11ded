import Verif.Basic
import Mathlib.Data.List.Infix

/-!
# Model of the test runner (/repo/tests.h, /repo/tests.cc)

Simplifications: a test is a function on an arbitrary state that also says what it printed and how it ended; undefined behaviour inside
a test is not represented; the escape codes for colours (/repo/tests.cc 64-67) are left out; times are answers of the environment;
counts of tests are below 2^31; temporary files (/repo/tests.cc 40-61) are in `Verif/Test/Tmp.lean`.
-/

namespace Mandelbrot.Harness

/-- A string. -/
abbrev Str := List Char

/-- How a call ends. -/
inductive End
  /-- it returns -/
  | ok
  /-- it throws `test_error` (/repo/tests.h 19), as it does when an assertion of a test fails -/
  | testError
  /-- it throws an exception derived from `std::exception` with the given `typeid(e).name()` and `what()` -/
  | exc (name what : Str)
  /-- it throws something not derived from `std::exception` -/
  | foreign
  deriving DecidableEq

/-- The lines printed, one constructor for each `print` of /repo/tests.cc, and one for those of the tests. -/
inductive Line
  /-- line 77 -/
  | header (prog : Str) (tests : ℕ)
  /-- line 82 -/
  | skip (name : Str)
  /-- line 89 -/
  | run (name : Str)
  /-- line 98 -/
  | exception (type what : Str)
  /-- lines 103-104 with `good` -/
  | okay (name : Str) (ms : ℤ)
  /-- lines 103-104 without `good` -/
  | failed (name : Str) (ms : ℤ)
  /-- line 110 -/
  | ran (tests : ℕ) (ms : ℤ)
  /-- line 111 -/
  | passed (tests : ℕ)
  /-- line 113 -/
  | failures (tests : ℕ)
  /-- line 115 -/
  | failure (name : Str)
  /-- printed by a test -/
  | user (s : Str)
  deriving DecidableEq

variable {σ : Type}

/-- Code that may be run: it changes the state, prints lines and ends somehow. -/
abbrev Code (σ : Type) := σ → σ × List Str × End

/-- An entry of the vector of /repo/tests.cc 18. -/
structure Test (σ : Type) where
  name : Str
  code : Code σ

/-- /repo/tests.cc 21-24 `register_test`. -/
def register (tests : List (Test σ)) (name : Str) (code : Code σ) : List (Test σ) := tests ++ [⟨name, code⟩]

/-- `typeid(e).name()` for `test_error` in namespace `mandelbrot`, as mangled by the Itanium ABI. -/
def testErrorName : Str := "N10mandelbrot10test_errorE".toList

/-- /repo/tests.cc 31 `s.find(se) != npos`: `se` occurs in `s`. -/
def contains : Str → Str → Bool
  | [], se => se.isEmpty
  | c :: s, se => se.isPrefixOf (c :: s) || contains s se

/-- /repo/tests.cc 26-38 `test_throw`; `pos` is the function and line, as printed. -/
def testThrow (f : Code σ) (pos sx se : Str) : Code σ := fun s =>
  let (s, out, r) := f s
  let caught (name : Str) : σ × List Str × End :=
    if contains name se then (s, out, .ok)
    else (s, out ++ [pos ++ " ".toList ++ sx ++ " threw ".toList ++ name ++ ", not ".toList ++ se], .testError)
  match r with
  | .ok => (s, out ++ [pos ++ " ".toList ++ sx ++ " didn't throw ".toList ++ se], .testError)
  | .testError => caught testErrorName
  | .exc name _ => caught name
  | .foreign => (s, out, .foreign)

/-- /repo/tests.h 50-61 `ASSERT_*`: evaluate, and if the comparison fails print a line, end the line of the message and throw.  `text` is
what is printed. -/
def assertThat (p : σ → Bool) (text : σ → Str) : Code σ := fun s =>
  if p s then (s, [], .ok) else (s, [text s, []], .testError)

/-- One statement after another: an exception leaves the rest out. -/
def seq (a b : Code σ) : Code σ := fun s =>
  match a s with
  | (s, out, .ok) =>
    let (s, out', r) := b s
    (s, out ++ out', r)
  | r => r

/-- How the process ends. -/
inductive Exit
  | code (n : ℕ)
  /-- `std::terminate`, as nothing catches the exception -/
  | terminate
  /-- undefined behaviour -/
  | ub
  deriving DecidableEq

/-- The variables of the loop of /repo/tests.cc 84-107; `total` in milliseconds. -/
structure Loop (σ : Type) where
  state : σ
  out : List Line
  passed : ℕ
  bad : List Str
  total : ℤ

/-- /repo/tests.cc 87-107, one test.  The flag in the result says whether `run_tests` goes on. -/
def runOne (ms : Str → σ → ℤ) (l : Loop σ) (t : Test σ) : Loop σ × Bool :=
  let (s, out, r) := t.code l.state
  let out := l.out ++ [.run t.name] ++ out.map .user
  let e := ms t.name l.state
  match r with
  | .ok => (⟨s, out ++ [.okay t.name e], l.passed + 1, l.bad, l.total + e⟩, true)
  | .testError => (⟨s, out ++ [.failed t.name e], l.passed, l.bad ++ [t.name], l.total + e⟩, true)
  | .exc n w => (⟨s, out ++ [.exception n w, .failed t.name e], l.passed, l.bad ++ [t.name], l.total + e⟩, true)
  | .foreign => (⟨s, out, l.passed, l.bad, l.total⟩, false)

/-- /repo/tests.cc 87-107, the loop over the tests left. -/
def runLoop (skip : Str → Bool) (ms : Str → σ → ℤ) : List (Test σ) → Loop σ → Loop σ × Bool
  | [], l => (l, true)
  | t :: ts, l =>
    if skip t.name then runLoop skip ms ts l
    else match runOne ms l t with
      | (l, true) => runLoop skip ms ts l
      | (l, false) => (l, false)

/-- /repo/tests.cc 69-119 `run_tests` and 124-130 `main`.  `args` is `argv`; `args.begin() + 1` is undefined if it is empty.  `shutdown`
is what the hooks do (see C50; they do not throw). -/
def main (tests : List (Test σ)) (shutdown : σ → σ) (ms : Str → σ → ℤ) (args : List Str) (s : σ) : σ × List Line × Exit :=
  match args with
  | [] => (s, [], .ub)
  | prog :: chosen =>
    let skip (name : Str) : Bool := !chosen.isEmpty && !chosen.contains name
    let out := Line.header prog tests.length :: ((tests.filter fun t => skip t.name).map fun t => .skip t.name)
    match runLoop skip ms tests ⟨s, out, 0, [], 0⟩ with
    | (l, false) => (l.state, l.out, .terminate)
    | (l, true) =>
      let out := l.out ++ [.ran tests.length l.total, .passed l.passed] ++
        (if l.bad.isEmpty then [] else .failures l.bad.length :: l.bad.map .failure)
      (shutdown l.state, out, .code (if l.bad.isEmpty then 0 else 1))

end Mandelbrot.Harness
