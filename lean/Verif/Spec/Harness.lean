import Verif.Test.Harness

/-!
# What a run of tests is
-/

namespace Mandelbrot.Harness.Spec

variable {σ : Type}

/-- The tests that the arguments after the name of the program select: all if there are none, otherwise those named. -/
def selected (tests : List (Test σ)) (names : List Str) : List (Test σ) :=
  tests.filter fun t => decide (names = [] ∨ t.name ∈ names)

/-- `Runs ts s ends s'`: the tests `ts`, run one after the other from the state `s`, each whatever the one before did, end as `ends` says
and leave the state `s'`.  The last one may throw something foreign, and then nothing follows. -/
inductive Runs : List (Test σ) → σ → List End → σ → Prop
  | nil (s : σ) : Runs [] s [] s
  | cons {t : Test σ} {ts : List (Test σ)} {s s' s'' : σ} {out : List Str} {e : End} {es : List End} :
      t.code s = (s', out, e) → e ≠ .foreign → Runs ts s' es s'' → Runs (t :: ts) s (e :: es) s''

/-- The names of the tests that the output says were started. -/
def started (out : List Line) : List Str :=
  out.filterMap fun | .run n => some n | _ => none

/-- The names of the tests that the output says were left out. -/
def skipped (out : List Line) : List Str :=
  out.filterMap fun | .skip n => some n | _ => none

/-- The names that the output says passed, and those that it says failed, as they go. -/
def okays (out : List Line) : List Str :=
  out.filterMap fun | .okay n _ => some n | _ => none

def faileds (out : List Line) : List Str :=
  out.filterMap fun | .failed n _ => some n | _ => none

/-- The names in the summary. -/
def failures (out : List Line) : List Str :=
  out.filterMap fun | .failure n => some n | _ => none

/-- The numbers in the summary: of tests that ran, that passed, and that failed. -/
def numbers (out : List Line) : List ℕ :=
  out.filterMap fun | .ran n _ => some n | .passed n => some n | .failures n => some n | _ => none

/-- The names of the tests that ended in the stated way. -/
def namesWith (p : End → Bool) (ts : List (Test σ)) (ends : List End) : List Str :=
  ((ts.map (·.name)).zip ends).filterMap fun x => if p x.2 then some x.1 else none

end Mandelbrot.Harness.Spec
