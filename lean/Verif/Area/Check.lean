import Verif.Area.Program
import Mathlib.Data.EReal.Basic

/-!
# Model of the comparison with known areas (/repo/area.cc 152-190) and of the options of /repo/mandelbrot.cc
-/

namespace Mandelbrot.Area

open _root_.Mandelbrot.IO

/-- A `double` as an operand of comparisons: a number, an infinity, or not a number. -/
inductive Dbl
  | nan
  | val (x : EReal)

/-- `a <= b` on doubles. -/
def Dbl.le : Dbl → Dbl → Prop
  | .val a, .val b => a ≤ b
  | _, _ => False

/-- `a < b` on doubles. -/
def Dbl.lt : Dbl → Dbl → Prop
  | .val a, .val b => a < b
  | _, _ => False

noncomputable instance (a b : Dbl) : Decidable (a.le b) := Classical.dec _

noncomputable instance (a b : Dbl) : Decidable (a.lt b) := Classical.dec _

/-- What the comparison uses: the area of a series as a number (/repo/area.cc 71-91), the table of known areas as balls
(/repo/known.cc, `arb_set_str` at 1000 bits), `exact_arb`, `arb_sub` at 1000 bits and `bound` (/repo/arb_cc.cc). -/
structure Check (K A : Type) where
  area : Ser K → K
  table : ℕ → A
  exact : K → A
  sub : A → A → A
  bound : A → EReal

/-- /repo/known.h 12: the number of entries of `known_areas`. -/
def knownAreas : ℕ := 17

/-- The double written `1e-6`: the nearest number with 53 bits. -/
noncomputable def e6 : ℝ := 4722366482869645 / 2 ^ 72

variable {K A : Type}

/-- /repo/area.cc 152-163: `error`. -/
noncomputable def Check.error (c : Check K A) (k : ℕ) (f : Ser K) : Dbl :=
  let mu := c.area f
  if k < knownAreas then .val (c.bound (c.sub (c.table k) (c.exact mu))) else .val 0

/-- /repo/area.cc 188-189: whether the assertion holds. -/
noncomputable def Check.accept (c : Check K A) (tol : Dbl) (k : ℕ) (refine : Bool) (f : Ser K) : Bool :=
  let goal := if refine then tol else .val ((e6 : ℝ) : EReal)
  decide ((c.error k f).le goal)

/-! ## Options -/

/-- A real number without its fraction. -/
noncomputable def trunc (x : ℝ) : ℤ := if 0 ≤ x then ⌊x⌋ else ⌈x⌉

open Classical in
/-- `int(x)` for a double; undefined if the result is no `int`. -/
noncomputable def Dbl.toInt : Dbl → Res ℤ
  | .nan => .error .ub
  | .val x => if x ≠ ⊤ ∧ x ≠ ⊥ ∧ -2 ^ 31 ≤ trunc x.toReal ∧ trunc x.toReal < 2 ^ 31 then .ok (trunc x.toReal) else .error .ub

/-- /repo/mandelbrot.cc 46: `int(std::min(1000.0, k))`. -/
noncomputable def kOption (k : Dbl) : Res ℤ :=
  (if k.lt (.val ((1000 : ℝ) : EReal)) then k else .val ((1000 : ℝ) : EReal)).toInt

/-- The options after parsing (/repo/mandelbrot.cc 64-71). -/
structure Args where
  mode : Str
  k : Dbl
  precUsed : Bool
  input : Option Str
  output : Option Str

/-- /repo/mandelbrot.cc 96-98: exceptions end in `die`. -/
def orDie {α : Type} : Res α → Res α
  | .error .ub => .error .ub
  | .error _ => .error .die
  | .ok a => .ok a

/-- /repo/mandelbrot.cc 39-99 `main` after parsing, without logging: `modes` is the table of lines 53-59, given the number of steps and the
options; `mkdirOk` says whether a directory can be made, which is not the case if there is something with that name. -/
noncomputable def main {α : Type} (modes : List (Str × (ℤ → Args → Res α))) (mkdirOk : Str → Bool) (a : Args) : Res α :=
  orDie do
    if a.precUsed = true ∧ a.mode ≠ kw "arb" then throw .die
    match a.output with
    | some d => if mkdirOk d = true then pure () else throw .die
    | none => pure ()
    match modes.lookup a.mode with
    | none => throw .assertion
    | some f => do
      let k ← kOption a.k
      f k a

end Mandelbrot.Area
