import Verif.Runtime.Wrapper
import Mathlib.Data.Set.Card

/-!
# Specification: numbers as values
-/

namespace Mandelbrot.Spec

open Wrap

variable {V : Type}

/-- The values of some objects, if all of them live. -/
def valuesOf (env : ℕ → Option V) : List ℕ → Option (List V)
  | [] => some []
  | o :: os => (env o).bind fun v => (valuesOf env os).map (v :: ·)

/-- The effect of one operation on the values of the objects; `none` is a use of an object out of its lifetime.  An object that was moved from
is zero. -/
def valueStep (zero : V) (env : ℕ → Option V) : Op V → Option (ℕ → Option V)
  | .make o => if (env o).isSome then none else some (Function.update env o (some zero))
  | .convert o p => if (env o).isSome then none else (env p).map fun v => Function.update env o (some v)
  | .moved o p => if (env o).isSome then none else
      (env p).map fun v => Function.update (Function.update env o (some v)) p (some zero)
  | .destroy o => (env o).map fun _ => Function.update env o none
  | .call o args f => (valuesOf env args).bind fun vs => (env o).map fun _ => Function.update env o (some (f vs))
  | .assign o p => (env p).bind fun v => (env o).map fun _ => Function.update env o (some v)
  | .moveAssign o p => (env p).bind fun v => (env o).map fun _ =>
      Function.update (Function.update env o (some v)) p (some zero)
  | .print o => (env o).map fun _ => env
  | .safe o => (env o).map fun _ => env

/-- The effect of a program. -/
def valueRun (zero : V) (env : ℕ → Option V) : List (Op V) → Option (ℕ → Option V)
  | [] => some env
  | p :: ps => (valueStep zero env p).bind fun env => valueRun zero env ps

/-- How often a program prints with `<<`. -/
def prints : List (Op V) → ℕ
  | [] => 0
  | .print _ :: ps => prints ps + 1
  | _ :: ps => prints ps

/-- Number of blocks of memory that are allocated. -/
noncomputable def inUse (s : St V) : ℕ := Set.ncard {a | s.heap a ≠ none}

/-- Number of live objects with a value that needs memory. -/
noncomputable def needed (big : V → Bool) (env : ℕ → Option V) : ℕ := Set.ncard {o | ∃ v, env o = some v ∧ big v = true}

end Mandelbrot.Spec
