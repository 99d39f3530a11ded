import Mathlib.Data.Int.Notation
import Mathlib.Order.Lattice
import Mathlib.Tactic.Ring
import Mathlib.Tactic.Linarith

/-!
# Outcomes of C++ code

The model distinguishes a normal return from the ways a C++ function can fail to return normally.
-/

namespace Mandelbrot

/-- Abnormal outcomes of the modelled C++ code. -/
inductive Err
  /-- `slow_assert` failed: a `runtime_error` is thrown (/repo/debug.h `slow_assert`, /repo/debug.cc). -/
  | assertion
  /-- an exception thrown by a parser or by `throw runtime_error(...)` (e.g. /repo/series.cc 142-148). -/
  | exception
  /-- `die(...)`: the process exits with code 1 (/repo/debug.cc). -/
  | die
  /-- C++ undefined behaviour. -/
  | ub
  deriving DecidableEq, Repr

/-- Result of a modelled C++ call. -/
abbrev Res (α : Type) := Except Err α

/-- /repo/debug.h `slow_assert`: throws when the condition is false. -/
def slowAssert (p : Prop) [Decidable p] : Res Unit :=
  if p then .ok () else .error .assertion

@[simp] theorem slowAssert_true {p : Prop} [Decidable p] (h : p) : slowAssert p = .ok () := by
  simp [slowAssert, h]

@[simp] theorem slowAssert_false {p : Prop} [Decidable p] (h : ¬p) :
    slowAssert p = .error .assertion := by
  simp [slowAssert, h]

/-- /repo/arith.h 27-30 `relu(x) = max(x, 0)`. -/
def relu (x : ℤ) : ℤ := max x 0

theorem relu_nonneg (x : ℤ) : 0 ≤ relu x := le_max_right _ _

theorem relu_of_nonneg {x : ℤ} (h : 0 ≤ x) : relu x = x := max_eq_left h

theorem relu_of_nonpos {x : ℤ} (h : x ≤ 0) : relu x = 0 := max_eq_right h

/-- The conversion `uint64_t(a)` of an `int64_t` value (so `-2^63 ≤ a < 2^63` is assumed):
negative numbers wrap around. -/
def toU64 (a : ℤ) : ℤ := if a < 0 then a + 2 ^ 64 else a

theorem toU64_of_nonneg {a : ℤ} (h : 0 ≤ a) : toU64 a = a := by
  unfold toU64; split_ifs <;> omega

/-- Sequencing after a normal return. -/
theorem bok {α β : Type} (a : α) (f : α → Res β) : ((Except.ok a : Res α) >>= f) = f a := rfl

/-- Sequencing after a failure. -/
theorem berr {α β : Type} (e : Err) (f : α → Res β) :
    ((Except.error e : Res α) >>= f) = .error e := rfl

theorem pok {α : Type} (a : α) : (pure a : Res α) = .ok a := rfl

end Mandelbrot
