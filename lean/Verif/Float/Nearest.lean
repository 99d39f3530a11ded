import Verif.Float.Format
import Verif.Basic
import Mathlib.Analysis.SpecialFunctions.Trigonometric.Basic

/-!
# Model of correctly rounded constants: /repo/nearest.h, /repo/nearest.cc

Arb's balls are an abstract type with the operations that the code uses.
-/

namespace Mandelbrot.Float

open Classical

/-- An `arf_t` or a `double`: a number, an infinity or not a number.  Signed zeros are not told apart. -/
inductive D
  | fin (x : ℝ)
  | pinf
  | ninf
  | nan

/-- C's `==` on doubles. -/
def D.same : D → D → Prop
  | .fin x, .fin y => x = y
  | .pinf, .pinf => True
  | .ninf, .ninf => True
  | _, _ => False

/-- `isfinite`. -/
def D.isFin : D → Prop
  | .fin _ => True
  | _ => False

/-- `double`: rounding to nearest without regard to the largest number, and the largest number. -/
structure Machine where
  rn : ℝ → ℝ
  largest : ℝ

/-- `arf_get_d(c, ARF_RND_NEAR)`, /repo/nearest.h 26: what exceeds the largest number after rounding becomes an infinity. -/
noncomputable def Machine.get (M : Machine) : D → D
  | .fin v => if M.largest < M.rn v then .pinf else if M.rn v < -M.largest then .ninf else .fin (M.rn v)
  | c => c

/-- The operations of Arb that /repo/nearest.cc uses. -/
structure ArbOps where
  /-- `arb_t` -/
  Ball : Type
  /-- the number lies in the ball -/
  Mem : Ball → ℝ → Prop
  /-- `arb_get_interval_arf` -/
  interval : Ball → ℕ → D × D
  /-- `arb_set_arf`, `arb_set_d` -/
  ofD : D → Ball
  /-- `arb_sub` -/
  sub : Ball → Ball → ℕ → Ball

variable (M : Machine) (A : ArbOps)

/-- /repo/nearest.cc 15-24 `round_nearest<double>`. -/
noncomputable def roundNearestD (c : A.Ball) (prec : ℕ) : Option D :=
  let ab := A.interval c prec
  let a_ := M.get ab.1
  let b_ := M.get ab.2
  if a_.same b_ ∨ ¬ a_.isFin then some a_ else none

/-- /repo/nearest.cc 42-48: one component after the other. -/
noncomputable def expComponents (prec : ℕ) : ℕ → A.Ball → Option (List D)
  | 0, _ => some []
  | n + 1, dc =>
    match roundNearestD M A dc prec with
    | none => none
    | some x => (expComponents prec n (A.sub dc (A.ofD x) prec)).map (x :: ·)

/-- /repo/nearest.cc 36-55 `RoundNear<Expansion<n>>::round` from a given precision on.  It starts from `60 n > 0`; for the precision 0 the
model stops where the code would not. -/
noncomputable def roundExp (n : ℕ) (c : D) (prec : ℕ) : Res (List D) :=
  if 0 < prec ∧ prec ≤ 10000 then
    match expComponents M A prec n (A.ofD c) with
    | some e => .ok e
    | none => roundExp n c (2 * prec)
  else .error .die
termination_by 10001 - prec

/-- The type that is rounded to: `double` or `Expansion<n>`. -/
inductive Ty
  | double
  | expansion (n : ℕ)

/-- The number of components. -/
def Ty.size : Ty → ℕ
  | .double => 1
  | .expansion n => n

/-- /repo/nearest.h 24-31 `round_near`. -/
noncomputable def roundNear (S : Ty) (c : D) : Res (List D) :=
  match S with
  | .double => .ok [M.get c]
  | .expansion n => roundExp M A n c (60 * n)

/-- `==` of `double` or /repo/expansion.h 99-104. -/
def sameAll : List D → List D → Prop
  | [], [] => True
  | a :: x, b :: y => a.same b ∧ sameAll x y
  | _, _ => False

/-- `isfinite`, /repo/expansion.h 116-121. -/
def finAll (x : List D) : Prop := ∀ a ∈ x, a.isFin

/-- /repo/nearest.cc 15-24 `round_nearest`. -/
noncomputable def roundNearest (S : Ty) (c : A.Ball) (prec : ℕ) : Res (Option (List D)) := do
  let ab := A.interval c prec
  let a_ ← roundNear M A S ab.1
  let b_ ← roundNear M A S ab.2
  return if sameAll a_ b_ ∨ ¬ finAll a_ then some a_ else none

/-- /repo/nearest.cc 25-34 `round_nearest` for complex numbers. -/
noncomputable def roundNearestC (S : Ty) (z : A.Ball × A.Ball) (prec : ℕ) : Res (Option (List D × List D)) := do
  let r ← roundNearest M A S z.1 prec
  match r with
  | none => return none
  | some r =>
    let i ← roundNearest M A S z.2 prec
    match i with
    | none => return none
    | some i => return some (r, i)

/-- /repo/nearest.h 38-48 `nearest` from a given precision on; `round` is `round_nearest` at the result of `f`.  It starts from 200; for
the precision 0 the model stops where the code would not. -/
def nearestFrom {R : Type} (round : ℕ → Res (Option R)) (prec : ℕ) : Res R :=
  if 0 < prec then
    match round prec with
    | .error e => .error e
    | .ok (some c) => .ok c
    | .ok none => if 2 * prec > 3200 then .error .die else nearestFrom round (2 * prec)
  else .error .die
termination_by 3201 - prec

/-- /repo/nearest.h 38-48 `nearest`. -/
noncomputable def nearest (S : Ty) (f : ℕ → A.Ball) : Res (List D) := nearestFrom (fun prec => roundNearest M A S (f prec) prec) 200

/-- /repo/nearest.h 38-48 `nearest` for complex numbers. -/
noncomputable def nearestC (S : Ty) (f : ℕ → A.Ball × A.Ball) : Res (List D × List D) :=
  nearestFrom (fun prec => roundNearestC M A S (f prec) prec) 200

/-- The operations that the constants need besides. -/
structure ArbFns (A : ArbOps) where
  /-- `arb_const_pi` -/
  pi : ℕ → A.Ball
  /-- `arb_set_si` -/
  ofInt : ℤ → A.Ball
  /-- `arb_div_ui` -/
  divNat : A.Ball → ℕ → ℕ → A.Ball
  /-- `arb_sqrt` -/
  sqrt : A.Ball → ℕ → A.Ball
  /-- `arb_sin_cos_pi_fmpq`: cosine and sine of `π t` -/
  cisPi : ℚ → ℕ → A.Ball × A.Ball
  /-- `acb_mul` -/
  mulC : A.Ball × A.Ball → A.Ball × A.Ball → ℕ → A.Ball × A.Ball

variable {A} (G : ArbFns A)

/-- /repo/nearest.cc 58-63 `nearest_pi`; the result is kept in a static variable. -/
noncomputable def nearestPi (S : Ty) : Res (List D) := nearest M A S G.pi

/-- Conversion of an `int64_t` to `ulong`. -/
def toUlong (b : ℤ) : ℕ := (b % 2 ^ 64).toNat

/-- /repo/nearest.cc 65-76 `nearest_sqrt`; `arb_div_ui` takes its divisor as `ulong`. -/
noncomputable def nearestSqrt (S : Ty) (a b : ℤ) : Res (List D) :=
  nearest M A S fun prec => G.sqrt (G.divNat (G.ofInt a) (toUlong b) prec) prec

/-- /repo/nearest.cc 83-91 `nearest_twiddle`; `2*a` may overflow, `fmpq_set_si` takes its denominator as `ulong`, which must not be 0. -/
noncomputable def nearestTwiddle (S : Ty) (a b : ℤ) : Res (List D × List D) :=
  if -2 ^ 63 ≤ 2 * a ∧ 2 * a < 2 ^ 63 ∧ toUlong b ≠ 0 then nearestC M A S fun prec => G.cisPi ((2 * a : ℤ) / (toUlong b : ℚ)) prec
  else .error .ub

/-- /repo/nearest.cc 104-116: the table of factors. -/
def twiddleFactors (n0 n1 : ℕ) (b : ℤ) (prec : ℕ) : List (A.Ball × A.Ball) :=
  (List.range (n0 + n1)).map fun j => G.cisPi (if j < n0 then 2 * j * n1 / (toUlong b : ℚ) else 2 * (j - n0 : ℕ) / (toUlong b : ℚ)) prec

/-- /repo/nearest.cc 124-133: one entry and whether it needed the slow way. -/
noncomputable def twiddleEntry (S : Ty) (n0 n1 : ℕ) (b : ℤ) (prec : ℕ) (factors : List (A.Ball × A.Ball)) (j : ℕ) : Res ((List D × List D) × ℕ) := do
  let j0 := j / n1
  let j1 := j - j0 * n1
  match factors[j0]?, factors[n0 + j1]? with
  | some f0, some f1 =>
    let r ← roundNearestC M A S (G.mulC f0 f1 prec) prec
    match r with
    | some r => return (r, 0)
    | none =>
      let r ← nearestTwiddle M G S j b
      return (r, 1)
  | _, _ => .error .ub

/-- /repo/nearest.cc 94-137 `nearest_twiddles`: the entries and the number of fallbacks.  `n0` is computed from a rounded square root.
The loops run over `int`, their order does not matter; division by zero and overflow of the index are undefined. -/
noncomputable def nearestTwiddles (S : Ty) (n : ℕ) (b : ℤ) (prec : ℕ) : Res (List (List D × List D) × ℕ) :=
  let n0 := ⌈M.rn (Real.sqrt (M.rn n))⌉.toNat
  if n0 = 0 then .error .ub
  else
    let n1 := (n + n0 - 1) / n0
    if 2 ^ 31 ≤ n ∨ 2 ^ 31 ≤ n0 + n1 ∨ toUlong b = 0 then .error .ub
    else do
      let factors := twiddleFactors G n0 n1 b prec
      let zs ← (List.range n).mapM (twiddleEntry M G S n0 n1 b prec factors)
      return (zs.map Prod.fst, (zs.map Prod.snd).sum)

end Mandelbrot.Float
