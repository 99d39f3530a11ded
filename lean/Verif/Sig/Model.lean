import Verif.Area.Model

/-!
# Model of /repo/sig.h and /repo/sig.cc: modular arithmetic and signatures

Values of type `uint64_t` are natural numbers; where an operation can leave the range of its type the wrap-around is written
out.  Dividing by `p = 0` is undefined in C++; every `Fp` in the program has `p ≥ 3`.
-/

namespace Mandelbrot.Sig

/-! ## /repo/sig.h 19-31 -/

/-- /repo/sig.h 23 `Fp::neg`, in 64 bits. -/
def neg (p a : ℕ) : ℕ := if a ≠ 0 then (p + 2 ^ 64 - a) % 2 ^ 64 else 0

/-- /repo/sig.h 24 `Fp::add`; the sum fits 128 bits. -/
def add (p a b : ℕ) : ℕ := (a + b) % p

/-- /repo/sig.h 25 `Fp::sub`, in 128 bits. -/
def sub (p a b : ℕ) : ℕ := (a + p + 2 ^ 128 - b) % 2 ^ 128 % p

/-- /repo/sig.h 26 `Fp::mul`; the product fits 128 bits. -/
def mul (p a b : ℕ) : ℕ := a * b % p

/-- /repo/sig.cc 24-32 `pow`: the loop, for a number of bits that is at least that of `n`. -/
def powLoop {T : Type} (mul : T → T → T) : ℕ → T → T → ℕ → T
  | 0, r, _, _ => r
  | bits + 1, r, a, n =>
    if n = 0 then r else powLoop mul bits (if n % 2 = 1 then mul r a else r) (mul a a) (n / 2)

/-- /repo/sig.cc 24-32 `pow` with an exponent of type `uint64_t`. -/
def pow {T : Type} (mul : T → T → T) (one a : T) (n : ℕ) : T := powLoop mul 64 one a n

/-! ## Primality, /repo/sig.cc 34-60 -/

/-- `std::countr_zero` of a `uint64_t`. -/
def ctz : ℕ → ℕ → ℕ
  | 0, _ => 0
  | bits + 1, n => if n % 2 = 1 then 0 else ctz bits (n / 2) + 1

/-- /repo/sig.cc 46-49: the loop; `s` iterations. -/
def sprpLoop (n : ℕ) : ℕ → ℕ → Bool
  | 0, _ => false
  | s + 1, x => if x = n - 1 then true else sprpLoop n s (mul n x x)

/-- /repo/sig.cc 40-51 `is_sprp`.  For `n = 1` the shift by 64 is undefined, for `n = 0` the division. -/
def isSprp (n a : ℕ) : Res Bool :=
  if n = 0 then if 0 % a = 0 then .ok (n = a) else .error .ub
  else if n % a = 0 then .ok (n = a)
  else
    let s := ctz 64 (n - 1)
    if s ≥ 64 then .error .ub
    else
      let d := (n - 1) / 2 ^ s
      let x := pow (mul n) 1 a d
      .ok (if x = 1 then true else sprpLoop n s x)

/-- /repo/sig.cc 56-59. -/
def sprpAll (n : ℕ) : List ℕ → Res Bool
  | [] => .ok true
  | a :: l => do
    let b ← isSprp n a
    if !b then return false else sprpAll n l

/-- /repo/sig.cc 56: the bases. -/
def bases : List ℕ := [2, 325, 9375, 28178, 450775, 9780504, 1795265022]

/-- /repo/sig.cc 52-60 `is_prime`. -/
def isPrime (n : ℕ) : Res Bool :=
  match [2, 3, 5, 7].find? (fun p => n % p = 0) with
  | some p => .ok (n = p)
  | none => sprpAll n bases

/-! ## Inverse, /repo/sig.cc 62-81 -/

/-- The result of a 128-bit signed operation: overflow is undefined. -/
def i128 (z : ℤ) : Res ℤ := if -2 ^ 127 ≤ z ∧ z < 2 ^ 127 then .ok z else .error .ub

/-- Local variables of `Fp::inv`. -/
structure Euclid where
  rp : ℤ
  r : ℤ
  sp : ℤ
  s : ℤ
  tp : ℤ
  t : ℤ

/-- /repo/sig.cc 70-73, one iteration. -/
def euclidStep (e : Euclid) : Res Euclid := do
  let q := e.rp.tdiv e.r
  let qr ← i128 (q * e.r)
  let r ← i128 (e.rp - qr)
  let qs ← i128 (q * e.s)
  let s ← i128 (e.sp - qs)
  let qt ← i128 (q * e.t)
  let t ← i128 (e.tp - qt)
  return ⟨e.r, r, e.s, s, e.t, t⟩

/-- /repo/sig.cc 69-74: the loop.  `none` if it did not end within `n` iterations. -/
def euclidLoop : ℕ → Euclid → Option (Res Euclid)
  | 0, _ => none
  | n + 1, e => if e.r = 0 then some (.ok e) else
    match euclidStep e with
    | .ok e' => euclidLoop n e'
    | .error x => some (.error x)

/-- /repo/sig.cc 75-80: after the loop. -/
def invFinish (p x : ℕ) (e : Euclid) : Res ℕ := do
  let a ← i128 (e.sp * x)
  let b ← i128 (e.tp * p)
  let c ← i128 (a + b)
  slowAssert (c = 1)
  let sp := if e.sp < 0 then e.sp + p else e.sp
  slowAssert (sp ≥ 0)
  slowAssert (mul p (sp % 2 ^ 64).toNat x = 1)
  return (sp % 2 ^ 64).toNat

/-- /repo/sig.cc 64-81 `Fp::inv`, with at most `n` iterations. -/
def inv (n p x : ℕ) : Option (Res ℕ) :=
  match euclidLoop n ⟨x, p, 1, 0, 0, 1⟩ with
  | none => none
  | some (.error e) => some (.error e)
  | some (.ok e) => some (invFinish p x e)

/-! ## Square roots, /repo/sig.cc 83-137 -/

/-- /repo/sig.cc 90-95 `Fp::has_sqrt`. -/
def hasSqrt (p a : ℕ) : Res Bool := do
  if a = 0 then return true
  let s := pow (mul p) 1 a ((p - 1) / 2)
  slowAssert (s = 1 ∨ s = neg p 1)
  return s = 1

/-- /repo/sig.cc 109-114 `Fp2::mul`. -/
def mul2 (p b : ℕ) (x y : ℕ × ℕ) : ℕ × ℕ :=
  (add p (mul p x.1 y.1) (mul p (mul p x.2 y.2) b), add p (mul p x.1 y.2) (mul p x.2 y.1))

/-- /repo/sig.cc 127: go on or stop, from the result of `has_sqrt`. -/
def sqrtPick (h : Res Bool) (ab : ℕ × ℕ) (draws : List ℕ) (next : Option (Res (ℕ × ℕ) × List ℕ)) :
    Option (Res (ℕ × ℕ) × List ℕ) :=
  match h with
  | .error e => some (.error e, draws)
  | .ok true => next
  | .ok false => some (.ok ab, draws)

/-- /repo/sig.cc 122-128 (`random` 83-88): find `a` and `b = a^2 - n` without a root.  `draws` are the results of the random number generator;
`none` if they do not suffice.  Also returns the draws that are left. -/
def sqrtFind (p n : ℕ) : List ℕ → Option (Res (ℕ × ℕ) × List ℕ)
  | [] => none
  | w :: draws => sqrtPick (hasSqrt p (sub p (mul p (w % p) (w % p)) n)) (w % p, sub p (mul p (w % p) (w % p)) n) draws
      (sqrtFind p n draws)

/-- /repo/sig.cc 130-136: the rest of `Fp::sqrt`. -/
def sqrtFinish (p n : ℕ) (ab : ℕ × ℕ) : Res ℕ := do
  let x := pow (mul2 p ab.2) (1, 0) (ab.1, 1) ((p + 1) % 2 ^ 64 / 2)
  slowAssert (x.2 = 0)
  let r := min x.1 (neg p x.1)
  slowAssert (mul p r r = n)
  return r

/-- Sequencing of operations that may fail and may use random numbers. -/
def rbind {α β : Type} (x : Option (Res α × List ℕ)) (f : α → List ℕ → Option (Res β × List ℕ)) : Option (Res β × List ℕ) :=
  match x with
  | none => none
  | some (.error e, draws) => some (.error e, draws)
  | some (.ok a, draws) => f a draws

/-- /repo/sig.cc 118-137 `Fp::sqrt`. -/
def sqrt (p n : ℕ) (draws : List ℕ) : Option (Res ℕ × List ℕ) :=
  if n = 0 then some (.ok 0, draws)
  else rbind (sqrtFind p n draws) fun ab draws => some (sqrtFinish p n ab, draws)

/-! ## The fields, /repo/sig.cc 139-158 -/

/-- /repo/sig.cc 148-151: `i` further levels of square roots of `r`. -/
def rootsLoop (p : ℕ) : ℕ → ℕ → List ℕ → Option (Res Bool × List ℕ)
  | 0, _, draws => some (.ok true, draws)
  | i + 1, r, draws => rbind (some (hasSqrt p r, draws)) fun h draws =>
    if h then rbind (sqrt p r draws) fun r draws => rootsLoop p i r draws else some (.ok false, draws)

/-- /repo/sig.cc 144-151: is `p` taken? -/
def candidate (p : ℕ) (draws : List ℕ) : Option (Res Bool × List ℕ) :=
  if p % 8 ≠ 7 then some (.ok false, draws)
  else rbind (some (isPrime p, draws)) fun prime draws =>
    if !prime then some (.ok false, draws)
    else rbind (some (hasSqrt p (neg p 1), draws)) fun h draws =>
      if h then some (.ok false, draws) else rootsLoop p 4 2 draws

/-- /repo/sig.cc 143-155: `n` iterations of the loop from `p` down, `count` fields to go.  `none` if this or the draws do not
suffice. -/
def fieldsLoop : ℕ → ℕ → ℕ → List ℕ → Option (Res (List ℕ) × List ℕ)
  | _, _, 0, draws => some (.ok [], draws)
  | 0, _, _ + 1, _ => none
  | n + 1, p, count + 1, draws => rbind (candidate p draws) fun taken draws =>
    if taken then rbind (fieldsLoop n ((p + 2 ^ 64 - 1) % 2 ^ 64) count draws) fun l draws => some (.ok (p :: l), draws)
    else fieldsLoop n ((p + 2 ^ 64 - 1) % 2 ^ 64) (count + 1) draws

/-- /repo/sig.cc 139-158 `fields`, with at most `n` iterations. -/
def fieldsInit (n : ℕ) (draws : List ℕ) : Option (Res (List ℕ) × List ℕ) := fieldsLoop n (2 ^ 64 - 1) 4 draws

/-! ## Signatures, /repo/sig.h 37-62 and /repo/sig.cc 166-204 -/

/-- /repo/sig.h 37-39: one number for each field; `F` are the moduli. -/
abbrev Sg := Fin 4 → ℕ

/-- /repo/sig.h 43-46: the signature of an `int`, in 64 bits. -/
def ofInt (F : Sg) (a : ℤ) : Sg := fun i => if a ≥ 0 then a.toNat else ((a % 2 ^ 64).toNat + F i) % 2 ^ 64

/-- /repo/sig.cc 171 `operator-`. -/
def sneg (F x : Sg) : Sg := fun i => neg (F i) (x i)

/-- /repo/sig.cc 172 `operator+`. -/
def sadd (F x y : Sg) : Sg := fun i => add (F i) (x i) (y i)

/-- /repo/sig.cc 173 `operator-`. -/
def ssub (F x y : Sg) : Sg := fun i => sub (F i) (x i) (y i)

/-- /repo/sig.cc 174 `operator*`. -/
def smul (F x y : Sg) : Sg := fun i => mul (F i) (x i) (y i)

/-- /repo/sig.h 60 `operator<<`. -/
def sshl (F x : Sg) (k : ℕ) : Res Sg := do
  let a ← Area.shl32 k
  return smul F x (ofInt F a)

/-- /repo/sig.cc 175 `inv` of signatures; one result for each field. -/
def sinv (n : ℕ) (F x : Sg) : Fin 4 → Option (Res ℕ) := fun i => inv n (F i) (x i)

/-- /repo/sig.cc 185-189 `pow` of signatures; a negative exponent is converted to `uint64_t`. -/
def spow (F x : Sg) (n : ℤ) : Sg := pow (smul F) (ofInt F 1) x (n % 2 ^ 64).toNat

/-- /repo/complex.h 31 for signatures. -/
def cmul (F : Sg) (x y : Sg × Sg) : Sg × Sg :=
  (ssub F (smul F x.1 y.1) (smul F x.2 y.2), sadd F (smul F x.1 y.2) (smul F x.2 y.1))

/-- /repo/sig.cc 190 `pow` of complex signatures. -/
def cpow (F : Sg) (x : Sg × Sg) (n : ℤ) : Sg × Sg := pow (cmul F) (ofInt F 1, ofInt F 0) x (n % 2 ^ 64).toNat

/-- /repo/sig.cc 193-200: the table of small signatures, in the order of insertion; a later entry replaces an earlier one. -/
def smalls (F : Sg) : List (Sg × ℤ) :=
  (List.range 33).flatMap fun (i : ℕ) => [(ofInt F i, (i : ℤ)), (sneg F (ofInt F i), -(i : ℤ))]

/-- /repo/sig.cc 192-203 `unsmall`. -/
def unsmall (F s : Sg) : Option ℤ := ((smalls F).reverse.find? fun e => ∀ i, e.1 i = s i).map (·.2)

end Mandelbrot.Sig
