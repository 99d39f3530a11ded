import Verif.Basic

/-!
# Model of the wrappers of library numbers

/repo/arb_cc.h, acb_cc.h, arf_cc.h, mag_cc.h, fmpq_cc.h and poly.h have the same shape: an object holds one number of a C library, which
may own memory.  This is one model of all of them, over an arbitrary type of values.
-/

namespace Mandelbrot.Wrap

variable {V : Type}

/-- A number of the library (`arb_t`, `acb_t`, `arf_t`, `mag_t`, `fmpq_t`, `arb_poly_t`): small values are stored in place, large ones in a block
of memory that the number points to.  (A number may have several blocks; they are treated as one.) -/
inductive Raw (V : Type)
  | here (v : V)
  | block (a : ℕ)

/-- A block of memory: the value of a number, or text. -/
inductive Cell (V : Type)
  | num (v : V)
  | text

/-- Objects by name, blocks by address, and the next address; addresses are not used again. -/
structure St (V : Type) where
  objs : ℕ → Option (Raw V)
  heap : ℕ → Option (Cell V)
  next : ℕ

/-- Before the program. -/
def St.empty : St V := ⟨fun _ => none, fun _ => none, 0⟩

/-- What is known about the library: its zero, and which values need a block. -/
structure Lib (V : Type) where
  zero : V
  big : V → Bool

/-- Write memory at `a`. -/
def St.poke (s : St V) (a : ℕ) (c : Option (Cell V)) : St V := { s with heap := Function.update s.heap a c }

/-- Make `r` the number of object `o`, or end the object. -/
def St.put (s : St V) (o : ℕ) (r : Option (Raw V)) : St V := { s with objs := Function.update s.objs o r }

/-- Read a number; reading freed memory is undefined. -/
def St.read (s : St V) : Raw V → Res V
  | .here v => .ok v
  | .block a => match s.heap a with
    | some (.num v) => .ok v
    | _ => .error .ub

/-- `arb_clear` and the like: free what the number owns; freeing twice is undefined. -/
def St.clear (s : St V) : Raw V → Res (St V)
  | .here _ => .ok s
  | .block a => match s.heap a with
    | some (.num _) => .ok (s.poke a none)
    | _ => .error .ub

/-- `arb_set`, `arb_add` and the like: give the number a value.  A large value goes into the block of the number, which is allocated if it
has none; a small value is stored in place and the block is freed. -/
def St.write (L : Lib V) (s : St V) (r : Raw V) (v : V) : Res (St V × Raw V) :=
  if L.big v then
    match r with
    | .here _ => .ok ({ s.poke s.next (some (.num v)) with next := s.next + 1 }, .block s.next)
    | .block a => match s.heap a with
      | some (.num _) => .ok (s.poke a (some (.num v)), .block a)
      | _ => .error .ub
  else do
    let s ← s.clear r
    return (s, .here v)

/-- The number of a live object; using an object out of its lifetime is undefined. -/
def St.raw (s : St V) (o : ℕ) : Res (Raw V) :=
  match s.objs o with
  | some r => .ok r
  | none => .error .ub

/-- An object begins where none is. -/
def St.fresh (s : St V) (o : ℕ) : Res Unit :=
  match s.objs o with
  | some _ => .error .ub
  | none => .ok ()

/-- The values of some objects. -/
def St.readAll (s : St V) : List ℕ → Res (List V)
  | [] => .ok []
  | o :: os => do
    let r ← s.raw o
    let v ← s.read r
    let vs ← s.readAll os
    return v :: vs

/-- Give object `o` a value. -/
def St.set (L : Lib V) (s : St V) (o : ℕ) (v : V) : Res (St V) := do
  let r ← s.raw o
  let (s, r) ← s.write L r v
  return s.put o (some r)

/-- What a client can do. -/
inductive Op (V : Type)
  | make (o : ℕ)
  | convert (o p : ℕ)
  | moved (o p : ℕ)
  | destroy (o : ℕ)
  | call (o : ℕ) (args : List ℕ) (f : List V → V)
  | assign (o p : ℕ)
  | moveAssign (o p : ℕ)
  | print (o : ℕ)
  | safe (o : ℕ)

/-- One operation.

* `make`: the constructors without argument, arb_cc.h 13, acb_cc.h 13, arf_cc.h 13, mag_cc.h 10, fmpq_cc.h 13, poly.h 15.
* `convert`: the constructors from a number of the library, arb_cc.h 15, acb_cc.h 15, fmpq_cc.h 15; the number is taken from object `p`.
* `moved`: the move constructors `{ *x = *a.x; arb_init(a.x); }`, arb_cc.h 16, acb_cc.h 16, arf_cc.h 15, mag_cc.h 12, fmpq_cc.h 16, poly.h 17.
* `destroy`: the destructors, arb_cc.h 17, acb_cc.h 17, arf_cc.h 16, mag_cc.h 13, fmpq_cc.h 17, poly.h 20.
* `call`: a call of the library through the implicit conversions to pointers (arb_cc.h 25-26, acb_cc.h 25-26, arf_cc.h 23-24, mag_cc.h 20-21,
  fmpq_cc.h 25-26, poly.h 29-30) that computes a function of some numbers and stores it in `o`, which may be among the arguments; also the assignments of
  integers, arb_cc.h 20, acb_cc.h 20, fmpq_cc.h 20, poly.h 23.
* `assign`: arb_cc.h 21, acb_cc.h 21, arf_cc.h 19, mag_cc.h 16, fmpq_cc.h 21, poly.h 25.
* `moveAssign`: `{ arb_swap(x, a.x); arb_zero(a.x); }`, arb_cc.h 22, acb_cc.h 22, arf_cc.h 20, mag_cc.h 17, fmpq_cc.h 22, poly.h 26.
* `print`: the output with `open_memstream`, arb_cc.cc 11-20, acb_cc.cc 10-19, arf_cc.cc 7-16, 18-27, fmpq_cc.cc 7-16: `fclose` does not free the
  buffer, its owner is the caller.
* `safe`: `Arb::safe`, arb_cc.cc 22-28, which frees its buffer. -/
def step (L : Lib V) (s : St V) : Op V → Res (St V)
  | .make o => do
    s.fresh o
    return s.put o (some (.here L.zero))
  | .convert o p => do
    s.fresh o
    let r ← s.raw p
    let v ← s.read r
    let s := s.put o (some (.here L.zero))
    s.set L o v
  | .moved o p => do
    s.fresh o
    let r ← s.raw p
    let s := s.put o (some r)
    return s.put p (some (.here L.zero))
  | .destroy o => do
    let r ← s.raw o
    let s ← s.clear r
    return s.put o none
  | .call o args f => do
    let vs ← s.readAll args
    s.set L o (f vs)
  | .assign o p => do
    let r ← s.raw p
    let v ← s.read r
    s.set L o v
  | .moveAssign o p => do
    let r ← s.raw o
    let q ← s.raw p
    let s := (s.put o (some q)).put p (some r)
    s.set L p L.zero
  | .print o => do
    let r ← s.raw o
    let _ ← s.read r
    return { s.poke s.next (some .text) with next := s.next + 1 }
  | .safe o => do
    let r ← s.raw o
    let _ ← s.read r
    let s := { s.poke s.next (some .text) with next := s.next + 1 }
    return s.poke (s.next - 1) none

/-- A sequence of operations. -/
def run (L : Lib V) (s : St V) : List (Op V) → Res (St V)
  | [] => .ok s
  | p :: ps => do
    let s ← step L s p
    run L s ps

end Mandelbrot.Wrap
