import Verif.Sig.Model
import Mathlib.Data.Fin.VecNotation

/-!
# Model of /repo/exp.h and /repo/exp.cc: symbolic expressions with common subexpression elimination

`shared_ptr<const ExpData>` is a tree: the nodes are immutable, so sharing is not observable.  The active `CSE` object is a state
that is passed along.  Operands of overloaded operators are evaluated from left to right; C++ leaves the order open.
-/

set_option linter.unusedVariables false

namespace Mandelbrot.Sym

open Sig (Sg)

/-- /repo/exp.cc 30-76 and /repo/exp.h 31-46: the kinds of expressions, with the stored signature.  For `IntExp` it is the one
of line 78 and not stored here; `map_args` (line 110) does not change it. -/
inductive Ex where
  | var (v : String) (s : Sg)
  | int (n : ℤ)
  | field (x : Ex) (f : String) (s : Sg)
  | neg (x : Ex) (s : Sg)
  | add (x y : Ex) (s : Sg)
  | sub (x y : Ex) (s : Sg)
  | mul (x y : Ex) (s : Sg)
  | div (x : Ex) (a : ℤ) (s : Sg)
  | call1 (f : String) (x : Ex) (s : Sg)
  | call2 (f : String) (x y : Ex) (s : Sg)
  | call3 (f : String) (x y z : Ex) (s : Sg)
  | other (t : String) (prec : ℕ) (s : Sg)

/-- What the code depends on: the moduli, and the hash `arbitrary` of /repo/sig.cc 205-214. -/
structure Cfg where
  F : Sg
  H : Option String → List Sg → Sg

/-- /repo/exp.cc 82 `Exp::sig`. -/
def Ex.sig (C : Cfg) : Ex → Sg
  | .var _ s => s
  | .int n => Sig.ofInt C.F n
  | .field _ _ s => s
  | .neg _ s => s
  | .add _ _ s => s
  | .sub _ _ s => s
  | .mul _ _ s => s
  | .div _ _ s => s
  | .call1 _ _ s => s
  | .call2 _ _ _ s => s
  | .call3 _ _ _ _ s => s
  | .other _ _ s => s

/-- /repo/exp.cc 81 `Exp::fast`. -/
def Ex.fast : Ex → Bool
  | .var _ _ => true
  | .int _ => true
  | .field _ _ _ => true
  | .neg _ _ => true
  | _ => false

/-- /repo/exp.cc 88-92 `Exp::unint`. -/
def Ex.unint : Ex → Option ℤ
  | .int n => some n
  | _ => none

/-- /repo/exp.h 49 `Exp::zero`. -/
def Ex.isZero (e : Ex) : Bool := e.unint = some 0

/-- /repo/exp.h 50 `Exp::one`. -/
def Ex.isOne (e : Ex) : Bool := e.unint = some 1

/-- Negation of an `int`; of the smallest one it is undefined. -/
def negInt (n : ℤ) : Res ℤ := if n = -2 ^ 31 then .error .ub else .ok (-n)

/-- /repo/exp.cc 94-100 `Exp::unneg`. -/
def Ex.unneg : Ex → Res (Option Ex)
  | .int n => if n < 0 then (negInt n).map fun m => some (.int m) else .ok none
  | .neg x _ => .ok (some x)
  | _ => .ok none

/-- Number of negations at the top, for termination. -/
def Ex.negs : Ex → ℕ
  | .int n => if n < 0 then 1 else 0
  | .neg x _ => x.negs + 1
  | _ => 0

theorem Ex.unneg_negs {x y : Ex} (h : x.unneg = .ok (some y)) : y.negs < x.negs := by
  cases x <;> simp only [Ex.unneg] at h <;> try (simp at h; done)
  · rename_i n
    split_ifs at h with h0
    · unfold negInt at h
      split_ifs at h
      · simp [Except.map] at h
      · simp only [Except.map, Except.ok.injEq, Option.some.injEq] at h
        subst h
        simp only [Ex.negs]
        rw [if_pos h0, if_neg (by omega)]; omega
    · simp at h
  · simp only [Except.ok.injEq, Option.some.injEq] at h
    subst h
    simp [Ex.negs]

/-- /repo/exp.h 75-86: the active `CSE`.  `met` lists the expressions looked up so far; it is not in the code and does not
influence it. -/
structure CSt where
  exact : Bool
  table : List (Sg × Ex)
  met : List Ex

/-- /repo/exp.cc 125-133, from the results of `unsmall` and of `find`. -/
def pick (C : Cfg) (e : Ex) (st : CSt) (small : Option ℤ) (found : Option (Sg × Ex)) : Ex × CSt :=
  match small, found with
  | some n, _ => (.int n, st)
  | none, some p => (p.2, st)
  | none, none => (e, { st with table := (e.sig C, e) :: st.table })

/-- /repo/exp.cc 123-134 `CSE::cse(const Exp&)`. -/
def lookup (C : Cfg) (e : Ex) (st : CSt) : Ex × CSt :=
  if e.fast then (e, st)
  else pick C e { st with met := e :: st.met } (Sig.unsmall C.F (e.sig C)) (st.table.find? (fun p => ∀ i, p.1 i = e.sig C i))

/-- /repo/exp.cc 30-70: `arbitrary` of each kind. -/
def Ex.arb (C : Cfg) : Ex → Sg
  | .var _ s => s
  | .int n => Sig.ofInt C.F n
  | .field x f _ => C.H (some f) [x.sig C]
  | .neg x _ => Sig.sneg C.F (x.sig C)
  | .add x y _ => C.H none [x.sig C, y.sig C]
  | .sub x y _ => C.H none [x.sig C, y.sig C]
  | .mul x y _ => C.H none [x.sig C, y.sig C]
  | .div x a _ => C.H none [x.sig C, Sig.ofInt C.F a]
  | .call1 f x _ => C.H (some f) [x.sig C]
  | .call2 f x y _ => C.H (some f) [x.sig C, y.sig C]
  | .call3 f x y z _ => C.H (some f) [x.sig C, y.sig C, z.sig C]
  | .other _ _ s => s

/-- A node with another signature (`ExpData{e, sig}`, /repo/exp.cc 140). -/
def Ex.withSig : Ex → Sg → Ex
  | .var v _, s => .var v s
  | .int n, _ => .int n
  | .field x f _, s => .field x f s
  | .neg x _, s => .neg x s
  | .add x y _, s => .add x y s
  | .sub x y _, s => .sub x y s
  | .mul x y _, s => .mul x y s
  | .div x a _, s => .div x a s
  | .call1 f x _, s => .call1 f x s
  | .call2 f x y _, s => .call2 f x y s
  | .call3 f x y z _, s => .call3 f x y z s
  | .other t p _, s => .other t p s

/-- /repo/exp.cc 136-141 `CSE::cse(e, sig)`; the signature is given with the node.  There is an active `CSE`. -/
def cse (C : Cfg) (e : Ex) (st : CSt) : Ex × CSt :=
  lookup C (if st.exact then e else e.withSig (e.arb C)) st

/-- /repo/exp.cc 148-152 unary `operator-`. -/
def neg (C : Cfg) (e : Ex) (st : CSt) : Res (Ex × CSt) := do
  match e.unint with
  | some n =>
    let m ← negInt n
    return (.int m, st)
  | none =>
    let x ← e.unneg
    match x with
    | some x => return (x, st)
    | none => return cse C (.neg e (Sig.sneg C.F (e.sig C))) st

mutual
/-- /repo/exp.cc 161-167 `operator+`. -/
def add (C : Cfg) (x y : Ex) (st : CSt) : Res (Ex × CSt) :=
  if x.isZero then .ok (y, st)
  else if y.isZero then .ok (x, st)
  else match hx : x.unneg with
    | .error e => .error e
    | .ok (some nx) => sub C y nx st
    | .ok none =>
      match hy : y.unneg with
      | .error e => .error e
      | .ok (some ny) => sub C x ny st
      | .ok none => .ok (cse C (.add x y (Sig.sadd C.F (x.sig C) (y.sig C))) st)
termination_by x.negs + y.negs
decreasing_by
  · have := Ex.unneg_negs hx; omega
  · have := Ex.unneg_negs hy; omega

/-- /repo/exp.cc 169-175 binary `operator-`. -/
def sub (C : Cfg) (x y : Ex) (st : CSt) : Res (Ex × CSt) :=
  if x.isZero then neg C y st
  else if y.isZero then .ok (x, st)
  else match hx : x.unneg with
    | .error e => .error e
    | .ok (some nx) =>
      match add C nx y st with
      | .error e => .error e
      | .ok (z, st) => neg C z st
    | .ok none =>
      match hy : y.unneg with
      | .error e => .error e
      | .ok (some ny) => add C x ny st
      | .ok none => .ok (cse C (.sub x y (Sig.ssub C.F (x.sig C) (y.sig C))) st)
termination_by x.negs + y.negs
decreasing_by
  · have := Ex.unneg_negs hx; omega
  · have := Ex.unneg_negs hy; omega
end

/-- /repo/exp.cc 177-184 `operator*`. -/
def mul (C : Cfg) (x y : Ex) (st : CSt) : Res (Ex × CSt) :=
  if x.isZero || y.isZero then .ok (.int 0, st)
  else match hx : x.unneg with
    | .error e => .error e
    | .ok (some nx) =>
      match mul C nx y st with
      | .error e => .error e
      | .ok (z, st) => neg C z st
    | .ok none =>
      match hy : y.unneg with
      | .error e => .error e
      | .ok (some ny) =>
        match mul C x ny st with
        | .error e => .error e
        | .ok (z, st) => neg C z st
      | .ok none =>
        if x.isOne then .ok (y, st)
        else if y.isOne then .ok (x, st)
        else .ok (cse C (.mul x y (Sig.smul C.F (x.sig C) (y.sig C))) st)
termination_by x.negs + y.negs
decreasing_by
  · have := Ex.unneg_negs hx; omega
  · have := Ex.unneg_negs hy; omega

/-- /repo/sig.cc 175 `inv` of a signature; the loops end within 2^65 iterations. -/
def invSig (F x : Sg) : Res Sg := do
  let f (i : Fin 4) : Res ℕ := match Sig.sinv (2 ^ 65) F x i with
    | some r => r
    | none => .error .ub
  let a ← f 0
  let b ← f 1
  let c ← f 2
  let d ← f 3
  return ![a, b, c, d]

/-- /repo/exp.cc 186-193 `operator/`, without the first three tests. -/
def divPos (C : Cfg) (x : Ex) (a : ℤ) (st : CSt) : Res (Ex × CSt) :=
  if a = 1 then .ok (x, st)
  else match hx : x.unneg with
    | .error e => .error e
    | .ok (some nx) =>
      match divPos C nx a st with
      | .error e => .error e
      | .ok (z, st) => neg C z st
    | .ok none =>
      match invSig C.F (Sig.ofInt C.F a) with
      | .error e => .error e
      | .ok s => .ok (cse C (.div x a (Sig.smul C.F (x.sig C) s)) st)
termination_by x.negs
decreasing_by exact Ex.unneg_negs hx

/-- /repo/exp.cc 186-193 `operator/`.  The calls with a negative divisor come back here with a positive one. -/
def div (C : Cfg) (x : Ex) (a : ℤ) (st : CSt) : Res (Ex × CSt) := do
  slowAssert (a ≠ 0)
  if a = 1 then return (x, st)
  else if a = -1 then neg C x st
  else if a < 0 then
    let b ← negInt a
    let (z, st) ← divPos C x b st
    neg C z st
  else divPos C x a st

/-- /repo/exp.cc 195 `call`. -/
def call1 (C : Cfg) (f : String) (x : Ex) (s : Sg) (st : CSt) : Ex × CSt := cse C (.call1 f x s) st

/-- /repo/exp.cc 196 `call`. -/
def call2 (C : Cfg) (f : String) (x y : Ex) (s : Sg) (st : CSt) : Ex × CSt := cse C (.call2 f x y s) st

/-- /repo/exp.cc 197-199 `call`. -/
def call3 (C : Cfg) (f : String) (x y z : Ex) (s : Sg) (st : CSt) : Ex × CSt := cse C (.call3 f x y z s) st

/-- /repo/exp.cc 201 `other`. -/
def other (C : Cfg) (t : String) (prec : ℕ) (s : Sg) (st : CSt) : Ex × CSt := cse C (.other t prec s) st

/-- /repo/exp.cc 203-205 `fma`; the random signature is a parameter. -/
def fma (C : Cfg) (x y z : Ex) (s : Sg) (st : CSt) : Ex × CSt := call3 C "fma" x y z s st

/-- /repo/exp.cc 207-212 `sum`. -/
def sum (C : Cfg) (xs : List Ex) (st : CSt) : Res (Ex × CSt) :=
  match h : xs with
  | [] => .ok (.int 0, st)
  | [x] => .ok (x, st)
  | _ :: _ :: _ =>
    match sum C (xs.take (xs.length / 2)) st with
    | .error e => .error e
    | .ok (a, st) =>
      match sum C (xs.drop (xs.length / 2)) st with
      | .error e => .error e
      | .ok (b, st) => add C a b st
termination_by xs.length
decreasing_by
  · subst h; simp only [List.length_take, List.length_cons]; omega
  · subst h; simp only [List.length_drop, List.length_cons]; omega

/-- /repo/exp.cc 214 `inv`. -/
def inv (C : Cfg) (x : Ex) (st : CSt) : Res (Ex × CSt) := do
  let s ← invSig C.F (x.sig C)
  return call1 C "inv" x s st

/-- /repo/exp.cc 216-219 `Exp::field`. -/
def field (C : Cfg) (x : Ex) (f : String) (st : CSt) : Ex × CSt := cse C (.field x f (C.H (some f) [x.sig C])) st

end Mandelbrot.Sym
