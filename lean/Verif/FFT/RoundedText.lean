import Verif.FFT.Rounded

/-!
# The bodies of the loops in a given arithmetic

`Codelets` built from the additions, subtractions and products of a scalar type, and from tables of rounded twiddle
factors.  The forward bodies follow the text of /repo/codelets.cc.  The backward bodies are generated by symbolic
differentiation; they are written here with one operation for each operation of the forward body, in reverse order,
which is what the gradient does (/repo/codelets.cc 496-564).  The generator works with subexpressions shared up to
exact arithmetic (`CSE cse(true)`), so that the order of the terms of a sum and the place of a sign may differ from the
text; this is not modelled.
-/

namespace Mandelbrot.FFT

/-- The operations on scalars that the loops use: `+`, `-`, `*`, unary `-` and `twice` (/repo/arith.h). -/
structure Arith (R : Type) where
  add : R → R → R
  sub : R → R → R
  mul : R → R → R
  neg : R → R
  twice : R → R

/-- Rounded constants: entries of the slices after the lookup of /repo/fft.cc 25-42, of `few` (/repo/fft.cc 69-78), of
`constant_twiddle` and `constant_sqrt_half` (/repo/codelets.cc 571-586), and `inv(S(n))` (/repo/fft.cc 453, 473, 493). -/
structure Tables (R : Type) where
  slice : ℕ → ℤ → R × R
  few : ℕ → ℤ → R × R
  const : ℤ → ℕ → R × R
  half : R
  inv : ℕ → R

/-- The operations on complex numbers that the bodies use. -/
structure COps (C : Type) where
  add : C → C → C
  sub : C → C → C
  mul : C → C → C
  conj : C → C
  left : C → C
  right : C → C
  diagPos : C → C
  diagNeg : C → C

/-- /repo/complex.h 24-33 and 50-54, with `half` for `sqrt_half`. -/
def Arith.cops {R : Type} (A : Arith R) (half : R) : COps (R × R) where
  add z w := (A.add z.1 w.1, A.add z.2 w.2)
  sub z w := (A.sub z.1 w.1, A.sub z.2 w.2)
  mul z w := (A.sub (A.mul z.1 w.1) (A.mul z.2 w.2), A.add (A.mul z.1 w.2) (A.mul z.2 w.1))
  conj z := (z.1, A.neg z.2)
  left z := (A.neg z.2, z.1)
  right z := (z.2, A.neg z.1)
  diagPos z := (A.mul half (A.sub z.1 z.2), A.mul half (A.add z.2 z.1))
  diagNeg z := (A.mul half (A.add z.1 z.2), A.mul half (A.sub z.2 z.1))

/-- `a * z` (/repo/complex.h 29). -/
def Arith.scale {R : Type} (A : Arith R) (a : R) (z : R × R) : R × R := (A.mul a z.1, A.mul a z.2)

/-- `sqr(z)` (/repo/complex.h 30). -/
def Arith.csqr {R : Type} (A : Arith R) (z : R × R) : R × R :=
  (A.sub (A.mul z.1 z.1) (A.mul z.2 z.2), A.twice (A.mul z.1 z.2))

section
variable {C : Type} (o : COps C)

/-- /repo/codelets.cc 674-679 `butterfly_1`. -/
def cb1 (w1 w3 y0 y1 : C) : C × C :=
  let z1 := o.diagNeg y1
  (o.mul (o.conj w1) (o.add y0 z1), o.conj (o.mul w3 (o.sub y0 z1)))

/-- Gradient of `butterfly_1`. -/
def cb1T (w1 w3 d0 d1 : C) : C × C :=
  let e0 := o.mul w1 d0
  let e1 := o.conj (o.mul w3 d1)
  (o.add e0 e1, o.diagPos (o.sub e0 e1))

/-- /repo/codelets.cc 682-686 `butterfly_s1`. -/
def cs1 (w y0 y1 : C) : C × C := (o.add y0 y1, o.conj (o.mul w (o.sub y0 y1)))

/-- Gradient of `butterfly_s1`. -/
def cs1T (w d0 d1 : C) : C × C :=
  let e1 := o.conj (o.mul w d1)
  (o.add d0 e1, o.sub d0 e1)

/-- /repo/codelets.cc 689-704 `butterfly_s2`. -/
def cs2 (w1 w2 : C) (y : ℕ → C) : ℕ → C :=
  let u0 := o.add (y 0) (y 2)
  let u1 := o.add (y 1) (y 3)
  let t0 := o.sub (y 0) (y 2)
  let t1 := o.sub (y 1) (y 3)
  fun i => match i with
    | 0 => o.add u0 u1
    | 1 => o.conj (o.mul w2 (o.sub u0 u1))
    | 2 => o.conj (o.mul w1 (o.add t0 (o.left t1)))
    | _ => o.mul (o.conj w1) (o.sub t0 (o.left t1))

/-- Gradient of `butterfly_s2`. -/
def cs2T (w1 w2 : C) (d : ℕ → C) : ℕ → C :=
  let e1 := o.conj (o.mul w2 (d 1))
  let e2 := o.conj (o.mul w1 (d 2))
  let e3 := o.mul w1 (d 3)
  let u0 := o.add (d 0) e1
  let u1 := o.sub (d 0) e1
  let t0 := o.add e2 e3
  let t1 := o.right (o.sub e2 e3)
  fun i => match i with
    | 0 => o.add u0 t0
    | 1 => o.add u1 t1
    | 2 => o.sub u0 t0
    | _ => o.sub u1 t1

/-- /repo/codelets.cc 707-742 `butterfly_s3`. -/
def cs3 (w1 w2 w3 w4 : C) (y : ℕ → C) : ℕ → C :=
  let u0 := o.add (y 0) (y 4)
  let u1 := o.add (y 1) (y 5)
  let u2 := o.add (y 2) (y 6)
  let u3 := o.add (y 3) (y 7)
  let t0 := o.sub (y 0) (y 4)
  let t1 := o.sub (y 1) (y 5)
  let t2 := o.sub (y 2) (y 6)
  let t3 := o.sub (y 3) (y 7)
  let b0 := o.add u0 u2
  let b1 := o.add u1 u3
  let b2 := o.add t0 (o.left t2)
  let b3 := o.diagPos (o.add t1 (o.left t3))
  let c0 := o.sub u0 u2
  let c1 := o.sub u1 u3
  let c2 := o.sub t0 (o.left t2)
  let c3 := o.diagNeg (o.sub t1 (o.left t3))
  fun i => match i with
    | 0 => o.add b0 b1
    | 1 => o.conj (o.mul w4 (o.sub b0 b1))
    | 2 => o.conj (o.mul w2 (o.add c0 (o.left c1)))
    | 3 => o.mul (o.conj w2) (o.sub c0 (o.left c1))
    | 4 => o.conj (o.mul w1 (o.add b2 b3))
    | 5 => o.mul (o.conj w3) (o.sub b2 b3)
    | 6 => o.mul (o.conj w1) (o.add c2 c3)
    | _ => o.conj (o.mul w3 (o.sub c2 c3))

/-- Gradient of `butterfly_s3`. -/
def cs3T (w1 w2 w3 w4 : C) (d : ℕ → C) : ℕ → C :=
  let e1 := o.conj (o.mul w4 (d 1))
  let e2 := o.conj (o.mul w2 (d 2))
  let e3 := o.mul w2 (d 3)
  let e4 := o.conj (o.mul w1 (d 4))
  let e5 := o.mul w3 (d 5)
  let e6 := o.mul w1 (d 6)
  let e7 := o.conj (o.mul w3 (d 7))
  let b0 := o.add (d 0) e1
  let b1 := o.sub (d 0) e1
  let c0 := o.add e2 e3
  let c1 := o.right (o.sub e2 e3)
  let b2 := o.add e4 e5
  let b3 := o.diagNeg (o.sub e4 e5)
  let c2 := o.add e6 e7
  let c3 := o.diagPos (o.sub e6 e7)
  let u0 := o.add b0 c0
  let u2 := o.sub b0 c0
  let u1 := o.add b1 c1
  let u3 := o.sub b1 c1
  let t0 := o.add b2 c2
  let t2 := o.right (o.sub b2 c2)
  let t1 := o.add b3 c3
  let t3 := o.right (o.sub b3 c3)
  fun i => match i with
    | 0 => o.add u0 t0
    | 1 => o.add u1 t1
    | 2 => o.add u2 t2
    | 3 => o.add u3 t3
    | 4 => o.sub u0 t0
    | 5 => o.sub u1 t1
    | 6 => o.sub u2 t2
    | _ => o.sub u3 t3

/-- The radix `2^r` butterfly (/repo/codelets.cc 817-826). -/
def clevel (r : ℕ) (w : ℤ → C) (j : ℕ) (y : ℕ → C) : ℕ → C :=
  match r with
  | 1 => fun i => match i with | 0 => (cs1 o (w j) (y 0) (y 1)).1 | _ => (cs1 o (w j) (y 0) (y 1)).2
  | 2 => cs2 o (w j) (w (2 * j)) y
  | _ => cs3 o (w j) (w (2 * j)) (w (3 * j)) (w (4 * j)) y

/-- Gradient of the radix `2^r` butterfly. -/
def clevelT (r : ℕ) (w : ℤ → C) (j : ℕ) (d : ℕ → C) : ℕ → C :=
  match r with
  | 1 => fun i => match i with | 0 => (cs1T o (w j) (d 0) (d 1)).1 | _ => (cs1T o (w j) (d 0) (d 1)).2
  | 2 => cs2T o (w j) (w (2 * j)) d
  | _ => cs3T o (w j) (w (2 * j)) (w (3 * j)) (w (4 * j)) d

/-- /repo/codelets.cc 775-798: the first `r` levels after `butterfly_0`; `nr` is the number of iterations and
`m = 1 << (p-3)`. -/
def cfirst (r : ℕ) (w : ℤ → C) (j nr m : ℕ) (y : ℕ → C) : ℕ → C :=
  match r with
  | 1 => fun _ => y 0
  | 2 =>
    let u := cb1 o (w j) (w (3 * j)) (y 0) (y 1)
    fun i => match i with | 0 => u.1 | _ => u.2
  | _ =>
    let u := cb1 o (w j) (w (3 * j)) (y 0) (y 2)
    let v := cb1 o (w ((j + nr : ℕ) : ℤ)) (w (3 * ((j + nr : ℕ) : ℤ))) (y 1) (y 3)
    let w8 := w (8 * ((j &&& (m - 1) : ℕ) : ℤ))
    let a := cs1 o w8 u.1 v.1
    let b := cs1 o w8 u.2 v.2
    fun i => match i with | 0 => a.1 | 1 => a.2 | 2 => b.1 | _ => b.2

/-- Gradient of the first `r` levels before that of `butterfly_0`. -/
def cfirstT (r : ℕ) (w : ℤ → C) (j nr m : ℕ) (d : ℕ → C) : ℕ → C :=
  match r with
  | 1 => fun _ => d 0
  | 2 =>
    let u := cb1T o (w j) (w (3 * j)) (d 0) (d 1)
    fun i => match i with | 0 => u.1 | _ => u.2
  | _ =>
    let w8 := w (8 * ((j &&& (m - 1) : ℕ) : ℤ))
    let a := cs1T o w8 (d 0) (d 1)
    let b := cs1T o w8 (d 2) (d 3)
    let u := cb1T o (w j) (w (3 * j)) a.1 b.1
    let v := cb1T o (w ((j + nr : ℕ) : ℤ)) (w (3 * ((j + nr : ℕ) : ℤ))) a.2 b.2
    fun i => match i with | 0 => u.1 | 1 => v.1 | 2 => u.2 | _ => v.2

end

section
variable {R : Type} [Zero R] (A : Arith R) (T : Tables R)

/-- Twiddle factors of the first pass for size `2^p`: constants (/repo/codelets.cc 770-773), or the product of an entry
of a slice and one of `few` (/repo/fft.cc 119-123). -/
def bigTw (p : ℕ) (j : ℤ) : R × R :=
  if p ≤ 2 then T.const j p else (A.cops T.half).mul (T.slice (p - 2) (j / 4)) (T.few p (j % 4))

/-- /repo/exp.cc 207-212 `sum`: by halves. -/
def Arith.sum (A : Arith R) (l : List R) : R :=
  match l with
  | [] => 0
  | [a] => a
  | a :: b :: l =>
    let n := l.length + 2
    A.add (Arith.sum A ((a :: b :: l).take (n / 2))) (Arith.sum A ((a :: b :: l).drop (n / 2)))
termination_by l.length
decreasing_by
  all_goals simp; try omega

/-- The bodies in arithmetic `A` with tables `T`. -/
def textCodelets : Codelets R where
  first p j x :=
    let h := 2 ^ firstRadix p / 2
    cfirst (A.cops T.half) (firstRadix p) (bigTw A T p) j (2 ^ (p - firstRadix p)) (1 <<< (p - 3))
      (fun i => (x i, A.neg (x (i + h))))
  level r s j y := clevel (A.cops T.half) r (T.slice (s + r - 1)) j y
  mulc n a b := (A.cops T.half).mul (A.scale (T.inv n) a) b
  sqrc n a := A.scale (T.inv n) (A.csqr a)
  ilevel r s j y := clevelT (A.cops T.half) r (T.slice (s + r - 1)) j y
  last p j y i :=
    let h := 2 ^ firstRadix p / 2
    let d := cfirstT (A.cops T.half) (firstRadix p) (bigTw A T p) j (2 ^ (p - firstRadix p)) (1 <<< (p - 3)) y
    if i < h then (d i).1 else A.neg (d (i - h)).2
  mulBase _ x y k := A.sum ((List.range (k + 1)).map fun j => A.mul (x.getZ j) (y.getZ (k - j)))
  sqrBase _ x k :=
    let t := A.twice (A.sum ((List.range ((k + 1) / 2)).map fun j => A.mul (x.getZ j) (x.getZ (k - j))))
    if k % 2 = 0 then A.add t (A.mul (x.getZ (k / 2)) (x.getZ (k / 2))) else t
  add := A.add

end

end Mandelbrot.FFT
