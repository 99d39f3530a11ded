import Verif.Sym.ExpansionGen
import Verif.Sym.Gradient

/-!
# Model of the generator of the butterflies (/repo/codelets.cc 458-830)

The functions run on expressions.  A `Gen CSt` computation carries the table of the active `CSE`.  Where C++ leaves the order of
the evaluation of two arguments open, the model goes from left to right.
-/

namespace Mandelbrot.Sym

open Sig (Sg)

/-- `CExp`: a complex number with expressions for the parts (/repo/complex.h 13-16). -/
structure CEx where
  re : Ex
  im : Ex

section
variable (C : Cfg)

/-- /repo/complex.h 24 `operator+`. -/
def addC (z w : CEx) : Gen CSt CEx := do
  let r ← (add C z.re w.re : Gen CSt Ex)
  let i ← (add C z.im w.im : Gen CSt Ex)
  return ⟨r, i⟩

/-- /repo/complex.h 25 `operator-`. -/
def subC (z w : CEx) : Gen CSt CEx := do
  let r ← (sub C z.re w.re : Gen CSt Ex)
  let i ← (sub C z.im w.im : Gen CSt Ex)
  return ⟨r, i⟩

/-- /repo/complex.h 28 `operator*`. -/
def mulC (z w : CEx) : Gen CSt CEx := do
  let a ← (mul C z.re w.re : Gen CSt Ex)
  let b ← (mul C z.im w.im : Gen CSt Ex)
  let r ← (sub C a b : Gen CSt Ex)
  let c ← (mul C z.re w.im : Gen CSt Ex)
  let d ← (mul C z.im w.re : Gen CSt Ex)
  let i ← (add C c d : Gen CSt Ex)
  return ⟨r, i⟩

/-- /repo/complex.h 29 `operator*` with a real factor. -/
def scaleC (a : Ex) (z : CEx) : Gen CSt CEx := do
  let r ← (mul C a z.re : Gen CSt Ex)
  let i ← (mul C a z.im : Gen CSt Ex)
  return ⟨r, i⟩

/-- /repo/complex.h 31 `conj`. -/
def conjC (z : CEx) : Gen CSt CEx := do
  let i ← (neg C z.im : Gen CSt Ex)
  return ⟨z.re, i⟩

/-- /repo/complex.h 32 `left`. -/
def leftC (z : CEx) : Gen CSt CEx := do
  let r ← (neg C z.im : Gen CSt Ex)
  return ⟨r, z.re⟩

/-- /repo/complex.h 50-53 `diag<1>`. -/
def diagPosC (a : Ex) (z : CEx) : Gen CSt CEx := do
  let r ← (sub C z.re z.im : Gen CSt Ex)
  let i ← (add C z.im z.re : Gen CSt Ex)
  scaleC C a ⟨r, i⟩

/-- /repo/complex.h 50-54 `diag<-1>`. -/
def diagNegC (a : Ex) (z : CEx) : Gen CSt CEx := do
  let r ← (add C z.re z.im : Gen CSt Ex)
  let i ← (sub C z.im z.re : Gen CSt Ex)
  scaleC C a ⟨r, i⟩

/-- /repo/exp.cc 221-223 `split`. -/
def splitX (x : Ex) : Gen CSt CEx := do
  let r ← (fun st => .ok (field C x "r" st) : Gen CSt Ex)
  let i ← (fun st => .ok (field C x "i" st) : Gen CSt Ex)
  return ⟨r, i⟩

/-- `split` of several. -/
def splitAll : List Ex → Gen CSt (List CEx)
  | [] => return []
  | x :: l => do
    let z ← splitX C x
    let zs ← splitAll l
    return z :: zs

end

/-- What the generator draws or formats: the random signatures of the names, and texts and signatures of the constants. -/
structure Seeds where
  sig : String → Sg
  sqrtHalf : String × Sg
  twiddle : ℤ → ℕ → (String × Sg) × (String × Sg)

section
variable (C : Cfg) (S : Seeds)

/-- A declared name (/repo/codelets.cc 129-132, 146-149). -/
def Seeds.name (v : String) : Ex := .var v (S.sig v)

/-- /repo/codelets.cc 566-574 `constant_sqrt_half`; the text and the signature are given. -/
def sqrtHalfX : Gen CSt Ex := fun st => .ok (other C S.sqrtHalf.1 2 S.sqrtHalf.2 st)

/-- /repo/codelets.cc 576-586 `constant_twiddle`; the texts and the signatures are given. -/
def constantTwiddleX (j : ℤ) (s : ℕ) : Gen CSt CEx := do
  ofRes (slowAssert (s = 1 ∨ s = 2 ∨ s = 3))
  let r ← (fun st => .ok (other C (S.twiddle j s).1.1 2 (S.twiddle j s).1.2 st) : Gen CSt Ex)
  let i ← (fun st => .ok (other C (S.twiddle j s).2.1 2 (S.twiddle j s).2.2 st) : Gen CSt Ex)
  return ⟨r, i⟩

/-- /repo/codelets.cc 590-592 `base_twiddle`. -/
def baseTwiddleX (j : Ex) : Gen CSt CEx := do
  let t ← (fun st => .ok (call1 C "twiddle" j (C.H (some "twiddle") [j.sig C]) st) : Gen CSt Ex)
  splitX C t

/-- /repo/codelets.cc 668-670 `butterfly_0`. -/
def butterfly0X (x0 x1 : Ex) : Gen CSt CEx := do
  let i ← (neg C x1 : Gen CSt Ex)
  return ⟨x0, i⟩

/-- /repo/codelets.cc 674-679 `butterfly_1`. -/
def butterfly1X (j : Ex) (twiddle : Ex → Gen CSt CEx) (y0 y1 : CEx) : Gen CSt (CEx × CEx) := do
  let h ← sqrtHalfX C S
  let z1 ← diagNegC C h y1
  let w ← twiddle j
  let w ← conjC C w
  let a ← addC C y0 z1
  let u0 ← mulC C w a
  let j3 ← (mul C (.int 3) j : Gen CSt Ex)
  let w ← twiddle j3
  let b ← subC C y0 z1
  let c ← mulC C w b
  let u1 ← conjC C c
  return (u0, u1)

/-- /repo/codelets.cc 682-686 `butterfly_s1`. -/
def butterflyS1X (j : Ex) (twiddle : Ex → Gen CSt CEx) (y0 y1 : CEx) : Gen CSt (CEx × CEx) := do
  let u0 ← addC C y0 y1
  let w ← twiddle j
  let d ← subC C y0 y1
  let c ← mulC C w d
  let u1 ← conjC C c
  return (u0, u1)

/-- /repo/codelets.cc 689-704 `butterfly_s2`. -/
def butterflyS2X (j : Ex) (twiddle : Ex → Gen CSt CEx) (y : List CEx) : Gen CSt (List CEx) :=
  match y with
  | [y0, y1, y2, y3] => do
    let w1 ← twiddle j
    let j2 ← (mul C (.int 2) j : Gen CSt Ex)
    let w2 ← twiddle j2
    let u0 ← addC C y0 y2
    let u1 ← addC C y1 y3
    let t0 ← subC C y0 y2
    let t1 ← subC C y1 y3
    let c0 ← addC C u0 u1
    let d ← subC C u0 u1
    let d ← mulC C w2 d
    let c1 ← conjC C d
    let l ← leftC C t1
    let d ← addC C t0 l
    let d ← mulC C w1 d
    let c2 ← conjC C d
    let w ← conjC C w1
    let l ← leftC C t1
    let d ← subC C t0 l
    let c3 ← mulC C w d
    return [c0, c1, c2, c3]
  | _ => ofRes (.error .assertion)

/-- /repo/codelets.cc 707-742 `butterfly_s3`. -/
def butterflyS3X (j : Ex) (twiddle : Ex → Gen CSt CEx) (y : List CEx) : Gen CSt (List CEx) :=
  match y with
  | [y0, y1, y2, y3, y4, y5, y6, y7] => do
    let w1 ← twiddle j
    let j2 ← (mul C (.int 2) j : Gen CSt Ex)
    let w2 ← twiddle j2
    let j3 ← (mul C (.int 3) j : Gen CSt Ex)
    let w3 ← twiddle j3
    let j4 ← (mul C (.int 4) j : Gen CSt Ex)
    let w4 ← twiddle j4
    let h ← sqrtHalfX C S
    let u0 ← addC C y0 y4
    let u1 ← addC C y1 y5
    let u2 ← addC C y2 y6
    let u3 ← addC C y3 y7
    let t0 ← subC C y0 y4
    let t1 ← subC C y1 y5
    let t2 ← subC C y2 y6
    let t3 ← subC C y3 y7
    let b0 ← addC C u0 u2
    let b1 ← addC C u1 u3
    let l ← leftC C t2
    let b2 ← addC C t0 l
    let l ← leftC C t3
    let d ← addC C t1 l
    let b3 ← diagPosC C h d
    let c0 ← subC C u0 u2
    let c1 ← subC C u1 u3
    let l ← leftC C t2
    let c2 ← subC C t0 l
    let l ← leftC C t3
    let d ← subC C t1 l
    let c3 ← diagNegC C h d
    let d0 ← addC C b0 b1
    let d ← subC C b0 b1
    let d ← mulC C w4 d
    let d1 ← conjC C d
    let l ← leftC C c1
    let d ← addC C c0 l
    let d ← mulC C w2 d
    let d2 ← conjC C d
    let w ← conjC C w2
    let l ← leftC C c1
    let d ← subC C c0 l
    let d3 ← mulC C w d
    let d ← addC C b2 b3
    let d ← mulC C w1 d
    let d4 ← conjC C d
    let w ← conjC C w3
    let d ← subC C b2 b3
    let d5 ← mulC C w d
    let w ← conjC C w1
    let d ← addC C c2 c3
    let d6 ← mulC C w d
    let d ← subC C c2 c3
    let d ← mulC C w3 d
    let d7 ← conjC C d
    return [d0, d1, d2, d3, d4, d5, d6, d7]
  | _ => ofRes (.error .assertion)

/-- /repo/codelets.cc 817-826: the butterfly of the remaining levels. -/
def levelsBodyX (r : ℕ) (j1 : Ex) (y : List CEx) : Gen CSt (List CEx) :=
  match r with
  | 1 => match y with
    | [y0, y1] => do
      let u ← butterflyS1X C j1 (baseTwiddleX C) y0 y1
      return [u.1, u.2]
    | _ => ofRes (.error .assertion)
  | 2 => butterflyS2X C j1 (baseTwiddleX C) y
  | 3 => butterflyS3X C S j1 (baseTwiddleX C) y
  | _ => ofRes (.error .assertion)

/-- /repo/codelets.cc 769-774: the factors of the first levels. -/
def firstTwiddleX (r : ℕ) (j : Ex) : Gen CSt CEx :=
  if r = 3 then baseTwiddleX C j
  else match j.unint with
    | some jj => constantTwiddleX C S jj r
    | none => ofRes (.error .assertion)

/-- `a + i*b` (/repo/codelets.cc 491, 781, 793). -/
def stepX (a : Ex) (i : ℤ) (b : Ex) : Gen CSt Ex := do
  let p ← (mul C (.int i) b : Gen CSt Ex)
  add C a p

/-- /repo/codelets.cc 775-799: the first `r` levels; the loops are unrolled for `r` = 1, 2, 3.  `j1` is the name declared in line
785. -/
def firstBodyX (r : ℕ) (nr j j1 : Ex) (x : List Ex) : Gen CSt (List CEx) :=
  match r, x with
  | 1, [x0, x1] => do
    let y0 ← butterfly0X C x0 x1
    return [y0]
  | 2, [x0, x1, x2, x3] => do
    let y0 ← butterfly0X C x0 x2
    let y1 ← butterfly0X C x1 x3
    let k ← stepX C j 0 nr
    let u ← butterfly1X C S k (firstTwiddleX C S 2) y0 y1
    return [u.1, u.2]
  | 3, [x0, x1, x2, x3, x4, x5, x6, x7] => do
    let y0 ← butterfly0X C x0 x4
    let y1 ← butterfly0X C x1 x5
    let y2 ← butterfly0X C x2 x6
    let y3 ← butterfly0X C x3 x7
    let k ← stepX C j 0 nr
    let u ← butterfly1X C S k (firstTwiddleX C S 3) y0 y2
    let k ← stepX C j 1 nr
    let v ← butterfly1X C S k (firstTwiddleX C S 3) y1 y3
    let twa := fun j : Ex => do
      let j8 ← (mul C (.int 8) j : Gen CSt Ex)
      firstTwiddleX C S 3 j8
    let k ← stepX C j1 0 nr
    let a ← butterflyS1X C k twa u.1 v.1
    let k ← stepX C j1 0 nr
    let b ← butterflyS1X C k twa u.2 v.2
    return [a.1, a.2, b.1, b.2]
  | _, _ => ofRes (.error .assertion)

/-- /repo/codelets.cc 487-493 `locs`: the indices `j + i*dj` for `i` from `i0`. -/
def locsX (j dj : Ex) : ℕ → ℕ → Gen CSt (List Ex)
  | _, 0 => return []
  | i0, n + 1 => do
    let e ← stepX C j i0 dj
    let l ← locsX j dj (i0 + 1) n
    return e :: l

/-- /repo/codelets.cc 549-552 `flatten`. -/
def flatten (l : List CEx) : List Ex := l.flatMap fun z => [z.re, z.im]

/-- /repo/codelets.cc 555-559 `thicken`. -/
def thicken : List Ex → Res (List CEx)
  | [] => .ok []
  | [_] => .error .assertion
  | a :: b :: l => do
    let r ← thicken l
    return ⟨a, b⟩ :: r

/-- /repo/codelets.cc 496-546 `gradient`, with fuel for every circuit. -/
def gradientX (xs ys dys : List Ex) : Gen CSt (List Ex) := fun st =>
  match gradient C (ys.length + (ys.flatMap Ex.subs).length) (S.name "unknown") xs ys dys st with
  | none => .error .assertion
  | some r => r

end

/-! ## Lines -/

/-- The operators of an assignment (/repo/codelets.cc 469-476). -/
inductive Put where
  | set
  | add
  | sub

/-- The lines of a butterfly. -/
inductive FLine where
  /-- `const auto v = 1 << (e);` (/repo/codelets.cc 765, 813) -/
  | pow2 (v : String) (e : Ex)
  /-- `const auto v = m << k;` (/repo/codelets.cc 784) -/
  | shl (v : String) (m : Ex) (k : ℕ)
  /-- `const auto v = e & (m-1);` (/repo/codelets.cc 785, 814) -/
  | low (v : String) (e m : Ex)
  /-- `const auto v = (e - j) << k;` (/repo/codelets.cc 815) -/
  | high (v : String) (e j : Ex) (k : ℕ)
  /-- `const auto v = y[e];` (/repo/codelets.cc 483) -/
  | load (v : String) (e : Ex)
  /-- `const auto v = e < xn ? x[e] : 0;` (/repo/codelets.cc 467) -/
  | loadX (v : String) (e : Ex)
  /-- `const auto v = e;` (/repo/codelets.cc 147) -/
  | def (v : String) (e : Ex)
  /-- `y[e] = Complex<S>(re, im);` (/repo/codelets.cc 484) -/
  | store (e re im : Ex)
  /-- `if (e < xn) x[e] = a;` and with `+=` or `-=` (/repo/codelets.cc 476) -/
  | storeX (e : Ex) (op : Put) (a : Ex)

/-- The lines a block has written since. -/
def newLines (B B' : Blk) : List FLine :=
  (B'.code.drop B.code.length).filterMap fun i => match i with
    | .def v e => some (.def v e)
    | _ => none

/-- Inserts a name that gets no line, as for the inputs of the transposed circuit (/repo/codelets.cc 129-134, 610). -/
def Blk.reserve (v : String) (B : Blk) : Res Blk := do
  slowAssert (v ∉ B.names)
  return { B with names := v :: B.names }

/-- `reserve` of several. -/
def Blk.reserveAll : List String → Blk → Res Blk
  | [], B => .ok B
  | v :: l, B => do
    let B ← B.reserve v
    Blk.reserveAll l B

/-- /repo/codelets.cc 484: writes to the complex cells. -/
def storesC (C : Cfg) : List (Ex × CEx) → Blk → Res (List FLine × Blk)
  | [], B => .ok ([], B)
  | p :: l, B => do
    let a ← compute C p.2.re B
    let b ← compute C p.2.im a.2
    let q ← storesC C l b.2
    return (newLines B b.2 ++ .store p.1 a.1 b.1 :: q.1, q.2)

/-- /repo/codelets.cc 468-476: the operator and the expression that is computed. -/
def putOf (add : Bool) (x : Ex) : Res (Put × Ex) :=
  if add then do
    let n ← x.unneg
    match n with
    | some nx => return (.sub, nx)
    | none => return (.add, x)
  else .ok (.set, x)

/-- /repo/codelets.cc 468-476: writes to the real cells. -/
def storesX (C : Cfg) (add : Bool) : List (Ex × Ex) → Blk → Res (List FLine × Blk)
  | [], B => .ok ([], B)
  | p :: l, B => do
    let o ← putOf add p.2
    let a ← compute C o.2 B
    let q ← storesX C add l a.2
    return (newLines B a.2 ++ .storeX p.1 o.1 a.1 :: q.1, q.2)

/-- The names `v0`, `v1`, …. -/
def numbered (pre : String) (n : ℕ) : List String := (List.range n).map fun i => pre ++ toString i

/-- What is generated for a butterfly: the lines, the expressions they are for, the inputs and outputs of the circuit that was
transposed, and the final state of the `CSE`. -/
structure FWritten where
  lines : List FLine
  results : List Ex
  xs : List Ex
  ys : List Ex
  cse : CSt

/-- /repo/codelets.cc 804-828: the indices and the results for one of the remaining butterflies.  Forward, lines 595-603
compute from the cells; backward, lines 605-613 transpose. -/
def levelsX (C : Cfg) (S : Seeds) (r : ℕ) (fwd : Bool) : Gen CSt (List Ex × List CEx × List Ex × List Ex) := do
  let j ← (add C (S.name "j0") (S.name "j1") : Gen CSt Ex)
  let ks ← locsX C j (S.name "m") 0 (2 ^ r)
  if fwd then
    let y ← splitAll C ((numbered "y" (2 ^ r)).map S.name)
    let z ← levelsBodyX C S r (S.name "j1") y
    ofRes (slowAssert (z.length = ks.length))
    return (ks, z, [], [])
  else
    let px ← splitAll C ((numbered "px" (2 ^ r)).map S.name)
    let py ← levelsBodyX C S r (S.name "j1") px
    let y ← splitAll C ((numbered "y" (2 ^ r)).map S.name)
    let g ← gradientX C S (flatten px) (flatten py) (flatten y)
    let z ← ofRes (thicken g)
    ofRes (slowAssert (z.length = ks.length))
    return (ks, z, flatten px, flatten py)

/-- The names declared before the cells are read (/repo/codelets.cc 630-634, 644, 812-815).  The name that `now` takes is the one
asked for when it is free, which `input` checks. -/
def levelsNames (r : ℕ) : List String := ["x", "xn", "y", "n" ++ toString (2 ^ (r + 1)), "j", "s", "m", "j1", "j0"]

/-- The first lines of a remaining butterfly (/repo/codelets.cc 813-815). -/
def levelsHead (S : Seeds) (r : ℕ) : List FLine :=
  [.pow2 "m" (S.name "s"), .low "j1" (S.name "j") (S.name "m"), .high "j0" (S.name "j") (S.name "j1") r]

/-- /repo/codelets.cc 804-830: the body of the loop of one of the remaining butterflies. -/
def levelsCode (C : Cfg) (S : Seeds) (r : ℕ) (fwd : Bool) : Res FWritten := do
  let B ← runActs C ((levelsNames r).map .input) Blk.empty
  let B ← if fwd then .ok B else Blk.reserveAll (numbered "px" (2 ^ r)) B
  let B ← runActs C ((numbered "y" (2 ^ r)).map .input) B
  let q ← levelsX C S r fwd ⟨true, [], []⟩
  let B ← runActs C ((flatten q.1.2.1).map .use) B
  let w ← storesC C (q.1.1.zip q.1.2.1) B
  let loads := ((numbered "y" (2 ^ r)).zip q.1.1).map fun p => FLine.load p.1 p.2
  return ⟨levelsHead S r ++ loads ++ w.1, flatten q.1.2.1, q.1.2.2.1, q.1.2.2.2, q.2⟩

/-- The count and the number of the iteration (/repo/codelets.cc 635-645): literals in a function without a loop. -/
def firstLoop (S : Seeds) (r : ℕ) : Ex × Ex := if r = 3 then (S.name "n8", S.name "j") else (.int 1, .int 0)

/-- The names declared before anything else (/repo/codelets.cc 630-634, 644, 764-765). -/
def firstNames (r : ℕ) : List String := ["x", "xn", "y"] ++ if r = 3 then ["n8", "j", "p", "m"] else ["p"]

/-- The names declared where the levels are computed (/repo/codelets.cc 784-785). -/
def firstInner (r : ℕ) : List String := if r = 3 then ["m3", "j1"] else []

/-- The line for `m` (/repo/codelets.cc 765); `p` is `p - 3`. -/
def firstHead (r : ℕ) (p : Ex) : List FLine := if r = 3 then [.pow2 "m" p] else []

/-- The lines for `m3` and `j1` (/repo/codelets.cc 784-785); `m3` has the signature of `m`, which line 784 shifts by zero. -/
def firstInnerLines (S : Seeds) (r : ℕ) : List FLine :=
  if r = 3 then [.shl "m3" (S.name "m") 0, .low "j1" (S.name "j") (.var "m3" (S.sig "m"))] else []

/-- What the expressions of the first butterflies are: the exponent of `m`, the indices of the real and of the complex cells, and
the results; forward there are complex results, backward real ones. -/
structure First where
  p : Ex
  kx : List Ex
  ky : List Ex
  fwd : List CEx
  bwd : List Ex
  xs : List Ex
  ys : List Ex

/-- /repo/codelets.cc 763-800: the indices and the results for one of the first butterflies. -/
def firstX (C : Cfg) (S : Seeds) (r : ℕ) (fwd : Bool) : Gen CSt First := do
  let p ← (if r = 3 then sub C (S.name "p") (.int 3) else pure (Ex.int 0) : Gen CSt Ex)
  let nr := (firstLoop S r).1
  let j := (firstLoop S r).2
  let kx ← locsX C j nr 0 (2 ^ r)
  let ky ← locsX C j nr 0 (2 ^ r / 2)
  if fwd then
    let z ← firstBodyX C S r nr j (S.name "j1") ((numbered "x" (2 ^ r)).map S.name)
    ofRes (slowAssert (z.length = ky.length))
    return ⟨p, kx, ky, z, [], [], []⟩
  else
    let px := (numbered "px" (2 ^ r)).map S.name
    let py ← firstBodyX C S r nr j (S.name "j1") px
    let y ← splitAll C ((numbered "y" (2 ^ r / 2)).map S.name)
    let z ← gradientX C S px (flatten py) (flatten y)
    ofRes (slowAssert (z.length = kx.length))
    return ⟨p, kx, ky, [], z, px, flatten py⟩

/-- /repo/codelets.cc 756-802: the body of one of the first butterflies, from the real to the complex cells. -/
def firstCode (C : Cfg) (S : Seeds) (r : ℕ) : Res FWritten := do
  let B ← runActs C ((firstNames r ++ numbered "x" (2 ^ r) ++ firstInner r).map .input) Blk.empty
  let q ← firstX C S r true ⟨true, [], []⟩
  let B ← runActs C ((flatten q.1.fwd).map .use) B
  let w ← storesC C (q.1.ky.zip q.1.fwd) B
  let loads := ((numbered "x" (2 ^ r)).zip q.1.kx).map fun p => FLine.loadX p.1 p.2
  return ⟨firstHead r q.1.p ++ loads ++ firstInnerLines S r ++ w.1, flatten q.1.fwd, [], [], q.2⟩

/-- /repo/codelets.cc 756-802: the body of one of the first butterflies, transposed, from the complex to the real cells. -/
def firstBack (C : Cfg) (S : Seeds) (r : ℕ) (add : Bool) : Res FWritten := do
  let B ← runActs C ((firstNames r).map .input) Blk.empty
  let B ← Blk.reserveAll (numbered "px" (2 ^ r)) B
  let B ← runActs C ((firstInner r ++ numbered "y" (2 ^ r / 2)).map .input) B
  let q ← firstX C S r false ⟨true, [], []⟩
  let B ← runActs C (q.1.bwd.map .use) B
  let w ← storesX C add (q.1.kx.zip q.1.bwd) B
  let loads := ((numbered "y" (2 ^ r / 2)).zip q.1.ky).map fun p => FLine.load p.1 p.2
  return ⟨firstHead r q.1.p ++ firstInnerLines S r ++ loads ++ w.1, q.1.bwd, q.1.xs, q.1.ys, q.2⟩

end Mandelbrot.Sym
