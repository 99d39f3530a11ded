import Verif.Series.Model

/-!
# Model of the series part of /repo/area.cc
-/

namespace Mandelbrot

namespace Ser

variable {K : Type} [Zero K] [One K] [Add K] [Sub K] [Neg K] [Mul K] [Div K] [IntCast K] [Ldexp K]
  [DecidableEq K]

/-- /repo/area.cc 21-32 `sub_si_2exp`: `z = a*x - 2^b*y`. -/
def subSi2exp (z : Ser K) (a : ℤ) (x : Ser K) (b : ℤ) (y : Ser K) : Res (Ser K) := do
  let nk := min x.known y.known
  let nz := min nk (max x.nonzero y.nonzero)
  let z ← z.setCounts nk nz
  return z.loopSet nz fun i =>
    let xi := if (i : ℤ) < x.nonzero then x.data i else 0
    let yi := if (i : ℤ) < y.nonzero then y.data i else 0
    (a : K) * xi - ldexp yi b

end Ser

namespace Area

variable {K : Type} [Zero K] [One K] [Add K] [Sub K] [Neg K] [Mul K] [Div K] [IntCast K] [Ldexp K]
  [DecidableEq K]

/-- The variables of `escape`: `h`, `dh` and the temporaries `t`, `s`. -/
structure EscState (K : Type) where
  h : Ser K
  dh : Ser K
  t : Ser K
  s : Ser K

/-- /repo/area.cc 44-59, one iteration of the loop of `escape`.  The multiplier `1-p` is converted to `int`
in the source; it is kept exact here (`i ≤ 31`). -/
def escapeStep (ker : Ker K) (J : Junk K) (g dg : Ser K) (n dn : ℤ) (i : ℕ) (st : EscState K) :
    Res (EscState K) := do
  let p : ℤ := 2 ^ i
  let t ← st.t.subSi2exp (1 - p) g i st.h
  let s ← Ser.log1pExp ker (J.sub 0) st.s (t.low (n - (p - 1))) (p - 1)
  let h ← st.h.highAddLdexp (p - 1) (-i) s
  let t ← t.reduceKnown (dn - (p - 1))
  let t ← t.highSub (p - 1) s
  let s ← Ser.exp ker (J.sub 1) s t
  let t ← t.subSi2exp (1 - p) dg i (st.dh.low (dn - (p - 1)))
  let t ← Ser.mul ker t s (t.low (dn - (p - 1)))
  let dh ← st.dh.highAddLdexp (p - 1) (-i) t
  return ⟨h, dh, t, s⟩

/-- /repo/area.cc 43-59, the loop of `escape`: iterations `1, ..., k`. -/
def escapeLoop (ker : Ker K) (J : Junk K) (g dg : Ser K) (n dn : ℤ) : ℕ → EscState K → Res (EscState K)
  | 0, st => .ok st
  | i + 1, st => do
    let st ← escapeLoop ker J g dg n dn i st
    escapeStep ker (J.sub i) g dg n dn (i + 1) st

/-- /repo/area.cc 35-60 `escape`; returns `(h, dh)`. -/
def escape (ker : Ker K) (J : Junk K) (h dh : Ser K) (k : ℕ) (g dg : Ser K) (n dn : ℤ) :
    Res (Ser K × Ser K) := do
  let h ← h.setScalar n 0
  let dh ← dh.setScalar dn 0
  let t := Ser.new n (J [0])
  let s := Ser.new n (J [1])
  let st ← escapeLoop ker (J.sub 2) g dg n dn k ⟨h, dh, t, s⟩
  return (st.h, st.dh)

/-- /repo/area.cc 63-69 `implicit`; returns `(F, dF)`. -/
def implicit (ker : Ker K) (J : Junk K) (F dF : Ser K) (k : ℕ) (g dg : Ser K) (n dn : ℤ) :
    Res (Ser K × Ser K) := do
  let (F, dF) ← escape ker J F dF k g dg n dn
  let F ← F.addAssign g
  let dF ← dF.addAssign dg
  return (F, dF)

/-- /repo/area.cc 94-99 `bottcher_base`. -/
def bottcherBase (J : Junk K) : Res (Ser K) := (Ser.new 1 (J [0])).setScalar 1 0

/-- `std::countr_zero(uint64_t(x))` for a 64-bit value. -/
def countrZeroI64 (x : ℤ) : ℕ := countrZero64 (toU64 x).toNat

/-- /repo/area.cc 102-106 `known_to_k`.  Shifting a 64-bit one by 64 is undefined; shifting it by 63 gives
the smallest `int64_t`. -/
def knownToK (known : ℤ) : Res ℕ := do
  let k := countrZeroI64 known
  if k ≥ 64 then throw .ub
  slowAssert (known = if k = 63 then -2 ^ 63 else 2 ^ k)
  return k

/-- /repo/area.cc 114 `const int64_t p = 1 << k` in `int` arithmetic: undefined for `k ≥ 32`, the smallest
`int` for `k = 31`. -/
def shl32 (k : ℕ) : Res ℤ :=
  if k ≥ 32 then .error .ub else if k = 31 then .ok (-2 ^ 31) else .ok (2 ^ k)

/-- /repo/area.cc 119-148, the part of one pass (`refine = 0` or `1`) that changes `g`.
Taking `copy(p)` and swapping gives new storage. -/
def bottcherPass (ker : Ker K) (J : Junk K) (k : ℕ) (p : ℤ) (refine : Bool) (g : Ser K) : Res (Ser K) := do
  let dp := if refine then p else p / 2
  let g ← g.copy p (J [0])
  let g ← g.setKnown p
  let dg ← (Ser.new dp (J [1])).setScalar dp 1
  if refine then
    let (F, dF) ← implicit ker (J.sub 2) (Ser.new p (J [3])) (Ser.new p (J [4])) k g dg p p
    let (F, _) ← implicit ker (J.sub 5) F (Ser.new 0 (J [6])) k g dg p 0
    let dg ← Ser.div ker (J.sub 7) dg F dF
    g.highSub (p / 2) (dg.high (p / 2))
  else
    let (F, dF) ← implicit ker (J.sub 2) (Ser.new p (J [3])) (Ser.new dp (J [4])) k g dg p dp
    let dg ← Ser.div ker (J.sub 7) dg (F.high dp) dF
    g.highSub dp dg

/-- /repo/area.cc 108-196 `bottcher_step`; returns the new `g` and `f`.  The comparison of the area with
known results (158-190) is a parameter: `accept k refine f` says whether the assertion of line 189 holds.
Printing is not modelled. -/
def bottcherStep (ker : Ker K) (J : Junk K) (accept : ℕ → Bool → Ser K → Bool) (g : Ser K) :
    Res (Ser K × Ser K) := do
  let k0 ← knownToK g.known
  let k := k0 + 1
  let p ← shl32 k
  let g ← bottcherPass ker (J.sub 0) k p false g
  let f ← Ser.exp ker (J.sub 1) (Ser.new p (J [2])) g
  slowAssert (accept k false f = true)
  let g ← bottcherPass ker (J.sub 3) k p true g
  let f ← Ser.exp ker (J.sub 4) (Ser.new p (J [5])) g
  slowAssert (accept k true f = true)
  return (g, f)

/-- /repo/area.cc 198-202 `areas`: the series `g` and the results `(f, g)` of every step. -/
def areas (ker : Ker K) (J : Junk K) (accept : ℕ → Bool → Ser K → Bool) : ℕ → Res (Ser K)
  | 0 => bottcherBase (J.sub 0)
  | k + 1 => do
    let g ← areas ker J accept k
    let (g, _) ← bottcherStep ker (J.sub (k + 1)) accept g
    return g

end Area

end Mandelbrot
