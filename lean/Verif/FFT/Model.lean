import Verif.Series.Model
import Mathlib.Data.ENat.Basic
import Mathlib.Analysis.SpecialFunctions.Complex.Circle
import Mathlib.Analysis.SpecialFunctions.Sqrt

/-!
# Model of /repo/fft.cc and of the butterfly codelets of /repo/codelets.cc

Scalars are exact real numbers: rounding of the `double` and `Expansion<2>` instances is not modelled, and a
table entry filled by `nearest_twiddle(s)` is the exact root of unity.  `Complex<S>` (/repo/complex.h 13-47) is
Mathlib's `ℂ`, whose `+`, `-`, `*` and `conj` are the formulas of /repo/complex.h 23-31 on real and imaginary parts.
Loops are the host versions (/repo/loops.h 42-50), so sizes are below `2^31`; C04 is about the device versions.
A buffer is a function from cell numbers; a cell that was never written holds an arbitrary value.
-/

namespace Mandelbrot.FFT

open Complex

/-- `exp(2πi a/b)`: what /repo/nearest.h 64-66 says `nearest_twiddle(a, b)` approximates. -/
noncomputable def cis (a : ℤ) (b : ℕ) : ℂ := exp (2 * Real.pi * I * a / b)

/-! ## Twiddle tables -/

/-- /repo/fft.cc 35-41 `twiddle_slice(s)`: entries of the table, exact. -/
noncomputable def twiddleTable (s : ℕ) (j : ℤ) : ℂ := cis j (2 * 2 ^ s)

/-- /repo/fft.cc 38: number of entries of the table. -/
def twiddleTableSize (s : ℕ) : ℤ := 2 ^ s / 4 + 1

/-- The index read by a lookup and the three symmetries applied to the entry. -/
structure Lookup where
  idx : ℤ
  iflip : Bool
  rflip : Bool
  dflip : Bool

/-- /repo/fft.cc 98-106, `j & (2*m-1)` with `m` a power of two being the remainder modulo `2*m`. -/
def lookup (m j : ℤ) : Lookup :=
  let j := j % (2 * m)
  let iflip := decide (j > m)
  let j := if iflip then 2 * m - j else j
  let rflip := decide (j > m / 2)
  let j := if rflip then m - j else j
  let dflip := decide (j > m / 4)
  let j := if dflip then m / 2 - j else j
  ⟨j, iflip, rflip, dflip⟩

/-- /repo/fft.cc 107-111: the symmetries applied to a table entry. -/
def Lookup.fix (l : Lookup) (t : ℂ) : ℂ :=
  let t : ℂ := if l.dflip then ⟨t.im, t.re⟩ else t
  let t : ℂ := if l.rflip then ⟨-t.re, t.im⟩ else t
  if l.iflip then ⟨t.re, -t.im⟩ else t

/-- /repo/fft.cc 82-85 and 98-112: `slice(s)` as a function of the index. -/
noncomputable def slice (s : ℕ) (j : ℤ) : ℂ :=
  let l := lookup (2 ^ s) j
  l.fix (twiddleTable s l.idx)

/-- /repo/fft.cc 69-78: entry `j` of the row of `few` at level `s`. -/
noncomputable def few (s : ℕ) (j : ℤ) : ℂ := cis j (2 * 2 ^ s)

/-- /repo/fft.cc 44 `s_limit`: number of rows of `few`. -/
def sLimit : ℕ∞ := 30

/-- /repo/fft.cc 87-90 and 119-123: `big_slice(s)` as a function of the index.  Rows of `few` from `lim` on are
past the end of the array; `lim` is `sLimit` in the code, and `⊤` stands for a table without end. -/
noncomputable def bigSlice (lim : ℕ∞) (s : ℕ) : Res (ℤ → ℂ) := do
  slowAssert (s ≥ 2)
  if (s : ℕ∞) < lim then .ok fun j => slice (s - 2) (j / 4) * few s (j % 4) else .error .ub

/-! ## Permutations -/

/-- `bitreverse` (/repo/bit.h 25-29) on a word of `w` bits. -/
def bitReverse : ℕ → ℕ → ℕ
  | 0, _ => 0
  | w + 1, n => n % 2 * 2 ^ w + bitReverse w (n / 2)

/-- `swap(y[i], y[j])`. -/
def swapCells {α : Type} (y : ℕ → α) (i j : ℕ) : ℕ → α :=
  fun k => if k = i then y j else if k = j then y i else y k

/-- A `for` loop over `0, ..., n-1` (/repo/loops.h 42-50 for the `DEF_LOOP` functions). -/
def forLoop {σ : Type} (n : ℕ) (body : ℕ → σ → σ) (s : σ) : σ :=
  (List.range n).foldl (fun s i => body i s) s

/-- /repo/fft.cc 136-145 `bitrev` on a span of `n` cells.  For odd `n`, so for `n = 1`, the word is shifted by its
whole width, which is undefined. -/
def bitrev {α : Type} (n : ℕ) (y : ℕ → α) : Res (ℕ → α) :=
  let p := countrZero64 n
  if p = 0 then .error .ub else
    .ok (forLoop n (fun i y =>
      let j := bitReverse 64 i >>> (64 - p)
      if i < j then swapCells y i j else y) y)

/-- `std::reverse(p + a, p + b)` on a buffer. -/
def reverseCells {α : Type} (a b : ℕ) (y : ℕ → α) : ℕ → α :=
  fun k => if a ≤ k ∧ k < b then y (a + (b - 1 - k)) else y k

/-- /repo/fft.cc 149-156 `reverses` on the span of `n` cells starting at cell `o`. -/
def reverses {α : Type} (o n : ℕ) (y : ℕ → α) : ℕ → α :=
  if n ≤ 2 then y else
    let y := reverses o (n / 2) y
    let y := reverses (o + n / 2) (n / 2) y
    reverseCells (o + n / 2) (o + n) y
termination_by n
decreasing_by all_goals omega

/-- /repo/fft.cc 157-164 `unreverses`. -/
def unreverses {α : Type} (o n : ℕ) (y : ℕ → α) : ℕ → α :=
  if n ≤ 2 then y else
    let y := reverseCells (o + n / 2) (o + n) y
    let y := unreverses o (n / 2) y
    unreverses (o + n / 2) (n / 2) y
termination_by n
decreasing_by all_goals omega

/-- /repo/fft.cc 165-168 `shifted_permute`. -/
def shiftedPermute {α : Type} (n : ℕ) (y : ℕ → α) : Res (ℕ → α) := do
  let y ← bitrev n y
  return reverses 0 n y

/-- /repo/fft.cc 169-172 `shifted_unpermute`. -/
def shiftedUnpermute {α : Type} (n : ℕ) (y : ℕ → α) : Res (ℕ → α) :=
  bitrev n (unreverses 0 n y)

/-! ## Complex transform -/

/-- The `i`th real number of an array of complex numbers seen through `reinterpret_cast<S*>`. -/
def realCell (y : ℕ → ℂ) (i : ℕ) : ℝ := if i % 2 = 0 then (y (i / 2)).re else (y (i / 2)).im

/-- Assignment to the `i`th real number of an array of complex numbers. -/
def setRealCell (y : ℕ → ℂ) (i : ℕ) (v : ℝ) : ℕ → ℂ :=
  Function.update y (i / 2) (if i % 2 = 0 then ⟨v, (y (i / 2)).im⟩ else ⟨(y (i / 2)).re, v⟩)

/-- /repo/fft.cc 174-175 `fft_butterfly_0`. -/
def fftButterfly0 (twoN : ℕ) (y : ℕ → ℂ) (x : Span ℝ) : ℕ → ℂ :=
  forLoop twoN (fun i y => setRealCell y i (x.getZ i)) y

/-- /repo/fft.cc 177-186 `fft_butterfly_s`. -/
def fftButterflyS (n2 : ℕ) (y : ℕ → ℂ) (twiddle : ℤ → ℂ) (s : ℕ) : ℕ → ℂ :=
  forLoop n2 (fun jk y =>
    let m := 1 <<< s
    let j := jk &&& (m - 1)
    let k := (jk - j) <<< 1
    let u0 := y (k + j) + y (k + j + m)
    let u1 := y (k + j) - y (k + j + m)
    let y := Function.update y (k + j) u0
    Function.update y (k + j + m) (u1 * (starRingEnd ℂ) (twiddle j))) y

/-- /repo/fft.cc 203-204: the loop over `s` from `p - 1` down to 0. -/
noncomputable def fftLoop (n2 : ℕ) : ℕ → (ℕ → ℂ) → (ℕ → ℂ)
  | 0, y => y
  | s + 1, y => fftLoop n2 s (fftButterflyS n2 y (slice s) s)

/-- /repo/fft.cc 189-205 `fft_bitrev` on a span of `n` cells. -/
noncomputable def fftBitrev (n : ℕ) (y : ℕ → ℂ) (x : Span ℝ) : Res (ℕ → ℂ) :=
  if n = 0 then .ok y else do
    let p := countrZero64 n
    slowAssert (n = 2 ^ p ∧ x.len ≤ 2 * n)
    let y := fftButterfly0 (2 * n) y x
    return fftLoop (n / 2) p y

/-- /repo/fft.cc 207-208 `ifft_butterfly_0`: the cells of the output span. -/
def ifftButterfly0 (xn : ℕ) (x : ℕ → ℝ) (y : ℕ → ℂ) : ℕ → ℝ :=
  forLoop xn (fun i x => Function.update x i (realCell y i)) x

/-- /repo/fft.cc 210-219 `ifft_butterfly_s`. -/
def ifftButterflyS (n2 : ℕ) (y : ℕ → ℂ) (twiddle : ℤ → ℂ) (s : ℕ) : ℕ → ℂ :=
  forLoop n2 (fun jk y =>
    let m := 1 <<< s
    let j := jk &&& (m - 1)
    let k := (jk - j) <<< 1
    let u0 := y (k + j)
    let u1 := y (k + j + m) * twiddle j
    let y := Function.update y (k + j) (u0 + u1)
    Function.update y (k + j + m) (u0 - u1)) y

/-- /repo/fft.cc 233-234: the loop over `s` from 0 to `p - 1`. -/
noncomputable def ifftLoop (n2 : ℕ) : ℕ → (ℕ → ℂ) → (ℕ → ℂ)
  | 0, y => y
  | s + 1, y => ifftButterflyS n2 (ifftLoop n2 s y) (slice s) s

/-- /repo/fft.cc 222-238 `ifft_bitrev`: output cells `x` (`xn` of them), input of `n` cells. -/
noncomputable def ifftBitrev (xn : ℕ) (x : ℕ → ℝ) (n : ℕ) (y : ℕ → ℂ) : Res (ℕ → ℝ) :=
  if n = 0 then .ok x else do
    let p := countrZero64 n
    slowAssert (n = 2 ^ p ∧ xn ≤ 2 * n)
    let y := ifftLoop (n / 2) p y
    return ifftButterfly0 xn x y

/-- /repo/fft.cc 240-243 `fft`. -/
noncomputable def fft (n : ℕ) (y : ℕ → ℂ) (x : Span ℝ) : Res (ℕ → ℂ) := do
  let y ← fftBitrev n y x
  bitrev n y

/-- /repo/fft.cc 245-248 `ifft`. -/
noncomputable def ifft (xn : ℕ) (x : ℕ → ℝ) (n : ℕ) (y : ℕ → ℂ) : Res (ℕ → ℝ) := do
  let y ← bitrev n y
  ifftBitrev xn x n y

/-! ## Real transform -/

/-- `left(z) = iz` (/repo/complex.h 32). -/
def left (z : ℂ) : ℂ := ⟨-z.im, z.re⟩
/-- `right(z) = -iz` (/repo/complex.h 33). -/
def right (z : ℂ) : ℂ := ⟨z.im, -z.re⟩
/-- `half(z)` (/repo/complex.h 35). -/
noncomputable def half (z : ℂ) : ℂ := ⟨z.re / 2, z.im / 2⟩
/-- `twice(z)` (/repo/complex.h 34). -/
def twice (z : ℂ) : ℂ := ⟨z.re + z.re, z.im + z.im⟩

/-- /repo/fft.cc 251-253 `bitrev_neg` for `0 ≤ i < 2^31`; `31 - countl_zero(i)` is `Nat.log 2 i`. -/
def bitrevNeg (i : ℕ) : ℕ := if i ≠ 0 then i ^^^ ((1 <<< Nat.log 2 i) - 1) else 0

/-- /repo/fft.cc 255-257 `rfft_post_n2`. -/
def rfftPostN2 (y : ℕ → ℂ) : ℕ → ℂ :=
  Function.update y 0 ⟨(y 0).re + (y 0).im, (y 0).re - (y 0).im⟩

/-- /repo/fft.cc 259-277 `rfft_post`. -/
noncomputable def rfftPost (n4 : ℕ) (y : ℕ → ℂ) (twiddle : ℤ → ℂ) (p : ℕ) : ℕ → ℂ :=
  forLoop n4 (fun j y =>
    let j1 := if j ≠ 0 then bitrevNeg (2 * j) else 1
    let a := y (2 * j)
    let b := y j1
    let st : ℂ × ℂ :=
      if j ≠ 0 then
        let i := bitReverse 32 j >>> (34 - p)
        let e := left ((starRingEnd ℂ) (twiddle i))
        let u := a + (starRingEnd ℂ) b
        let v := e * (a - (starRingEnd ℂ) b)
        (half (u - v), half ((starRingEnd ℂ) (u + v)))
      else (⟨a.re + a.im, a.re - a.im⟩, (starRingEnd ℂ) b)
    let y := Function.update y (2 * j) st.1
    Function.update y j1 st.2) y

/-- /repo/fft.cc 279-298 `irfft_pre`. -/
noncomputable def irfftPre (n4 : ℕ) (y : ℕ → ℂ) (twiddle : ℤ → ℂ) (p : ℕ) : ℕ → ℂ :=
  forLoop n4 (fun j y =>
    let j1 := if j ≠ 0 then bitrevNeg (2 * j) else 1
    let s := y (2 * j)
    let t := y j1
    let ab : ℂ × ℂ :=
      if j ≠ 0 then
        let i := bitReverse 32 j >>> (34 - p)
        let e := right (twiddle i)
        let u := (starRingEnd ℂ) t + s
        let v := e * ((starRingEnd ℂ) t - s)
        (u + v, (starRingEnd ℂ) (u - v))
      else (⟨s.re + s.im, s.re - s.im⟩, twice ((starRingEnd ℂ) t))
    let y := Function.update y (2 * j) ab.1
    Function.update y j1 ab.2) y

/-- /repo/fft.cc 300-316 `rfft_bitrev` on a span of `yn` cells.  For a size that is not a power of two the call
of `fft_bitrev` throws. -/
noncomputable def rfftBitrev (yn : ℕ) (y : ℕ → ℂ) (x : Span ℝ) : Res (ℕ → ℂ) :=
  let n := 2 * yn
  if n = 0 then .ok y else do
    let p := countrZero64 n
    let y ← fftBitrev yn y x
    if p = 1 then return rfftPostN2 y
    else return rfftPost (n / 4) y (slice (p - 1)) p

/-- /repo/fft.cc 318-334 `irfft_bitrev`.  For an even size that is not a power of two the loop `irfft_pre` leaves the
span before `ifft_bitrev` can throw: with `2^t` the largest power of two below `yn`, `bitrev_neg(2^t) = 2^(t+1) - 1`. -/
noncomputable def irfftBitrev (xn : ℕ) (x : ℕ → ℝ) (yn : ℕ) (y : ℕ → ℂ) : Res (ℕ → ℝ) :=
  let n := 2 * yn
  if n = 0 then .ok x else
    let p := countrZero64 n
    if p ≠ 1 ∧ n ≠ 2 ^ p then .error .ub else
      let y := if p = 1 then rfftPostN2 y else irfftPre (n / 4) y (slice (p - 1)) p
      ifftBitrev xn x yn y

/-- /repo/fft.cc 336-339 `rfft`. -/
noncomputable def rfft (yn : ℕ) (y : ℕ → ℂ) (x : Span ℝ) : Res (ℕ → ℂ) := do
  let y ← rfftBitrev yn y x
  bitrev yn y

/-- /repo/fft.cc 341-344 `irfft`. -/
noncomputable def irfft (xn : ℕ) (x : ℕ → ℝ) (yn : ℕ) (y : ℕ → ℂ) : Res (ℕ → ℝ) := do
  let y ← bitrev yn y
  irfftBitrev xn x yn y

/-! ## Butterflies of the shifted real transform -/

/-- `diag<1>(a, z)` (/repo/complex.h 50-54). -/
def diagPos (a : ℝ) (z : ℂ) : ℂ := ⟨a * (z.re - z.im), a * (z.im + z.re)⟩
/-- `diag<-1>(a, z)` (/repo/complex.h 50-54). -/
def diagNeg (a : ℝ) (z : ℂ) : ℂ := ⟨a * (z.re + z.im), a * (z.im - z.re)⟩

/-- `constant_sqrt_half()` (/repo/codelets.cc 571-574), exact. -/
noncomputable def sqrtHalf : ℝ := Real.sqrt (1 / 2)

/-- `constant_twiddle(j, s)` (/repo/codelets.cc 576-586), exact. -/
noncomputable def constantTwiddle (j : ℤ) (s : ℕ) : ℂ := cis j (2 * 2 ^ s)

local notation "conj" => starRingEnd ℂ

/-- /repo/codelets.cc 668-670 `butterfly_0`. -/
def butterfly0 (x0 x1 : ℝ) : ℂ := ⟨x0, -x1⟩

/-- /repo/codelets.cc 674-679 `butterfly_1`. -/
noncomputable def butterfly1 (j : ℤ) (twiddle : ℤ → ℂ) (y0 y1 : ℂ) : ℂ × ℂ :=
  let z1 := diagNeg sqrtHalf y1
  let u0 := conj (twiddle j) * (y0 + z1)
  let u1 := conj (twiddle (3 * j) * (y0 - z1))
  (u0, u1)

/-- /repo/codelets.cc 682-686 `butterfly_s1`. -/
def butterflyS1 (j : ℤ) (twiddle : ℤ → ℂ) (y0 y1 : ℂ) : ℂ × ℂ :=
  let u0 := y0 + y1
  let u1 := conj (twiddle j * (y0 - y1))
  (u0, u1)

/-- /repo/codelets.cc 689-704 `butterfly_s2`. -/
def butterflyS2 (j : ℤ) (twiddle : ℤ → ℂ) (y : ℕ → ℂ) : ℕ → ℂ :=
  let w1 := twiddle j
  let w2 := twiddle (2 * j)
  let u0 := y 0 + y 2
  let u1 := y 1 + y 3
  let t0 := y 0 - y 2
  let t1 := y 1 - y 3
  let c0 := u0 + u1
  let c1 := conj (w2 * (u0 - u1))
  let c2 := conj (w1 * (t0 + left t1))
  let c3 := conj w1 * (t0 - left t1)
  fun i => match i with | 0 => c0 | 1 => c1 | 2 => c2 | 3 => c3 | _ => 0

/-- /repo/codelets.cc 707-742 `butterfly_s3`. -/
noncomputable def butterflyS3 (j : ℤ) (twiddle : ℤ → ℂ) (y : ℕ → ℂ) : ℕ → ℂ :=
  let w1 := twiddle j
  let w2 := twiddle (2 * j)
  let w3 := twiddle (3 * j)
  let w4 := twiddle (4 * j)
  let u0 := y 0 + y 4
  let u1 := y 1 + y 5
  let u2 := y 2 + y 6
  let u3 := y 3 + y 7
  let t0 := y 0 - y 4
  let t1 := y 1 - y 5
  let t2 := y 2 - y 6
  let t3 := y 3 - y 7
  let b0 := u0 + u2
  let b1 := u1 + u3
  let b2 := t0 + left t2
  let b3 := diagPos sqrtHalf (t1 + left t3)
  let c0 := u0 - u2
  let c1 := u1 - u3
  let c2 := t0 - left t2
  let c3 := diagNeg sqrtHalf (t1 - left t3)
  let d0 := b0 + b1
  let d1 := conj (w4 * (b0 - b1))
  let d2 := conj (w2 * (c0 + left c1))
  let d3 := conj w2 * (c0 - left c1)
  let d4 := conj (w1 * (b2 + b3))
  let d5 := conj w3 * (b2 - b3)
  let d6 := conj w1 * (c2 + c3)
  let d7 := conj (w3 * (c2 - c3))
  fun i => match i with
    | 0 => d0 | 1 => d1 | 2 => d2 | 3 => d3 | 4 => d4 | 5 => d5 | 6 => d6 | 7 => d7 | _ => 0

/-- The radix `2^r` butterfly of the codelets `srfft_butterfly_s1`, `_s2`, `_s3` (/repo/codelets.cc 817-826). -/
noncomputable def butterflyR (r : ℕ) (j : ℤ) (twiddle : ℤ → ℂ) (y : ℕ → ℂ) : ℕ → ℂ :=
  match r with
  | 1 => let u := butterflyS1 j twiddle (y 0) (y 1)
         fun i => match i with | 0 => u.1 | 1 => u.2 | _ => 0
  | 2 => butterflyS2 j twiddle y
  | _ => butterflyS3 j twiddle y

/-- /repo/codelets.cc 775-798: the first `r` levels on the `2^r` inputs `x` of one iteration `j`; the results are
the `2^(r-1)` outputs.  For `r = 3`, `m = 1 << (p-3)` (765, 784) and `j1 = j & (m-1)` (785). -/
noncomputable def firstLevels (r : ℕ) (j nr m : ℕ) (tw : ℤ → ℂ) (x : ℕ → ℝ) : ℕ → ℂ :=
  match r with
  | 1 => fun i => match i with | 0 => butterfly0 (x 0) (x 1) | _ => 0
  | 2 =>
    let y0 := butterfly0 (x 0) (x 2)
    let y1 := butterfly0 (x 1) (x 3)
    let u := butterfly1 j tw y0 y1
    fun i => match i with | 0 => u.1 | 1 => u.2 | _ => 0
  | _ =>
    let y0 := butterfly0 (x 0) (x 4)
    let y1 := butterfly0 (x 1) (x 5)
    let y2 := butterfly0 (x 2) (x 6)
    let y3 := butterfly0 (x 3) (x 7)
    let u := butterfly1 j tw y0 y2
    let v := butterfly1 ((j + nr : ℕ) : ℤ) tw y1 y3
    let j1 := j &&& (m - 1)
    let twa := fun j : ℤ => tw (8 * j)
    let a := butterflyS1 j1 twa u.1 v.1
    let b := butterflyS1 j1 twa u.2 v.2
    fun i => match i with | 0 => a.1 | 1 => a.2 | 2 => b.1 | 3 => b.2 | _ => 0

/-! ## Symbolic transposes

The backward codelets compute `gradient(px, f(px), y)` (/repo/codelets.cc 605-613), by C42 the sums over the
outputs of the partial derivatives times `y`.  The forward codelets are linear in their inputs, so the partial
derivative for an input is the value of the codelet at that unit vector.
-/

/-- Unit vector. -/
def unit {α : Type} [Zero α] (i : ℕ) (v : α) : ℕ → α := fun k => if k = i then v else 0

/-- Gradient of a circuit with `b` complex outputs in its `i`th real input, with differentials `c`
(/repo/codelets.cc 496-564). -/
noncomputable def transposeR (b : ℕ) (f : (ℕ → ℝ) → ℕ → ℂ) (c : ℕ → ℂ) (i : ℕ) : ℝ :=
  ∑ k ∈ Finset.range b, ((f (unit i 1) k).re * (c k).re + (f (unit i 1) k).im * (c k).im)

/-- Gradient of a circuit with `b` complex outputs in its `i`th complex input. -/
noncomputable def transposeC (b : ℕ) (f : (ℕ → ℂ) → ℕ → ℂ) (c : ℕ → ℂ) (i : ℕ) : ℂ :=
  ⟨∑ k ∈ Finset.range b, ((f (unit i 1) k).re * (c k).re + (f (unit i 1) k).im * (c k).im),
   ∑ k ∈ Finset.range b, ((f (unit i I) k).re * (c k).re + (f (unit i I) k).im * (c k).im)⟩

/-! ## Shifted real transform -/

/-- The writes of one iteration, `y[a + i*dj] = v(i)` for `i < R` (/repo/codelets.cc 484, 490-491). -/
def scatter {α : Type} (a dj : ℕ) (v : ℕ → α) : ℕ → (ℕ → α) → (ℕ → α)
  | 0, y => y
  | R + 1, y => Function.update (scatter a dj v R y) (a + R * dj) (v R)

/-- The writes of one iteration into the real span of `xn` cells, `if (k < xn) x[k] = v(i)` or `+= v(i)`
(/repo/codelets.cc 468-476). -/
def scatterX (add : Bool) (xn a dj : ℕ) (v : ℕ → ℝ) : ℕ → (ℕ → ℝ) → (ℕ → ℝ)
  | 0, x => x
  | R + 1, x =>
    let x := scatterX add xn a dj v R x
    let k := a + R * dj
    if k < xn then Function.update x k (if add then x k + v R else v R) else x

/-- /repo/codelets.cc 756-802: the forward codelets `srfft_butterfly_0`, `_01`, `_012`, a loop of `cnt` iterations
with stride `nr = cnt`. -/
noncomputable def srfftFirst (r cnt m : ℕ) (tw : ℤ → ℂ) (y : ℕ → ℂ) (x : Span ℝ) : ℕ → ℂ :=
  forLoop cnt (fun j y =>
    let xs := fun i => x.getZ (j + i * cnt)
    scatter j cnt (firstLevels r j cnt m tw xs) (2 ^ r / 2) y) y

/-- /repo/codelets.cc 756-802: the backward codelets `isrfft_butterfly_0`, `_01`, `_012` and `add_isrfft_...`. -/
noncomputable def isrfftLast (add : Bool) (r cnt m : ℕ) (tw : ℤ → ℂ) (y : ℕ → ℂ) (xn : ℕ) (x : ℕ → ℝ) : ℕ → ℝ :=
  forLoop cnt (fun j x =>
    let ys := fun i => y (j + i * cnt)
    scatterX add xn j cnt (transposeR (2 ^ r / 2) (firstLevels r j cnt m tw) ys) (2 ^ r) x) x

/-- /repo/codelets.cc 804-830: the forward codelets `srfft_butterfly_s1`, `_s2`, `_s3`. -/
noncomputable def srfftLevels (r cnt : ℕ) (y : ℕ → ℂ) (tw : ℤ → ℂ) (s : ℕ) : ℕ → ℂ :=
  forLoop cnt (fun j y =>
    let m := 1 <<< s
    let j1 := j &&& (m - 1)
    let j0 := (j - j1) <<< r
    let ys := fun i => y (j0 + j1 + i * m)
    scatter (j0 + j1) m (butterflyR r j1 tw ys) (2 ^ r) y) y

/-- /repo/codelets.cc 804-830: the backward codelets `isrfft_butterfly_s1`, `_s2`, `_s3`. -/
noncomputable def isrfftLevels (r cnt : ℕ) (y : ℕ → ℂ) (tw : ℤ → ℂ) (s : ℕ) : ℕ → ℂ :=
  forLoop cnt (fun j y =>
    let m := 1 <<< s
    let j1 := j &&& (m - 1)
    let j0 := (j - j1) <<< r
    let ys := fun i => y (j0 + j1 + i * m)
    scatter (j0 + j1) m (transposeC (2 ^ r) (butterflyR r j1 tw) ys) (2 ^ r) y) y

/-- /repo/fft.cc 365-371; the argument counts the levels still to do, so that `s` is one less. -/
noncomputable def srfftLoop (n : ℕ) : ℕ → (ℕ → ℂ) → (ℕ → ℂ)
  | 0, y => y
  | 1, y => srfftLevels 1 (n / 4) y (slice 0) 0
  | 2, y => srfftLevels 2 (n / 8) y (slice 1) 0
  | s + 3, y => srfftLoop n s (srfftLevels 3 (n / 16) y (slice (s + 2)) s)

/-- /repo/fft.cc 347-372 `srfft_scramble` on a span of `yn` cells. -/
noncomputable def srfftScramble (lim : ℕ∞) (yn : ℕ) (y : ℕ → ℂ) (x : Span ℝ) : Res (ℕ → ℂ) :=
  let n := 2 * yn
  if n = 0 then .ok y else do
    let p := countrZero64 n
    slowAssert (n = 2 ^ p ∧ x.len ≤ n)
    let y ← match p with
      | 1 => .ok (srfftFirst 1 1 0 (fun j => constantTwiddle j 1) y x)
      | 2 => .ok (srfftFirst 2 1 0 (fun j => constantTwiddle j 2) y x)
      | _ => do
        let tw ← bigSlice lim p
        .ok (srfftFirst 3 (n / 8) (1 <<< (p - 3)) tw y x)
    return srfftLoop n (p - 3) y

/-- /repo/fft.cc 386-390; the first argument bounds the number of iterations. -/
noncomputable def isrfftLoop (n p : ℕ) : ℕ → ℕ → (ℕ → ℂ) → (ℕ → ℂ)
  | 0, _, y => y
  | fuel + 1, s, y =>
    if s < p - 3 then
      if s = 0 ∧ p % 3 = 1 then
        isrfftLoop n p fuel (s + 1) (isrfftLevels 1 (n / 4) y (slice 0) 0)
      else if s = 0 ∧ p % 3 = 2 then
        isrfftLoop n p fuel (s + 2) (isrfftLevels 2 (n / 8) y (slice 1) 0)
      else isrfftLoop n p fuel (s + 3) (isrfftLevels 3 (n / 16) y (slice (s + 2)) s)
    else y

/-- /repo/fft.cc 375-406 `isrfft_scramble`: output cells `x` (`xn` of them), input of `yn` cells. -/
noncomputable def isrfftScramble (lim : ℕ∞) (add : Bool) (xn : ℕ) (x : ℕ → ℝ) (yn : ℕ) (y : ℕ → ℂ) :
    Res (ℕ → ℝ) :=
  let n := 2 * yn
  if n = 0 then .ok x else do
    let p := countrZero64 n
    slowAssert (n = 2 ^ p ∧ xn ≤ 2 * n)
    let y := isrfftLoop n p p 0 y
    match p with
      | 1 => .ok (isrfftLast add 1 1 0 (fun j => constantTwiddle j 1) y xn x)
      | 2 => .ok (isrfftLast add 2 1 0 (fun j => constantTwiddle j 2) y xn x)
      | _ => do
        let tw ← bigSlice lim p
        .ok (isrfftLast add 3 (n / 8) (1 <<< (p - 3)) tw y xn x)

/-- /repo/fft.cc 408-411 `srfft`. -/
noncomputable def srfft (lim : ℕ∞) (yn : ℕ) (y : ℕ → ℂ) (x : Span ℝ) : Res (ℕ → ℂ) := do
  let y ← srfftScramble lim yn y x
  shiftedPermute yn y

/-- /repo/fft.cc 413-416 `isrfft`. -/
noncomputable def isrfft (lim : ℕ∞) (xn : ℕ) (x : ℕ → ℝ) (yn : ℕ) (y : ℕ → ℂ) : Res (ℕ → ℝ) := do
  let y ← shiftedUnpermute yn y
  isrfftScramble lim false xn x yn y

/-! ## Multiplication -/

/-- /repo/codelets.cc 311-312: `mul_base_n` and `sqr_base_n`. -/
def mulBaseN : ℕ := 8

/-- /repo/codelets.cc 324-345 `mul_base`: all inputs are read first, then `z[i]` is written for `i < min(nz, 8)`. -/
def mulBase (nz : ℕ) (z : ℕ → ℝ) (x y : Span ℝ) : ℕ → ℝ :=
  fun i => if i < nz ∧ i < mulBaseN then ∑ j ∈ Finset.range (i + 1), x.getZ j * y.getZ (i - j) else z i

/-- /repo/codelets.cc 347-369 `sqr_base`: twice the sum over `j < i - j`, plus the square of the middle term. -/
def sqrBase (ny : ℕ) (y : ℕ → ℝ) (x : Span ℝ) : ℕ → ℝ :=
  fun i => if i < ny ∧ i < mulBaseN then
      2 * (∑ j ∈ (Finset.range (i + 1)).filter (fun j => j < i - j), x.getZ j * x.getZ (i - j)) +
        (if i % 2 = 0 then x.getZ (i / 2) * x.getZ (i / 2) else 0)
    else y i

/-- /repo/fft.cc 418-419 `mul_cwise_loop`. -/
def mulCwise (n : ℕ) (fx fy : ℕ → ℂ) (a : ℝ) : ℕ → ℂ :=
  forLoop n (fun i fx => Function.update fx i ((a : ℂ) * fx i * fy i)) fx

/-- /repo/fft.cc 421-422 `sqr_cwise_loop`, with `sqr` of /repo/complex.h 30. -/
def sqrCwise (n : ℕ) (fx : ℕ → ℂ) (a : ℝ) : ℕ → ℂ :=
  forLoop n (fun i fx => Function.update fx i
    ((a : ℂ) * ⟨(fx i).re * (fx i).re - (fx i).im * (fx i).im,
      (fx i).re * (fx i).im + (fx i).re * (fx i).im⟩)) fx

/-- /repo/fft.cc 436-460 `fft_mul` (with `srfft_mul` true, 434): `z` are the cells of the output span before the
call and `junk` the uninitialised buffer. -/
noncomputable def fftMul (lim : ℕ∞) (junk : ℕ → ℂ) (nz : ℕ) (z : ℕ → ℝ) (x y : Span ℝ) : Res (ℕ → ℝ) := do
  slowAssert ((nz : ℤ) ≤ relu ((x.len : ℤ) + y.len - 1))
  if nz ≤ mulBaseN then return mulBase nz z x y
  else do
    let fn := bitCeil (2 * nz)
    let fx ← srfftScramble lim (fn / 2) junk x
    let fy ← srfftScramble lim (fn / 2) (fun i => junk (fn / 2 + i)) y
    let fx := mulCwise (fn / 2) fx fy (1 / ((fn / 2 : ℕ) : ℝ))
    isrfftScramble lim false nz z (fn / 2) fx

/-- /repo/fft.cc 462-477 `fft_addmul`.  `middle` is what the function passed as argument does to the cells of `z`. -/
noncomputable def fftAddmul (lim : ℕ∞) (junk : ℕ → ℂ) (nz : ℕ) (z : ℕ → ℝ) (x y : Span ℝ)
    (middle : (ℕ → ℝ) → Res (ℕ → ℝ)) : Res (ℕ → ℝ) := do
  slowAssert ((nz : ℤ) ≤ relu ((x.len : ℤ) + y.len - 1))
  let fn := bitCeil (2 * nz)
  let fx ← srfftScramble lim (fn / 2) junk x
  let fy ← srfftScramble lim (fn / 2) (fun i => junk (fn / 2 + i)) y
  let fx := mulCwise (fn / 2) fx fy (1 / ((fn / 2 : ℕ) : ℝ))
  let z ← middle z
  isrfftScramble lim true nz z (fn / 2) fx

/-- /repo/fft.cc 479-499 `fft_sqr`. -/
noncomputable def fftSqr (lim : ℕ∞) (junk : ℕ → ℂ) (ny : ℕ) (y : ℕ → ℝ) (x : Span ℝ) : Res (ℕ → ℝ) := do
  slowAssert ((ny : ℤ) ≤ relu (2 * (x.len : ℤ) - 1))
  if ny ≤ mulBaseN then return sqrBase ny y x
  else do
    let fn := bitCeil (2 * ny)
    let fx ← srfftScramble lim (fn / 2) junk x
    let fx := sqrCwise (fn / 2) fx (1 / ((fn / 2 : ℕ) : ℝ))
    isrfftScramble lim false ny y (fn / 2) fx

end Mandelbrot.FFT
