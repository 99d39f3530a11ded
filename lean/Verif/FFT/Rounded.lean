import Verif.FFT.Srfft

/-!
# The products by transform in an arithmetic with rounding

The same functions as in `Verif/FFT/Model.lean`, for numbers of a type `R` and with arbitrary bodies of the generated
loops ("codelets").  What the bodies compute, and how accurately, is stated in `Verif/Props/Rounding.lean`.
-/

namespace Mandelbrot.FFT

/-- The bodies of the loops in `/repo/fft.cc` and of the generated codelets, with their tables of twiddle factors:
/repo/codelets.cc 756-830 (`first`, `last`: size `2^p`, iteration `j`; `level`, `ilevel`: radix `2^r`, levels from
`s`, factors `j`), /repo/fft.cc 418-422 (`mulc`, `sqrc`: factor `1/n`), /repo/codelets.cc 324-369 (`mulBase`,
`sqrBase`), and the addition `x[k] += v` of /repo/codelets.cc 474. -/
structure Codelets (R : Type) where
  first : ℕ → ℕ → (ℕ → R) → ℕ → R × R
  level : ℕ → ℕ → ℕ → (ℕ → R × R) → ℕ → R × R
  mulc : ℕ → R × R → R × R → R × R
  sqrc : ℕ → R × R → R × R
  ilevel : ℕ → ℕ → ℕ → (ℕ → R × R) → ℕ → R × R
  last : ℕ → ℕ → (ℕ → R × R) → ℕ → R
  mulBase : ℕ → Span R → Span R → ℕ → R
  sqrBase : ℕ → Span R → ℕ → R
  add : R → R → R

/-- Radix of the first pass for size `2^p` (/repo/fft.cc 352-363). -/
def firstRadix (p : ℕ) : ℕ := min p 3

variable {R : Type} [Zero R] (K : Codelets R)

/-- /repo/codelets.cc 756-802, forward: `cnt` iterations with stride `cnt`, `outs` results each. -/
def firstLoop {α β : Type} [Zero α] (outs cnt : ℕ) (f : ℕ → (ℕ → α) → ℕ → β) (y : ℕ → β) (x : Span α) : ℕ → β :=
  forLoop cnt (fun j y => scatter j cnt (f j fun i => x.getZ (j + i * cnt)) outs y) y

/-- The writes of one iteration, `if (k < xn) x[k] = v(i)`, or `x[k] += v(i)` with addition `add`
(/repo/codelets.cc 468-476). -/
def scatterTo {α : Type} (add : Option (α → α → α)) (xn a dj : ℕ) (v : ℕ → α) : ℕ → (ℕ → α) → (ℕ → α)
  | 0, x => x
  | n + 1, x =>
    let x := scatterTo add xn a dj v n x
    let k := a + n * dj
    if k < xn then Function.update x k (match add with | some f => f (x k) (v n) | none => v n) else x

/-- /repo/codelets.cc 756-802, backward. -/
def lastLoop {α β : Type} (add : Option (α → α → α)) (outs cnt : ℕ) (f : ℕ → (ℕ → β) → ℕ → α) (y : ℕ → β) (xn : ℕ)
    (x : ℕ → α) : ℕ → α :=
  forLoop cnt (fun j x => scatterTo add xn j cnt (f j fun i => y (j + i * cnt)) outs x) x

/-- /repo/fft.cc 365-371. -/
def srfftLoopK (n : ℕ) : ℕ → (ℕ → R × R) → (ℕ → R × R)
  | 0, y => y
  | 1, y => levelLoop 1 (n / 4) 0 (K.level 1 0) y
  | 2, y => levelLoop 2 (n / 8) 0 (K.level 2 0) y
  | s + 3, y => srfftLoopK n s (levelLoop 3 (n / 16) s (K.level 3 s) y)

/-- /repo/fft.cc 347-372 `srfft_scramble`. -/
noncomputable def srfftScrambleK (lim : ℕ∞) (yn : ℕ) (y : ℕ → R × R) (x : Span R) : Res (ℕ → R × R) :=
  let n := 2 * yn
  if n = 0 then .ok y else do
    let p := countrZero64 n
    slowAssert (n = 2 ^ p ∧ x.len ≤ n)
    let y ← match p with
      | 1 => .ok (firstLoop 1 1 (K.first 1) y x)
      | 2 => .ok (firstLoop 2 1 (K.first 2) y x)
      | _ => do
        let _ ← bigSlice lim p
        .ok (firstLoop 4 (n / 8) (K.first p) y x)
    return srfftLoopK K n (p - 3) y

/-- /repo/fft.cc 386-390; the first argument bounds the number of iterations. -/
def isrfftLoopK (n p : ℕ) : ℕ → ℕ → (ℕ → R × R) → (ℕ → R × R)
  | 0, _, y => y
  | fuel + 1, s, y =>
    if s < p - 3 then
      if s = 0 ∧ p % 3 = 1 then
        isrfftLoopK n p fuel (s + 1) (levelLoop 1 (n / 4) 0 (K.ilevel 1 0) y)
      else if s = 0 ∧ p % 3 = 2 then
        isrfftLoopK n p fuel (s + 2) (levelLoop 2 (n / 8) 0 (K.ilevel 2 0) y)
      else isrfftLoopK n p fuel (s + 3) (levelLoop 3 (n / 16) s (K.ilevel 3 s) y)
    else y

/-- /repo/fft.cc 375-406 `isrfft_scramble`. -/
noncomputable def isrfftScrambleK (lim : ℕ∞) (add : Bool) (xn : ℕ) (x : ℕ → R) (yn : ℕ) (y : ℕ → R × R) :
    Res (ℕ → R) :=
  let n := 2 * yn
  let op := if add then some K.add else none
  if n = 0 then .ok x else do
    let p := countrZero64 n
    slowAssert (n = 2 ^ p ∧ xn ≤ 2 * n)
    let y := isrfftLoopK K n p p 0 y
    match p with
      | 1 => .ok (lastLoop op 2 1 (K.last 1) y xn x)
      | 2 => .ok (lastLoop op 4 1 (K.last 2) y xn x)
      | _ => do
        let _ ← bigSlice lim p
        .ok (lastLoop op 8 (n / 8) (K.last p) y xn x)

/-- /repo/fft.cc 418-419 `mul_cwise_loop`. -/
def mulCwiseK (n : ℕ) (fx fy : ℕ → R × R) : ℕ → R × R :=
  forLoop n (fun i fx => Function.update fx i (K.mulc n (fx i) (fy i))) fx

/-- /repo/fft.cc 421-422 `sqr_cwise_loop`. -/
def sqrCwiseK (n : ℕ) (fx : ℕ → R × R) : ℕ → R × R :=
  forLoop n (fun i fx => Function.update fx i (K.sqrc n (fx i))) fx

/-- /repo/fft.cc 436-460 `fft_mul`. -/
noncomputable def fftMulK (lim : ℕ∞) (junk : ℕ → R × R) (nz : ℕ) (z : ℕ → R) (x y : Span R) : Res (ℕ → R) := do
  slowAssert ((nz : ℤ) ≤ relu ((x.len : ℤ) + y.len - 1))
  if nz ≤ mulBaseN then return fun i => if i < nz then K.mulBase nz x y i else z i
  else do
    let fn := bitCeil (2 * nz)
    let fx ← srfftScrambleK K lim (fn / 2) junk x
    let fy ← srfftScrambleK K lim (fn / 2) (fun i => junk (fn / 2 + i)) y
    let fx := mulCwiseK K (fn / 2) fx fy
    isrfftScrambleK K lim false nz z (fn / 2) fx

/-- /repo/fft.cc 462-477 `fft_addmul`. -/
noncomputable def fftAddmulK (lim : ℕ∞) (junk : ℕ → R × R) (nz : ℕ) (z : ℕ → R) (x y : Span R)
    (middle : (ℕ → R) → Res (ℕ → R)) : Res (ℕ → R) := do
  slowAssert ((nz : ℤ) ≤ relu ((x.len : ℤ) + y.len - 1))
  let fn := bitCeil (2 * nz)
  let fx ← srfftScrambleK K lim (fn / 2) junk x
  let fy ← srfftScrambleK K lim (fn / 2) (fun i => junk (fn / 2 + i)) y
  let fx := mulCwiseK K (fn / 2) fx fy
  let z ← middle z
  isrfftScrambleK K lim true nz z (fn / 2) fx

/-- /repo/fft.cc 479-499 `fft_sqr`. -/
noncomputable def fftSqrK (lim : ℕ∞) (junk : ℕ → R × R) (ny : ℕ) (y : ℕ → R) (x : Span R) : Res (ℕ → R) := do
  slowAssert ((ny : ℤ) ≤ relu (2 * (x.len : ℤ) - 1))
  if ny ≤ mulBaseN then return fun i => if i < ny then K.sqrBase ny x i else y i
  else do
    let fn := bitCeil (2 * ny)
    let fx ← srfftScrambleK K lim (fn / 2) junk x
    let fx := sqrCwiseK K (fn / 2) fx
    isrfftScrambleK K lim false ny y (fn / 2) fx

end Mandelbrot.FFT
