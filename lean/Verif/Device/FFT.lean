import Verif.Device.Model
import Verif.FFT.Mem

/-!
# The transforms and products of /repo/fft.cc as programs for a device

Every kernel is given by the memory accesses of its iterations.  Real numbers are kept in the cells `.inl k`, as complex numbers of which
only the real part is used; the cells `.inr k` are those of the buffer of complex numbers.  The spans of the operands and of the result
may overlap.  The tables of roots of unity are not written by any kernel here and appear as functions.  Release of the buffer is left out.
-/

namespace Mandelbrot.Device

open FFT

abbrev Addr := ℕ ⊕ ℕ

abbrev FMem := Mem Addr ℂ

/-- /repo/codelets.cc 756-802, 462-480: one iteration of `srfft_butterfly_0`, `_01`, `_012`, from `nx` reals at `xo` to the buffer at `yo`. -/
noncomputable def firstBody (r cnt m : ℕ) (tw : ℤ → ℂ) (yo xo nx j : ℕ) : List (Access Addr ℂ) :=
  ((List.range (2 ^ r)).flatMap fun i => if j + i * cnt < nx then [.load i (.inl (xo + (j + i * cnt)))] else []) ++
  (List.range (2 ^ r / 2)).map fun i => .store (.inr (yo + (j + i * cnt)))
    fun reg => firstLevels r j cnt m tw (fun i => if j + i * cnt < nx then (reg i).re else 0) i

/-- /repo/codelets.cc 804-830: one iteration of an in-place kernel of radix `2^r`; `f` is `butterflyR` or its transpose. -/
def levelBody (r s : ℕ) (f : ℕ → (ℕ → ℂ) → ℕ → ℂ) (yo j : ℕ) : List (Access Addr ℂ) :=
  let m := 1 <<< s
  let j1 := j &&& (m - 1)
  let j0 := (j - j1) <<< r
  ((List.range (2 ^ r)).map fun i => .load i (.inr (yo + (j0 + j1 + i * m)))) ++
  (List.range (2 ^ r)).map fun i => .store (.inr (yo + (j0 + j1 + i * m))) fun reg => f j1 reg i

/-- /repo/codelets.cc 756-802, 462-480: one iteration of `isrfft_butterfly_0`, `_01`, `_012` and `add_isrfft_...`, from the buffer at `yo`
to `xn` reals at `xo`. -/
noncomputable def lastBody (add : Bool) (r cnt m : ℕ) (tw : ℤ → ℂ) (yo xo xn j : ℕ) : List (Access Addr ℂ) :=
  ((List.range (2 ^ r / 2)).map fun i => .load i (.inr (yo + (j + i * cnt)))) ++
  (List.range (2 ^ r)).flatMap fun i =>
    let k := j + i * cnt
    let v := fun reg => transposeR (2 ^ r / 2) (firstLevels r j cnt m tw) reg i
    if k < xn then
      if add then [.load (2 ^ r + i) (.inl (xo + k)), .store (.inl (xo + k)) fun reg => (((reg (2 ^ r + i)).re + v reg : ℝ) : ℂ)]
      else [.store (.inl (xo + k)) fun reg => ((v reg : ℝ) : ℂ)]
    else []

/-- /repo/fft.cc 418-419: one iteration of `mul_cwise_loop`. -/
def mulCwiseBody (fxo fyo : ℕ) (a : ℝ) (i : ℕ) : List (Access Addr ℂ) :=
  [.load 0 (.inr (fxo + i)), .load 1 (.inr (fyo + i)), .store (.inr (fxo + i)) fun reg => (a : ℂ) * reg 0 * reg 1]

/-- /repo/codelets.cc 324-345 `mul_base`: the operands are loaded, then the results are stored. -/
def mulBaseBody (zo nz xo nx yo ny : ℕ) : List (Access Addr ℂ) :=
  ((List.range mulBaseN).flatMap fun i => if i < nx then [.load i (.inl (xo + i))] else []) ++
  ((List.range mulBaseN).flatMap fun i => if i < ny then [.load (mulBaseN + i) (.inl (yo + i))] else []) ++
  (List.range (min nz mulBaseN)).map fun i => .store (.inl (zo + i)) fun reg =>
    ((∑ j ∈ Finset.range (i + 1), (if j < nx then (reg j).re else 0) * (if i - j < ny then (reg (mulBaseN + (i - j))).re else 0) : ℝ) : ℂ)

/-- /repo/fft.cc 421-422: one iteration of `sqr_cwise_loop`, with `sqr` of /repo/complex.h 30. -/
def sqrCwiseBody (fxo : ℕ) (a : ℝ) (i : ℕ) : List (Access Addr ℂ) :=
  [.load 0 (.inr (fxo + i)), .store (.inr (fxo + i)) fun reg => (a : ℂ) *
    ⟨(reg 0).re * (reg 0).re - (reg 0).im * (reg 0).im, (reg 0).re * (reg 0).im + (reg 0).re * (reg 0).im⟩]

/-- /repo/codelets.cc 347-369 `sqr_base` in the same way as `mulBaseBody`. -/
def sqrBaseBody (yo ny xo nx : ℕ) : List (Access Addr ℂ) :=
  let x := fun (reg : ℕ → ℂ) i => if i < nx then (reg i).re else 0
  ((List.range mulBaseN).flatMap fun i => if i < nx then [.load i (.inl (xo + i))] else []) ++
  (List.range (min ny mulBaseN)).map fun i => .store (.inl (yo + i)) fun reg =>
    ((2 * (∑ j ∈ (Finset.range (i + 1)).filter (fun j => j < i - j), x reg j * x reg (i - j)) +
        (if i % 2 = 0 then x reg (i / 2) * x reg (i / 2) else 0) : ℝ) : ℂ)

variable (B G : ℕ) (lim : ℕ∞)

/-- /repo/fft.cc 365-371. -/
noncomputable def srfftLoopCmds (n yo : ℕ) : ℕ → Res (List (Cmd FMem))
  | 0 => .ok []
  | 1 => do
    let c ← gridAccess (n / 4) B G (levelBody 1 0 (fun j1 => butterflyR 1 j1 (slice 0)) yo)
    return [c]
  | 2 => do
    let c ← gridAccess (n / 8) B G (levelBody 2 0 (fun j1 => butterflyR 2 j1 (slice 1)) yo)
    return [c]
  | s + 3 => do
    let c ← gridAccess (n / 16) B G (levelBody 3 s (fun j1 => butterflyR 3 j1 (slice (s + 2))) yo)
    let cs ← srfftLoopCmds n yo s
    return c :: cs

/-- /repo/fft.cc 347-372 `srfft_scramble` from `nx` reals at `xo` to the `yn` cells at `yo` of the buffer. -/
noncomputable def srfftCmds (yn yo xo nx : ℕ) : Res (List (Cmd FMem)) :=
  let n := 2 * yn
  if n = 0 then .ok [] else do
    let p := countrZero64 n
    slowAssert (n = 2 ^ p ∧ nx ≤ n)
    let c ← match p with
      | 1 => .ok (serial ((firstBody 1 1 0 (fun j => constantTwiddle j 1) yo xo nx 0).map (Access.step 0)))
      | 2 => .ok (serial ((firstBody 2 1 0 (fun j => constantTwiddle j 2) yo xo nx 0).map (Access.step 0)))
      | _ => do
        let tw ← bigSlice lim p
        gridAccess (n / 8) B G (firstBody 3 (n / 8) (1 <<< (p - 3)) tw yo xo nx)
    let cs ← srfftLoopCmds B G n yo (p - 3)
    return c :: cs

/-- /repo/fft.cc 386-390; the first argument bounds the number of iterations. -/
noncomputable def isrfftLoopCmds (n p yo : ℕ) : ℕ → ℕ → Res (List (Cmd FMem))
  | 0, _ => .ok []
  | fuel + 1, s =>
    if s < p - 3 then
      if s = 0 ∧ p % 3 = 1 then do
        let c ← gridAccess (n / 4) B G (levelBody 1 0 (fun j1 => transposeC (2 ^ 1) (butterflyR 1 j1 (slice 0))) yo)
        let cs ← isrfftLoopCmds n p yo fuel (s + 1)
        return c :: cs
      else if s = 0 ∧ p % 3 = 2 then do
        let c ← gridAccess (n / 8) B G (levelBody 2 0 (fun j1 => transposeC (2 ^ 2) (butterflyR 2 j1 (slice 1))) yo)
        let cs ← isrfftLoopCmds n p yo fuel (s + 2)
        return c :: cs
      else do
        let c ← gridAccess (n / 16) B G (levelBody 3 s (fun j1 => transposeC (2 ^ 3) (butterflyR 3 j1 (slice (s + 2)))) yo)
        let cs ← isrfftLoopCmds n p yo fuel (s + 3)
        return c :: cs
    else .ok []

/-- /repo/fft.cc 375-406 `isrfft_scramble` from the `yn` cells at `yo` of the buffer to `xn` reals at `xo`. -/
noncomputable def isrfftCmds (add : Bool) (xo xn yn yo : ℕ) : Res (List (Cmd FMem)) :=
  let n := 2 * yn
  if n = 0 then .ok [] else do
    let p := countrZero64 n
    slowAssert (n = 2 ^ p ∧ xn ≤ 2 * n)
    let cs ← isrfftLoopCmds B G n p yo p 0
    let c ← match p with
      | 1 => .ok (serial ((lastBody add 1 1 0 (fun j => constantTwiddle j 1) yo xo xn 0).map (Access.step 0)))
      | 2 => .ok (serial ((lastBody add 2 1 0 (fun j => constantTwiddle j 2) yo xo xn 0).map (Access.step 0)))
      | _ => do
        let tw ← bigSlice lim p
        gridAccess (n / 8) B G (lastBody add 3 (n / 8) (1 <<< (p - 3)) tw yo xo xn)
    return cs ++ [c]

/-- /repo/fft.cc 436-460 `fft_mul` on a device: what it launches. -/
noncomputable def fftMulCmds (zo nz xo nx yo ny : ℕ) : Res (List (Cmd FMem)) := do
  slowAssert ((nz : ℤ) ≤ relu ((nx : ℤ) + ny - 1))
  if nz ≤ mulBaseN then return [serial ((mulBaseBody zo nz xo nx yo ny).map (Access.step 0))]
  else do
    let fn := bitCeil (2 * nz)
    let c1 ← srfftCmds B G lim (fn / 2) 0 xo nx
    let c2 ← srfftCmds B G lim (fn / 2) (fn / 2) yo ny
    let c3 ← gridAccess (fn / 2) B G (mulCwiseBody 0 (fn / 2) (1 / ((fn / 2 : ℕ) : ℝ)))
    let c4 ← isrfftCmds B G lim false zo nz (fn / 2) 0
    return c1 ++ c2 ++ [c3] ++ c4

/-- /repo/fft.cc 479-499 `fft_sqr` on a device. -/
noncomputable def fftSqrCmds (yo ny xo nx : ℕ) : Res (List (Cmd FMem)) := do
  slowAssert ((ny : ℤ) ≤ relu (2 * (nx : ℤ) - 1))
  if ny ≤ mulBaseN then return [serial ((sqrBaseBody yo ny xo nx).map (Access.step 0))]
  else do
    let fn := bitCeil (2 * ny)
    let c1 ← srfftCmds B G lim (fn / 2) 0 xo nx
    let c2 ← gridAccess (fn / 2) B G (sqrCwiseBody 0 (1 / ((fn / 2 : ℕ) : ℝ)))
    let c3 ← isrfftCmds B G lim false yo ny (fn / 2) 0
    return c1 ++ [c2] ++ c3

/-- /repo/fft.cc 462-477 `fft_addmul` on a device; `middle` is what the function passed as argument launches. -/
noncomputable def fftAddmulCmds (zo nz xo nx yo ny : ℕ) (middle : List (Cmd FMem)) : Res (List (Cmd FMem)) := do
  slowAssert ((nz : ℤ) ≤ relu ((nx : ℤ) + ny - 1))
  let fn := bitCeil (2 * nz)
  let c1 ← srfftCmds B G lim (fn / 2) 0 xo nx
  let c2 ← srfftCmds B G lim (fn / 2) (fn / 2) yo ny
  let c3 ← gridAccess (fn / 2) B G (mulCwiseBody 0 (fn / 2) (1 / ((fn / 2 : ℕ) : ℝ)))
  let c4 ← isrfftCmds B G lim true zo nz (fn / 2) 0
  return c1 ++ c2 ++ [c3] ++ middle ++ c4

/-- A program that launches commands and ends. -/
def launchAll {D : Type} (cs : List (Cmd D)) : Host D Unit := cs.foldr .launch (.done ())

end Mandelbrot.Device
