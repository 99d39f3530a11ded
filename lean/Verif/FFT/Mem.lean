import Verif.FFT.Mul

/-!
# Multiplication in one memory

The spans given to `fft_mul` and `fft_sqr` are pieces of one memory and may overlap in any way.  Each call inside reads
its inputs from the memory as it is at that point.
-/

namespace Mandelbrot.FFT

/-- A span of `n` cells at address `o`. -/
def spanAt (mem : ℕ → ℝ) (o n : ℕ) : Span ℝ := ⟨n, fun i => mem (o + i)⟩

/-- The memory after the cells `o, ..., o+n-1` got the values `v`. -/
def storeAt (mem : ℕ → ℝ) (o n : ℕ) (v : ℕ → ℝ) : ℕ → ℝ := fun a => if o ≤ a ∧ a < o + n then v (a - o) else mem a

/-- /repo/codelets.cc 324-345: registers `x0..x7`, `y0..y7` are loaded, then `z[i]` is stored one after the other. -/
def mulBaseMem (mem : ℕ → ℝ) (zo nz : ℕ) (x y : Span ℝ) : ℕ → ℝ :=
  let xi := fun j => x.getZ j
  let yi := fun j => y.getZ j
  forLoop (min nz mulBaseN)
    (fun i mem => Function.update mem (zo + i) (∑ j ∈ Finset.range (i + 1), xi j * yi (i - j))) mem

/-- /repo/codelets.cc 347-369 in the same way. -/
def sqrBaseMem (mem : ℕ → ℝ) (yo ny : ℕ) (x : Span ℝ) : ℕ → ℝ :=
  let xi := fun j => x.getZ j
  forLoop (min ny mulBaseN)
    (fun i mem => Function.update mem (yo + i)
      (2 * (∑ j ∈ (Finset.range (i + 1)).filter (fun j => j < i - j), xi j * xi (i - j)) +
        (if i % 2 = 0 then xi (i / 2) * xi (i / 2) else 0))) mem

/-- /repo/fft.cc 436-460 `fft_mul` on spans at addresses `zo`, `xo`, `yo`. -/
noncomputable def fftMulMem (lim : ℕ∞) (junk : ℕ → ℂ) (mem : ℕ → ℝ) (zo nz xo nx yo ny : ℕ) : Res (ℕ → ℝ) := do
  slowAssert ((nz : ℤ) ≤ relu ((nx : ℤ) + ny - 1))
  if nz ≤ mulBaseN then return mulBaseMem mem zo nz (spanAt mem xo nx) (spanAt mem yo ny)
  else do
    let fn := bitCeil (2 * nz)
    let fx ← srfftScramble lim (fn / 2) junk (spanAt mem xo nx)
    let fy ← srfftScramble lim (fn / 2) (fun i => junk (fn / 2 + i)) (spanAt mem yo ny)
    let fx := mulCwise (fn / 2) fx fy (1 / ((fn / 2 : ℕ) : ℝ))
    let z ← isrfftScramble lim false nz (fun i => mem (zo + i)) (fn / 2) fx
    return storeAt mem zo nz z

/-- /repo/fft.cc 479-499 `fft_sqr` on spans at addresses `yo`, `xo`. -/
noncomputable def fftSqrMem (lim : ℕ∞) (junk : ℕ → ℂ) (mem : ℕ → ℝ) (yo ny xo nx : ℕ) : Res (ℕ → ℝ) := do
  slowAssert ((ny : ℤ) ≤ relu (2 * (nx : ℤ) - 1))
  if ny ≤ mulBaseN then return sqrBaseMem mem yo ny (spanAt mem xo nx)
  else do
    let fn := bitCeil (2 * ny)
    let fx ← srfftScramble lim (fn / 2) junk (spanAt mem xo nx)
    let fx := sqrCwise (fn / 2) fx (1 / ((fn / 2 : ℕ) : ℝ))
    let y ← isrfftScramble lim false ny (fun i => mem (yo + i)) (fn / 2) fx
    return storeAt mem yo ny y

/-- /repo/fft.cc 462-477 `fft_addmul`; `middle` acts on the memory. -/
noncomputable def fftAddmulMem (lim : ℕ∞) (junk : ℕ → ℂ) (mem : ℕ → ℝ) (zo nz xo nx yo ny : ℕ)
    (middle : (ℕ → ℝ) → Res (ℕ → ℝ)) : Res (ℕ → ℝ) := do
  slowAssert ((nz : ℤ) ≤ relu ((nx : ℤ) + ny - 1))
  let fn := bitCeil (2 * nz)
  let fx ← srfftScramble lim (fn / 2) junk (spanAt mem xo nx)
  let fy ← srfftScramble lim (fn / 2) (fun i => junk (fn / 2 + i)) (spanAt mem yo ny)
  let fx := mulCwise (fn / 2) fx fy (1 / ((fn / 2 : ℕ) : ℝ))
  let mem ← middle mem
  let z ← isrfftScramble lim true nz (fun i => mem (zo + i)) (fn / 2) fx
  return storeAt mem zo nz z

theorem store_loop (mem : ℕ → ℝ) (zo n : ℕ) (v : ℕ → ℝ) :
    forLoop n (fun i mem => Function.update mem (zo + i) (v i)) mem = storeAt mem zo n v := by
  induction n with
  | zero =>
    funext a
    rw [storeAt, if_neg (by omega)]; rfl
  | succ n ih =>
    rw [forLoop_succ, ih]
    funext a
    by_cases h : a = zo + n
    · subst h; rw [Function.update_self, storeAt, if_pos (by omega), Nat.add_sub_cancel_left]
    · rw [Function.update_of_ne h, storeAt, storeAt]
      by_cases h2 : zo ≤ a ∧ a < zo + n
      · rw [if_pos h2, if_pos (by omega)]
      · rw [if_neg h2, if_neg (by omega)]

theorem mulBaseMem_eq (mem : ℕ → ℝ) (zo : ℕ) {nz : ℕ} (h8 : nz ≤ 8) (x y : Span ℝ) :
    mulBaseMem mem zo nz x y = storeAt mem zo nz (mulBase nz (fun i => mem (zo + i)) x y) := by
  rw [mulBaseMem, store_loop, min_eq_left (show nz ≤ mulBaseN from h8)]
  funext a
  rw [storeAt, storeAt]
  split_ifs with h
  · rw [mulBase, if_pos ⟨by omega, by unfold mulBaseN; omega⟩]
  · rfl

theorem sqrBaseMem_eq (mem : ℕ → ℝ) (yo : ℕ) {ny : ℕ} (h8 : ny ≤ 8) (x : Span ℝ) :
    sqrBaseMem mem yo ny x = storeAt mem yo ny (sqrBase ny (fun i => mem (yo + i)) x) := by
  rw [sqrBaseMem, store_loop, min_eq_left (show ny ≤ mulBaseN from h8)]
  funext a
  rw [storeAt, storeAt]
  by_cases h : yo ≤ a ∧ a < yo + ny
  · rw [if_pos h, if_pos h, sqrBase, if_pos (show a - yo < ny ∧ a - yo < mulBaseN from ⟨by omega, by unfold mulBaseN; omega⟩)]
  · rw [if_neg h, if_neg h]

/-- Overlap does not matter: the outcome is that of the call on copies. -/
theorem fftMulMem_eq (lim : ℕ∞) (junk : ℕ → ℂ) (mem : ℕ → ℝ) (zo nz xo nx yo ny : ℕ) :
    fftMulMem lim junk mem zo nz xo nx yo ny =
      (fftMul lim junk nz (fun i => mem (zo + i)) (spanAt mem xo nx) (spanAt mem yo ny)).map (storeAt mem zo nz) := by
  rw [fftMulMem, fftMul]
  by_cases h : (nz : ℤ) ≤ relu ((nx : ℤ) + ny - 1)
  · rw [slowAssert_true h, slowAssert_true (by exact h), bok, bok]
    by_cases h8 : nz ≤ mulBaseN
    · rw [if_pos h8, if_pos h8, mulBaseMem_eq mem zo h8]; rfl
    · rw [if_neg h8, if_neg h8]
      simp only []
      cases e1 : srfftScramble lim (bitCeil (2 * nz) / 2) junk (spanAt mem xo nx) with
      | error e => rfl
      | ok fx =>
        simp only [bok]
        cases e2 : srfftScramble lim (bitCeil (2 * nz) / 2) (fun i => junk (bitCeil (2 * nz) / 2 + i)) (spanAt mem yo ny) with
        | error e => rfl
        | ok fy =>
          simp only [bok]
          cases e3 : isrfftScramble lim false nz (fun i => mem (zo + i)) (bitCeil (2 * nz) / 2)
            (mulCwise (bitCeil (2 * nz) / 2) fx fy (1 / ((bitCeil (2 * nz) / 2 : ℕ) : ℝ))) <;> rfl
  · rw [slowAssert_false h, slowAssert_false (by exact h)]; rfl

theorem fftSqrMem_eq (lim : ℕ∞) (junk : ℕ → ℂ) (mem : ℕ → ℝ) (yo ny xo nx : ℕ) :
    fftSqrMem lim junk mem yo ny xo nx =
      (fftSqr lim junk ny (fun i => mem (yo + i)) (spanAt mem xo nx)).map (storeAt mem yo ny) := by
  rw [fftSqrMem, fftSqr]
  by_cases h : (ny : ℤ) ≤ relu (2 * (nx : ℤ) - 1)
  · rw [slowAssert_true h, slowAssert_true (by exact h), bok, bok]
    by_cases h8 : ny ≤ mulBaseN
    · rw [if_pos h8, if_pos h8, sqrBaseMem_eq mem yo h8]; rfl
    · rw [if_neg h8, if_neg h8]
      simp only []
      cases e1 : srfftScramble lim (bitCeil (2 * ny) / 2) junk (spanAt mem xo nx) with
      | error e => rfl
      | ok fx =>
        simp only [bok]
        cases e3 : isrfftScramble lim false ny (fun i => mem (yo + i)) (bitCeil (2 * ny) / 2)
            (sqrCwise (bitCeil (2 * ny) / 2) fx (1 / ((bitCeil (2 * ny) / 2 : ℕ) : ℝ))) <;> rfl
  · rw [slowAssert_false h, slowAssert_false (by exact h)]; rfl

theorem fftAddmulMem_eq (lim : ℕ∞) (junk : ℕ → ℂ) (mem mem1 : ℕ → ℝ) (zo nz xo nx yo ny : ℕ)
    (middle : (ℕ → ℝ) → Res (ℕ → ℝ)) (hm : middle mem = .ok mem1) :
    fftAddmulMem lim junk mem zo nz xo nx yo ny middle =
      (fftAddmul lim junk nz (fun i => mem (zo + i)) (spanAt mem xo nx) (spanAt mem yo ny)
        (fun _ => .ok fun i => mem1 (zo + i))).map (storeAt mem1 zo nz) := by
  rw [fftAddmulMem, fftAddmul]
  by_cases h : (nz : ℤ) ≤ relu ((nx : ℤ) + ny - 1)
  · rw [slowAssert_true h, slowAssert_true (by exact h), bok, bok]
    simp only [hm]
    cases e1 : srfftScramble lim (bitCeil (2 * nz) / 2) junk (spanAt mem xo nx) with
    | error e => rfl
    | ok fx =>
      simp only [bok]
      cases e2 : srfftScramble lim (bitCeil (2 * nz) / 2) (fun i => junk (bitCeil (2 * nz) / 2 + i)) (spanAt mem yo ny) with
      | error e => rfl
      | ok fy =>
        simp only [bok]
        cases e3 : isrfftScramble lim true nz (fun i => mem1 (zo + i)) (bitCeil (2 * nz) / 2)
          (mulCwise (bitCeil (2 * nz) / 2) fx fy (1 / ((bitCeil (2 * nz) / 2 : ℕ) : ℝ))) <;> rfl
  · rw [slowAssert_false h, slowAssert_false (by exact h)]; rfl

end Mandelbrot.FFT
