import Verif.Props.FFT
import Verif.Series.Junk
import Verif.Series.CodeletLemmas

/-!
# The transforms as multiplication kernels of the series functions
-/

set_option linter.unusedSectionVars false

namespace Mandelbrot

open FFT Ser

/-- `ldexp(double, int)` without rounding. -/
noncomputable instance : Ldexp ℝ := ⟨fun a b => a * 2 ^ b⟩

instance : Ser.LawfulLdexp ℝ := ⟨fun _ _ => rfl⟩

/-- /repo/series.h 278: `fft_mul` (/repo/fft.cc 436-460) as called by `mul`.  `buf` is what the uninitialised buffer contains,
`old` what the destination contains. -/
noncomputable def fftMulKer (buf : ℕ → ℂ) (old : ℕ → ℝ) (nz : ℕ) (x y : Span ℝ) : Res (ℕ → ℝ) :=
  fftMul FFT.sLimit buf nz old x y

/-- /repo/series.h 290: `fft_addmul` (/repo/fft.cc 462-477) as called by `mul1p`, up to what it adds to the destination: the result
when the function passed to it leaves zeros.  See `fftAddmul_split`. -/
noncomputable def fftAddmulKer (buf : ℕ → ℂ) (old : ℕ → ℝ) (nz : ℕ) (x y : Span ℝ) : Res (ℕ → ℝ) :=
  fftAddmul FFT.sLimit buf nz old x y fun _ => .ok fun _ => 0

/-- /repo/series.h 300: `fft_sqr` (/repo/fft.cc 479-499) as called by `sqr`. -/
noncomputable def fftSqrKer (buf : ℕ → ℂ) (old : ℕ → ℝ) (nz : ℕ) (x : Span ℝ) : Res (ℕ → ℝ) :=
  fftSqr FFT.sLimit buf nz old x

/-- The kernels of the host: multiplication by transforms (/repo/fft.cc 434-499) and the generated base cases
(/repo/codelets.cc 407-457). -/
noncomputable def fftHost (J : Junk ℝ) (buf : ℕ → ℂ) (old : ℕ → ℝ) : Ker ℝ :=
  hostKer J (fftMulKer buf old) (fftAddmulKer buf old) (fftSqrKer buf old)

theorem le_bitCeil (n : ℕ) : n ≤ bitCeil n := Nat.le_pow_clog (by norm_num) _

theorem fftHost_exactMul (J : Junk ℝ) (buf : ℕ → ℂ) (old : ℕ → ℝ) : (fftHost J buf old).ExactMul (2 ^ 28) where
  mul nz x y hN h hx hy := by
    have := le_bitCeil (2 * nz)
    obtain ⟨z', e, hz⟩ := fftMul_eq (lim := FFT.sLimit) buf old h (Or.inr (Props.clog_lt hN))
      (Or.inr ⟨by omega, by omega, by omega⟩)
    exact ⟨z', e, fun i hi => by rw [hz, if_pos hi]⟩
  addmul nz x y hN h hx hy := by
    have := le_bitCeil (2 * nz)
    obtain ⟨z', e, hz⟩ := fftAddmul_eq (lim := FFT.sLimit) buf old (middle := fun _ => .ok fun _ => 0) rfl h
      (Or.inr (Props.clog_lt hN)) (Or.inr ⟨by omega, by omega, by omega⟩)
    exact ⟨z', e, fun i hi => by rw [hz, if_pos hi, zero_add]⟩
  sqr nz x hN h hx := by
    have := le_bitCeil (2 * nz)
    obtain ⟨z', e, hz⟩ := fftSqr_eq (lim := FFT.sLimit) buf old (ny := nz) (x := x) (by omega) (Or.inr (Props.clog_lt hN))
      (Or.inr (by omega))
    exact ⟨z', e, fun i hi => by rw [hz, if_pos hi]⟩

theorem fftHost_exact (J : Junk ℝ) (buf : ℕ → ℂ) (old : ℕ → ℝ) : (fftHost J buf old).Exact (2 ^ 28) :=
  hostKer_exact J (fftHost_exactMul J buf old)

/-! ## Which cells matter -/

theorem getZ_sim {x x' : Span ℝ} (h : x.Sim x') : x.getZ = x'.getZ := by
  funext i
  simp only [Span.getZ, ← h.len]
  by_cases hi : i < x.len
  · rw [if_pos hi, if_pos hi, h.get i hi]
  · rw [if_neg hi, if_neg hi]

theorem conv_sim {x x' y y' : Span ℝ} (hx : x.Sim x') (hy : y.Sim y') : x.conv y = x'.conv y' := by
  funext i
  simp only [Span.conv, getZ_sim hx, getZ_sim hy]

theorem clog_of_large {n p : ℕ} (hp : bitCeil (2 * n) = 2 ^ p) (h : ¬n ≤ 2 ^ 28) (hle : 2 * n ≤ 2 ^ p) : 30 ≤ p := by
  by_contra hc
  have : 2 ^ p ≤ 2 ^ 29 := Nat.pow_le_pow_right (by norm_num) (by omega)
  norm_num at this h
  omega

/-- When `fft_mul` fails, and with what. -/
theorem fftMul_fails (buf : ℕ → ℂ) (nz : ℕ) (old : ℕ → ℝ) (x y : Span ℝ) :
    fftMul FFT.sLimit buf nz old x y =
      if x.len + y.len - 1 < nz then .error .assertion
      else if nz ≤ 8 then fftMul FFT.sLimit buf nz old x y
      else if bitCeil (2 * nz) < x.len then .error .assertion
      else if 2 ^ 28 < nz then .error .ub
      else if bitCeil (2 * nz) < y.len then .error .assertion
      else fftMul FFT.sLimit buf nz old x y := by
  split_ifs with h h8 hx hn hy
  · exact fftMul_assert (not_le.mpr h)
  · rfl
  all_goals
    obtain ⟨p, hp, ep, ep2, hle, -⟩ := bitCeil_two_mul (show 0 < nz by omega)
    have e0 : fftMul FFT.sLimit buf nz old x y = (do
        let fx ← srfftScramble FFT.sLimit (2 ^ (p - 1)) buf x
        let fy ← srfftScramble FFT.sLimit (2 ^ (p - 1)) (fun i => buf (2 ^ (p - 1) + i)) y
        let fx := mulCwise (2 ^ (p - 1)) fx fy (1 / ((2 ^ (p - 1) : ℕ) : ℝ))
        isrfftScramble FFT.sLimit false nz old (2 ^ (p - 1)) fx) := by
      rw [fftMul, slowAssert_true (by unfold relu; omega), bok, if_neg (show ¬nz ≤ mulBaseN by unfold mulBaseN; omega)]
      simp only [ep2]
    rw [ep] at hx
  · rw [e0, srfftScramble_assert hp _ (by omega), berr]
  · rw [e0, Props.C22_too_large (clog_of_large ep (by omega) hle) _ (by omega), berr]
  · have hcl : Nat.clog 2 (2 * nz) = p := Nat.pow_right_injective (le_refl 2) ep
    have hlim := Props.clog_lt (not_lt.mp hn)
    rw [hcl] at hlim
    rw [ep] at hy
    obtain ⟨fx, e1, -⟩ := srfftScramble_eq hp (.inr hlim) buf (show x.len ≤ 2 ^ p by omega)
    rw [e0, e1, bok, srfftScramble_assert hp _ (by omega), berr]

theorem fftMulKer_rel (buf buf' : ℕ → ℂ) (old old' : ℕ → ℝ) (n : ℕ) {x x' y y' : Span ℝ} (hx : x.Sim x') (hy : y.Sim y') :
    RelRes (Below n) (fftMulKer buf old n x y) (fftMulKer buf' old' n x' y') := by
  have lx := hx.len
  have ly := hy.len
  unfold fftMulKer
  rw [fftMul_fails buf, fftMul_fails buf' n old' x' y', ← lx, ← ly]
  split_ifs with h1 h2 h3 h4 h5
  · exact rfl
  · obtain ⟨z, e, hz⟩ := fftMul_small (lim := FFT.sLimit) (junk := buf) (z := old) (not_lt.mp h1) h2
    obtain ⟨z', e', hz'⟩ := fftMul_small (lim := FFT.sLimit) (junk := buf') (z := old') (x := x') (y := y') (by omega) h2
    rw [e, e']
    intro i hi
    rw [hz, hz', if_pos hi, if_pos hi, conv_sim hx hy]
  · exact rfl
  · exact rfl
  · exact rfl
  · have hl := Props.clog_lt (not_lt.mp h4)
    obtain ⟨z, e, hz⟩ := fftMul_large buf old (not_lt.mp h1) (not_le.mp h2) hl (not_lt.mp h3) (not_lt.mp h5)
    obtain ⟨z', e', hz'⟩ := fftMul_large buf' old' (x := x') (y := y') (by omega) (not_le.mp h2) hl (by omega) (by omega)
    rw [e, e']
    intro i hi
    rw [hz, hz', if_pos hi, if_pos hi, conv_sim hx hy]

/-- When `fft_addmul` fails, and with what. -/
theorem fftAddmul_fails (buf : ℕ → ℂ) (nz : ℕ) (old : ℕ → ℝ) (x y : Span ℝ) (middle : (ℕ → ℝ) → Res (ℕ → ℝ)) :
    fftAddmul FFT.sLimit buf nz old x y middle =
      if x.len + y.len - 1 < nz then .error .assertion
      else if nz = 0 then middle old
      else if bitCeil (2 * nz) < x.len then .error .assertion
      else if 2 ^ 28 < nz then .error .ub
      else if bitCeil (2 * nz) < y.len then .error .assertion
      else fftAddmul FFT.sLimit buf nz old x y middle := by
  split_ifs with h h0 hx hn hy
  · exact fftAddmul_assert (not_le.mpr h)
  · subst h0
    have hb : bitCeil (2 * 0) / 2 = 0 := by simp [bitCeil]
    simp only [fftAddmul]
    rw [slowAssert_true (by unfold relu; omega), bok, hb]
    simp only [srfftScramble, isrfftScramble, mul_zero, if_true, bok]
    exact bind_pure _
  all_goals
    obtain ⟨p, hp, ep, ep2, hle, -⟩ := bitCeil_two_mul (show 0 < nz by omega)
    have e0 : fftAddmul FFT.sLimit buf nz old x y middle = (do
        let fx ← srfftScramble FFT.sLimit (2 ^ (p - 1)) buf x
        let fy ← srfftScramble FFT.sLimit (2 ^ (p - 1)) (fun i => buf (2 ^ (p - 1) + i)) y
        let fx := mulCwise (2 ^ (p - 1)) fx fy (1 / ((2 ^ (p - 1) : ℕ) : ℝ))
        let z ← middle old
        isrfftScramble FFT.sLimit true nz z (2 ^ (p - 1)) fx) := by
      rw [fftAddmul, slowAssert_true (by unfold relu; omega), bok]
      simp only [ep2]
    rw [ep] at hx
  · rw [e0, srfftScramble_assert hp _ (by omega), berr]
  · rw [e0, Props.C22_too_large (clog_of_large ep (by omega) hle) _ (by omega), berr]
  · have hcl : Nat.clog 2 (2 * nz) = p := Nat.pow_right_injective (le_refl 2) ep
    have hlim := Props.clog_lt (not_lt.mp hn)
    rw [hcl] at hlim
    rw [ep] at hy
    obtain ⟨fx, e1, -⟩ := srfftScramble_eq hp (.inr hlim) buf (show x.len ≤ 2 ^ p by omega)
    rw [e0, e1, bok, srfftScramble_assert hp _ (by omega), berr]

/-- `fft_addmul` adds `fftAddmulKer` to whatever the function passed to it leaves in the destination. -/
theorem fftAddmul_split (buf buf' : ℕ → ℂ) (nz : ℕ) (z old : ℕ → ℝ) (x y : Span ℝ) {middle : (ℕ → ℝ) → Res (ℕ → ℝ)}
    {z1 : ℕ → ℝ} (hm : middle z = .ok z1) :
    fftAddmul FFT.sLimit buf nz z x y middle =
      (fftAddmulKer buf' old nz x y >>= fun r => .ok fun k => if k < nz then z1 k + r k else z1 k) := by
  unfold fftAddmulKer
  rw [fftAddmul_fails buf, fftAddmul_fails buf' nz old]
  split_ifs with h1 h2 h3 h4 h5
  · rfl
  · subst h2; rw [hm]; simp only [bok]; rfl
  · rfl
  · rfl
  · rfl
  · have hl := Props.clog_lt (not_lt.mp h4)
    obtain ⟨z2, e, hz⟩ := fftAddmul_large buf z hm (not_lt.mp h1) (Nat.pos_of_ne_zero h2) (.inr hl) (not_lt.mp h3) (not_lt.mp h5)
    obtain ⟨z3, e', hz'⟩ := fftAddmul_large buf' old (middle := fun _ => .ok fun _ => 0) rfl (not_lt.mp h1)
      (Nat.pos_of_ne_zero h2) (.inr hl) (not_lt.mp h3) (not_lt.mp h5)
    rw [e, e', bok]
    congr 1
    funext k
    rw [hz, hz']
    split_ifs
    · rw [zero_add]
    · rfl

theorem fftAddmulKer_rel (buf buf' : ℕ → ℂ) (old old' : ℕ → ℝ) (n : ℕ) {x x' y y' : Span ℝ} (hx : x.Sim x') (hy : y.Sim y') :
    RelRes (Below n) (fftAddmulKer buf old n x y) (fftAddmulKer buf' old' n x' y') := by
  have lx := hx.len
  have ly := hy.len
  unfold fftAddmulKer
  rw [fftAddmul_fails buf, fftAddmul_fails buf' n old' x' y', ← lx, ← ly]
  split_ifs with h1 h2 h3 h4 h5
  · exact rfl
  · exact fun i _ => rfl
  · exact rfl
  · exact rfl
  · exact rfl
  · have hl := Props.clog_lt (not_lt.mp h4)
    obtain ⟨z, e, hz⟩ := fftAddmul_large buf old (middle := fun _ => .ok fun _ => 0) rfl (not_lt.mp h1)
      (Nat.pos_of_ne_zero h2) (.inr hl) (not_lt.mp h3) (not_lt.mp h5)
    obtain ⟨z', e', hz'⟩ := fftAddmul_large buf' old' (middle := fun _ => .ok fun _ => 0) rfl (x := x') (y := y') (by omega)
      (Nat.pos_of_ne_zero h2) (.inr hl) (by omega) (by omega)
    rw [e, e']
    intro i hi
    rw [hz, hz', if_pos hi, if_pos hi, conv_sim hx hy]

/-- When `fft_sqr` fails, and with what. -/
theorem fftSqr_fails (buf : ℕ → ℂ) (ny : ℕ) (old : ℕ → ℝ) (x : Span ℝ) :
    fftSqr FFT.sLimit buf ny old x =
      if 2 * x.len - 1 < ny then .error .assertion
      else if ny ≤ 8 then fftSqr FFT.sLimit buf ny old x
      else if bitCeil (2 * ny) < x.len then .error .assertion
      else if 2 ^ 28 < ny then .error .ub
      else fftSqr FFT.sLimit buf ny old x := by
  split_ifs with h h8 hx hn
  · exact fftSqr_assert (not_le.mpr h)
  · rfl
  all_goals
    obtain ⟨p, hp, ep, ep2, hle, -⟩ := bitCeil_two_mul (show 0 < ny by omega)
    have e0 : fftSqr FFT.sLimit buf ny old x = (do
        let fx ← srfftScramble FFT.sLimit (2 ^ (p - 1)) buf x
        let fx := sqrCwise (2 ^ (p - 1)) fx (1 / ((2 ^ (p - 1) : ℕ) : ℝ))
        isrfftScramble FFT.sLimit false ny old (2 ^ (p - 1)) fx) := by
      rw [fftSqr, slowAssert_true (by unfold relu; omega), bok, if_neg (show ¬ny ≤ mulBaseN by unfold mulBaseN; omega)]
      simp only [ep2]
    rw [ep] at hx
  · rw [e0, srfftScramble_assert hp _ (by omega), berr]
  · rw [e0, Props.C22_too_large (clog_of_large ep (by omega) hle) _ (by omega), berr]

theorem fftSqrKer_rel (buf buf' : ℕ → ℂ) (old old' : ℕ → ℝ) (n : ℕ) {x x' : Span ℝ} (hx : x.Sim x') :
    RelRes (Below n) (fftSqrKer buf old n x) (fftSqrKer buf' old' n x') := by
  have lx := hx.len
  unfold fftSqrKer
  rw [fftSqr_fails buf, fftSqr_fails buf' n old' x', ← lx]
  split_ifs with h1 h2 h3 h4
  · exact rfl
  · obtain ⟨z, e, hz⟩ := fftSqr_eq (lim := FFT.sLimit) buf (y := old) (not_lt.mp h1) (.inl h2) (.inl h2)
    obtain ⟨z', e', hz'⟩ := fftSqr_eq (lim := FFT.sLimit) buf' (y := old') (x := x') (ny := n) (by omega) (.inl h2) (.inl h2)
    rw [e, e']
    intro i hi
    rw [hz, hz', if_pos hi, if_pos hi, conv_sim hx hx]
  · exact rfl
  · exact rfl
  · have hl := Props.clog_lt (not_lt.mp h4)
    obtain ⟨z, e, hz⟩ := fftSqr_large buf old (not_lt.mp h1) (not_le.mp h2) hl (not_lt.mp h3)
    obtain ⟨z', e', hz'⟩ := fftSqr_large buf' old' (x := x') (by omega) (not_le.mp h2) hl (by omega)
    rw [e, e']
    intro i hi
    rw [hz, hz', if_pos hi, if_pos hi, conv_sim hx hx]

theorem fft_local (buf : ℕ → ℂ) (old : ℕ → ℝ) : Local (fftMulKer buf old) (fftAddmulKer buf old) (fftSqrKer buf old) :=
  ⟨fun n _ _ _ _ => fftMulKer_rel buf buf old old n, fun n _ _ _ _ => fftAddmulKer_rel buf buf old old n,
    fun n _ _ => fftSqrKer_rel buf buf old old n⟩

theorem fftHost_sim (J J' : Junk ℝ) (buf buf' : ℕ → ℂ) (old old' : ℕ → ℝ) : (fftHost J buf old).Sim (fftHost J' buf' old') where
  mul n _ _ _ _ := fftMulKer_rel buf buf' old old' n
  addmul n _ _ _ _ := fftAddmulKer_rel buf buf' old old' n
  sqr n _ _ := fftSqrKer_rel buf buf' old old' n
  invBase := (hostKer_sim J J' (fft_local buf old)).invBase
  expBase := (hostKer_sim J J' (fft_local buf old)).expBase
  check := rfl

end Mandelbrot
