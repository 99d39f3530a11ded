import Verif.FFT.RoundedMul
import Verif.FFT.RoundedTextWithin
import Verif.Props.FFT

/-!
# Rounding errors of products by transform (C63)

`fft_mul`, `fft_sqr` and `fft_addmul` for numbers with rounding errors.  The first theorems take any bodies of the
generated loops that are accurate one by one (`Within`); the others take the bodies as written in the generator, in an
arithmetic with relative error `ε` (`Accurate`), and give explicit bounds.
-/

namespace Mandelbrot.Props

open FFT Spec Finset

variable {R : Type} [Zero R] {K : Codelets R} {val : R → ℝ} {κ ε : ℝ}

/-! ## Any accurate loop bodies -/

/-- **C63.** The product is within `(grow κ p - 1) |x| |y|` of the exact one in each coefficient, where `2^p` is the size
of the transforms.  The other cells keep their values. -/
theorem C63_mul (junk : ℕ → R × R) {nz : ℕ} (z : ℕ → R) {x y : Span R} (W : Within K val κ (Nat.clog 2 (2 * nz)))
    (h : nz ≤ x.len + y.len - 1) (hl : nz ≤ 2 ^ 28) (hx : x.len ≤ nz) (hy : y.len ≤ nz) :
    ∃ z', fftMulK K sLimit junk nz z x y = .ok z' ∧ (∀ k, nz ≤ k → z' k = z k) ∧
      ∀ k < nz, |val (z' k) - coef val x y k| ≤ (grow κ (Nat.clog 2 (2 * nz)) - 1) * (size val x * size val y) := by
  have hb : 2 * nz ≤ bitCeil (2 * nz) := Nat.le_pow_clog (by norm_num) _
  exact fftMulK_close junk z W h (.inr (clog_lt hl)) (.inr ⟨by omega, by omega, by omega⟩)

/-- **C63.** Squares. -/
theorem C63_sqr (junk : ℕ → R × R) {ny : ℕ} (y : ℕ → R) {x : Span R} (W : Within K val κ (Nat.clog 2 (2 * ny)))
    (h : ny ≤ 2 * x.len - 1) (hl : ny ≤ 2 ^ 28) (hx : x.len ≤ ny) :
    ∃ y', fftSqrK K sLimit junk ny y x = .ok y' ∧ (∀ k, ny ≤ k → y' k = y k) ∧
      ∀ k < ny, |val (y' k) - coef val x x k| ≤ (grow κ (Nat.clog 2 (2 * ny)) - 1) * (size val x * size val x) := by
  have hb : 2 * ny ≤ bitCeil (2 * ny) := Nat.le_pow_clog (by norm_num) _
  exact fftSqrK_close junk y W h (.inr (clog_lt hl)) (.inr (by omega))

/-- **C63.** Products added to what the action in the middle leaves in the output. -/
theorem C63_addmul (junk : ℕ → R × R) {nz : ℕ} (z z1 : ℕ → R) {x y : Span R} {middle : (ℕ → R) → Res (ℕ → R)}
    (hmid : middle z = .ok z1) (W : Within K val κ (Nat.clog 2 (2 * nz)))
    (h : nz ≤ x.len + y.len - 1) (hl : nz ≤ 2 ^ 28) (hx : x.len ≤ nz) (hy : y.len ≤ nz) :
    ∃ z', fftAddmulK K sLimit junk nz z x y middle = .ok z' ∧ (∀ k, nz ≤ k → z' k = z1 k) ∧
      ∀ k < nz, |val (z' k) - (val (z1 k) + coef val x y k)| ≤
        κ * |val (z1 k)| + ((1 + κ) * grow κ (Nat.clog 2 (2 * nz)) - 1) * (size val x * size val y) := by
  have hb : 2 * nz ≤ bitCeil (2 * nz) := Nat.le_pow_clog (by norm_num) _
  exact fftAddmulK_close junk z hmid W h (.inr (clog_lt hl)) (.inr ⟨by omega, by omega, by omega⟩)

/-- **C63.** Outputs longer than the product are refused. -/
theorem C63_refused {lim : ℕ∞} (junk : ℕ → R × R) {nz : ℕ} (z : ℕ → R) {x y : Span R} (h : x.len + y.len - 1 < nz) :
    fftMulK K lim junk nz z x y = .error .assertion ∧
    (x.len = y.len → fftSqrK K lim junk nz z x = .error .assertion) ∧
    ∀ middle, fftAddmulK K lim junk nz z x y middle = .error .assertion := by
  refine ⟨fftMulK_assert (by omega), fun e => ?_, fun middle => ?_⟩
  · rw [fftSqrK, slowAssert_false (by unfold relu; omega)]
    rfl
  · rw [fftAddmulK, slowAssert_false (by unfold relu; omega)]
    rfl

/-- **C63.** Without errors in the loop bodies the products are exact. -/
theorem C63_exact (junk : ℕ → R × R) {nz : ℕ} (z : ℕ → R) {x y : Span R} (W : Within K val 0 (Nat.clog 2 (2 * nz)))
    (h : nz ≤ x.len + y.len - 1) (hl : nz ≤ 2 ^ 28) (hx : x.len ≤ nz) (hy : y.len ≤ nz) :
    ∃ z', fftMulK K sLimit junk nz z x y = .ok z' ∧ ∀ k < nz, val (z' k) = coef val x y k := by
  obtain ⟨z', e, -, h⟩ := C63_mul junk z W h hl hx hy
  refine ⟨z', e, fun k hk => ?_⟩
  have := h k hk
  simp only [grow, mul_zero, add_zero, one_pow, mul_one, sub_self, zero_mul] at this
  exact sub_eq_zero.1 (abs_eq_zero.1 (le_antisymm this (abs_nonneg _)))

/-! ## The bodies of the generator -/

variable {A : Arith R} {T : Tables R}

/-- **C63.** The loop bodies in an arithmetic with relative error `ε` are accurate, whatever the size. -/
theorem C63_bodies (H : Accurate A val ε) (HT : AccurateTables T val ε) (p : ℕ) :
    Within (textCodelets A T) val ((1 + ε) ^ 28 - 1) p := text_within H HT p

/-- **C63.** The error of a product grows with the number of passes, that is with the logarithm of the size. -/
theorem C63_text_mul (H : Accurate A val ε) (HT : AccurateTables T val ε) (junk : ℕ → R × R) {nz : ℕ} (z : ℕ → R)
    {x y : Span R} (h : nz ≤ x.len + y.len - 1) (hl : nz ≤ 2 ^ 28) (hx : x.len ≤ nz) (hy : y.len ≤ nz) :
    ∃ z', fftMulK (textCodelets A T) sLimit junk nz z x y = .ok z' ∧ (∀ k, nz ≤ k → z' k = z k) ∧
      ∀ k < nz, |val (z' k) - coef val x y k| ≤
        ((1 + ε) ^ (196 * passes (Nat.clog 2 (2 * nz)) + 28) - 1) * (size val x * size val y) := by
  obtain ⟨z', e, h1, h2⟩ := C63_mul junk z (C63_bodies H HT _) h hl hx hy
  refine ⟨z', e, h1, fun k hk => (h2 k hk).trans (mul_le_mul_of_nonneg_right ?_ ?_)⟩
  · linarith [grow_le H.nonneg (Nat.clog 2 (2 * nz))]
  · exact mul_nonneg (size_nonneg x) (size_nonneg y)

theorem passes_le {nz : ℕ} (hl : nz ≤ 2 ^ 28) : passes (Nat.clog 2 (2 * nz)) ≤ 10 := by
  have h : Nat.clog 2 (2 * nz) ≤ 29 := Nat.clog_le_of_le_pow (by omega)
  unfold passes
  omega

theorem epow_le (h0 : 0 ≤ ε) (h1 : ε ≤ 1 / 2 ^ 17) {n : ℕ} (hn : n ≤ 2016) : (1 + ε) ^ n - 1 ≤ 2048 * ε := by
  have hn' : (n : ℝ) ≤ 2016 := by exact_mod_cast hn
  have hx : (0 : ℝ) ≤ n * ε := by positivity
  have hx2 : (n : ℝ) * ε ≤ 2016 * ε := mul_le_mul_of_nonneg_right hn' h0
  have a2 : (1 + ε) ^ n ≤ Real.exp (n * ε) := by
    rw [Real.exp_nat_mul]
    exact pow_le_pow_left₀ (by linarith) (by linarith [Real.add_one_le_exp ε]) _
  have h2 : ε ≤ 1 / 131072 := by norm_num at h1 ⊢; exact h1
  have a3 := Real.abs_exp_sub_one_sub_id_le (x := n * ε) (by rw [abs_of_nonneg hx]; linarith)
  have a4 := (abs_le.1 a3).2
  have a5 : ((n : ℝ) * ε) ^ 2 ≤ 32 * ε := by
    have : ((n : ℝ) * ε) ^ 2 ≤ (2016 * ε) ^ 2 := pow_le_pow_left₀ hx hx2 2
    have : (2016 * ε) ^ 2 ≤ 32 * ε := by nlinarith
    linarith
  linarith

/-- **C63.** For all sizes that the tables allow, the error of a product is at most `2048 ε |x| |y|`. -/
theorem C63_text_mul_linear (H : Accurate A val ε) (HT : AccurateTables T val ε) (hε : ε ≤ 1 / 2 ^ 17)
    (junk : ℕ → R × R) {nz : ℕ} (z : ℕ → R)
    {x y : Span R} (h : nz ≤ x.len + y.len - 1) (hl : nz ≤ 2 ^ 28) (hx : x.len ≤ nz) (hy : y.len ≤ nz) :
    ∃ z', fftMulK (textCodelets A T) sLimit junk nz z x y = .ok z' ∧ (∀ k, nz ≤ k → z' k = z k) ∧
      ∀ k < nz, |val (z' k) - coef val x y k| ≤ 2048 * ε * (size val x * size val y) := by
  obtain ⟨z', e, h1, h2⟩ := C63_text_mul H HT junk z h hl hx hy
  refine ⟨z', e, h1, fun k hk => (h2 k hk).trans (mul_le_mul_of_nonneg_right ?_ ?_)⟩
  · exact epow_le H.nonneg hε (by have := passes_le hl; omega)
  · exact mul_nonneg (size_nonneg x) (size_nonneg y)

/-- **C63.** The same for squares. -/
theorem C63_text_sqr_linear (H : Accurate A val ε) (HT : AccurateTables T val ε) (hε : ε ≤ 1 / 2 ^ 17)
    (junk : ℕ → R × R) {ny : ℕ} (y : ℕ → R) {x : Span R} (h : ny ≤ 2 * x.len - 1) (hl : ny ≤ 2 ^ 28) (hx : x.len ≤ ny) :
    ∃ y', fftSqrK (textCodelets A T) sLimit junk ny y x = .ok y' ∧ (∀ k, ny ≤ k → y' k = y k) ∧
      ∀ k < ny, |val (y' k) - coef val x x k| ≤ 2048 * ε * (size val x * size val x) := by
  obtain ⟨y', e, h1, h2⟩ := C63_sqr junk y (C63_bodies H HT _) h hl hx
  refine ⟨y', e, h1, fun k hk => (h2 k hk).trans (mul_le_mul_of_nonneg_right ?_ ?_)⟩
  · have := grow_le H.nonneg (Nat.clog 2 (2 * ny))
    have := epow_le H.nonneg hε (n := 196 * passes (Nat.clog 2 (2 * ny)) + 28) (by have := passes_le hl; omega)
    linarith
  · exact mul_nonneg (size_nonneg x) (size_nonneg x)

/-- **C63.** The same for products that are added. -/
theorem C63_text_addmul_linear (H : Accurate A val ε) (HT : AccurateTables T val ε) (hε : ε ≤ 1 / 2 ^ 17)
    (junk : ℕ → R × R) {nz : ℕ} (z z1 : ℕ → R) {x y : Span R} {middle : (ℕ → R) → Res (ℕ → R)}
    (hmid : middle z = .ok z1) (h : nz ≤ x.len + y.len - 1) (hl : nz ≤ 2 ^ 28) (hx : x.len ≤ nz) (hy : y.len ≤ nz) :
    ∃ z', fftAddmulK (textCodelets A T) sLimit junk nz z x y middle = .ok z' ∧ (∀ k, nz ≤ k → z' k = z1 k) ∧
      ∀ k < nz, |val (z' k) - (val (z1 k) + coef val x y k)| ≤
        2048 * ε * (|val (z1 k)| + size val x * size val y) := by
  have h0 := H.nonneg
  obtain ⟨z', e, h1, h2⟩ := C63_addmul junk z z1 hmid (C63_bodies H HT _) h hl hx hy
  refine ⟨z', e, h1, fun k hk => (h2 k hk).trans ?_⟩
  have a1 : (1 + ε) ^ 28 - 1 ≤ 2048 * ε := epow_le h0 hε (by norm_num)
  have a2 : (1 + ((1 + ε) ^ 28 - 1)) * grow ((1 + ε) ^ 28 - 1) (Nat.clog 2 (2 * nz)) - 1 ≤ 2048 * ε := by
    have b1 := grow_le h0 (Nat.clog 2 (2 * nz))
    have b2 := epow_le h0 hε (n := 28 + (196 * passes (Nat.clog 2 (2 * nz)) + 28)) (by have := passes_le hl; omega)
    rw [pow_add] at b2
    have b3 := mul_le_mul_of_nonneg_left b1 (show (0 : ℝ) ≤ (1 + ε) ^ 28 by positivity)
    rw [add_sub_cancel]
    linarith
  have a3 := mul_nonneg (size_nonneg (val := val) x) (size_nonneg (val := val) y)
  have a4 := mul_le_mul_of_nonneg_right a1 (abs_nonneg (val (z1 k)))
  have a5 := mul_le_mul_of_nonneg_right a2 a3
  linarith

/-! ## A case -/

/-- Sums too large and products too small by one part in `2^53`. -/
noncomputable def skewArith : Arith ℝ where
  add a b := (a + b) * (1 + 1 / 2 ^ 53)
  sub a b := (a - b) * (1 + 1 / 2 ^ 53)
  mul a b := a * b * (1 - 1 / 2 ^ 53)
  neg a := -a
  twice a := 2 * a

/-- Twiddle factors with a first part too small by one part in `2^53`. -/
noncomputable def skewTables : Tables ℝ where
  slice s j := ((cis j (2 * 2 ^ s)).re * (1 - 1 / 2 ^ 53), (cis j (2 * 2 ^ s)).im)
  few s j := ((cis j (2 * 2 ^ s)).re * (1 - 1 / 2 ^ 53), (cis j (2 * 2 ^ s)).im)
  const j s := ((cis j (2 * 2 ^ s)).re * (1 - 1 / 2 ^ 53), (cis j (2 * 2 ^ s)).im)
  half := Real.sqrt (1 / 2) * (1 + 1 / 2 ^ 53)
  inv n := 1 / n

theorem skewArith_accurate : Accurate skewArith id (1 / 2 ^ 53) where
  nonneg := by norm_num
  zero := rfl
  add a b := by
    have e : (a + b) * (1 + 1 / 2 ^ 53) - (a + b) = 1 / 2 ^ 53 * (a + b) := by ring
    simp only [skewArith, id, e]
    rw [abs_mul, abs_of_nonneg (show (0 : ℝ) ≤ 1 / 2 ^ 53 by norm_num)]
    exact mul_le_mul_of_nonneg_left (abs_add_le a b) (by norm_num)
  sub a b := by
    have e : (a - b) * (1 + 1 / 2 ^ 53) - (a - b) = 1 / 2 ^ 53 * (a - b) := by ring
    simp only [skewArith, id, e]
    rw [abs_mul, abs_of_nonneg (show (0 : ℝ) ≤ 1 / 2 ^ 53 by norm_num)]
    exact mul_le_mul_of_nonneg_left (abs_sub a b) (by norm_num)
  mul a b := by
    have e : a * b * (1 - 1 / 2 ^ 53) - a * b = -(1 / 2 ^ 53 * (a * b)) := by ring
    simp only [skewArith, id, e]
    rw [abs_neg, abs_mul, abs_of_nonneg (show (0 : ℝ) ≤ 1 / 2 ^ 53 by norm_num), abs_mul]
  neg _ := rfl
  twice _ := rfl

theorem skewTables_accurate : AccurateTables skewTables id (1 / 2 ^ 53) := by
  have h : ∀ (j : ℤ) (n : ℕ), ‖cval id ((cis j n).re * (1 - 1 / 2 ^ 53), (cis j n).im) - cis j n‖ ≤ 1 / 2 ^ 53 := by
    intro j n
    have e : cval id ((cis j n).re * (1 - 1 / 2 ^ 53), (cis j n).im) - cis j n =
        ((-(1 / 2 ^ 53 * (cis j n).re) : ℝ) : ℂ) := by
      apply Complex.ext
      · rw [Complex.sub_re, cval_re, Complex.ofReal_re, id]; ring
      · rw [Complex.sub_im, cval_im, Complex.ofReal_im, id, sub_self]
    rw [e, Complex.norm_real, Real.norm_eq_abs, abs_neg, abs_mul, abs_of_nonneg (show (0 : ℝ) ≤ 1 / 2 ^ 53 by norm_num)]
    have := Complex.abs_re_le_norm (cis j n)
    rw [norm_cis'] at this
    exact mul_le_of_le_one_right (by norm_num) this
  refine ⟨fun s j => h j _, fun s j _ _ => h j _, fun j s => h j _, ?_, fun k => ?_⟩
  · have e : Real.sqrt (1 / 2) * (1 + 1 / 2 ^ 53) - Real.sqrt (1 / 2) = 1 / 2 ^ 53 * Real.sqrt (1 / 2) := by ring
    simp only [skewTables, id, e]
    rw [abs_of_nonneg (by positivity)]
  · simp only [skewTables, id]
    rw [Nat.cast_pow, Nat.cast_ofNat, sub_self, abs_zero]
    positivity

/-- A product of length 100 in that arithmetic. -/
example (junk : ℕ → ℝ × ℝ) (z : ℕ → ℝ) (x y : Span ℝ) (hx : x.len = 60) (hy : y.len = 41) :
    ∃ z', fftMulK (textCodelets skewArith skewTables) sLimit junk 100 z x y = .ok z' ∧
      (∀ k, 100 ≤ k → z' k = z k) ∧
      ∀ k < 100, |z' k - coef id x y k| ≤ 2048 * (1 / 2 ^ 53) * (size id x * size id y) :=
  C63_text_mul_linear skewArith_accurate skewTables_accurate (by norm_num) junk z (by omega) (by norm_num) (by omega)
    (by omega)

/-- The arithmetic is not exact. -/
example : skewArith.add 1 1 ≠ 2 ∧ skewArith.mul 1 1 ≠ 1 := by
  constructor <;> norm_num [skewArith]

end Mandelbrot.Props
