import Verif.FFT.Inverse
import Verif.FFT.Mem
import Verif.Spec.FFT
import Mathlib.Tactic.IntervalCases

/-!
# C21-C24 and C26: transforms, multiplication by transforms, twiddle tables, permutations

Sizes: the host loops count in `int`, so power-of-two sizes are `2^p` with `p ≤ 30`; the theorems hold a little
further, as far as the code's own shifts are defined.  All arithmetic is exact.
-/

namespace Mandelbrot.Props

open FFT Complex

/-- What a reader sees at position `i` of an input span that is extended by zeros. -/
def padded (x : Span ℝ) (i : ℕ) : ℝ := if i < x.len then x.get i else 0

theorem padded_eq (x : Span ℝ) : x.getZ = padded x := rfl

theorem turn_cis (a : ℤ) (n : ℕ) : Spec.turn (a / n) = cis a n := by
  rw [Spec.turn, cis]; congr 1; push_cast; ring

theorem dft_spec (n : ℕ) (z : ℕ → ℂ) (k : ℕ) : FFT.dft n z k = Spec.dft n z k := by
  rw [FFT.dft, Spec.dft]
  refine Finset.sum_congr rfl fun j _ => ?_
  rw [← turn_cis]; congr 2; push_cast; ring

theorem idft_spec (n : ℕ) (z : ℕ → ℂ) (k : ℕ) : FFT.idft n z k = Spec.idft n z k := by
  rw [FFT.idft, Spec.idft]
  refine Finset.sum_congr rfl fun j _ => ?_
  rw [← turn_cis]; congr 2; push_cast; ring

theorem rdft_spec (n : ℕ) (x : ℕ → ℝ) (k : ℕ) : rdft n x k = Spec.dft n (fun j => x j) k := by
  rw [rdft, Spec.dft]
  refine Finset.sum_congr rfl fun j _ => ?_
  rw [← turn_cis]; congr 2; push_cast; ring

theorem rpack_spec (N : ℕ) (x : ℕ → ℝ) (k : ℕ) : rpack N x k = Spec.halfSpectrum N x k := by
  rw [rpack, Spec.halfSpectrum]
  have h0 := rdft_spec (2 * N) x 0
  rw [Nat.cast_zero] at h0
  rw [h0, rdft_spec, rdft_spec]

/-! ## C21 -/

/-- **C21** fft: for every power-of-two size from 2 cells on and every input that fits, the cells hold the discrete
Fourier transform of the input, zero-padded and taken as complex numbers. -/
theorem C21_fft {p : ℕ} (hp : 1 ≤ p) (hp' : p ≤ 64) (y : ℕ → ℂ) {x : Span ℝ} (hx : x.len ≤ 2 * 2 ^ p) :
    ∃ y', fft (2 ^ p) y x = .ok y' ∧ ∀ k < 2 ^ p, y' k = Spec.dft (2 ^ p) (Spec.pairs (padded x)) k := by
  obtain ⟨y', e, h⟩ := fft_eq hp hp' y hx
  exact ⟨y', e, fun k hk => by rw [h k hk, dft_spec]; rfl⟩

/-- **C21** ifft of any data. -/
theorem C21_ifft {p : ℕ} (hp : 1 ≤ p) (hp' : p ≤ 64) {xn : ℕ} (hx : xn ≤ 2 * 2 ^ p) (x : ℕ → ℝ) (y : ℕ → ℂ) :
    ∃ x', ifft xn x (2 ^ p) y = .ok x' ∧
      ∀ k, x' k = if k < xn then Spec.flat (Spec.idft (2 ^ p) y) k else x k := by
  obtain ⟨x', e, h⟩ := ifft_eq hp hp' hx x y
  refine ⟨x', e, fun k => ?_⟩
  rw [h, realCell, Spec.flat, idft_spec]

/-- **C21**: `ifft` after `fft` gives `n` times the input, cut to the size of the output. -/
theorem C21_ifft_fft {p : ℕ} (hp : 1 ≤ p) (hp' : p ≤ 64) (y0 : ℕ → ℂ) {x : Span ℝ} (hx : x.len ≤ 2 * 2 ^ p) {xn : ℕ}
    (hxn : xn ≤ 2 * 2 ^ p) (x0 : ℕ → ℝ) :
    ∃ y x', fft (2 ^ p) y0 x = .ok y ∧ ifft xn x0 (2 ^ p) y = .ok x' ∧
      ∀ k, x' k = if k < xn then 2 ^ p * padded x k else x0 k := by
  obtain ⟨y1, e1, h1⟩ := fftBitrev_eq p y0 hx
  obtain ⟨y2, e2, h2⟩ := bitrev_eq hp hp' y1
  obtain ⟨y3, e3, h3⟩ := bitrev_eq hp hp' y2
  obtain ⟨x', e, h⟩ := ifftBitrev_eq p hxn x0 1 (y0 := packed x.getZ) (u := y3) (by
    intro k hk
    rw [h3, if_pos hk, h2, if_pos (bitReverse_lt p k), bitReverse_invol p hk, h1 k hk, fftLoop_dft p _ hk]
    simp)
  refine ⟨y2, x', by rw [fft, e1, bok, e2], by rw [ifft, e3, bok, e], fun k => ?_⟩
  rw [h]
  have hr : realCell (packed x.getZ) k = padded x k := by
    rw [realCell, packed, padded_eq]
    split_ifs with hk
    · simp only []; congr 1; omega
    · simp only []; congr 1; omega
  rw [hr, mul_one]

/-- **C21** rfft: the packed spectrum of the zero-padded real input. -/
theorem C21_rfft {p : ℕ} (hp : 1 ≤ p) (hp' : p ≤ 32) (y : ℕ → ℂ) {x : Span ℝ} (hx : x.len ≤ 2 * 2 ^ p) :
    ∃ y', rfft (2 ^ p) y x = .ok y' ∧ ∀ k < 2 ^ p, y' k = Spec.halfSpectrum (2 ^ p) (padded x) k := by
  obtain ⟨P, rfl⟩ := Nat.exists_eq_add_of_le' hp
  obtain ⟨y', e, h⟩ := rfft_eq (P := P) (by omega) y hx
  exact ⟨y', e, fun k hk => by rw [h k hk, rpack_spec]; rfl⟩

/-- **C21** irfft of any data. -/
theorem C21_irfft {p : ℕ} (hp : 1 ≤ p) (hp' : p ≤ 32) {xn : ℕ} (hx : xn ≤ 2 * 2 ^ p) (x : ℕ → ℝ) (y : ℕ → ℂ) :
    ∃ x', irfft xn x (2 ^ p) y = .ok x' ∧
      ∀ k, (k < xn → (x' k : ℂ) = Spec.idft (2 * 2 ^ p) (Spec.fullSpectrum (2 ^ p) y) k) ∧ (xn ≤ k → x' k = x k) := by
  obtain ⟨P, rfl⟩ := Nat.exists_eq_add_of_le' hp
  obtain ⟨x', e, h⟩ := irfft_eq (P := P) (by omega) hx x y
  refine ⟨x', e, fun k => ⟨fun hk => ?_, fun hk => by rw [h, if_neg (by omega)]⟩⟩
  rw [h, if_pos hk, idft_hermitian_real (by positivity), idft_spec]
  rfl

/-- **C21**: `irfft` after `rfft` gives `2n` times the input, cut to the size of the output. -/
theorem C21_irfft_rfft {p : ℕ} (hp : 1 ≤ p) (hp' : p ≤ 32) (y0 : ℕ → ℂ) {x : Span ℝ} (hx : x.len ≤ 2 * 2 ^ p) {xn : ℕ}
    (hxn : xn ≤ 2 * 2 ^ p) (x0 : ℕ → ℝ) :
    ∃ y x', rfft (2 ^ p) y0 x = .ok y ∧ irfft xn x0 (2 ^ p) y = .ok x' ∧
      ∀ k, x' k = if k < xn then 2 * 2 ^ p * padded x k else x0 k := by
  obtain ⟨P, rfl⟩ := Nat.exists_eq_add_of_le' hp
  obtain ⟨y, e, h⟩ := rfft_eq (P := P) (by omega) y0 hx
  obtain ⟨x', e', h'⟩ := irfft_eq (P := P) (by omega) hxn x0 y
  refine ⟨y, x', e, e', fun k => ?_⟩
  rw [h']
  have hN : 0 < 2 ^ (P + 1) := by positivity
  split_ifs with hk
  · have hcong : ∀ m < 2 * 2 ^ (P + 1), hermitian (2 ^ (P + 1)) y m = rdft (2 * 2 ^ (P + 1)) x.getZ m := by
      intro m hm
      rw [← idft_rpack hN _ hm, hermitian, hermitian, h 0 hN]
      split_ifs with a b c
      · rfl
      · rw [h m b]
      · rfl
      · rw [h _ (by omega)]
    have h1 := idft_rdft (n := 2 * 2 ^ (P + 1)) (by positivity) x.getZ (show k < 2 * 2 ^ (P + 1) by omega)
    rw [FFT.idft, Finset.sum_congr rfl fun m hm => by rw [hcong m (Finset.mem_range.mp hm)], h1, ← ofReal_natCast,
      ← ofReal_mul, ofReal_re, padded_eq]
    push_cast; ring
  · rfl

/-- **C21**, what is refused: an input that does not fit, and a size that is not a power of two. -/
theorem C21_reject {n : ℕ} (h0 : n ≠ 0) (y : ℕ → ℂ) (x : Span ℝ) (h : (∀ p, n ≠ 2 ^ p) ∨ 2 * n < x.len) :
    fft n y x = .error .assertion ∧ rfft n y x = .error .assertion := by
  have e : fftBitrev n y x = .error .assertion := by
    simp only [fftBitrev, if_neg h0]
    rw [slowAssert_false, berr]
    rintro ⟨h1, h2⟩
    rcases h with h | h
    · exact h _ h1
    · omega
  constructor
  · rw [fft, e, berr]
  · have h2 : 2 * n ≠ 0 := by omega
    simp only [rfft, rfftBitrev, if_neg h2, e, berr]

/-- **C21**, the boundary: with one complex cell the transforms shift a 64-bit word by 64 places. -/
theorem C21_one_cell (y : ℕ → ℂ) {x : Span ℝ} (hx : x.len ≤ 2) (x0 : ℕ → ℝ) (xn : ℕ) :
    fft 1 y x = .error .ub ∧ ifft xn x0 1 y = .error .ub ∧ rfft 1 y x = .error .ub ∧ irfft xn x0 1 y = .error .ub := by
  have hb : ∀ y : ℕ → ℂ, bitrev 1 y = .error .ub := by
    intro y
    have : countrZero64 1 = 0 := countrZero64_pow (p := 0)
    simp only [bitrev, this, if_true]
  obtain ⟨y1, e1, -⟩ := fftBitrev_eq 0 y (x := x) (by simpa using hx)
  have h2 : countrZero64 2 = 1 := countrZero64_pow (p := 1)
  rw [pow_zero] at e1
  refine ⟨by rw [fft, e1, bok, hb], by rw [ifft, hb, berr], ?_, by rw [irfft, hb, berr]⟩
  simp only [rfft, rfftBitrev, mul_one, if_neg (show (2 : ℕ) ≠ 0 by norm_num), e1, bok, h2, if_true, pok]
  exact hb _

/-- Four cells, five inputs. -/
example : ∃ y', fft (2 ^ 2) (fun _ => 0) ⟨5, fun i => i⟩ = .ok y' ∧
    ∀ k < 4, y' k = Spec.dft (2 ^ 2) (Spec.pairs (padded ⟨5, fun i => i⟩)) k :=
  C21_fft (by norm_num) (by norm_num) _ (by norm_num)

/-! ## C22 -/

/-- Specification: root `exp(-2πi e/(2n))`. -/
noncomputable def rootAt (e : ℤ) (n : ℕ) : ℂ := Spec.turn (-e / (2 * n : ℕ))

/-- **C22**: the scrambled transform holds in each cell the value of the input polynomial at one odd `2n`-th root of
unity; different cells have roots that are neither equal nor conjugate. -/
theorem C22_srfft_scramble {p : ℕ} (hp : 1 ≤ p) (hlim : p < 30) (y : ℕ → ℂ) {x : Span ℝ} (hx : x.len ≤ 2 ^ p) :
    ∃ y' : ℕ → ℂ, ∃ e : ℕ → ℤ, srfftScramble FFT.sLimit (2 ^ (p - 1)) y x = .ok y' ∧
      (∀ k < 2 ^ (p - 1), e k % 2 = 1 ∧ 0 < e k ∧ e k < 2 ^ p ∧ y' k = Spec.polyAt (2 ^ p) (padded x) (rootAt (e k) (2 ^ p))) ∧
      ∀ k < 2 ^ (p - 1), ∀ l < 2 ^ (p - 1), e k = e l → k = l := by
  obtain ⟨y', e, h⟩ := srfftScramble_eq (lim := FFT.sLimit) hp (Or.inr (by unfold FFT.sLimit; exact_mod_cast hlim)) y hx
  refine ⟨y', sexp (p - 1), e, fun k hk => ⟨sexp_odd _ _, (sexp_range _ _).1, ?_, ?_⟩, fun k hk l hl => sexp_inj _ hk hl⟩
  · have := (sexp_range (p - 1) k).2
    rwa [Nat.sub_add_cancel hp] at this
  · rw [h k hk, fwd_eval hp _ hk, rootAt]
    have := turn_cis (-sexp (p - 1) k) (2 * 2 ^ p)
    push_cast at this ⊢
    rw [this]; rfl

/-- **C22**: in natural order cell `k` is at the root `2k+1`. -/
theorem C22_srfft {p : ℕ} (hp : 2 ≤ p) (hlim : p < 30) (y : ℕ → ℂ) {x : Span ℝ} (hx : x.len ≤ 2 ^ p) :
    ∃ y', srfft FFT.sLimit (2 ^ (p - 1)) y x = .ok y' ∧
      ∀ k < 2 ^ (p - 1), y' k = Spec.polyAt (2 ^ p) (padded x) (rootAt (2 * k + 1) (2 ^ p)) := by
  obtain ⟨y', e, h⟩ := srfft_eq (lim := FFT.sLimit) hp (by omega) (Or.inr (by unfold FFT.sLimit; exact_mod_cast hlim)) y hx
  refine ⟨y', e, fun k hk => ?_⟩
  rw [h k hk, rootAt]
  have := turn_cis (-(2 * k + 1)) (2 * 2 ^ p)
  push_cast at this ⊢
  rw [this]; rfl

/-- **C22**: the backward transform of any data in natural order: `Re Σ_m y_m exp(2πi (2m+1)k/(2n))`. -/
theorem C22_isrfft {p : ℕ} (hp : 2 ≤ p) (hlim : p < 30) {xn : ℕ} (hx : xn ≤ 2 ^ p) (x : ℕ → ℝ) (y : ℕ → ℂ) :
    ∃ x', isrfft FFT.sLimit xn x (2 ^ (p - 1)) y = .ok x' ∧
      ∀ k, x' k = if k < xn then (∑ m ∈ Finset.range (2 ^ (p - 1)), y m * rootAt (-((2 * m + 1) * k)) (2 ^ p)).re else x k := by
  obtain ⟨x', e, h⟩ := isrfft_eq (lim := FFT.sLimit) hp (by omega) (Or.inr (by unfold FFT.sLimit; exact_mod_cast hlim))
    (show xn ≤ 2 * 2 ^ p by omega) x y
  have hn : 2 * 2 ^ (p - 1) = 2 ^ p := by rw [← pow_succ', Nat.sub_add_cancel (by omega)]
  refine ⟨x', e, fun k => ?_⟩
  rw [h]
  by_cases hk : k < xn
  · rw [if_pos ⟨by omega, hk⟩, if_pos hk, oddSum, hn]
    congr 1
    refine Finset.sum_congr rfl fun m _ => ?_
    rw [rootAt, ← turn_cis]
    congr 2
    push_cast; ring
  · rw [if_neg (by omega), if_neg hk]

/-- **C22**: backward after forward, both scrambled, gives `n/2` times the input; so does the adding version, on top of
what was there. -/
theorem C22_roundtrip {p : ℕ} (hp : 1 ≤ p) (hlim : p < 30) (add : Bool) (y0 : ℕ → ℂ) {x : Span ℝ} (hx : x.len ≤ 2 ^ p)
    {xn : ℕ} (hxn : xn ≤ 2 ^ p) (x0 : ℕ → ℝ) :
    ∃ y x', srfftScramble FFT.sLimit (2 ^ (p - 1)) y0 x = .ok y ∧
      isrfftScramble FFT.sLimit add xn x0 (2 ^ (p - 1)) y = .ok x' ∧
      ∀ k, x' k = if k < xn then (if add then x0 k else 0) + 2 ^ p / 2 * padded x k else x0 k := by
  have hl : p ≤ 2 ∨ (p : ℕ∞) < FFT.sLimit := Or.inr (by unfold FFT.sLimit; exact_mod_cast hlim)
  obtain ⟨y, e, h⟩ := srfftScramble_eq hp hl y0 hx
  obtain ⟨x', e', h'⟩ := isrfftScramble_eq hp hl add (show xn ≤ 2 * 2 ^ p by omega) x0 y
  refine ⟨y, x', e, e', fun k => ?_⟩
  rw [h']
  by_cases hk : k < xn
  · rw [if_pos ⟨by omega, hk⟩, if_pos hk, bwd_congr hp h (by omega), bwd_fwd hp _ (by omega), padded_eq]
    congr 2
    obtain ⟨q, rfl⟩ := Nat.exists_eq_add_of_le' hp
    rw [Nat.add_sub_cancel, pow_succ]; ring
  · rw [if_neg (by omega), if_neg hk]

/-- **C22**: `isrfft` after `srfft`. -/
theorem C22_roundtrip_natural {p : ℕ} (hp : 2 ≤ p) (hlim : p < 30) (y0 : ℕ → ℂ) {x : Span ℝ} (hx : x.len ≤ 2 ^ p)
    {xn : ℕ} (hxn : xn ≤ 2 ^ p) (x0 : ℕ → ℝ) :
    ∃ y x', srfft FFT.sLimit (2 ^ (p - 1)) y0 x = .ok y ∧ isrfft FFT.sLimit xn x0 (2 ^ (p - 1)) y = .ok x' ∧
      ∀ k, x' k = if k < xn then 2 ^ p / 2 * padded x k else x0 k := by
  have hl : p ≤ 2 ∨ (p : ℕ∞) < FFT.sLimit := Or.inr (by unfold FFT.sLimit; exact_mod_cast hlim)
  obtain ⟨y, e, h⟩ := srfftScramble_eq (by omega) hl y0 hx
  obtain ⟨y2, e2, h2⟩ := shiftedPermute_eq (p := p - 1) (by omega) (by omega) y
  obtain ⟨y3, e3, h3⟩ := shiftedUnpermute_eq (p := p - 1) (by omega) (by omega) y2
  obtain ⟨x', e', h'⟩ := isrfftScramble_eq (by omega) hl false (show xn ≤ 2 * 2 ^ p by omega) x0 y3
  refine ⟨y2, x', by rw [srfft, e, bok, e2], by rw [isrfft, e3, bok, e'], fun k => ?_⟩
  have hy : EqOn (2 ^ (p - 1)) y3 (fwd p x.getZ) := by
    intro q hq
    have hu := urho_lt (p - 1) (bitReverse_lt (p - 1) q)
    rw [h3, if_pos hq, h2, if_pos hu, rho_urho _ (bitReverse_lt _ _), bitReverse_invol _ hq, h q hq]
  rw [h']
  simp only [Bool.false_eq_true, if_false, zero_add]
  by_cases hk : k < xn
  · rw [if_pos ⟨by omega, hk⟩, if_pos hk, bwd_congr (by omega) hy (by omega), bwd_fwd (by omega) _ (by omega), padded_eq]
    congr 1
    obtain ⟨q, rfl⟩ := Nat.exists_eq_add_of_le' (show 1 ≤ p by omega)
    rw [Nat.add_sub_cancel, pow_succ]; ring
  · rw [if_neg (by omega), if_neg hk]

/-- **C22**, what is refused. -/
theorem C22_reject {n : ℕ} (h0 : n ≠ 0) (y : ℕ → ℂ) (x : Span ℝ) (x0 : ℕ → ℝ) (xn : ℕ) (add : Bool) :
    (((∀ p, 2 * n ≠ 2 ^ p) ∨ 2 * n < x.len) → srfftScramble FFT.sLimit n y x = .error .assertion) ∧
      (((∀ p, 2 * n ≠ 2 ^ p) ∨ 4 * n < xn) → isrfftScramble FFT.sLimit add xn x0 n y = .error .assertion) := by
  have h2 : 2 * n ≠ 0 := by omega
  constructor
  · intro h
    simp only [srfftScramble, if_neg h2]
    rw [slowAssert_false, berr]
    rintro ⟨h1, h3⟩
    rcases h with h | h
    · exact h _ h1
    · omega
  · intro h
    simp only [isrfftScramble, if_neg h2]
    rw [slowAssert_false, berr]
    rintro ⟨h1, h3⟩
    rcases h with h | h
    · exact h _ h1
    · omega

/-- **C22**, a gap in the check: between `n` and `2n` output cells are accepted although cells from `n` on are left as
they were. -/
theorem C22_long_output {p : ℕ} (hp : 1 ≤ p) (hlim : p < 30) {xn : ℕ} (hxn : xn ≤ 2 * 2 ^ p) (x0 : ℕ → ℝ) (y : ℕ → ℂ) :
    ∃ x', isrfftScramble FFT.sLimit false xn x0 (2 ^ (p - 1)) y = .ok x' ∧ ∀ k, 2 ^ p ≤ k → x' k = x0 k := by
  have hl : p ≤ 2 ∨ (p : ℕ∞) < FFT.sLimit := Or.inr (by unfold FFT.sLimit; exact_mod_cast hlim)
  obtain ⟨x', e', h'⟩ := isrfftScramble_eq hp hl false hxn x0 y
  exact ⟨x', e', fun k hk => by rw [h', if_neg (by omega)]⟩

/-- **C22**, the limit: from `n = 2^30` on the row of first twiddles is past the end of its array. -/
theorem C22_too_large {p : ℕ} (hp : 30 ≤ p) (y : ℕ → ℂ) {x : Span ℝ} (hx : x.len ≤ 2 ^ p) :
    srfftScramble FFT.sLimit (2 ^ (p - 1)) y x = .error .ub := by
  have hn : 2 * 2 ^ (p - 1) = 2 ^ p := by rw [← pow_succ', Nat.sub_add_cancel (by omega)]
  have hn0 : 2 ^ p ≠ 0 := by positivity
  simp only [srfftScramble, hn, if_neg hn0, countrZero64_pow]
  rw [slowAssert_true ⟨trivial, hx⟩, bok]
  have hb : FFT.bigSlice FFT.sLimit p = .error .ub := by
    rw [FFT.bigSlice, slowAssert_true (show p ≥ 2 by omega), bok, if_neg]
    unfold FFT.sLimit
    have : ((30 : ℕ) : ℕ∞) ≤ p := by exact_mod_cast hp
    exact not_lt.mpr this
  match p, hp with
  | q + 3, _ => simp only [hb, berr]

example : ∃ y' : ℕ → ℂ, srfft FFT.sLimit (2 ^ (4 - 1)) (fun _ => 0) ⟨11, fun i => i⟩ = .ok y' ∧
    ∀ k < 2 ^ (4 - 1), y' k = Spec.polyAt (2 ^ 4) (padded ⟨11, fun i => i⟩) (rootAt (2 * k + 1) (2 ^ 4)) :=
  C22_srfft (by norm_num) (by norm_num) _ (by norm_num)

/-! ## C23 -/

theorem conv_spec (x y : Span ℝ) (k : ℕ) : x.conv y k = Spec.conv (padded x) (padded y) k := rfl

/-- The next power of two. -/
theorem clog_lt {nz : ℕ} (h : nz ≤ 2 ^ 28) : (Nat.clog 2 (2 * nz) : ℕ∞) < FFT.sLimit := by
  have h1 : Nat.clog 2 (2 * nz) ≤ 29 := (Nat.clog_le_iff_le_pow (by norm_num)).mpr (by norm_num at h ⊢; omega)
  have h2 : Nat.clog 2 (2 * nz) < 30 := by omega
  unfold FFT.sLimit
  exact_mod_cast h2

/-- **C23** fft_mul, on spans of one memory that may overlap in any way: cells of `z` get the product of what `x` and
`y` held before the call, and no other cell changes.  `x` and `y` are no longer than `z` (the way all callers in the
repository use it), `z` no longer than the product. -/
theorem C23_fft_mul (junk : ℕ → ℂ) (mem : ℕ → ℝ) (zo xo yo : ℕ) {nz nx ny : ℕ} (h : nz ≤ nx + ny - 1) (hx : nx ≤ nz)
    (hy : ny ≤ nz) (hl : nz ≤ 2 ^ 28) :
    ∃ mem', fftMulMem FFT.sLimit junk mem zo nz xo nx yo ny = .ok mem' ∧
      (∀ k < nz, mem' (zo + k) = Spec.conv (fun i => if i < nx then mem (xo + i) else 0)
        (fun i => if i < ny then mem (yo + i) else 0) k) ∧
      ∀ a, (a < zo ∨ zo + nz ≤ a) → mem' a = mem a := by
  have hb : 2 * nz ≤ bitCeil (2 * nz) := Nat.le_pow_clog (by norm_num) _
  obtain ⟨z', e, hz⟩ := fftMul_eq (lim := FFT.sLimit) junk (nz := nz) (fun i => mem (zo + i)) (x := spanAt mem xo nx)
    (y := spanAt mem yo ny) h (Or.inr (clog_lt hl)) (Or.inr ⟨by simp only [spanAt]; omega, by simp only [spanAt]; omega, by simp only [spanAt]; omega⟩)
  refine ⟨storeAt mem zo nz z', by rw [fftMulMem_eq, e]; rfl, fun k hk => ?_, fun a ha => ?_⟩
  · rw [storeAt, if_pos (by omega), Nat.add_sub_cancel_left, hz, if_pos hk]; rfl
  · rw [storeAt, if_neg (by omega)]

/-- **C23** fft_mul, exact result for every size the call accepts: longer inputs wrap around with a minus sign. -/
theorem C23_fft_mul_general (junk : ℕ → ℂ) {nz : ℕ} (z : ℕ → ℝ) {x y : Span ℝ} (h : nz ≤ x.len + y.len - 1) (hl : nz ≤ 2 ^ 28)
    (hx : x.len ≤ 2 ^ Nat.clog 2 (2 * nz)) (hy : y.len ≤ 2 ^ Nat.clog 2 (2 * nz)) :
    ∃ z', fftMul FFT.sLimit junk nz z x y = .ok z' ∧ (∀ k, nz ≤ k → z' k = z k) ∧
      ∀ k < nz, z' k = Spec.conv (padded x) (padded y) k -
        (if 8 < nz then Spec.conv (padded x) (padded y) (k + 2 ^ Nat.clog 2 (2 * nz)) else 0) := by
  by_cases h8 : 8 < nz
  · obtain ⟨z', e, hz⟩ := fftMul_large (lim := FFT.sLimit) junk z h h8 (clog_lt hl) hx hy
    refine ⟨z', e, fun k hk => by rw [hz, if_neg (by omega)], fun k hk => ?_⟩
    rw [hz, if_pos hk, if_pos h8]; rfl
  · obtain ⟨z', e, hz⟩ := fftMul_small (lim := FFT.sLimit) (junk := junk) (z := z) h (by omega)
    refine ⟨z', e, fun k hk => by rw [hz, if_neg (by omega)], fun k hk => ?_⟩
    rw [hz, if_pos hk, if_neg h8, sub_zero]; rfl

/-- **C23**: the wrap-around reaches no returned coefficient as long as the whole product has at most as many
coefficients as the transform. -/
theorem C23_no_wrap {nz : ℕ} {x y : Span ℝ} (h : x.len + y.len ≤ 2 ^ Nat.clog 2 (2 * nz) + 1) (k : ℕ) :
    Spec.conv (padded x) (padded y) (k + 2 ^ Nat.clog 2 (2 * nz)) = 0 := by
  have := conv_of_le (x := x) (y := y) (i := k + 2 ^ Nat.clog 2 (2 * nz)) (by omega)
  rw [← conv_spec]; exact this

/-- **C23** fft_sqr in one memory. -/
theorem C23_fft_sqr (junk : ℕ → ℂ) (mem : ℕ → ℝ) (yo xo : ℕ) {ny nx : ℕ} (h : ny ≤ 2 * nx - 1) (hx : nx ≤ ny) (hl : ny ≤ 2 ^ 28) :
    ∃ mem', fftSqrMem FFT.sLimit junk mem yo ny xo nx = .ok mem' ∧
      (∀ k < ny, mem' (yo + k) = Spec.conv (fun i => if i < nx then mem (xo + i) else 0)
        (fun i => if i < nx then mem (xo + i) else 0) k) ∧
      ∀ a, (a < yo ∨ yo + ny ≤ a) → mem' a = mem a := by
  have hb : 2 * ny ≤ bitCeil (2 * ny) := Nat.le_pow_clog (by norm_num) _
  obtain ⟨z', e, hz⟩ := fftSqr_eq (lim := FFT.sLimit) junk (ny := ny) (fun i => mem (yo + i)) (x := spanAt mem xo nx)
    h (Or.inr (clog_lt hl)) (Or.inr (by simp only [spanAt]; omega))
  refine ⟨storeAt mem yo ny z', by rw [fftSqrMem_eq, e]; rfl, fun k hk => ?_, fun a ha => ?_⟩
  · rw [storeAt, if_pos (by omega), Nat.add_sub_cancel_left, hz, if_pos hk]; rfl
  · rw [storeAt, if_neg (by omega)]

/-- **C23** fft_addmul: the product of what `x` and `y` held before the call is added to what `z` holds after the
function in the middle has run. -/
theorem C23_fft_addmul (junk : ℕ → ℂ) (mem mem1 : ℕ → ℝ) (zo xo yo : ℕ) {nz nx ny : ℕ} (middle : (ℕ → ℝ) → Res (ℕ → ℝ))
    (hm : middle mem = .ok mem1) (h : nz ≤ nx + ny - 1) (hx : nx ≤ nz) (hy : ny ≤ nz) (hl : nz ≤ 2 ^ 28) :
    ∃ mem', fftAddmulMem FFT.sLimit junk mem zo nz xo nx yo ny middle = .ok mem' ∧
      (∀ k < nz, mem' (zo + k) = mem1 (zo + k) + Spec.conv (fun i => if i < nx then mem (xo + i) else 0)
        (fun i => if i < ny then mem (yo + i) else 0) k) ∧
      ∀ a, (a < zo ∨ zo + nz ≤ a) → mem' a = mem1 a := by
  have hb : 2 * nz ≤ bitCeil (2 * nz) := Nat.le_pow_clog (by norm_num) _
  obtain ⟨z', e, hz⟩ := fftAddmul_eq (lim := FFT.sLimit) junk (nz := nz) (fun i => mem (zo + i)) (x := spanAt mem xo nx)
    (y := spanAt mem yo ny) (middle := fun _ => .ok fun i => mem1 (zo + i)) rfl h (Or.inr (clog_lt hl))
    (Or.inr ⟨by simp only [spanAt]; omega, by simp only [spanAt]; omega, by simp only [spanAt]; omega⟩)
  refine ⟨storeAt mem1 zo nz z', by rw [fftAddmulMem_eq _ _ _ _ _ _ _ _ _ _ _ hm, e]; rfl, fun k hk => ?_, fun a ha => ?_⟩
  · rw [storeAt, if_pos (by omega), Nat.add_sub_cancel_left, hz, if_pos hk]; rfl
  · rw [storeAt, if_neg (by omega)]

/-- **C23**, what is refused: an output longer than the product, and inputs longer than the transform. -/
theorem C23_reject (junk : ℕ → ℂ) (nz : ℕ) (z : ℕ → ℝ) (x y : Span ℝ) :
    (x.len + y.len - 1 < nz → fftMul FFT.sLimit junk nz z x y = .error .assertion) ∧
      (2 * x.len - 1 < nz → fftSqr FFT.sLimit junk nz z x = .error .assertion) ∧
      (8 < nz → 2 ^ Nat.clog 2 (2 * nz) < x.len → fftMul FFT.sLimit junk nz z x y = .error .assertion) := by
  refine ⟨fun h => fftMul_assert (by omega), fun h => fftSqr_assert (by omega), fun h8 hx => ?_⟩
  by_cases h : nz ≤ x.len + y.len - 1
  · obtain ⟨p, hp, ep, ep2, hle, -⟩ := bitCeil_two_mul (show 0 < nz by omega)
    have hx' : ¬x.len ≤ 2 ^ p := by rw [← ep]; exact not_le.mpr hx
    rw [fftMul, slowAssert_true (by unfold relu; omega), bok, if_neg (show ¬nz ≤ mulBaseN by unfold mulBaseN; omega)]
    simp only []
    rw [ep2, srfftScramble_assert hp _ hx', berr]
  · exact fftMul_assert h

/-- **C23**, a direct call can wrap: 9 coefficients of `z^16 * z^20`, given as spans of 32 cells, use a transform of
size 32, and coefficient 4 comes back as -1. -/
theorem C23_wrap_witness : ∃ x y : Span ℝ, x.len = 32 ∧ y.len = 32 ∧ ∀ junk z, ∃ z',
    fftMul FFT.sLimit junk 9 z x y = .ok z' ∧ z' 4 = -1 ∧ Spec.conv (padded x) (padded y) 4 = 0 := by
  refine ⟨⟨32, fun i => if i = 16 then 1 else 0⟩, ⟨32, fun i => if i = 20 then 1 else 0⟩, rfl, rfl, fun junk z => ?_⟩
  have hc : Nat.clog 2 (2 * 9) = 5 := by
    apply le_antisymm
    · exact (Nat.clog_le_iff_le_pow (by norm_num)).mpr (by norm_num)
    · by_contra h
      have : Nat.clog 2 (2 * 9) ≤ 4 := by omega
      have := (Nat.clog_le_iff_le_pow (by norm_num)).mp this
      norm_num at this
  obtain ⟨z', e, -, h⟩ := C23_fft_mul_general junk (nz := 9) z (x := ⟨32, fun i => if i = 16 then 1 else 0⟩)
    (y := ⟨32, fun i => if i = 20 then 1 else 0⟩) (by norm_num) (by norm_num) (by rw [hc]; norm_num) (by rw [hc]; norm_num)
  have c0 : ∀ k, Spec.conv (padded ⟨32, fun i => if i = 16 then (1 : ℝ) else 0⟩) (padded ⟨32, fun i => if i = 20 then (1 : ℝ) else 0⟩) k =
      if k = 36 then 1 else 0 := by
    intro k
    have p1 : padded ⟨32, fun i => if i = 16 then (1 : ℝ) else 0⟩ = fun i => if i = 16 then 1 else 0 := by
      funext i; simp only [padded]; split_ifs <;> first | rfl | omega
    have p2 : padded ⟨32, fun i => if i = 20 then (1 : ℝ) else 0⟩ = fun i => if i = 20 then 1 else 0 := by
      funext i; simp only [padded]; split_ifs <;> first | rfl | omega
    rw [p1, p2, Spec.conv]
    split_ifs with hk
    · rw [Finset.sum_eq_single (16, 20)]
      · simp
      · rintro ⟨a, b⟩ _ hne
        simp only [ne_eq, Prod.mk.injEq] at hne
        simp only []
        split_ifs <;> simp_all
      · intro hn; exact absurd (by simp [hk]) hn
    · refine Finset.sum_eq_zero ?_
      rintro ⟨a, b⟩ hab
      rw [Finset.mem_antidiagonal] at hab
      simp only [] at hab ⊢
      split_ifs <;> first | omega | simp
  refine ⟨z', e, ?_, ?_⟩
  · rw [h 4 (by norm_num), hc, c0, c0]; norm_num
  · rw [c0]; norm_num

/-- **C23**, the limit: from more than `2^28` coefficients on, `fft_mul` reads past its table. -/
theorem C23_too_large (junk : ℕ → ℂ) {nz : ℕ} (hl : 2 ^ 28 < nz) (z : ℕ → ℝ) {x y : Span ℝ} (h : nz ≤ x.len + y.len - 1)
    (hx : x.len ≤ nz) : fftMul FFT.sLimit junk nz z x y = .error .ub := by
  obtain ⟨p, hp, ep, ep2, hle, hlt⟩ := bitCeil_two_mul (show 0 < nz by omega)
  have hp30 : 30 ≤ p := by
    by_contra hc
    have : 2 ^ p ≤ 2 ^ 29 := Nat.pow_le_pow_right (by norm_num) (by omega)
    norm_num at this hl
    omega
  have hnz : 2 ^ 3 < nz := lt_trans (by norm_num) hl
  rw [fftMul, slowAssert_true (by unfold relu; omega), bok, if_neg (show ¬nz ≤ mulBaseN by unfold mulBaseN; omega)]
  simp only []
  rw [ep2, C22_too_large hp30 _ (by omega), berr]

/-- A product of two series of ten terms, in place, with both inputs overlapping the output. -/
example (junk : ℕ → ℂ) : ∃ mem', fftMulMem FFT.sLimit junk (fun i => (i : ℝ)) 0 10 0 10 3 10 = .ok mem' ∧
    ∀ k < 10, mem' (0 + k) = Spec.conv (fun i => if i < 10 then ((0 + i : ℕ) : ℝ) else 0)
        (fun i => if i < 10 then ((3 + i : ℕ) : ℝ) else 0) k := by
  obtain ⟨m, e, h, -⟩ := C23_fft_mul junk (fun i => (i : ℝ)) 0 0 3 (nz := 10) (nx := 10) (ny := 10) (by norm_num)
    (by norm_num) (by norm_num) (by norm_num)
  exact ⟨m, e, h⟩

/-! ## C24 -/

/-- **C24**: for every table and every index, the entry a lookup reads is inside the table, and after the symmetries
are undone the value is the root of unity asked for. -/
theorem C24_slice (s : ℕ) (j : ℤ) :
    (0 ≤ (lookup (2 ^ s) j).idx ∧ (lookup (2 ^ s) j).idx < 2 ^ s / 4 + 1) ∧
      FFT.slice s j = Spec.turn (j / (2 * 2 ^ s : ℕ)) := by
  refine ⟨lookup_idx s j, ?_⟩
  rw [slice_eq, ← turn_cis]

/-- **C24**: the product form gives the same value. -/
theorem C24_big_slice {s : ℕ} (hs : 2 ≤ s) (hl : s < 30) :
    ∃ f, FFT.bigSlice FFT.sLimit s = .ok f ∧ ∀ j, f j = Spec.turn (j / (2 * 2 ^ s : ℕ)) := by
  obtain ⟨f, e, h⟩ := bigSlice_eq (lim := FFT.sLimit) hs (by unfold FFT.sLimit; exact_mod_cast hl)
  exact ⟨f, e, fun j => by rw [h, ← turn_cis]⟩

/-- **C24**: entry 5 of order 8 is found through the symmetries although the table has 2 entries. -/
example : (lookup (2 ^ 2) 5).idx = 1 ∧ FFT.slice 2 5 = Spec.turn (5 / 8) := by
  refine ⟨by decide, ?_⟩
  have := (C24_slice 2 5).2
  norm_num at this
  exact this

/-! ## C26 -/

/-- Specification: bit `k` of the reversal of a number of `p` bits. -/
def IsBitReversal (p i j : ℕ) : Prop := j < 2 ^ p ∧ ∀ k < p, j.testBit k = i.testBit (p - 1 - k)

/-- **C26**: `bitrev` moves each cell to the reversal of its number, for every power of two from 2 on. -/
theorem C26_bitrev {α : Type} {p : ℕ} (hp : 1 ≤ p) (hp' : p ≤ 64) (y : ℕ → α) :
    ∃ y', bitrev (2 ^ p) y = .ok y' ∧ (∀ k, 2 ^ p ≤ k → y' k = y k) ∧
      ∀ i j, i < 2 ^ p → IsBitReversal p i j → y' i = y j := by
  obtain ⟨y', e, h⟩ := bitrev_eq hp hp' y
  refine ⟨y', e, fun k hk => by rw [h, if_neg (by omega)], fun i j hi hj => ?_⟩
  rw [h, if_pos hi]
  congr 1
  apply Nat.eq_of_testBit_eq
  intro k
  by_cases hk : k < p
  · rw [bitReverse_testBit p i k hk, hj.2 k hk]
  · rw [Nat.testBit_lt_two_pow (lt_of_lt_of_le (bitReverse_lt p i) (Nat.pow_le_pow_right (by norm_num) (by omega))),
      Nat.testBit_lt_two_pow (lt_of_lt_of_le hj.1 (Nat.pow_le_pow_right (by norm_num) (by omega)))]

/-- **C26**: `bitrev` twice is the identity. -/
theorem C26_involution {α : Type} {p : ℕ} (hp : 1 ≤ p) (hp' : p ≤ 64) (y : ℕ → α) :
    ∃ y' , bitrev (2 ^ p) y = .ok y' ∧ bitrev (2 ^ p) y' = .ok y := by
  obtain ⟨y1, e1, h1⟩ := bitrev_eq hp hp' y
  obtain ⟨y2, e2, h2⟩ := bitrev_eq hp hp' y1
  have : y2 = y := by
    funext k
    rw [h2, h1, h1]
    split_ifs with hk h3
    · rw [bitReverse_invol p hk]
    · exact absurd (bitReverse_lt p k) h3
    · rfl
  exact ⟨y1, e1, by rw [e2, this]⟩

/-- **C26**: the shifted permutation and its inverse undo each other, in both orders. -/
theorem C26_shifted {α : Type} {p : ℕ} (hp : 1 ≤ p) (hp' : p ≤ 64) (y : ℕ → α) :
    (∃ y', shiftedPermute (2 ^ p) y = .ok y' ∧ shiftedUnpermute (2 ^ p) y' = .ok y) ∧
      ∃ y', shiftedUnpermute (2 ^ p) y = .ok y' ∧ shiftedPermute (2 ^ p) y' = .ok y := by
  constructor
  · obtain ⟨y1, e1, h1⟩ := shiftedPermute_eq hp hp' y
    obtain ⟨y2, e2, h2⟩ := shiftedUnpermute_eq hp hp' y1
    have : y2 = y := by
      funext k
      rw [h2]
      split_ifs with hk
      · rw [h1, if_pos (urho_lt _ (bitReverse_lt _ _)), rho_urho _ (bitReverse_lt _ _), bitReverse_invol p hk]
      · rw [h1, if_neg hk]
    exact ⟨y1, e1, by rw [e2, this]⟩
  · obtain ⟨y1, e1, h1⟩ := shiftedUnpermute_eq hp hp' y
    obtain ⟨y2, e2, h2⟩ := shiftedPermute_eq hp hp' y1
    have : y2 = y := by
      funext k
      rw [h2]
      split_ifs with hk
      · rw [h1, if_pos (bitReverse_lt _ _), bitReverse_invol p (rho_lt p hk), urho_rho p hk]
      · rw [h1, if_neg hk]
    exact ⟨y1, e1, by rw [e2, this]⟩

/-- **C26**: `bitrev_neg` sends the cell of frequency `k` to the cell of frequency `-k` modulo `n`. -/
theorem C26_bitrev_neg {p i : ℕ} (hi : i < 2 ^ p) :
    bitrevNeg i < 2 ^ p ∧ (bitReverse p (bitrevNeg i) + bitReverse p i) % 2 ^ p = 0 ∧ bitrevNeg (bitrevNeg i) = i := by
  by_cases h : i = 0
  · subst h
    have : bitrevNeg 0 = 0 := by simp [bitrevNeg]
    simp [this, bitReverse_zero]
  · obtain ⟨h1, h2⟩ := bitReverse_bitrevNeg p h hi
    exact ⟨h1, by rw [h2, Nat.mod_self], bitrevNeg_invol i⟩

/-- **C26**: `bitReverse` in the statement above is the reversal of the specification. -/
theorem C26_is_reversal (p i : ℕ) : IsBitReversal p i (bitReverse p i) :=
  ⟨bitReverse_lt p i, bitReverse_testBit p i⟩

/-- **C26**: for odd sizes, so for one cell, `bitrev` shifts a 64-bit word by 64 places. -/
theorem C26_odd_ub {α : Type} {n : ℕ} (hn : n % 2 = 1) (y : ℕ → α) : bitrev n y = .error .ub := by
  have : countrZero64 n = 0 := by
    rw [countrZero64, if_neg (by omega)]
    exact padicValNat.eq_zero_of_not_dvd (by omega)
  simp only [bitrev, this, if_true]

/-- Cell 1 of 8 goes to cell 4. -/
example : IsBitReversal 3 1 4 ∧ bitrevNeg 4 = 7 := by
  refine ⟨⟨by norm_num, fun k hk => ?_⟩, ?_⟩
  · interval_cases k <;> decide
  · have h : Nat.log 2 4 = 2 := by
      rw [show (4 : ℕ) = 2 ^ 2 by norm_num]; exact Nat.log_pow (by norm_num) 2
    rw [bitrevNeg, h]; decide

end Mandelbrot.Props
