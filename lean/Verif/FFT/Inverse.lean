import Verif.FFT.RealT
import Verif.FFT.Mul
import Mathlib.Algebra.Field.GeomSum

/-!
# The transforms in natural order, and the inverse transforms of arbitrary data
-/

namespace Mandelbrot.FFT

open Complex

local notation "conj" => starRingEnd ℂ

/-! ## Orthogonality -/

theorem cis_ne_one {n : ℕ} {m : ℤ} (h0 : m % n ≠ 0) (hn : n ≠ 0) : cis m n ≠ 1 := by
  intro h
  rw [cis, exp_eq_one_iff] at h
  obtain ⟨k, hk⟩ := h
  have hn' : (n : ℂ) ≠ 0 := by exact_mod_cast hn
  have hpi : (2 * Real.pi * I : ℂ) ≠ 0 := Complex.two_pi_I_ne_zero
  have h1 : (m : ℂ) = k * n := by
    have : 2 * Real.pi * I * m = 2 * Real.pi * I * (k * n) := by
      field_simp at hk
      linear_combination (2 * Real.pi * I) * hk
    exact mul_left_cancel₀ hpi this
  have h2 : m = k * n := by exact_mod_cast h1
  rw [h2] at h0
  simp at h0

theorem sum_cis {n : ℕ} (hn : n ≠ 0) (m : ℤ) :
    ∑ j ∈ Finset.range n, cis (m * j) n = if m % n = 0 then (n : ℂ) else 0 := by
  have e : ∀ j : ℕ, cis (m * j) n = cis m n ^ j := fun j => by rw [cis_pow]
  simp only [e]
  split_ifs with h
  · have : cis m n = 1 := by rw [← cis_emod m hn, h, cis_zero]
    simp [this]
  · rw [geom_sum_eq (cis_ne_one h hn), cis_pow, mul_comm, cis_mul_full _ hn]
    simp

/-- Inverse transform without the factor: `Σ_k u_k exp(2πi jk/n)`. -/
noncomputable def idft (n : ℕ) (u : ℕ → ℂ) (j : ℕ) : ℂ := ∑ k ∈ Finset.range n, u k * cis (j * k) n

theorem dft_idft {n : ℕ} (hn : n ≠ 0) (u : ℕ → ℂ) {k : ℕ} (hk : k < n) : dft n (idft n u) k = n * u k := by
  simp only [dft, idft, Finset.sum_mul]
  rw [Finset.sum_comm]
  have : ∀ l ∈ Finset.range n, ∑ j ∈ Finset.range n, u l * cis ((j : ℤ) * l) n * cis (-(j * k : ℤ)) n =
      if l = k then (n : ℂ) * u k else 0 := by
    intro l hl
    have hl := Finset.mem_range.mp hl
    have e : ∀ j : ℕ, u l * cis ((j : ℤ) * l) n * cis (-(j * k : ℤ)) n = u l * cis (((l : ℤ) - k) * j) n := by
      intro j
      rw [mul_assoc, ← cis_add]; congr 2; ring
    simp only [e]
    rw [← Finset.mul_sum, sum_cis hn]
    by_cases h : l = k
    · subst h; simp; ring
    · have : ((l : ℤ) - k) % n ≠ 0 := by
        intro h0
        obtain ⟨c, hc⟩ := Int.dvd_of_emod_eq_zero h0
        have h1 : c = 0 := by
          by_contra hc0
          have : (n : ℤ) ≤ |((l : ℤ) - k)| := by
            rw [hc, abs_mul, Nat.abs_cast]
            have := Int.one_le_abs hc0
            nlinarith
          have : |((l : ℤ) - k)| < n := by rw [abs_lt]; omega
          omega
        rw [h1] at hc
        omega
      rw [if_neg this, if_neg h, mul_zero]
  rw [Finset.sum_congr rfl this, Finset.sum_ite_eq' , if_pos (Finset.mem_range.mpr hk)]

/-- The forward loop on any data. -/
theorem fftLoop_dft (p : ℕ) (y0 : ℕ → ℂ) {k : ℕ} (hk : k < 2 ^ p) :
    fftLoop (2 ^ p / 2) p y0 k = dft (2 ^ p) y0 (bitReverse p k) := by
  have h0 : CBlocks p 0 y0 y0 := by
    intro q hq j hj
    have : q = 0 := by simpa using hq
    subst this
    rw [zero_mul, zero_add, part]
    simp [bitReverse, cis_zero]
  have := cblocks_loop h0 k (by simpa using hk) 0 (by norm_num)
  simp only [pow_zero, mul_one, add_zero, zero_add] at this
  rw [this, part, dft]
  refine Finset.sum_congr rfl fun l _ => ?_
  rw [mul_one, zero_add, cis_pow]
  congr 2
  ring

/-! ## Complex transform -/

theorem fft_eq {p : ℕ} (hp : 1 ≤ p) (hp' : p ≤ 64) (y : ℕ → ℂ) {x : Span ℝ} (hx : x.len ≤ 2 * 2 ^ p) :
    ∃ y', fft (2 ^ p) y x = .ok y' ∧ ∀ k < 2 ^ p, y' k = dft (2 ^ p) (packed x.getZ) k := by
  obtain ⟨y1, e1, h1⟩ := fftBitrev_eq p y hx
  obtain ⟨y2, e2, h2⟩ := bitrev_eq hp hp' y1
  refine ⟨y2, by rw [fft, e1, bok, e2], fun k hk => ?_⟩
  rw [h2, if_pos hk, h1 _ (bitReverse_lt p k), bitReverse_invol p hk]

theorem ifft_eq {p : ℕ} (hp : 1 ≤ p) (hp' : p ≤ 64) {xn : ℕ} (hx : xn ≤ 2 * 2 ^ p) (x : ℕ → ℝ) (y : ℕ → ℂ) :
    ∃ x', ifft xn x (2 ^ p) y = .ok x' ∧ ∀ k, x' k = if k < xn then realCell (idft (2 ^ p) y) k else x k := by
  obtain ⟨y2, e2, h2⟩ := bitrev_eq hp hp' y
  have hn : 2 ^ p ≠ 0 := by positivity
  have hn' : ((2 ^ p : ℕ) : ℂ) ≠ 0 := by exact_mod_cast hn
  obtain ⟨x', e, h⟩ := ifftBitrev_eq p hx x ((2 ^ p : ℝ)⁻¹) (y0 := idft (2 ^ p) y) (u := y2) (by
    intro k hk
    rw [h2, if_pos hk, fftLoop_dft p _ hk, dft_idft hn _ (bitReverse_lt p k)]
    push_cast at hn' ⊢
    field_simp)
  refine ⟨x', by rw [ifft, e2, bok, e], fun k => ?_⟩
  rw [h]
  have : (2 ^ p : ℝ) ≠ 0 := by positivity
  split_ifs
  · field_simp
  · rfl

theorem ifft_assert {p : ℕ} (hp : 1 ≤ p) (hp' : p ≤ 64) {xn : ℕ} (hx : ¬xn ≤ 2 * 2 ^ p) (x : ℕ → ℝ) (y : ℕ → ℂ) :
    ifft xn x (2 ^ p) y = .error .assertion := by
  obtain ⟨y2, e2, h2⟩ := bitrev_eq hp hp' y
  have hn0 : 2 ^ p ≠ 0 := by positivity
  rw [ifft, e2, bok]
  simp only [ifftBitrev, if_neg hn0, countrZero64_pow]
  rw [slowAssert_false (by tauto)]
  rfl

/-! ## Real transform -/

theorem rfft_eq {P : ℕ} (hP : P ≤ 31) (y : ℕ → ℂ) {x : Span ℝ} (hx : x.len ≤ 2 * 2 ^ (P + 1)) :
    ∃ y', rfft (2 ^ (P + 1)) y x = .ok y' ∧ ∀ k < 2 ^ (P + 1), y' k = rpack (2 ^ (P + 1)) x.getZ k := by
  obtain ⟨y1, e1, h1⟩ := fftBitrev_eq (P + 1) y hx
  have h2 := post_all hP x.getZ h1
  have hn : 2 * 2 ^ (P + 1) = 2 ^ (P + 2) := by rw [pow_succ 2 (P + 1)]; ring
  have hn4 : 2 ^ (P + 2) / 4 = 2 ^ P := by rw [pow_add]; norm_num
  have eb : rfftBitrev (2 ^ (P + 1)) y x = .ok (rfftPost (2 ^ P) y1 (slice (P + 1)) (P + 2)) := by
    have h0 : 2 ^ (P + 2) ≠ 0 := by positivity
    simp only [rfftBitrev, hn, if_neg h0, countrZero64_pow, e1, bok, hn4]
    rw [if_neg (by omega)]
    rfl
  obtain ⟨y3, e3, h3⟩ := bitrev_eq (p := P + 1) (by omega) (by omega) (rfftPost (2 ^ P) y1 (slice (P + 1)) (P + 2))
  refine ⟨y3, by rw [rfft, eb, bok, e3], fun k hk => ?_⟩
  rw [h3, if_pos hk, h2 _ (bitReverse_lt _ _), bitReverse_invol _ hk]

theorem rfft_assert {P : ℕ} (y : ℕ → ℂ) {x : Span ℝ} (hx : ¬x.len ≤ 2 * 2 ^ P) :
    rfft (2 ^ P) y x = .error .assertion := by
  have h0 : 2 * 2 ^ P ≠ 0 := by positivity
  simp only [rfft, rfftBitrev, if_neg h0, fftBitrev_assert y hx, berr]

/-- The whole spectrum of a real signal of `2N` terms from the `N` cells of the packed half. -/
noncomputable def hermitian (N : ℕ) (y : ℕ → ℂ) (k : ℕ) : ℂ :=
  if k = 0 then (y 0).re else if k < N then y k else if k = N then (y 0).im else conj (y (2 * N - k))

theorem hermitian_reflect {N : ℕ} (hN : 0 < N) (y : ℕ → ℂ) {k : ℕ} (hk : k < 2 * N) :
    hermitian N y ((2 * N - k) % (2 * N)) = conj (hermitian N y k) := by
  by_cases h0 : k = 0
  · subst h0
    simp [hermitian]
  · have e : (2 * N - k) % (2 * N) = 2 * N - k := Nat.mod_eq_of_lt (by omega)
    rw [e]
    simp only [hermitian, if_neg h0, if_neg (show 2 * N - k ≠ 0 by omega)]
    by_cases h1 : k < N
    · rw [if_neg (by omega), if_neg (by omega), if_pos h1, show 2 * N - (2 * N - k) = k by omega]
    · by_cases h2 : k = N
      · subst h2
        simp [show 2 * k - k = k by omega]
      · rw [if_pos (by omega), if_neg h1, if_neg h2, Complex.conj_conj]

theorem idft_hermitian_real {N : ℕ} (hN : 0 < N) (y : ℕ → ℂ) (j : ℕ) :
    (((idft (2 * N) (hermitian N y) j).re : ℝ) : ℂ) = idft (2 * N) (hermitian N y) j := by
  apply Complex.conj_eq_iff_re.mp
  rw [idft, map_sum]
  refine Finset.sum_nbij' (fun k => (2 * N - k) % (2 * N)) (fun k => (2 * N - k) % (2 * N)) ?_ ?_ ?_ ?_ ?_
  · intro k _; exact Finset.mem_range.mpr (Nat.mod_lt _ (by omega))
  · intro k _; exact Finset.mem_range.mpr (Nat.mod_lt _ (by omega))
  · intro k hk
    have hk := Finset.mem_range.mp hk
    by_cases h0 : k = 0
    · subst h0; simp
    · rw [Nat.mod_eq_of_lt (show 2 * N - k < 2 * N by omega), Nat.mod_eq_of_lt (by omega)]; omega
  · intro k hk
    have hk := Finset.mem_range.mp hk
    by_cases h0 : k = 0
    · subst h0; simp
    · rw [Nat.mod_eq_of_lt (show 2 * N - k < 2 * N by omega), Nat.mod_eq_of_lt (by omega)]; omega
  · intro k hk
    have hk := Finset.mem_range.mp hk
    rw [map_mul, hermitian_reflect hN y hk, conj_cis]
    congr 1
    have hn : 2 * N ≠ 0 := by omega
    rw [← cis_emod _ hn, ← cis_emod (_ * _) hn]
    congr 1
    push_cast
    rw [Nat.cast_sub (by omega)]
    push_cast
    have hme : ∀ a b n : ℤ, a * (b % n) % n = a * b % n := fun a b n => by simp [Int.mul_emod]
    rw [hme, show (j : ℤ) * (2 * N - k) = -(j * k) + (2 * N) * j by ring, Int.add_mul_emod_self_left]

/-- The real signal with a given packed spectrum. -/
theorem rpack_surj {N : ℕ} (hN : 0 < N) (y : ℕ → ℂ) {k : ℕ} (hk : k < N) :
    rpack N (fun j => (idft (2 * N) (hermitian N y) j).re / (2 * N : ℕ)) k = y k := by
  have hn : 2 * N ≠ 0 := by omega
  have hn' : ((2 * N : ℕ) : ℂ) ≠ 0 := by exact_mod_cast hn
  have key : ∀ m : ℕ, m < 2 * N →
      rdft (2 * N) (fun j => (idft (2 * N) (hermitian N y) j).re / (2 * N : ℕ)) m = hermitian N y m := by
    intro m hm
    have h1 := dft_idft hn (hermitian N y) hm
    rw [rdft]
    rw [dft] at h1
    have : ∀ j ∈ Finset.range (2 * N), (((idft (2 * N) (hermitian N y) j).re / (2 * N : ℕ) : ℝ) : ℂ) * cis (-(j * (m : ℤ))) (2 * N) =
        (idft (2 * N) (hermitian N y) j * cis (-(j * m : ℤ)) (2 * N)) * ((2 * N : ℕ) : ℂ)⁻¹ := by
      intro j _
      rw [ofReal_div, idft_hermitian_real hN y j, ofReal_natCast]
      field_simp
    rw [Finset.sum_congr rfl this, ← Finset.sum_mul, h1]
    field_simp
  rw [rpack]
  split_ifs with h0
  · subst h0
    have k0 := key 0 (by omega)
    have kN := key N (by omega)
    rw [Nat.cast_zero] at k0
    rw [k0, kN]
    simp [hermitian, show N ≠ 0 by omega]
  · rw [key k (by omega)]
    simp [hermitian, h0, hk]

theorem irfft_eq {P : ℕ} (hP : P ≤ 31) {xn : ℕ} (hx : xn ≤ 2 * 2 ^ (P + 1)) (x : ℕ → ℝ) (y : ℕ → ℂ) :
    ∃ x', irfft xn x (2 ^ (P + 1)) y = .ok x' ∧
      ∀ k, x' k = if k < xn then (idft (2 * 2 ^ (P + 1)) (hermitian (2 ^ (P + 1)) y) k).re else x k := by
  have hN : 0 < 2 ^ (P + 1) := by positivity
  obtain ⟨y2, e2, h2⟩ := bitrev_eq (p := P + 1) (by omega) (by omega) y
  set s : ℕ → ℝ := fun j => (idft (2 * 2 ^ (P + 1)) (hermitian (2 ^ (P + 1)) y) j).re / (2 * 2 ^ (P + 1) : ℕ) with hs
  have h3 := pre_all hP s (y := y2) (by
    intro q hq
    rw [h2, if_pos hq, rpack_surj hN y (bitReverse_lt _ _)])
  have hn : 2 * 2 ^ (P + 1) = 2 ^ (P + 2) := by rw [pow_succ 2 (P + 1)]; ring
  have hn4 : 2 ^ (P + 2) / 4 = 2 ^ P := by rw [pow_add]; norm_num
  obtain ⟨x', e, h⟩ := ifftBitrev_eq (P + 1) hx x 2 (y0 := packed s) (u := irfftPre (2 ^ P) y2 (slice (P + 1)) (P + 2)) (by
    intro k hk
    rw [h3 k hk, fftLoop_dft _ _ hk]; push_cast; rfl)
  refine ⟨x', ?_, fun k => ?_⟩
  · have h0 : 2 ^ (P + 2) ≠ 0 := by positivity
    rw [irfft, e2, bok]
    simp only [irfftBitrev, hn, if_neg h0, countrZero64_pow, hn4]
    rw [if_neg (by simp), if_neg (by omega)]
    exact e
  · rw [h]
    have hr : realCell (packed s) k = s k := by
      rw [realCell, packed]
      split_ifs with hk
      · simp only []; congr 1; omega
      · simp only []; congr 1; omega
    rw [hr, hs]
    split_ifs
    · have : (2 ^ (P + 1) : ℝ) ≠ 0 := by positivity
      push_cast
      field_simp
    · rfl

theorem irfft_assert {P : ℕ} (hp : 1 ≤ P) (hp' : P ≤ 64) {xn : ℕ} (hx : ¬xn ≤ 2 * 2 ^ P) (x : ℕ → ℝ) (y : ℕ → ℂ) :
    irfft xn x (2 ^ P) y = .error .assertion := by
  obtain ⟨y2, e2, h2⟩ := bitrev_eq hp hp' y
  have h0 : 2 * 2 ^ P ≠ 0 := by positivity
  have h1 : 2 ^ P ≠ 0 := by positivity
  have h2 : 2 * 2 ^ P = 2 ^ (P + 1) := by rw [pow_succ]; ring
  rw [irfft, e2, bok]
  simp only [irfftBitrev, if_neg h0, ifftBitrev, if_neg h1, countrZero64_pow]
  rw [h2, countrZero64_pow, if_neg (by simp)]
  rw [slowAssert_false (by rw [← h2]; tauto)]
  rfl

/-- The transform of a real signal is the Hermitian extension of its packed half. -/
theorem idft_rpack {N : ℕ} (hN : 0 < N) (s : ℕ → ℝ) {k : ℕ} (hk : k < 2 * N) :
    hermitian N (rpack N s) k = rdft (2 * N) s k := by
  have hn : 2 * N ≠ 0 := by omega
  have refl : ∀ m : ℤ, rdft (2 * N) s (2 * N - m) = conj (rdft (2 * N) s m) := by
    intro m
    rw [conj_rdft, rdft, rdft]
    refine Finset.sum_congr rfl fun j _ => ?_
    congr 1
    rw [← cis_emod _ hn, ← cis_emod (-(j * -m)) hn]
    congr 1
    push_cast
    rw [show -((j : ℤ) * (2 * N - m)) = (-(j * -m)) + (2 * N) * (-j) by ring, Int.add_mul_emod_self_left]
  rw [hermitian]
  split_ifs with h0 h1 h2
  · subst h0
    rw [rpack, if_pos rfl]
    have := refl 0
    have h3 : conj (rdft (2 * N) s 0) = rdft (2 * N) s 0 := by rw [conj_rdft, neg_zero]
    exact Complex.conj_eq_iff_re.mp h3
  · rw [rpack, if_neg h0]
  · subst h2
    rw [rpack, if_pos rfl]
    have h3 : conj (rdft (2 * k) s k) = rdft (2 * k) s k := by
      rw [← refl k]; congr 1; ring
    exact Complex.conj_eq_iff_re.mp h3
  · rw [rpack, if_neg (by omega), ← refl, Nat.cast_sub (by omega)]
    congr 1; push_cast; ring

theorem idft_rdft {n : ℕ} (hn : n ≠ 0) (s : ℕ → ℝ) {j : ℕ} (hj : j < n) :
    ∑ k ∈ Finset.range n, rdft n s k * cis (j * k) n = n * (s j : ℂ) := by
  simp only [rdft, Finset.sum_mul]
  rw [Finset.sum_comm]
  have : ∀ l ∈ Finset.range n, ∑ k ∈ Finset.range n, (s l : ℂ) * cis (-((l : ℤ) * k)) n * cis ((j : ℤ) * k) n =
      if l = j then (n : ℂ) * s j else 0 := by
    intro l hl
    have hl := Finset.mem_range.mp hl
    have e : ∀ k : ℕ, (s l : ℂ) * cis (-((l : ℤ) * k)) n * cis ((j : ℤ) * k) n = s l * cis (((j : ℤ) - l) * k) n := by
      intro k
      rw [mul_assoc, ← cis_add]; congr 2; ring
    simp only [e]
    rw [← Finset.mul_sum, sum_cis hn]
    by_cases h : l = j
    · subst h; simp; ring
    · have : ((j : ℤ) - l) % n ≠ 0 := by
        intro h0
        obtain ⟨c, hc⟩ := Int.dvd_of_emod_eq_zero h0
        have h1 : c = 0 := by
          by_contra hc0
          have : (n : ℤ) ≤ |((j : ℤ) - l)| := by
            rw [hc, abs_mul, Nat.abs_cast]
            have := Int.one_le_abs hc0
            nlinarith
          have : |((j : ℤ) - l)| < n := by rw [abs_lt]; omega
          omega
        rw [h1] at hc
        omega
      rw [if_neg this, if_neg h, mul_zero]
  rw [Finset.sum_congr rfl this, Finset.sum_ite_eq', if_pos (Finset.mem_range.mpr hj)]

/-! ## Shifted real transform -/

theorem srfft_eq {lim : ℕ∞} {p : ℕ} (hp : 2 ≤ p) (hp' : p ≤ 65) (hlim : p ≤ 2 ∨ (p : ℕ∞) < lim) (y : ℕ → ℂ) {x : Span ℝ}
    (hx : x.len ≤ 2 ^ p) :
    ∃ y', srfft lim (2 ^ (p - 1)) y x = .ok y' ∧
      ∀ k < 2 ^ (p - 1), y' k = polyVal (2 ^ p) x.getZ (cis (-(2 * k + 1)) (2 * 2 ^ p)) := by
  obtain ⟨y1, e1, h1⟩ := srfftScramble_eq (by omega) hlim y hx
  obtain ⟨y2, e2, h2⟩ := shiftedPermute_eq (p := p - 1) (by omega) (by omega) y1
  refine ⟨y2, by rw [srfft, e1, bok, e2], fun k hk => ?_⟩
  rw [h2, if_pos hk, h1 _ (bitReverse_lt _ _), fwd_eval (by omega) _ (bitReverse_lt _ _), sexp_natural (by omega) hk]

theorem srfft_assert {lim : ℕ∞} {p : ℕ} (hp : 1 ≤ p) (y : ℕ → ℂ) {x : Span ℝ} (hx : ¬x.len ≤ 2 ^ p) :
    srfft lim (2 ^ (p - 1)) y x = .error .assertion := by
  rw [srfft, srfftScramble_assert hp y hx, berr]

/-- The values at all odd roots from those at the first half of them. -/
noncomputable def oddExt (h : ℕ) (y : ℕ → ℂ) (m : ℕ) : ℂ := if m < h then y m else conj (y (2 * h - 1 - m))

/-- The inverse of the shifted transform without the factor: `Re Σ_m y_m exp(2πi (2m+1)k/(4h))`. -/
noncomputable def oddSum (h : ℕ) (y : ℕ → ℂ) (k : ℕ) : ℝ :=
  (∑ m ∈ Finset.range h, y m * cis ((2 * m + 1) * k) (2 * (2 * h))).re

theorem oddSum_eq (h : ℕ) (hh : 0 < h) (y : ℕ → ℂ) (k : ℕ) :
    ((2 * oddSum h y k : ℝ) : ℂ) = cis k (2 * (2 * h)) * idft (2 * h) (oddExt h y) k := by
  have hn : 2 * (2 * h) ≠ 0 := by omega
  have e : cis k (2 * (2 * h)) * idft (2 * h) (oddExt h y) k =
      ∑ m ∈ Finset.range (2 * h), oddExt h y m * cis ((2 * m + 1) * k) (2 * (2 * h)) := by
    rw [idft, Finset.mul_sum]
    refine Finset.sum_congr rfl fun m _ => ?_
    rw [← cis_cancel ((k : ℤ) * m) (n := 2 * h) (k := 2) (by norm_num), mul_left_comm, mul_comm (2 * h) 2, ← cis_add]
    congr 2; push_cast; ring
  rw [e, two_mul h, Finset.sum_range_add, two_mul, ofReal_add, ← two_mul h]
  have e1 : ∑ m ∈ Finset.range h, oddExt h y m * cis ((2 * (m : ℤ) + 1) * k) (2 * (2 * h)) =
      ∑ m ∈ Finset.range h, y m * cis ((2 * m + 1) * k) (2 * (2 * h)) := by
    refine Finset.sum_congr rfl fun m hm => ?_
    rw [oddExt, if_pos (Finset.mem_range.mp hm)]
  have e2 : ∑ m ∈ Finset.range h, oddExt h y (h + m) * cis ((2 * ((h + m : ℕ) : ℤ) + 1) * k) (2 * (2 * h)) =
      conj (∑ m ∈ Finset.range h, y m * cis ((2 * m + 1) * k) (2 * (2 * h))) := by
    rw [map_sum, ← Finset.sum_range_reflect]
    refine Finset.sum_congr rfl fun m hm => ?_
    have hm := Finset.mem_range.mp hm
    rw [oddExt, if_neg (by omega), map_mul, conj_cis]
    congr 1
    · congr 2; omega
    · rw [← cis_emod _ hn, ← cis_emod (-_) hn]
      congr 1
      have : ((h + (h - 1 - m) : ℕ) : ℤ) = 2 * h - 1 - m := by omega
      rw [this]
      push_cast
      rw [show (2 * (2 * (h : ℤ) - 1 - m) + 1) * k = -((2 * m + 1) * k) + (2 * (2 * h)) * k by ring, Int.add_mul_emod_self_left]
  rw [e1, e2, Complex.add_conj, oddSum]
  push_cast; ring

/-- The real signal with given values at the odd roots. -/
theorem polyVal_surj {h : ℕ} (hh : 0 < h) (y : ℕ → ℂ) {k : ℕ} (hk : k < h) :
    polyVal (2 * h) (fun j => 2 * oddSum h y j / (2 * h : ℕ)) (cis (-(2 * k + 1)) (2 * (2 * h))) = y k := by
  have hn : 2 * h ≠ 0 := by omega
  have hn' : ((2 * h : ℕ) : ℂ) ≠ 0 := by exact_mod_cast hn
  have h1 := dft_idft hn (oddExt h y) (show k < 2 * h by omega)
  rw [dft] at h1
  rw [polyVal]
  have : ∀ j ∈ Finset.range (2 * h), ((2 * oddSum h y j / (2 * h : ℕ) : ℝ) : ℂ) * cis (-(2 * k + 1)) (2 * (2 * h)) ^ j =
      (idft (2 * h) (oddExt h y) j * cis (-(j * k : ℤ)) (2 * h)) * ((2 * h : ℕ) : ℂ)⁻¹ := by
    intro j _
    rw [ofReal_div, oddSum_eq h hh, ofReal_natCast, cis_pow, ← cis_cancel (-((j : ℤ) * k)) (n := 2 * h) (k := 2) (by norm_num),
      mul_comm (2 * h) 2, div_eq_mul_inv]
    have : cis (j : ℤ) (2 * (2 * h)) * cis (-(2 * (k : ℤ) + 1) * j) (2 * (2 * h)) = cis (-((j : ℤ) * k) * (2 : ℕ)) (2 * (2 * h)) := by
      rw [← cis_add]; congr 1; push_cast; ring
    rw [← this]; ring
  rw [Finset.sum_congr rfl this, ← Finset.sum_mul, h1, oddExt, if_pos hk]
  field_simp

theorem isrfft_eq {lim : ℕ∞} {p : ℕ} (hp : 2 ≤ p) (hp' : p ≤ 65) (hlim : p ≤ 2 ∨ (p : ℕ∞) < lim) {xn : ℕ}
    (hx : xn ≤ 2 * 2 ^ p) (x : ℕ → ℝ) (y : ℕ → ℂ) :
    ∃ x', isrfft lim xn x (2 ^ (p - 1)) y = .ok x' ∧
      ∀ k, x' k = if k < 2 ^ p ∧ k < xn then oddSum (2 ^ (p - 1)) y k else x k := by
  have hn : 2 * 2 ^ (p - 1) = 2 ^ p := by rw [← pow_succ', Nat.sub_add_cancel (by omega)]
  have hh : 0 < 2 ^ (p - 1) := by positivity
  obtain ⟨y2, e2, h2⟩ := shiftedUnpermute_eq (p := p - 1) (by omega) (by omega) y
  obtain ⟨x', e, h⟩ := isrfftScramble_eq (by omega) hlim false hx x y2
  refine ⟨x', by rw [isrfft, e2, bok, e], fun k => ?_⟩
  rw [h]
  simp only [Bool.false_eq_true, if_false, zero_add]
  split_ifs with hk
  · set s : ℕ → ℝ := fun j => 2 * oddSum (2 ^ (p - 1)) y j / (2 * 2 ^ (p - 1) : ℕ) with hs
    have hc : EqOn (2 ^ (p - 1)) y2 (fwd p s) := by
      intro q hq
      have hq' : urho (p - 1) (bitReverse (p - 1) q) < 2 ^ (p - 1) := urho_lt _ (bitReverse_lt _ _)
      rw [h2, if_pos hq, fwd_eval (by omega) _ hq]
      have hv := polyVal_surj hh y hq'
      rw [← hs, hn] at hv
      rw [← hv]
      congr 3
      have := sexp_natural (p := p - 1) (by omega) hq'
      rw [rho_urho _ (bitReverse_lt _ _), bitReverse_invol _ hq] at this
      rw [this]
    rw [bwd_congr (by omega) hc hk.1, bwd_fwd (by omega) s hk.1, hs]
    have : (2 ^ (p - 1) : ℝ) ≠ 0 := by positivity
    push_cast
    field_simp
  · rfl

theorem isrfft_assert {lim : ℕ∞} {p : ℕ} (hp : 2 ≤ p) (hp' : p ≤ 65) {xn : ℕ} (hx : ¬xn ≤ 2 * 2 ^ p) (x : ℕ → ℝ) (y : ℕ → ℂ) :
    isrfft lim xn x (2 ^ (p - 1)) y = .error .assertion := by
  have hn : 2 * 2 ^ (p - 1) = 2 ^ p := by rw [← pow_succ', Nat.sub_add_cancel (by omega)]
  have hn0 : 2 ^ p ≠ 0 := by positivity
  obtain ⟨y2, e2, h2⟩ := shiftedUnpermute_eq (p := p - 1) (by omega) (by omega) y
  rw [isrfft, e2, bok]
  simp only [isrfftScramble, hn, if_neg hn0, countrZero64_pow]
  rw [slowAssert_false (by tauto)]
  rfl

end Mandelbrot.FFT
