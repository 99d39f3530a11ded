import Verif.FFT.Complex

/-!
# The real transform and its inverse
-/

namespace Mandelbrot.FFT

open Complex

local notation "conj" => starRingEnd ℂ

/-! ## Loops over pairs of cells -/

/-- The common form of `rfft_post` and `irfft_pre`. -/
noncomputable def pairLoop (n4 : ℕ) (g : ℕ → ℂ → ℂ → ℂ × ℂ) (y : ℕ → ℂ) : ℕ → ℂ :=
  forLoop n4 (fun j y =>
    Function.update (Function.update y (2 * j) (g j (y (2 * j)) (y (2 * bitrevNeg j + 1))).1)
      (2 * bitrevNeg j + 1) (g j (y (2 * j)) (y (2 * bitrevNeg j + 1))).2) y

theorem partner_eq (j : ℕ) : (if j ≠ 0 then bitrevNeg (2 * j) else 1) = 2 * bitrevNeg j + 1 := by
  by_cases h : j = 0
  · subst h; simp [bitrevNeg]
  · rw [if_pos h]
    exact bitrevNeg_rec h (b := 0) (by norm_num)

theorem pairLoop_at (n4 : ℕ) (g : ℕ → ℂ → ℂ → ℂ × ℂ) (y : ℕ → ℂ) (j : ℕ) (hj : j < n4) :
    pairLoop n4 g y (2 * j) = (g j (y (2 * j)) (y (2 * bitrevNeg j + 1))).1 ∧
    pairLoop n4 g y (2 * bitrevNeg j + 1) = (g j (y (2 * j)) (y (2 * bitrevNeg j + 1))).2 := by
  set own : ℕ → ℕ := fun k => if k % 2 = 0 then k / 2 else bitrevNeg (k / 2) with hown
  have o1 : ∀ j, own (2 * j) = j := by intro j; simp only [hown]; rw [if_pos (by omega)]; omega
  have o2 : ∀ j, own (2 * bitrevNeg j + 1) = j := by
    intro j
    simp only [hown]
    rw [if_neg (by omega), show (2 * bitrevNeg j + 1) / 2 = bitrevNeg j by omega, bitrevNeg_invol]
  have hne : ∀ j, 2 * j ≠ 2 * bitrevNeg j + 1 := by intro j; omega
  have key := forLoop_own n4 (fun j y =>
    Function.update (Function.update y (2 * j) (g j (y (2 * j)) (y (2 * bitrevNeg j + 1))).1)
      (2 * bitrevNeg j + 1) (g j (y (2 * j)) (y (2 * bitrevNeg j + 1))).2) own y ?_ ?_
  · constructor
    · rw [pairLoop, key, o1, if_pos hj, Function.update_of_ne (hne j), Function.update_self]
    · rw [pairLoop, key, o2, if_pos hj, Function.update_self]
  · intro i _ y k hk
    rw [Function.update_of_ne, Function.update_of_ne]
    · rintro rfl; exact hk (o1 i)
    · rintro rfl; exact hk (o2 i)
  · intro i _ y y' h k hk
    rw [h _ (o1 i), h _ (o2 i)]
    by_cases h1 : k = 2 * bitrevNeg i + 1
    · subst h1; simp
    · rw [Function.update_of_ne h1, Function.update_of_ne h1]
      by_cases h2 : k = 2 * i
      · subst h2; simp
      · rw [Function.update_of_ne h2, Function.update_of_ne h2, h k hk]

theorem cell_cases (k : ℕ) : ∃ j, k = 2 * j ∨ k = 2 * bitrevNeg j + 1 := by
  rcases Nat.even_or_odd' k with ⟨m, rfl | rfl⟩
  · exact ⟨m, Or.inl rfl⟩
  · exact ⟨bitrevNeg m, Or.inr (by rw [bitrevNeg_invol])⟩

/-- What `rfft_post` does to a pair. -/
noncomputable def postPair (tw : ℤ → ℂ) (p j : ℕ) (a b : ℂ) : ℂ × ℂ :=
  if j ≠ 0 then
    let e := left (conj (tw (bitReverse 32 j >>> (34 - p) : ℕ)))
    let u := a + conj b
    let v := e * (a - conj b)
    (half (u - v), half (conj (u + v)))
  else (⟨a.re + a.im, a.re - a.im⟩, conj b)

/-- What `irfft_pre` does to a pair. -/
noncomputable def prePair (tw : ℤ → ℂ) (p j : ℕ) (s t : ℂ) : ℂ × ℂ :=
  if j ≠ 0 then
    let e := right (tw (bitReverse 32 j >>> (34 - p) : ℕ))
    let u := conj t + s
    let v := e * (conj t - s)
    (u + v, conj (u - v))
  else (⟨s.re + s.im, s.re - s.im⟩, twice (conj t))

theorem rfftPost_eq (n4 : ℕ) (y : ℕ → ℂ) (tw : ℤ → ℂ) (p : ℕ) :
    rfftPost n4 y tw p = pairLoop n4 (postPair tw p) y := by
  rw [rfftPost, pairLoop]
  congr 1
  funext j y
  simp only [partner_eq, postPair]

theorem irfftPre_eq (n4 : ℕ) (y : ℕ → ℂ) (tw : ℤ → ℂ) (p : ℕ) :
    irfftPre n4 y tw p = pairLoop n4 (prePair tw p) y := by
  rw [irfftPre, pairLoop]
  congr 1
  funext j y
  simp only [partner_eq, prePair]

/-! ## Even and odd parts -/

/-- Transform of size `N` of a real sequence. -/
noncomputable def rdft (N : ℕ) (x : ℕ → ℝ) (k : ℤ) : ℂ := ∑ j ∈ Finset.range N, (x j : ℂ) * cis (-(j * k)) N

/-- Even and odd terms. -/
def evens (x : ℕ → ℝ) (j : ℕ) : ℝ := x (2 * j)
def odds (x : ℕ → ℝ) (j : ℕ) : ℝ := x (2 * j + 1)

theorem dft_packed (N : ℕ) (x : ℕ → ℝ) (k : ℕ) :
    dft N (packed x) k = rdft N (evens x) k + I * rdft N (odds x) k := by
  rw [dft, rdft, rdft, Finset.mul_sum, ← Finset.sum_add_distrib]
  refine Finset.sum_congr rfl fun j _ => ?_
  have : packed x j = (x (2 * j) : ℂ) + I * (x (2 * j + 1) : ℂ) := by
    apply Complex.ext <;> simp [packed]
  rw [this, evens, odds]
  ring

theorem rdft_double (N : ℕ) (x : ℕ → ℝ) (k : ℤ) :
    rdft (2 * N) x k = rdft N (evens x) k + cis (-k) (2 * N) * rdft N (odds x) k := by
  rw [rdft, rdft, rdft, sum_two_mul, Finset.mul_sum, ← Finset.sum_add_distrib]
  refine Finset.sum_congr rfl fun j _ => ?_
  have e0 := cis_cancel (-(j * k)) (n := N) (k := 2) (by norm_num)
  have h1 : cis (-(((2 * j : ℕ) : ℤ) * k)) (2 * N) = cis (-(j * k)) N := by
    rw [← e0]; congr 1
    · push_cast; ring
    · ring
  have h2 : cis (-(((2 * j + 1 : ℕ) : ℤ) * k)) (2 * N) = cis (-k) (2 * N) * cis (-(j * k)) N := by
    rw [← h1, ← cis_add]; congr 1; push_cast; ring
  rw [h1, h2, evens, odds]
  ring

theorem conj_rdft (N : ℕ) (x : ℕ → ℝ) (k : ℤ) : conj (rdft N x k) = rdft N x (-k) := by
  rw [rdft, rdft, map_sum]
  refine Finset.sum_congr rfl fun j _ => ?_
  rw [map_mul, conj_ofReal, conj_cis]
  congr 2; ring

theorem rdft_add_full {N : ℕ} (hN : N ≠ 0) (x : ℕ → ℝ) (k : ℤ) : rdft N x (k + N) = rdft N x k := by
  rw [rdft, rdft]
  refine Finset.sum_congr rfl fun j _ => ?_
  rw [show -((j : ℤ) * (k + N)) = -(j * k) + N * (-j) by ring, cis_add, cis_mul_full _ hN, mul_one]

theorem rdft_reflect {N : ℕ} (hN : N ≠ 0) (x : ℕ → ℝ) (k : ℤ) : rdft N x (N - k) = conj (rdft N x k) := by
  rw [conj_rdft, show (N : ℤ) - k = -k + N by ring, rdft_add_full hN]

theorem cis_reflect {N : ℕ} (hN : N ≠ 0) (k : ℤ) : cis (-(N - k)) (2 * N) = -conj (cis (-k) (2 * N)) := by
  rw [show -((N : ℤ) - k) = k - N by ring, cis_sub, cis_half hN, conj_cis, neg_neg]
  ring

/-- The packed output of the real transform: value at 0 and value at `N` in the first cell. -/
noncomputable def rpack (N : ℕ) (x : ℕ → ℝ) (k : ℕ) : ℂ :=
  if k = 0 then ⟨(rdft (2 * N) x 0).re, (rdft (2 * N) x N).re⟩ else rdft (2 * N) x k

theorem rdft_im {N : ℕ} (x : ℕ → ℝ) (k : ℤ) (h : rdft N x (-k) = rdft N x k) : (rdft N x k).im = 0 := by
  have := conj_rdft N x k
  rw [h] at this
  exact conj_eq_iff_im.mp this

theorem rdft_zero_im (N : ℕ) (x : ℕ → ℝ) : (rdft N x 0).im = 0 := rdft_im x 0 (by simp)

theorem rdft_mid {M : ℕ} (hM : M ≠ 0) (x : ℕ → ℝ) : conj (rdft (2 * M) x M) = rdft (2 * M) x M := by
  rw [← rdft_reflect (by omega)]
  congr 1
  push_cast; ring

/-- The postprocessing of a pair with `j ≠ 0`, from cells `k` and `N - k`. -/
theorem post_pair {N : ℕ} (hN : N ≠ 0) (x : ℕ → ℝ) (tw : ℤ → ℂ) (p j k : ℕ) (hj : j ≠ 0)
    (hi : bitReverse 32 j >>> (34 - p) = k) (hk : k ≤ N) (htw : tw (k : ℤ) = cis k (2 * N)) :
    postPair tw p j (dft N (packed x) k) (dft N (packed x) (N - k)) =
      (rdft (2 * N) x k, rdft (2 * N) x (N - k : ℕ)) := by
  have hc : ((N - k : ℕ) : ℤ) = N - k := by omega
  simp only [postPair, hi, htw, if_pos hj, dft_packed, rdft_double, hc, rdft_reflect hN, cis_reflect hN, left_eq_I,
    half_eq, conj_cis]
  have hI := Complex.I_mul_I
  ext1
  · simp only [map_add, map_mul, conj_conj, conj_I]
    linear_combination (-(cis (-k) (2 * N)) * rdft N (odds x) k) * hI
  · simp only [map_add, map_mul, conj_conj, conj_I, map_sub, map_neg, conj_cis, neg_neg]
    linear_combination (cis k (2 * N) * conj (rdft N (odds x) k)) * hI

/-- The preprocessing of a pair with `j ≠ 0`. -/
theorem pre_pair {N : ℕ} (hN : N ≠ 0) (x : ℕ → ℝ) (tw : ℤ → ℂ) (p j k : ℕ) (hj : j ≠ 0)
    (hi : bitReverse 32 j >>> (34 - p) = k) (hk : k ≤ N) (htw : tw (k : ℤ) = cis k (2 * N)) :
    prePair tw p j (rdft (2 * N) x k) (rdft (2 * N) x (N - k : ℕ)) =
      (2 * dft N (packed x) k, 2 * dft N (packed x) (N - k)) := by
  have hc : ((N - k : ℕ) : ℤ) = N - k := by omega
  have hcc : cis k (2 * N) * cis (-k) (2 * N) = 1 := by rw [← cis_add]; simp
  simp only [prePair, hi, htw, if_pos hj, dft_packed, rdft_double, hc, rdft_reflect hN, cis_reflect hN, right_eq_I]
  have hI := Complex.I_mul_I
  ext1
  · simp only [map_add, map_mul, conj_conj, map_neg]
    linear_combination (2 * I * rdft N (odds x) k) * hcc
  · simp only [map_add, map_mul, conj_conj, conj_I, map_sub, map_neg, conj_cis, neg_neg]
    linear_combination (2 * I * conj (rdft N (odds x) k)) * hcc

theorem odd_rev {P : ℕ} {j : ℕ} (hj : j < 2 ^ P) :
    bitReverse (P + 1) (2 * j) = bitReverse P j ∧
    bitReverse (P + 1) (2 * bitrevNeg j + 1) = if j = 0 then 2 ^ P else 2 ^ (P + 1) - bitReverse P j := by
  have e1 : bitReverse (P + 1) (2 * j) = bitReverse P j := by
    rw [bitReverse, show 2 * j % 2 = 0 by omega, show 2 * j / 2 = j by omega]; ring
  refine ⟨e1, ?_⟩
  by_cases h : j = 0
  · subst h
    simp [bitrevNeg, bitReverse]
  · rw [if_neg h, ← e1]
    have := (bitReverse_bitrevNeg (P + 1) (i := 2 * j) (by omega) (by rw [pow_succ]; omega)).2
    rw [show bitrevNeg (2 * j) = 2 * bitrevNeg j + 1 from bitrevNeg_rec h (b := 0) (by norm_num)] at this
    omega

theorem bitrevNeg_lt {P j : ℕ} (hj : j < 2 ^ P) : bitrevNeg j < 2 ^ P := by
  by_cases h : j = 0
  · subst h; simp [bitrevNeg]
  · exact (bitReverse_bitrevNeg P h hj).1

/-- The preprocessed and postprocessed cells. -/
theorem post_all {P : ℕ} (hP : P ≤ 31) (x : ℕ → ℝ) {y : ℕ → ℂ}
    (h : ∀ q < 2 ^ (P + 1), y q = dft (2 ^ (P + 1)) (packed x) (bitReverse (P + 1) q)) :
    ∀ q < 2 ^ (P + 1), rfftPost (2 ^ P) y (slice (P + 1)) (P + 2) q = rpack (2 ^ (P + 1)) x (bitReverse (P + 1) q) := by
  intro q hq
  have hN : 2 ^ (P + 1) ≠ 0 := by positivity
  have h2 : 2 ^ (P + 1) = 2 * 2 ^ P := by rw [pow_succ]; ring
  have hpos : 0 < 2 ^ P := by positivity
  have htw : ∀ k : ℕ, slice (P + 1) (k : ℤ) = cis k (2 * 2 ^ (P + 1)) := fun k => slice_eq _ _
  obtain ⟨j, hjq⟩ := cell_cases q
  have hj : j < 2 ^ P := by
    rcases hjq with rfl | rfl
    · omega
    · have := bitrevNeg_lt (P := P) (j := bitrevNeg j) (by omega)
      rwa [bitrevNeg_invol] at this
  obtain ⟨c1, c2⟩ := pairLoop_at (2 ^ P) (postPair (slice (P + 1)) (P + 2)) y j hj
  obtain ⟨r1, r2⟩ := odd_rev hj
  have hb := bitrevNeg_lt hj
  rw [h (2 * j) (by omega), h (2 * bitrevNeg j + 1) (by omega), r1, r2] at c1 c2
  have hr := bitReverse_lt P j
  by_cases h0 : j = 0
  · subst h0
    rw [if_pos rfl, bitReverse_zero] at c1 c2
    simp only [postPair, ne_eq, not_true_eq_false, if_false] at c1 c2
    rw [rfftPost_eq]
    rcases hjq with rfl | rfl
    · rw [c1, r1, bitReverse_zero, rpack, if_pos rfl, dft_packed]
      rw [rdft_double, rdft_double]
      have e0 := rdft_zero_im (2 ^ (P + 1)) (evens x)
      have o0 := rdft_zero_im (2 ^ (P + 1)) (odds x)
      have hz : ∀ f, rdft (2 ^ (P + 1)) f ((2 ^ (P + 1) : ℕ) : ℤ) = rdft (2 ^ (P + 1)) f 0 := by
        intro f
        have := rdft_add_full hN f 0
        rwa [zero_add] at this
      have hcN : cis (-((2 ^ (P + 1) : ℕ) : ℤ)) (2 * 2 ^ (P + 1)) = -1 := by
        rw [cis_neg, cis_half hN]; norm_num
      rw [hz, hz, hcN]
      simp only [Nat.cast_zero, neg_zero, cis_zero]
      apply Complex.ext <;> simp [e0, o0]
      ring
    · rw [c2, r2, if_pos rfl, rpack, if_neg (by omega), dft_packed]
      rw [rdft_double]
      have hq : cis (-((2 ^ P : ℕ) : ℤ)) (2 * 2 ^ (P + 1)) = -I := by
        rw [cis_neg, show 2 * 2 ^ (P + 1) = 4 * 2 ^ P by rw [h2]; ring, cis_quarter (by omega), inv_I]
      rw [hq, h2, map_add, map_mul, rdft_mid (by omega), rdft_mid (by omega), conj_I]
  · rw [if_neg h0] at c1 c2
    have hb0 : bitReverse P j ≠ 0 := by
      intro e
      exact h0 (bitReverse_inj P hj hpos (by rw [e, bitReverse_zero]))
    have hi : bitReverse 32 j >>> (34 - (P + 2)) = bitReverse P j := by
      rw [show 34 - (P + 2) = 32 - P by omega]; exact bitReverse_shift (by omega) hj
    rw [post_pair hN x _ _ j (bitReverse P j) h0 hi (by omega) (htw _)] at c1 c2
    rw [rfftPost_eq]
    rcases hjq with rfl | rfl
    · rw [c1, r1, rpack, if_neg hb0]
    · rw [c2, r2, if_neg h0, rpack, if_neg (by omega)]

theorem pre_all {P : ℕ} (hP : P ≤ 31) (x : ℕ → ℝ) {y : ℕ → ℂ}
    (h : ∀ q < 2 ^ (P + 1), y q = rpack (2 ^ (P + 1)) x (bitReverse (P + 1) q)) :
    ∀ q < 2 ^ (P + 1), irfftPre (2 ^ P) y (slice (P + 1)) (P + 2) q =
      2 * dft (2 ^ (P + 1)) (packed x) (bitReverse (P + 1) q) := by
  intro q hq
  have hN : 2 ^ (P + 1) ≠ 0 := by positivity
  have h2 : 2 ^ (P + 1) = 2 * 2 ^ P := by rw [pow_succ]; ring
  have hpos : 0 < 2 ^ P := by positivity
  have htw : ∀ k : ℕ, slice (P + 1) (k : ℤ) = cis k (2 * 2 ^ (P + 1)) := fun k => slice_eq _ _
  obtain ⟨j, hjq⟩ := cell_cases q
  have hj : j < 2 ^ P := by
    rcases hjq with rfl | rfl
    · omega
    · have := bitrevNeg_lt (P := P) (j := bitrevNeg j) (by omega)
      rwa [bitrevNeg_invol] at this
  obtain ⟨c1, c2⟩ := pairLoop_at (2 ^ P) (prePair (slice (P + 1)) (P + 2)) y j hj
  obtain ⟨r1, r2⟩ := odd_rev hj
  have hb := bitrevNeg_lt hj
  rw [h (2 * j) (by omega), h (2 * bitrevNeg j + 1) (by omega), r1, r2] at c1 c2
  have hr := bitReverse_lt P j
  by_cases h0 : j = 0
  · subst h0
    rw [if_pos rfl, bitReverse_zero] at c1 c2
    simp only [prePair, ne_eq, not_true_eq_false, if_false] at c1 c2
    rw [irfftPre_eq]
    rcases hjq with rfl | rfl
    · rw [c1, r1, bitReverse_zero, rpack, if_pos rfl, dft_packed]
      rw [rdft_double, rdft_double]
      have e0 := rdft_zero_im (2 ^ (P + 1)) (evens x)
      have o0 := rdft_zero_im (2 ^ (P + 1)) (odds x)
      have hz : ∀ f, rdft (2 ^ (P + 1)) f ((2 ^ (P + 1) : ℕ) : ℤ) = rdft (2 ^ (P + 1)) f 0 := by
        intro f
        have := rdft_add_full hN f 0
        rwa [zero_add] at this
      have hcN : cis (-((2 ^ (P + 1) : ℕ) : ℤ)) (2 * 2 ^ (P + 1)) = -1 := by
        rw [cis_neg, cis_half hN]; norm_num
      rw [hz, hz, hcN]
      simp only [Nat.cast_zero, neg_zero, cis_zero]
      apply Complex.ext <;> simp [e0, o0] <;> ring
    · rw [c2, r2, if_pos rfl, rpack, if_neg (by omega), dft_packed]
      rw [rdft_double, twice_eq]
      have hq : cis (-((2 ^ P : ℕ) : ℤ)) (2 * 2 ^ (P + 1)) = -I := by
        rw [cis_neg, show 2 * 2 ^ (P + 1) = 4 * 2 ^ P by rw [h2]; ring, cis_quarter (by omega), inv_I]
      rw [hq, h2, map_add, map_mul, rdft_mid (by omega), rdft_mid (by omega), map_neg, conj_I, neg_neg]
  · rw [if_neg h0] at c1 c2
    have hb0 : bitReverse P j ≠ 0 := by
      intro e
      exact h0 (bitReverse_inj P hj hpos (by rw [e, bitReverse_zero]))
    have hi : bitReverse 32 j >>> (34 - (P + 2)) = bitReverse P j := by
      rw [show 34 - (P + 2) = 32 - P by omega]; exact bitReverse_shift (by omega) hj
    rw [rpack, rpack, if_neg hb0, if_neg (by omega),
      pre_pair hN x _ _ j (bitReverse P j) h0 hi (by omega) (htw _)] at c1 c2
    rw [irfftPre_eq]
    rcases hjq with rfl | rfl
    · rw [c1, r1]
    · rw [c2, r2, if_neg h0]

end Mandelbrot.FFT
