import Verif.FFT.Perm

/-!
# The complex transform and its inverse
-/

namespace Mandelbrot.FFT

open Complex

local notation "conj" => starRingEnd ℂ

/-! ## The passes -/

theorem update_pair {y : ℕ → ℂ} {a m : ℕ} (u v : ℂ) :
    Function.update (Function.update y a u) (a + m) v = scatter a m (fun i => if i = 0 then u else v) 2 y := by
  funext k
  simp only [scatter, zero_mul, add_zero, one_mul]
  rfl

/-- The function of a forward pass on a pair. -/
noncomputable def fwdPair (s : ℕ) (j : ℕ) (v : ℕ → ℂ) (i : ℕ) : ℂ :=
  if i = 0 then v 0 + v 1 else (v 0 - v 1) * conj (slice s j)

/-- The function of a backward pass on a pair. -/
noncomputable def bwdPair (s : ℕ) (j : ℕ) (v : ℕ → ℂ) (i : ℕ) : ℂ :=
  if i = 0 then v 0 + v 1 * slice s j else v 0 - v 1 * slice s j

theorem fftButterflyS_eq (n2 : ℕ) (y : ℕ → ℂ) (s : ℕ) :
    fftButterflyS n2 y (slice s) s = levelLoop 1 n2 s (fwdPair s) y := by
  rw [fftButterflyS, levelLoop]
  congr 1
  funext jk y
  simp only []
  rw [update_pair, pow_one]
  congr 1
  funext i
  simp only [fwdPair, zero_mul, add_zero, one_mul]

theorem ifftButterflyS_eq (n2 : ℕ) (y : ℕ → ℂ) (s : ℕ) :
    ifftButterflyS n2 y (slice s) s = levelLoop 1 n2 s (bwdPair s) y := by
  rw [ifftButterflyS, levelLoop]
  congr 1
  funext jk y
  simp only []
  rw [update_pair, pow_one]
  congr 1
  funext i
  simp only [bwdPair, zero_mul, add_zero, one_mul]

/-- Coordinates of the two cells of a pair. -/
theorem pair_at {f : ℕ → (ℕ → ℂ) → ℕ → ℂ}
    (hf : ∀ j v v', (∀ i < 2 ^ 1, v i = v' i) → ∀ i < 2 ^ 1, f j v i = f j v' i)
    {s D : ℕ} (y : ℕ → ℂ) {q j : ℕ} (hq : q < D) (hj : j < 2 ^ s) (b : ℕ) (hb : b < 2) :
    levelLoop 1 (D * 2 ^ s) s f y ((2 * q + b) * 2 ^ s + j) =
      f j (fun i => y ((2 * q + i) * 2 ^ s + j)) b := by
  have hlt : q * 2 ^ s + j < D * 2 ^ s := by
    have : (q + 1) * 2 ^ s ≤ D * 2 ^ s := Nat.mul_le_mul_right _ hq
    rw [add_mul, one_mul] at this
    omega
  have := levelLoop_at 1 (D * 2 ^ s) s f y hf (q := q) (i := b) (by simpa using hb) hj hlt
  rw [pow_one, mul_comm q 2] at this
  exact this

theorem fwdPair_congr (s : ℕ) : ∀ j v v', (∀ i < 2 ^ 1, v i = v' i) → ∀ i < 2 ^ 1, fwdPair s j v i = fwdPair s j v' i := by
  intro j v v' h i _
  simp only [fwdPair, h 0 (by norm_num), h 1 (by norm_num)]

theorem bwdPair_congr (s : ℕ) : ∀ j v v', (∀ i < 2 ^ 1, v i = v' i) → ∀ i < 2 ^ 1, bwdPair s j v i = bwdPair s j v' i := by
  intro j v v' h i _
  simp only [bwdPair, h 0 (by norm_num), h 1 (by norm_num)]

/-! ## Forward -/

/-- The state after the levels down to `s`: `2^d` blocks of `2^s` cells. -/
def CBlocks (s d : ℕ) (X : ℕ → ℂ) (y : ℕ → ℂ) : Prop :=
  ∀ q < 2 ^ d, ∀ j < 2 ^ s,
    y (q * 2 ^ s + j) = part (2 ^ d) (2 ^ s) X (cis (-bitReverse d q) (2 ^ (s + d))) j

theorem CBlocks.step {s d : ℕ} {X y : ℕ → ℂ} (h : CBlocks (s + 1) d X y) :
    CBlocks s (d + 1) X (fftButterflyS (2 ^ d * 2 ^ s) y (slice s) s) := by
  intro q hq j hj
  have hq2 : q / 2 < 2 ^ d := by rw [pow_succ] at hq; omega
  have hb : q % 2 < 2 := Nat.mod_lt _ (by norm_num)
  have h1 := h (q / 2) hq2 j (by rw [pow_succ]; omega)
  have h2 := h (q / 2) hq2 (j + 2 ^ s) (by rw [pow_succ]; omega)
  rw [show q / 2 * 2 ^ (s + 1) + j = (2 * (q / 2) + 0) * 2 ^ s + j by rw [pow_succ]; ring] at h1
  rw [show q / 2 * 2 ^ (s + 1) + (j + 2 ^ s) = (2 * (q / 2) + 1) * 2 ^ s + j by rw [pow_succ]; ring] at h2
  rw [show s + 1 + d = s + (d + 1) by ring] at h1 h2
  rw [show (2 : ℕ) ^ (s + 1) = 2 * 2 ^ s by rw [pow_succ]; ring] at h1 h2
  have key := pair_at (fwdPair_congr s) y hq2 hj (q % 2) hb
  rw [show 2 * (q / 2) + q % 2 = q by omega] at key
  rw [fftButterflyS_eq, key, bitReverse, show (2 : ℕ) ^ (d + 1) = 2 * 2 ^ d by rw [pow_succ]; ring]
  simp only [fwdPair, h1, h2]
  rcases Nat.mod_two_eq_zero_or_one q with hm | hm
  · rw [hm, if_pos rfl, zero_mul, zero_add]
    exact part_add _ _ _ _ _
  · rw [hm, if_neg one_ne_zero, one_mul]
    have hv : conj (cis 1 (2 * 2 ^ s)) ^ 2 ^ s = -1 := by
      rw [← map_pow, cis_pow_half]; simp
    rw [slice_eq, show cis (j : ℤ) (2 * 2 ^ s) = cis 1 (2 * 2 ^ s) ^ j by rw [cis_pow, one_mul], map_pow, mul_comm,
      part_sub _ _ _ _ _ hv]
    congr 1
    rw [conj_cis]
    have : cis (-1) (2 * 2 ^ s) = cis (-2 ^ d) (2 ^ (s + (d + 1))) := by
      have := cis_cancel (-1) (n := 2 * 2 ^ s) (k := 2 ^ d) (by positivity)
      rw [← this]
      congr 1
      · push_cast; ring
      · rw [show s + (d + 1) = s + d + 1 by ring, pow_succ, pow_add]; ring
    rw [this, ← cis_add]
    congr 1; push_cast; ring

theorem cblocks_loop {s d : ℕ} {X y : ℕ → ℂ} (h : CBlocks s d X y) :
    CBlocks 0 (s + d) X (fftLoop (2 ^ (s + d) / 2) s y) := by
  induction s generalizing d y with
  | zero => rw [fftLoop]; simpa using h
  | succ s ih =>
    rw [fftLoop]
    have e : 2 ^ (s + 1 + d) / 2 = 2 ^ d * 2 ^ s := by
      rw [show s + 1 + d = d + s + 1 by ring, pow_succ, Nat.mul_div_cancel _ (by norm_num), pow_add]
    have := ih (h.step)
    rw [show s + (d + 1) = s + 1 + d by ring, e] at this
    rw [e]
    exact this

/-- The complex numbers whose parts are the given real numbers. -/
noncomputable def packed (x : ℕ → ℝ) (j : ℕ) : ℂ := ⟨x (2 * j), x (2 * j + 1)⟩

theorem fftButterfly0_at (n : ℕ) (y : ℕ → ℂ) (x : Span ℝ) (k : ℕ) :
    fftButterfly0 (2 * n) y x k = if k < n then packed x.getZ k else y k := by
  rw [fftButterfly0]
  induction n with
  | zero => rfl
  | succ n ih =>
    rw [show 2 * (n + 1) = 2 * n + 1 + 1 by ring, forLoop_succ, forLoop_succ]
    generalize forLoop (2 * n) (fun i y => setRealCell y i (x.getZ i)) y = g at ih ⊢
    simp only [setRealCell, show 2 * n / 2 = n by omega, show (2 * n + 1) / 2 = n by omega,
      show 2 * n % 2 = 0 by omega, show (2 * n + 1) % 2 = 1 by omega, if_true, if_neg one_ne_zero,
      Function.update_self, Function.update_idem]
    by_cases h : k = n
    · subst h; rw [Function.update_self, if_pos (by omega)]; rfl
    · rw [Function.update_of_ne h, ih]
      by_cases h2 : k < n
      · rw [if_pos h2, if_pos (by omega)]
      · rw [if_neg h2, if_neg (by omega)]

/-- The discrete Fourier transform: `Σ_j z_j exp(-2πi jk/n)`. -/
noncomputable def dft (n : ℕ) (z : ℕ → ℂ) (k : ℕ) : ℂ := ∑ j ∈ Finset.range n, z j * cis (-(j * k : ℤ)) n

theorem fftBitrev_eq (p : ℕ) (y : ℕ → ℂ) {x : Span ℝ} (hx : x.len ≤ 2 * 2 ^ p) :
    ∃ y', fftBitrev (2 ^ p) y x = .ok y' ∧ ∀ k < 2 ^ p, y' k = dft (2 ^ p) (packed x.getZ) (bitReverse p k) := by
  have hn0 : 2 ^ p ≠ 0 := by positivity
  refine ⟨fftLoop (2 ^ p / 2) p (fftButterfly0 (2 * 2 ^ p) y x), ?_, fun k hk => ?_⟩
  · simp only [fftBitrev, if_neg hn0, countrZero64_pow]
    rw [slowAssert_true ⟨trivial, hx⟩]
    rfl
  · have h0 : CBlocks p 0 (packed x.getZ) (fftButterfly0 (2 * 2 ^ p) y x) := by
      intro q hq j hj
      have : q = 0 := by simpa using hq
      subst this
      rw [zero_mul, zero_add, fftButterfly0_at, if_pos hj, part]
      simp [bitReverse, cis_zero]
    have := cblocks_loop h0 k (by simpa using hk) 0 (by norm_num)
    simp only [pow_zero, mul_one, add_zero, zero_add] at this
    rw [this, part, dft]
    refine Finset.sum_congr rfl fun l _ => ?_
    rw [mul_one, zero_add, cis_pow]
    congr 2
    ring

theorem fftBitrev_assert {p : ℕ} (y : ℕ → ℂ) {x : Span ℝ} (hx : ¬x.len ≤ 2 * 2 ^ p) :
    fftBitrev (2 ^ p) y x = .error .assertion := by
  have hn0 : 2 ^ p ≠ 0 := by positivity
  simp only [fftBitrev, if_neg hn0, countrZero64_pow]
  rw [slowAssert_false (by tauto)]
  rfl

/-! ## Backward -/

/-- A forward pass. -/
noncomputable def fpass (n2 s : ℕ) (y : ℕ → ℂ) : ℕ → ℂ := fftButterflyS n2 y (slice s) s

/-- The two cells of a pair, from an index of the buffer. -/
theorem pair_cases {s D k : ℕ} (hk : k < 2 * (D * 2 ^ s)) :
    ∃ q b j, q < D ∧ b < 2 ∧ j < 2 ^ s ∧ k = (2 * q + b) * 2 ^ s + j := by
  have hm : 0 < 2 ^ s := by positivity
  refine ⟨k / 2 ^ s / 2, k / 2 ^ s % 2, k % 2 ^ s, ?_, Nat.mod_lt _ (by norm_num), Nat.mod_lt _ hm, ?_⟩
  · have : k / 2 ^ s < 2 * D := by
      rw [Nat.div_lt_iff_lt_mul hm]
      calc k < _ := hk
        _ = _ := by ring
    omega
  · rw [show 2 * (k / 2 ^ s / 2) + k / 2 ^ s % 2 = k / 2 ^ s by omega, mul_comm]
    exact (Nat.div_add_mod k (2 ^ s)).symm

/-- A backward pass undoes a forward pass, up to the factor two, on any scaled copy. -/
theorem pass_inv {s D : ℕ} (c : ℂ) {y u : ℕ → ℂ}
    (h : ∀ k < 2 * (D * 2 ^ s), u k = c * fftButterflyS (D * 2 ^ s) y (slice s) s k) :
    ∀ k < 2 * (D * 2 ^ s), ifftButterflyS (D * 2 ^ s) u (slice s) s k = 2 * c * y k := by
  intro k hk
  obtain ⟨q, b, j, hq, hb, hj, rfl⟩ := pair_cases hk
  have hin : ∀ i < 2, (2 * q + i) * 2 ^ s + j < 2 * (D * 2 ^ s) := by
    intro i hi
    have : (2 * q + 2) * 2 ^ s ≤ 2 * D * 2 ^ s := Nat.mul_le_mul_right _ (by omega)
    have h2 : (2 * q + i + 1) * 2 ^ s ≤ (2 * q + 2) * 2 ^ s := Nat.mul_le_mul_right _ (by omega)
    rw [add_mul, one_mul] at h2
    rw [← mul_assoc]
    omega
  have g0 := h _ (hin 0 (by norm_num))
  have g1 := h _ (hin 1 (by norm_num))
  rw [fftButterflyS_eq, pair_at (fwdPair_congr s) y hq hj _ (by norm_num)] at g0 g1
  rw [ifftButterflyS_eq, pair_at (bwdPair_congr s) u hq hj b hb]
  have hu : conj (slice s j) * slice s j = 1 := by
    rw [slice_eq, conj_cis', inv_mul_cancel₀ (cis_ne_zero _ _)]
  simp only [fwdPair, if_true, if_neg one_ne_zero] at g0 g1
  simp only [bwdPair, g0, g1]
  interval_cases b
  · rw [if_pos rfl]
    linear_combination (c * (y ((2 * q + 0) * 2 ^ s + j) - y ((2 * q + 1) * 2 ^ s + j))) * hu
  · rw [if_neg one_ne_zero]
    linear_combination -(c * (y ((2 * q + 0) * 2 ^ s + j) - y ((2 * q + 1) * 2 ^ s + j))) * hu

theorem loop_inv {N2 : ℕ} (p : ℕ) (hN : 2 ^ p ∣ 2 * N2) (c : ℂ) {y u : ℕ → ℂ}
    (h : ∀ k < 2 * N2, u k = c * fftLoop N2 p y k) :
    ∀ k < 2 * N2, ifftLoop N2 p u k = 2 ^ p * c * y k := by
  induction p generalizing y with
  | zero => intro k hk; rw [ifftLoop, h k hk, fftLoop]; simp
  | succ p ih =>
    rw [ifftLoop]
    rw [fftLoop] at h
    have h1 := ih (Dvd.dvd.trans (pow_dvd_pow 2 (by omega)) hN) h
    obtain ⟨D, hD⟩ := hN
    have e : N2 = D * 2 ^ p := by
      rw [pow_succ] at hD
      have : 2 * N2 = 2 * (D * 2 ^ p) := by rw [hD]; ring
      omega
    subst e
    have h2 := pass_inv (2 ^ p * c) h1
    intro k hk
    rw [h2 k hk, pow_succ]; ring

theorem ifftButterfly0_at (xn : ℕ) (x : ℕ → ℝ) (y : ℕ → ℂ) (k : ℕ) :
    ifftButterfly0 xn x y k = if k < xn then realCell y k else x k := by
  rw [ifftButterfly0, forLoop_own xn _ id]
  · simp
  · intro i _ y k hk
    rw [Function.update_of_ne (by simpa using hk)]
  · rintro i _ y y' _ k rfl
    simp

/-- `ifft_bitrev` on what a forward loop left, up to a factor. -/
theorem ifftBitrev_eq (p : ℕ) {xn : ℕ} (hx : xn ≤ 2 * 2 ^ p) (x : ℕ → ℝ) (c : ℝ) {y0 u : ℕ → ℂ}
    (h : ∀ k < 2 ^ p, u k = c * fftLoop (2 ^ p / 2) p y0 k) :
    ∃ x', ifftBitrev xn x (2 ^ p) u = .ok x' ∧ ∀ k, x' k = if k < xn then 2 ^ p * c * realCell y0 k else x k := by
  have hn0 : 2 ^ p ≠ 0 := by positivity
  refine ⟨ifftButterfly0 xn x (ifftLoop (2 ^ p / 2) p u), ?_, fun k => ?_⟩
  · simp only [ifftBitrev, if_neg hn0, countrZero64_pow]
    rw [slowAssert_true ⟨trivial, hx⟩]
    rfl
  · rw [ifftButterfly0_at]
    by_cases hk : k < xn
    · rw [if_pos hk, if_pos hk]
      have key : ∀ k < 2 ^ p, ifftLoop (2 ^ p / 2) p u k = ((2 ^ p * c : ℝ) : ℂ) * y0 k := by
        intro k hk
        by_cases h0 : p = 0
        · subst h0
          have hk0 : k = 0 := by simpa using hk
          subst hk0
          rw [ifftLoop, h 0 (by norm_num), fftLoop]; simp
        · have e2 : 2 * (2 ^ p / 2) = 2 ^ p := by
            obtain ⟨q, rfl⟩ := Nat.exists_eq_succ_of_ne_zero h0
            rw [Nat.succ_eq_add_one, pow_succ]; omega
          have := loop_inv (N2 := 2 ^ p / 2) p (by rw [e2]) c (y := y0) (u := u) (by rw [e2]; exact h) k (by rw [e2]; exact hk)
          rw [this]; push_cast; ring
      have hk2 : k / 2 < 2 ^ p := by omega
      simp only [realCell, key _ hk2]
      split_ifs <;> simp only [re_ofReal_mul, im_ofReal_mul]
    · rw [if_neg hk, if_neg hk]

end Mandelbrot.FFT
