import Verif.FFT.Eval
import Verif.Series.Mul
import Mathlib.RingTheory.PowerSeries.Trunc
import Mathlib.Algebra.Polynomial.Eval.Degree

/-!
# Multiplication by transforms
-/

namespace Mandelbrot.FFT

open Complex Finset

local notation "conj" => starRingEnd ℂ

/-! ## The pointwise product is the product modulo `X^n + 1` -/

/-- Coefficients of the product of two sequences. -/
noncomputable def cprod (a b : ℕ → ℝ) (i : ℕ) : ℝ := ∑ p ∈ antidiagonal i, a p.1 * b p.2

/-- Coefficients of the product modulo `X^n + 1` of sequences of length at most `n`. -/
noncomputable def nega (n : ℕ) (a b : ℕ → ℝ) (i : ℕ) : ℝ := cprod a b i - cprod a b (i + n)

theorem polyVal_eval (n : ℕ) (a : ℕ → ℝ) (ζ : ℂ) :
    polyVal n a ζ = ((PowerSeries.mk fun i => (a i : ℂ)).trunc n).eval ζ := by
  cases n with
  | zero => simp [polyVal]
  | succ n =>
    rw [Polynomial.eval_eq_sum_range' (PowerSeries.natDegree_trunc_lt _ n), polyVal]
    refine sum_congr rfl fun i hi => ?_
    rw [PowerSeries.coeff_trunc, if_pos (mem_range.mp hi), PowerSeries.coeff_mk]

theorem polyVal_mul (n : ℕ) {a b : ℕ → ℝ} (ha : ∀ i, n ≤ i → a i = 0) (hb : ∀ i, n ≤ i → b i = 0) {ζ : ℂ}
    (hζ : ζ ^ n = -1) : polyVal n a ζ * polyVal n b ζ = polyVal n (nega n a b) ζ := by
  cases n with
  | zero => simp [polyVal]
  | succ n =>
    rw [polyVal_eval, polyVal_eval, ← Polynomial.eval_mul]
    have hd : (((PowerSeries.mk fun i => (a i : ℂ)).trunc (n + 1)) *
        ((PowerSeries.mk fun i => (b i : ℂ)).trunc (n + 1))).natDegree < (n + 1) + (n + 1) := by
      have h1 := PowerSeries.natDegree_trunc_lt (PowerSeries.mk fun i => (a i : ℂ)) n
      have h2 := PowerSeries.natDegree_trunc_lt (PowerSeries.mk fun i => (b i : ℂ)) n
      have h3 := Polynomial.natDegree_mul_le (p := (PowerSeries.mk fun i => (a i : ℂ)).trunc (n + 1))
        (q := (PowerSeries.mk fun i => (b i : ℂ)).trunc (n + 1))
      omega
    have hc : ∀ i, (((PowerSeries.mk fun i => (a i : ℂ)).trunc (n + 1)) *
        ((PowerSeries.mk fun i => (b i : ℂ)).trunc (n + 1))).coeff i = ((cprod a b i : ℝ) : ℂ) := by
      intro i
      rw [Polynomial.coeff_mul, cprod]
      push_cast
      refine sum_congr rfl fun p _ => ?_
      rw [PowerSeries.coeff_trunc, PowerSeries.coeff_trunc, PowerSeries.coeff_mk, PowerSeries.coeff_mk]
      split_ifs with h1 h2 h2
      · rfl
      · rw [hb _ (by omega)]; simp
      · rw [ha _ (by omega)]; simp
      · rw [ha _ (by omega)]; simp
    rw [Polynomial.eval_eq_sum_range' hd, sum_range_add, ← sum_add_distrib, polyVal]
    refine sum_congr rfl fun i _ => ?_
    rw [hc, hc, pow_add, hζ, nega, add_comm i]
    push_cast
    ring

theorem polyVal_smul (n : ℕ) (c : ℝ) (a : ℕ → ℝ) (ζ : ℂ) : polyVal n (fun i => c * a i) ζ = c * polyVal n a ζ := by
  rw [polyVal, polyVal, mul_sum]
  refine sum_congr rfl fun i _ => ?_
  push_cast; ring

/-! ## The backward transform depends on its own cells only -/

theorem bwd_congr {p : ℕ} (hp : 1 ≤ p) {c c' : ℕ → ℂ} (h : EqOn (2 ^ (p - 1)) c c') {k : ℕ} (hk : k < 2 ^ p) :
    bwd p c k = bwd p c' k := by
  by_cases h1 : p = 1
  · subst h1
    simp only [bwd, if_true]
    exact b0T_congr (by simpa using h) (by simpa using hk)
  · rw [bwd, bwd, if_neg h1, if_neg h1]
    have h2 : 2 ^ (p - 1) = 2 * 2 ^ (p - 2) := by rw [← pow_succ']; congr 1; omega
    refine b0T_congr ?_ ?_
    · rw [h2] at h ⊢
      refine b1WT_eqOn ?_
      refine levsUpFrom_eqOn (s := 0) (d := p - 2) ?_ h
      rw [zero_add]; exact Dvd.intro_left _ rfl
    · rw [← pow_succ', Nat.sub_add_cancel hp]; exact hk

/-! ## Pointwise loops -/

theorem mulCwise_at (n : ℕ) (fx fy : ℕ → ℂ) (a : ℝ) (k : ℕ) :
    mulCwise n fx fy a k = if k < n then (a : ℂ) * fx k * fy k else fx k := by
  rw [mulCwise, forLoop_own n _ id]
  · simp
  · intro i _ y k hk
    rw [Function.update_of_ne (by simpa using hk)]
  · rintro i _ y y' h k rfl
    simp [h k rfl]

theorem sqrCwise_at (n : ℕ) (fx : ℕ → ℂ) (a : ℝ) (k : ℕ) :
    sqrCwise n fx a k = if k < n then (a : ℂ) * fx k * fx k else fx k := by
  rw [sqrCwise, forLoop_own n _ id]
  · simp only [id, Function.update_self]
    split_ifs
    · rw [mul_assoc]
      congr 1
      apply Complex.ext <;> simp [mul_comm]
    · rfl
  · intro i _ y k hk
    rw [Function.update_of_ne (by simpa using hk)]
  · rintro i _ y y' h k rfl
    simp [h k rfl]

/-- Backward transform of the scaled pointwise product. -/
theorem bwd_product {p : ℕ} (hp : 1 ≤ p) {a b : ℕ → ℝ} (ha : ∀ i, 2 ^ p ≤ i → a i = 0)
    (hb : ∀ i, 2 ^ p ≤ i → b i = 0) {c : ℕ → ℂ}
    (hc : ∀ k < 2 ^ (p - 1), c k = ((1 / ((2 ^ (p - 1) : ℕ) : ℝ) : ℝ) : ℂ) * fwd p a k * fwd p b k) {k : ℕ}
    (hk : k < 2 ^ p) : bwd p c k = nega (2 ^ p) a b k := by
  have e : EqOn (2 ^ (p - 1)) c (fwd p fun i => (1 / ((2 ^ (p - 1) : ℕ) : ℝ)) * nega (2 ^ p) a b i) := by
    intro k hk
    rw [hc k hk, fwd_eval hp _ hk, fwd_eval hp _ hk, fwd_eval hp _ hk, polyVal_smul, mul_assoc,
      polyVal_mul _ ha hb (root_pow p k)]
  rw [bwd_congr hp e hk, bwd_fwd hp _ hk]
  push_cast
  field_simp

/-! ## The functions -/

theorem getZ_of_le (x : Span ℝ) {i : ℕ} (h : x.len ≤ i) : x.getZ i = 0 := by
  rw [Span.getZ, if_neg (by omega)]

theorem conv_eq_cprod (x y : Span ℝ) (i : ℕ) : x.conv y i = cprod x.getZ y.getZ i := rfl

theorem conv_of_le (x y : Span ℝ) {i : ℕ} (h : x.len + y.len ≤ i + 1) : x.conv y i = 0 := by
  rw [Span.conv]
  refine sum_eq_zero fun p hp => ?_
  rw [mem_antidiagonal] at hp
  by_cases h1 : x.len ≤ p.1
  · rw [getZ_of_le x h1, zero_mul]
  · rw [getZ_of_le y (by omega), mul_zero]

theorem bitCeil_two_mul {nz : ℕ} (h : 0 < nz) :
    ∃ p, 1 ≤ p ∧ bitCeil (2 * nz) = 2 ^ p ∧ bitCeil (2 * nz) / 2 = 2 ^ (p - 1) ∧ 2 * nz ≤ 2 ^ p ∧ 2 ^ p < 4 * nz := by
  have h1 : Nat.clog 2 (2 * nz) = Nat.clog 2 nz + 1 := by
    rw [Nat.clog_of_two_le (by norm_num) (by omega)]
    congr 2; omega
  refine ⟨Nat.clog 2 (2 * nz), by omega, rfl, ?_, Nat.le_pow_clog (by norm_num) _, ?_⟩
  · rw [bitCeil, h1, pow_succ]; simp
  · by_cases h2 : nz = 1
    · subst h2; rw [h1]; simp
    · have := Nat.pow_pred_clog_lt_self (b := 2) (by norm_num) (show 1 < nz by omega)
      have h3 : 0 < Nat.clog 2 nz := Nat.clog_pos (by norm_num) (by omega)
      rw [h1, pow_succ]
      have h4 : 2 ^ Nat.clog 2 nz = 2 * 2 ^ (Nat.clog 2 nz).pred := by
        rw [← pow_succ']; congr 1; rw [Nat.pred_eq_sub_one]; omega
      omega

theorem mulBase_eq (nz : ℕ) (hn : nz ≤ mulBaseN) (z : ℕ → ℝ) (x y : Span ℝ) (k : ℕ) :
    mulBase nz z x y k = if k < nz then x.conv y k else z k := by
  rw [mulBase]
  by_cases h : k < nz
  · rw [if_pos h, if_pos ⟨h, by omega⟩, Span.conv, Finset.Nat.sum_antidiagonal_eq_sum_range_succ_mk]
  · rw [if_neg h, if_neg (by omega)]

theorem sqrBase_eq (ny : ℕ) (hn : ny ≤ mulBaseN) (y : ℕ → ℝ) (x : Span ℝ) (k : ℕ) :
    sqrBase ny y x k = if k < ny then x.conv x k else y k := by
  rw [sqrBase]
  by_cases h : k < ny
  · rw [if_pos h, if_pos ⟨h, by omega⟩, Span.conv, Finset.Nat.sum_antidiagonal_eq_sum_range_succ_mk]
    have h8 : k < 8 := lt_of_lt_of_le h hn
    clear h hn
    interval_cases k <;> simp [Finset.sum_filter, Finset.sum_range_succ] <;> ring
  · rw [if_neg h, if_neg (by omega)]

theorem fftMul_assert {lim : ℕ∞} {junk : ℕ → ℂ} {nz : ℕ} {z : ℕ → ℝ} {x y : Span ℝ}
    (h : ¬nz ≤ x.len + y.len - 1) : fftMul lim junk nz z x y = .error .assertion := by
  rw [fftMul, slowAssert_false (by unfold relu; omega)]
  rfl

theorem fftMul_small {lim : ℕ∞} {junk : ℕ → ℂ} {nz : ℕ} {z : ℕ → ℝ} {x y : Span ℝ}
    (h : nz ≤ x.len + y.len - 1) (h8 : nz ≤ 8) :
    ∃ z', fftMul lim junk nz z x y = .ok z' ∧ ∀ k, z' k = if k < nz then x.conv y k else z k := by
  refine ⟨mulBase nz z x y, ?_, mulBase_eq nz h8 z x y⟩
  rw [fftMul, slowAssert_true (by unfold relu; omega), bok, if_pos (show nz ≤ mulBaseN from h8)]
  rfl

theorem srfftScramble_assert {lim : ℕ∞} {p : ℕ} (hp : 1 ≤ p) (y : ℕ → ℂ) {x : Span ℝ} (hx : ¬x.len ≤ 2 ^ p) :
    srfftScramble lim (2 ^ (p - 1)) y x = .error .assertion := by
  have hn : 2 * 2 ^ (p - 1) = 2 ^ p := by rw [← pow_succ', Nat.sub_add_cancel hp]
  have hn0 : 2 ^ p ≠ 0 := by positivity
  simp only [srfftScramble, hn, if_neg hn0, countrZero64_pow]
  rw [slowAssert_false (by tauto)]
  rfl

/-- The transforms of both factors, multiplied and transformed back. -/
theorem product_core {lim : ℕ∞} (junk junk' : ℕ → ℂ) {p : ℕ} (hp : 1 ≤ p) (hlim : p ≤ 2 ∨ (p : ℕ∞) < lim)
    {x y : Span ℝ} (hx : x.len ≤ 2 ^ p) (hy : y.len ≤ 2 ^ p) :
    ∃ fx fy, srfftScramble lim (2 ^ (p - 1)) junk x = .ok fx ∧ srfftScramble lim (2 ^ (p - 1)) junk' y = .ok fy ∧
      (∀ k < 2 ^ p, bwd p (mulCwise (2 ^ (p - 1)) fx fy (1 / ((2 ^ (p - 1) : ℕ) : ℝ))) k =
        x.conv y k - x.conv y (k + 2 ^ p)) := by
  obtain ⟨fx, e1, h1⟩ := srfftScramble_eq hp hlim junk hx
  obtain ⟨fy, e2, h2⟩ := srfftScramble_eq hp hlim junk' hy
  refine ⟨fx, fy, e1, e2, fun k hk => ?_⟩
  rw [bwd_product hp (a := x.getZ) (b := y.getZ) (fun i hi => getZ_of_le x (by omega))
    (fun i hi => getZ_of_le y (by omega)) ?_ hk]
  · rfl
  · intro k hk
    rw [mulCwise_at, if_pos hk, h1 k hk, h2 k hk]

theorem fftMul_large {lim : ℕ∞} (junk : ℕ → ℂ) {nz : ℕ} (z : ℕ → ℝ) {x y : Span ℝ}
    (h : nz ≤ x.len + y.len - 1) (h8 : 8 < nz) (hlim : (Nat.clog 2 (2 * nz) : ℕ∞) < lim)
    (hx : x.len ≤ bitCeil (2 * nz)) (hy : y.len ≤ bitCeil (2 * nz)) :
    ∃ z', fftMul lim junk nz z x y = .ok z' ∧
      ∀ k, z' k = if k < nz then x.conv y k - x.conv y (k + bitCeil (2 * nz)) else z k := by
  obtain ⟨p, hp, ep, ep2, hle, -⟩ := bitCeil_two_mul (show 0 < nz by omega)
  have hcl : Nat.clog 2 (2 * nz) = p := Nat.pow_right_injective (le_refl 2) ep
  rw [hcl] at hlim
  rw [ep] at hx hy ⊢
  obtain ⟨fx, fy, e1, e2, h3⟩ := product_core (lim := lim) junk (fun i => junk (2 ^ (p - 1) + i)) hp (.inr hlim) hx hy
  obtain ⟨z', e4, h4⟩ := isrfftScramble_eq hp (.inr hlim) false (xn := nz) (by omega) z
    (mulCwise (2 ^ (p - 1)) fx fy (1 / ((2 ^ (p - 1) : ℕ) : ℝ)))
  refine ⟨z', ?_, fun k => ?_⟩
  · simp only [fftMul]
    rw [slowAssert_true (by unfold relu; omega), bok, if_neg (show ¬nz ≤ mulBaseN by unfold mulBaseN; omega), ep2, e1,
      bok, e2, bok, e4]
  · rw [h4]
    by_cases hk : k < nz
    · have hk2 : k < 2 ^ p := by omega
      rw [if_pos ⟨hk2, hk⟩, if_pos hk, h3 k hk2]; simp
    · rw [if_neg (by tauto), if_neg hk]

/-- `fft_mul` computes the truncated product when the factors are no longer than the output. -/
theorem fftMul_eq {lim : ℕ∞} (junk : ℕ → ℂ) {nz : ℕ} (z : ℕ → ℝ) {x y : Span ℝ}
    (h : nz ≤ x.len + y.len - 1) (hlim : nz ≤ 8 ∨ (Nat.clog 2 (2 * nz) : ℕ∞) < lim)
    (hxy : nz ≤ 8 ∨ x.len + y.len ≤ bitCeil (2 * nz) + 1 ∧ x.len ≤ bitCeil (2 * nz) ∧ y.len ≤ bitCeil (2 * nz)) :
    ∃ z', fftMul lim junk nz z x y = .ok z' ∧ ∀ k, z' k = if k < nz then x.conv y k else z k := by
  by_cases h8 : nz ≤ 8
  · exact fftMul_small h h8
  · obtain ⟨h1, h2, h3⟩ := hxy.resolve_left h8
    obtain ⟨z', e, hz⟩ := fftMul_large junk z h (by omega) (hlim.resolve_left h8) h2 h3
    refine ⟨z', e, fun k => ?_⟩
    rw [hz k, conv_of_le x y (i := k + bitCeil (2 * nz)) (by omega), sub_zero]

theorem fftAddmul_assert {lim : ℕ∞} {junk : ℕ → ℂ} {nz : ℕ} {z : ℕ → ℝ} {x y : Span ℝ}
    {middle : (ℕ → ℝ) → Res (ℕ → ℝ)} (h : ¬nz ≤ x.len + y.len - 1) :
    fftAddmul lim junk nz z x y middle = .error .assertion := by
  rw [fftAddmul, slowAssert_false (by unfold relu; omega)]
  rfl

theorem fftAddmul_large {lim : ℕ∞} (junk : ℕ → ℂ) {nz : ℕ} (z : ℕ → ℝ) {x y : Span ℝ}
    {middle : (ℕ → ℝ) → Res (ℕ → ℝ)} {z1 : ℕ → ℝ} (hmid : middle z = .ok z1)
    (h : nz ≤ x.len + y.len - 1) (h0 : 0 < nz) (hlim : nz ≤ 2 ∨ (Nat.clog 2 (2 * nz) : ℕ∞) < lim)
    (hx : x.len ≤ bitCeil (2 * nz)) (hy : y.len ≤ bitCeil (2 * nz)) :
    ∃ z', fftAddmul lim junk nz z x y middle = .ok z' ∧
      ∀ k, z' k = if k < nz then z1 k + (x.conv y k - x.conv y (k + bitCeil (2 * nz))) else z1 k := by
  obtain ⟨p, hp, ep, ep2, hle, hlt⟩ := bitCeil_two_mul h0
  have hcl : Nat.clog 2 (2 * nz) = p := Nat.pow_right_injective (le_refl 2) ep
  rw [hcl] at hlim
  have hlim' : p ≤ 2 ∨ (p : ℕ∞) < lim := by
    rcases hlim with h2 | h2
    · left
      by_contra hc
      have : 2 ^ 3 ≤ 2 ^ p := Nat.pow_le_pow_right (by norm_num) (by omega)
      omega
    · exact .inr h2
  rw [ep] at hx hy ⊢
  obtain ⟨fx, fy, e1, e2, h3⟩ := product_core (lim := lim) junk (fun i => junk (2 ^ (p - 1) + i)) hp hlim' hx hy
  obtain ⟨z', e4, h4⟩ := isrfftScramble_eq hp hlim' true (xn := nz) (by omega) z1
    (mulCwise (2 ^ (p - 1)) fx fy (1 / ((2 ^ (p - 1) : ℕ) : ℝ)))
  refine ⟨z', ?_, fun k => ?_⟩
  · simp only [fftAddmul]
    rw [slowAssert_true (by unfold relu; omega), bok, ep2, e1, bok, e2, bok, hmid, bok, e4]
  · rw [h4]
    by_cases hk : k < nz
    · have hk2 : k < 2 ^ p := by omega
      rw [if_pos ⟨hk2, hk⟩, if_pos hk, h3 k hk2]; simp
    · rw [if_neg (by tauto), if_neg hk]

/-- `fft_addmul` adds the truncated product when the factors are no longer than the output. -/
theorem fftAddmul_eq {lim : ℕ∞} (junk : ℕ → ℂ) {nz : ℕ} (z : ℕ → ℝ) {x y : Span ℝ}
    {middle : (ℕ → ℝ) → Res (ℕ → ℝ)} {z1 : ℕ → ℝ} (hmid : middle z = .ok z1)
    (h : nz ≤ x.len + y.len - 1) (hlim : nz ≤ 2 ∨ (Nat.clog 2 (2 * nz) : ℕ∞) < lim)
    (hxy : nz = 0 ∨ x.len + y.len ≤ bitCeil (2 * nz) + 1 ∧ x.len ≤ bitCeil (2 * nz) ∧ y.len ≤ bitCeil (2 * nz)) :
    ∃ z', fftAddmul lim junk nz z x y middle = .ok z' ∧
      ∀ k, z' k = if k < nz then z1 k + x.conv y k else z1 k := by
  by_cases h0 : nz = 0
  · subst h0
    refine ⟨z1, ?_, by simp⟩
    have hb : bitCeil (2 * 0) / 2 = 0 := by simp [bitCeil]
    simp only [fftAddmul]
    rw [slowAssert_true (by unfold relu; omega), bok, hb]
    simp only [srfftScramble, isrfftScramble, mul_zero, if_true, bok, hmid]
  · obtain ⟨h1, h2, h3⟩ := hxy.resolve_left h0
    obtain ⟨z', e, hz⟩ := fftAddmul_large junk z hmid h (by omega) hlim h2 h3
    refine ⟨z', e, fun k => ?_⟩
    rw [hz k, conv_of_le x y (i := k + bitCeil (2 * nz)) (by omega), sub_zero]

theorem fftSqr_assert {lim : ℕ∞} {junk : ℕ → ℂ} {ny : ℕ} {y : ℕ → ℝ} {x : Span ℝ}
    (h : ¬ny ≤ 2 * x.len - 1) : fftSqr lim junk ny y x = .error .assertion := by
  rw [fftSqr, slowAssert_false (by unfold relu; omega)]
  rfl

theorem fftSqr_large {lim : ℕ∞} (junk : ℕ → ℂ) {ny : ℕ} (y : ℕ → ℝ) {x : Span ℝ}
    (h : ny ≤ 2 * x.len - 1) (h8 : 8 < ny) (hlim : (Nat.clog 2 (2 * ny) : ℕ∞) < lim)
    (hx : x.len ≤ bitCeil (2 * ny)) :
    ∃ y', fftSqr lim junk ny y x = .ok y' ∧
      ∀ k, y' k = if k < ny then x.conv x k - x.conv x (k + bitCeil (2 * ny)) else y k := by
  obtain ⟨p, hp, ep, ep2, hle, -⟩ := bitCeil_two_mul (show 0 < ny by omega)
  have hcl : Nat.clog 2 (2 * ny) = p := Nat.pow_right_injective (le_refl 2) ep
  rw [hcl] at hlim
  rw [ep] at hx ⊢
  obtain ⟨fx, e1, h1⟩ := srfftScramble_eq hp (.inr hlim) junk hx
  obtain ⟨y', e4, h4⟩ := isrfftScramble_eq hp (.inr hlim) false (xn := ny) (by omega) y
    (sqrCwise (2 ^ (p - 1)) fx (1 / ((2 ^ (p - 1) : ℕ) : ℝ)))
  refine ⟨y', ?_, fun k => ?_⟩
  · simp only [fftSqr]
    rw [slowAssert_true (by unfold relu; omega), bok, if_neg (show ¬ny ≤ mulBaseN by unfold mulBaseN; omega), ep2, e1,
      bok, e4]
  · rw [h4]
    by_cases hk : k < ny
    · have hk2 : k < 2 ^ p := by omega
      rw [if_pos ⟨hk2, hk⟩, if_pos hk, bwd_product hp (a := x.getZ) (b := x.getZ)
        (fun i hi => getZ_of_le x (by omega)) (fun i hi => getZ_of_le x (by omega)) ?_ hk2]
      · simp [nega, conv_eq_cprod]
      · intro k hk
        rw [sqrCwise_at, if_pos hk, h1 k hk]
    · rw [if_neg (by tauto), if_neg hk]

/-- `fft_sqr` computes the truncated square when the factor is no longer than the output. -/
theorem fftSqr_eq {lim : ℕ∞} (junk : ℕ → ℂ) {ny : ℕ} (y : ℕ → ℝ) {x : Span ℝ}
    (h : ny ≤ 2 * x.len - 1) (hlim : ny ≤ 8 ∨ (Nat.clog 2 (2 * ny) : ℕ∞) < lim)
    (hx : ny ≤ 8 ∨ 2 * x.len ≤ bitCeil (2 * ny) + 1) :
    ∃ y', fftSqr lim junk ny y x = .ok y' ∧ ∀ k, y' k = if k < ny then x.conv x k else y k := by
  by_cases h8 : ny ≤ 8
  · refine ⟨sqrBase ny y x, ?_, sqrBase_eq ny h8 y x⟩
    rw [fftSqr, slowAssert_true (by unfold relu; omega), bok, if_pos (show ny ≤ mulBaseN from h8)]
    rfl
  · have h1 := hx.resolve_left h8
    obtain ⟨y', e, hz⟩ := fftSqr_large junk y h (by omega) (hlim.resolve_left h8) (by omega)
    refine ⟨y', e, fun k => ?_⟩
    rw [hz k, conv_of_le x x (i := k + bitCeil (2 * ny)) (by omega), sub_zero]

end Mandelbrot.FFT
