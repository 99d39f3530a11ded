import Verif.FFT.Model

/-!
# Roots of unity and the twiddle lookups
-/

namespace Mandelbrot.FFT

open Complex

local notation "conj" => starRingEnd ℂ

theorem cis_add (a b : ℤ) (n : ℕ) : cis (a + b) n = cis a n * cis b n := by
  rw [cis, cis, cis, ← exp_add]
  congr 1; push_cast; ring

@[simp] theorem cis_zero (n : ℕ) : cis 0 n = 1 := by simp [cis]

theorem cis_ne_zero (a : ℤ) (n : ℕ) : cis a n ≠ 0 := exp_ne_zero _

theorem cis_neg (a : ℤ) (n : ℕ) : cis (-a) n = (cis a n)⁻¹ := by
  rw [cis, cis, ← exp_neg]
  congr 1; push_cast; ring

theorem cis_sub (a b : ℤ) (n : ℕ) : cis (a - b) n = cis a n * (cis b n)⁻¹ := by
  rw [sub_eq_add_neg, cis_add, cis_neg]

theorem conj_cis (a : ℤ) (n : ℕ) : conj (cis a n) = cis (-a) n := by
  rw [cis, cis, ← exp_conj]
  congr 1
  simp [map_div₀, Complex.conj_ofNat]

theorem conj_cis' (a : ℤ) (n : ℕ) : conj (cis a n) = (cis a n)⁻¹ := by rw [conj_cis, cis_neg]

theorem cis_pow (a : ℤ) (n k : ℕ) : cis a n ^ k = cis (a * k) n := by
  rw [cis, cis, ← exp_nat_mul]
  congr 1; push_cast; ring

theorem cis_cancel (a : ℤ) {n k : ℕ} (hk : k ≠ 0) : cis (a * k) (n * k) = cis a n := by
  have hk' : (k : ℂ) ≠ 0 := by exact_mod_cast hk
  rw [cis, cis]
  congr 1
  push_cast
  rw [← mul_assoc, mul_div_mul_right _ _ hk']

theorem cis_full {n : ℕ} (hn : n ≠ 0) : cis n n = 1 := by
  have h : (n : ℂ) ≠ 0 := by exact_mod_cast hn
  rw [cis]
  push_cast
  rw [mul_div_assoc, div_self h, mul_one, exp_two_pi_mul_I]

theorem cis_half {n : ℕ} (hn : n ≠ 0) : cis n (2 * n) = -1 := by
  have h : (n : ℂ) ≠ 0 := by exact_mod_cast hn
  rw [cis, ← exp_pi_mul_I]
  congr 1
  push_cast
  field_simp

theorem cis_quarter {n : ℕ} (hn : n ≠ 0) : cis n (4 * n) = I := by
  have h : (n : ℂ) ≠ 0 := by exact_mod_cast hn
  rw [cis, show 2 * (Real.pi : ℂ) * I * ((n : ℤ) : ℂ) / ((4 * n : ℕ) : ℂ) = Real.pi / 2 * I by
    push_cast
    field_simp
    ring]
  exact exp_pi_div_two_mul_I

theorem cis_add_full (a : ℤ) {n : ℕ} (hn : n ≠ 0) : cis (a + n) n = cis a n := by
  rw [cis_add, cis_full hn, mul_one]

theorem cis_mul_full (k : ℤ) {n : ℕ} (hn : n ≠ 0) : cis (n * k) n = 1 := by
  have h : (n : ℂ) ≠ 0 := by exact_mod_cast hn
  rw [cis]
  push_cast
  rw [show 2 * (Real.pi : ℂ) * I * (n * k) / n = k * (2 * Real.pi * I) by field_simp]
  exact exp_int_mul_two_pi_mul_I k

theorem cis_emod (a : ℤ) {n : ℕ} (hn : n ≠ 0) : cis (a % n) n = cis a n := by
  conv_rhs => rw [← Int.emod_add_mul_ediv a n]
  rw [cis_add, cis_mul_full _ hn, mul_one]

/-- The eighth root of unity of the butterflies. -/
noncomputable def E8 : ℂ := ⟨sqrtHalf, sqrtHalf⟩

theorem sqrtHalf_sq : sqrtHalf * sqrtHalf = 1 / 2 := Real.mul_self_sqrt (by norm_num)

theorem sqrtHalf_eq : sqrtHalf = Real.sqrt 2 / 2 := by
  rw [sqrtHalf, Real.sqrt_eq_iff_mul_self_eq (by norm_num) (by positivity)]
  have := Real.mul_self_sqrt (show (0 : ℝ) ≤ 2 by norm_num)
  linarith

theorem cis_one_eight : cis 1 8 = E8 := by
  have h : cis 1 8 = exp ((Real.pi / 4 : ℝ) * I) := by
    rw [cis]; congr 1; push_cast; ring
  rw [h, exp_mul_I, ← ofReal_cos, ← ofReal_sin, Real.cos_pi_div_four, Real.sin_pi_div_four, E8,
    sqrtHalf_eq]
  apply Complex.ext <;> simp

theorem E8_ne_zero : E8 ≠ 0 := by rw [← cis_one_eight]; exact cis_ne_zero _ _

theorem conj_E8 : conj E8 = E8⁻¹ := by rw [← cis_one_eight, conj_cis']

theorem E8_sq : E8 ^ 2 = I := by
  rw [← cis_one_eight, cis_pow]
  exact cis_quarter (n := 2) (by norm_num)

theorem E8_pow_four : E8 ^ 4 = -1 := by
  rw [← cis_one_eight, cis_pow]
  exact cis_half (n := 4) (by norm_num)

theorem left_eq (z : ℂ) : left z = E8 ^ 2 * z := by
  rw [E8_sq]; apply Complex.ext <;> simp [left]

theorem left_eq_I (z : ℂ) : left z = I * z := by apply Complex.ext <;> simp [left]

theorem right_eq_I (z : ℂ) : right z = -I * z := by apply Complex.ext <;> simp [right]

theorem half_eq (z : ℂ) : half z = z / 2 := by
  apply Complex.ext <;> simp [half]

theorem twice_eq (z : ℂ) : twice z = 2 * z := by
  apply Complex.ext <;> simp [twice] <;> ring

theorem diagPos_eq (z : ℂ) : diagPos sqrtHalf z = E8 * z := by
  apply Complex.ext <;> simp [diagPos, E8] <;> ring

theorem diagNeg_eq (z : ℂ) : diagNeg sqrtHalf z = E8⁻¹ * z := by
  rw [← conj_E8]
  apply Complex.ext <;> simp [diagNeg, E8] <;> ring

/-! ## Lookups -/

theorem swap_eq (t : ℂ) : (⟨t.im, t.re⟩ : ℂ) = I * conj t := by
  apply Complex.ext <;> simp

theorem negRe_eq (t : ℂ) : (⟨-t.re, t.im⟩ : ℂ) = -conj t := by
  apply Complex.ext <;> simp

theorem negIm_eq (t : ℂ) : (⟨t.re, -t.im⟩ : ℂ) = conj t := by
  apply Complex.ext <;> simp

/-- The entry a lookup reads is in the table. -/
theorem lookup_idx (s : ℕ) (j : ℤ) :
    0 ≤ (lookup (2 ^ s) j).idx ∧ (lookup (2 ^ s) j).idx < twiddleTableSize s := by
  have h0 : (0 : ℤ) < 2 ^ s := by positivity
  have h1 := Int.emod_nonneg j (show (2 * 2 ^ s : ℤ) ≠ 0 by positivity)
  have h2 := Int.emod_lt_of_pos j (show (0 : ℤ) < 2 * 2 ^ s by positivity)
  have h3 : (2 : ℤ) ^ s = 1 ∨ (2 : ℤ) ^ s = 2 ∨ (2 : ℤ) ^ s % 4 = 0 := by
    rcases s with _ | _ | s
    · left; norm_num
    · right; left; norm_num
    · right; right; rw [pow_succ, pow_succ, mul_assoc]; norm_num
  simp only [lookup, twiddleTableSize]
  generalize (2 : ℤ) ^ s = m at *
  generalize j % (2 * m) = a at *
  split_ifs <;> simp only [decide_eq_true_eq] at * <;> omega

/-- A lookup after the reduction modulo the period. -/
def lookupR (m j : ℤ) : Lookup :=
  let iflip := decide (j > m)
  let j := if iflip then 2 * m - j else j
  let rflip := decide (j > m / 2)
  let j := if rflip then m - j else j
  let dflip := decide (j > m / 4)
  let j := if dflip then m / 2 - j else j
  ⟨j, iflip, rflip, dflip⟩

theorem lookupR_eq (s : ℕ) (a : ℤ) (h1 : 0 ≤ a) (h2 : a < 2 * 2 ^ s) :
    (lookupR (2 ^ s) a).fix (cis (lookupR (2 ^ s) a).idx (2 * 2 ^ s)) = cis a (2 * 2 ^ s) := by
  have hm : (2 : ℕ) ^ s ≠ 0 := by positivity
  have hn : 2 * 2 ^ s ≠ 0 := by positivity
  simp only [lookupR, Lookup.fix]
  -- the three symmetries
  have sI : ∀ a : ℤ, cis (2 * 2 ^ s - a) (2 * 2 ^ s) = conj (cis a (2 * 2 ^ s)) := by
    intro a
    rw [conj_cis, show (2 * 2 ^ s - a : ℤ) = -a + (2 * 2 ^ s : ℕ) by push_cast; ring, cis_add_full _ hn]
  have sR : ∀ a : ℤ, cis (2 ^ s - a) (2 * 2 ^ s) = -conj (cis a (2 * 2 ^ s)) := by
    intro a
    rw [conj_cis, show (2 ^ s - a : ℤ) = (2 ^ s : ℕ) + -a by push_cast; ring, cis_add, cis_half hm]
    ring
  have sD : s ≠ 0 → ∀ a : ℤ, cis (2 ^ s / 2 - a) (2 * 2 ^ s) = I * conj (cis a (2 * 2 ^ s)) := by
    intro hs a
    obtain ⟨t, rfl⟩ := Nat.exists_eq_succ_of_ne_zero hs
    rw [conj_cis, show (2 ^ (t + 1) / 2 - a : ℤ) = (2 ^ t : ℕ) + -a by
        rw [pow_succ, Int.mul_ediv_cancel _ (by norm_num)]; push_cast; ring, cis_add]
    congr 1
    rw [show 2 * 2 ^ (t + 1) = 4 * 2 ^ t by rw [pow_succ]; ring]
    exact cis_quarter (by positivity)
  have back : ∀ z : ℂ, -conj (-conj z) = z := by intro z; simp
  simp only [swap_eq, negRe_eq, negIm_eq]
  -- the value after the two outer reflections
  have inner : ∀ b : ℤ, 0 ≤ b → b ≤ 2 ^ s / 2 →
      (if decide (b > 2 ^ s / 4) = true then
          I * conj (cis (if decide (b > 2 ^ s / 4) = true then 2 ^ s / 2 - b else b) (2 * 2 ^ s))
        else cis (if decide (b > 2 ^ s / 4) = true then 2 ^ s / 2 - b else b) (2 * 2 ^ s)) =
      cis b (2 * 2 ^ s) := by
    intro b hb0 hb
    by_cases h : b > 2 ^ s / 4
    · have hs : s ≠ 0 := by
        rintro rfl
        norm_num at hb h
        omega
      simp only [h, decide_true, if_true]
      rw [sD hs]
      simp [← mul_assoc]
    · simp [h]
  have middle : ∀ b : ℤ, 0 ≤ b → b ≤ 2 ^ s →
      (if decide (b > 2 ^ s / 2) = true then
        -conj (cis (if decide (b > 2 ^ s / 2) = true then 2 ^ s - b else b) (2 * 2 ^ s))
        else cis (if decide (b > 2 ^ s / 2) = true then 2 ^ s - b else b) (2 * 2 ^ s)) =
      cis b (2 * 2 ^ s) := by
    intro b hb0 hb
    by_cases h : b > 2 ^ s / 2
    · simp only [h, decide_true, if_true]
      rw [sR, back]
    · simp [h]
  by_cases hi : a > 2 ^ s
  · simp only [hi, decide_true, if_true]
    have hb0 : (0 : ℤ) ≤ 2 * 2 ^ s - a := by omega
    have hb : 2 * 2 ^ s - a ≤ (2 : ℤ) ^ s := by omega
    have hc0 : (0 : ℤ) ≤ if decide (2 * 2 ^ s - a > 2 ^ s / 2) = true then 2 ^ s - (2 * 2 ^ s - a) else 2 * 2 ^ s - a := by
      split_ifs <;> omega
    have hc : (if decide (2 * 2 ^ s - a > 2 ^ s / 2) = true then 2 ^ s - (2 * 2 ^ s - a) else 2 * 2 ^ s - a) ≤ (2 : ℤ) ^ s / 2 := by
      split_ifs with h <;> simp only [decide_eq_true_eq] at h <;> generalize (2 : ℤ) ^ s = m at * <;> omega
    rw [inner _ hc0 hc, middle _ hb0 hb, sI, conj_conj]
  · simp only [hi, decide_false, if_false, Bool.false_eq_true]
    have hb : a ≤ (2 : ℤ) ^ s := by omega
    have hc0 : (0 : ℤ) ≤ if decide (a > 2 ^ s / 2) = true then 2 ^ s - a else a := by
      split_ifs <;> omega
    have hc : (if decide (a > 2 ^ s / 2) = true then 2 ^ s - a else a) ≤ (2 : ℤ) ^ s / 2 := by
      split_ifs with h <;> simp only [decide_eq_true_eq] at h <;> generalize (2 : ℤ) ^ s = m at * <;> omega
    rw [inner _ hc0 hc, middle _ h1 hb]

/-- `slice(s)(j)` is the root of unity, for every index. -/
theorem slice_eq (s : ℕ) (j : ℤ) : slice s j = cis j (2 * 2 ^ s) := by
  have hn : 2 * 2 ^ s ≠ 0 := by positivity
  have h1 := Int.emod_nonneg j (show (2 * 2 ^ s : ℤ) ≠ 0 by positivity)
  have h2 := Int.emod_lt_of_pos j (show (0 : ℤ) < 2 * 2 ^ s by positivity)
  have e0 := cis_emod j hn
  push_cast at e0
  rw [← e0]
  exact lookupR_eq s _ h1 h2

theorem bigSlice_eq {lim : ℕ∞} {s : ℕ} (hs : 2 ≤ s) (hl : (s : ℕ∞) < lim) :
    ∃ tw, bigSlice lim s = .ok tw ∧ ∀ j, tw j = cis j (2 * 2 ^ s) := by
  refine ⟨fun j => slice (s - 2) (j / 4) * few s (j % 4), ?_, fun j => ?_⟩
  · simp only [bigSlice, slowAssert_true hs, bok, if_pos hl]
  · obtain ⟨t, rfl⟩ := Nat.exists_eq_add_of_le hs
    show slice (2 + t - 2) (j / 4) * few (2 + t) (j % 4) = _
    rw [slice_eq, few, show 2 + t - 2 = t by omega, ← cis_cancel (j / 4) (show 4 ≠ 0 by norm_num)]
    rw [show 2 * 2 ^ t * 4 = 2 * 2 ^ (2 + t) by rw [pow_add]; ring, ← cis_add]
    congr 1
    push_cast
    omega

end Mandelbrot.FFT
