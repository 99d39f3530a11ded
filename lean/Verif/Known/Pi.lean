import Verif.Known.Compute
import Mathlib.Analysis.SpecialFunctions.Complex.Arctan
import Mathlib.Analysis.SpecialFunctions.Trigonometric.Arctan
import Mathlib.Analysis.SpecificLimits.Normed

/-!
# Bounds of `pi` by Machin's formula (C68)
-/

namespace Mandelbrot.Known

open Finset

/-- The terms summed by `atanPart`, not rounded. -/
noncomputable def atanSum (x a m : ℕ) : ℝ := ∑ j ∈ range m, 1 / ((4 * j + a : ℝ) * (x : ℝ) ^ (4 * j + a))

theorem atanPart_spec {x a : ℕ} (c m : ℕ) (hx : 0 < x) (ha : 0 < a) :
    (atanPart x c a m : ℝ) ≤ 2 ^ c * atanSum x a m ∧ 2 ^ c * atanSum x a m ≤ atanPart x c a m + m := by
  induction m with
  | zero => simp [atanPart, atanSum]
  | succ m ih =>
    have hd : 0 < (4 * m + a) * x ^ (4 * m + a) := by positivity
    have hd' : (0 : ℝ) < (4 * m + a : ℝ) * (x : ℝ) ^ (4 * m + a) := by exact_mod_cast hd
    have h1 : ((2 ^ c / ((4 * m + a) * x ^ (4 * m + a)) : ℕ) : ℝ) ≤ 2 ^ c * (1 / ((4 * m + a : ℝ) * (x : ℝ) ^ (4 * m + a))) := by
      rw [mul_one_div, le_div_iff₀ hd']
      have := Nat.div_mul_le_self (2 ^ c) ((4 * m + a) * x ^ (4 * m + a))
      exact_mod_cast this
    have h2 : 2 ^ c * (1 / ((4 * m + a : ℝ) * (x : ℝ) ^ (4 * m + a))) ≤ ((2 ^ c / ((4 * m + a) * x ^ (4 * m + a)) : ℕ) : ℝ) + 1 := by
      rw [mul_one_div, div_le_iff₀ hd']
      have := (Nat.lt_mul_div_succ (2 ^ c) hd).le
      rw [mul_comm] at this
      exact_mod_cast this
    rw [atanPart, atanSum, sum_range_succ, ← atanSum, mul_add, Nat.cast_add]
    push_cast at *
    constructor <;> linarith [ih.1, ih.2]

theorem pair_sum (f : ℕ → ℝ) (m : ℕ) : ∑ i ∈ range (2 * m), f i = ∑ j ∈ range m, (f (2 * j) + f (2 * j + 1)) := by
  induction m with
  | zero => simp
  | succ m ih =>
    rw [show 2 * (m + 1) = 2 * m + 1 + 1 by ring, sum_range_succ, sum_range_succ, sum_range_succ, ih]
    ring

theorem arctan_tail {x : ℕ} (hx : 5 ≤ x) (m : ℕ) :
    |atanSum x 1 m - atanSum x 3 m - Real.arctan ((x : ℝ)⁻¹)| ≤ 25 / 24 * (1 / 25 ^ (2 * m)) := by
  have hx' : (5 : ℝ) ≤ x := by exact_mod_cast hx
  have hx0 : (0 : ℝ) < x := by linarith
  have hinv : (x : ℝ)⁻¹ ≤ 1 / 5 := by
    rw [← one_div]
    exact one_div_le_one_div_of_le (by norm_num) hx'
  have hpos : (0 : ℝ) < (x : ℝ)⁻¹ := by positivity
  have hlt : ‖(x : ℝ)⁻¹‖ < 1 := by
    rw [Real.norm_of_nonneg hpos.le]
    linarith
  have h1 := norm_sub_le_of_geometric_bound_of_hasSum (r := 1 / 25) (C := 1) (by norm_num) (fun n => ?_) (Real.hasSum_arctan hlt) (2 * m)
  · rw [Real.norm_eq_abs, pair_sum] at h1
    have e : ∑ j ∈ range m, ((-1 : ℝ) ^ (2 * j) * (x : ℝ)⁻¹ ^ (2 * (2 * j) + 1) / ((2 * (2 * j) + 1 : ℕ) : ℝ) +
        (-1) ^ (2 * j + 1) * (x : ℝ)⁻¹ ^ (2 * (2 * j + 1) + 1) / ((2 * (2 * j + 1) + 1 : ℕ) : ℝ)) = atanSum x 1 m - atanSum x 3 m := by
      rw [atanSum, atanSum, ← sum_sub_distrib]
      refine sum_congr rfl fun j _ => ?_
      rw [pow_succ (-1 : ℝ), pow_mul, neg_one_sq, one_pow]
      have e1 : 2 * (2 * j) + 1 = 4 * j + 1 := by ring
      have e2 : 2 * (2 * j + 1) + 1 = 4 * j + 3 := by ring
      rw [e1, e2, inv_pow, inv_pow]
      push_cast
      field_simp
      ring
    rw [e] at h1
    refine h1.trans (le_of_eq ?_)
    rw [one_div, inv_pow]
    ring
  · rw [Real.norm_eq_abs, abs_div, abs_mul, abs_pow, abs_neg, abs_one, one_pow, one_mul, one_mul, abs_of_pos (pow_pos hpos _),
      abs_of_pos (by positivity)]
    have h2 : (x : ℝ)⁻¹ ^ (2 * n + 1) ≤ (1 / 5) ^ (2 * n + 1) := pow_le_pow_left₀ hpos.le hinv _
    have h3 : ((1 : ℝ) / 5) ^ (2 * n + 1) ≤ (1 / 25) ^ n := by
      rw [pow_succ, pow_mul]
      have : (0 : ℝ) < (1 / 25) ^ n := by positivity
      norm_num at *
    have h4 : (1 : ℝ) ≤ ((2 * n + 1 : ℕ) : ℝ) := by
      push_cast
      linarith [Nat.cast_nonneg (α := ℝ) n]
    exact (div_le_self (pow_pos hpos _).le h4).trans (h2.trans h3)

theorem pi_machin : Real.pi = 16 * Real.arctan (((5 : ℕ) : ℝ)⁻¹) - 4 * Real.arctan (((239 : ℕ) : ℝ)⁻¹) := by
  have := Real.four_mul_arctan_inv_5_sub_arctan_inv_239
  push_cast
  linarith

theorem pi_bounds (c m : ℕ) : (piLo c m : ℝ) ≤ 2 ^ c * Real.pi ∧ 2 ^ c * Real.pi ≤ piHi c m := by
  have h5 := abs_le.1 (arctan_tail (x := 5) (by norm_num) m)
  have h239 := abs_le.1 (arctan_tail (x := 239) (by norm_num) m)
  obtain ⟨a1, a2⟩ := atanPart_spec (x := 5) (a := 1) c m (by norm_num) (by norm_num)
  obtain ⟨b1, b2⟩ := atanPart_spec (x := 5) (a := 3) c m (by norm_num) (by norm_num)
  obtain ⟨c1, c2⟩ := atanPart_spec (x := 239) (a := 1) c m (by norm_num) (by norm_num)
  obtain ⟨d1, d2⟩ := atanPart_spec (x := 239) (a := 3) c m (by norm_num) (by norm_num)
  have hT : (2 : ℝ) ^ c * (64 * (1 / 25 ^ (2 * m))) ≤ ((2 ^ (c + 6) / 25 ^ (2 * m) + 1 : ℕ) : ℝ) := by
    have h1 := (Nat.lt_mul_div_succ (2 ^ (c + 6)) (show 0 < 25 ^ (2 * m) by positivity)).le
    rw [mul_comm] at h1
    have h2 : ((2 : ℝ) ^ (c + 6)) ≤ ((2 ^ (c + 6) / 25 ^ (2 * m) + 1 : ℕ) : ℝ) * 25 ^ (2 * m) := by exact_mod_cast h1
    have e : (2 : ℝ) ^ c * (64 * (1 / 25 ^ (2 * m))) = 2 ^ (c + 6) / 25 ^ (2 * m) := by
      rw [pow_add]
      norm_num
      ring
    rw [e, div_le_iff₀ (by positivity)]
    exact h2
  have hc : (0 : ℝ) < 2 ^ c := by positivity
  have hq : (0 : ℝ) < 1 / 25 ^ (2 * m) := by positivity
  generalize (1 : ℝ) / 25 ^ (2 * m) = t at *
  have hpi := pi_machin
  generalize Real.arctan (((5 : ℕ) : ℝ)⁻¹) = u at *
  generalize Real.arctan (((239 : ℕ) : ℝ)⁻¹) = v at *
  have hlow : 2 ^ c * (16 * (atanSum 5 1 m - atanSum 5 3 m) - 4 * (atanSum 239 1 m - atanSum 239 3 m) - 64 * t) ≤ 2 ^ c * Real.pi := by
    refine mul_le_mul_of_nonneg_left ?_ hc.le
    rw [hpi]
    linarith [h5.1, h5.2, h239.1, h239.2]
  have hhigh : 2 ^ c * Real.pi ≤ 2 ^ c * (16 * (atanSum 5 1 m - atanSum 5 3 m) - 4 * (atanSum 239 1 m - atanSum 239 3 m) + 64 * t) := by
    refine mul_le_mul_of_nonneg_left ?_ hc.le
    rw [hpi]
    linarith [h5.1, h5.2, h239.1, h239.2]
  constructor
  · rw [piLo, Nat.sub_sub, Nat.sub_sub]
    rcases le_total (16 * (atanPart 5 c 3 m + m) + (4 * (atanPart 239 c 1 m + m) + (2 ^ (c + 6) / 25 ^ (2 * m) + 1)))
      (16 * atanPart 5 c 1 m + 4 * atanPart 239 c 3 m) with h | h
    · rw [Nat.cast_sub h]
      refine le_trans ?_ hlow
      push_cast at hT ⊢
      nlinarith [hT]
    · rw [Nat.sub_eq_zero_of_le h, Nat.cast_zero]
      exact mul_nonneg hc.le Real.pi_pos.le
  · rw [piHi, Nat.sub_sub]
    refine hhigh.trans ?_
    have hsub : ∀ a b : ℕ, (a : ℝ) - b ≤ ((a - b : ℕ) : ℝ) := by
      intro a b
      rcases le_total b a with h | h
      · rw [Nat.cast_sub h]
      · rw [Nat.sub_eq_zero_of_le h, Nat.cast_zero]
        have : (a : ℝ) ≤ b := by exact_mod_cast h
        linarith
    refine le_trans ?_ (hsub _ _)
    push_cast at hT ⊢
    nlinarith [hT]

end Mandelbrot.Known
