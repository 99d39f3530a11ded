import Verif.Series.Model
import Mathlib.Algebra.BigOperators.NatAntidiagonal
import Mathlib.Algebra.Field.Basic

/-!
# What the series functions are supposed to compute

Everything here is stated on plain coefficient sequences `ℕ → K`, without the model's own helpers.
-/

namespace Mandelbrot

open Finset

/-- What a reader of a series sees at position `i`: the stored term, or zero past the stored terms
(/repo/series.h 23-44: terms from `nonzero()` to `known()` are zero). -/
def Ser.at {K : Type} [Zero K] (x : Ser K) (i : ℕ) : K := if (i : ℤ) < x.nonzero then x.data i else 0

namespace Spec

variable {K : Type} [Field K]

/-- Coefficient `k` of the product of two sequences. -/
def prod (a b : ℕ → K) (k : ℕ) : K := ∑ p ∈ antidiagonal k, a p.1 * b p.2

/-- The sequence of the series 1. -/
def one (k : ℕ) : K := if k = 0 then 1 else 0

/-- `z^s a`. -/
def shift (s : ℕ) (a : ℕ → K) (k : ℕ) : K := if k < s then 0 else a (k - s)

/-- `1 + z^s a`. -/
def onePlus (s : ℕ) (a : ℕ → K) (k : ℕ) : K := one k + shift s a k

/-- Coefficient `k` of the derivative. -/
def deriv (a : ℕ → K) (k : ℕ) : K := (k + 1) * a (k + 1)

/-- The first `n` terms of `y` are those of `exp(x)`: `y(0) = 1` and `y' = x' y`. -/
def IsExp (n : ℕ) (x y : ℕ → K) : Prop :=
  (0 < n → y 0 = 1) ∧ ∀ k, k + 1 < n → deriv y k = prod (deriv x) y k

/-- The first `n` terms of `y` are those of `log(x)`: `y(0) = 0` and `x = exp(y)`. -/
def IsLog (n : ℕ) (x y : ℕ → K) : Prop := (0 < n → y 0 = 0) ∧ IsExp n y x

/-- `exp` is determined by its characterization (over a field of characteristic zero). -/
theorem IsExp.unique [CharZero K] {n : ℕ} {x y y' : ℕ → K} (h : IsExp n x y) (h' : IsExp n x y') :
    ∀ k < n, y k = y' k := by
  intro k
  induction k using Nat.strong_induction_on with
  | _ k ih =>
    intro hk
    rcases k with _ | k
    · rw [h.1 (by omega), h'.1 (by omega)]
    · have h1 := h.2 k hk
      have h2 := h'.2 k hk
      have e : prod (deriv x) y k = prod (deriv x) y' k := by
        refine sum_congr rfl fun p hp => ?_
        rw [mem_antidiagonal] at hp
        rw [ih p.2 (by omega) (by omega)]
      rw [e, ← h2] at h1
      have hk' : ((k : K) + 1) ≠ 0 := by exact_mod_cast Nat.succ_ne_zero k
      exact mul_left_cancel₀ hk' h1

/-- `log` is determined by its characterization. -/
theorem IsLog.unique [CharZero K] {n : ℕ} {x y y' : ℕ → K} (h : IsLog n x y) (h' : IsLog n x y') :
    ∀ k < n, y k = y' k := by
  intro k
  induction k using Nat.strong_induction_on with
  | _ k ih =>
    intro hk
    rcases k with _ | k
    · rw [h.1 (by omega), h'.1 (by omega)]
    · have h1 := h.2.2 k hk
      have h2 := h'.2.2 k hk
      rw [h1] at h2
      simp only [prod] at h2
      rw [Nat.sum_antidiagonal_eq_sum_range_succ_mk, Nat.sum_antidiagonal_eq_sum_range_succ_mk,
        sum_range_succ, sum_range_succ, Nat.sub_self, h.2.1 (by omega)] at h2
      have e : ∑ i ∈ range k, deriv y i * x (k - i) = ∑ i ∈ range k, deriv y' i * x (k - i) := by
        refine sum_congr rfl fun i hi => ?_
        rw [mem_range] at hi
        simp only [deriv]
        rw [ih (i + 1) (by omega) (by omega)]
      rw [e] at h2
      have h3 := add_left_cancel h2
      rw [mul_one, mul_one] at h3
      have hk' : ((k : K) + 1) ≠ 0 := by exact_mod_cast Nat.succ_ne_zero k
      exact mul_left_cancel₀ hk' h3

end Spec

end Mandelbrot
