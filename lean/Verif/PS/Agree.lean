import Mathlib.RingTheory.PowerSeries.Derivative
import Mathlib.RingTheory.PowerSeries.Inverse
import Mathlib.RingTheory.PowerSeries.Exp
import Mathlib.RingTheory.PowerSeries.Log

/-!
# Power series up to a given order

`Agree n F G`: the coefficients of `F` and `G` below `n` are equal.
-/

namespace Mandelbrot

open PowerSeries

variable {K : Type*} [Field K]

/-- `F = G + O(z^n)`. -/
def Agree (n : ℕ) (F G : K⟦X⟧) : Prop := ∀ i < n, coeff i F = coeff i G

theorem agree_iff_dvd {n : ℕ} {F G : K⟦X⟧} : Agree n F G ↔ (X : K⟦X⟧) ^ n ∣ F - G := by
  rw [X_pow_dvd_iff]
  constructor
  · intro h i hi; rw [map_sub, h i hi, sub_self]
  · intro h i hi; have := h i hi; rwa [map_sub, sub_eq_zero] at this

namespace Agree

variable {n m : ℕ} {F G H F' G' : K⟦X⟧}

@[refl] theorem refl (n : ℕ) (F : K⟦X⟧) : Agree n F F := fun _ _ => rfl

theorem rfl' {n : ℕ} {F : K⟦X⟧} : Agree n F F := fun _ _ => rfl

theorem of_eq {n : ℕ} {F G : K⟦X⟧} (h : F = G) : Agree n F G := h ▸ rfl'

@[symm] theorem symm (h : Agree n F G) : Agree n G F := fun i hi => (h i hi).symm

@[trans] theorem trans (h : Agree n F G) (h' : Agree n G H) : Agree n F H :=
  fun i hi => (h i hi).trans (h' i hi)

theorem mono (h : Agree n F G) (hm : m ≤ n) : Agree m F G := fun i hi => h i (hi.trans_le hm)

theorem zero (F G : K⟦X⟧) : Agree 0 F G := fun i hi => absurd hi (Nat.not_lt_zero i)

theorem add (h : Agree n F G) (h' : Agree n F' G') : Agree n (F + F') (G + G') :=
  fun i hi => by rw [map_add, map_add, h i hi, h' i hi]

theorem sub (h : Agree n F G) (h' : Agree n F' G') : Agree n (F - F') (G - G') :=
  fun i hi => by rw [map_sub, map_sub, h i hi, h' i hi]

theorem neg (h : Agree n F G) : Agree n (-F) (-G) :=
  fun i hi => by rw [map_neg, map_neg, h i hi]

theorem mul (h : Agree n F G) (h' : Agree n F' G') : Agree n (F * F') (G * G') := by
  intro i hi
  rw [coeff_mul, coeff_mul]
  refine Finset.sum_congr rfl fun p hp => ?_
  have := Finset.mem_antidiagonal.mp hp
  rw [h p.1 (by omega), h' p.2 (by omega)]

theorem pow (h : Agree n F G) (k : ℕ) : Agree n (F ^ k) (G ^ k) := by
  induction k with
  | zero => simp [rfl']
  | succ k ih => rw [pow_succ, pow_succ]; exact ih.mul h

theorem X_pow_mul (s : ℕ) (h : Agree n F G) : Agree (n + s) (X ^ s * F) (X ^ s * G) := by
  rw [agree_iff_dvd] at *
  rw [← mul_sub, pow_add, mul_comm (X ^ n)]
  exact mul_dvd_mul_left _ h

theorem of_X_pow_mul (s : ℕ) (h : Agree (n + s) (X ^ s * F) (X ^ s * G)) : Agree n F G := by
  intro i hi
  have := h (i + s) (by omega)
  simpa [coeff_X_pow_mul] using this

/-- A product with a factor that vanishes to order `n`. -/
theorem mul_zero_left (h : Agree n F 0) (G : K⟦X⟧) : Agree n (F * G) 0 := by
  simpa using h.mul (rfl' (F := G))

/-- Orders add. -/
theorem mul_zeros (h : Agree n F 0) (h' : Agree m G 0) : Agree (n + m) (F * G) 0 := by
  rw [agree_iff_dvd, sub_zero] at *
  rw [pow_add]
  exact mul_dvd_mul h h'

theorem constantCoeff_eq (h : Agree n F G) (hn : 0 < n) :
    constantCoeff F = constantCoeff G := by
  simpa using h 0 hn

theorem derivative (h : Agree (n + 1) F G) : Agree n (d⁄dX K F) (d⁄dX K G) := by
  intro i hi
  rw [coeff_derivative, coeff_derivative, h (i + 1) (by omega)]

theorem of_derivative [CharZero K] (h0 : constantCoeff F = constantCoeff G)
    (h : Agree n (d⁄dX K F) (d⁄dX K G)) : Agree (n + 1) F G := by
  intro i hi
  rcases i with _ | i
  · simpa using h0
  · have := h i (by omega)
    rw [coeff_derivative, coeff_derivative] at this
    have hne : ((i : K) + 1) ≠ 0 := by exact_mod_cast Nat.succ_ne_zero i
    exact mul_right_cancel₀ hne this

theorem inv (h : Agree n F G) (hF : constantCoeff F ≠ 0) (hG : constantCoeff G ≠ 0) :
    Agree n F⁻¹ G⁻¹ := by
  have e : F⁻¹ - G⁻¹ = (G - F) * (F⁻¹ * G⁻¹) := by
    have h1 := PowerSeries.mul_inv_cancel F hF
    have h2 := PowerSeries.mul_inv_cancel G hG
    linear_combination (-F⁻¹) * h2 + G⁻¹ * h1
  rw [agree_iff_dvd] at *
  rw [e]
  exact Dvd.dvd.mul_right (by rw [← neg_sub]; exact (dvd_neg).mpr h) _

theorem eq_of_all (h : ∀ n, Agree n F G) : F = G := by
  ext i; exact h (i + 1) i (Nat.lt_succ_self i)

/-- Cancel a factor with nonzero constant term. -/
theorem mul_left_cancel (hH : constantCoeff H ≠ 0) (h : Agree n (H * F) (H * G)) :
    Agree n F G := by
  have h' := (rfl' (n := n) (F := H⁻¹)).mul h
  rwa [← mul_assoc, ← mul_assoc, PowerSeries.inv_mul_cancel H hH, one_mul, one_mul] at h'

end Agree

end Mandelbrot
