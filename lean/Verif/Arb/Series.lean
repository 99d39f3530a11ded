import Verif.Spec.Arb
import Verif.PS.Bottcher

/-!
# Exponential and logarithm of real power series with arbitrary constant term
-/

namespace Mandelbrot

open PowerSeries

noncomputable section

namespace ArbPoly

/-- Exact scaling of real numbers by powers of two. -/
instance : Ldexp ℝ := ⟨fun a b => a * 2 ^ b⟩

instance : Ser.LawfulLdexp ℝ := ⟨fun _ _ => rfl⟩

open Spec

theorem rexp_def (F : ℝ⟦X⟧) : rexp F = C (Real.exp (constantCoeff F)) * E (F - C (constantCoeff F)) := rfl

theorem rlog_def (F : ℝ⟦X⟧) : rlog F = C (Real.log (constantCoeff F)) + L (C (constantCoeff F)⁻¹ * F) := rfl

theorem cc_sub (F : ℝ⟦X⟧) : constantCoeff (F - C (constantCoeff F)) = 0 := by simp

theorem cc_div {F : ℝ⟦X⟧} (h : constantCoeff F ≠ 0) : constantCoeff (C (constantCoeff F)⁻¹ * F) = 1 := by
  rw [map_mul, constantCoeff_C, inv_mul_cancel₀ h]

theorem constantCoeff_rexp (F : ℝ⟦X⟧) : constantCoeff (rexp F) = Real.exp (constantCoeff F) := by
  rw [rexp_def, map_mul, constantCoeff_E (cc_sub F), constantCoeff_C, mul_one]

theorem rexp_pos (F : ℝ⟦X⟧) : 0 < constantCoeff (rexp F) := by
  rw [constantCoeff_rexp]; exact Real.exp_pos _

theorem constantCoeff_rlog {F : ℝ⟦X⟧} (h : constantCoeff F ≠ 0) :
    constantCoeff (rlog F) = Real.log (constantCoeff F) := by
  rw [rlog_def, map_add, constantCoeff_L (cc_div h), constantCoeff_C, add_zero]

theorem rexp_of_zero {F : ℝ⟦X⟧} (h : constantCoeff F = 0) : rexp F = E F := by
  rw [rexp_def, h]; simp

theorem rlog_of_one {F : ℝ⟦X⟧} (h : constantCoeff F = 1) : rlog F = L F := by
  rw [rlog_def, h]; simp

theorem rexp_add (F G : ℝ⟦X⟧) : rexp (F + G) = rexp F * rexp G := by
  rw [rexp_def, rexp_def, rexp_def, map_add, map_add, Real.exp_add, map_mul,
    show F + G - (C (constantCoeff F) + C (constantCoeff G)) =
      (F - C (constantCoeff F)) + (G - C (constantCoeff G)) by ring, E_add (cc_sub F) (cc_sub G)]
  ring

theorem rexp_zero : rexp 0 = 1 := by rw [rexp_of_zero (by simp), E_zero]

theorem deriv_rlog {F : ℝ⟦X⟧} (h : constantCoeff F ≠ 0) : d⁄dX ℝ (rlog F) = d⁄dX ℝ F * F⁻¹ := by
  rw [rlog_def, map_add, deriv_L (cc_div h)]
  have h1 : d⁄dX ℝ (C (Real.log (constantCoeff F)) : ℝ⟦X⟧) = 0 := derivative_C ..
  have h2 : d⁄dX ℝ (C (constantCoeff F)⁻¹ * F) = C (constantCoeff F)⁻¹ * d⁄dX ℝ F := by
    rw [Derivation.leibniz]
    have : d⁄dX ℝ (C (constantCoeff F)⁻¹ : ℝ⟦X⟧) = 0 := derivative_C ..
    rw [this]; simp
  rw [h1, h2, zero_add, PowerSeries.mul_inv_rev]
  have h3 : (C (constantCoeff F)⁻¹ : ℝ⟦X⟧) * (C (constantCoeff F)⁻¹)⁻¹ = 1 :=
    PowerSeries.mul_inv_cancel _ (by rw [constantCoeff_C]; exact inv_ne_zero h)
  linear_combination (d⁄dX ℝ F * F⁻¹) * h3

theorem rexp_rlog {F : ℝ⟦X⟧} (h : 0 < constantCoeff F) : rexp (rlog F) = F := by
  rw [rexp_def, constantCoeff_rlog h.ne', Real.exp_log h, rlog_def, add_sub_cancel_left, E_L (cc_div h.ne'),
    ← mul_assoc, ← map_mul, mul_inv_cancel₀ h.ne', map_one, one_mul]

theorem rlog_rexp (F : ℝ⟦X⟧) : rlog (rexp F) = F := by
  rw [rlog_def, constantCoeff_rexp, Real.log_exp]
  have h : (C (Real.exp (constantCoeff F))⁻¹ : ℝ⟦X⟧) * rexp F = E (F - C (constantCoeff F)) := by
    rw [rexp_def, ← mul_assoc, ← map_mul, inv_mul_cancel₀ (Real.exp_pos _).ne', map_one, one_mul]
  rw [h, L_E (cc_sub F)]; ring

theorem rexp_agree {n : ℕ} {F G : ℝ⟦X⟧} (h : Agree n F G) : Agree n (rexp F) (rexp G) := by
  rcases Nat.eq_zero_or_pos n with rfl | hn
  · exact Agree.zero _ _
  have h0 := h.constantCoeff_eq hn
  rw [rexp_def, rexp_def, h0]
  refine Agree.rfl'.mul (E_agree (by rw [map_sub, h0]; simp) (cc_sub G) (h.sub Agree.rfl'))

theorem rlog_agree {n : ℕ} {F G : ℝ⟦X⟧} (hF : constantCoeff F ≠ 0) (h : Agree n F G) :
    Agree n (rlog F) (rlog G) := by
  rcases Nat.eq_zero_or_pos n with rfl | hn
  · exact Agree.zero _ _
  have h0 := h.constantCoeff_eq hn
  rw [rlog_def, rlog_def, h0]
  refine Agree.rfl'.add (L_agree (by rw [← h0]; exact cc_div hF) (cc_div (h0 ▸ hF)) (Agree.rfl'.mul h))

end ArbPoly

end

end Mandelbrot
