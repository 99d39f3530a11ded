import Verif.Arb.Series
import Mathlib.Analysis.Calculus.Deriv.Add
import Mathlib.Analysis.Calculus.Deriv.Mul
import Mathlib.Analysis.Calculus.Deriv.Inv
import Mathlib.Analysis.SpecialFunctions.ExpDeriv
import Mathlib.Analysis.SpecialFunctions.Log.Deriv
import Mathlib.MeasureTheory.Integral.IntervalIntegral.FundThmCalculus

/-!
# Derivatives of power series that depend on a real parameter

Coefficient by coefficient: sums, products, reciprocals, exponentials and logarithms, and the mean of a series over the unit
interval.
-/

namespace Mandelbrot

open PowerSeries

namespace PSD

open Spec ArbPoly

/-- Every coefficient of `P` has the coefficient of `P'` as its derivative, everywhere. -/
def HasD (P P' : ℝ → ℝ⟦X⟧) : Prop := ∀ i θ, HasDerivAt (fun t => coeff i (P t)) (coeff i (P' θ)) θ

variable {P P' Q Q' : ℝ → ℝ⟦X⟧}

theorem HasD.const (F : ℝ⟦X⟧) : HasD (fun _ => F) (fun _ => 0) := by
  intro i θ
  rw [map_zero]
  exact hasDerivAt_const θ _

theorem HasD.line (F D : ℝ⟦X⟧) : HasD (fun t => F + C t * D) (fun _ => D) := by
  intro i θ
  have : (fun t => coeff i (F + C t * D)) = fun t => coeff i F + t * coeff i D := by
    funext t; rw [map_add, coeff_C_mul]
  rw [this]
  simpa using ((hasDerivAt_id θ).mul_const (coeff i D)).const_add (coeff i F)

theorem HasD.add (h : HasD P P') (h' : HasD Q Q') : HasD (fun t => P t + Q t) (fun t => P' t + Q' t) := by
  intro i θ
  simp only [map_add]
  exact (h i θ).add (h' i θ)

theorem HasD.sub (h : HasD P P') (h' : HasD Q Q') : HasD (fun t => P t - Q t) (fun t => P' t - Q' t) := by
  intro i θ
  simp only [map_sub]
  exact (h i θ).sub (h' i θ)

theorem HasD.congr {P' R' : ℝ → ℝ⟦X⟧} (h : HasD P P') (e : ∀ t, P' t = R' t) : HasD P R' := by
  intro i θ
  rw [← e θ]; exact h i θ

/-- A coefficient of a product, when only the coefficients below are known to be differentiable. -/
theorem coeff_mul_deriv {n : ℕ} {θ : ℝ} (h : ∀ i ≤ n, HasDerivAt (fun t => coeff i (P t)) (coeff i (P' θ)) θ)
    (h' : ∀ i ≤ n, HasDerivAt (fun t => coeff i (Q t)) (coeff i (Q' θ)) θ) :
    HasDerivAt (fun t => coeff n (P t * Q t)) (coeff n (P' θ * Q θ + P θ * Q' θ)) θ := by
  have e : (fun t => coeff n (P t * Q t)) =
      fun t => ∑ p ∈ Finset.antidiagonal n, coeff p.1 (P t) * coeff p.2 (Q t) := by
    funext t; rw [coeff_mul]
  rw [e, map_add, coeff_mul, coeff_mul, ← Finset.sum_add_distrib]
  refine HasDerivAt.fun_sum fun p hp => ?_
  have := Finset.mem_antidiagonal.1 hp
  exact (h p.1 (by omega)).mul (h' p.2 (by omega))

theorem HasD.mul (h : HasD P P') (h' : HasD Q Q') :
    HasD (fun t => P t * Q t) (fun t => P' t * Q t + P t * Q' t) :=
  fun _ θ => coeff_mul_deriv (fun i _ => h i θ) (fun i _ => h' i θ)

theorem HasD.const_mul (F : ℝ⟦X⟧) (h : HasD P P') : HasD (fun t => F * P t) (fun t => F * P' t) :=
  ((HasD.const F).mul h).congr fun t => by rw [zero_mul, zero_add]

/-- A series is determined by its constant coefficient and its derivative, coefficient by coefficient. -/
theorem coeff_succ_eq (F : ℝ⟦X⟧) (n : ℕ) : coeff (n + 1) F = coeff n (d⁄dX ℝ F) / (n + 1) := by
  rw [coeff_derivative, mul_div_cancel_right₀]
  positivity

theorem HasD.derivative (h : HasD P P') : HasD (fun t => d⁄dX ℝ (P t)) (fun t => d⁄dX ℝ (P' t)) := by
  intro i θ
  simp only [coeff_derivative]
  exact (h (i + 1) θ).mul_const _

theorem deriv_rexp (F : ℝ⟦X⟧) : d⁄dX ℝ (rexp F) = rexp F * d⁄dX ℝ F := by
  have h0 : d⁄dX ℝ (C (constantCoeff F) : ℝ⟦X⟧) = 0 := derivative_C ..
  have h1 : d⁄dX ℝ (C (Real.exp (constantCoeff F)) : ℝ⟦X⟧) = 0 := derivative_C ..
  rw [rexp_def, Derivation.leibniz, smul_eq_mul, smul_eq_mul, h1, deriv_E (cc_sub F), map_sub, h0]
  ring

theorem HasD.rexp (h : HasD P P') : HasD (fun t => rexp (P t)) (fun t => Spec.rexp (P t) * P' t) := by
  intro n θ
  induction n using Nat.strong_induction_on with
  | _ n ih =>
    rcases n with _ | n
    · have e : (fun t => coeff 0 (Spec.rexp (P t))) = fun t => Real.exp (coeff 0 (P t)) := by
        funext t; rw [coeff_zero_eq_constantCoeff_apply, constantCoeff_rexp, coeff_zero_eq_constantCoeff_apply]
      rw [e, coeff_zero_eq_constantCoeff_apply, map_mul, constantCoeff_rexp, ← coeff_zero_eq_constantCoeff_apply, ← coeff_zero_eq_constantCoeff_apply]
      exact (h 0 θ).exp
    · have e : (fun t => coeff (n + 1) (Spec.rexp (P t))) = fun t => coeff n (Spec.rexp (P t) * d⁄dX ℝ (P t)) / (n + 1) := by
        funext t; rw [coeff_succ_eq, deriv_rexp]
      rw [e, coeff_succ_eq]
      refine HasDerivAt.div_const ?_ _
      have := coeff_mul_deriv (P := fun t => Spec.rexp (P t)) (P' := fun t => Spec.rexp (P t) * P' t)
        (Q := fun t => d⁄dX ℝ (P t)) (Q' := fun t => d⁄dX ℝ (P' t)) (n := n) (θ := θ)
        (fun i hi => ih i (by omega)) (fun i _ => h.derivative i θ)
      have e3 : d⁄dX ℝ (Spec.rexp (P θ) * P' θ) =
          Spec.rexp (P θ) * P' θ * d⁄dX ℝ (P θ) + Spec.rexp (P θ) * d⁄dX ℝ (P' θ) := by
        rw [Derivation.leibniz, smul_eq_mul, smul_eq_mul, deriv_rexp]
        ring
      rw [e3]
      exact this

/-- The terms after the constant. -/
noncomputable def tail (F : ℝ⟦X⟧) : ℝ⟦X⟧ := PowerSeries.mk fun i => coeff (i + 1) F

theorem eq_tail (F : ℝ⟦X⟧) : F = C (constantCoeff F) + X * tail F := by
  ext i
  rcases i with _ | i <;> simp [tail, coeff_succ_X_mul]

theorem HasD.tail (h : HasD P P') : HasD (fun t => tail (P t)) (fun t => PSD.tail (P' t)) := by
  intro i θ
  simp only [PSD.tail, coeff_mk]
  exact h (i + 1) θ

/-- The derivative of a constant coefficient that does not change. -/
theorem HasD.cc_zero (h : HasD P P') {c : ℝ} (h1 : ∀ t, constantCoeff (P t) = c) (θ : ℝ) : constantCoeff (P' θ) = 0 := by
  have e : (fun t => coeff 0 (P t)) = fun _ => c := by
    funext t; rw [coeff_zero_eq_constantCoeff_apply, h1]
  have := h 0 θ
  rw [e] at this
  rw [← coeff_zero_eq_constantCoeff_apply]
  exact this.unique (hasDerivAt_const θ c)

theorem HasD.inv (h : HasD P P') (h1 : ∀ t, constantCoeff (P t) = 1) :
    HasD (fun t => (P t)⁻¹) (fun t => -((P t)⁻¹ * (P t)⁻¹ * P' t)) := by
  have hP : ∀ t, P t = 1 + X * PSD.tail (P t) := fun t => by
    conv_lhs => rw [eq_tail (P t), h1, map_one]
  have hP' : ∀ t, P' t = X * PSD.tail (P' t) := fun t => by
    conv_lhs => rw [eq_tail (P' t), h.cc_zero h1, map_zero, zero_add]
  have hi : ∀ t, P t * (P t)⁻¹ = 1 := fun t => PowerSeries.mul_inv_cancel (P t) (by rw [h1]; exact one_ne_zero)
  have key : ∀ t, (P t)⁻¹ = 1 - X * (PSD.tail (P t) * (P t)⁻¹) := fun t => by
    linear_combination hi t - (P t)⁻¹ * hP t
  intro n θ
  induction n using Nat.strong_induction_on with
  | _ n ih =>
    rcases n with _ | n
    · have e : (fun t => coeff 0 (P t)⁻¹) = fun t => 1 := by
        funext t; rw [coeff_zero_eq_constantCoeff_apply, constantCoeff_inv, h1, inv_one]
      rw [e, coeff_zero_eq_constantCoeff_apply, map_neg, map_mul, h.cc_zero h1, mul_zero, neg_zero]
      exact hasDerivAt_const θ 1
    · have e : (fun t => coeff (n + 1) (P t)⁻¹) = fun t => - coeff n (PSD.tail (P t) * (P t)⁻¹) := by
        funext t
        conv_lhs => rw [key t]
        rw [map_sub, coeff_succ_X_mul, coeff_one, if_neg (Nat.succ_ne_zero n), zero_sub]
      rw [e]
      have hh := (coeff_mul_deriv (P := fun t => PSD.tail (P t)) (P' := fun t => PSD.tail (P' t))
        (Q := fun t => (P t)⁻¹) (Q' := fun t => -((P t)⁻¹ * (P t)⁻¹ * P' t)) (n := n) (θ := θ)
        (fun i _ => h.tail i θ) (fun i hi => ih i (by omega))).fun_neg
      have e2 : -((P θ)⁻¹ * (P θ)⁻¹ * P' θ) =
          X * -(PSD.tail (P' θ) * (P θ)⁻¹ + PSD.tail (P θ) * -((P θ)⁻¹ * (P θ)⁻¹ * P' θ)) := by
        linear_combination (-(P θ)⁻¹) * hP' θ + ((P θ)⁻¹ * (P θ)⁻¹ * P' θ) * hP θ - ((P θ)⁻¹ * P' θ) * hi θ
      show HasDerivAt _ (coeff (n + 1) (-((P θ)⁻¹ * (P θ)⁻¹ * P' θ))) θ
      rw [e2, coeff_succ_X_mul, map_neg]
      exact hh

theorem HasD.rlog (h : HasD P P') (h1 : ∀ t, constantCoeff (P t) = 1) :
    HasD (fun t => rlog (P t)) (fun t => P' t * (P t)⁻¹) := by
  have h0 : ∀ t, constantCoeff (P t) ≠ 0 := fun t => by rw [h1]; exact one_ne_zero
  intro n θ
  rcases n with _ | n
  · have e : (fun t => coeff 0 (Spec.rlog (P t))) = fun t => 0 := by
      funext t; rw [coeff_zero_eq_constantCoeff_apply, constantCoeff_rlog (h0 t), h1, Real.log_one]
    rw [e, coeff_zero_eq_constantCoeff_apply, map_mul, h.cc_zero h1, zero_mul]
    exact hasDerivAt_const θ 0
  · have e : (fun t => coeff (n + 1) (Spec.rlog (P t))) = fun t => coeff n (d⁄dX ℝ (P t) * (P t)⁻¹) / (n + 1) := by
      funext t; rw [coeff_succ_eq, deriv_rlog (h0 t)]
    rw [e, coeff_succ_eq]
    have := ((h.derivative).mul (h.inv h1)) n θ
    refine HasDerivAt.div_const ?_ _
    have hi : P θ * (P θ)⁻¹ = 1 := PowerSeries.mul_inv_cancel (P θ) (h0 θ)
    have hd : d⁄dX ℝ (P θ)⁻¹ = -((P θ)⁻¹ ^ 2 * d⁄dX ℝ (P θ)) := by
      have := congrArg (d⁄dX ℝ) hi
      rw [Derivation.leibniz, smul_eq_mul, smul_eq_mul, derivative_one] at this
      linear_combination (P θ)⁻¹ * this - (d⁄dX ℝ (P θ)⁻¹) * hi
    have e3 : d⁄dX ℝ (P' θ * (P θ)⁻¹) = d⁄dX ℝ (P' θ) * (P θ)⁻¹ + d⁄dX ℝ (P θ) * -((P θ)⁻¹ * (P θ)⁻¹ * P' θ) := by
      rw [Derivation.leibniz, smul_eq_mul, smul_eq_mul, hd]
      ring
    rw [e3]
    exact this

theorem HasD.continuous (h : HasD P P') (i : ℕ) : Continuous fun t => coeff i (P t) :=
  continuous_iff_continuousAt.2 fun t => (h i t).continuousAt

/-- The mean value theorem for a derivative that is a product with a fixed series: the difference is the product with a series
whose coefficients lie between coefficients of the factor on the unit interval. -/
theorem HasD.mean {M M' : ℝ → ℝ⟦X⟧} {D : ℝ⟦X⟧} (h : HasD P fun t => M t * D) (hM : HasD M M') :
    ∃ R : ℝ⟦X⟧, P 1 - P 0 = R * D ∧
      ∀ i, ∃ a ∈ Set.Icc (0 : ℝ) 1, ∃ b ∈ Set.Icc (0 : ℝ) 1, coeff i (M a) ≤ coeff i R ∧ coeff i R ≤ coeff i (M b) := by
  have hint : ∀ i, IntervalIntegrable (fun t => coeff i (M t)) MeasureTheory.volume 0 1 :=
    fun i => (hM.continuous i).intervalIntegrable 0 1
  refine ⟨PowerSeries.mk fun i => ∫ t in (0 : ℝ)..1, coeff i (M t), ?_, ?_⟩
  · ext n
    have h1 : ∫ t in (0 : ℝ)..1, coeff n (M t * D) = coeff n (P 1) - coeff n (P 0) := by
      refine intervalIntegral.integral_eq_sub_of_hasDerivAt (fun t _ => h n t) ?_
      refine Continuous.intervalIntegrable ?_ 0 1
      have e : (fun t => coeff n (M t * D)) = fun t => ∑ p ∈ Finset.antidiagonal n, coeff p.1 (M t) * coeff p.2 D := by
        funext t; rw [coeff_mul]
      rw [e]
      exact continuous_finsetSum _ fun p _ => (hM.continuous p.1).mul continuous_const
    rw [map_sub, ← h1, coeff_mul]
    have e : (fun t => coeff n (M t * D)) = fun t => ∑ p ∈ Finset.antidiagonal n, coeff p.1 (M t) * coeff p.2 D := by
      funext t; rw [coeff_mul]
    rw [e, intervalIntegral.integral_finsetSum fun p _ => (hint p.1).mul_const _]
    refine Finset.sum_congr rfl fun p _ => ?_
    rw [intervalIntegral.integral_mul_const, coeff_mk]
  · intro i
    have hc := (hM.continuous i).continuousOn (s := Set.Icc (0 : ℝ) 1)
    obtain ⟨a, ha, hmin⟩ := isCompact_Icc.exists_isMinOn (Set.nonempty_Icc.2 zero_le_one) hc
    obtain ⟨b, hb, hmax⟩ := isCompact_Icc.exists_isMaxOn (Set.nonempty_Icc.2 zero_le_one) hc
    refine ⟨a, ha, b, hb, ?_, ?_⟩
    · rw [coeff_mk]
      have := intervalIntegral.integral_mono_on (zero_le_one (α := ℝ)) (intervalIntegrable_const (c := coeff i (M a)))
        (hint i) (fun t ht => hmin ht)
      simpa using this
    · rw [coeff_mk]
      have := intervalIntegral.integral_mono_on (zero_le_one (α := ℝ)) (hint i)
        (intervalIntegrable_const (c := coeff i (M b))) (fun t ht => hmax ht)
      simpa using this

end PSD

end Mandelbrot
