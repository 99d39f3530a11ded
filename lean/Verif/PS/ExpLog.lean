import Verif.PS.Agree

/-!
# Exponential and logarithm of power series

`E G` is `exp(G)` and `L F` is `log(F)`, as Mathlib substitutions into the standard series.
-/

set_option linter.unusedSectionVars false
set_option linter.unusedSimpArgs false

namespace Mandelbrot

open PowerSeries

variable {K : Type*} [Field K] [CharZero K]

/-- `exp(G)` for a series without constant term, as a substitution into Mathlib's `exp`. -/
noncomputable def E (G : K⟦X⟧) : K⟦X⟧ := (PowerSeries.exp K).subst G

/-- `log(F)` for a series with constant term one: Mathlib's `logOf`. -/
noncomputable def L (F : K⟦X⟧) : K⟦X⟧ := PowerSeries.logOf F

theorem hasSubst_of {G : K⟦X⟧} (h : constantCoeff G = 0) : HasSubst G :=
  HasSubst.of_constantCoeff_zero' h

theorem deriv_E {G : K⟦X⟧} (h : constantCoeff G = 0) : d⁄dX K (E G) = E G * d⁄dX K G := by
  rw [E, derivative_subst (hasSubst_of h), derivative_exp]

/-- A power series splits off its constant term. -/
theorem eq_C_add_X_mul (f : K⟦X⟧) : ∃ r : K⟦X⟧, f = C (constantCoeff f) + X * r := by
  refine ⟨mk fun i => coeff (i + 1) f, ?_⟩
  ext i
  rcases i with _ | i <;> simp [coeff_C, coeff_succ_X_mul]

theorem constantCoeff_subst' {G : K⟦X⟧} (h : constantCoeff G = 0) (f : K⟦X⟧) :
    constantCoeff (f.subst G : K⟦X⟧) = constantCoeff f := by
  obtain ⟨r, hr⟩ := eq_C_add_X_mul f
  have hs := hasSubst_of h
  conv_lhs => rw [hr, subst_add hs, subst_mul hs, subst_X hs, subst_C]
  rw [map_add, map_mul, h, zero_mul, add_zero]
  exact constantCoeff_C _

theorem constantCoeff_E {G : K⟦X⟧} (h : constantCoeff G = 0) : constantCoeff (E G) = 1 := by
  rw [E, constantCoeff_subst' h, constantCoeff_exp]

theorem constantCoeff_L {F : K⟦X⟧} (h : constantCoeff F = 1) : constantCoeff (L F) = 0 :=
  constantCoeff_logOf h

theorem deriv_log_mul : d⁄dX K (PowerSeries.log K) * (1 + X) = 1 := by
  rw [PowerSeries.deriv_log]
  ext i
  rcases i with _ | i
  · simp
  · rw [mul_add, mul_one, map_add, coeff_succ_mul_X, coeff_mk, coeff_mk, coeff_one]
    simp [pow_succ]

theorem deriv_L_mul {F : K⟦X⟧} (h : constantCoeff F = 1) : d⁄dX K (L F) * F = d⁄dX K F := by
  have h1 : constantCoeff (F - 1) = 0 := by simp [h]
  have hs := hasSubst_of h1
  have e : (d⁄dX K (PowerSeries.log K)).subst (F - 1) * F = 1 := by
    have := congrArg (fun f => (f.subst (F - 1) : K⟦X⟧)) (deriv_log_mul (K := K))
    beta_reduce at this
    rw [subst_mul hs, subst_add hs, subst_X hs] at this
    have e1 : (1 : K⟦X⟧).subst (F - 1) = (1 : K⟦X⟧) := by
      rw [← coe_substAlgHom hs, map_one]
    rw [e1] at this
    simpa using this
  rw [L, logOf_eq, derivative_subst hs, map_sub, derivative_one, sub_zero]
  linear_combination (d⁄dX K F) * e

theorem deriv_L {F : K⟦X⟧} (h : constantCoeff F = 1) : d⁄dX K (L F) = d⁄dX K F * F⁻¹ := by
  have h1 := deriv_L_mul h
  have h2 := PowerSeries.mul_inv_cancel F (by rw [h]; exact one_ne_zero)
  linear_combination F⁻¹ * h1 - d⁄dX K (L F) * h2

/-- The exponential is the only solution of `Y' = G' Y`, `Y(0) = 1`, even truncated. -/
theorem agree_E_of_ode {n : ℕ} {G Y : K⟦X⟧} (hG : constantCoeff G = 0) (h0 : constantCoeff Y = 1)
    (h : Agree n (d⁄dX K Y) (d⁄dX K G * Y)) : Agree (n + 1) Y (E G) := by
  -- `Q = Y / E G` has derivative `O(z^n)`
  have hE : constantCoeff (E G) ≠ 0 := by rw [constantCoeff_E hG]; exact one_ne_zero
  have hi := PowerSeries.mul_inv_cancel _ hE
  set Q := Y * (E G)⁻¹ with hQ
  have hd : d⁄dX K Q = (d⁄dX K Y - d⁄dX K G * Y) * (E G)⁻¹ := by
    rw [hQ, Derivation.leibniz, derivative_inv', deriv_E hG, smul_eq_mul, smul_eq_mul]
    linear_combination (-Y * (E G)⁻¹ * d⁄dX K G) * hi
  have hq : Agree (n + 1) Q 1 := by
    apply Agree.of_derivative
    · rw [hQ, map_mul, h0, constantCoeff_inv, constantCoeff_E hG]; simp
    · rw [hd, derivative_one]
      have := (h.sub (Agree.rfl' (F := d⁄dX K G * Y))).mul (Agree.rfl' (F := (E G)⁻¹))
      simpa using this
  have := hq.mul (Agree.rfl' (F := E G))
  rw [one_mul, hQ, mul_assoc, mul_comm _ (E G), hi, mul_one] at this
  exact this

theorem eq_E_of_ode {G Y : K⟦X⟧} (hG : constantCoeff G = 0) (h0 : constantCoeff Y = 1)
    (h : d⁄dX K Y = d⁄dX K G * Y) : Y = E G :=
  Agree.eq_of_all fun n => (agree_E_of_ode (n := n) hG h0 (Agree.of_eq h)).mono (Nat.le_succ n)

theorem E_zero : E (0 : K⟦X⟧) = 1 :=
  (eq_E_of_ode (by simp) (by simp) (by simp [derivative_one])).symm

theorem E_add {F G : K⟦X⟧} (hF : constantCoeff F = 0) (hG : constantCoeff G = 0) :
    E (F + G) = E F * E G := by
  refine (eq_E_of_ode (by rw [map_add, hF, hG, add_zero]) ?_ ?_).symm
  · rw [map_mul, constantCoeff_E hF, constantCoeff_E hG, one_mul]
  · rw [Derivation.leibniz, deriv_E hF, deriv_E hG, smul_eq_mul, smul_eq_mul, map_add]; ring

theorem E_neg_mul {F : K⟦X⟧} (hF : constantCoeff F = 0) : E (-F) * E F = 1 := by
  rw [← E_add (by simp [hF]) hF, neg_add_cancel, E_zero]

theorem E_L {F : K⟦X⟧} (h : constantCoeff F = 1) : E (L F) = F :=
  (eq_E_of_ode (constantCoeff_L h) h (deriv_L_mul h).symm).symm

theorem eq_of_deriv {F G : K⟦X⟧} (h0 : constantCoeff F = constantCoeff G)
    (h : d⁄dX K F = d⁄dX K G) : F = G :=
  Agree.eq_of_all fun n => (Agree.of_derivative (n := n) h0 (Agree.of_eq h)).mono (Nat.le_succ n)

theorem L_E {G : K⟦X⟧} (h : constantCoeff G = 0) : L (E G) = G := by
  have h1 := constantCoeff_E h
  refine eq_of_deriv (by rw [constantCoeff_L h1, h]) ?_
  rw [deriv_L h1, deriv_E h]
  have hi := PowerSeries.mul_inv_cancel (E G) (by rw [h1]; exact one_ne_zero)
  linear_combination (d⁄dX K G) * hi

theorem L_one : L (1 : K⟦X⟧) = 0 := by rw [← E_zero, L_E (by simp)]

theorem L_mul {F G : K⟦X⟧} (hF : constantCoeff F = 1) (hG : constantCoeff G = 1) :
    L (F * G) = L F + L G := by
  have h := E_add (constantCoeff_L hF) (constantCoeff_L hG)
  rw [E_L hF, E_L hG] at h
  rw [← h, L_E (by rw [map_add, constantCoeff_L hF, constantCoeff_L hG, add_zero])]

theorem E_nsmul {F : K⟦X⟧} (hF : constantCoeff F = 0) (n : ℕ) : E ((n : K⟦X⟧) * F) = E F ^ n := by
  induction n with
  | zero => simp [E_zero]
  | succ n ih =>
    have h : ((n + 1 : ℕ) : K⟦X⟧) * F = (n : K⟦X⟧) * F + F := by push_cast; ring
    rw [h, E_add (by simp [hF]) hF, ih, pow_succ]

theorem E_agree {n : ℕ} {F G : K⟦X⟧} (hF : constantCoeff F = 0) (hG : constantCoeff G = 0)
    (h : Agree n F G) : Agree n (E F) (E G) := by
  rcases n with _ | n
  · exact Agree.zero _ _
  refine agree_E_of_ode hG (constantCoeff_E hF) ?_
  rw [deriv_E hF, mul_comm]
  exact h.derivative.mul Agree.rfl'

theorem L_agree {n : ℕ} {F G : K⟦X⟧} (hF : constantCoeff F = 1) (hG : constantCoeff G = 1)
    (h : Agree n F G) : Agree n (L F) (L G) := by
  rcases n with _ | n
  · exact Agree.zero _ _
  refine Agree.of_derivative (by rw [constantCoeff_L hF, constantCoeff_L hG]) ?_
  rw [deriv_L hF, deriv_L hG]
  exact h.derivative.mul ((h.mono (Nat.le_succ n)).inv (by rw [hF]; exact one_ne_zero)
    (by rw [hG]; exact one_ne_zero))

/-- `exp(d) = 1 + d + O(d^2)`. -/
theorem E_eq_one_add {D : K⟦X⟧} (h : constantCoeff D = 0) :
    ∃ R : K⟦X⟧, E D = 1 + D + D ^ 2 * R := by
  obtain ⟨r, hr⟩ : ∃ r : K⟦X⟧, PowerSeries.exp K = 1 + X + X ^ 2 * r := by
    refine ⟨mk fun i => coeff (i + 2) (PowerSeries.exp K), ?_⟩
    ext i
    rcases i with _ | _ | i
    · simp [coeff_X_pow_mul', coeff_exp]
    · simp [coeff_X_pow_mul', coeff_exp, coeff_one, coeff_X]
    · rw [map_add, map_add, add_assoc i 1 1, coeff_X_pow_mul, coeff_mk]
      simp [coeff_one, coeff_X]
  have hs := hasSubst_of h
  refine ⟨r.subst D, ?_⟩
  rw [E, hr, subst_add hs, subst_add hs, subst_mul hs, subst_pow hs, subst_X hs]
  have e1 : (1 : K⟦X⟧).subst D = (1 : K⟦X⟧) := by rw [← coe_substAlgHom hs, map_one]
  rw [e1]

theorem E_sub_one_agree {n : ℕ} {D : K⟦X⟧} (hn : 0 < n) (h : Agree n D 0) :
    Agree (2 * n) (E D) (1 + D) := by
  have h0 : constantCoeff D = 0 := by simpa using h.constantCoeff_eq hn
  obtain ⟨R, hR⟩ := E_eq_one_add h0
  have h2 : Agree (2 * n) (D ^ 2 * R) 0 := by
    have := (h.mul_zeros h).mul_zero_left R
    rwa [← two_mul, ← pow_two] at this
  rw [hR]
  simpa using (Agree.rfl' (F := 1 + D)).add h2

end Mandelbrot
