import Verif.Spec.Series
import Verif.Series.NewtonFns

/-!
# From power series identities to the plain specification
-/

namespace Mandelbrot

open PowerSeries Finset

variable {K : Type} [Field K]

theorem Ser.coeff_ps_at (x : Ser K) (i : ℕ) : coeff i x.ps = x.at i := coeff_ps x i

/-- The sequence of coefficients. -/
noncomputable def seqOf (F : K⟦X⟧) (i : ℕ) : K := coeff i F

theorem Ser.seqOf_ps (x : Ser K) : seqOf x.ps = x.at := funext x.coeff_ps_at

theorem coeff_mul_seq (F G : K⟦X⟧) (k : ℕ) : coeff k (F * G) = Spec.prod (seqOf F) (seqOf G) k := by
  rw [coeff_mul]; rfl

theorem seqOf_one : seqOf (1 : K⟦X⟧) = Spec.one := by
  ext k; simp [seqOf, Spec.one, coeff_one]

theorem seqOf_shift (s : ℕ) (F : K⟦X⟧) : seqOf (X ^ s * F) = Spec.shift s (seqOf F) := by
  ext k
  simp only [seqOf, Spec.shift, coeff_X_pow_mul']
  by_cases h : k < s
  · rw [if_neg (by omega), if_pos h]
  · rw [if_pos (by omega), if_neg h]

theorem seqOf_add (F G : K⟦X⟧) (k : ℕ) : seqOf (F + G) k = seqOf F k + seqOf G k := by
  simp [seqOf]

theorem seqOf_onePlus (s : ℕ) (F : K⟦X⟧) : seqOf (1 + X ^ s * F) = Spec.onePlus s (seqOf F) := by
  ext k
  rw [seqOf_add, seqOf_one, seqOf_shift]; rfl

theorem seqOf_deriv (F : K⟦X⟧) : seqOf (d⁄dX K F) = Spec.deriv (seqOf F) := by
  ext k
  simp only [seqOf, Spec.deriv, coeff_derivative]
  ring

/-- Truncated equality of power series, on sequences. -/
theorem agree_seq {n : ℕ} {F G : K⟦X⟧} : Agree n F G ↔ ∀ k < n, seqOf F k = seqOf G k := Iff.rfl

theorem isExp_of_agree [CharZero K] {n : ℕ} {F Y : K⟦X⟧} (hF : constantCoeff F = 0)
    (h : Agree n Y (E F)) : Spec.IsExp n (seqOf F) (seqOf Y) := by
  refine ⟨fun hn => ?_, fun k hk => ?_⟩
  · have := h 0 hn
    rw [coeff_zero_eq_constantCoeff_apply (E F), constantCoeff_E hF] at this
    exact this
  · obtain ⟨m, rfl⟩ : ∃ m, n = m + 1 := ⟨n - 1, by omega⟩
    rw [← seqOf_deriv, ← seqOf_deriv, ← coeff_mul_seq]
    have h1 := h.derivative
    have h2 : Agree m (d⁄dX K F * Y) (d⁄dX K F * E F) := Agree.rfl'.mul (h.mono (Nat.le_succ m))
    rw [deriv_E hF, mul_comm (E F)] at h1
    exact (h1.trans h2.symm) k (by omega)

theorem agree_of_isExp [CharZero K] {n : ℕ} {F Y : K⟦X⟧} (hF : constantCoeff F = 0)
    (h : Spec.IsExp n (seqOf F) (seqOf Y)) : Agree n Y (E F) := by
  have h1 := isExp_of_agree hF (Agree.rfl' (n := n) (F := E F))
  exact fun k hk => h.unique h1 k hk

theorem isLog_of_agree [CharZero K] {n : ℕ} {F Y : K⟦X⟧} (hF : constantCoeff F = 1)
    (h : Agree n Y (L F)) : Spec.IsLog n (seqOf F) (seqOf Y) := by
  have h0 : 0 < n → seqOf Y 0 = 0 := by
    intro hn
    have := h 0 hn
    rw [coeff_zero_eq_constantCoeff_apply (L F), constantCoeff_L hF] at this
    exact this
  refine ⟨h0, ?_⟩
  rcases Nat.eq_zero_or_pos n with rfl | hn
  · exact ⟨fun h => absurd h (by omega), fun k hk => absurd hk (by omega)⟩
  · have hY : constantCoeff Y = 0 := by simpa [seqOf] using h0 hn
    refine isExp_of_agree hY ?_
    have := E_agree hY (constantCoeff_L hF) h
    rw [E_L hF] at this
    exact this.symm

/-- Only the known terms matter. -/
theorem Spec.IsExp.congr {n : ℕ} {x x' y y' : ℕ → K} (h : Spec.IsExp n x y)
    (hx : ∀ k < n, 0 < k → x k = x' k) (hy : ∀ k < n, y k = y' k) : Spec.IsExp n x' y' := by
  refine ⟨fun hn => by rw [← hy 0 hn]; exact h.1 hn, fun k hk => ?_⟩
  have h1 := h.2 k hk
  simp only [Spec.deriv, Spec.prod] at h1 ⊢
  rw [← hy (k + 1) hk, h1]
  refine sum_congr rfl fun p hp => ?_
  rw [mem_antidiagonal] at hp
  rw [hx (p.1 + 1) (by omega) (by omega), hy p.2 (by omega)]

end Mandelbrot
