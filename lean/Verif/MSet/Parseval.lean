import Mathlib.Analysis.SpecialFunctions.Integrals.Basic
import Mathlib.MeasureTheory.Integral.DominatedConvergence
import Mathlib.Topology.Algebra.InfiniteSum.Basic
import Mathlib.Analysis.Normed.Group.FunctionSeries

/-!
# Parseval's identity on circles
-/

namespace Mandelbrot

namespace MSet

open MeasureTheory Set Real

/-- The functions `e^(i n θ)`. -/
noncomputable def e (n : ℕ) (θ : ℝ) : ℂ := Complex.exp (n * θ * Complex.I)

theorem e_norm (n : ℕ) (θ : ℝ) : ‖e n θ‖ = 1 := by
  have : (n * θ * Complex.I : ℂ) = ((n * θ : ℝ) : ℂ) * Complex.I := by push_cast; ring
  rw [e, this, Complex.norm_exp_ofReal_mul_I]

theorem e_continuous (n : ℕ) : Continuous (e n) := by
  unfold e
  fun_prop

theorem e_conj (n : ℕ) (θ : ℝ) : (starRingEnd ℂ) (e n θ) = Complex.exp (-(n * θ * Complex.I)) := by
  rw [e, ← Complex.exp_conj]
  simp

/-- The functions are orthogonal. -/
theorem e_orthogonal (n m : ℕ) :
    ∫ θ in Ioo (-π) π, e n θ * (starRingEnd ℂ) (e m θ) = if n = m then (2 * π : ℂ) else 0 := by
  have hle : -π ≤ π := by linarith [pi_pos]
  rw [← integral_Ioc_eq_integral_Ioo, ← intervalIntegral.integral_of_le hle]
  split_ifs with h
  · subst h
    have h1 : ∀ θ, e n θ * (starRingEnd ℂ) (e n θ) = 1 := by
      intro θ
      rw [Complex.mul_conj, Complex.normSq_eq_norm_sq, e_norm]
      simp
    simp_rw [h1]
    rw [intervalIntegral.integral_const]
    simp
    ring
  · set k : ℂ := (n - m) * Complex.I with hk
    have hk0 : k ≠ 0 := by
      refine mul_ne_zero (sub_ne_zero.mpr ?_) Complex.I_ne_zero
      exact_mod_cast h
    have h1 : ∀ θ : ℝ, e n θ * (starRingEnd ℂ) (e m θ) = Complex.exp (k * θ) := by
      intro θ
      rw [e_conj, e, ← Complex.exp_add, hk]
      congr 1
      ring
    simp_rw [h1]
    rw [integral_exp_mul_complex hk0]
    have h2 : Complex.exp (k * (π : ℝ)) = Complex.exp (k * ((-π : ℝ) : ℂ)) := by
      rw [Complex.exp_eq_exp_iff_exists_int]
      refine ⟨(n : ℤ) - m, ?_⟩
      rw [hk]
      push_cast
      ring
    rw [h2, sub_self, zero_div]

instance : IsFiniteMeasure (volume.restrict (Ioo (-π) π)) := inferInstance

theorem integrable_bdd {f : ℝ → ℂ} (hf : Continuous f) : Integrable f (volume.restrict (Ioo (-π) π)) :=
  (hf.integrableOn_Icc).mono_set Ioo_subset_Icc_self

theorem vol_real : (volume.restrict (Ioo (-π) π)).real univ = 2 * π := by
  rw [measureReal_restrict_apply_univ, Real.volume_real_Ioo_of_le (by linarith [pi_pos])]
  ring

variable {c : ℕ → ℂ}

theorem fterm_norm (i : ℕ) (θ : ℝ) : ‖c i * e i θ‖ = ‖c i‖ := by rw [norm_mul, e_norm, mul_one]

theorem fterm_summable (hc : Summable fun i => ‖c i‖) (θ : ℝ) : Summable fun i => c i * e i θ :=
  Summable.of_norm (by simpa only [fterm_norm] using hc)

theorem sum_continuous (hc : Summable fun i => ‖c i‖) : Continuous fun θ => ∑' i, c i * e i θ :=
  continuous_tsum (fun i => continuous_const.mul (e_continuous i)) hc fun i θ => (fterm_norm i θ).le

theorem sum_norm_le (hc : Summable fun i => ‖c i‖) (θ : ℝ) : ‖∑' i, c i * e i θ‖ ≤ ∑' i, ‖c i‖ := by
  refine (norm_tsum_le_tsum_norm (by simpa only [fterm_norm] using hc)).trans (le_of_eq ?_)
  simp only [fterm_norm]

/-- The Fourier coefficients of an absolutely convergent series. -/
theorem coefficient (hc : Summable fun i => ‖c i‖) (j : ℕ) :
    ∫ θ in Ioo (-π) π, (∑' i, c i * e i θ) * (starRingEnd ℂ) (e j θ) = 2 * π * c j := by
  have hcont : Continuous fun θ => (starRingEnd ℂ) (e j θ) := Complex.continuous_conj.comp (e_continuous j)
  have key := hasSum_integral_of_summable_integral_norm (μ := volume.restrict (Ioo (-π) π))
    (F := fun i θ => c i * e i θ * (starRingEnd ℂ) (e j θ))
    (fun i => integrable_bdd ((continuous_const.mul (e_continuous i)).mul hcont)) (by
      have : ∀ i, ∫ θ in Ioo (-π) π, ‖c i * e i θ * (starRingEnd ℂ) (e j θ)‖ = 2 * π * ‖c i‖ := by
        intro i
        have : ∀ θ, ‖c i * e i θ * (starRingEnd ℂ) (e j θ)‖ = ‖c i‖ := by
          intro θ
          rw [norm_mul, fterm_norm, Complex.norm_conj, e_norm, mul_one]
        simp_rw [this]
        rw [integral_const, vol_real, smul_eq_mul]
      simp_rw [this]
      exact hc.mul_left _)
  have h1 : ∀ i, ∫ θ in Ioo (-π) π, c i * e i θ * (starRingEnd ℂ) (e j θ) = if i = j then 2 * π * c j else 0 := by
    intro i
    have : ∀ θ, c i * e i θ * (starRingEnd ℂ) (e j θ) = c i * (e i θ * (starRingEnd ℂ) (e j θ)) := fun θ => by ring
    simp_rw [this]
    rw [integral_const_mul, e_orthogonal]
    split_ifs with h
    · rw [h]
      ring
    · ring
  simp_rw [h1] at key
  have h2 := hasSum_ite_eq j (2 * π * c j : ℂ)
  rw [← key.unique h2]
  refine integral_congr_ae (Filter.Eventually.of_forall fun θ => ?_)
  exact tsum_mul_right.symm

/-- Parseval's identity. -/
theorem parseval (hc : Summable fun i => ‖c i‖) :
    HasSum (fun j => 2 * π * ‖c j‖ ^ 2) (∫ θ in Ioo (-π) π, ‖∑' i, c i * e i θ‖ ^ 2) := by
  set D : ℝ → ℂ := fun θ => ∑' i, c i * e i θ with hD
  have hDc : Continuous D := sum_continuous hc
  have key := hasSum_integral_of_summable_integral_norm (μ := volume.restrict (Ioo (-π) π))
    (F := fun j θ => D θ * (starRingEnd ℂ) (c j * e j θ))
    (fun j => integrable_bdd (hDc.mul (Complex.continuous_conj.comp (continuous_const.mul (e_continuous j))))) (by
      refine Summable.of_nonneg_of_le (fun j => integral_nonneg fun θ => norm_nonneg _) (fun j => ?_)
        (hc.mul_left (2 * π * ∑' i, ‖c i‖))
      calc ∫ θ in Ioo (-π) π, ‖D θ * (starRingEnd ℂ) (c j * e j θ)‖
          ≤ ∫ θ in Ioo (-π) π, (∑' i, ‖c i‖) * ‖c j‖ := by
            refine integral_mono ?_ (integrable_const _) fun θ => ?_
            · exact (integrable_bdd (hDc.mul
                (Complex.continuous_conj.comp (continuous_const.mul (e_continuous j))))).norm
            · simp only [norm_mul, Complex.norm_conj, e_norm, mul_one]
              exact mul_le_mul_of_nonneg_right (sum_norm_le hc θ) (norm_nonneg _)
        _ = 2 * π * (∑' i, ‖c i‖) * ‖c j‖ := by
            rw [integral_const, vol_real, smul_eq_mul]
            ring)
  have h1 : ∀ j, ∫ θ in Ioo (-π) π, D θ * (starRingEnd ℂ) (c j * e j θ) = ((2 * π * ‖c j‖ ^ 2 : ℝ) : ℂ) := by
    intro j
    have : ∀ θ, D θ * (starRingEnd ℂ) (c j * e j θ) = (starRingEnd ℂ) (c j) * (D θ * (starRingEnd ℂ) (e j θ)) := by
      intro θ
      rw [map_mul]
      ring
    simp_rw [this]
    rw [integral_const_mul, hD, coefficient hc]
    have := Complex.mul_conj (c j)
    rw [Complex.normSq_eq_norm_sq] at this
    push_cast at this ⊢
    linear_combination (2 * π) * this
  simp_rw [h1] at key
  have h2 : ∫ θ in Ioo (-π) π, ∑' j, D θ * (starRingEnd ℂ) (c j * e j θ) =
      ((∫ θ in Ioo (-π) π, ‖D θ‖ ^ 2 : ℝ) : ℂ) := by
    rw [← integral_complex_ofReal]
    refine integral_congr_ae (Filter.Eventually.of_forall fun θ => ?_)
    simp only
    rw [tsum_mul_left, ← Complex.conj_tsum, Complex.mul_conj, Complex.normSq_eq_norm_sq]
  rw [h2] at key
  exact_mod_cast key

theorem parseval_lintegral (hc : Summable fun i => ‖c i‖) :
    ∫⁻ θ in Ioo (-π) π, ENNReal.ofReal (‖∑' i, c i * e i θ‖ ^ 2) = ∑' i, ENNReal.ofReal (2 * π * ‖c i‖ ^ 2) := by
  have h := parseval hc
  have hint : Integrable (fun θ => ‖∑' i, c i * e i θ‖ ^ 2) (volume.restrict (Ioo (-π) π)) :=
    (((sum_continuous hc).norm.pow 2).integrableOn_Icc).mono_set Ioo_subset_Icc_self
  rw [← ofReal_integral_eq_lintegral_ofReal hint (Filter.Eventually.of_forall fun θ => by positivity), ← h.tsum_eq]
  exact ENNReal.ofReal_tsum_of_nonneg (fun i => by have := pi_pos; positivity) h.summable

end MSet

end Mandelbrot
