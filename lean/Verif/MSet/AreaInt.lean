import Verif.MSet.Parseval
import Mathlib.Analysis.Complex.TaylorSeries
import Mathlib.MeasureTheory.Function.Jacobian
import Mathlib.Analysis.SpecialFunctions.PolarCoord
import Mathlib.RingTheory.Complex
import Mathlib.RingTheory.Norm.Transitivity
import Mathlib.Analysis.Calculus.FDeriv.Measurable
import Mathlib.Analysis.Calculus.IteratedDeriv.Lemmas

/-!
# The area of the image of a ring
-/

namespace Mandelbrot

namespace MSet

open MeasureTheory Set Real Metric

/-- The Taylor coefficients at 0. -/
noncomputable def tay (h : ℂ → ℂ) (i : ℕ) : ℂ := (i.factorial : ℂ)⁻¹ * iteratedDeriv i h 0

variable {h : ℂ → ℂ}

theorem tay_hasSum (hd : DifferentiableOn ℂ h (ball 0 1)) {u : ℂ} (hu : ‖u‖ < 1) :
    HasSum (fun i => tay h i * u ^ i) (h u) := by
  have := Complex.hasSum_taylorSeries_on_ball hd (mem_ball_zero_iff.mpr hu)
  simp only [sub_zero, smul_eq_mul] at this
  have he : (fun i => tay h i * u ^ i) = fun i : ℕ => (i.factorial : ℂ)⁻¹ * (u ^ i * iteratedDeriv i h 0) := by
    funext i
    rw [tay]
    ring
  rw [he]
  exact this

theorem tay_deriv_hasSum (hd : DifferentiableOn ℂ h (ball 0 1)) {u : ℂ} (hu : ‖u‖ < 1) :
    HasSum (fun i : ℕ => (i : ℂ) * tay h i * u ^ i) (u * deriv h u) := by
  have h1 := (tay_hasSum (hd.deriv isOpen_ball) hu).mul_left u
  rw [← hasSum_nat_add_iff' 1]
  simp only [Finset.range_one, Finset.sum_singleton, Nat.cast_zero, zero_mul, sub_zero]
  have he : (fun i : ℕ => ((i + 1 : ℕ) : ℂ) * tay h (i + 1) * u ^ (i + 1)) = fun i => u * (tay (deriv h) i * u ^ i) := by
    funext i
    rw [tay, tay, iteratedDeriv_succ', Nat.factorial_succ]
    have : (i.factorial : ℂ) ≠ 0 := Nat.cast_ne_zero.mpr (Nat.factorial_ne_zero i)
    have : ((i : ℂ) + 1) ≠ 0 := by exact_mod_cast Nat.succ_ne_zero i
    push_cast
    field_simp
    ring
  rw [he]
  exact h1

/-- The series of `u h'(u) - h(u)`. -/
theorem tay_D_hasSum (hd : DifferentiableOn ℂ h (ball 0 1)) {u : ℂ} (hu : ‖u‖ < 1) :
    HasSum (fun i : ℕ => ((i : ℂ) - 1) * tay h i * u ^ i) (u * deriv h u - h u) := by
  have h1 := (tay_deriv_hasSum hd hu).sub (tay_hasSum hd hu)
  have he : (fun i : ℕ => ((i : ℂ) - 1) * tay h i * u ^ i) =
      fun i : ℕ => (i : ℂ) * tay h i * u ^ i - tay h i * u ^ i := by
    funext i
    ring
  rw [he]
  exact h1

theorem ext_hasDerivAt (hd : DifferentiableOn ℂ h (ball 0 1)) {u : ℂ} (hu : ‖u‖ < 1) (h0 : u ≠ 0) :
    HasDerivAt (fun u => h u / u) ((u * deriv h u - h u) / u ^ 2) u := by
  have h1 : HasDerivAt h (deriv h u) u :=
    (hd.differentiableAt (isOpen_ball.mem_nhds (mem_ball_zero_iff.mpr hu))).hasDerivAt
  have h2 := h1.div (hasDerivAt_id u) h0
  have h3 : (u * deriv h u - h u) / u ^ 2 = (deriv h u * id u - h u * 1) / id u ^ 2 := by
    rw [mul_one, id, mul_comm]
  rw [h3]
  exact h2

theorem det_mul (a : ℂ) :
    ((ContinuousLinearMap.toSpanSingleton ℂ a).restrictScalars ℝ).det = ‖a‖ ^ 2 := by
  have h1 : (((ContinuousLinearMap.toSpanSingleton ℂ a).restrictScalars ℝ : ℂ →L[ℝ] ℂ) : ℂ →ₗ[ℝ] ℂ) =
      Algebra.lmul ℝ ℂ a := by
    ext
    simp [mul_comm]
  rw [ContinuousLinearMap.det, h1, ← Complex.normSq_eq_norm_sq, ← Algebra.norm_complex_apply, Algebra.norm_apply]

/-- The area of the image of the ring `δ < |u| < 1` as an integral. -/
theorem area_lintegral (hd : DifferentiableOn ℂ h (ball 0 1)) {δ : ℝ} (hδ : 0 < δ)
    (hinj : InjOn (fun u => h u / u) {u | δ < ‖u‖ ∧ ‖u‖ < 1}) :
    volume ((fun u => h u / u) '' {u | δ < ‖u‖ ∧ ‖u‖ < 1}) =
      ∫⁻ u in {u | δ < ‖u‖ ∧ ‖u‖ < 1}, ENNReal.ofReal (‖deriv (fun u => h u / u) u‖ ^ 2) := by
  have hm : MeasurableSet {u : ℂ | δ < ‖u‖ ∧ ‖u‖ < 1} :=
    ((isOpen_lt continuous_const continuous_norm).inter (isOpen_lt continuous_norm continuous_const)).measurableSet
  rw [← lintegral_abs_det_fderiv_eq_addHaar_image volume hm
    (f' := fun u => (ContinuousLinearMap.toSpanSingleton ℂ (deriv (fun u => h u / u) u)).restrictScalars ℝ) ?_ hinj]
  · simp_rw [det_mul]
    refine lintegral_congr fun u => ?_
    rw [abs_of_nonneg (by positivity)]
  · intro u hu
    have h1 := ext_hasDerivAt hd hu.2 (norm_pos_iff.mp (hδ.trans hu.1))
    rw [← h1.deriv] at h1
    exact (h1.hasFDerivAt.restrictScalars ℝ).hasFDerivWithinAt

/-- The integral over a circle. -/
theorem circle_integral (hd : DifferentiableOn ℂ h (ball 0 1)) {ρ : ℝ} (hρ : 0 < ρ) (hρ1 : ρ < 1) :
    ∫⁻ θ in Ioo (-π) π, ENNReal.ofReal (‖deriv (fun u => h u / u) (Complex.polarCoord.symm (ρ, θ))‖ ^ 2) =
      ∑' i : ℕ, ENNReal.ofReal (2 * π * (((i : ℝ) - 1) ^ 2 * ‖tay h i‖ ^ 2 * ρ ^ (2 * (i : ℤ) - 4))) := by
  have hsym : ∀ θ : ℝ, Complex.polarCoord.symm (ρ, θ) = ρ * Complex.exp (θ * Complex.I) := by
    intro θ
    rw [Complex.polarCoord_symm_apply, Complex.exp_mul_I]
    simp
  have hn : ∀ θ : ℝ, ‖(ρ * Complex.exp (θ * Complex.I) : ℂ)‖ = ρ := by
    intro θ
    rw [norm_mul, Complex.norm_exp_ofReal_mul_I, Complex.norm_real, mul_one, Real.norm_of_nonneg hρ.le]
  set c : ℕ → ℂ := fun i => ((i : ℂ) - 1) * tay h i * ρ ^ i * (ρ : ℂ)⁻¹ ^ 2 with hc
  have hterm : ∀ i (θ : ℝ), c i * e i θ =
      ((i : ℂ) - 1) * tay h i * (ρ * Complex.exp (θ * Complex.I)) ^ i * (ρ : ℂ)⁻¹ ^ 2 := by
    intro i θ
    rw [hc, e, mul_pow, ← Complex.exp_nat_mul]
    ring_nf
  have hsum : ∀ θ : ℝ, HasSum (fun i => c i * e i θ)
      (((ρ * Complex.exp (θ * Complex.I)) * deriv h (ρ * Complex.exp (θ * Complex.I)) -
        h (ρ * Complex.exp (θ * Complex.I))) * (ρ : ℂ)⁻¹ ^ 2) := by
    intro θ
    simp_rw [hterm]
    exact (tay_D_hasSum hd (by rw [hn θ]; exact hρ1)).mul_right _
  have hcs : Summable fun i => ‖c i‖ := by
    have := (hsum 0).summable.norm
    simpa only [norm_mul, e_norm, mul_one] using this
  have hval : ∀ θ : ℝ, ‖deriv (fun u => h u / u) (Complex.polarCoord.symm (ρ, θ))‖ = ‖∑' i, c i * e i θ‖ := by
    intro θ
    have h0 : (ρ * Complex.exp (θ * Complex.I) : ℂ) ≠ 0 := by
      rw [← norm_pos_iff, hn]
      exact hρ
    rw [hsym, (ext_hasDerivAt hd (by rw [hn]; exact hρ1) h0).deriv, (hsum θ).tsum_eq, norm_div, norm_pow, hn, norm_mul,
      norm_pow, norm_inv, Complex.norm_real, Real.norm_of_nonneg hρ.le, inv_pow, div_eq_mul_inv]
  simp_rw [hval]
  rw [parseval_lintegral hcs]
  refine tsum_congr fun i => ?_
  congr 2
  rw [hc]
  simp only [norm_mul, norm_pow, norm_inv, Complex.norm_real, Real.norm_of_nonneg hρ.le]
  have h1 : ‖(i : ℂ) - 1‖ ^ 2 = ((i : ℝ) - 1) ^ 2 := by
    have : (i : ℂ) - 1 = (((i : ℝ) - 1 : ℝ) : ℂ) := by push_cast; ring
    rw [this, Complex.norm_real, Real.norm_eq_abs, sq_abs]
  have h2 : ρ ^ (2 * (i : ℤ) - 4) = (ρ ^ i * ρ⁻¹ ^ 2) ^ 2 := by
    rw [zpow_sub₀ hρ.ne', mul_pow, ← pow_mul, ← pow_mul, inv_pow, div_eq_mul_inv, mul_comm 2 (i : ℤ), zpow_mul]
    norm_cast
    rw [← pow_mul]
  rw [mul_assoc (‖(i : ℂ) - 1‖ * ‖tay h i‖), mul_pow, mul_pow, h1, h2]

theorem radial (i : ℕ) {δ : ℝ} (hδ : 0 < δ) (hδ1 : δ < 1) (K : ℝ) (hK : 0 ≤ K) :
    ∫⁻ ρ in Ioo δ 1, ENNReal.ofReal ρ * ENNReal.ofReal (2 * π * (((i : ℝ) - 1) ^ 2 * K * ρ ^ (2 * (i : ℤ) - 4))) =
      ENNReal.ofReal (π * (((i : ℝ) - 1) * K * (1 - δ ^ (2 * (i : ℤ) - 2)))) := by
  have h1 : ∀ ρ ∈ Ioo δ 1,
      ENNReal.ofReal ρ * ENNReal.ofReal (2 * π * (((i : ℝ) - 1) ^ 2 * K * ρ ^ (2 * (i : ℤ) - 4))) =
      ENNReal.ofReal (2 * π * ((i : ℝ) - 1) ^ 2 * K * ρ ^ (2 * (i : ℤ) - 3)) := by
    intro ρ hρ
    have hρ0 : 0 < ρ := hδ.trans hρ.1
    rw [← ENNReal.ofReal_mul hρ0.le]
    congr 1
    have : (2 * (i : ℤ) - 3) = 2 * (i : ℤ) - 4 + 1 := by ring
    rw [this, zpow_add₀ hρ0.ne', zpow_one]
    ring
  rw [setLIntegral_congr_fun measurableSet_Ioo h1]
  have hpi := pi_pos
  have hcont : ContinuousOn (fun ρ : ℝ => 2 * π * ((i : ℝ) - 1) ^ 2 * K * ρ ^ (2 * (i : ℤ) - 3)) (Icc δ 1) := by
    refine continuousOn_const.mul (continuousOn_id.zpow₀ _ fun ρ hρ => Or.inl ?_)
    have := hδ.trans_le hρ.1
    exact this.ne'
  rw [← ofReal_integral_eq_lintegral_ofReal]
  · congr 1
    rw [← integral_Ioc_eq_integral_Ioo, ← intervalIntegral.integral_of_le hδ1.le, intervalIntegral.integral_const_mul]
    rcases eq_or_ne i 1 with rfl | hi
    · simp
    · have hi' : (i : ℝ) - 1 ≠ 0 := by
        rw [sub_ne_zero]
        exact_mod_cast hi
      rw [integral_zpow]
      · have e2 : (2 * (i : ℤ) - 3 + 1) = 2 * (i : ℤ) - 2 := by ring
        rw [e2, one_zpow]
        push_cast
        have : (2 * (i : ℝ) - 3 + 1) = 2 * ((i : ℝ) - 1) := by ring
        rw [this]
        field_simp
      · right
        refine ⟨by omega, ?_⟩
        rw [uIcc_of_le hδ1.le]
        intro hmem
        exact absurd hmem.1 (not_le.mpr hδ)
  · exact (hcont.integrableOn_Icc).mono_set Ioo_subset_Icc_self
  · refine (ae_restrict_iff' measurableSet_Ioo).mpr (Filter.Eventually.of_forall fun ρ hρ => ?_)
    have hρ0 : 0 < ρ := hδ.trans hρ.1
    simp only [Pi.zero_apply]
    positivity

/-- The area of the image of the ring `δ < |u| < 1` as a series. -/
theorem area_ring (hd : DifferentiableOn ℂ h (ball 0 1)) {δ : ℝ} (hδ : 0 < δ) (hδ1 : δ < 1)
    (hinj : InjOn (fun u => h u / u) {u | δ < ‖u‖ ∧ ‖u‖ < 1}) :
    volume ((fun u => h u / u) '' {u | δ < ‖u‖ ∧ ‖u‖ < 1}) =
      ∑' i : ℕ, ENNReal.ofReal (π * (((i : ℝ) - 1) * ‖tay h i‖ ^ 2 * (1 - δ ^ (2 * (i : ℤ) - 2)))) := by
  rw [area_lintegral hd hδ hinj]
  have hm : MeasurableSet {u : ℂ | δ < ‖u‖ ∧ ‖u‖ < 1} :=
    ((isOpen_lt continuous_const continuous_norm).inter (isOpen_lt continuous_norm continuous_const)).measurableSet
  set g : ℂ → ENNReal := fun u => ENNReal.ofReal (‖deriv (fun u => h u / u) u‖ ^ 2) with hg
  have hgm : Measurable g := ((measurable_deriv _).norm.pow_const 2).ennreal_ofReal
  rw [← lintegral_indicator hm, ← Complex.lintegral_comp_polarCoord_symm]
  have ht : polarCoord.target = Ioi (0 : ℝ) ×ˢ Ioo (-π) π := rfl
  have hsymm : Measurable fun p : ℝ × ℝ => Complex.polarCoord.symm p := by
    have : (fun p : ℝ × ℝ => Complex.polarCoord.symm p) =
        fun p : ℝ × ℝ => (p.1 : ℂ) * (Real.cos p.2 + Real.sin p.2 * Complex.I) := by
      funext p
      exact Complex.polarCoord_symm_apply p
    rw [this]
    fun_prop
  rw [ht, Measure.volume_eq_prod, ← Measure.prod_restrict, lintegral_prod _ (by
    refine Measurable.aemeasurable ?_
    exact (measurable_fst.ennreal_ofReal).mul ((hgm.indicator hm).comp hsymm))]
  have h1 : ∀ ρ ∈ Ioi (0 : ℝ), ∫⁻ θ in Ioo (-π) π, ENNReal.ofReal (ρ, θ).1 •
      indicator {u : ℂ | δ < ‖u‖ ∧ ‖u‖ < 1} g (Complex.polarCoord.symm (ρ, θ)) =
      indicator (Ioo δ 1) (fun ρ => ∑' i : ℕ, ENNReal.ofReal ρ *
        ENNReal.ofReal (2 * π * (((i : ℝ) - 1) ^ 2 * ‖tay h i‖ ^ 2 * ρ ^ (2 * (i : ℤ) - 4)))) ρ := by
    intro ρ hρ
    have hρ0 : 0 < ρ := hρ
    have hmem : ∀ θ : ℝ, Complex.polarCoord.symm (ρ, θ) ∈ {u : ℂ | δ < ‖u‖ ∧ ‖u‖ < 1} ↔ ρ ∈ Ioo δ 1 := by
      intro θ
      simp only [Set.mem_ofPred_eq, Complex.norm_polarCoord_symm, abs_of_pos hρ0, mem_Ioo]
    by_cases hmem' : ρ ∈ Ioo δ 1
    · rw [indicator_of_mem hmem', ENNReal.tsum_mul_left, ← circle_integral hd hρ0 hmem'.2]
      simp only [smul_eq_mul]
      have hmm : Measurable fun θ : ℝ => indicator {u : ℂ | δ < ‖u‖ ∧ ‖u‖ < 1} g (Complex.polarCoord.symm (ρ, θ)) :=
        (hgm.indicator hm).comp (hsymm.comp (measurable_const.prodMk measurable_id))
      rw [lintegral_const_mul _ hmm]
      congr 1
      refine lintegral_congr fun θ => ?_
      rw [indicator_of_mem ((hmem θ).mpr hmem')]
    · rw [indicator_of_notMem hmem']
      simp only [smul_eq_mul]
      have : ∀ θ : ℝ, indicator {u : ℂ | δ < ‖u‖ ∧ ‖u‖ < 1} g (Complex.polarCoord.symm (ρ, θ)) = 0 := fun θ =>
        indicator_of_notMem (fun hh => hmem' ((hmem θ).mp hh)) _
      simp only [this, mul_zero, lintegral_zero]
  rw [setLIntegral_congr_fun measurableSet_Ioi h1, lintegral_indicator measurableSet_Ioo,
    Measure.restrict_restrict measurableSet_Ioo]
  have h2 : Ioo δ 1 ∩ Ioi (0 : ℝ) = Ioo δ 1 := inter_eq_left.mpr fun ρ hρ => hδ.trans hρ.1
  rw [h2, lintegral_tsum fun i => by
    refine Measurable.aemeasurable (measurable_id.ennreal_ofReal.mul (Measurable.ennreal_ofReal ?_))
    exact measurable_const.mul (measurable_const.mul (measurable_id.pow_const _))]
  exact tsum_congr fun i => radial i hδ hδ1 _ (by positivity)

end MSet

end Mandelbrot
