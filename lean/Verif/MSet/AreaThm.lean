import Verif.MSet.AreaInt
import Mathlib.MeasureTheory.Measure.Lebesgue.VolumeOfBalls
import Mathlib.Topology.Algebra.InfiniteSum.ENNReal

/-!
# The area theorem of Gronwall
-/

namespace Mandelbrot

namespace MSet

open MeasureTheory Set Real Metric Filter Topology

/-- A normalized conformal map `1/u ↦ h(u)/u` from the outside of the disc to the outside of a set. -/
structure Exterior (h : ℂ → ℂ) (M : Set ℂ) (B : ℝ) : Prop where
  diff : DifferentiableOn ℂ h (ball 0 1)
  one : h 0 = 1
  inj : ∀ u v : ℂ, ‖u‖ < 1 → u ≠ 0 → ‖v‖ < 1 → v ≠ 0 → h u / u = h v / v → u = v
  range : ∀ c, c ∉ M ↔ ∃ u : ℂ, ‖u‖ < 1 ∧ u ≠ 0 ∧ h u / u = c
  bdd : ∀ c ∈ M, ‖c‖ ≤ B
  le : ∀ u : ℂ, ‖u‖ < 1 → ‖h u‖ ≤ B

variable {h : ℂ → ℂ} {M : Set ℂ} {B : ℝ}

theorem Exterior.tay_zero (H : Exterior h M B) : tay h 0 = 1 := by
  rw [tay, iteratedDeriv_zero, H.one]
  simp

/-- The first terms of the exterior map. -/
theorem Exterior.remainder (H : Exterior h M B) :
    ∃ K : ℝ, 0 ≤ K ∧ ∀ u : ℂ, ‖u‖ < 1 → u ≠ 0 → ‖h u / u - (u⁻¹ + tay h 1 + tay h 2 * u)‖ ≤ K * ‖u‖ ^ 2 := by
  have hB : 0 ≤ B := (norm_nonneg _).trans (H.le 0 (by simp))
  have hs : Summable fun i : ℕ => ‖tay h (i + 3)‖ * (1 / 2 : ℝ) ^ (i + 3) := by
    have h1 := (tay_hasSum H.diff (u := 1 / 2) (by norm_num)).summable.norm
    have h2 := (summable_nat_add_iff 3).mpr h1
    refine h2.congr fun i => ?_
    rw [norm_mul, norm_pow]
    norm_num
  set A := ∑' i : ℕ, ‖tay h (i + 3)‖ * (1 / 2 : ℝ) ^ (i + 3) with hA
  have hA0 : 0 ≤ A := tsum_nonneg fun i => by positivity
  set K2 := 2 * B + 2 + ‖tay h 1‖ + ‖tay h 2‖ with hK2
  have hK20 : 0 ≤ K2 := by positivity
  refine ⟨8 * A + 4 * K2, by positivity, fun u hu h0 => ?_⟩
  have hpos : 0 < ‖u‖ := norm_pos_iff.mpr h0
  rcases le_or_gt ‖u‖ (1 / 2) with hle | hgt
  · have h1 := (hasSum_nat_add_iff' 3).mpr (tay_hasSum H.diff hu)
    have h2 : ‖h u - ∑ i ∈ Finset.range 3, tay h i * u ^ i‖ ≤ (8 * ‖u‖ ^ 3) * A := by
      rw [← h1.tsum_eq]
      refine tsum_of_norm_bounded (hs.hasSum.mul_left (8 * ‖u‖ ^ 3)) fun i => ?_
      rw [norm_mul, norm_pow, pow_add, pow_add]
      have : ‖u‖ ^ i ≤ (1 / 2) ^ i := pow_le_pow_left₀ hpos.le hle i
      have h3 := mul_le_mul_of_nonneg_left this (show 0 ≤ ‖tay h (i + 3)‖ * ‖u‖ ^ 3 by positivity)
      linarith
    have h3 : h u / u - (u⁻¹ + tay h 1 + tay h 2 * u) = (h u - ∑ i ∈ Finset.range 3, tay h i * u ^ i) / u := by
      rw [Finset.sum_range_succ, Finset.sum_range_succ, Finset.sum_range_one, H.tay_zero]
      field_simp
    rw [h3, norm_div, div_le_iff₀ hpos]
    refine h2.trans ?_
    have : 0 ≤ 4 * K2 * ‖u‖ ^ 3 := by positivity
    linarith
  · have h1 : ‖h u / u‖ ≤ 2 * B := by
      rw [norm_div, div_le_iff₀ hpos]
      have := H.le u hu
      nlinarith
    have h2 : ‖u⁻¹‖ ≤ 2 := by
      rw [norm_inv, inv_le_comm₀ hpos (by norm_num)]
      linarith
    have h3 : ‖tay h 2 * u‖ ≤ ‖tay h 2‖ := by
      rw [norm_mul]
      exact mul_le_of_le_one_right (norm_nonneg _) hu.le
    have h4 : ‖h u / u - (u⁻¹ + tay h 1 + tay h 2 * u)‖ ≤ K2 := by
      have e1 := norm_sub_le (h u / u) (u⁻¹ + tay h 1 + tay h 2 * u)
      have e2 := norm_add_le (u⁻¹ + tay h 1) (tay h 2 * u)
      have e3 := norm_add_le u⁻¹ (tay h 1)
      linarith
    have h5 : 1 ≤ 4 * ‖u‖ ^ 2 := by nlinarith
    have h6 : K2 * 1 ≤ K2 * (4 * ‖u‖ ^ 2) := mul_le_mul_of_nonneg_left h5 hK20
    have h7 : 0 ≤ 8 * A * ‖u‖ ^ 2 := by positivity
    linarith

/-- The linear map that straightens an ellipse. -/
noncomputable def Tl (b : ℂ) : ℂ →ₗ[ℝ] ℂ := LinearMap.id - (Algebra.lmul ℝ ℂ b) ∘ₗ Complex.conjAe.toLinearMap

theorem Tl_apply (b z : ℂ) : Tl b z = z - b * (starRingEnd ℂ) z := rfl

theorem Tl_det (b : ℂ) : LinearMap.det (Tl b) = 1 - ‖b‖ ^ 2 := by
  rw [← LinearMap.det_toMatrix Complex.basisOneI, Matrix.det_fin_two, ← Complex.normSq_eq_norm_sq, Complex.normSq_apply]
  simp [LinearMap.toMatrix_apply, Tl_apply]
  ring

theorem Tl_le (b z : ℂ) : ‖Tl b z‖ ≤ (1 + ‖b‖) * ‖z‖ := by
  rw [Tl_apply]
  refine (norm_sub_le _ _).trans (le_of_eq ?_)
  rw [norm_mul, Complex.norm_conj]
  ring

/-- The area of an ellipse. -/
theorem ellipse_volume (b a : ℂ) (hb : ‖b‖ < 1) (s : Set ℂ) :
    volume {c | Tl b (c - a) ∈ s} = ENNReal.ofReal (1 / (1 - ‖b‖ ^ 2)) * volume s := by
  have hpos : 0 < 1 - ‖b‖ ^ 2 := by nlinarith [norm_nonneg b]
  have h1 : {c | Tl b (c - a) ∈ s} = (fun c => c + -a) ⁻¹' (Tl b ⁻¹' s) := by
    ext c
    rw [mem_preimage, mem_preimage, ← sub_eq_add_neg]
    rfl
  rw [h1, measure_preimage_add_right, Measure.addHaar_preimage_linearMap volume (by rw [Tl_det]; exact hpos.ne'), Tl_det,
    abs_of_pos (inv_pos.mpr hpos), one_div]

theorem ellipse_closed (b a : ℂ) (hb : ‖b‖ < 1) {ρ : ℝ} (hρ : 0 ≤ ρ) :
    volume {c | ‖Tl b (c - a)‖ ≤ ρ} = ENNReal.ofReal (π * (ρ ^ 2 / (1 - ‖b‖ ^ 2))) := by
  have hpos : 0 < 1 - ‖b‖ ^ 2 := by nlinarith [norm_nonneg b]
  have h1 : {c | ‖Tl b (c - a)‖ ≤ ρ} = {c | Tl b (c - a) ∈ closedBall (0 : ℂ) ρ} := by
    ext c
    simp only [Set.mem_ofPred_eq, mem_closedBall_zero_iff]
  rw [h1, ellipse_volume b a hb, Complex.volume_closedBall, ← ENNReal.ofReal_pow hρ]
  have h2 : (NNReal.pi : ENNReal) = ENNReal.ofReal π := by
    rw [← NNReal.coe_real_pi, ENNReal.ofReal_coe_nnreal]
  rw [h2, ← ENNReal.ofReal_mul (by positivity), ← ENNReal.ofReal_mul (by positivity)]
  congr 1
  ring

theorem ellipse_open (b a : ℂ) (hb : ‖b‖ < 1) {ρ : ℝ} (hρ : 0 ≤ ρ) :
    volume {c | ‖Tl b (c - a)‖ < ρ} = ENNReal.ofReal (π * (ρ ^ 2 / (1 - ‖b‖ ^ 2))) := by
  have hpos : 0 < 1 - ‖b‖ ^ 2 := by nlinarith [norm_nonneg b]
  have h1 : {c | ‖Tl b (c - a)‖ < ρ} = {c | Tl b (c - a) ∈ ball (0 : ℂ) ρ} := by
    ext c
    simp only [Set.mem_ofPred_eq, mem_ball_zero_iff]
  rw [h1, ellipse_volume b a hb, Complex.volume_ball, ← ENNReal.ofReal_pow hρ]
  have h2 : (NNReal.pi : ENNReal) = ENNReal.ofReal π := by
    rw [← NNReal.coe_real_pi, ENNReal.ofReal_coe_nnreal]
  rw [h2, ← ENNReal.ofReal_mul (by positivity), ← ENNReal.ofReal_mul (by positivity)]
  congr 1
  ring

/-- The image of `1/u + b u` under the straightening map. -/
theorem Tl_joukowski (b u : ℂ) (δ : ℝ) (h0 : u ≠ 0) :
    Tl (b * (δ : ℂ) ^ 2) (u⁻¹ + b * u) =
      ((1 - ‖b‖ ^ 2 * δ ^ 2 * ‖u‖ ^ 2 : ℝ) : ℂ) * u⁻¹ + ((1 - δ ^ 2 / ‖u‖ ^ 2 : ℝ) : ℂ) * (b * u) := by
  have h1 : u * (starRingEnd ℂ) u = ((‖u‖ ^ 2 : ℝ) : ℂ) := by
    rw [Complex.mul_conj, Complex.normSq_eq_norm_sq]
  have h2 : b * (starRingEnd ℂ) b = ((‖b‖ ^ 2 : ℝ) : ℂ) := by
    rw [Complex.mul_conj, Complex.normSq_eq_norm_sq]
  have hn : ((‖u‖ : ℝ) : ℂ) ≠ 0 := by
    rw [Ne, Complex.ofReal_eq_zero, norm_eq_zero]
    exact h0
  have h3 : (starRingEnd ℂ) u = ((‖u‖ : ℝ) : ℂ) ^ 2 / u := by
    rw [eq_div_iff h0, mul_comm, h1]
    push_cast
    rfl
  rw [Tl_apply, map_add, map_mul, map_inv₀]
  rw [h3]
  push_cast at h2 ⊢
  field_simp
  linear_combination (-(δ : ℂ) ^ 2 * ((‖u‖ : ℝ) : ℂ) ^ 4) * h2

/-- Constants that work for the estimates below. -/
structure Small (b a : ℂ) (K B δ : ℝ) : Prop where
  pos : 0 < δ
  lt : δ < 1
  b : ‖b‖ * δ ≤ 1 / 10
  K : K * δ ≤ 1 / 10
  B : (B + ‖a‖) * δ ≤ 1 / 10

theorem Small.b2 {b a : ℂ} {K B δ : ℝ} (h : Small b a K B δ) : ‖b‖ * δ ^ 2 ≤ 1 / 10 := by
  have := h.b
  have := h.pos
  have := h.lt
  have := norm_nonneg b
  nlinarith

theorem Small.nb {b a : ℂ} {K B δ : ℝ} (_h : Small b a K B δ) : ‖b * (δ : ℂ) ^ 2‖ = ‖b‖ * δ ^ 2 := by
  rw [norm_mul, norm_pow, Complex.norm_real, Real.norm_eq_abs, sq_abs]

/-- The outer radius. -/
theorem upper_est {β K δ τ : ℝ} (_hβ : 0 ≤ β) (hK : 0 ≤ K) (hδ : 0 < δ) (hδ1 : δ < 1) (h1 : β * δ ≤ 1 / 10)
    (h2 : K * δ ≤ 1 / 10) (hτ : δ ≤ τ) (hτ1 : τ < 1) :
    (1 - β ^ 2 * δ ^ 2 * τ ^ 2) * τ⁻¹ + (1 - δ ^ 2 / τ ^ 2) * (β * τ) + (1 + β * δ ^ 2) * (K * τ ^ 2) ≤
      (1 - β ^ 2 * δ ^ 4) / δ + 4 * K * δ ^ 2 := by
  have hτ0 : 0 < τ := hδ.trans_le hτ
  have hb2 : β * δ ^ 2 ≤ 1 / 10 := by nlinarith
  have hbτ : β * τ * δ ≤ 1 / 10 := by nlinarith
  have e1 : (1 - β ^ 2 * δ ^ 2 * τ ^ 2) * τ⁻¹ + (1 - δ ^ 2 / τ ^ 2) * (β * τ) =
      (1 - β ^ 2 * δ ^ 4) / δ - (1 - β * δ ^ 2) * ((τ - δ) * (1 - β * τ * δ)) / (τ * δ) := by
    field_simp
    ring
  have e2 : (1 + β * δ ^ 2) * (K * τ ^ 2) - 4 * K * δ ^ 2 ≤
      (1 - β * δ ^ 2) * ((τ - δ) * (1 - β * τ * δ)) / (τ * δ) := by
    rw [le_div_iff₀ (by positivity)]
    have f1 : (9 / 10) * ((τ - δ) * (9 / 10)) ≤ (1 - β * δ ^ 2) * ((τ - δ) * (1 - β * τ * δ)) := by
      have : 0 ≤ τ - δ := by linarith
      apply mul_le_mul (by linarith) (mul_le_mul_of_nonneg_left (by linarith) this) (by positivity) (by linarith)
    have f2 : (1 + β * δ ^ 2) * (K * τ ^ 2) ≤ 11 / 10 * (K * τ ^ 2) :=
      mul_le_mul_of_nonneg_right (by linarith) (by positivity)
    have f3 : (1 + β * δ ^ 2) * (K * τ ^ 2) - 4 * K * δ ^ 2 ≤ 11 / 5 * (K * ((τ - δ) * τ)) := by
      have g1 : K * δ ^ 2 ≤ K * (τ * δ) := mul_le_mul_of_nonneg_left (by nlinarith) hK
      have g2 : 0 ≤ K * δ ^ 2 := by positivity
      have g3 : 0 ≤ K * (τ - δ) ^ 2 := by positivity
      nlinarith
    have f4 : ((1 + β * δ ^ 2) * (K * τ ^ 2) - 4 * K * δ ^ 2) * (τ * δ) ≤ 11 / 5 * (K * ((τ - δ) * τ)) * (τ * δ) :=
      mul_le_mul_of_nonneg_right f3 (by positivity)
    have f5 : 11 / 5 * (K * ((τ - δ) * τ)) * (τ * δ) = 11 / 5 * (τ - δ) * (K * δ) * τ ^ 2 := by ring
    have f6 : 11 / 5 * (τ - δ) * (K * δ) * τ ^ 2 ≤ 11 / 5 * (τ - δ) * (1 / 10) * 1 := by
      have : 0 ≤ τ - δ := by linarith
      apply mul_le_mul (mul_le_mul_of_nonneg_left h2 (by positivity)) (by nlinarith) (by positivity) (by positivity)
    have : 0 ≤ τ - δ := by linarith
    linarith
  linarith

/-- The inner radius. -/
theorem lower_est {β K δ τ : ℝ} (_hβ : 0 ≤ β) (hK : 0 ≤ K) (hδ : 0 < δ) (hδ1 : δ < 1) (h1 : β * δ ≤ 1 / 10)
    (hτ0 : 0 < τ) (hτ : τ ≤ δ) :
    (1 - β ^ 2 * δ ^ 4) / δ - 4 * K * δ ^ 2 ≤
      (1 - β ^ 2 * δ ^ 2 * τ ^ 2) * τ⁻¹ - (δ ^ 2 / τ ^ 2 - 1) * (β * τ) - (1 + β * δ ^ 2) * (K * τ ^ 2) := by
  have hb2 : β * δ ^ 2 ≤ 1 / 10 := by nlinarith
  have hbτ : β * τ * δ ≤ 1 / 10 := by nlinarith
  have e1 : (1 - β ^ 2 * δ ^ 2 * τ ^ 2) * τ⁻¹ - (δ ^ 2 / τ ^ 2 - 1) * (β * τ) =
      (1 - β ^ 2 * δ ^ 4) / δ + (1 - β * δ ^ 2) * ((δ - τ) * (1 - β * τ * δ)) / (τ * δ) := by
    field_simp
    ring
  have e2 : 0 ≤ (1 - β * δ ^ 2) * ((δ - τ) * (1 - β * τ * δ)) / (τ * δ) := by
    apply div_nonneg (mul_nonneg (by linarith) (mul_nonneg (by linarith) (by linarith))) (by positivity)
  have e3 : (1 + β * δ ^ 2) * (K * τ ^ 2) ≤ 4 * K * δ ^ 2 := by
    have f2 : (1 + β * δ ^ 2) * (K * τ ^ 2) ≤ 11 / 10 * (K * τ ^ 2) :=
      mul_le_mul_of_nonneg_right (by linarith) (by positivity)
    have f3 : K * τ ^ 2 ≤ K * δ ^ 2 := mul_le_mul_of_nonneg_left (by nlinarith) hK
    have f4 : 0 ≤ K * δ ^ 2 := by positivity
    linarith
  linarith

/-- The image of the exterior map under the straightening map. -/
theorem Tl_ext {b a u c : ℂ} {K B δ : ℝ} (hK : 0 ≤ K) (hs : Small b a K B δ) (hu : ‖u‖ < 1) (h0 : u ≠ 0)
    (hc : ‖c - (u⁻¹ + a + b * u)‖ ≤ K * ‖u‖ ^ 2) :
    (δ ≤ ‖u‖ → ‖Tl (b * (δ : ℂ) ^ 2) (c - a)‖ ≤ (1 - ‖b‖ ^ 2 * δ ^ 4) / δ + 4 * K * δ ^ 2) ∧
    (‖u‖ ≤ δ → (1 - ‖b‖ ^ 2 * δ ^ 4) / δ - 4 * K * δ ^ 2 ≤ ‖Tl (b * (δ : ℂ) ^ 2) (c - a)‖) := by
  have hpos : 0 < ‖u‖ := norm_pos_iff.mpr h0
  have hδ := hs.pos
  have hb0 := norm_nonneg b
  have hsplit : c - a = (u⁻¹ + b * u) + (c - (u⁻¹ + a + b * u)) := by ring
  rw [hsplit, map_add]
  have herr : ‖Tl (b * (δ : ℂ) ^ 2) (c - (u⁻¹ + a + b * u))‖ ≤ (1 + ‖b‖ * δ ^ 2) * (K * ‖u‖ ^ 2) := by
    refine (Tl_le _ _).trans ?_
    rw [hs.nb]
    exact mul_le_mul_of_nonneg_left hc (by positivity)
  have hq : 0 ≤ 1 - ‖b‖ ^ 2 * δ ^ 2 * ‖u‖ ^ 2 := by
    have h1 : (‖b‖ * δ) * ‖u‖ ≤ 1 := by
      have := hs.b
      have : (‖b‖ * δ) * ‖u‖ ≤ (1 / 10) * 1 := mul_le_mul this hu.le hpos.le (by norm_num)
      linarith
    have h2 : 0 ≤ (‖b‖ * δ) * ‖u‖ := by positivity
    nlinarith
  have hA : ‖((1 - ‖b‖ ^ 2 * δ ^ 2 * ‖u‖ ^ 2 : ℝ) : ℂ) * u⁻¹‖ = (1 - ‖b‖ ^ 2 * δ ^ 2 * ‖u‖ ^ 2) * ‖u‖⁻¹ := by
    rw [norm_mul, Complex.norm_real, Real.norm_of_nonneg hq, norm_inv]
  rw [Tl_joukowski b u δ h0]
  constructor
  · intro hle
    have hr : 0 ≤ 1 - δ ^ 2 / ‖u‖ ^ 2 := by
      rw [sub_nonneg, div_le_one (by positivity)]
      exact pow_le_pow_left₀ hδ.le hle 2
    have hB : ‖((1 - δ ^ 2 / ‖u‖ ^ 2 : ℝ) : ℂ) * (b * u)‖ = (1 - δ ^ 2 / ‖u‖ ^ 2) * (‖b‖ * ‖u‖) := by
      rw [norm_mul, Complex.norm_real, Real.norm_of_nonneg hr, norm_mul]
    have := upper_est hb0 hK hδ hs.lt hs.b hs.K hle hu
    rw [← hA, ← hB] at this
    exact ((norm_add_le _ _).trans (add_le_add (norm_add_le _ _) herr)).trans this
  · intro hle
    have hr : 1 - δ ^ 2 / ‖u‖ ^ 2 ≤ 0 := by
      rw [sub_nonpos, one_le_div (by positivity)]
      exact pow_le_pow_left₀ hpos.le hle 2
    have hB : ‖((1 - δ ^ 2 / ‖u‖ ^ 2 : ℝ) : ℂ) * (b * u)‖ = (δ ^ 2 / ‖u‖ ^ 2 - 1) * (‖b‖ * ‖u‖) := by
      rw [norm_mul, Complex.norm_real, Real.norm_of_nonpos hr, norm_mul, neg_sub]
    have := lower_est hb0 hK hδ hs.lt hs.b hpos hle
    rw [← hA, ← hB] at this
    have e1 := norm_sub_le_norm_add (((1 - ‖b‖ ^ 2 * δ ^ 2 * ‖u‖ ^ 2 : ℝ) : ℂ) * u⁻¹ +
      ((1 - δ ^ 2 / ‖u‖ ^ 2 : ℝ) : ℂ) * (b * u)) (Tl (b * (δ : ℂ) ^ 2) (c - (u⁻¹ + a + b * u)))
    have e2 := norm_sub_le_norm_add (((1 - ‖b‖ ^ 2 * δ ^ 2 * ‖u‖ ^ 2 : ℝ) : ℂ) * u⁻¹)
      (((1 - δ ^ 2 / ‖u‖ ^ 2 : ℝ) : ℂ) * (b * u))
    linarith

/-- The series of the areas of rings, without the first two terms. -/
noncomputable def S2 (h : ℂ → ℂ) (δ : ℝ) : ENNReal :=
  ∑' i : ℕ, ENNReal.ofReal (π * (((i : ℝ) + 1) * ‖tay h (i + 2)‖ ^ 2 * (1 - δ ^ (2 * i + 2))))

theorem Exterior.area_ring (H : Exterior h M B) {δ : ℝ} (hδ : 0 < δ) (hδ1 : δ < 1) :
    volume ((fun u => h u / u) '' {u | δ < ‖u‖ ∧ ‖u‖ < 1}) = ENNReal.ofReal (π * (1 / δ ^ 2 - 1)) + S2 h δ := by
  rw [MSet.area_ring H.diff hδ hδ1 fun u hu v hv he =>
    H.inj u v hu.2 (norm_pos_iff.mp (hδ.trans hu.1)) hv.2 (norm_pos_iff.mp (hδ.trans hv.1)) he]
  set t : ℕ → ENNReal := fun i => ENNReal.ofReal (π * (((i : ℝ) - 1) * ‖tay h i‖ ^ 2 * (1 - δ ^ (2 * (i : ℤ) - 2))))
    with ht
  have hsplit : ∑' i, t i = t 0 + t 1 + ∑' i, t (i + 2) := by
    rw [tsum_eq_zero_add' ENNReal.summable, tsum_eq_zero_add' ENNReal.summable, ← add_assoc]
  have h0 : t 0 = ENNReal.ofReal (π * (1 / δ ^ 2 - 1)) := by
    rw [ht]
    simp only [H.tay_zero]
    congr 2
    simp
  have h1 : t 1 = 0 := by
    rw [ht]
    simp
  have h2 : ∀ i, t (i + 2) = ENNReal.ofReal (π * (((i : ℝ) + 1) * ‖tay h (i + 2)‖ ^ 2 * (1 - δ ^ (2 * i + 2)))) := by
    intro i
    have e1 : ((i + 2 : ℕ) : ℝ) - 1 = i + 1 := by push_cast; ring
    have e2 : 2 * ((i + 2 : ℕ) : ℤ) - 2 = ((2 * i + 2 : ℕ) : ℤ) := by push_cast; ring
    rw [ht]
    simp only
    rw [e1, e2, zpow_natCast]
  rw [hsplit, h0, h1, add_zero, S2]
  congr 1
  exact tsum_congr h2

/-- Both bounds for the area, for small `δ`. -/
theorem Exterior.bounds (H : Exterior h M B) {K δ : ℝ} (hK : 0 ≤ K)
    (hrem : ∀ u : ℂ, ‖u‖ < 1 → u ≠ 0 → ‖h u / u - (u⁻¹ + tay h 1 + tay h 2 * u)‖ ≤ K * ‖u‖ ^ 2)
    (hs : Small (tay h 2) (tay h 1) K B δ) :
    volume M + S2 h δ ≤ ENNReal.ofReal (π * (1 + 8 * K * δ + 32 * K ^ 2 * δ ^ 4)) ∧
    ENNReal.ofReal (π * (1 - 8 * K * δ - ‖tay h 2‖ ^ 2 * δ ^ 2)) ≤ volume M + S2 h δ := by
  set b := tay h 2 with hb
  set a := tay h 1 with ha
  have hδ := hs.pos
  have hδ1 := hs.lt
  have hb0 := norm_nonneg b
  have hpi := pi_pos
  have hinv : 1 < 1 / δ ^ 2 := by
    rw [lt_div_iff₀ (by positivity)]
    nlinarith
  set q := ‖b‖ ^ 2 * δ ^ 4 with hq
  have hnb : ‖b * (δ : ℂ) ^ 2‖ ^ 2 = q := by rw [hs.nb, hq]; ring
  have hq0 : 0 ≤ q := by positivity
  have hq1 : q ≤ 1 / 100 := by
    have := hs.b2
    have h0 : 0 ≤ ‖b‖ * δ ^ 2 := by positivity
    have : q = (‖b‖ * δ ^ 2) ^ 2 := by rw [hq]; ring
    nlinarith
  have hlt : ‖b * (δ : ℂ) ^ 2‖ < 1 := by
    rw [hs.nb]
    linarith [hs.b2]
  have hKδ : 4 * K * δ ^ 2 ≤ 1 / 2 := by
    have := hs.K
    nlinarith
  have h1δ : 1 < 1 / δ := by
    rw [lt_div_iff₀ hδ]
    linarith
  have hr0 : (99 / 100) * (1 / δ) ≤ (1 - q) / δ := by
    rw [mul_one_div]
    gcongr
    linarith
  set A := (fun u => h u / u) '' {u | δ < ‖u‖ ∧ ‖u‖ < 1} with hA
  have hring : volume A = ENNReal.ofReal (π * (1 / δ ^ 2 - 1)) + S2 h δ := H.area_ring hδ hδ1
  have hfin : ENNReal.ofReal (π * (1 / δ ^ 2 - 1)) ≠ ⊤ := ENNReal.ofReal_ne_top
  constructor
  · have hdisj : Disjoint M A := by
      rw [Set.disjoint_left]
      rintro c hc ⟨u, hu, rfl⟩
      exact (H.range _).mpr ⟨u, hu.2, norm_pos_iff.mp (hδ.trans hu.1), rfl⟩ hc
    have hmeas : MeasurableSet A := by
      refine MeasurableSet.image_of_continuousOn_injOn ?_ ?_ ?_
      · exact ((isOpen_lt continuous_const continuous_norm).inter
          (isOpen_lt continuous_norm continuous_const)).measurableSet
      · intro u hu
        exact (ext_hasDerivAt H.diff hu.2 (norm_pos_iff.mp (hδ.trans hu.1))).continuousAt.continuousWithinAt
      · intro u hu v hv he
        exact H.inj u v hu.2 (norm_pos_iff.mp (hδ.trans hu.1)) hv.2 (norm_pos_iff.mp (hδ.trans hv.1)) he
    have hsub : M ∪ A ⊆ {c | ‖Tl (b * (δ : ℂ) ^ 2) (c - a)‖ ≤ (1 - q) / δ + 4 * K * δ ^ 2} := by
      rintro c (hc | ⟨u, hu, rfl⟩)
      · have h1 := Tl_le (b * (δ : ℂ) ^ 2) (c - a)
        rw [hs.nb] at h1
        have h2 : ‖c - a‖ ≤ B + ‖a‖ := (norm_sub_le _ _).trans (add_le_add_left (H.bdd c hc) _)
        have h3 : B + ‖a‖ ≤ (1 / 10) * (1 / δ) := by
          rw [mul_one_div, le_div_iff₀ hδ]
          exact hs.B
        have h4 : (1 + ‖b‖ * δ ^ 2) * ‖c - a‖ ≤ (11 / 10) * ((1 / 10) * (1 / δ)) :=
          mul_le_mul (by linarith [hs.b2]) (h2.trans h3) (norm_nonneg _) (by norm_num)
        have h5 : 0 ≤ 4 * K * δ ^ 2 := by positivity
        change ‖Tl (b * (δ : ℂ) ^ 2) (c - a)‖ ≤ (1 - q) / δ + 4 * K * δ ^ 2
        linarith
      · have h0 := norm_pos_iff.mp (hδ.trans hu.1)
        exact (Tl_ext hK hs hu.2 h0 (hrem u hu.2 h0)).1 hu.1.le
    have hvol := measure_mono (μ := volume) hsub
    have hrho : 0 ≤ (1 - q) / δ + 4 * K * δ ^ 2 := by
      have : 0 ≤ 4 * K * δ ^ 2 := by positivity
      linarith
    rw [measure_union hdisj hmeas, hring, ellipse_closed _ _ hlt hrho, hnb] at hvol
    have hle : π * (((1 - q) / δ + 4 * K * δ ^ 2) ^ 2 / (1 - q)) ≤
        π * (1 / δ ^ 2 - 1) + π * (1 + 8 * K * δ + 32 * K ^ 2 * δ ^ 4) := by
      rw [← mul_add]
      refine mul_le_mul_of_nonneg_left ?_ hpi.le
      rw [div_le_iff₀ (by linarith)]
      have e1 : ((1 - q) / δ + 4 * K * δ ^ 2) ^ 2 = (1 - q) * ((1 - q) * (1 / δ ^ 2) + 8 * K * δ) + 16 * K ^ 2 * δ ^ 4 := by
        field_simp
        ring
      rw [e1]
      have e2 : 0 ≤ K ^ 2 * δ ^ 4 := by positivity
      have e3 : 0 ≤ (1 - q) * (q * (1 / δ ^ 2)) := mul_nonneg (by linarith) (by positivity)
      nlinarith
    have h6 := hvol.trans (ENNReal.ofReal_le_ofReal hle)
    rw [ENNReal.ofReal_add (by apply mul_nonneg hpi.le; linarith) (by positivity)] at h6
    have h7 : ENNReal.ofReal (π * (1 / δ ^ 2 - 1)) + (volume M + S2 h δ) ≤
        ENNReal.ofReal (π * (1 / δ ^ 2 - 1)) + ENNReal.ofReal (π * (1 + 8 * K * δ + 32 * K ^ 2 * δ ^ 4)) := by
      refine le_trans (le_of_eq ?_) h6
      ring
    exact (ENNReal.add_le_add_iff_left hfin).mp h7
  · have hsub : {c | ‖Tl (b * (δ : ℂ) ^ 2) (c - a)‖ < (1 - q) / δ - 4 * K * δ ^ 2} ⊆ M ∪ A := by
      intro c hc
      by_contra hnot
      rw [mem_union, not_or] at hnot
      obtain ⟨u, hu, h0, rfl⟩ := (H.range c).mp hnot.1
      have hle : ‖u‖ ≤ δ := by
        by_contra hgt
        exact hnot.2 ⟨u, ⟨not_le.mp hgt, hu⟩, rfl⟩
      have := (Tl_ext hK hs hu h0 (hrem u hu h0)).2 hle
      exact absurd hc (not_lt.mpr this)
    have hvol := (measure_mono (μ := volume) hsub).trans (measure_union_le _ _)
    have hrho : 0 ≤ (1 - q) / δ - 4 * K * δ ^ 2 := by linarith
    rw [hring, ellipse_open _ _ hlt hrho, hnb] at hvol
    have hle : π * (1 / δ ^ 2 - 1) + π * (1 - 8 * K * δ - ‖b‖ ^ 2 * δ ^ 2) ≤
        π * (((1 - q) / δ - 4 * K * δ ^ 2) ^ 2 / (1 - q)) := by
      rw [← mul_add]
      refine mul_le_mul_of_nonneg_left ?_ hpi.le
      rw [le_div_iff₀ (by linarith)]
      have e1 : ((1 - q) / δ - 4 * K * δ ^ 2) ^ 2 = (1 - q) * ((1 - q) * (1 / δ ^ 2) - 8 * K * δ) + 16 * K ^ 2 * δ ^ 4 := by
        field_simp
        ring
      have e4 : q * (1 / δ ^ 2) = ‖b‖ ^ 2 * δ ^ 2 := by
        rw [hq]
        field_simp
      have e5 : (1 - q) * (1 / δ ^ 2) = 1 / δ ^ 2 - ‖b‖ ^ 2 * δ ^ 2 := by rw [← e4]; ring
      rw [e1, e5]
      have e2 : 0 ≤ K ^ 2 * δ ^ 4 := by positivity
      linarith
    have h6 : ENNReal.ofReal (π * (1 / δ ^ 2 - 1)) + ENNReal.ofReal (π * (1 - 8 * K * δ - ‖b‖ ^ 2 * δ ^ 2)) ≤
        ENNReal.ofReal (π * (1 / δ ^ 2 - 1)) + (volume M + S2 h δ) := by
      rcases le_or_gt 0 (π * (1 - 8 * K * δ - ‖b‖ ^ 2 * δ ^ 2)) with hnn | hneg
      · rw [← ENNReal.ofReal_add (by apply mul_nonneg hpi.le; linarith) hnn]
        refine (ENNReal.ofReal_le_ofReal hle).trans (hvol.trans (le_of_eq ?_))
        ring
      · rw [ENNReal.ofReal_of_nonpos hneg.le, add_zero]
        exact le_self_add
    exact (ENNReal.add_le_add_iff_left hfin).mp h6

/-- **The area theorem**: the area of the set and the areas of the terms of the map add up to the disc. -/
theorem Exterior.area (H : Exterior h M B) :
    volume M + ∑' i : ℕ, ENNReal.ofReal (π * (((i : ℝ) + 1) * ‖tay h (i + 2)‖ ^ 2)) = ENNReal.ofReal π := by
  obtain ⟨K, hK, hrem⟩ := H.remainder
  have hB : 0 ≤ B := (norm_nonneg _).trans (H.le 0 (by simp))
  set b := tay h 2 with hb
  set a := tay h 1 with ha
  have hpi := pi_pos
  have hsmall : ∀ᶠ δ : ℝ in 𝓝[>] 0, Small b a K B δ := by
    have hQ : ∀ x : ℝ, ∀ᶠ δ : ℝ in 𝓝[>] 0, x * δ ≤ 1 / 10 := by
      intro x
      have : Tendsto (fun δ : ℝ => x * δ) (𝓝[>] 0) (𝓝 (x * 0)) :=
        (tendsto_const_nhds.mul tendsto_id).mono_left nhdsWithin_le_nhds
      exact this.eventually_le_const (by norm_num)
    have h1 : ∀ᶠ δ : ℝ in 𝓝[>] 0, δ < 1 :=
      (tendsto_id.mono_left nhdsWithin_le_nhds).eventually_lt_const (show (0 : ℝ) < 1 by norm_num)
    filter_upwards [self_mem_nhdsWithin, h1, hQ ‖b‖, hQ K, hQ (B + ‖a‖)] with δ d1 d2 d3 d4 d5
    exact ⟨d1, d2, d3, d4, d5⟩
  apply le_antisymm
  · have hfinite : ∀ N : ℕ, volume M + ∑ i ∈ Finset.range N, ENNReal.ofReal (π * (((i : ℝ) + 1) * ‖tay h (i + 2)‖ ^ 2)) ≤
        ENNReal.ofReal π := by
      intro N
      have hle : ∀ᶠ δ : ℝ in 𝓝[>] 0, volume M + ∑ i ∈ Finset.range N,
          ENNReal.ofReal (π * (((i : ℝ) + 1) * ‖tay h (i + 2)‖ ^ 2 * (1 - δ ^ (2 * i + 2)))) ≤
          ENNReal.ofReal (π * (1 + 8 * K * δ + 32 * K ^ 2 * δ ^ 4)) := by
        filter_upwards [hsmall] with δ hs
        exact (add_le_add le_rfl (ENNReal.sum_le_tsum _)).trans (H.bounds hK hrem hs).1
      have hlim : Tendsto (fun δ : ℝ => ENNReal.ofReal (π * (1 + 8 * K * δ + 32 * K ^ 2 * δ ^ 4))) (𝓝[>] 0)
          (𝓝 (ENNReal.ofReal π)) := by
        have hc : Continuous fun δ : ℝ => π * (1 + 8 * K * δ + 32 * K ^ 2 * δ ^ 4) := by fun_prop
        have := (hc.tendsto 0).mono_left (nhdsWithin_le_nhds (s := Ioi 0))
        have h0 : π * (1 + 8 * K * 0 + 32 * K ^ 2 * 0 ^ 4) = π := by ring
        rw [h0] at this
        exact ENNReal.tendsto_ofReal this
      have hlim2 : Tendsto (fun δ : ℝ => volume M + ∑ i ∈ Finset.range N,
          ENNReal.ofReal (π * (((i : ℝ) + 1) * ‖tay h (i + 2)‖ ^ 2 * (1 - δ ^ (2 * i + 2))))) (𝓝[>] 0)
          (𝓝 (volume M + ∑ i ∈ Finset.range N, ENNReal.ofReal (π * (((i : ℝ) + 1) * ‖tay h (i + 2)‖ ^ 2)))) := by
        refine tendsto_const_nhds.add (tendsto_finsetSum _ fun i _ => ENNReal.tendsto_ofReal ?_)
        have hc : Continuous fun δ : ℝ => π * (((i : ℝ) + 1) * ‖tay h (i + 2)‖ ^ 2 * (1 - δ ^ (2 * i + 2))) := by fun_prop
        have := (hc.tendsto 0).mono_left (nhdsWithin_le_nhds (s := Ioi 0))
        rw [zero_pow (by omega), sub_zero, mul_one] at this
        exact this
      exact le_of_tendsto_of_tendsto hlim2 hlim hle
    have hMle := hfinite 0
    rw [Finset.sum_range_zero, add_zero] at hMle
    have hMfin : volume M ≠ ⊤ := ne_top_of_le_ne_top ENNReal.ofReal_ne_top hMle
    have : ∑' i : ℕ, ENNReal.ofReal (π * (((i : ℝ) + 1) * ‖tay h (i + 2)‖ ^ 2)) ≤ ENNReal.ofReal π - volume M := by
      refine ENNReal.tsum_le_of_sum_range_le fun N => ?_
      exact ENNReal.le_sub_of_add_le_left hMfin (hfinite N)
    refine (add_le_add le_rfl this).trans (le_of_eq ?_)
    exact add_tsub_cancel_of_le hMle
  · have hle : ∀ᶠ δ : ℝ in 𝓝[>] 0, ENNReal.ofReal (π * (1 - 8 * K * δ - ‖b‖ ^ 2 * δ ^ 2)) ≤
        volume M + ∑' i : ℕ, ENNReal.ofReal (π * (((i : ℝ) + 1) * ‖tay h (i + 2)‖ ^ 2)) := by
      filter_upwards [hsmall] with δ hs
      refine (H.bounds hK hrem hs).2.trans (add_le_add le_rfl (ENNReal.tsum_le_tsum fun i => ?_))
      apply ENNReal.ofReal_le_ofReal
      refine mul_le_mul_of_nonneg_left (mul_le_of_le_one_right (by positivity) ?_) hpi.le
      have : 0 ≤ δ ^ (2 * i + 2) := pow_nonneg hs.pos.le _
      linarith
    have hlim : Tendsto (fun δ : ℝ => ENNReal.ofReal (π * (1 - 8 * K * δ - ‖b‖ ^ 2 * δ ^ 2))) (𝓝[>] 0)
        (𝓝 (ENNReal.ofReal π)) := by
      have hc : Continuous fun δ : ℝ => π * (1 - 8 * K * δ - ‖b‖ ^ 2 * δ ^ 2) := by fun_prop
      have := (hc.tendsto 0).mono_left (nhdsWithin_le_nhds (s := Ioi 0))
      have h0 : π * (1 - 8 * K * 0 - ‖b‖ ^ 2 * 0 ^ 2) = π := by ring
      rw [h0] at this
      exact ENNReal.tendsto_ofReal this
    exact le_of_tendsto hlim hle

end MSet

end Mandelbrot
