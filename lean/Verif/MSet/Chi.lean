import Verif.MSet.Green
import Mathlib.Analysis.Complex.SqrtDeriv
import Mathlib.Topology.MetricSpace.Contracting
import Mathlib.Topology.ContinuousMap.Bounded.Basic

/-!
# The inverse Böttcher map of `z ↦ z^2 + c` near infinity

`χ(c,u)/u` is the point with Böttcher coordinate `1/u`.  It is the fixed point of
`χ(c,u) = sqrt(χ(c,u^2) - c u^2)`.
-/

namespace Mandelbrot

namespace MSet

open Filter Topology Metric

/-- Where the fixed point is found directly. -/
def N0 : Set (ℂ × ℂ) := {p | ‖p.2‖ < 1 ∧ ‖p.1‖ * ‖p.2‖ ^ 2 < 1 / 10}

theorem sqrt_sq' (a : ℂ) : Complex.sqrt a ^ 2 = a := by
  rw [Complex.sqrt]
  exact_mod_cast Complex.cpow_nat_inv_pow a two_ne_zero

theorem sqrt_re_nonneg (a : ℂ) : 0 ≤ (Complex.sqrt a).re := by
  rw [Complex.sqrt, Complex.cpow_inv_two_re]
  positivity

theorem sqrt_near {a : ℂ} (h : ‖a - 1‖ ≤ 1 / 4) : ‖Complex.sqrt a - 1‖ ≤ 1 / 7 := by
  set s := Complex.sqrt a with hs
  have e : ‖s - 1‖ * ‖s + 1‖ = ‖a - 1‖ := by
    rw [← norm_mul]
    congr 1
    have := sqrt_sq' a
    rw [← hs] at this
    linear_combination this
  have h1 : 1 + s.re ≤ ‖s + 1‖ := by
    have := Complex.re_le_norm (s + 1)
    rw [Complex.add_re, Complex.one_re] at this
    linarith
  have h0 := sqrt_re_nonneg a
  rw [← hs] at h0
  have h2 : ‖s - 1‖ ≤ 1 / 4 := by nlinarith [norm_nonneg (s - 1)]
  have h3 : 3 / 4 ≤ s.re := by
    have := (abs_le.mp (Complex.abs_re_le_norm (s - 1))).1
    rw [Complex.sub_re, Complex.one_re] at this
    linarith
  nlinarith [norm_nonneg (s - 1)]

theorem ball_slit {a : ℂ} (h : ‖a - 1‖ ≤ 1 / 4) : a ∈ Complex.slitPlane := by
  left
  have := (abs_le.mp (Complex.abs_re_le_norm (a - 1))).1
  rw [Complex.sub_re, Complex.one_re] at this
  linarith

theorem N0_sq {c u : ℂ} (h : (c, u) ∈ N0) : (c, u ^ 2) ∈ N0 := by
  obtain ⟨h1, h2⟩ := h
  simp only at h1 h2
  refine ⟨?_, ?_⟩
  · simp only [norm_pow]
    exact pow_lt_one₀ (norm_nonneg _) h1 two_ne_zero
  · simp only [norm_pow]
    refine lt_of_le_of_lt ?_ h2
    have : (‖u‖ ^ 2) ^ 2 ≤ ‖u‖ ^ 2 :=
      pow_le_of_le_one (by positivity) (pow_le_one₀ (norm_nonneg _) h1.le) two_ne_zero
    gcongr

theorem N0_open : IsOpen N0 := by
  have h1 : IsOpen {p : ℂ × ℂ | ‖p.2‖ < 1} := isOpen_lt (by fun_prop) (by fun_prop)
  have h2 : IsOpen {p : ℂ × ℂ | ‖p.1‖ * ‖p.2‖ ^ 2 < 1 / 10} := isOpen_lt (by fun_prop) (by fun_prop)
  exact h1.inter h2

theorem N0_arg {c u x : ℂ} (h : (c, u) ∈ N0) (hx : ‖x - 1‖ ≤ 1 / 7) : ‖x - c * u ^ 2 - 1‖ ≤ 1 / 4 := by
  have h2 := h.2
  simp only at h2
  have := norm_sub_le (x - 1) (c * u ^ 2)
  rw [norm_mul, norm_pow] at this
  rw [show x - c * u ^ 2 - 1 = x - 1 - c * u ^ 2 by ring]
  linarith

/-- Values near 1. -/
abbrev Near := closedBall (1 : ℂ) (1 / 7)

instance : CompleteSpace Near := isClosed_closedBall.completeSpace_coe

instance : Nonempty Near := ⟨⟨1, mem_closedBall_self (by norm_num)⟩⟩

theorem near_norm (x : Near) : ‖(x : ℂ) - 1‖ ≤ 1 / 7 := by
  have := x.2
  rwa [mem_closedBall, dist_eq_norm] at this

/-- The square in the second variable. -/
def sqN (p : N0) : N0 := ⟨(p.1.1, p.1.2 ^ 2), N0_sq p.2⟩

theorem sqN_continuous : Continuous sqN := by
  unfold sqN
  fun_prop

/-- One step of the iteration at a point. -/
noncomputable def stepVal (x : Near) (p : N0) : Near :=
  ⟨Complex.sqrt (x - p.1.1 * p.1.2 ^ 2), by
    rw [mem_closedBall, dist_eq_norm]
    exact sqrt_near (N0_arg p.2 (near_norm x))⟩

theorem stepVal_continuous : Continuous fun q : Near × N0 => stepVal q.1 q.2 := by
  unfold stepVal
  refine Continuous.subtype_mk ?_ _
  rw [continuous_iff_continuousAt]
  intro q
  have h := N0_arg q.2.2 (near_norm q.1)
  have h1 : ContinuousAt (fun q : Near × N0 => (q.1 : ℂ) - q.2.1.1 * q.2.1.2 ^ 2) q := by
    apply Continuous.continuousAt
    fun_prop
  exact ContinuousAt.comp' (f := fun q : Near × N0 => (q.1 : ℂ) - q.2.1.1 * q.2.1.2 ^ 2)
    (Complex.differentiableAt_sqrt (ball_slit h)).continuousAt h1

theorem near_dist (x y : Near) : dist x y ≤ 2 / 7 := by
  rw [Subtype.dist_eq, dist_eq_norm]
  have := norm_sub_le ((x : ℂ) - 1) (y - 1)
  rw [sub_sub_sub_cancel_right] at this
  linarith [near_norm x, near_norm y]

/-- One step of the iteration. -/
noncomputable def stepT (f : BoundedContinuousFunction N0 Near) : BoundedContinuousFunction N0 Near :=
  BoundedContinuousFunction.mkOfBound
    ⟨fun p => stepVal (f (sqN p)) p, stepVal_continuous.comp ((f.continuous.comp sqN_continuous).prodMk continuous_id)⟩
    (2 / 7) fun _ _ => near_dist _ _

theorem sqrt_lip {a b : ℂ} (ha : ‖a - 1‖ ≤ 1 / 4) (hb : ‖b - 1‖ ≤ 1 / 4) :
    ‖Complex.sqrt a - Complex.sqrt b‖ ≤ 7 / 12 * ‖a - b‖ := by
  have h1 := sqrt_near ha
  have h2 := sqrt_near hb
  have e : ‖Complex.sqrt a - Complex.sqrt b‖ * ‖Complex.sqrt a + Complex.sqrt b‖ = ‖a - b‖ := by
    rw [← norm_mul]
    congr 1
    linear_combination sqrt_sq' a - sqrt_sq' b
  have h3 : 12 / 7 ≤ ‖Complex.sqrt a + Complex.sqrt b‖ := by
    have h4 := norm_sub_norm_le (2 : ℂ) (-(Complex.sqrt a - 1) - (Complex.sqrt b - 1))
    have h5 := norm_sub_le (-(Complex.sqrt a - 1)) (Complex.sqrt b - 1)
    rw [norm_neg] at h5
    rw [show (2 : ℂ) - (-(Complex.sqrt a - 1) - (Complex.sqrt b - 1)) = Complex.sqrt a + Complex.sqrt b by ring] at h4
    have : ‖(2 : ℂ)‖ = 2 := by simp
    linarith
  nlinarith [norm_nonneg (Complex.sqrt a - Complex.sqrt b)]

theorem stepT_contracting : ContractingWith (7 / 12) stepT := by
  refine ⟨by rw [← NNReal.coe_lt_coe]; norm_num, LipschitzWith.of_dist_le_mul fun f g => ?_⟩
  rw [BoundedContinuousFunction.dist_le (by positivity)]
  intro p
  have h := sqrt_lip (N0_arg p.2 (near_norm (f (sqN p)))) (N0_arg p.2 (near_norm (g (sqN p))))
  rw [sub_sub_sub_cancel_right] at h
  have h2 := BoundedContinuousFunction.dist_coe_le_dist (f := f) (g := g) (sqN p)
  rw [Subtype.dist_eq, dist_eq_norm] at h2
  rw [Subtype.dist_eq, dist_eq_norm]
  have h3 : ((7 / 12 : NNReal) : ℝ) = 7 / 12 := by norm_num
  rw [h3]
  refine h.trans ?_
  gcongr

/-- The inverse Böttcher map near infinity, times `u`. -/
theorem exists_chi : ∃ χ : ℂ × ℂ → ℂ, ContinuousOn χ N0 ∧ (∀ p ∈ N0, ‖χ p - 1‖ ≤ 1 / 7) ∧
    (∀ c, χ (c, 0) = 1) ∧ ∀ c u, (c, u) ∈ N0 → χ (c, u) ^ 2 + c * u ^ 2 = χ (c, u ^ 2) := by
  classical
  have : Nonempty (BoundedContinuousFunction N0 Near) :=
    ⟨BoundedContinuousFunction.const N0 ⟨1, mem_closedBall_self (by norm_num)⟩⟩
  set f := ContractingWith.fixedPoint stepT stepT_contracting
  have hf : stepT f = f := stepT_contracting.fixedPoint_isFixedPt
  have eq : ∀ p (h : p ∈ N0), (fun p => if h : p ∈ N0 then (f ⟨p, h⟩ : ℂ) else 1) p = f ⟨p, h⟩ := fun p h => by
    simp only [h, dif_pos]
  have main : ∀ c u, (c, u) ∈ N0 → (fun p => if h : p ∈ N0 then (f ⟨p, h⟩ : ℂ) else 1) (c, u) ^ 2 + c * u ^ 2 =
      (fun p => if h : p ∈ N0 then (f ⟨p, h⟩ : ℂ) else 1) (c, u ^ 2) := by
    intro c u h
    rw [eq _ h, eq _ (N0_sq h)]
    have h1 : (f ⟨(c, u), h⟩ : ℂ) = Complex.sqrt (f ⟨(c, u ^ 2), N0_sq h⟩ - c * u ^ 2) := by
      conv_lhs => rw [← hf]
      rfl
    rw [h1, sqrt_sq', sub_add_cancel]
  refine ⟨fun p => if h : p ∈ N0 then (f ⟨p, h⟩ : ℂ) else 1, ?_, ?_, ?_, main⟩
  · rw [continuousOn_iff_continuous_domRestrict]
    have : N0.domRestrict (fun p => if h : p ∈ N0 then (f ⟨p, h⟩ : ℂ) else 1) = fun p => (f p : ℂ) := by
      ext p
      exact eq p.1 p.2
    rw [this]
    exact continuous_subtype_val.comp f.continuous
  · intro p h
    rw [eq _ h]
    exact near_norm _
  · intro c
    have h0 : (c, (0 : ℂ)) ∈ N0 := ⟨by simp, by simp⟩
    have h1 := main c 0 h0
    rw [zero_pow two_ne_zero, mul_zero, add_zero, eq _ h0, sq] at h1
    rw [eq _ h0]
    have h2 := near_norm (f ⟨(c, 0), h0⟩)
    have h3 : (f ⟨(c, 0), h0⟩ : ℂ) ≠ 0 := by
      intro h
      rw [h] at h2
      norm_num at h2
    exact mul_left_cancel₀ h3 (by rw [mul_one]; exact h1)

end MSet

end Mandelbrot
