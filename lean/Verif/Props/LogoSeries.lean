import Verif.Props.Logo
import Verif.Props.MandelbrotArea

/-!
# C67: the picture of the true series
-/

namespace Mandelbrot.Props

open MeasureTheory

theorem series_start {f : ℕ → ℝ} (hf : Spec.IsSeries f) : f 0 = 1 ∧ f 1 = -1 / 2 := by
  obtain ⟨g, h1, h2⟩ := hf 1
  have h0 : f 0 = 1 := h2.1 (by norm_num)
  have h3 := h1.2 f h2 1 (by norm_num)
  simp [Spec.mandelQ, Spec.prod, Spec.shift, Spec.one, Finset.Nat.antidiagonal_succ, h0] at h3
  exact ⟨h0, by linarith⟩

theorem harmonic_le (k : ℕ) : ∑ n ∈ Finset.range (2 ^ k), (1 / ((n : ℝ) + 1)) ≤ k + 1 := by
  induction k with
  | zero => simp
  | succ k ih =>
    rw [pow_succ, mul_two, Finset.sum_range_add]
    have : ∑ x ∈ Finset.range (2 ^ k), (1 / (((2 ^ k + x : ℕ) : ℝ) + 1)) ≤ ∑ x ∈ Finset.range (2 ^ k), (1 / (2 ^ k : ℝ)) := by
      refine Finset.sum_le_sum fun x _ => ?_
      refine one_div_le_one_div_of_le (by positivity) ?_
      push_cast
      have : (0 : ℝ) ≤ x := Nat.cast_nonneg x
      linarith
    rw [Finset.sum_const, Finset.card_range, nsmul_eq_mul] at this
    push_cast at this ⊢
    rw [mul_one_div_cancel (by positivity)] at this
    linarith

/-- The first `2 ^ k` terms of the series add up to at most `k + 4` in absolute value. -/
theorem series_abs (f : ℕ → ℝ) (hf : Spec.IsSeries f) (k : ℕ) : ∑ n ∈ Finset.range (2 ^ k), |f n| ≤ k + 4 := by
  obtain ⟨-, hs⟩ := area_hasSum
  obtain ⟨h0, h1⟩ := series_start hf
  have hpi := Real.pi_pos
  have hsum : ∀ m, ∑ i ∈ Finset.range m, (((i : ℝ) + 1) * f (i + 2) ^ 2) ≤ 1 := by
    intro m
    have := sum_le_hasSum (Finset.range m) (fun i _ => by positivity) hs
    have he : ∑ i ∈ Finset.range m, Real.pi * (((i : ℝ) + 1) * ‖MSet.tay MSet.hfun (i + 2)‖ ^ 2) =
        Real.pi * ∑ i ∈ Finset.range m, (((i : ℝ) + 1) * f (i + 2) ^ 2) := by
      rw [Finset.mul_sum]
      refine Finset.sum_congr rfl fun i _ => ?_
      rw [series_tay_all hf, Complex.norm_real, Real.norm_eq_abs, sq_abs]
    rw [he] at this
    have hv : 0 ≤ (volume Spec.mandelbrotSet).toReal := ENNReal.toReal_nonneg
    by_contra hlt
    have := mul_lt_mul_of_pos_left (not_le.mp hlt) hpi
    linarith
  have hstep : ∀ i : ℕ, |f (i + 2)| ≤ ((i : ℝ) + 1) * f (i + 2) ^ 2 + 1 / ((i : ℝ) + 1) := by
    intro i
    have hp : (0 : ℝ) < (i : ℝ) + 1 := by positivity
    have := sq_nonneg (((i : ℝ) + 1) * |f (i + 2)| - 1)
    rw [← sq_abs (f (i + 2))]
    have e : ((i : ℝ) + 1) * |f (i + 2)| ^ 2 + 1 / ((i : ℝ) + 1) = ((((i : ℝ) + 1) * |f (i + 2)|) ^ 2 + 1) / ((i : ℝ) + 1) := by
      field_simp
    rw [e, le_div_iff₀ hp]
    nlinarith [abs_nonneg (f (i + 2))]
  have hle : ∑ n ∈ Finset.range (2 ^ k), |f n| ≤ ∑ n ∈ Finset.range (2 ^ k + 2), |f n| :=
    Finset.sum_le_sum_of_subset_of_nonneg (Finset.range_mono (by omega)) fun _ _ _ => abs_nonneg _
  refine hle.trans ?_
  rw [Finset.sum_range_succ', Finset.sum_range_succ', h0, show (0 : ℕ) + 1 = 1 from rfl, h1]
  have h3 : ∑ i ∈ Finset.range (2 ^ k), |f (i + 1 + 1)| ≤ 1 + (k + 1) := by
    refine le_trans (Finset.sum_le_sum fun i _ => hstep i) ?_
    rw [Finset.sum_add_distrib]
    exact add_le_add (hsum _) (harmonic_le k)
  norm_num [abs_of_neg]
  linarith

/-- C67.  For the series of the Mandelbrot set the program always succeeds, and the picture is the one that `C67_logo` describes. -/
theorem C67_logo_series (f : ℕ → ℝ) (hf : Spec.IsSeries f) (u : ℕ → ℝ) (hu : ∀ n, 0 ≤ u n ∧ u n < 1)
    (junkP : ℕ → ℂ) (junkC : ℕ → Logo.Color) (hj : ∀ n, Spec.ValidColor (junkC n)) (junkF : ℕ → ℕ → ℂ) :
    ∃ c rows, Logo.logo f u junkP junkC junkF = .ok rows ∧ Spec.CanvasOk c ∧ c.width = 282 ∧ c.height = 256 ∧ c.samples = 256 ∧
      (∀ n, c.colors n = Spec.shown f (junkC n) (c.points n)) ∧
      rows.length = 256 ∧ ∀ j : ℕ, j < 256 → ∃ row, rows[j]? = some row ∧ Spec.RowOf c j row := by
  obtain ⟨c, rows, e, h1, h2, h3, h4, -, -, h5⟩ := C67_logo f ((series_abs f hf 25).trans (by norm_num)) u hu junkP junkC hj junkF
  exact ⟨c, rows, e, h1, h2, h3, h4, h5⟩

/-- There is such a series, and memory of zeros holds colours. -/
example : ∃ f rows, Spec.IsSeries f ∧ Logo.logo f (fun _ => 1 / 2) (fun _ => 0) (fun _ => Logo.clear) (fun _ _ => 0) = .ok rows := by
  obtain ⟨f, h, -⟩ := C58_area_values
  obtain ⟨c, rows, e, -⟩ := C67_logo_series f h (fun _ => 1 / 2) (by norm_num) (fun _ => 0) (fun _ => Logo.clear)
    (by simp [Spec.ValidColor, Logo.clear]) (fun _ _ => 0)
  exact ⟨f, rows, h, e⟩

end Mandelbrot.Props
