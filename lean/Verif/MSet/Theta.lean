import Verif.MSet.Extend
import Mathlib.Analysis.SpecialFunctions.Complex.LogBounds
import Mathlib.Analysis.SpecialFunctions.Complex.LogDeriv
import Mathlib.Analysis.SpecialFunctions.ExpDeriv
import Mathlib.Analysis.Complex.LocallyUniformLimit

/-!
# The Böttcher coordinate near infinity, and that every escaping point has one

`Θ(c,z)` is the inverse of the Böttcher coordinate of `z`, as an infinite product.
-/

namespace Mandelbrot

namespace MSet

open Filter Topology Metric

/-- Points far out. -/
noncomputable def R (c : ℂ) : ℝ := 8 * (1 + ‖c‖) ^ 2

theorem R_ge (c : ℂ) : 8 ≤ R c := by
  have := norm_nonneg c
  unfold R
  nlinarith [sq_nonneg ‖c‖]

theorem R_ge' (c : ℂ) : 8 * ‖c‖ ≤ R c := by
  have := norm_nonneg c
  unfold R
  nlinarith [sq_nonneg ‖c‖]

theorem far_ne_zero {c z : ℂ} (h : R c < ‖z‖) : z ≠ 0 := by
  rw [← norm_pos_iff]
  linarith [R_ge c]

theorem far_small {c z : ℂ} (h : R c < ‖z‖) : ‖c / z ^ 2‖ ≤ 1 / 64 := by
  have h1 := R_ge c
  have h2 := R_ge' c
  rw [norm_div, norm_pow, div_le_iff₀ (by nlinarith)]
  nlinarith

theorem far_step {c z : ℂ} (h : R c < ‖z‖) : R c < ‖z ^ 2 + c‖ := by
  have h1 := R_ge c
  have h2 := R_ge' c
  have h3 := norm_sub_le (z ^ 2 + c) c
  rw [add_sub_cancel_right, norm_pow] at h3
  nlinarith

theorem far_orb {c z : ℂ} (h : R c < ‖z‖) (n : ℕ) : R c < ‖orb c z n‖ := by
  induction n with
  | zero => exact h
  | succ n ih => exact far_step ih

theorem far_log {c z : ℂ} (h : R c < ‖z‖) : ‖Complex.log (1 + c / z ^ 2)‖ ≤ 3 / 128 := by
  have h1 := far_small h
  have := Complex.norm_log_one_add_half_le_self (z := c / z ^ 2) (by linarith)
  linarith

theorem far_slit {c z : ℂ} (h : R c < ‖z‖) : 1 + c / z ^ 2 ∈ Complex.slitPlane :=
  ball_slit (by rw [add_sub_cancel_left]; linarith [far_small h])

/-- The terms of the logarithm of the product. -/
noncomputable def lterm (c z : ℂ) (j : ℕ) : ℂ := Complex.log (1 + c / orb c z j ^ 2) / 2 ^ (j + 1)

theorem lterm_bound {c z : ℂ} (h : R c < ‖z‖) (j : ℕ) : ‖lterm c z j‖ ≤ 3 / 128 * (1 / 2) ^ j / 2 := by
  rw [lterm, norm_div, norm_pow, Complex.norm_ofNat, div_le_iff₀ (by positivity)]
  have e : (3 : ℝ) / 128 * (1 / 2) ^ j / 2 * 2 ^ (j + 1) = 3 / 128 := by
    rw [pow_succ, one_div, inv_pow]
    field_simp
  rw [e]
  exact far_log (far_orb h j)

theorem lterm_summable {c z : ℂ} (h : R c < ‖z‖) : Summable (lterm c z) :=
  Summable.of_norm_bounded (summable_bound (3 / 128)) (lterm_bound h)

/-- The logarithm of the product. -/
noncomputable def S (c z : ℂ) : ℂ := ∑' j, lterm c z j

theorem S_bound {c z : ℂ} (h : R c < ‖z‖) : ‖S c z‖ ≤ 3 / 128 := by
  have := tsum_of_norm_bounded (summable_bound (3 / 128)).hasSum (lterm_bound h)
  rwa [tsum_bound] at this

theorem S_step {c z : ℂ} (h : R c < ‖z‖) : 2 * S c z = Complex.log (1 + c / z ^ 2) + S c (z ^ 2 + c) := by
  have h1 := (lterm_summable h).tsum_eq_zero_add
  have e : ∀ j, lterm c z (j + 1) = lterm c (z ^ 2 + c) j / 2 := by
    intro j
    rw [lterm, lterm, orb_shift, div_div, ← pow_succ]
  rw [S, h1, funext e, tsum_div_const, S]
  simp only [lterm, orb, zero_add, pow_one]
  ring

/-- The inverse of the Böttcher coordinate of a point far out. -/
noncomputable def theta (c z : ℂ) : ℂ := z⁻¹ * Complex.exp (-S c z)

theorem theta_ne_zero {c z : ℂ} (h : R c < ‖z‖) : theta c z ≠ 0 :=
  mul_ne_zero (inv_ne_zero (far_ne_zero h)) (Complex.exp_ne_zero _)

theorem theta_near {c z : ℂ} (h : R c < ‖z‖) : ‖theta c z * z - 1‖ ≤ 1 / 7 := by
  have h1 := S_bound h
  have h2 := Complex.norm_exp_sub_one_le (x := -S c z) (by rw [norm_neg]; linarith)
  rw [norm_neg] at h2
  rw [theta, mul_right_comm, inv_mul_cancel₀ (far_ne_zero h), one_mul]
  linarith

theorem theta_step {c z : ℂ} (h : R c < ‖z‖) : theta c (z ^ 2 + c) = theta c z ^ 2 := by
  have hz := far_ne_zero h
  have h1 : 1 + c / z ^ 2 ≠ 0 := Complex.slitPlane_ne_zero (far_slit h)
  rw [theta, theta, mul_pow, ← Complex.exp_nat_mul, Nat.cast_ofNat, mul_neg, S_step h, neg_add, Complex.exp_add,
    Complex.exp_neg (Complex.log _), Complex.exp_log h1]
  have e : z ^ 2 + c = z ^ 2 * (1 + c / z ^ 2) := by field_simp
  rw [e, mul_inv, inv_pow]
  ring

theorem theta_orb {c z : ℂ} (h : R c < ‖z‖) (n : ℕ) : theta c (orb c z n) = theta c z ^ 2 ^ n := by
  induction n with
  | zero => simp [orb]
  | succ n ih => rw [orb, theta_step (far_orb h n), ih, ← pow_mul, pow_succ]

theorem theta_norm {c z : ℂ} (h : R c < ‖z‖) : ‖theta c z‖ ≤ 8 / 7 / ‖z‖ := by
  have hz : 0 < ‖z‖ := norm_pos_iff.mpr (far_ne_zero h)
  rw [le_div_iff₀ hz, ← norm_mul]
  exact (near_bounds (theta_near h)).2

/-- The size of `Θ` is the rate of escape. -/
theorem theta_rate {c z : ℂ} (h : R c < ‖z‖) : G c z = -Real.log ‖theta c z‖ := by
  have ht : 0 < ‖theta c z‖ := norm_pos_iff.mpr (theta_ne_zero h)
  have key : ∀ m : ℕ, 2 ^ m * |G c z + Real.log ‖theta c z‖| ≤ B c + Real.log 2 := by
    intro m
    have hf := far_orb h m
    obtain ⟨b1, b2⟩ := near_bounds (theta_near hf)
    have hx : 1 ≤ ‖orb c z m‖ := by linarith [R_ge c]
    have h1 := G_sub_L c (orb c z m)
    rw [G_orb, L_of_one_le hx] at h1
    have h2 : |Real.log ‖theta c (orb c z m) * orb c z m‖| ≤ Real.log 2 := by
      rw [abs_le, ← Real.log_inv]
      exact ⟨Real.log_le_log (by norm_num) (by linarith), Real.log_le_log (by linarith) (by linarith)⟩
    rw [norm_mul, theta_orb h, norm_pow, Real.log_mul (by positivity) (by positivity), Real.log_pow] at h2
    rw [← abs_of_pos (show (0 : ℝ) < 2 ^ m by positivity), ← abs_mul]
    rw [abs_le] at h1 h2 ⊢
    push_cast at h2
    constructor
    · linarith [h1.1, h2.1]
    · linarith [h1.2, h2.2]
  by_contra hne
  have hp : 0 < |G c z + Real.log ‖theta c z‖| := by
    rw [abs_pos]
    intro hz
    exact hne (by linarith)
  obtain ⟨k, hk⟩ := pow_unbounded_of_one_lt ((B c + Real.log 2) / |G c z + Real.log ‖theta c z‖|)
    (one_lt_two (α := ℝ))
  rw [div_lt_iff₀ hp] at hk
  linarith [key k]

/-- Points far out escape faster than the critical point. -/
theorem far_G {c z : ℂ} (h : R c < ‖z‖) : G c 0 < G c z := by
  have hc := norm_nonneg c
  have h1 := abs_le.mp (G_sub_L c z)
  have h2 := abs_le.mp (G_sub_L c c)
  have h3 := G_critical c
  rw [L_of_one_le (by linarith [R_ge c])] at h1
  have h4 : L c ≤ Real.log (1 + ‖c‖) := Real.log_le_log (by positivity) (max_le (by linarith) (by linarith))
  have h5 : Real.log (R c) < Real.log ‖z‖ := Real.log_lt_log (by linarith [R_ge c]) h
  have h6 : B c = Real.log 2 + Real.log (1 + ‖c‖) := Real.log_mul (by norm_num) (by linarith)
  have h7 : Real.log (R c) = 3 * Real.log 2 + 2 * Real.log (1 + ‖c‖) := by
    rw [R, Real.log_mul (by norm_num) (by positivity), Real.log_pow, show (8 : ℝ) = 2 ^ 3 by norm_num, Real.log_pow]
    norm_num
  have h8 : 0 < Real.log 2 := Real.log_pos (by norm_num)
  linarith [h1.1, h2.2]

theorem theta_dom {c z : ℂ} (h : R c < ‖z‖) : Dom c (theta c z) := by
  unfold Dom
  have h1 := far_G h
  rw [theta_rate h] at h1
  have h2 := Real.exp_lt_exp.mpr (neg_lt_neg h1)
  rwa [neg_neg, Real.exp_log (norm_pos_iff.mpr (theta_ne_zero h))] at h2

theorem theta_N0 {c z : ℂ} (h : R c < ‖z‖) : (c, theta c z) ∈ N0 := by
  refine ⟨(theta_dom h).lt_one, ?_⟩
  have h1 := theta_norm h
  have h2 := R_ge c
  have h3 := R_ge' c
  have hz : 0 < ‖z‖ := by linarith
  have h4 : ‖theta c z‖ ^ 2 ≤ (8 / 7 / ‖z‖) ^ 2 := by gcongr
  simp only
  have h5 : ‖c‖ * (8 / 7 / ‖z‖) ^ 2 < 1 / 10 := by
    rw [div_pow, ← mul_div_assoc, div_lt_iff₀ (by positivity)]
    nlinarith
  refine lt_of_le_of_lt ?_ h5
  gcongr

/-- `Θ` gives the coordinate. -/
theorem chi_theta {c z : ℂ} (h : R c < ‖z‖) : chi (c, theta c z) / theta c z = z := by
  have hd := theta_dom h
  have h0 := theta_ne_zero h
  have key := repel (c := c) (a := fun k => orb c (chi (c, theta c z) / theta c z) k) (b := fun k => orb c z k)
    (fun _ => rfl) (fun _ => rfl) (fun m => far_ne_zero (far_orb h m)) ?_ ?_
  · exact key
  · intro m
    have h1 := far_orb h m
    have h2 := R_ge c
    have h3 := R_ge' c
    nlinarith
  · intro m
    have h1 := far_orb h m
    have hz := far_ne_zero h1
    obtain ⟨a, b⟩ := chi_orb hd h0 m
    rw [b, ← theta_orb h, div_div]
    rw [← theta_orb h] at a
    exact ratio_near (chi_near a (theta_N0 h1)) (theta_near h1)

/-- An escaping orbit gets far out. -/
theorem exists_far {c z : ℂ} (h : 0 < G c z) : ∃ n, R c < ‖orb c z n‖ := by
  obtain ⟨n, hn⟩ := pow_unbounded_of_one_lt ((B c + Real.log (R c)) / G c z) (one_lt_two (α := ℝ))
  rw [div_lt_iff₀ h] at hn
  have h1 := abs_le.mp (G_sub_L c (orb c z n))
  rw [G_orb] at h1
  have h2 : Real.log (R c) < L (orb c z n) := by linarith [h1.2]
  rw [L, Real.log_lt_log_iff (by linarith [R_ge c]) (by positivity), lt_max_iff] at h2
  rcases h2 with h2 | h2
  · linarith [R_ge c]
  · exact ⟨n, h2⟩

/-- Every point that escapes faster than the critical point has a coordinate. -/
theorem chi_surj {c z : ℂ} (h : G c 0 < G c z) : ∃ u, Dom c u ∧ u ≠ 0 ∧ chi (c, u) / u = z := by
  obtain ⟨n, hn⟩ := exists_far (lt_of_le_of_lt (G_nonneg c 0) h)
  induction n generalizing z with
  | zero => exact ⟨theta c z, theta_dom hn, theta_ne_zero hn, chi_theta hn⟩
  | succ n ih =>
    obtain ⟨w, h1, h2, h3⟩ := ih (z := z ^ 2 + c) (by rw [G_step]; linarith [G_nonneg c 0]) (by rwa [orb_shift])
    obtain ⟨v, rfl⟩ : ∃ v : ℂ, w = v ^ 2 := ⟨Complex.sqrt w, (sqrt_sq' w).symm⟩
    have hv : v ≠ 0 := fun hv => h2 (by rw [hv]; simp)
    have hvd : Dom c v := by
      have h4 := chi_rate h1 h2
      rw [h3, G_step, norm_pow, Real.log_pow] at h4
      push_cast at h4
      have h5 : Real.log ‖v‖ < -G c 0 := by linarith
      have h6 := Real.exp_lt_exp.mpr h5
      rwa [Real.exp_log (norm_pos_iff.mpr hv)] at h6
    have h4 := chi_step hvd
    rw [div_eq_iff h2] at h3
    rw [h3] at h4
    have h5 : (chi (c, v) / v) ^ 2 = z ^ 2 := by
      rw [div_pow, div_eq_iff h2]
      linear_combination h4
    rcases sq_eq_sq_iff_eq_or_eq_neg.mp h5 with h6 | h6
    · exact ⟨v, hvd, hv, h6⟩
    · refine ⟨-v, hvd.mono (by rw [norm_neg]), neg_ne_zero.mpr hv, ?_⟩
      rw [chi_neg hvd, div_neg, h6, neg_neg]

/-- `χ` is 1 up to `|c| |u|^2`. -/
theorem chi_quad {c u : ℂ} (h : Dom c u) (hN : (c, u) ∈ N0) : ‖chi (c, u) - 1‖ ≤ 2 * (‖c‖ * ‖u‖ ^ 2) := by
  have key : ∀ (n : ℕ) (v : ℂ), Dom c v → (c, v) ∈ N0 →
      ‖chi (c, v) - 1‖ ≤ (7 / 13) ^ n * (1 / 7) + 7 / 6 * (‖c‖ * ‖v‖ ^ 2) := by
    intro n
    induction n with
    | zero =>
      intro v hv hN
      have := chi_near hv hN
      have h0 : 0 ≤ ‖c‖ * ‖v‖ ^ 2 := by positivity
      rw [pow_zero, one_mul]
      linarith
    | succ n ih =>
      intro v hv hN
      have h1 := ih (v ^ 2) (hv.mono (norm_sq_le hv.lt_one)) (N0_sq hN)
      have h2 : ‖chi (c, v) - 1‖ * ‖chi (c, v) + 1‖ = ‖(chi (c, v ^ 2) - 1) - c * v ^ 2‖ := by
        rw [← norm_mul, ← chi_step hv]
        congr 1
        ring
      have h3 := norm_sub_le (chi (c, v ^ 2) - 1) (c * v ^ 2)
      rw [norm_mul, norm_pow] at h3
      have h4 : 13 / 7 ≤ ‖chi (c, v) + 1‖ := by
        have h5 := norm_sub_norm_le (2 : ℂ) (-(chi (c, v) - 1))
        rw [norm_neg, show (2 : ℂ) - -(chi (c, v) - 1) = chi (c, v) + 1 by ring] at h5
        have : ‖(2 : ℂ)‖ = 2 := by simp
        linarith [chi_near hv hN]
      have h5 : ‖v ^ 2‖ ^ 2 ≤ ‖v‖ ^ 2 := by
        gcongr
        exact norm_sq_le hv.lt_one
      have h6 : ‖c‖ * ‖v ^ 2‖ ^ 2 ≤ ‖c‖ * ‖v‖ ^ 2 := by gcongr
      have h7 : ‖chi (c, v) - 1‖ * (13 / 7) ≤ ‖chi (c, v) - 1‖ * ‖chi (c, v) + 1‖ := by gcongr
      rw [pow_succ]
      linarith
  have ht : Tendsto (fun n : ℕ => (7 / 13 : ℝ) ^ n * (1 / 7) + 7 / 6 * (‖c‖ * ‖u‖ ^ 2)) atTop
      (𝓝 (0 * (1 / 7) + 7 / 6 * (‖c‖ * ‖u‖ ^ 2))) :=
    ((tendsto_pow_atTop_nhds_zero_of_lt_one (by norm_num) (by norm_num)).mul_const _).add_const _
  have := ge_of_tendsto' ht fun n => key n u h hN
  have h0 : 0 ≤ ‖c‖ * ‖u‖ ^ 2 := by positivity
  linarith

end MSet

end Mandelbrot
