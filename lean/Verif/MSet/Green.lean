import Verif.Spec.MandelbrotSet
import Mathlib.Analysis.Complex.Basic
import Mathlib.Analysis.SpecialFunctions.Log.Basic
import Mathlib.Analysis.SpecificLimits.Basic
import Mathlib.Topology.Algebra.InfiniteSum.Real
import Mathlib.Analysis.Normed.Group.FunctionSeries

/-!
# The Mandelbrot set and the rate of escape

No function of /repo is modelled here: this is the mathematics behind the claim of /repo/README.md lines 7-23, that
the numbers printed by /repo/area.cc bound the area of the Mandelbrot set.

`G c z` is the rate of escape of `z` under `z ↦ z^2 + c`.
-/

namespace Mandelbrot

namespace MSet

open Filter Topology

/-- `z ↦ z^2 + c`, `n` times. -/
def orb (c z : ℂ) : ℕ → ℂ
  | 0 => z
  | n + 1 => orb c z n ^ 2 + c

theorem orb_shift (c z : ℂ) (n : ℕ) : orb c (z ^ 2 + c) n = orb c z (n + 1) := by
  induction n with
  | zero => rfl
  | succ n ih => rw [orb, ih]; rfl

theorem orb_add (c z : ℂ) (m n : ℕ) : orb c (orb c z m) n = orb c z (m + n) := by
  induction n with
  | zero => rfl
  | succ n ih => rw [orb, ih]; rfl

theorem orb_continuous (n : ℕ) : Continuous fun p : ℂ × ℂ => orb p.1 p.2 n := by
  induction n with
  | zero => exact continuous_snd
  | succ n ih => exact (ih.pow 2).add continuous_fst

/-- `log max(1, |z|)`. -/
noncomputable def L (z : ℂ) : ℝ := Real.log (max 1 ‖z‖)

/-- How far one step is from doubling `L`. -/
noncomputable def B (c : ℂ) : ℝ := Real.log (2 * (1 + ‖c‖))

theorem L_nonneg (z : ℂ) : 0 ≤ L z := Real.log_nonneg (le_max_left _ _)

theorem B_nonneg (c : ℂ) : 0 ≤ B c := Real.log_nonneg (by have := norm_nonneg c; linarith)

theorem L_continuous : Continuous L := by
  unfold L
  refine Continuous.log (by fun_prop) fun z => ?_
  have : (1 : ℝ) ≤ max 1 ‖z‖ := le_max_left _ _
  linarith

theorem L_of_one_le {z : ℂ} (h : 1 ≤ ‖z‖) : L z = Real.log ‖z‖ := by rw [L, max_eq_right h]

theorem step_bound (c z : ℂ) : |L (z ^ 2 + c) - 2 * L z| ≤ B c := by
  have hc := norm_nonneg c
  have hz := norm_nonneg z
  set m := max 1 ‖z‖ with hm
  have m1 : 1 ≤ m := le_max_left _ _
  have mz : ‖z‖ ≤ m := le_max_right _ _
  have e2 : 2 * L z = Real.log (m ^ 2) := by rw [Real.log_pow]; rfl
  rw [abs_le, e2]
  constructor
  · have key : m ^ 2 ≤ max 1 ‖z ^ 2 + c‖ * (2 * (1 + ‖c‖)) := by
      have h1 : (1 : ℝ) ≤ max 1 ‖z ^ 2 + c‖ := le_max_left _ _
      rcases le_or_gt (m ^ 2) (2 * (1 + ‖c‖)) with h | h
      · nlinarith
      · have hzm : m = ‖z‖ := by
          rcases max_choice 1 ‖z‖ with h' | h'
          · rw [← hm] at h'
            rw [h'] at h
            nlinarith
          · rwa [← hm] at h'
        have h2 : ‖z‖ ^ 2 - ‖c‖ ≤ ‖z ^ 2 + c‖ := by
          have := norm_sub_le (z ^ 2 + c) c
          rw [add_sub_cancel_right, norm_pow] at this
          linarith
        have h3 : ‖z ^ 2 + c‖ ≤ max 1 ‖z ^ 2 + c‖ := le_max_right _ _
        rw [hzm] at h ⊢
        nlinarith
    have := Real.log_le_log (by positivity) key
    rw [Real.log_mul (by positivity) (by positivity)] at this
    unfold B L
    linarith
  · have key : max 1 ‖z ^ 2 + c‖ ≤ m ^ 2 * (2 * (1 + ‖c‖)) := by
      apply max_le
      · nlinarith
      · have := norm_add_le (z ^ 2) c
        rw [norm_pow] at this
        have h4 : ‖z‖ ^ 2 ≤ m ^ 2 := by gcongr
        have h5 : (1 : ℝ) ≤ m ^ 2 := one_le_pow₀ m1
        have h6 : ‖c‖ ≤ m ^ 2 * ‖c‖ := le_mul_of_one_le_left hc h5
        nlinarith
    have := Real.log_le_log (by positivity) key
    rw [Real.log_mul (by positivity) (by positivity)] at this
    unfold B L
    linarith

/-- The terms of the rate of escape. -/
noncomputable def term (c z : ℂ) (n : ℕ) : ℝ := (L (orb c z (n + 1)) - 2 * L (orb c z n)) / 2 ^ (n + 1)

theorem term_bound (c z : ℂ) (n : ℕ) : ‖term c z n‖ ≤ B c * (1 / 2) ^ n / 2 := by
  rw [term, norm_div, Real.norm_eq_abs, Real.norm_eq_abs, abs_of_pos (by positivity : (0 : ℝ) < 2 ^ (n + 1)),
    div_le_iff₀ (by positivity)]
  have e : B c * (1 / 2) ^ n / 2 * 2 ^ (n + 1) = B c := by
    rw [pow_succ, one_div, inv_pow]
    field_simp
  rw [e]
  exact step_bound c _

theorem summable_bound (b : ℝ) : Summable fun n : ℕ => b * (1 / 2 : ℝ) ^ n / 2 := by
  have := (summable_geometric_two.mul_left b).div_const 2
  exact this

theorem tsum_bound (b : ℝ) : ∑' n : ℕ, b * (1 / 2 : ℝ) ^ n / 2 = b := by
  rw [tsum_div_const, tsum_mul_left, tsum_geometric_two]
  ring

theorem term_summable (c z : ℂ) : Summable (term c z) :=
  Summable.of_norm_bounded (summable_bound (B c)) (term_bound c z)

/-- The rate of escape. -/
noncomputable def G (c z : ℂ) : ℝ := L z + ∑' n, term c z n

theorem G_sub_L (c z : ℂ) : |G c z - L z| ≤ B c := by
  rw [G, add_sub_cancel_left, ← Real.norm_eq_abs]
  have := tsum_of_norm_bounded (summable_bound (B c)).hasSum (term_bound c z)
  rwa [tsum_bound] at this

theorem G_step (c z : ℂ) : G c (z ^ 2 + c) = 2 * G c z := by
  have h := (term_summable c z).tsum_eq_zero_add
  have e : ∀ n, term c z (n + 1) = term c (z ^ 2 + c) n / 2 := by
    intro n
    rw [term, term, orb_shift, orb_shift, div_div, ← pow_succ]
  rw [G, G, h, funext e, tsum_div_const]
  simp only [term, orb, zero_add, pow_one]
  ring

theorem G_orb (c z : ℂ) (n : ℕ) : G c (orb c z n) = 2 ^ n * G c z := by
  induction n with
  | zero => simp [orb]
  | succ n ih => rw [orb, G_step, ih, pow_succ]; ring

theorem G_nonneg (c z : ℂ) : 0 ≤ G c z := by
  by_contra h
  push Not at h
  obtain ⟨n, hn⟩ := pow_unbounded_of_one_lt (B c / -G c z) (one_lt_two (α := ℝ))
  rw [div_lt_iff₀ (by linarith)] at hn
  have h1 := abs_le.mp (G_sub_L c (orb c z n))
  have h2 := L_nonneg (orb c z n)
  rw [G_orb] at h1
  linarith [h1.1]

theorem G_continuous : Continuous fun p : ℂ × ℂ => G p.1 p.2 := by
  rw [continuous_iff_continuousAt]
  rintro ⟨c₀, z₀⟩
  set R := ‖c₀‖ + 1 with hR
  have hopen : IsOpen {p : ℂ × ℂ | ‖p.1‖ < R} := isOpen_lt (by fun_prop) (by fun_prop)
  have hb : ∀ n (p : ℂ × ℂ), p ∈ {p : ℂ × ℂ | ‖p.1‖ < R} →
      ‖term p.1 p.2 n‖ ≤ Real.log (2 * (1 + R)) * (1 / 2) ^ n / 2 := by
    intro n p hp
    refine (term_bound p.1 p.2 n).trans ?_
    have : B p.1 ≤ Real.log (2 * (1 + R)) := by
      apply Real.log_le_log
      · have := norm_nonneg p.1
        linarith
      · have : ‖p.1‖ < R := hp
        linarith
    gcongr
  have hc : ContinuousOn (fun p : ℂ × ℂ => ∑' n, term p.1 p.2 n) {p : ℂ × ℂ | ‖p.1‖ < R} := by
    refine continuousOn_tsum (fun n => ?_) (summable_bound _) hb
    apply Continuous.continuousOn
    unfold term
    exact ((L_continuous.comp (orb_continuous (n + 1))).sub
      (continuous_const.mul (L_continuous.comp (orb_continuous n)))).div_const _
  have h0 : (c₀, z₀) ∈ {p : ℂ × ℂ | ‖p.1‖ < R} := show ‖c₀‖ < R by rw [hR]; linarith
  have h1 := hc.continuousAt (hopen.mem_nhds h0)
  exact (L_continuous.comp continuous_snd).continuousAt.add h1

theorem mandel_eq_orb (c : ℂ) (n : ℕ) : Spec.mandel c n = orb c c n := by
  induction n with
  | zero => rfl
  | succ n ih => rw [Spec.mandel, ih, orb, sq]

theorem mem_iff (c : ℂ) : c ∈ Spec.mandelbrotSet ↔ G c c = 0 := by
  constructor
  · rintro ⟨R, hR⟩
    by_contra h
    have hp : 0 < G c c := lt_of_le_of_ne (G_nonneg c c) (Ne.symm h)
    obtain ⟨n, hn⟩ := pow_unbounded_of_one_lt ((Real.log (max 1 R) + B c) / G c c) (one_lt_two (α := ℝ))
    rw [div_lt_iff₀ hp] at hn
    have h1 := abs_le.mp (G_sub_L c (orb c c n))
    rw [G_orb] at h1
    have h2 : L (orb c c n) ≤ Real.log (max 1 R) := by
      have := hR n
      rw [mandel_eq_orb] at this
      exact Real.log_le_log (by positivity) (max_le_max le_rfl this)
    linarith [h1.2]
  · intro h
    refine ⟨Real.exp (B c), fun n => ?_⟩
    rw [mandel_eq_orb]
    have h1 := abs_le.mp (G_sub_L c (orb c c n))
    rw [G_orb, h, mul_zero] at h1
    have h2 : L (orb c c n) ≤ B c := by linarith [h1.1]
    rw [L, Real.log_le_iff_le_exp (by positivity)] at h2
    exact (le_max_right _ _).trans h2

theorem G_critical (c : ℂ) : G c c = 2 * G c 0 := by
  have := G_step c 0
  rwa [zero_pow two_ne_zero, zero_add] at this

end MSet

end Mandelbrot
