import Mathlib.RingTheory.PowerSeries.Basic
import Mathlib.Algebra.Order.BigOperators.Ring.Finset
import Mathlib.Data.Real.Basic
import Mathlib.Tactic.Ring
import Mathlib.Tactic.Linarith

/-!
# Why a small residual bounds the error of a series (C68)

Nothing here models code of /repo.  `nrm n a` is the sum of the absolute values of the first `n` coefficients.
-/

namespace Mandelbrot.Known

open Finset PowerSeries

/-- Sum of the absolute values of the first `n` coefficients. -/
noncomputable def nrm (n : ℕ) (a : ℝ⟦X⟧) : ℝ := ∑ j ∈ range n, |coeff j a|

theorem nrm_nonneg (n : ℕ) (a : ℝ⟦X⟧) : 0 ≤ nrm n a := sum_nonneg fun _ _ => abs_nonneg _

theorem nrm_mono {m n : ℕ} (h : m ≤ n) (a : ℝ⟦X⟧) : nrm m a ≤ nrm n a :=
  sum_le_sum_of_subset_of_nonneg (range_mono h) fun _ _ _ => abs_nonneg _

theorem nrm_add (n : ℕ) (a b : ℝ⟦X⟧) : nrm n (a + b) ≤ nrm n a + nrm n b := by
  rw [nrm, nrm, nrm, ← sum_add_distrib]
  refine sum_le_sum fun j _ => ?_
  rw [map_add]
  exact abs_add_le _ _

theorem nrm_neg (n : ℕ) (a : ℝ⟦X⟧) : nrm n (-a) = nrm n a := by
  simp [nrm]

theorem nrm_sub (n : ℕ) (a b : ℝ⟦X⟧) : nrm n (a - b) ≤ nrm n a + nrm n b := by
  rw [sub_eq_add_neg, ← nrm_neg n b]
  exact nrm_add n a (-b)

theorem nrm_congr {n : ℕ} {a b : ℝ⟦X⟧} (h : ∀ j < n, coeff j a = coeff j b) : nrm n a = nrm n b :=
  sum_congr rfl fun j hj => by rw [h j (mem_range.1 hj)]

theorem nrm_mul_le (n : ℕ) (a b : ℝ⟦X⟧) :
    nrm n (a * b) ≤ ∑ p ∈ (range n ×ˢ range n) with p.1 + p.2 < n, |coeff p.1 a| * |coeff p.2 b| := by
  rw [← sum_fiberwise_of_maps_to (g := fun p : ℕ × ℕ => p.1 + p.2) (t := range n)
    (fun p hp => mem_range.2 (mem_filter.1 hp).2)]
  refine sum_le_sum fun j hj => ?_
  rw [mem_range] at hj
  rw [coeff_mul]
  refine (abs_sum_le_sum_abs _ _).trans (le_of_eq ?_)
  refine sum_congr ?_ fun p _ => abs_mul _ _
  ext p
  simp only [mem_antidiagonal, mem_filter, mem_product, mem_range]
  omega

theorem nrm_mul (n : ℕ) (a b : ℝ⟦X⟧) : nrm n (a * b) ≤ nrm n a * nrm n b := by
  refine (nrm_mul_le n a b).trans ?_
  rw [nrm, nrm, sum_mul_sum, ← sum_product']
  exact sum_le_sum_of_subset_of_nonneg (filter_subset _ _) fun p _ _ => mul_nonneg (abs_nonneg _) (abs_nonneg _)

/-- Two series that vanish at zero: the next coefficient of the product needs no new coefficient of the factors. -/
theorem nrm_mul_succ (n : ℕ) (a b : ℝ⟦X⟧) (ha : coeff 0 a = 0) (hb : coeff 0 b = 0) :
    nrm (n + 1) (a * b) ≤ nrm n a * nrm n b := by
  refine (nrm_mul_le _ a b).trans ?_
  rw [nrm, nrm, sum_mul_sum, ← sum_product']
  rw [← sum_filter_ne_zero]
  refine sum_le_sum_of_subset_of_nonneg (fun p hp => ?_) fun p _ _ => mul_nonneg (abs_nonneg _) (abs_nonneg _)
  obtain ⟨hp, h0⟩ := mem_filter.1 hp
  have h1 : p.1 ≠ 0 := by
    rintro h
    rw [h, ha] at h0
    simp at h0
  have h2 : p.2 ≠ 0 := by
    rintro h
    rw [h, hb] at h0
    simp at h0
  simp only [mem_filter, mem_product, mem_range] at hp ⊢
  omega

/-- **A small residual bounds the error.**  `F` is a series with `Q_k(F) = 1` modulo `z^n` (`Q` is any sequence with `Q_0 = F` and
`Q_(i+1) = Q_i^2 + z^(e_i) F`); `q` nearly satisfies the same recursion with `q_0` in place of `F`, `d` nearly that of the derivative,
and `x` is nearly the reciprocal of `d_k`.  All bounds are on the first `n` coefficients. -/
theorem perturb {k n : ℕ} {e : ℕ → ℕ} {F : ℝ⟦X⟧} {Q q d : ℕ → ℝ⟦X⟧} {x : ℝ⟦X⟧} {b D w : ℕ → ℝ} {δ η γ ξ θ : ℝ}
    (hQ0 : Q 0 = F) (hQ : ∀ i < k, Q (i + 1) = Q i * Q i + X ^ e i * F) (hF : ∀ j < n, coeff j (Q k) = coeff j (1 : ℝ⟦X⟧))
    (hQc : ∀ i ≤ k, coeff 0 (Q i) = 1) (hqc : ∀ i ≤ k, coeff 0 (q i) = 1) (hd0 : ∀ j < n, coeff j (d 0) = coeff j (1 : ℝ⟦X⟧))
    (hρ : ∀ i < k, nrm n (q i * q i + X ^ e i * q 0 - q (i + 1)) ≤ δ)
    (hσ : ∀ i < k, nrm n (2 * (q i * d i) + X ^ e i - d (i + 1)) ≤ δ)
    (hσ0 : ∀ i < k, coeff 0 (2 * (q i * d i) + X ^ e i - d (i + 1)) = 0)
    (hb : ∀ i < k, nrm n (q i) ≤ b i) (hD : ∀ i < k, nrm n (d i) ≤ D i) (hw : ∀ i ≤ k, 0 ≤ w i)
    (hstep : ∀ i < k, 2 * b i * w i + (D i * η + w i) ^ 2 + δ + δ * η ≤ w (i + 1))
    (hg : nrm n (q k - 1) ≤ γ) (hx : nrm n x ≤ ξ) (hθ : nrm n (x * d k - 1) ≤ θ) (hη : 0 ≤ η) (hθ1 : θ < 1)
    (hend : ξ * (γ + w k) ≤ (1 - θ) * η) :
    nrm n (F - q 0) ≤ η := by
  have key : ∀ m ≤ n, nrm m (F - q 0) ≤ η ∧ ∀ i ≤ k, nrm m (Q i - q i - d i * (F - q 0)) ≤ w i := by
    intro m
    induction m with
    | zero =>
      intro _
      exact ⟨by simpa [nrm] using hη, fun i hi => by simpa [nrm] using hw i hi⟩
    | succ m ih =>
      intro hm
      obtain ⟨ihε, ihw⟩ := ih (by omega)
      have ε0 : coeff 0 (F - q 0) = 0 := by
        rw [map_sub, ← hQ0, hQc 0 (by omega), hqc 0 (by omega), sub_self]
      have hw' : ∀ i ≤ k, nrm (m + 1) (Q i - q i - d i * (F - q 0)) ≤ w i := by
        intro i
        induction i with
        | zero =>
          intro _
          have : nrm (m + 1) (Q 0 - q 0 - d 0 * (F - q 0)) = 0 := by
            refine sum_eq_zero fun j hj => ?_
            rw [mem_range] at hj
            have h1 : coeff j (d 0 * (F - q 0)) = coeff j (1 * (F - q 0)) := by
              rw [coeff_mul, coeff_mul]
              refine sum_congr rfl fun p hp => ?_
              rw [mem_antidiagonal] at hp
              rw [hd0 p.1 (by omega)]
            rw [map_sub, h1, one_mul, hQ0, sub_self, abs_zero]
          rw [this]
          exact hw 0 (by omega)
        | succ i ihi =>
          intro hi
          have u0 : coeff 0 (Q i - q i) = 0 := by
            rw [map_sub, hQc i (by omega), hqc i (by omega), sub_self]
          have hu : nrm m (Q i - q i) ≤ D i * η + w i := by
            have e1 : Q i - q i = d i * (F - q 0) + (Q i - q i - d i * (F - q 0)) := by ring
            rw [e1]
            refine (nrm_add _ _ _).trans (add_le_add ?_ (ihw i (by omega)))
            refine (nrm_mul _ _ _).trans ?_
            exact mul_le_mul ((nrm_mono (by omega) _).trans (hD i (by omega))) ihε (nrm_nonneg _ _)
              ((nrm_nonneg n _).trans (hD i (by omega)))
          have e2 : Q (i + 1) - q (i + 1) - d (i + 1) * (F - q 0) =
              2 * q i * (Q i - q i - d i * (F - q 0)) + (Q i - q i) * (Q i - q i)
                + (q i * q i + X ^ e i * q 0 - q (i + 1)) + (2 * (q i * d i) + X ^ e i - d (i + 1)) * (F - q 0) := by
            rw [hQ i (by omega)]
            ring
          rw [e2]
          have t1 : nrm (m + 1) (2 * q i * (Q i - q i - d i * (F - q 0))) ≤ 2 * b i * w i := by
            have e3 : 2 * q i * (Q i - q i - d i * (F - q 0)) =
              q i * (Q i - q i - d i * (F - q 0)) + q i * (Q i - q i - d i * (F - q 0)) := by ring
            rw [e3]
            have h1 : nrm (m + 1) (q i * (Q i - q i - d i * (F - q 0))) ≤ b i * w i := by
              refine (nrm_mul _ _ _).trans ?_
              exact mul_le_mul ((nrm_mono (by omega) _).trans (hb i (by omega))) (ihi (by omega)) (nrm_nonneg _ _)
                ((nrm_nonneg n _).trans (hb i (by omega)))
            refine (nrm_add _ _ _).trans ?_
            linarith
          have t2 : nrm (m + 1) ((Q i - q i) * (Q i - q i)) ≤ (D i * η + w i) ^ 2 := by
            refine (nrm_mul_succ _ _ _ u0 u0).trans ?_
            rw [sq]
            exact mul_le_mul hu hu (nrm_nonneg _ _) ((nrm_nonneg _ _).trans hu)
          have t3 : nrm (m + 1) (q i * q i + X ^ e i * q 0 - q (i + 1)) ≤ δ := (nrm_mono (by omega) _).trans (hρ i (by omega))
          have t4 : nrm (m + 1) ((2 * (q i * d i) + X ^ e i - d (i + 1)) * (F - q 0)) ≤ δ * η := by
            refine (nrm_mul_succ _ _ _ (hσ0 i (by omega)) ε0).trans ?_
            exact mul_le_mul ((nrm_mono (by omega) _).trans (hσ i (by omega))) ihε (nrm_nonneg _ _)
              ((nrm_nonneg n _).trans (hσ i (by omega)))
          have := nrm_add (m + 1) (2 * q i * (Q i - q i - d i * (F - q 0)) + (Q i - q i) * (Q i - q i)
                + (q i * q i + X ^ e i * q 0 - q (i + 1))) ((2 * (q i * d i) + X ^ e i - d (i + 1)) * (F - q 0))
          have := nrm_add (m + 1) (2 * q i * (Q i - q i - d i * (F - q 0)) + (Q i - q i) * (Q i - q i))
                (q i * q i + X ^ e i * q 0 - q (i + 1))
          have := nrm_add (m + 1) (2 * q i * (Q i - q i - d i * (F - q 0))) ((Q i - q i) * (Q i - q i))
          have := hstep i (by omega)
          linarith
      refine ⟨?_, hw'⟩
      have e4 : ∀ j < m + 1, coeff j (F - q 0) =
          coeff j (-(x * (q k - 1 + (Q k - q k - d k * (F - q 0)))) - (x * d k - 1) * (F - q 0)) := by
        intro j hj
        have e5 : -(x * (q k - 1 + (Q k - q k - d k * (F - q 0)))) - (x * d k - 1) * (F - q 0) =
          F - q 0 - x * (Q k - 1) := by ring
        rw [e5, map_sub _ (F - q 0)]
        have : coeff j (x * (Q k - 1)) = 0 := by
          rw [coeff_mul]
          refine sum_eq_zero fun p hp => ?_
          rw [mem_antidiagonal] at hp
          rw [map_sub, hF p.2 (by omega), sub_self, mul_zero]
        rw [this, sub_zero]
      have h1 := nrm_congr e4
      have h2 := nrm_sub (m + 1) (-(x * (q k - 1 + (Q k - q k - d k * (F - q 0))))) ((x * d k - 1) * (F - q 0))
      rw [nrm_neg] at h2
      have h3 : nrm (m + 1) (x * (q k - 1 + (Q k - q k - d k * (F - q 0)))) ≤ ξ * (γ + w k) := by
        refine (nrm_mul _ _ _).trans (mul_le_mul ((nrm_mono hm _).trans hx) ?_ (nrm_nonneg _ _) ((nrm_nonneg n _).trans hx))
        exact (nrm_add _ _ _).trans (add_le_add ((nrm_mono hm _).trans hg) (hw' k le_rfl))
      have h4 : nrm (m + 1) ((x * d k - 1) * (F - q 0)) ≤ θ * nrm (m + 1) (F - q 0) :=
        (nrm_mul _ _ _).trans (mul_le_mul_of_nonneg_right ((nrm_mono hm _).trans hθ) (nrm_nonneg _ _))
      have h5 : (1 - θ) * nrm (m + 1) (F - q 0) ≤ (1 - θ) * η := by linarith
      exact le_of_mul_le_mul_left h5 (by linarith)
  exact (key n le_rfl).1

end Mandelbrot.Known
