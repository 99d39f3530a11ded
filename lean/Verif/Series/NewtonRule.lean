import Verif.Series.Model
import Mathlib.Algebra.Order.Floor.Div
import Mathlib.Tactic.Ring
import Mathlib.Tactic.Linarith
import Mathlib.NumberTheory.Padics.PadicVal.Basic

/-!
# Reasoning rule for `newton_iterate`
-/

namespace Mandelbrot

/-- `⌈n / 2^k⌉`. -/
theorem ceil_shift (n k : ℕ) : (((n : ℤ) + 2 ^ k - 1) / 2 ^ k) = ((n ⌈/⌉ 2 ^ k : ℕ) : ℤ) := by
  rw [Nat.ceilDiv_eq_add_pred_div]
  have : 0 < 2 ^ k := Nat.two_pow_pos k
  push_cast [Nat.cast_sub (show 1 ≤ n + 2 ^ k by omega)]
  rfl

theorem countrZero64_bitCeil (m : ℕ) : countrZero64 (bitCeil m) = Nat.clog 2 m := by
  rw [countrZero64, bitCeil, if_neg (by positivity)]
  have : Fact (Nat.Prime 2) := ⟨Nat.prime_two⟩
  rw [padicValNat.prime_pow]

theorem newtonSteps_eq {n0 n : ℕ} (h0 : 0 < n0) (h : n0 ≤ n) :
    newtonSteps n0 n = .ok (Nat.clog 2 (n ⌈/⌉ n0)) := by
  have hc : (0 : ℤ) < n0 ∧ (n0 : ℤ) ≤ n := by omega
  have e : (((n : ℤ) + n0 - 1) / n0).toNat = n ⌈/⌉ n0 := by
    rw [Nat.ceilDiv_eq_add_pred_div]
    have : ((n : ℤ) + n0 - 1) = ((n + n0 - 1 : ℕ) : ℤ) := by
      push_cast [Nat.cast_sub (show 1 ≤ n + n0 by omega)]; ring
    rw [this]
    norm_cast
  simp only [newtonSteps, slowAssert, if_pos hc, e, countrZero64_bitCeil]
  rfl

theorem ceilDiv_two_pow_succ (n k : ℕ) : n ⌈/⌉ 2 ^ k ≤ 2 * (n ⌈/⌉ 2 ^ (k + 1)) := by
  rw [ceilDiv_le_iff_le_mul (Nat.two_pow_pos k)]
  have h := (ceilDiv_le_iff_le_mul (b := n) (c := n ⌈/⌉ 2 ^ (k + 1)) (Nat.two_pow_pos (k + 1))).mp le_rfl
  calc n ≤ 2 ^ (k + 1) * (n ⌈/⌉ 2 ^ (k + 1)) := h
    _ = 2 ^ k * (2 * (n ⌈/⌉ 2 ^ (k + 1))) := by ring

theorem ceilDiv_two_pow_le (n k : ℕ) : n ⌈/⌉ 2 ^ (k + 1) ≤ n ⌈/⌉ 2 ^ k := by
  rw [ceilDiv_le_iff_le_mul (Nat.two_pow_pos (k + 1))]
  have h := (ceilDiv_le_iff_le_mul (b := n) (c := n ⌈/⌉ 2 ^ k) (Nat.two_pow_pos k)).mp le_rfl
  calc n ≤ 2 ^ k * (n ⌈/⌉ 2 ^ k) := h
    _ ≤ 2 ^ (k + 1) * (n ⌈/⌉ 2 ^ k) := Nat.mul_le_mul_right _ (Nat.pow_le_pow_right (by norm_num) (by omega))

section
variable {σ : Type} (step : ℤ → ℤ → Bool → σ → Res σ)

theorem newtonLoop_rule (n : ℕ) (P : ℕ → σ → Prop)
    (hstep : ∀ (m0 m : ℕ) (r : Bool) (s : σ), 0 < m0 → m0 ≤ m → m ≤ 2 * m0 → m ≤ n →
      P (if r then m else m0) s → ∃ s', step m0 m r s = .ok s' ∧ P m s') :
    ∀ (k n0 : ℕ) (s : σ), 0 < n0 → P n0 s →
      (k = 0 → n0 = n) → (∀ j, k = j + 1 → n0 ≤ n ⌈/⌉ 2 ^ j ∧ n ⌈/⌉ 2 ^ j ≤ 2 * n0) →
      ∃ s', newtonLoop step n (2 * k) n0 s = .ok s' ∧ P n s' := by
  intro k
  induction k with
  | zero =>
    intro n0 s _ hP h _
    exact ⟨s, rfl, h rfl ▸ hP⟩
  | succ k ih =>
    intro n0 s h0 hP _ h
    obtain ⟨h1, h2⟩ := h k rfl
    set m := n ⌈/⌉ 2 ^ k with hm
    have hmn : m ≤ n := by
      rw [hm, ceilDiv_le_iff_le_mul (Nat.two_pow_pos k)]
      exact Nat.le_mul_of_pos_left _ (Nat.two_pow_pos k)
    obtain ⟨s1, e1, p1⟩ := hstep n0 m false s h0 h1 h2 hmn (by simpa using hP)
    obtain ⟨s2, e2, p2⟩ := hstep n0 m true s1 h0 h1 h2 hmn (by simpa using p1)
    have hcs := ceil_shift n k
    rw [← hm] at hcs
    have hk1 : (2 * k + 1) / 2 = k := by omega
    have hk2 : (2 * k) / 2 = k := by omega
    have b1 : ((2 * k + 1) % 2 == 0) = false := by
      have : (2 * k + 1) % 2 = 1 := by omega
      rw [this]; rfl
    have b2 : ((2 * k) % 2 == 0) = true := by
      have : (2 * k) % 2 = 0 := by omega
      rw [this]; rfl
    have hu : newtonLoop step n (2 * (k + 1)) n0 s = newtonLoop step n (2 * k) m s2 := by
      show newtonLoop step n ((2 * k + 1) + 1) n0 s = _
      simp only [newtonLoop, hk1, b1, hcs, e1]
      show newtonLoop step n (2 * k + 1) n0 s1 = _
      simp only [newtonLoop, hk2, b2, hcs, e2]
      rfl
    rw [hu]
    refine ih m s2 (by omega) p2 ?_ ?_
    · rintro rfl
      rw [hm]; simp
    · rintro j rfl
      exact ⟨ceilDiv_two_pow_le n j, ceilDiv_two_pow_succ n j⟩

theorem clog_ceilDiv_bounds {n0 n j : ℕ} (h0 : 0 < n0)
    (hk : Nat.clog 2 (n ⌈/⌉ n0) = j + 1) :
    n0 < n ⌈/⌉ 2 ^ j ∧ n ⌈/⌉ 2 ^ j ≤ 2 * n0 := by
  constructor
  · by_contra hc
    push Not at hc
    rw [ceilDiv_le_iff_le_mul (Nat.two_pow_pos j), mul_comm, ← ceilDiv_le_iff_le_mul h0,
      ← Nat.clog_le_iff_le_pow (by norm_num)] at hc
    omega
  · rw [ceilDiv_le_iff_le_mul (Nat.two_pow_pos j)]
    have h2 : n ⌈/⌉ n0 ≤ 2 ^ (j + 1) := by
      rw [← hk]; exact Nat.le_pow_clog (by norm_num) _
    rw [ceilDiv_le_iff_le_mul h0] at h2
    calc n ≤ n0 * 2 ^ (j + 1) := h2
      _ = 2 ^ j * (2 * n0) := by ring

/-- If a step takes `m0` exact terms (or `m`, when refining) to `m ≤ 2 m0` exact terms, the iteration
ends with `n` exact terms. -/
theorem newtonIterate_rule (n : ℕ) (P : ℕ → σ → Prop)
    (hstep : ∀ (m0 m : ℕ) (r : Bool) (s : σ), 0 < m0 → m0 ≤ m → m ≤ 2 * m0 → m ≤ n →
      P (if r then m else m0) s → ∃ s', step m0 m r s = .ok s' ∧ P m s')
    (n0 : ℕ) (s : σ) (hn : n0 ≤ n) (h0 : n0 < n → 0 < n0) (hP : P n0 s) :
    ∃ s', newtonIterate step n0 n s = .ok s' ∧ P n s' := by
  rcases hn.eq_or_lt with rfl | hlt
  · exact ⟨s, by simp [newtonIterate], hP⟩
  · have h0 := h0 hlt
    have hu : newtonIterate step n0 n s =
        newtonLoop step n (2 * Nat.clog 2 (n ⌈/⌉ n0)) n0 s := by
      have h1 : ¬ ((n : ℤ) ≤ n0) := by omega
      have h2 : (n0 : ℤ) > 0 := by omega
      simp only [newtonIterate, if_neg h1, slowAssert, if_pos h2, newtonSteps_eq h0 hn]
      rfl
    rw [hu]
    refine newtonLoop_rule step n P hstep _ n0 s h0 hP ?_ ?_
    · intro hk
      exfalso
      have h2 : n ⌈/⌉ n0 ≤ 2 ^ 0 := by
        rw [← hk]; exact Nat.le_pow_clog (by norm_num) _
      rw [ceilDiv_le_iff_le_mul h0] at h2
      omega
    · intro j hk
      obtain ⟨a, b⟩ := clog_ceilDiv_bounds h0 hk
      exact ⟨a.le, b⟩

end

end Mandelbrot
