import Verif.Series.NewtonRule
import Mathlib.Data.List.Chain

/-!
# C20: the schedule of Newton iterations
-/

namespace Mandelbrot

namespace Props

/-- The calls made for a list of sizes: each size is visited twice, first to extend from the previous
size, then to refine. -/
def newtonCalls : ℕ → List ℕ → List (ℤ × ℤ × Bool)
  | _, [] => []
  | p, m :: l => ((p : ℤ), (m : ℤ), false) :: ((p : ℤ), (m : ℤ), true) :: newtonCalls m l

/-- Run the calls in order. -/
def runCalls {σ : Type} (step : ℤ → ℤ → Bool → σ → Res σ) : List (ℤ × ℤ × Bool) → σ → Res σ
  | [], s => .ok s
  | c :: l, s => step c.1 c.2.1 c.2.2 s >>= runCalls step l

/-- The sizes `⌈n / 2^(k-1)⌉, ..., ⌈n / 2⌉, n`. -/
def newtonSizes (n : ℕ) : ℕ → List ℕ
  | 0 => []
  | k + 1 => (n ⌈/⌉ 2 ^ k) :: newtonSizes n k

theorem newtonSizes_length (n k : ℕ) : (newtonSizes n k).length = k := by
  induction k with
  | zero => rfl
  | succ k ih => simp [newtonSizes, ih]

theorem newtonLoop_eq_runCalls {σ : Type} (step : ℤ → ℤ → Bool → σ → Res σ) (n : ℕ) :
    ∀ (k n0 : ℕ) (s : σ),
      newtonLoop step n (2 * k) n0 s = runCalls step (newtonCalls n0 (newtonSizes n k)) s := by
  intro k
  induction k with
  | zero => intro n0 s; rfl
  | succ k ih =>
    intro n0 s
    have e1 : (2 * k + 1) / 2 = k := by omega
    have e2 : ((2 * k + 1) % 2 == 0) = false := by
      have : (2 * k + 1) % 2 = 1 := by omega
      rw [this]; rfl
    have e3 : 2 * k / 2 = k := by omega
    have e4 : (2 * k % 2 == 0) = true := by
      have : 2 * k % 2 = 0 := by omega
      rw [this]; rfl
    show newtonLoop step n (2 * k + 1 + 1) n0 s = _
    simp only [newtonLoop, e1, e2, e3, e4, newtonSizes, newtonCalls, runCalls, ceil_shift,
      Bool.false_eq_true, if_false, if_true]
    congr 1
    ext s1
    congr 1
    ext s2
    exact ih _ s2

/-- A list of sizes in which each is larger than the one before and at most twice as large. -/
def Doubling (n0 : ℕ) (l : List ℕ) : Prop := List.IsChain (fun a b => a < b ∧ b ≤ 2 * a) (n0 :: l)

theorem ceilDiv_lt_of_two_le {n k : ℕ} (h : 2 ≤ n ⌈/⌉ 2 ^ (k + 1)) :
    n ⌈/⌉ 2 ^ (k + 1) < n ⌈/⌉ 2 ^ k := by
  by_contra hc
  have h1 := (ceilDiv_le_iff_le_mul (b := n) (c := n ⌈/⌉ 2 ^ k) (Nat.two_pow_pos k)).mp le_rfl
  -- `n ≤ 2^k c` and `c ≤ ⌈n/2^(k+1)⌉`, while `2^(k+1) (⌈n/2^(k+1)⌉ - 1) < n`
  have h2 : ¬ n ⌈/⌉ 2 ^ (k + 1) ≤ n ⌈/⌉ 2 ^ (k + 1) - 1 := by omega
  rw [ceilDiv_le_iff_le_mul (Nat.two_pow_pos (k + 1))] at h2
  push Not at h2 hc
  generalize n ⌈/⌉ 2 ^ (k + 1) = c at *
  generalize n ⌈/⌉ 2 ^ k = d at *
  have h3 : 2 ^ (k + 1) * (c - 1) < 2 ^ k * c := h2.trans_le (h1.trans (Nat.mul_le_mul_left _ hc))
  rw [pow_succ, mul_assoc] at h3
  have h4 := Nat.lt_of_mul_lt_mul_left h3
  omega

theorem doubling_newtonSizes (n : ℕ) : ∀ (k n0 : ℕ), 0 < n0 →
    (∀ j, k = j + 1 → n0 < n ⌈/⌉ 2 ^ j ∧ n ⌈/⌉ 2 ^ j ≤ 2 * n0) → Doubling n0 (newtonSizes n k) := by
  intro k
  induction k with
  | zero => intro n0 _ _; exact List.isChain_singleton _
  | succ k ih =>
    intro n0 h0 h
    obtain ⟨h1, h2⟩ := h k rfl
    refine List.isChain_cons_cons.mpr ⟨⟨h1, h2⟩, ih _ (by omega) ?_⟩
    rintro j rfl
    exact ⟨ceilDiv_lt_of_two_le (by omega), ceilDiv_two_pow_succ n j⟩

theorem newtonSizes_last (n : ℕ) : ∀ (k n0 : ℕ), (k = 0 → n0 = n) →
    (n0 :: newtonSizes n k).getLast (List.cons_ne_nil _ _) = n := by
  intro k
  induction k with
  | zero => intro n0 h; exact h rfl
  | succ k ih =>
    intro n0 _
    rw [newtonSizes, List.getLast_cons_cons]
    refine ih _ ?_
    rintro rfl
    simp

/-- Sizes that at most double each time grow at most by `2^length`. -/
theorem le_two_pow_length : ∀ (l : List ℕ) (n0 n : ℕ),
    List.IsChain (fun a b => b ≤ 2 * a) (n0 :: l) →
    (n0 :: l).getLast (List.cons_ne_nil _ _) = n → n ≤ 2 ^ l.length * n0 := by
  intro l
  induction l with
  | nil => intro n0 n _ h; simp at h; simp [h]
  | cons m l ih =>
    intro n0 n h hn
    rw [List.isChain_cons_cons] at h
    rw [List.getLast_cons_cons] at hn
    have := ih m n h.2 hn
    calc n ≤ 2 ^ l.length * m := this
      _ ≤ 2 ^ l.length * (2 * n0) := Nat.mul_le_mul_left _ h.1
      _ = 2 ^ (m :: l).length * n0 := by rw [List.length_cons, pow_succ]; ring

/-- C20.  From `n0` correct terms to `n > n0 > 0`, `newton_iterate` calls the step for a list of sizes,
each twice (extend, then refine).  The sizes strictly increase, at most double, end exactly at `n`, and
no other list that at most doubles gets from `n0` to `n` in fewer steps. -/
theorem C20_schedule (n0 n : ℕ) (h0 : 0 < n0) (h : n0 < n) :
    ∃ sizes : List ℕ,
      Doubling n0 sizes ∧ (n0 :: sizes).getLast (List.cons_ne_nil _ _) = n ∧
      (∀ l : List ℕ, List.IsChain (fun a b => b ≤ 2 * a) (n0 :: l) →
        (n0 :: l).getLast (List.cons_ne_nil _ _) = n → sizes.length ≤ l.length) ∧
      ∀ {σ : Type} (step : ℤ → ℤ → Bool → σ → Res σ) (s : σ),
        newtonIterate step n0 n s = runCalls step (newtonCalls n0 sizes) s := by
  have hc : 1 < n ⌈/⌉ n0 := by
    by_contra hcon
    have : n ⌈/⌉ n0 ≤ 1 := by omega
    rw [ceilDiv_le_iff_le_mul h0] at this
    omega
  refine ⟨newtonSizes n (Nat.clog 2 (n ⌈/⌉ n0)), ?_, ?_, ?_, ?_⟩
  · refine doubling_newtonSizes n _ _ h0 ?_
    intro j hj
    have h1 : ¬ n ⌈/⌉ n0 ≤ 2 ^ j := by
      intro hle
      have := Nat.clog_le_of_le_pow hle
      omega
    have h2 : n ⌈/⌉ n0 ≤ 2 ^ (j + 1) := by
      rw [← hj]; exact Nat.le_pow_clog (by norm_num) _
    rw [ceilDiv_le_iff_le_mul h0] at h1 h2
    constructor
    · by_contra hcon
      push Not at hcon
      rw [ceilDiv_le_iff_le_mul (Nat.two_pow_pos j)] at hcon
      rw [mul_comm] at hcon
      omega
    · rw [ceilDiv_le_iff_le_mul (Nat.two_pow_pos j)]
      calc n ≤ n0 * 2 ^ (j + 1) := h2
        _ = 2 ^ j * (2 * n0) := by ring
  · refine newtonSizes_last n _ _ ?_
    intro hz
    have := Nat.clog_pos (b := 2) (by norm_num) (show 2 ≤ n ⌈/⌉ n0 by omega)
    omega
  · intro l hl hlast
    rw [newtonSizes_length]
    refine Nat.clog_le_of_le_pow ?_
    rw [ceilDiv_le_iff_le_mul h0, mul_comm]
    exact le_two_pow_length l n0 n hl hlast
  · intro σ step s
    have h1 : ¬ ((n : ℤ) ≤ n0) := by omega
    have h2 : (n0 : ℤ) > 0 := by omega
    simp only [newtonIterate, if_neg h1, slowAssert_true h2, bok, newtonSteps_eq h0 h.le,
      newtonLoop_eq_runCalls]

/-- C20.  Nothing is done when there are already enough terms, and starting from no terms is refused. -/
theorem C20_trivial {σ : Type} (step : ℤ → ℤ → Bool → σ → Res σ) (n0 n : ℤ) (s : σ) :
    (n ≤ n0 → newtonIterate step n0 n s = .ok s) ∧
    (n0 < n → n0 ≤ 0 → newtonIterate step n0 n s = .error .assertion) := by
  constructor
  · intro h; simp only [newtonIterate, if_pos h]
  · intro h h'
    simp only [newtonIterate, if_neg (show ¬ n ≤ n0 by omega),
      slowAssert_false (show ¬ n0 > 0 by omega), berr]

/-- From 5 to 18 terms: sizes 9, 18. -/
example : newtonIterate (fun a b r l => .ok (l ++ [(a, b, r)])) 5 18 [] =
    .ok [((5 : ℤ), (9 : ℤ), false), (5, 9, true), (9, 18, false), (9, 18, true)] := by
  have e : newtonSteps 5 18 = .ok 2 := by
    have := newtonSteps_eq (n0 := 5) (n := 18) (by norm_num) (by norm_num)
    rw [show (18 : ℕ) ⌈/⌉ 5 = 4 from rfl, show Nat.clog 2 4 = 2 by
      rw [show (4 : ℕ) = 2 ^ 2 from rfl, Nat.clog_pow 2 2 (by norm_num)]] at this
    exact_mod_cast this
  simp only [newtonIterate, e]
  rfl

end Props

end Mandelbrot
