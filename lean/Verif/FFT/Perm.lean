import Verif.FFT.Eval

/-!
# Bit reversal and the permutations of the shifted transform
-/

namespace Mandelbrot.FFT

theorem bitReverse_lt (p i : ℕ) : bitReverse p i < 2 ^ p := by
  induction p generalizing i with
  | zero => simp [bitReverse]
  | succ p ih =>
    have := ih (i / 2)
    rw [bitReverse, pow_succ]
    rcases Nat.mod_two_eq_zero_or_one i with h | h <;> rw [h] <;> omega

@[simp] theorem bitReverse_zero (p : ℕ) : bitReverse p 0 = 0 := by
  induction p with
  | zero => rfl
  | succ p ih => simp [bitReverse, ih]

/-- The recursion from the high end. -/
theorem bitReverse_top (p b r : ℕ) (hb : b < 2) (hr : r < 2 ^ p) :
    bitReverse (p + 1) (b * 2 ^ p + r) = 2 * bitReverse p r + b := by
  induction p generalizing r with
  | zero =>
    have : r = 0 := by simpa using hr
    subst this
    simp [bitReverse]; omega
  | succ p ih =>
    have h1 : (b * 2 ^ (p + 1) + r) % 2 = r % 2 := by rw [pow_succ, ← mul_assoc]; omega
    have h2 : (b * 2 ^ (p + 1) + r) / 2 = b * 2 ^ p + r / 2 := by rw [pow_succ, ← mul_assoc]; omega
    rw [bitReverse, h1, h2, ih (r / 2) (by rw [pow_succ] at hr; omega), bitReverse, pow_succ]
    ring

theorem bitReverse_even (p r : ℕ) (hr : r < 2 ^ p) : bitReverse (p + 1) r = 2 * bitReverse p r := by
  simpa using bitReverse_top p 0 r (by norm_num) hr

theorem bitReverse_invol (p : ℕ) {i : ℕ} (hi : i < 2 ^ p) : bitReverse p (bitReverse p i) = i := by
  induction p generalizing i with
  | zero => have : i = 0 := by simpa using hi
            subst this; rfl
  | succ p ih =>
    have h2 : i / 2 < 2 ^ p := by rw [pow_succ] at hi; omega
    rw [show bitReverse (p + 1) i = i % 2 * 2 ^ p + bitReverse p (i / 2) from rfl,
      bitReverse_top p _ _ (Nat.mod_lt _ (by norm_num)) (bitReverse_lt p _), ih h2]
    omega

theorem bitReverse_inj (p : ℕ) {i j : ℕ} (hi : i < 2 ^ p) (hj : j < 2 ^ p) (h : bitReverse p i = bitReverse p j) :
    i = j := by
  rw [← bitReverse_invol p hi, h, bitReverse_invol p hj]

/-- Reversing in a wider word. -/
theorem bitReverse_wide (p d : ℕ) {i : ℕ} (hi : i < 2 ^ p) : bitReverse (p + d) i = bitReverse p i * 2 ^ d := by
  induction p generalizing i with
  | zero =>
    have : i = 0 := by simpa using hi
    subst this; simp
  | succ p ih =>
    rw [show p + 1 + d = p + d + 1 by ring, bitReverse, bitReverse, ih (by rw [pow_succ] at hi; omega), pow_add]
    ring

theorem bitReverse_shift {w p : ℕ} (hp : p ≤ w) {i : ℕ} (hi : i < 2 ^ p) :
    bitReverse w i >>> (w - p) = bitReverse p i := by
  obtain ⟨d, rfl⟩ := Nat.exists_eq_add_of_le hp
  rw [bitReverse_wide p d hi, Nat.shiftRight_eq_div_pow, Nat.add_sub_cancel_left]
  exact Nat.mul_div_cancel _ (by positivity)

/-- Bit `k` of the reversed number is bit `p - 1 - k` of the number. -/
theorem bitReverse_testBit (p i k : ℕ) (hk : k < p) : (bitReverse p i).testBit k = i.testBit (p - 1 - k) := by
  induction p generalizing i with
  | zero => omega
  | succ p ih =>
    rw [bitReverse]
    by_cases h : k = p
    · subst h
      rw [mul_comm, Nat.testBit_two_pow_mul_add _ (bitReverse_lt _ _)]
      simp [Nat.testBit_zero]
    · rw [mul_comm, Nat.testBit_two_pow_mul_add _ (bitReverse_lt _ _), if_pos (by omega), ih _ (by omega),
        Nat.testBit_div_two]
      congr 1; omega

/-- `bitrev` on a power of two applies the bit reversal to the indices. -/
theorem bitrev_eq {α : Type} {p : ℕ} (hp : 1 ≤ p) (hp' : p ≤ 64) (y : ℕ → α) :
    ∃ y', bitrev (2 ^ p) y = .ok y' ∧ ∀ k, y' k = if k < 2 ^ p then y (bitReverse p k) else y k := by
  have h1 : p ≠ 0 := by omega
  simp only [bitrev, countrZero64_pow, if_neg h1]
  refine ⟨_, rfl, fun k => ?_⟩
  set own : ℕ → ℕ := fun k => if k < 2 ^ p then min k (bitReverse p k) else k with hown
  rw [forLoop_own (2 ^ p) _ own]
  · by_cases hk : k < 2 ^ p
    · have hr := bitReverse_lt p k
      have ho : own k = min k (bitReverse p k) := by simp [hown, hk]
      have hlt : own k < 2 ^ p := by rw [ho]; omega
      rw [if_pos hlt, if_pos hk, bitReverse_shift hp' hlt]
      rcases lt_trichotomy k (bitReverse p k) with h | h | h
      · have e : own k = k := by rw [ho]; omega
        rw [e, if_pos h, swapCells, if_pos rfl]
      · have e : own k = k := by rw [ho]; omega
        rw [e, if_neg (by omega), ← h]
      · have e : own k = bitReverse p k := by rw [ho]; omega
        rw [e, bitReverse_invol p hk, if_pos h, swapCells, if_neg (by omega), if_pos rfl]
    · have ho : own k = k := by simp [hown, hk]
      rw [ho, if_neg hk, if_neg hk]
  · intro i hi y k hk
    rw [bitReverse_shift hp' hi]
    have hri := bitReverse_lt p i
    have hii := bitReverse_invol p hi
    split_ifs with h
    · rw [swapCells, if_neg, if_neg]
      · rintro rfl
        apply hk
        simp only [hown, if_pos hri, hii]; omega
      · rintro rfl
        apply hk
        simp only [hown, if_pos hi]; omega
    · rfl
  · intro i hi y y' h k hk
    rw [bitReverse_shift hp' hi]
    have hri := bitReverse_lt p i
    have hii := bitReverse_invol p hi
    split_ifs with h2
    · have e1 := h i (by simp only [hown, if_pos hi]; omega)
      have e2 := h (bitReverse p i) (by simp only [hown, if_pos hri, hii]; omega)
      have e3 := h k hk
      simp only [swapCells, e1, e2, e3]
    · exact h k hk

/-! ## reverses -/

/-- Where `reverses` on `2^p` cells takes the content of cell `k` from. -/
def rho : ℕ → ℕ → ℕ
  | 0, k => k
  | 1, k => k
  | p + 2, k => if k < 2 ^ (p + 1) then rho (p + 1) k else 2 ^ (p + 1) + rho (p + 1) (2 ^ (p + 2) - 1 - k)

/-- Where `unreverses` on `2^p` cells takes the content of cell `k` from. -/
def urho : ℕ → ℕ → ℕ
  | 0, k => k
  | 1, k => k
  | p + 2, k => if k < 2 ^ (p + 1) then urho (p + 1) k
      else 2 ^ (p + 1) + (2 ^ (p + 1) - 1 - urho (p + 1) (k - 2 ^ (p + 1)))

theorem rho_lt (p : ℕ) {k : ℕ} (hk : k < 2 ^ p) : rho p k < 2 ^ p := by
  induction p using Nat.strong_induction_on generalizing k with
  | _ p ih =>
    match p, ih with
    | 0, _ => exact hk
    | 1, _ => exact hk
    | p + 2, ih =>
      have h2 : 2 ^ (p + 2) = 2 * 2 ^ (p + 1) := by rw [pow_succ]; ring
      rw [rho]
      split_ifs with h
      · have := ih (p + 1) (by omega) h; omega
      · have := ih (p + 1) (by omega) (show 2 ^ (p + 2) - 1 - k < 2 ^ (p + 1) by omega); omega

theorem urho_lt (p : ℕ) {k : ℕ} (hk : k < 2 ^ p) : urho p k < 2 ^ p := by
  induction p using Nat.strong_induction_on generalizing k with
  | _ p ih =>
    match p, ih with
    | 0, _ => exact hk
    | 1, _ => exact hk
    | p + 2, ih =>
      have h2 : 2 ^ (p + 2) = 2 * 2 ^ (p + 1) := by rw [pow_succ]; ring
      rw [urho]
      split_ifs with h
      · have := ih (p + 1) (by omega) h; omega
      · have := Nat.pos_of_ne_zero (show 2 ^ (p + 1) ≠ 0 by positivity); omega

theorem rho_urho (p : ℕ) {k : ℕ} (hk : k < 2 ^ p) : rho p (urho p k) = k := by
  induction p using Nat.strong_induction_on generalizing k with
  | _ p ih =>
    match p, ih with
    | 0, _ => rfl
    | 1, _ => rfl
    | p + 2, ih =>
      have h2 : 2 ^ (p + 2) = 2 * 2 ^ (p + 1) := by rw [pow_succ]; ring
      rw [urho]
      split_ifs with h
      · have hu := urho_lt (p + 1) h
        rw [rho, if_pos hu, ih (p + 1) (by omega) h]
      · have hc : k - 2 ^ (p + 1) < 2 ^ (p + 1) := by omega
        have hu := urho_lt (p + 1) hc
        rw [rho, if_neg (by omega),
          show 2 ^ (p + 2) - 1 - (2 ^ (p + 1) + (2 ^ (p + 1) - 1 - urho (p + 1) (k - 2 ^ (p + 1)))) =
            urho (p + 1) (k - 2 ^ (p + 1)) by omega, ih (p + 1) (by omega) hc]
        omega

theorem urho_rho (p : ℕ) {k : ℕ} (hk : k < 2 ^ p) : urho p (rho p k) = k := by
  induction p using Nat.strong_induction_on generalizing k with
  | _ p ih =>
    match p, ih with
    | 0, _ => rfl
    | 1, _ => rfl
    | p + 2, ih =>
      have h2 : 2 ^ (p + 2) = 2 * 2 ^ (p + 1) := by rw [pow_succ]; ring
      rw [rho]
      split_ifs with h
      · have hu := rho_lt (p + 1) h
        rw [urho, if_pos hu, ih (p + 1) (by omega) h]
      · have hc : 2 ^ (p + 2) - 1 - k < 2 ^ (p + 1) := by omega
        have hu := rho_lt (p + 1) hc
        rw [urho, if_neg (by omega), Nat.add_sub_cancel_left, ih (p + 1) (by omega) hc]
        omega

theorem reverses_at {α : Type} (p o : ℕ) (y : ℕ → α) (k : ℕ) :
    reverses o (2 ^ p) y k = if o ≤ k ∧ k < o + 2 ^ p then y (o + rho p (k - o)) else y k := by
  induction p using Nat.strong_induction_on generalizing o y k with
  | _ p ih =>
    match p, ih with
    | 0, _ =>
      rw [reverses, if_pos (by norm_num)]
      split_ifs with h
      · rw [rho]; congr 1; omega
      · rfl
    | 1, _ =>
      rw [reverses, if_pos (by norm_num)]
      split_ifs with h
      · rw [rho]; congr 1; omega
      · rfl
    | p + 2, ih =>
      have h2 : 2 ^ (p + 2) = 2 * 2 ^ (p + 1) := by rw [pow_succ]; ring
      have hh : 2 ^ (p + 2) / 2 = 2 ^ (p + 1) := by omega
      have hpos : 2 ≤ 2 ^ (p + 1) := by
        have := Nat.pow_le_pow_right (show 0 < 2 by norm_num) (show 1 ≤ p + 1 by omega); omega
      have i1 := ih (p + 1) (by omega) o y
      have i2 := ih (p + 1) (by omega) (o + 2 ^ (p + 1)) (reverses o (2 ^ (p + 1)) y)
      rw [reverses, if_neg (by omega), hh]
      simp only [reverseCells]
      by_cases hk : o ≤ k ∧ k < o + 2 ^ (p + 2)
      · rw [if_pos hk, rho]
        by_cases hl : k - o < 2 ^ (p + 1)
        · rw [if_neg (by omega), i2, if_neg (by omega), i1, if_pos (by omega), if_pos hl]
        · have hc : 2 ^ (p + 2) - 1 - (k - o) < 2 ^ (p + 1) := by omega
          have hr := rho_lt (p + 1) hc
          rw [if_pos (by omega), i2, if_pos (by omega),
            show o + 2 ^ (p + 1) + (o + 2 ^ (p + 2) - 1 - k) - (o + 2 ^ (p + 1)) = 2 ^ (p + 2) - 1 - (k - o) by omega,
            i1, if_neg (by omega), if_neg hl]
          congr 1; omega
      · rw [if_neg hk, if_neg (by omega), i2, if_neg (by omega), i1, if_neg (by omega)]

theorem unreverses_at {α : Type} (p o : ℕ) (y : ℕ → α) (k : ℕ) :
    unreverses o (2 ^ p) y k = if o ≤ k ∧ k < o + 2 ^ p then y (o + urho p (k - o)) else y k := by
  induction p using Nat.strong_induction_on generalizing o y k with
  | _ p ih =>
    match p, ih with
    | 0, _ =>
      rw [unreverses, if_pos (by norm_num)]
      split_ifs with h
      · rw [urho]; congr 1; omega
      · rfl
    | 1, _ =>
      rw [unreverses, if_pos (by norm_num)]
      split_ifs with h
      · rw [urho]; congr 1; omega
      · rfl
    | p + 2, ih =>
      have h2 : 2 ^ (p + 2) = 2 * 2 ^ (p + 1) := by rw [pow_succ]; ring
      have hh : 2 ^ (p + 2) / 2 = 2 ^ (p + 1) := by omega
      have hpos : 2 ≤ 2 ^ (p + 1) := by
        have := Nat.pow_le_pow_right (show 0 < 2 by norm_num) (show 1 ≤ p + 1 by omega); omega
      have i1 := ih (p + 1) (by omega) o
      have i2 := ih (p + 1) (by omega) (o + 2 ^ (p + 1))
      rw [unreverses, if_neg (by omega), hh]
      rw [i2, i1, i1]
      by_cases hk : o ≤ k ∧ k < o + 2 ^ (p + 2)
      · rw [if_pos hk, urho]
        by_cases hl : k - o < 2 ^ (p + 1)
        · have hu := urho_lt (p + 1) hl
          rw [if_neg (by omega), if_pos (by omega), if_pos hl, reverseCells, if_neg (by omega)]
        · have hc : k - o - 2 ^ (p + 1) < 2 ^ (p + 1) := by omega
          have hu := urho_lt (p + 1) hc
          have e : k - (o + 2 ^ (p + 1)) = k - o - 2 ^ (p + 1) := by omega
          rw [if_pos (by omega), if_neg (by omega), if_neg hl, e, reverseCells, if_pos (by omega)]
          congr 1; omega
      · rw [if_neg hk, if_neg (by omega), if_neg (by omega), reverseCells, if_neg (by omega)]

/-- `shifted_permute` on a power of two. -/
theorem shiftedPermute_eq {α : Type} {p : ℕ} (hp : 1 ≤ p) (hp' : p ≤ 64) (y : ℕ → α) :
    ∃ y', shiftedPermute (2 ^ p) y = .ok y' ∧
      ∀ k, y' k = if k < 2 ^ p then y (bitReverse p (rho p k)) else y k := by
  obtain ⟨y1, e1, h1⟩ := bitrev_eq hp hp' y
  refine ⟨reverses 0 (2 ^ p) y1, by rw [shiftedPermute, e1]; rfl, fun k => ?_⟩
  rw [reverses_at]
  simp only [zero_le, true_and, zero_add, Nat.sub_zero]
  by_cases hk : k < 2 ^ p
  · rw [if_pos hk, if_pos hk, h1, if_pos (rho_lt p hk)]
  · rw [if_neg hk, if_neg hk, h1, if_neg hk]

/-- `shifted_unpermute` on a power of two. -/
theorem shiftedUnpermute_eq {α : Type} {p : ℕ} (hp : 1 ≤ p) (hp' : p ≤ 64) (y : ℕ → α) :
    ∃ y', shiftedUnpermute (2 ^ p) y = .ok y' ∧
      ∀ k, y' k = if k < 2 ^ p then y (urho p (bitReverse p k)) else y k := by
  obtain ⟨y1, e1, h1⟩ := bitrev_eq hp hp' (unreverses 0 (2 ^ p) y)
  refine ⟨y1, e1, fun k => ?_⟩
  rw [h1]
  by_cases hk : k < 2 ^ p
  · rw [if_pos hk, if_pos hk, unreverses_at]
    have := bitReverse_lt p k
    simp only [zero_le, true_and, zero_add, Nat.sub_zero, if_pos this]
  · rw [if_neg hk, if_neg hk, unreverses_at]
    simp [hk]

/-- After `shifted_permute` the roots are in their natural order. -/
theorem sexp_natural {p : ℕ} (hp : 1 ≤ p) {k : ℕ} (hk : k < 2 ^ p) :
    sexp p (bitReverse p (rho p k)) = 2 * k + 1 := by
  induction p using Nat.strong_induction_on generalizing k with
  | _ p ih =>
    match p, ih, hp with
    | 1, _, _ =>
      have : k < 2 := by simpa using hk
      interval_cases k <;> simp [sexp, rho, bitReverse]
    | p + 2, ih, _ =>
      have h2 : 2 ^ (p + 2) = 2 * 2 ^ (p + 1) := by rw [pow_succ]; ring
      have h2' : (2 : ℤ) ^ (p + 1 + 2) = 4 * 2 ^ (p + 1) := by rw [pow_add _ (p + 1)]; ring
      rw [rho]
      by_cases h : k < 2 ^ (p + 1)
      · rw [if_pos h, bitReverse_even _ _ (rho_lt _ h), sexp, if_pos (by omega), Nat.mul_div_cancel_left _ (by norm_num),
          ih (p + 1) (by omega) (by omega) h]
      · have hc : 2 ^ (p + 2) - 1 - k < 2 ^ (p + 1) := by omega
        have := bitReverse_top (p + 1) 1 (rho (p + 1) (2 ^ (p + 2) - 1 - k)) (by norm_num) (rho_lt _ hc)
        rw [one_mul] at this
        rw [if_neg h, this, sexp, if_neg (by omega),
          show (2 * bitReverse (p + 1) (rho (p + 1) (2 ^ (p + 2) - 1 - k)) + 1) / 2 =
            bitReverse (p + 1) (rho (p + 1) (2 ^ (p + 2) - 1 - k)) by omega, ih (p + 1) (by omega) (by omega) hc, h2']
        have h3 : ((2 ^ (p + 2) - 1 - k : ℕ) : ℤ) = 2 * 2 ^ (p + 1) - 1 - k := by
          rw [Nat.cast_sub (by omega), Nat.cast_sub (by omega), h2]; push_cast; ring
        rw [h3]; ring

/-! ## bitrev_neg -/

theorem bitrevNeg_one : bitrevNeg 1 = 1 := by simp [bitrevNeg]

theorem bitrevNeg_rec {i b : ℕ} (hi : i ≠ 0) (hb : b < 2) : bitrevNeg (2 * i + b) = 2 * bitrevNeg i + (1 - b) := by
  have hl : Nat.log 2 (2 * i + b) = Nat.log 2 i + 1 := by
    rw [Nat.log_of_one_lt_of_le (by norm_num) (by omega)]
    congr 2; omega
  have hpos : 0 < 2 ^ Nat.log 2 i := by positivity
  rw [bitrevNeg, bitrevNeg, if_pos (by omega), if_pos hi, hl, Nat.one_shiftLeft, Nat.one_shiftLeft]
  have e : 2 ^ (Nat.log 2 i + 1) - 1 = Nat.bit true (2 ^ Nat.log 2 i - 1) := by
    rw [Nat.bit_true, pow_succ]; show _ = 2 * (2 ^ Nat.log 2 i - 1) + 1; omega
  rw [e]
  interval_cases b
  · rw [show 2 * i + 0 = Nat.bit false i by simp, Nat.xor_bit]; simp
  · rw [show 2 * i + 1 = Nat.bit true i by simp, Nat.xor_bit]; simp

/-- Bit reversal turns `bitrev_neg` into negation modulo the size. -/
theorem bitReverse_bitrevNeg (p : ℕ) {i : ℕ} (h0 : i ≠ 0) (hi : i < 2 ^ p) :
    bitrevNeg i < 2 ^ p ∧ bitReverse p (bitrevNeg i) + bitReverse p i = 2 ^ p := by
  induction p generalizing i with
  | zero => simp at hi; omega
  | succ p ih =>
    have h2 : i / 2 < 2 ^ p := by rw [pow_succ] at hi; omega
    have hd : 2 * (i / 2) + i % 2 = i := by omega
    by_cases h1 : i / 2 = 0
    · have : i = 1 := by omega
      subst this
      rw [bitrevNeg_one]
      refine ⟨hi, ?_⟩
      simp [bitReverse, pow_succ]; ring
    · obtain ⟨l, s⟩ := ih h1 h2
      have hr := bitrevNeg_rec h1 (Nat.mod_lt i (show 0 < 2 by norm_num))
      rw [hd] at hr
      have hm := Nat.mod_lt i (show 0 < 2 by norm_num)
      refine ⟨by rw [hr, pow_succ]; omega, ?_⟩
      rw [hr, bitReverse, bitReverse, show (2 * bitrevNeg (i / 2) + (1 - i % 2)) % 2 = 1 - i % 2 by omega,
        show (2 * bitrevNeg (i / 2) + (1 - i % 2)) / 2 = bitrevNeg (i / 2) by omega, pow_succ]
      rcases Nat.mod_two_eq_zero_or_one i with h | h <;> rw [h] <;> omega

theorem bitrevNeg_ne_zero {i : ℕ} (h : i ≠ 0) : bitrevNeg i ≠ 0 := by
  obtain ⟨p, hp⟩ : ∃ p, i < 2 ^ p := ⟨i, Nat.lt_two_pow_self⟩
  intro e
  have := (bitReverse_bitrevNeg p h hp).2
  rw [e, bitReverse_zero] at this
  have := bitReverse_lt p i
  omega

theorem bitrevNeg_invol (i : ℕ) : bitrevNeg (bitrevNeg i) = i := by
  by_cases h : i = 0
  · subst h; simp [bitrevNeg]
  · obtain ⟨p, hp⟩ : ∃ p, i < 2 ^ p := ⟨i, Nat.lt_two_pow_self⟩
    obtain ⟨l, s⟩ := bitReverse_bitrevNeg p h hp
    obtain ⟨l', s'⟩ := bitReverse_bitrevNeg p (bitrevNeg_ne_zero h) l
    exact bitReverse_inj p l' hp (by omega)

end Mandelbrot.FFT
