import Verif.Known.Sound
import Verif.Known.Pi

/-!
# The sums of the table, and what a passed comparison with an entry means (C68)
-/

namespace Mandelbrot.Known

open Finset PowerSeries

theorem pk_split (s m n : ℕ) (b : ℕ → ℕ) : pk s (m + n) b = 2 ^ (s * m) * pk s n (fun j => b (m + j)) + pk s m b := by
  rw [pk, sum_range_add, add_comm, ← pk, pk, pk, mul_sum]
  congr 1
  refine sum_congr rfl fun j _ => ?_
  rw [pow_mul, pow_add]
  ring

/-- The square of the coefficient in a stored slot. -/
def sq (p b : ℕ) : ℕ := (b - beta p) * (b - beta p) + (beta p - b) * (beta p - b)

theorem wsum_spec {p : ℕ} (l : ℕ) : ∀ (off : ℕ) (b : ℕ → ℕ), (∀ j < 2 ^ l, b j < 2 ^ slot p) →
    wsum p l off (pk (slot p) (2 ^ l) b) = ∑ j ∈ range (2 ^ l), (off + j - 1) * sq p (b j) := by
  induction l with
  | zero =>
    intro off b _
    simp [wsum, pk, sq]
  | succ l ih =>
    intro off b hb
    have h2 : 2 ^ (l + 1) = 2 ^ l + 2 ^ l := by ring
    have hlo : ∀ j < 2 ^ l, b j < 2 ^ slot p := fun j hj => hb j (by omega)
    have hhi : ∀ j < 2 ^ l, b (2 ^ l + j) < 2 ^ slot p := fun j hj => hb _ (by omega)
    rw [wsum, h2, pk_split, base_pow, Nat.and_two_pow_sub_one_eq_mod, Nat.mul_add_mod, Nat.mod_eq_of_lt (pk_lt hlo),
      Nat.shiftRight_eq_div_pow, Nat.mul_add_div (by positivity), Nat.div_eq_of_lt (pk_lt hlo), add_zero, ih _ _ hlo, ih _ _ hhi,
      sum_range_add]
    congr 1
    refine sum_congr rfl fun j _ => ?_
    rw [show off + 2 ^ l + j = off + (2 ^ l + j) by ring]

theorem gsum_spec {p n : ℕ} {b : ℕ → ℕ} (hb : ∀ j < n, b j < 2 ^ slot p) (k : ℕ) (hk : 2 ^ k ≤ n) :
    gsum p (pk (slot p) n b) k = ∑ j ∈ range (2 ^ k), (j - 1) * sq p (b j) := by
  induction k with
  | zero => simp [gsum]
  | succ k ih =>
    have h2 : 2 ^ (k + 1) = 2 ^ k + 2 ^ k := by ring
    obtain ⟨m, rfl⟩ : ∃ m, n = 2 ^ k + (2 ^ k + m) := ⟨n - 2 ^ (k + 1), by omega⟩
    have hlo : ∀ j < 2 ^ k, b j < 2 ^ slot p := fun j hj => hb j (by omega)
    have hmid : ∀ j < 2 ^ k, b (2 ^ k + j) < 2 ^ slot p := fun j hj => hb _ (by omega)
    have h3 : (pk (slot p) (2 ^ k + (2 ^ k + m)) b >>> (slot p * 2 ^ k)) &&& (base p ^ 2 ^ k - 1) =
        pk (slot p) (2 ^ k) fun j => b (2 ^ k + j) := by
      rw [pk_split, Nat.shiftRight_eq_div_pow, Nat.mul_add_div (by positivity), Nat.div_eq_of_lt (pk_lt hlo), add_zero, pk_split,
        base_pow, Nat.and_two_pow_sub_one_eq_mod, Nat.mul_add_mod, Nat.mod_eq_of_lt (pk_lt hmid)]
    rw [gsum, h3, ih (Nat.le_add_right _ _), wsum_spec _ _ _ hmid, h2, sum_range_add]

theorem sq_spec {p : ℕ} {a : ℤ} (h : -(beta p : ℤ) ≤ a) : (sq p (a + beta p).toNat : ℝ) = (a : ℝ) ^ 2 := by
  have h1 : (((a + beta p).toNat : ℕ) : ℤ) = a + beta p := Int.toNat_of_nonneg (by linarith)
  generalize (a + beta p).toNat = b at *
  rw [sq]
  have key : (((b - beta p) * (b - beta p) + (beta p - b) * (beta p - b) : ℕ) : ℤ) = a ^ 2 := by
    have e : a = (b : ℤ) - beta p := by linarith
    rcases le_total (beta p) b with h2 | h2
    · rw [Nat.sub_eq_zero_of_le h2, e]
      push_cast [Nat.cast_sub h2]
      ring
    · rw [Nat.sub_eq_zero_of_le h2, e]
      push_cast [Nat.cast_sub h2]
      ring
  exact_mod_cast key

/-- The sum of the area formula for the series that was checked. -/
theorem gsum_real {p n f : ℕ} (hf : Stored p n f (poly p f)) (hc0 : coeff 0 (poly p f) = 2 ^ p) {k : ℕ} (hk : 2 ^ k ≤ n) :
    ∑ i ∈ range (2 ^ k), (1 - (i : ℝ)) * (coeff i (C (1 / 2 ^ p : ℝ) * toR (poly p f))) ^ 2 = 1 - (gsum p f k : ℝ) / 2 ^ (2 * p) := by
  have hP : (2 : ℝ) ^ (2 * p) = 2 ^ p * 2 ^ p := by rw [← pow_add]; ring_nf
  have hp : (0 : ℝ) < 2 ^ p := by positivity
  have h1 := gsum_spec (fun j hj => (hf.slot_lt j hj).trans_le (slot_pow_le p)) k hk
  rw [← hf.eq] at h1
  have hco : ∀ i, coeff i (C (1 / 2 ^ p : ℝ) * toR (poly p f)) = ((coeff i (poly p f) : ℤ) : ℝ) / 2 ^ p := by
    intro i
    rw [coeff_C_mul, coeff_toR]
    ring
  have h2 : ((gsum p f k : ℕ) : ℝ) = ∑ j ∈ range (2 ^ k), ((j - 1 : ℕ) : ℝ) * ((coeff j (poly p f) : ℤ) : ℝ) ^ 2 := by
    rw [h1]
    push_cast
    refine sum_congr rfl fun j hj => ?_
    rw [sq_spec (hf.lo j (by rw [mem_range] at hj; omega))]
  obtain ⟨m, hm⟩ : ∃ m, 2 ^ k = m + 1 := ⟨2 ^ k - 1, by have := Nat.two_pow_pos k; omega⟩
  rw [h2, hm, sum_range_succ', sum_range_succ', hco 0, hc0]
  have e : ∀ i ∈ range m, (1 - ((i + 1 : ℕ) : ℝ)) * (coeff (i + 1) (C (1 / 2 ^ p : ℝ) * toR (poly p f))) ^ 2 =
      -(((i + 1 - 1 : ℕ) : ℝ) * ((coeff (i + 1) (poly p f) : ℤ) : ℝ) ^ 2) / 2 ^ (2 * p) := by
    intro i _
    rw [hco, Nat.add_sub_cancel, hP]
    push_cast
    field_simp
    ring
  rw [sum_congr rfl e, ← sum_div, sum_neg_distrib]
  push_cast
  rw [div_self hp.ne']
  simp
  ring

/-- The error of that sum. -/
theorem sum_error {n m : ℕ} (hm : m ≤ n) {F q : ℝ⟦X⟧} {η b : ℝ} (hη : nrm n (F - q) ≤ η) (hb : nrm n q ≤ b) :
    |∑ i ∈ range m, (1 - (i : ℝ)) * coeff i F ^ 2 - ∑ i ∈ range m, (1 - (i : ℝ)) * coeff i q ^ 2| ≤ n * (η * (2 * b + η)) := by
  have hη0 := (nrm_nonneg n _).trans hη
  have hb0 := (nrm_nonneg n _).trans hb
  rw [← sum_sub_distrib]
  refine (abs_sum_le_sum_abs _ _).trans ?_
  have h1 : ∀ i ∈ range m, |(1 - (i : ℝ)) * coeff i F ^ 2 - (1 - (i : ℝ)) * coeff i q ^ 2| ≤
      |coeff i (F - q)| * (n * (2 * b + η)) := by
    intro i hi
    rw [mem_range] at hi
    have e : (1 - (i : ℝ)) * coeff i F ^ 2 - (1 - (i : ℝ)) * coeff i q ^ 2 =
        coeff i (F - q) * ((1 - (i : ℝ)) * (2 * coeff i q + coeff i (F - q))) := by
      rw [map_sub]
      ring
    rw [e, abs_mul, abs_mul]
    refine mul_le_mul_of_nonneg_left (mul_le_mul ?_ ?_ (abs_nonneg _) (by positivity)) (abs_nonneg _)
    · rw [abs_le]
      have h2 : (i : ℝ) + 1 ≤ n := by exact_mod_cast (by omega : i + 1 ≤ n)
      constructor <;> linarith [Nat.cast_nonneg (α := ℝ) i]
    · refine (abs_add_le _ _).trans ?_
      rw [abs_mul, abs_two]
      have h3 := (coeff_le_nrm (show i < n by omega) q).trans hb
      have h4 := (coeff_le_nrm (show i < n by omega) (F - q)).trans hη
      linarith
  refine (sum_le_sum h1).trans ?_
  rw [← sum_mul]
  have h2 : ∑ i ∈ range m, |coeff i (F - q)| ≤ η := (nrm_mono hm _).trans hη
  calc (∑ i ∈ range m, |coeff i (F - q)|) * (n * (2 * b + η)) ≤ η * (n * (2 * b + η)) :=
        mul_le_mul_of_nonneg_right h2 (by positivity)
    _ = n * (η * (2 * b + η)) := by ring

theorem ball {A v r x y T L U : ℝ} (hx : 0 < x) (hy : 0 < y) (hT : 0 < T) (t1 : L ≤ T * A) (t2 : T * A ≤ U)
    (g1 : v * y * T ≤ L * (x * y) + r * x * T) (g3 : U * (x * y) ≤ (v * y + r * x) * T) : |A - v / x| ≤ r / y := by
  have hxy : 0 < x * y := mul_pos hx hy
  have h1 := mul_le_mul_of_nonneg_right t1 hxy.le
  have h2 := mul_le_mul_of_nonneg_right t2 hxy.le
  have u1 : v * y ≤ A * (x * y) + r * x := by
    have h6 : T * (v * y) ≤ T * (A * (x * y) + r * x) := by linarith
    exact le_of_mul_le_mul_left h6 hT
  have u2 : A * (x * y) ≤ v * y + r * x := by
    have h6 : T * (A * (x * y)) ≤ T * (v * y + r * x) := by linarith
    exact le_of_mul_le_mul_left h6 hT
  rw [abs_le]
  constructor
  · have : v / x - r / y ≤ A := by
      rw [div_sub_div _ _ hx.ne' hy.ne', div_le_iff₀ hxy]
      linarith
    linarith
  · have : A ≤ v / x + r / y := by
      rw [div_add_div _ _ hx.ne' hy.ne', le_div_iff₀ hxy]
      linarith
    linarith

/-- **What a passed comparison means.** -/
theorem fits_sound {p K h f k v a r b : ℕ} (hc : check p K h f = true) (hf : fits p (2 ^ K) h f k v a r b = true) (hk : k ≤ K)
    (F : ℝ⟦X⟧) (h0 : constantCoeff F = 1) (hF : Agree (2 ^ K) (Bottcher.Q F K) 1) :
    |Real.pi * ∑ i ∈ range (2 ^ k), (1 - (i : ℝ)) * coeff i F ^ 2 - (v : ℝ) / 10 ^ a| ≤ (r : ℝ) / 10 ^ b := by
  have herr := check_error hc F h0 hF
  simp only [check, Bool.and_eq_true] at hc
  obtain ⟨⟨⟨hkp, hwf⟩, hf0⟩, -⟩ := hc
  have hkp' := Nat.le_of_ble_eq_true hkp
  have hf0' := Nat.eq_of_beq_eq_true hf0
  have hnp : 2 ^ K ≤ 2 ^ p := Nat.pow_le_pow_right (by norm_num) hkp'
  have hkn : 2 ^ k ≤ 2 ^ K := Nat.pow_le_pow_right (by norm_num) hk
  have hS := stored_poly hwf
  have hc0 : coeff 0 (poly p f) = 2 ^ p := by
    rw [poly, coeff_mk]
    have : f / 2 ^ (slot p * 0) % 2 ^ slot p = f % base p := by rw [Nat.mul_zero, pow_zero, Nat.div_one, base]
    rw [this, hf0']
    push_cast
    ring
  have h1 := sum_error hkn herr (nrm_stored hnp hS).le
  rw [gsum_real hS hc0 hkn] at h1
  simp only [fits, Bool.and_eq_true] at hf
  obtain ⟨⟨f1, f2⟩, f3⟩ := hf
  have f1' := Nat.le_of_ble_eq_true f1
  have f2' := Nat.le_of_ble_eq_true f2
  have f3' := Nat.le_of_ble_eq_true f3
  clear f1 f2 f3 hkp hwf hf0
  have hP : (2 : ℝ) ^ (2 * p) = 2 ^ p * 2 ^ p := by rw [← pow_add]; ring_nf
  have hP3 : (2 : ℝ) ^ (3 * p) = 2 ^ p * 2 ^ (2 * p) := by rw [← pow_add]; ring_nf
  have hp : (0 : ℝ) < 2 ^ p := by positivity
  have hp2 : (0 : ℝ) < 2 ^ (2 * p) := by positivity
  -- the error in units
  have h2 : ((2 ^ K : ℕ) : ℝ) * ((h : ℝ) / 2 ^ (2 * p) * (2 * ((norm p (2 ^ K) f : ℝ) / 2 ^ p) + (h : ℝ) / 2 ^ (2 * p))) ≤
      ((2 ^ K * mulUp p h (2 ^ (p + 1) * norm p (2 ^ K) f + h) : ℕ) : ℝ) / 2 ^ (2 * p) := by
    have h3 := mulUp_spec p h (2 ^ (p + 1) * norm p (2 ^ K) f + h)
    have e : ((2 ^ (p + 1) * norm p (2 ^ K) f + h : ℕ) : ℝ) / 2 ^ (2 * p) =
        2 * ((norm p (2 ^ K) f : ℝ) / 2 ^ p) + (h : ℝ) / 2 ^ (2 * p) := by
      push_cast
      rw [hP, pow_succ]
      field_simp
    rw [e] at h3
    rw [Nat.cast_mul, mul_div_assoc]
    exact mul_le_mul_of_nonneg_left h3 (Nat.cast_nonneg _)
  have h4 := abs_le.1 (h1.trans h2)
  clear h1 h2 herr
  generalize 2 ^ K * mulUp p h (2 ^ (p + 1) * norm p (2 ^ K) f + h) = err at *
  generalize gsum p f k = g at *
  obtain ⟨p1, p2⟩ := pi_bounds p (p / 9 + 1)
  generalize piLo p (p / 9 + 1) = lo at *
  generalize piHi p (p / 9 + 1) = hi at *
  generalize ∑ i ∈ range (2 ^ k), (1 - (i : ℝ)) * coeff i F ^ 2 = S at *
  have hlo : ((2 ^ (2 * p) - g - err : ℕ) : ℝ) = 2 ^ (2 * p) - g - err := by
    rw [Nat.sub_sub, Nat.cast_sub f2']
    push_cast
    ring
  have hhi : ((2 ^ (2 * p) - g : ℕ) : ℝ) = 2 ^ (2 * p) - g := by
    rw [Nat.cast_sub (by omega)]
    push_cast
    ring
  have g1 : (v : ℝ) * 10 ^ b * 2 ^ (3 * p) ≤ lo * (2 ^ (2 * p) - g - err) * 10 ^ (a + b) + r * 10 ^ a * 2 ^ (3 * p) := by
    rw [← hlo]
    exact_mod_cast f1'
  have g3 : (hi : ℝ) * (2 ^ (2 * p) - g + err) * 10 ^ (a + b) ≤ ((v : ℝ) * 10 ^ b + r * 10 ^ a) * 2 ^ (3 * p) := by
    rw [← hhi]
    exact_mod_cast f3'
  have g2 : (0 : ℝ) ≤ 2 ^ (2 * p) - g - err := by
    rw [← hlo]
    exact Nat.cast_nonneg _
  -- bounds of the sum
  have s1 : (2 ^ (2 * p) - g - err : ℝ) ≤ 2 ^ (2 * p) * S := by
    have := h4.1
    have e : (2 : ℝ) ^ (2 * p) * S = 2 ^ (2 * p) * (S - (1 - (g : ℝ) / 2 ^ (2 * p))) + (2 ^ (2 * p) - g) := by
      field_simp
      ring
    rw [e]
    have h5 := mul_le_mul_of_nonneg_left this hp2.le
    rw [mul_neg, mul_div_cancel₀ _ hp2.ne'] at h5
    linarith
  have s2 : 2 ^ (2 * p) * S ≤ (2 ^ (2 * p) - g + err : ℝ) := by
    have := h4.2
    have e : (2 : ℝ) ^ (2 * p) * S = 2 ^ (2 * p) * (S - (1 - (g : ℝ) / 2 ^ (2 * p))) + (2 ^ (2 * p) - g) := by
      field_simp
      ring
    rw [e]
    have h5 := mul_le_mul_of_nonneg_left this hp2.le
    rw [mul_div_cancel₀ _ hp2.ne'] at h5
    linarith
  have t1 : (lo : ℝ) * (2 ^ (2 * p) - g - err) ≤ 2 ^ p * Real.pi * (2 ^ (2 * p) * S) :=
    mul_le_mul p1 s1 g2 (mul_nonneg hp.le Real.pi_pos.le)
  have t2 : 2 ^ p * Real.pi * (2 ^ (2 * p) * S) ≤ (hi : ℝ) * (2 ^ (2 * p) - g + err) :=
    mul_le_mul p2 s2 (g2.trans s1) (Nat.cast_nonneg _)
  have e0 : 2 ^ p * Real.pi * (2 ^ (2 * p) * S) = 2 ^ (3 * p) * (Real.pi * S) := by
    rw [hP3]
    ring
  rw [e0] at t1 t2
  rw [pow_add] at g1 g3
  exact ball (by positivity) (by positivity) (by positivity) t1 t2 g1 g3

end Mandelbrot.Known
