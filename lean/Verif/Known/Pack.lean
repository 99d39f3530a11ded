import Verif.Known.Compute
import Mathlib.RingTheory.PowerSeries.Trunc
import Mathlib.Algebra.Polynomial.Div
import Mathlib.Algebra.Order.Ring.GeomSum
import Mathlib.Algebra.Order.BigOperators.Group.Finset
import Mathlib.Data.Int.ModEq
import Mathlib.Tactic.Ring
import Mathlib.Tactic.Linarith
import Mathlib.Tactic.Positivity

/-!
# What the packed arithmetic of `Verif/Known/Compute.lean` computes
-/

namespace Mandelbrot.Known

open Finset PowerSeries

/-! ## Slots -/

/-- The number whose slots of `s` bits are `c 0 … c (n-1)`. -/
def pk (s n : ℕ) (c : ℕ → ℕ) : ℕ := ∑ j ∈ range n, c j * (2 ^ s) ^ j

theorem pk_succ (s n : ℕ) (c : ℕ → ℕ) : pk s (n + 1) c = 2 ^ (s * n) * c n + pk s n c := by
  rw [pk, sum_range_succ, ← pow_mul, pk]
  ring

theorem pk_lt {s n : ℕ} {c : ℕ → ℕ} (hc : ∀ j < n, c j < 2 ^ s) : pk s n c < 2 ^ (s * n) := by
  induction n with
  | zero => simp [pk]
  | succ n ih =>
    rw [pk_succ]
    have h1 := ih fun j hj => hc j (by omega)
    have h2 : c n + 1 ≤ 2 ^ s := hc n (by omega)
    calc 2 ^ (s * n) * c n + pk s n c < 2 ^ (s * n) * c n + 2 ^ (s * n) := by omega
      _ = 2 ^ (s * n) * (c n + 1) := by ring
      _ ≤ 2 ^ (s * n) * 2 ^ s := Nat.mul_le_mul_left _ h2
      _ = 2 ^ (s * (n + 1)) := by rw [← pow_add]; ring_nf

theorem testBit_pk {s n : ℕ} (hs : 0 < s) {c : ℕ → ℕ} (hc : ∀ j < n, c j < 2 ^ s) (i : ℕ) :
    (pk s n c).testBit i = (decide (i / s < n) && (c (i / s)).testBit (i % s)) := by
  induction n with
  | zero => simp [pk]
  | succ n ih =>
    have h1 := pk_lt fun j (hj : j < n) => hc j (by omega)
    rw [pk_succ, Nat.testBit_two_pow_mul_add _ h1]
    by_cases h : i < s * n
    · have h2 : i / s < n := by
        rw [Nat.div_lt_iff_lt_mul hs, mul_comm]
        exact h
      rw [if_pos h, ih fun j hj => hc j (by omega)]
      simp [h2, Nat.lt_succ_of_lt h2]
    · rw [if_neg h]
      push Not at h
      by_cases h3 : i / s = n
      · have h4 : i - s * n = i % s := by
          have := Nat.div_add_mod i s
          rw [h3] at this
          omega
        rw [h4, h3]
        simp
      · have h5 : n ≤ i / s := by
          rw [Nat.le_div_iff_mul_le hs, mul_comm]
          exact h
        have h6 : ¬ i / s < n + 1 := by omega
        have h7 : s ≤ i - s * n := by
          have h8 : n + 1 ≤ i / s := by omega
          rw [Nat.le_div_iff_mul_le hs] at h8
          have : (n + 1) * s = s * n + s := by ring
          omega
        have h9 : (c n).testBit (i - s * n) = false :=
          Nat.testBit_lt_two_pow ((hc n (by omega)).trans_le (Nat.pow_le_pow_right (by norm_num) h7))
        rw [h9]
        simp [h6]

theorem pk_congr {s n : ℕ} {c c' : ℕ → ℕ} (h : ∀ j < n, c j = c' j) : pk s n c = pk s n c' :=
  sum_congr rfl fun j hj => by rw [h j (mem_range.1 hj)]

theorem pk_mul (s n a : ℕ) (c : ℕ → ℕ) : pk s n c * a = pk s n fun j => c j * a := by
  rw [pk, pk, sum_mul]
  exact sum_congr rfl fun j _ => by ring

theorem land_pk {s n : ℕ} (hs : 0 < s) {a b : ℕ → ℕ} (ha : ∀ j < n, a j < 2 ^ s) (hb : ∀ j < n, b j < 2 ^ s) :
    pk s n a &&& pk s n b = pk s n fun j => a j &&& b j := by
  apply Nat.eq_of_testBit_eq
  intro i
  rw [Nat.testBit_and, testBit_pk hs ha, testBit_pk hs hb,
    testBit_pk hs fun j hj => (Nat.and_le_left.trans_lt (ha j hj)), Nat.testBit_and]
  by_cases h : i / s < n <;> simp [h]

theorem ones_eq (p n : ℕ) : ones p n = pk (slot p) n fun _ => 1 := by
  have h2 : 2 ≤ base p := by
    rw [base, slot, show 2 * p + 36 = (2 * p + 35) + 1 by ring, pow_succ]
    have := Nat.one_le_two_pow (n := 2 * p + 35)
    omega
  rw [ones, ← Nat.geomSum_eq h2, pk]
  exact sum_congr rfl fun j _ => by rw [one_mul, base]

/-- Shifting and masking works slot by slot, and does not look above the last slot. -/
theorem shift_mask {p n y a w : ℕ} {b : ℕ → ℕ} (hb : ∀ j < n, b j < 2 ^ slot p) (hy : y % 2 ^ (slot p * n) = pk (slot p) n b)
    (hw : a + w ≤ slot p) (hw0 : 0 < w) :
    (y >>> a) &&& ((2 ^ w - 1) * ones p n) = pk (slot p) n fun j => b j / 2 ^ a % 2 ^ w := by
  have hs : 0 < slot p := by omega
  have hm : ∀ j < n, 2 ^ w - 1 < 2 ^ slot p := fun j _ => by
    have := Nat.pow_le_pow_right (n := 2) (by norm_num) (show w ≤ slot p by omega)
    have := Nat.one_le_two_pow (n := w)
    omega
  have hr : ∀ j < n, b j / 2 ^ a % 2 ^ w < 2 ^ slot p := fun j _ =>
    (Nat.mod_lt _ (by positivity)).trans_le (Nat.pow_le_pow_right (by norm_num) (by omega))
  apply Nat.eq_of_testBit_eq
  intro i
  rw [mul_comm, ones_eq, pk_mul]
  simp only [one_mul]
  rw [Nat.testBit_and, testBit_pk hs hm, testBit_pk hs hr, Nat.testBit_shiftRight, Nat.testBit_two_pow_sub_one,
    Nat.testBit_mod_two_pow, Nat.testBit_div_two_pow]
  by_cases h : i / slot p < n
  · by_cases h1 : i % slot p < w
    · have h2 := Nat.div_add_mod i (slot p)
      have h3 : (a + i) / slot p = i / slot p := by
        rw [Nat.div_eq_iff hs]
        constructor
        · have : i / slot p * slot p = slot p * (i / slot p) := mul_comm _ _
          omega
        · have : (i / slot p) * slot p = slot p * (i / slot p) := mul_comm _ _
          omega
      have h4 : (a + i) % slot p = i % slot p + a := by
        have h5 := Nat.div_add_mod (a + i) (slot p)
        rw [h3] at h5
        omega
      have h6 : a + i < slot p * n := by
        have : (a + i) / slot p < n := by rw [h3]; exact h
        rw [Nat.div_lt_iff_lt_mul hs, mul_comm] at this
        exact this
      have h7 : y.testBit (a + i) = (b (i / slot p)).testBit (i % slot p + a) := by
        have h8 := congrArg (fun z => Nat.testBit z (a + i)) hy
        simp only [Nat.testBit_mod_two_pow, testBit_pk hs hb, h3, h4, h6, h, decide_true, Bool.true_and] at h8
        exact h8
      rw [h7]
      simp [h, h1]
    · simp [h1]
  · simp [h]

/-- Slots summed. -/
theorem total_pk {p n : ℕ} {c : ℕ → ℕ} (h : ∑ j ∈ range n, c j < base p - 1) : total p (pk (slot p) n c) = ∑ j ∈ range n, c j := by
  have hB : 1 ≤ base p := Nat.one_le_two_pow
  have h1 : pk (slot p) n c ≡ ∑ j ∈ range n, c j [MOD base p - 1] := by
    clear h
    induction n with
    | zero => exact Nat.ModEq.refl _
    | succ n ih =>
      rw [pk, sum_range_succ, sum_range_succ]
      refine Nat.ModEq.add ih ?_
      have h2 : base p ≡ 1 [MOD base p - 1] := by
        have : base p = (base p - 1) + 1 := by omega
        conv_lhs => rw [this]
        simp [Nat.ModEq]
      have h3 := (h2.pow n).mul_left (c n)
      rw [one_pow, mul_one] at h3
      exact h3
  rw [total, h1, Nat.mod_eq_of_lt h]

/-! ## Residues -/

/-- The value of the first `n` coefficients at `2^(slot p)`. -/
noncomputable def pz (p n : ℕ) (a : ℤ⟦X⟧) : ℤ := ∑ j ∈ range n, coeff j a * (base p : ℤ) ^ j

/-- `x` is a residue of the first `n` coefficients of `a`. -/
def Rep (p n : ℕ) (x : ℤ) (a : ℤ⟦X⟧) : Prop := (base p : ℤ) ^ n ∣ x - pz p n a

theorem pz_eq (p n : ℕ) (a : ℤ⟦X⟧) : pz p n a = (trunc n a).eval (base p : ℤ) := by
  rw [Polynomial.eval, eval₂_trunc_eq_sum_range, pz]
  rfl

theorem pz_mul (p n : ℕ) (a b : ℤ⟦X⟧) : (base p : ℤ) ^ n ∣ pz p n a * pz p n b - pz p n (a * b) := by
  have h1 : (Polynomial.X : Polynomial ℤ) ^ n ∣ trunc n a * trunc n b - trunc n (a * b) := by
    rw [Polynomial.X_pow_dvd_iff]
    intro d hd
    rw [Polynomial.coeff_sub, sub_eq_zero, ← trunc_trunc_mul_trunc, coeff_trunc, if_pos hd, ← Polynomial.coe_mul,
      Polynomial.coeff_coe]
  obtain ⟨c, hc⟩ := h1
  have h2 := congrArg (Polynomial.eval (base p : ℤ)) hc
  simp only [Polynomial.eval_sub, Polynomial.eval_mul, Polynomial.eval_pow, Polynomial.eval_X] at h2
  rw [pz_eq, pz_eq, pz_eq, h2]
  exact dvd_mul_right _ _

theorem pz_add (p n : ℕ) (a b : ℤ⟦X⟧) : pz p n (a + b) = pz p n a + pz p n b := by
  rw [pz, pz, pz, ← sum_add_distrib]
  exact sum_congr rfl fun j _ => by rw [map_add]; ring

theorem Rep.mul {p n : ℕ} {x y : ℤ} {a b : ℤ⟦X⟧} (hx : Rep p n x a) (hy : Rep p n y b) : Rep p n (x * y) (a * b) := by
  have h1 := dvd_mul_of_dvd_left hx y
  have h2 := dvd_mul_of_dvd_right hy (pz p n a)
  have h3 := dvd_add (dvd_add h1 h2) (pz_mul p n a b)
  rw [Rep]
  have e : x * y - pz p n (a * b) = (x - pz p n a) * y + pz p n a * (y - pz p n b) + (pz p n a * pz p n b - pz p n (a * b)) := by
    ring
  rw [e]
  exact h3

theorem Rep.add {p n : ℕ} {x y : ℤ} {a b : ℤ⟦X⟧} (hx : Rep p n x a) (hy : Rep p n y b) : Rep p n (x + y) (a + b) := by
  have := dvd_add hx hy
  rw [Rep, pz_add]
  have e : x + y - (pz p n a + pz p n b) = (x - pz p n a) + (y - pz p n b) := by ring
  rw [e]
  exact this

theorem Rep.mod {p n : ℕ} {x y : ℤ} {a : ℤ⟦X⟧} (hx : Rep p n x a) (h : (base p : ℤ) ^ n ∣ y - x) : Rep p n y a := by
  have := dvd_add h hx
  rw [Rep]
  have e : y - pz p n a = (y - x) + (x - pz p n a) := by ring
  rw [e]
  exact this

theorem Rep.const {p n : ℕ} (hn : 0 < n) (c : ℤ) : Rep p n c (C c) := by
  rw [Rep, pz, sum_eq_single 0]
  · rw [coeff_zero_C, pow_zero, mul_one, sub_self]
    exact dvd_zero _
  · intro j _ hj
    rw [coeff_C, if_neg hj, zero_mul]
  · intro h
    exact absurd (mem_range.2 hn) h

theorem Rep.pow (p n e : ℕ) : Rep p n ((base p : ℤ) ^ e) (X ^ e) := by
  rw [Rep]
  by_cases h : e < n
  · rw [pz, sum_eq_single e]
    · rw [coeff_X_pow, if_pos rfl, one_mul, sub_self]
      exact dvd_zero _
    · intro j _ hj
      rw [coeff_X_pow, if_neg hj, zero_mul]
    · intro h'
      exact absurd (mem_range.2 h) h'
  · have : pz p n (X ^ e) = 0 := by
      refine sum_eq_zero fun j hj => ?_
      rw [mem_range] at hj
      rw [coeff_X_pow, if_neg (by omega), zero_mul]
    rw [this, sub_zero]
    exact pow_dvd_pow _ (by omega)

/-! ## Stored polynomials -/

/-- `y` is the stored form of the first `n` coefficients of `c`. -/
structure Stored (p n y : ℕ) (c : ℤ⟦X⟧) : Prop where
  lo : ∀ j < n, -(beta p : ℤ) ≤ coeff j c
  hi : ∀ j < n, coeff j c < beta p
  eq : y = pk (slot p) n fun j => (coeff j c + beta p).toNat

theorem beta_eq (p : ℕ) : (beta p : ℤ) = 2 ^ (p + 34) := by
  rw [beta]
  push_cast
  rfl

theorem Stored.slot_lt {p n y : ℕ} {c : ℤ⟦X⟧} (h : Stored p n y c) (j : ℕ) (hj : j < n) :
    (coeff j c + beta p).toNat < 2 ^ (p + 35) := by
  have h1 := h.lo j hj
  have h2 := h.hi j hj
  have h3 : (2 : ℤ) ^ (p + 35) = 2 * beta p := by
    rw [beta_eq, ← pow_succ']
  have h4 : ((coeff j c + beta p).toNat : ℤ) < ((2 ^ (p + 35) : ℕ) : ℤ) := by
    rw [Int.toNat_of_nonneg (by linarith)]
    push_cast
    linarith
  exact_mod_cast h4

theorem slot_pow_le (p : ℕ) : 2 ^ (p + 35) ≤ 2 ^ slot p := Nat.pow_le_pow_right (by norm_num) (by rw [slot]; omega)

theorem base_pow (p n : ℕ) : base p ^ n = 2 ^ (slot p * n) := by rw [base, pow_mul]

theorem beta_lt (p : ℕ) : beta p < 2 ^ slot p := Nat.pow_lt_pow_right (by norm_num) (by rw [slot]; omega)

theorem beta_ones (p n : ℕ) : beta p * ones p n = pk (slot p) n fun _ => beta p := by
  rw [mul_comm, ones_eq, pk_mul]
  simp

theorem un_spec {p n y : ℕ} {c : ℤ⟦X⟧} (h : Stored p n y c) : Rep p n (un p n n y : ℕ) c := by
  have h1 : beta p * ones p n < base p ^ n := by
    rw [beta_ones, base_pow]
    exact pk_lt fun _ _ => beta_lt p
  rw [Rep, un]
  have h2 : ((y + (base p ^ n - beta p * ones p n) : ℕ) : ℤ) - pz p n c = (base p : ℤ) ^ n := by
    rw [Nat.cast_add, Nat.cast_sub h1.le, beta_ones, h.eq, pk, pk, pz]
    push_cast
    have e : ∑ j ∈ range n, ((coeff j c + (beta p : ℤ)).toNat : ℤ) * ((2 : ℤ) ^ slot p) ^ j =
        ∑ j ∈ range n, coeff j c * (base p : ℤ) ^ j + ∑ j ∈ range n, (beta p : ℤ) * ((2 : ℤ) ^ slot p) ^ j := by
      rw [← sum_add_distrib]
      refine sum_congr rfl fun j hj => ?_
      have := h.lo j (mem_range.1 hj)
      rw [Int.toNat_of_nonneg (by linarith), base, Nat.cast_pow, Nat.cast_ofNat]
      ring
    rw [e]
    ring
  rw [h2]

theorem rnd_spec {p n x : ℕ} {a c : ℤ⟦X⟧} (hx : Rep p n x a) (ha : ∀ j < n, |coeff j a| < 2 ^ (2 * p + 34))
    (hc : ∀ j < n, coeff j c = coeff j a / 2 ^ p) : Stored p n (rnd p n x) c := by
  have hb : ∀ j < n, 0 ≤ coeff j a + 2 ^ (2 * p + 34) ∧ coeff j a + 2 ^ (2 * p + 34) < 2 ^ (2 * p + 35) := by
    intro j hj
    have := abs_lt.1 (ha j hj)
    have h3 : (2 : ℤ) ^ (2 * p + 35) = 2 * 2 ^ (2 * p + 34) := by rw [← pow_succ']
    constructor <;> linarith [this.1, this.2]
  have hp : (2 : ℤ) ^ (2 * p + 34) = 2 ^ (p + 34) * 2 ^ p := by
    rw [← pow_add]
    congr 1
    omega
  have hb' : ∀ j < n, (coeff j a + 2 ^ (2 * p + 34)).toNat < 2 ^ slot p := by
    intro j hj
    have h1 := hb j hj
    have h4 : ((coeff j a + 2 ^ (2 * p + 34)).toNat : ℤ) < ((2 ^ (2 * p + 35) : ℕ) : ℤ) := by
      rw [Int.toNat_of_nonneg h1.1]
      push_cast
      exact h1.2
    have h5 : (coeff j a + 2 ^ (2 * p + 34)).toNat < 2 ^ (2 * p + 35) := by exact_mod_cast h4
    exact h5.trans_le (Nat.pow_le_pow_right (by norm_num) (by rw [slot]; omega))
  have hdiv : ∀ j < n, (coeff j a + 2 ^ (2 * p + 34)) / 2 ^ p = coeff j c + beta p := by
    intro j hj
    rw [hc j hj, hp, Int.add_mul_ediv_right _ _ (by positivity), beta_eq]
  refine ⟨?_, ?_, ?_⟩
  · intro j hj
    have h1 := Int.ediv_nonneg (hb j hj).1 (show (0 : ℤ) ≤ 2 ^ p by positivity)
    rw [hdiv j hj] at h1
    linarith
  · intro j hj
    have h1 : (coeff j a + 2 ^ (2 * p + 34)) / 2 ^ p < 2 ^ (p + 35) := by
      rw [Int.ediv_lt_iff_lt_mul (by positivity), ← pow_add]
      refine (hb j hj).2.trans_le (le_of_eq ?_)
      congr 1
      omega
    rw [hdiv j hj] at h1
    have h3 : (2 : ℤ) ^ (p + 35) = 2 * beta p := by
      rw [beta_eq, ← pow_succ']
    linarith
  · have hy : ((x &&& (base p ^ n - 1)) + 2 ^ (2 * p + 34) * ones p n) % 2 ^ (slot p * n) =
        pk (slot p) n fun j => (coeff j a + 2 ^ (2 * p + 34)).toNat := by
      rw [base_pow, Nat.and_two_pow_sub_one_eq_mod]
      have h1 : (x % 2 ^ (slot p * n) + 2 ^ (2 * p + 34) * ones p n) ≡
          (pk (slot p) n fun j => (coeff j a + 2 ^ (2 * p + 34)).toNat) [MOD 2 ^ (slot p * n)] := by
        rw [Nat.modEq_iff_dvd]
        have e1 : ((pk (slot p) n fun j => (coeff j a + 2 ^ (2 * p + 34)).toNat : ℕ) : ℤ) =
            pz p n a + ((2 ^ (2 * p + 34) * ones p n : ℕ) : ℤ) := by
          rw [mul_comm (2 ^ (2 * p + 34)) (ones p n), ones_eq, pk_mul, pk, pk, pz]
          push_cast
          rw [← sum_add_distrib]
          refine sum_congr rfl fun j hj => ?_
          rw [Int.toNat_of_nonneg (hb j (mem_range.1 hj)).1, base, Nat.cast_pow, Nat.cast_ofNat]
          ring
        rw [e1, Nat.cast_add]
        have e2 : (2 ^ (slot p * n) : ℕ) = base p ^ n := (base_pow p n).symm
        rw [e2]
        push_cast
        have h3 : (base p : ℤ) ^ n ∣ (x : ℤ) - ((x : ℤ) % (base p : ℤ) ^ n) := Int.dvd_self_sub_emod
        have h4 := dvd_sub h3 hx
        have e3 : pz p n a + (2 : ℤ) ^ (2 * p + 34) * (ones p n : ℤ) -
            ((x : ℤ) % (base p : ℤ) ^ n + (2 : ℤ) ^ (2 * p + 34) * (ones p n : ℤ)) =
          ((x : ℤ) - (x : ℤ) % (base p : ℤ) ^ n) - ((x : ℤ) - pz p n a) := by ring
        rw [e3]
        exact h4
      rw [h1, Nat.mod_eq_of_lt (pk_lt hb')]
    rw [rnd, shift_mask hb' hy (by rw [slot]; omega) (by omega)]
    refine pk_congr fun j hj => ?_
    have h1 : (((coeff j a + 2 ^ (2 * p + 34)).toNat / 2 ^ p : ℕ) : ℤ) = coeff j c + beta p := by
      rw [← hdiv j hj]
      push_cast
      rw [Int.toNat_of_nonneg (hb j hj).1]
    have h2 : (coeff j a + 2 ^ (2 * p + 34)).toNat / 2 ^ p < 2 ^ (p + 35) := by
      rw [Nat.div_lt_iff_lt_mul (by positivity), ← pow_add]
      have h4 : ((coeff j a + 2 ^ (2 * p + 34)).toNat : ℤ) < ((2 ^ (p + 35 + p) : ℕ) : ℤ) := by
        rw [Int.toNat_of_nonneg (hb j hj).1]
        push_cast
        refine (hb j hj).2.trans_le (le_of_eq ?_)
        congr 1
        omega
      exact_mod_cast h4
    rw [Nat.mod_eq_of_lt h2, ← h1, Int.toNat_natCast]

theorem sum_le_mul {n T : ℕ} {d : ℕ → ℕ} (hd : ∀ j < n, d j < T) : ∑ j ∈ range n, d j ≤ n * T := by
  calc ∑ j ∈ range n, d j ≤ ∑ _j ∈ range n, T := sum_le_sum fun j hj => (hd j (mem_range.1 hj)).le
    _ = n * T := by rw [sum_const, card_range, smul_eq_mul]

theorem norm_spec {p n y : ℕ} {c : ℤ⟦X⟧} (h : Stored p n y c) (hn : n ≤ 2 ^ p) :
    (norm p n y : ℤ) = ∑ j ∈ range n, |coeff j c| := by
  have hs : 0 < slot p := by rw [slot]; omega
  set b : ℕ → ℕ := fun j => (coeff j c + beta p).toNat with hbdef
  have hlt : ∀ j < n, b j < 2 ^ (p + 35) := h.slot_lt
  have hlt' : ∀ j < n, b j < 2 ^ slot p := fun j hj => (hlt j hj).trans_le (slot_pow_le p)
  have hy : y = pk (slot p) n b := h.eq
  have hbeta : (2 : ℕ) ^ (p + 35) = 2 * 2 ^ (p + 34) := by rw [← pow_succ']
  have hsum : ∀ d : ℕ → ℕ, (∀ j < n, d j < 2 ^ (p + 35)) → ∑ j ∈ range n, d j < base p - 1 := by
    intro d hd
    have h1 : ∑ j ∈ range n, d j ≤ n * 2 ^ (p + 35) := sum_le_mul hd
    have h2 : n * 2 ^ (p + 35) ≤ 2 ^ (2 * p + 35) := by
      calc n * 2 ^ (p + 35) ≤ 2 ^ p * 2 ^ (p + 35) := Nat.mul_le_mul_right _ hn
        _ = 2 ^ (2 * p + 35) := by rw [← pow_add, show p + (p + 35) = 2 * p + 35 by omega]
    have h3 : base p = 2 * 2 ^ (2 * p + 35) := by rw [base, slot, ← pow_succ']
    have h4 : 2 ≤ 2 ^ (2 * p + 35) := Nat.le_self_pow (by omega) 2
    generalize 2 ^ (2 * p + 35) = T at *
    omega
  have hmask : (y >>> (p + 34)) &&& ones p n = pk (slot p) n fun j => b j / 2 ^ (p + 34) % 2 ^ 1 := by
    have := shift_mask (p := p) (n := n) (y := y) (a := p + 34) (w := 1) hlt'
      (by rw [hy]; exact Nat.mod_eq_of_lt (pk_lt hlt')) (by rw [slot]; omega) (by omega)
    simpa using this
  have hpos : y &&& (((y >>> (p + 34)) &&& ones p n) * (2 ^ (p + 34) - 1)) = pk (slot p) n fun j => b j - 2 ^ (p + 34) := by
    rw [hmask, pk_mul, hy]
    have h24 : 2 ^ (p + 34) - 1 < 2 ^ slot p := by
      have := Nat.pow_le_pow_right (n := 2) (by norm_num) (show p + 34 ≤ slot p by rw [slot]; omega)
      have := Nat.one_le_two_pow (n := p + 34)
      omega
    rw [land_pk hs hlt' fun j hj => ?_]
    · refine pk_congr fun j hj => ?_
      have h1 := hlt j hj
      by_cases h2 : b j < 2 ^ (p + 34)
      · rw [Nat.div_eq_of_lt h2, Nat.sub_eq_zero_of_le h2.le]
        simp
      · push Not at h2
        have h3 : b j / 2 ^ (p + 34) = 1 := by
          rw [Nat.div_eq_iff (by positivity)]
          omega
        have h4 : (1 : ℕ) % 2 ^ 1 = 1 := by norm_num
        rw [h3, h4, one_mul, Nat.and_two_pow_sub_one_eq_mod, Nat.mod_eq_sub_mod h2, Nat.mod_eq_of_lt (by omega)]
    · calc b j / 2 ^ (p + 34) % 2 ^ 1 * (2 ^ (p + 34) - 1) ≤ 1 * (2 ^ (p + 34) - 1) := Nat.mul_le_mul_right _ (by omega)
        _ < 2 ^ slot p := by omega
  rw [norm, hpos, total_pk (hsum _ fun j hj => by have := hlt j hj; omega), hy, total_pk (hsum _ hlt)]
  have h1 : ∑ j ∈ range n, b j ≤ 2 * ∑ j ∈ range n, (b j - 2 ^ (p + 34)) + n * beta p := by
    have e : n * beta p = ∑ _j ∈ range n, beta p := by rw [sum_const, card_range, smul_eq_mul]
    rw [e, mul_sum, ← sum_add_distrib]
    refine sum_le_sum fun j _ => ?_
    rw [beta]
    omega
  rw [Nat.cast_sub h1]
  push_cast
  rw [mul_sum]
  have e : (n : ℤ) * (beta p : ℤ) = ∑ _j ∈ range n, (beta p : ℤ) := by rw [sum_const, card_range, nsmul_eq_mul]
  rw [e, ← sum_add_distrib, ← sum_sub_distrib]
  refine sum_congr rfl fun j hj => ?_
  have h2 := h.lo j (mem_range.1 hj)
  have h3 : (b j : ℤ) = coeff j c + beta p := by
    rw [hbdef]
    exact Int.toNat_of_nonneg (by linarith)
  have h4 : (beta p : ℤ) = ((2 ^ (p + 34) : ℕ) : ℤ) := rfl
  rcases le_total 0 (coeff j c) with h5 | h5
  · rw [abs_of_nonneg h5, Nat.cast_sub (by zify; rw [h3, beta_eq]; linarith)]
    push_cast
    rw [h3, beta_eq]
    ring
  · rw [abs_of_nonpos h5, Nat.sub_eq_zero_of_le (by zify; rw [h3, beta_eq]; linarith)]
    rw [h3]
    push_cast
    ring

end Mandelbrot.Known
