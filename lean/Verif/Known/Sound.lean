import Verif.Known.Pack
import Verif.Known.Perturb
import Verif.PS.Bottcher
import Mathlib.Tactic.FieldSimp

/-!
# A passed check bounds the error of the series (C68)
-/

namespace Mandelbrot.Known

open Finset PowerSeries

/-! ## Any number that passes `wf` is a stored polynomial -/

theorem mod_eq_pk (s n y : ℕ) : y % 2 ^ (s * n) = pk s n fun j => y / 2 ^ (s * j) % 2 ^ s := by
  induction n with
  | zero => simp [pk, Nat.mod_one]
  | succ n ih =>
    rw [pk_succ, ← ih, Nat.mul_succ, pow_add, Nat.mod_mul, add_comm]

/-- Coefficient `j` of a stored polynomial. -/
noncomputable def poly (p y : ℕ) : ℤ⟦X⟧ := PowerSeries.mk fun j => ((y / 2 ^ (slot p * j) % 2 ^ slot p : ℕ) : ℤ) - beta p

theorem stored_poly {p n y : ℕ} (h : wf p n y = true) : Stored p n y (poly p y) := by
  have h1 : y &&& ((2 ^ (p + 35) - 1) * ones p n) = y := Nat.eq_of_beq_eq_true h
  have hb : ∀ j < n, y / 2 ^ (slot p * j) % 2 ^ slot p < 2 ^ slot p := fun j _ => Nat.mod_lt _ (by positivity)
  have h2 := shift_mask (p := p) (n := n) (y := y) (a := 0) (w := p + 35) hb (mod_eq_pk _ _ _) (by rw [slot]; omega) (by omega)
  rw [Nat.shiftRight_zero, h1] at h2
  simp only [pow_zero, Nat.div_one] at h2
  have hlt : ∀ j < n, y / 2 ^ (slot p * j) % 2 ^ slot p % 2 ^ (p + 35) < 2 ^ slot p := fun j _ =>
    (Nat.mod_lt _ (by positivity)).trans_le (slot_pow_le p)
  have h3 : ∀ j < n, y / 2 ^ (slot p * j) % 2 ^ slot p = y / 2 ^ (slot p * j) % 2 ^ slot p % 2 ^ (p + 35) := by
    intro j hj
    have hs : 0 < slot p := by rw [slot]; omega
    apply Nat.eq_of_testBit_eq
    intro i
    by_cases hi : i < slot p
    · have h4 := congrArg (fun z => Nat.testBit z (slot p * j + i)) h2
      simp only [testBit_pk hs hlt] at h4
      have e1 : (slot p * j + i) / slot p = j := by
        rw [Nat.mul_add_div hs, Nat.div_eq_of_lt hi, add_zero]
      have e2 : (slot p * j + i) % slot p = i := by
        rw [Nat.mul_add_mod, Nat.mod_eq_of_lt hi]
      rw [e1, e2] at h4
      rw [Nat.testBit_mod_two_pow, Nat.testBit_div_two_pow, add_comm i, h4]
      simp [hj, hi]
    · push Not at hi
      rw [Nat.testBit_lt_two_pow ((hb j hj).trans_le (Nat.pow_le_pow_right (by norm_num) hi)),
        Nat.testBit_lt_two_pow ((hlt j hj).trans_le (Nat.pow_le_pow_right (by norm_num) hi))]
  refine ⟨?_, ?_, ?_⟩
  · intro j _
    rw [poly, coeff_mk]
    have : (0 : ℤ) ≤ ((y / 2 ^ (slot p * j) % 2 ^ slot p : ℕ) : ℤ) := Int.natCast_nonneg _
    linarith
  · intro j hj
    rw [poly, coeff_mk, h3 j hj]
    have h5 : y / 2 ^ (slot p * j) % 2 ^ slot p % 2 ^ (p + 35) < 2 ^ (p + 35) := Nat.mod_lt _ (by positivity)
    have h6 : (2 : ℕ) ^ (p + 35) = 2 * beta p := by rw [beta, ← pow_succ']
    rw [h6] at h5 ⊢
    have h7 : ((y / 2 ^ (slot p * j) % 2 ^ slot p % (2 * beta p) : ℕ) : ℤ) < ((2 * beta p : ℕ) : ℤ) := by exact_mod_cast h5
    push_cast at h7 ⊢
    linarith
  · conv_lhs => rw [h2]
    refine pk_congr fun j hj => ?_
    rw [← h3 j hj, poly, coeff_mk, sub_add_cancel, Int.toNat_natCast]

theorem stored_unit {p n : ℕ} (hn : 0 < n) : Stored p n (unit p n) (C (2 ^ p)) := by
  have h1 : (2 : ℤ) ^ p < beta p := by
    rw [beta_eq]
    exact pow_lt_pow_right₀ (by norm_num) (by omega)
  have h0 : (0 : ℤ) < 2 ^ p := by positivity
  refine ⟨?_, ?_, ?_⟩
  · intro j _
    rw [coeff_C]
    split <;> linarith
  · intro j _
    rw [coeff_C]
    split <;> linarith
  · rw [unit, beta_ones, pk, pk]
    obtain ⟨m, rfl⟩ : ∃ m, n = m + 1 := ⟨n - 1, by omega⟩
    rw [sum_range_succ', sum_range_succ']
    have e : ∀ j, (coeff (j + 1) (C (2 ^ p) : ℤ⟦X⟧) + (beta p : ℤ)).toNat = beta p := by
      intro j
      rw [coeff_C, if_neg (by omega), zero_add, Int.toNat_natCast]
    simp only [e]
    have e0 : (coeff 0 (C (2 ^ p) : ℤ⟦X⟧) + (beta p : ℤ)).toNat = 2 ^ p + beta p := by
      rw [coeff_zero_C]
      have : (2 : ℤ) ^ p + (beta p : ℤ) = ((2 ^ p + beta p : ℕ) : ℤ) := by push_cast; rfl
      rw [this, Int.toNat_natCast]
    rw [e0]
    ring

/-! ## Real series -/

/-- The integer series as a real one. -/
noncomputable def toR (a : ℤ⟦X⟧) : ℝ⟦X⟧ := PowerSeries.map (Int.castRingHom ℝ) a

theorem coeff_toR (j : ℕ) (a : ℤ⟦X⟧) : coeff j (toR a) = ((coeff j a : ℤ) : ℝ) := by
  rw [toR, coeff_map]
  rfl

theorem toR_mul (a b : ℤ⟦X⟧) : toR (a * b) = toR a * toR b := map_mul _ _ _

theorem nrm_toR (n : ℕ) (a : ℤ⟦X⟧) : nrm n (toR a) = ((∑ j ∈ range n, |coeff j a| : ℤ) : ℝ) := by
  rw [nrm]
  push_cast
  exact sum_congr rfl fun j _ => by rw [coeff_toR]

theorem nrm_smul (n : ℕ) (r : ℝ) (a : ℝ⟦X⟧) : nrm n (C r * a) = |r| * nrm n a := by
  rw [nrm, nrm, mul_sum]
  exact sum_congr rfl fun j _ => by rw [coeff_C_mul, abs_mul]

theorem coeff_le_nrm {n j : ℕ} (hj : j < n) (a : ℝ⟦X⟧) : |coeff j a| ≤ nrm n a :=
  single_le_sum (f := fun j => |coeff j a|) (fun _ _ => abs_nonneg _) (mem_range.2 hj)

/-- The sum of the absolute values of the first `n` coefficients. -/
noncomputable def nz (n : ℕ) (a : ℤ⟦X⟧) : ℤ := ∑ j ∈ range n, |coeff j a|

theorem abs_coeff_mul {n j : ℕ} (hj : j < n) (a b : ℤ⟦X⟧) : |coeff j (a * b)| ≤ nz n a * nz n b := by
  have h1 := (coeff_le_nrm hj (toR (a * b))).trans (le_of_eq (by rw [toR_mul])) |>.trans (nrm_mul n (toR a) (toR b))
  rw [nrm_toR, nrm_toR, coeff_toR] at h1
  have h2 : ((|coeff j (a * b)| : ℤ) : ℝ) ≤ ((nz n a * nz n b : ℤ) : ℝ) := by
    push_cast [nz] at h1 ⊢
    exact h1
  exact_mod_cast h2

theorem abs_coeff_shift {n j e : ℕ} (hj : j < n) (c : ℤ) (a : ℤ⟦X⟧) : |coeff j (X ^ e * (C c * a))| ≤ |c| * nz n a := by
  rw [coeff_X_pow_mul']
  split
  · rw [coeff_C_mul, abs_mul]
    refine mul_le_mul_of_nonneg_left ?_ (abs_nonneg c)
    exact single_le_sum (f := fun j => |coeff j a|) (fun _ _ => abs_nonneg _) (mem_range.2 (by omega))
  · rw [abs_zero]
    exact mul_nonneg (abs_nonneg _) (sum_nonneg fun _ _ => abs_nonneg _)

/-! ## The levels -/

/-- The stored `Q_i`. -/
def yq (p n f : ℕ) : ℕ → ℕ
  | 0 => f
  | i + 1 => stepQ p n i (un p n n (yq p n f i)) (un p n n f)

/-- The stored derivative of `Q_i`. -/
def yd (p n f : ℕ) : ℕ → ℕ
  | 0 => unit p n
  | i + 1 => stepD p n i (un p n n (yq p n f i)) (un p n n (yd p n f i))

/-- The error bound of level `i`. -/
def ww (p n h f : ℕ) : ℕ → ℕ
  | 0 => 0
  | i + 1 => stepW p n h (norm p n (yq p n f i)) (norm p n (yd p n f i)) (ww p n h f i)

theorem levels_true {p n k h f : ℕ} (j : ℕ) : ∀ i,
    levels p n k h f j i (yq p n f i) (yd p n f i) (ww p n h f i) = true →
      (∀ l, i ≤ l → l < i + j →
        norm p n (yq p n f l) * norm p n (yq p n f l) + 2 ^ p * norm p n f < 2 ^ (2 * p + 34) ∧
        2 * (norm p n (yq p n f l) * norm p n (yd p n f l)) + 2 ^ (2 * p) < 2 ^ (2 * p + 34)) ∧
      finish p n h (ww p n h f (i + j)) (yq p n f (i + j)) (yd p n f (i + j)) (inv p k (un p n n (yd p n f (i + j))) k) = true := by
  have hT : 0 < 2 ^ (2 * p + 34) := by positivity
  induction j with
  | zero =>
    intro i hl
    exact ⟨fun l h1 h2 => absurd h2 (by omega), hl⟩
  | succ j ih =>
    intro i hl
    rw [levels] at hl
    simp only [Bool.and_eq_true] at hl
    obtain ⟨⟨h1, h2⟩, h3⟩ := hl
    have h1' := Nat.le_of_ble_eq_true h1
    have h2' := Nat.le_of_ble_eq_true h2
    obtain ⟨ih1, ih2⟩ := ih (i + 1) h3
    rw [show i + 1 + j = i + (j + 1) by omega] at ih1 ih2
    refine ⟨fun l hil hlj => ?_, ih2⟩
    rcases Nat.eq_or_lt_of_le hil with rfl | hil
    · generalize 2 ^ (2 * p + 34) = T at *
      omega
    · exact ih1 l hil hlj

/-- The integer coefficients of level `i`. -/
noncomputable def cq (p : ℕ) (c : ℤ⟦X⟧) : ℕ → ℤ⟦X⟧
  | 0 => c
  | i + 1 => PowerSeries.mk fun j => coeff j (cq p c i * cq p c i + X ^ (2 ^ (i + 1) - 1) * (C (2 ^ p) * c)) / 2 ^ p

/-- The integer coefficients of the derivative of level `i`. -/
noncomputable def cd (p : ℕ) (c : ℤ⟦X⟧) : ℕ → ℤ⟦X⟧
  | 0 => C (2 ^ p)
  | i + 1 => PowerSeries.mk fun j => coeff j (C 2 * (cq p c i * cd p c i) + X ^ (2 ^ (i + 1) - 1) * (C (2 ^ (2 * p)) * 1)) / 2 ^ p

theorem stepQ_stored {p n i y f : ℕ} {a c r : ℤ⟦X⟧} (hn : 0 < n) (hnp : n ≤ 2 ^ p) (hy : Stored p n y a) (hf : Stored p n f c)
    (hb : norm p n y * norm p n y + 2 ^ p * norm p n f < 2 ^ (2 * p + 34))
    (hr : ∀ j < n, coeff j r = coeff j (a * a + X ^ (2 ^ (i + 1) - 1) * (C (2 ^ p) * c)) / 2 ^ p) :
    Stored p n (stepQ p n i (un p n n y) (un p n n f)) r := by
  have h1 := un_spec hy
  have h2 := un_spec hf
  refine rnd_spec (a := a * a + X ^ (2 ^ (i + 1) - 1) * (C (2 ^ p) * c)) ?_ ?_ hr
  · have h3 := (h1.mul h1).add ((Rep.pow p n (2 ^ (i + 1) - 1)).mul ((Rep.const hn (2 ^ p)).mul h2))
    have e : ((un p n n y * un p n n y + un p n n f <<< (slot p * (2 ^ (i + 1) - 1) + p) : ℕ) : ℤ) =
        (un p n n y : ℤ) * (un p n n y : ℤ) + (base p : ℤ) ^ (2 ^ (i + 1) - 1) * (2 ^ p * (un p n n f : ℤ)) := by
      rw [Nat.shiftLeft_eq, pow_add, pow_mul, base]
      push_cast
      ring
    rw [e]
    exact h3
  · intro j hj
    have h3 := abs_coeff_mul hj a a
    have h4 := abs_coeff_shift hj (e := 2 ^ (i + 1) - 1) (2 ^ p) c
    rw [abs_of_pos (show (0 : ℤ) < 2 ^ p by positivity)] at h4
    rw [map_add]
    refine (abs_add_le _ _).trans_lt ((add_le_add h3 h4).trans_lt ?_)
    rw [nz, nz, ← norm_spec hy hnp, ← norm_spec hf hnp]
    exact_mod_cast hb

theorem stepD_stored {p n i y d : ℕ} {a b r : ℤ⟦X⟧} (hn : 0 < n) (hnp : n ≤ 2 ^ p) (hy : Stored p n y a) (hd : Stored p n d b)
    (hb : 2 * (norm p n y * norm p n d) + 2 ^ (2 * p) < 2 ^ (2 * p + 34))
    (hr : ∀ j < n, coeff j r = coeff j (C 2 * (a * b) + X ^ (2 ^ (i + 1) - 1) * (C (2 ^ (2 * p)) * 1)) / 2 ^ p) :
    Stored p n (stepD p n i (un p n n y) (un p n n d)) r := by
  have h1 := un_spec hy
  have h2 := un_spec hd
  refine rnd_spec (a := C 2 * (a * b) + X ^ (2 ^ (i + 1) - 1) * (C (2 ^ (2 * p)) * 1)) ?_ ?_ hr
  · have h3 := ((Rep.const hn 2).mul (h1.mul h2)).add ((Rep.pow p n (2 ^ (i + 1) - 1)).mul (Rep.const hn (2 ^ (2 * p))))
    have e : ((2 * (un p n n y * un p n n d) + 1 <<< (slot p * (2 ^ (i + 1) - 1) + 2 * p) : ℕ) : ℤ) =
        2 * ((un p n n y : ℤ) * (un p n n d : ℤ)) + (base p : ℤ) ^ (2 ^ (i + 1) - 1) * 2 ^ (2 * p) := by
      rw [Nat.shiftLeft_eq, pow_add, pow_mul 2 (slot p), base]
      push_cast
      ring
    rw [e, mul_one]
    exact h3
  · intro j hj
    have h3 := abs_coeff_mul hj a b
    have h4 := abs_coeff_shift hj (e := 2 ^ (i + 1) - 1) (2 ^ (2 * p)) 1
    rw [abs_of_pos (show (0 : ℤ) < 2 ^ (2 * p) by positivity)] at h4
    have h5 : nz n (1 : ℤ⟦X⟧) ≤ 1 := by
      rw [nz]
      obtain ⟨m, rfl⟩ : ∃ m, n = m + 1 := ⟨n - 1, by omega⟩
      rw [sum_range_succ', sum_eq_zero fun j _ => by rw [coeff_one, if_neg (by omega), abs_zero]]
      simp
    have h6 : (2 : ℤ) ^ (2 * p) * nz n (1 : ℤ⟦X⟧) ≤ 2 ^ (2 * p) := by
      calc (2 : ℤ) ^ (2 * p) * nz n (1 : ℤ⟦X⟧) ≤ 2 ^ (2 * p) * 1 := mul_le_mul_of_nonneg_left h5 (by positivity)
        _ = 2 ^ (2 * p) := mul_one _
    rw [map_add, coeff_C_mul]
    refine (abs_add_le _ _).trans_lt ?_
    rw [abs_mul, show |(2 : ℤ)| = 2 by norm_num]
    have h7 : 2 * (nz n a * nz n b) + 2 ^ (2 * p) < 2 ^ (2 * p + 34) := by
      rw [nz, nz, ← norm_spec hy hnp, ← norm_spec hd hnp]
      exact_mod_cast hb
    linarith

/-- The stored numbers of the levels stand for the integer series. -/
theorem stored_levels {p n f k : ℕ} {c : ℤ⟦X⟧} (hn : 0 < n) (hnp : n ≤ 2 ^ p) (hf : Stored p n f c)
    (hl : ∀ l < k, norm p n (yq p n f l) * norm p n (yq p n f l) + 2 ^ p * norm p n f < 2 ^ (2 * p + 34) ∧
        2 * (norm p n (yq p n f l) * norm p n (yd p n f l)) + 2 ^ (2 * p) < 2 ^ (2 * p + 34)) :
    ∀ i ≤ k, Stored p n (yq p n f i) (cq p c i) ∧ Stored p n (yd p n f i) (cd p c i) := by
  intro i
  induction i with
  | zero =>
    intro _
    exact ⟨hf, stored_unit hn⟩
  | succ i ih =>
    intro hi
    obtain ⟨h1, h2⟩ := ih (by omega)
    obtain ⟨h3, h4⟩ := hl i (by omega)
    exact ⟨stepQ_stored hn hnp h1 hf h3 fun j _ => by rw [cq, coeff_mk],
      stepD_stored hn hnp h1 h2 h4 fun j _ => by rw [cd, coeff_mk]⟩

theorem cq_zero {p : ℕ} {c : ℤ⟦X⟧} (hc : coeff 0 c = 2 ^ p) (i : ℕ) : coeff 0 (cq p c i) = 2 ^ p := by
  induction i with
  | zero => exact hc
  | succ i ih =>
    have h1 : 2 ^ (i + 1) - 1 ≠ 0 := by
      have := Nat.pow_lt_pow_right (a := 2) (by norm_num) (show 0 < i + 1 by omega)
      omega
    rw [cq, coeff_mk, map_add, coeff_X_pow_mul', if_neg (by omega), add_zero, coeff_zero_eq_constantCoeff_apply, map_mul,
      ← coeff_zero_eq_constantCoeff_apply, ih]
    exact Int.mul_ediv_cancel _ (by positivity)

theorem mulUp_spec (p a b : ℕ) : (a : ℝ) / 2 ^ (2 * p) * ((b : ℝ) / 2 ^ (2 * p)) ≤ (mulUp p a b : ℝ) / 2 ^ (2 * p) := by
  have h1 : a * b < (a * b / 2 ^ (2 * p) + 1) * 2 ^ (2 * p) := by
    rw [mul_comm _ (2 ^ (2 * p))]
    exact Nat.lt_mul_div_succ _ (by positivity)
  have h2 : (a : ℝ) * b ≤ (mulUp p a b : ℝ) * 2 ^ (2 * p) := by
    rw [mulUp]
    exact_mod_cast h1.le
  rw [div_mul_div_comm, div_le_div_iff₀ (by positivity) (by positivity)]
  nlinarith [show (0 : ℝ) < 2 ^ (2 * p) by positivity]

theorem stepW_spec (p n h nq nd w : ℕ) :
    2 * ((nq : ℝ) / 2 ^ p) * ((w : ℝ) / 2 ^ (2 * p)) + ((nd : ℝ) / 2 ^ p * ((h : ℝ) / 2 ^ (2 * p)) + (w : ℝ) / 2 ^ (2 * p)) ^ 2
      + (n : ℝ) / 2 ^ p + (n : ℝ) / 2 ^ p * ((h : ℝ) / 2 ^ (2 * p)) ≤ (stepW p n h nq nd w : ℝ) / 2 ^ (2 * p) := by
  have hP : (2 : ℝ) ^ (2 * p) = 2 ^ p * 2 ^ p := by rw [← pow_add]; ring_nf
  have hp : (0 : ℝ) < 2 ^ p := by positivity
  have e1 : (nd : ℝ) / 2 ^ p = ((2 ^ p * nd : ℕ) : ℝ) / 2 ^ (2 * p) := by
    push_cast
    rw [hP]
    field_simp
  have e2 : 2 * ((nq : ℝ) / 2 ^ p) = ((2 ^ (p + 1) * nq : ℕ) : ℝ) / 2 ^ (2 * p) := by
    push_cast
    rw [hP, pow_succ]
    field_simp
  have e3 : (n : ℝ) / 2 ^ p = ((n * 2 ^ p : ℕ) : ℝ) / 2 ^ (2 * p) := by
    push_cast
    rw [hP]
    field_simp
  have h1 := mulUp_spec p (2 ^ p * nd) h
  have h2 : (nd : ℝ) / 2 ^ p * ((h : ℝ) / 2 ^ (2 * p)) + (w : ℝ) / 2 ^ (2 * p) ≤
      ((mulUp p (2 ^ p * nd) h + w : ℕ) : ℝ) / 2 ^ (2 * p) := by
    rw [Nat.cast_add, add_div, e1]
    linarith
  have h3 : ((nd : ℝ) / 2 ^ p * ((h : ℝ) / 2 ^ (2 * p)) + (w : ℝ) / 2 ^ (2 * p)) ^ 2 ≤
      (mulUp p (mulUp p (2 ^ p * nd) h + w) (mulUp p (2 ^ p * nd) h + w) : ℝ) / 2 ^ (2 * p) := by
    refine le_trans ?_ (mulUp_spec p _ _)
    rw [← sq]
    exact pow_le_pow_left₀ (by positivity) h2 2
  have h4 := mulUp_spec p (2 ^ (p + 1) * nq) w
  have h5 := mulUp_spec p (n * 2 ^ p) h
  rw [stepW]
  rw [← e2] at h4
  rw [← e3] at h5
  simp only [Nat.cast_add]
  rw [add_div, add_div, add_div, ← e3]
  linarith

theorem scale_mul (p : ℕ) : (C (1 / 2 ^ p : ℝ) : ℝ⟦X⟧) * C (1 / 2 ^ p) = C (1 / 2 ^ (2 * p)) := by
  have hP : (2 : ℝ) ^ (2 * p) = 2 ^ p * 2 ^ p := by rw [← pow_add]; ring_nf
  rw [← map_mul, hP, div_mul_div_comm, one_mul]

theorem scale_p (p : ℕ) : (C (1 / 2 ^ (2 * p) : ℝ) : ℝ⟦X⟧) * C (2 ^ p) = C (1 / 2 ^ p) := by
  have hP : (2 : ℝ) ^ (2 * p) = 2 ^ p * 2 ^ p := by rw [← pow_add]; ring_nf
  have h : (1 : ℝ) / 2 ^ (2 * p) * 2 ^ p = 1 / 2 ^ p := by
    rw [hP]
    field_simp
  rw [← map_mul, h]

theorem scale_one (p : ℕ) : (C (1 / 2 ^ (2 * p) : ℝ) : ℝ⟦X⟧) * C (2 ^ (2 * p)) = 1 := by
  rw [← map_mul, one_div_mul_cancel (by positivity), map_one]

theorem toR_C (a : ℤ) : toR (C a) = C (a : ℝ) := by
  rw [toR, map_C]
  rfl

theorem toR_X (e : ℕ) : toR (X ^ e) = X ^ e := by
  rw [toR, map_pow, map_X]

theorem toR_add (a b : ℤ⟦X⟧) : toR (a + b) = toR a + toR b := map_add _ _ _

theorem scale_eq_Q (p e : ℕ) (a c : ℤ⟦X⟧) : C (1 / 2 ^ p : ℝ) * toR a * (C (1 / 2 ^ p : ℝ) * toR a) +
    X ^ e * (C (1 / 2 ^ p : ℝ) * toR c) = C (1 / 2 ^ (2 * p) : ℝ) * toR (a * a + X ^ e * (C (2 ^ p) * c)) := by
  rw [toR_add, toR_mul, toR_mul, toR_mul, toR_C, toR_X]
  push_cast
  generalize (X : ℝ⟦X⟧) ^ e = z
  have h1 := scale_mul p
  have h2 := scale_p p
  generalize (C (1 / 2 ^ p : ℝ) : ℝ⟦X⟧) = u at *
  generalize (C (1 / 2 ^ (2 * p) : ℝ) : ℝ⟦X⟧) = v at *
  generalize (C ((2 : ℝ) ^ p) : ℝ⟦X⟧) = t at *
  linear_combination (toR a * toR a) * h1 - (z * toR c) * h2

theorem scale_eq_D (p e : ℕ) (a b : ℤ⟦X⟧) : 2 * (C (1 / 2 ^ p : ℝ) * toR a * (C (1 / 2 ^ p : ℝ) * toR b)) + X ^ e =
    C (1 / 2 ^ (2 * p) : ℝ) * toR (C 2 * (a * b) + X ^ e * (C (2 ^ (2 * p)) * 1)) := by
  rw [mul_one, toR_add, toR_mul, toR_mul, toR_mul, toR_C, toR_C, toR_X]
  push_cast
  have h3 : (C (2 : ℝ) : ℝ⟦X⟧) = 2 := map_ofNat _ 2
  rw [h3]
  generalize (X : ℝ⟦X⟧) ^ e = z
  have h1 := scale_mul p
  have h2 := scale_one p
  generalize (C (1 / 2 ^ p : ℝ) : ℝ⟦X⟧) = u at *
  generalize (C (1 / 2 ^ (2 * p) : ℝ) : ℝ⟦X⟧) = v at *
  generalize (C ((2 : ℝ) ^ (2 * p)) : ℝ⟦X⟧) = t at *
  linear_combination (2 * toR a * toR b) * h1 - z * h2

theorem scale_eq_E (p : ℕ) (a b : ℤ⟦X⟧) : C (1 / 2 ^ p : ℝ) * toR a * (C (1 / 2 ^ p : ℝ) * toR b) - 1 =
    C (1 / 2 ^ (2 * p) : ℝ) * toR (a * b + C (-(2 ^ (2 * p)))) := by
  rw [toR_add, toR_mul, toR_C]
  push_cast
  rw [map_neg]
  have h1 := scale_mul p
  have h2 := scale_one p
  generalize (C (1 / 2 ^ p : ℝ) : ℝ⟦X⟧) = u at *
  generalize (C (1 / 2 ^ (2 * p) : ℝ) : ℝ⟦X⟧) = v at *
  generalize (C ((2 : ℝ) ^ (2 * p)) : ℝ⟦X⟧) = t at *
  linear_combination (toR a * toR b) * h1 + h2

/-- The remainder of a division of all coefficients by `2^p`. -/
theorem rem_coeff {p n : ℕ} {A r : ℤ⟦X⟧} (hr : ∀ j < n, coeff j r = coeff j A / 2 ^ p) {j : ℕ} (hj : j < n) :
    coeff j (C (1 / 2 ^ (2 * p) : ℝ) * toR A - C (1 / 2 ^ p : ℝ) * toR r) = ((coeff j A % 2 ^ p : ℤ) : ℝ) / 2 ^ (2 * p) := by
  have hP : (2 : ℝ) ^ (2 * p) = 2 ^ p * 2 ^ p := by rw [← pow_add]; ring_nf
  rw [map_sub, coeff_C_mul, coeff_C_mul, coeff_toR, coeff_toR, hr j hj]
  have h2 := Int.emod_add_mul_ediv (coeff j A) (2 ^ p)
  have h3 : ((coeff j A : ℤ) : ℝ) = ((coeff j A % 2 ^ p : ℤ) : ℝ) + 2 ^ p * ((coeff j A / 2 ^ p : ℤ) : ℝ) := by
    exact_mod_cast h2.symm
  rw [h3, hP]
  field_simp
  ring

theorem rem_nrm {p n : ℕ} {A r : ℤ⟦X⟧} (hr : ∀ j < n, coeff j r = coeff j A / 2 ^ p) :
    nrm n (C (1 / 2 ^ (2 * p) : ℝ) * toR A - C (1 / 2 ^ p : ℝ) * toR r) ≤ (n : ℝ) / 2 ^ p := by
  have hP : (2 : ℝ) ^ (2 * p) = 2 ^ p * 2 ^ p := by rw [← pow_add]; ring_nf
  have hp : (0 : ℝ) < 2 ^ p := by positivity
  have h1 : nrm n (C (1 / 2 ^ (2 * p) : ℝ) * toR A - C (1 / 2 ^ p : ℝ) * toR r) ≤ ∑ _j ∈ range n, (1 : ℝ) / 2 ^ p := by
    refine sum_le_sum fun j hj => ?_
    rw [rem_coeff hr (mem_range.1 hj)]
    have h4 : (0 : ℤ) ≤ coeff j A % 2 ^ p := Int.emod_nonneg _ (by positivity)
    have h5 : coeff j A % 2 ^ p < 2 ^ p := Int.emod_lt_of_pos _ (by positivity)
    have h4' : (0 : ℝ) ≤ ((coeff j A % 2 ^ p : ℤ) : ℝ) := by exact_mod_cast h4
    have h5' : ((coeff j A % 2 ^ p : ℤ) : ℝ) ≤ 2 ^ p := by exact_mod_cast h5.le
    rw [abs_of_nonneg (by positivity), hP, div_le_div_iff₀ (by positivity) hp]
    nlinarith
  refine h1.trans (le_of_eq ?_)
  rw [sum_const, card_range, nsmul_eq_mul]
  ring

theorem nrm_stored {p n y : ℕ} {a : ℤ⟦X⟧} (hnp : n ≤ 2 ^ p) (hy : Stored p n y a) :
    nrm n (C (1 / 2 ^ p : ℝ) * toR a) = (norm p n y : ℝ) / 2 ^ p := by
  rw [nrm_smul, nrm_toR, ← norm_spec hy hnp, abs_of_pos (by positivity)]
  push_cast
  ring

/-- The last product of the check. -/
theorem prod_stored {p n x d : ℕ} {a b r : ℤ⟦X⟧} (hn : 0 < n) (hnp : n ≤ 2 ^ p) (hx : Stored p n x a) (hd : Stored p n d b)
    (hb : norm p n x * norm p n d + 2 ^ (2 * p) < 2 ^ (2 * p + 34))
    (hr : ∀ j < n, coeff j r = coeff j (a * b + C (-(2 ^ (2 * p)))) / 2 ^ p) :
    Stored p n (rnd p n (un p n n x * un p n n d + (base p ^ n - 2 ^ (2 * p)))) r := by
  refine rnd_spec (a := a * b + C (-(2 ^ (2 * p)))) ?_ ?_ hr
  · have h1 := ((un_spec hx).mul (un_spec hd)).add (Rep.const hn (-(2 ^ (2 * p))))
    refine h1.mod ?_
    have h2 : 2 ^ (2 * p) ≤ base p ^ n := by
      rw [base_pow]
      refine Nat.pow_le_pow_right (by norm_num) ?_
      calc 2 * p ≤ slot p * 1 := by rw [slot]; omega
        _ ≤ slot p * n := Nat.mul_le_mul_left _ hn
    rw [Nat.cast_add, Nat.cast_sub h2]
    push_cast
    have e1 : (un p n n x : ℤ) * (un p n n d : ℤ) + ((base p : ℤ) ^ n - 2 ^ (2 * p)) -
        ((un p n n x : ℤ) * (un p n n d : ℤ) + -2 ^ (2 * p)) = (base p : ℤ) ^ n := by ring
    rw [e1]
  · intro j hj
    rw [map_add, coeff_C]
    refine (abs_add_le _ _).trans_lt ?_
    have h1 := abs_coeff_mul hj a b
    have h2 : |(if j = 0 then -(2 : ℤ) ^ (2 * p) else 0)| ≤ 2 ^ (2 * p) := by
      split
      · rw [abs_neg, abs_of_pos (by positivity)]
      · rw [abs_zero]
        positivity
    have h3 : nz n a * nz n b + 2 ^ (2 * p) < 2 ^ (2 * p + 34) := by
      rw [nz, nz, ← norm_spec hx hnp, ← norm_spec hd hnp]
      exact_mod_cast hb
    linarith

/-- The last inequality of the check. -/
theorem end_spec {p nx g w e h : ℕ} (H : nx * (2 ^ p * g + w) + e * h ≤ 2 ^ p * h) :
    (nx : ℝ) / 2 ^ p * ((g : ℝ) / 2 ^ p + (w : ℝ) / 2 ^ (2 * p)) ≤ (1 - (e : ℝ) / 2 ^ p) * ((h : ℝ) / 2 ^ (2 * p)) := by
  have hP : (2 : ℝ) ^ (2 * p) = 2 ^ p * 2 ^ p := by rw [← pow_add]; ring_nf
  have hp : (0 : ℝ) < 2 ^ p := by positivity
  have H' : (nx : ℝ) * (2 ^ p * g + w) + e * h ≤ 2 ^ p * h := by exact_mod_cast H
  rw [hP]
  generalize (2 : ℝ) ^ p = t at *
  have e1 : (nx : ℝ) / t * ((g : ℝ) / t + (w : ℝ) / (t * t)) = nx * (t * g + w) / (t * t * t) := by
    field_simp
  have e2 : (1 - (e : ℝ) / t) * ((h : ℝ) / (t * t)) = (t * h - e * h) / (t * t * t) := by
    field_simp
  rw [e1, e2]
  exact div_le_div_of_nonneg_right (by linarith) (by positivity)

/-- A series that starts with one: its norm without the one. -/
theorem nrm_sub_one {n : ℕ} (hn : 0 < n) {a : ℝ⟦X⟧} (ha : coeff 0 a = 1) : nrm n (a - 1) = nrm n a - 1 := by
  obtain ⟨m, rfl⟩ : ∃ m, n = m + 1 := ⟨n - 1, by omega⟩
  rw [nrm, nrm, sum_range_succ', sum_range_succ', map_sub, ha, coeff_zero_one]
  have : ∀ j ∈ range m, |coeff (j + 1) (a - 1)| = |coeff (j + 1) a| := by
    intro j _
    rw [map_sub, coeff_one, if_neg (by omega), sub_zero]
  rw [sum_congr rfl this]
  simp

/-- **What a passed check means**: the absolute errors of the first `2^k` terms add up to at most `h / 4^p`. -/
theorem check_error {p k h f : ℕ} (hc : check p k h f = true) (F : ℝ⟦X⟧) (h0 : constantCoeff F = 1)
    (hF : Agree (2 ^ k) (Bottcher.Q F k) 1) :
    nrm (2 ^ k) (F - C (1 / 2 ^ p) * toR (poly p f)) ≤ (h : ℝ) / 2 ^ (2 * p) := by
  simp only [check, Bool.and_eq_true] at hc
  obtain ⟨⟨⟨hkp, hwf⟩, hf0⟩, hlev⟩ := hc
  have hkp' := Nat.le_of_ble_eq_true hkp
  have hf0' := Nat.eq_of_beq_eq_true hf0
  set n := 2 ^ k with hndef
  have hn : 0 < n := Nat.two_pow_pos k
  have hnp : n ≤ 2 ^ p := Nat.pow_le_pow_right (by norm_num) hkp'
  have hp : (0 : ℝ) < 2 ^ p := by positivity
  have hP : (2 : ℝ) ^ (2 * p) = 2 ^ p * 2 ^ p := by rw [← pow_add]; ring_nf
  set c := poly p f with hcdef
  have hfS : Stored p n f c := stored_poly hwf
  obtain ⟨hl, hfin⟩ := levels_true (p := p) (n := n) (k := k) (h := h) (f := f) k 0 hlev
  rw [Nat.zero_add] at hl hfin
  have hst := stored_levels hn hnp hfS (k := k) fun l hlk => hl l (Nat.zero_le _) hlk
  have hc0 : coeff 0 c = 2 ^ p := by
    rw [hcdef, poly, coeff_mk]
    have : f / 2 ^ (slot p * 0) % 2 ^ slot p = f % base p := by rw [Nat.mul_zero, pow_zero, Nat.div_one, base]
    rw [this, hf0']
    push_cast
    ring
  obtain ⟨hqk, hdk⟩ := hst k le_rfl
  simp only [finish, Bool.and_eq_true] at hfin
  generalize inv p k (un p n n (yd p n f k)) k = x at hfin
  obtain ⟨⟨⟨hxwf, hxb⟩, he1⟩, hend⟩ := hfin
  have hxS : Stored p n x (poly p x) := stored_poly hxwf
  have hxb' := Nat.le_of_ble_eq_true hxb
  have he1' := Nat.le_of_ble_eq_true he1
  have hend' := Nat.le_of_ble_eq_true hend
  have hT : 0 < 2 ^ (2 * p + 34) := by positivity
  have hxb'' : norm p n x * norm p n (yd p n f k) + 2 ^ (2 * p) < 2 ^ (2 * p + 34) := by
    generalize 2 ^ (2 * p + 34) = T at *
    omega
  have hes := prod_stored (r := PowerSeries.mk fun j => coeff j (poly p x * cd p c k + C (-(2 ^ (2 * p)))) / 2 ^ p)
    hn hnp hxS hdk hxb'' fun j _ => by rw [coeff_mk]
  have hone : ∀ i, coeff 0 (C (1 / 2 ^ p : ℝ) * toR (cq p c i)) = 1 := by
    intro i
    rw [coeff_C_mul, coeff_toR, cq_zero hc0]
    push_cast
    exact one_div_mul_cancel hp.ne'
  clear hkp hwf hf0 hlev hxwf hxb he1 hend hxb' hT hP
  refine perturb (k := k) (n := n) (e := fun i => 2 ^ (i + 1) - 1) (Q := Bottcher.Q F) (q := fun i => C (1 / 2 ^ p : ℝ) * toR (cq p c i))
    (d := fun i => C (1 / 2 ^ p : ℝ) * toR (cd p c i)) (x := C (1 / 2 ^ p : ℝ) * toR (poly p x))
    (b := fun i => (norm p n (yq p n f i) : ℝ) / 2 ^ p) (D := fun i => (norm p n (yd p n f i) : ℝ) / 2 ^ p)
    (w := fun i => (ww p n h f i : ℝ) / 2 ^ (2 * p)) (δ := (n : ℝ) / 2 ^ p) (η := (h : ℝ) / 2 ^ (2 * p))
    (γ := ((norm p n (yq p n f k) - 2 ^ p : ℕ) : ℝ) / 2 ^ p) (ξ := (norm p n x : ℝ) / 2 ^ p)
    (θ := ((norm p n (rnd p n (un p n n x * un p n n (yd p n f k) + (base p ^ n - 2 ^ (2 * p)))) + n : ℕ) : ℝ) / 2 ^ p)
    rfl ?_ hF ?_ ?_ ?_ ?_ ?_ ?_ ?_ ?_ ?_ ?_ ?_ ?_ ?_ ?_ ?_ ?_
  · intro i _
    rw [Bottcher.Q, sq]
  · intro i _
    rw [coeff_zero_eq_constantCoeff_apply]
    exact Bottcher.constantCoeff_Q h0 i
  · intro i _
    exact hone i
  · intro j _
    simp only [cd]
    rw [toR_C, ← map_mul]
    push_cast
    rw [one_div_mul_cancel hp.ne', map_one]
  · intro i _
    have := scale_eq_Q p (2 ^ (i + 1) - 1) (cq p c i) (cq p c 0)
    simp only [this]
    exact rem_nrm fun j _ => coeff_mk _ _
  · intro i _
    have := scale_eq_D p (2 ^ (i + 1) - 1) (cq p c i) (cd p c i)
    simp only [this]
    exact rem_nrm fun j _ => by rw [cd, coeff_mk]
  · intro i _
    have := scale_eq_D p (2 ^ (i + 1) - 1) (cq p c i) (cd p c i)
    simp only [this]
    rw [rem_coeff (n := n) (fun j _ => by rw [cd, coeff_mk]) hn]
    have h1 : 2 ^ (i + 1) - 1 ≠ 0 := by
      have := Nat.pow_lt_pow_right (a := 2) (by norm_num) (show 0 < i + 1 by omega)
      omega
    have h2 : coeff 0 (C 2 * (cq p c i * cd p c i) + X ^ (2 ^ (i + 1) - 1) * (C (2 ^ (2 * p)) * 1)) % 2 ^ p = 0 := by
      rw [map_add, coeff_X_pow_mul', if_neg (by omega), add_zero, coeff_zero_eq_constantCoeff_apply, map_mul, map_mul,
        ← coeff_zero_eq_constantCoeff_apply (cq p c i), cq_zero hc0]
      exact Int.emod_eq_zero_of_dvd (dvd_mul_of_dvd_right (dvd_mul_right _ _) _)
    rw [h2]
    simp
  · intro i hi
    exact (nrm_stored hnp (hst i hi.le).1).le
  · intro i hi
    exact (nrm_stored hnp (hst i hi.le).2).le
  · intro i _
    exact div_nonneg (Nat.cast_nonneg _) (pow_nonneg zero_le_two _)
  · intro i _
    simp only [ww]
    exact stepW_spec p n h _ _ _
  · rw [nrm_sub_one hn (hone k), nrm_stored hnp hqk]
    have h1 : 2 ^ p ≤ norm p n (yq p n f k) := by
      have h2 := norm_spec hqk hnp
      have h3 : |coeff 0 (cq p c k)| ≤ ∑ j ∈ range n, |coeff j (cq p c k)| :=
        single_le_sum (f := fun j => |coeff j (cq p c k)|) (fun _ _ => abs_nonneg _) (mem_range.2 hn)
      rw [← h2, cq_zero hc0, abs_of_pos (by positivity)] at h3
      exact_mod_cast h3
    rw [Nat.cast_sub h1, sub_div]
    push_cast
    rw [div_self hp.ne']
  · exact (nrm_stored hnp hxS).le
  · simp only [scale_eq_E]
    have h1 : C (1 / 2 ^ (2 * p) : ℝ) * toR (poly p x * cd p c k + C (-(2 ^ (2 * p)))) =
        (C (1 / 2 ^ (2 * p) : ℝ) * toR (poly p x * cd p c k + C (-(2 ^ (2 * p)))) -
          C (1 / 2 ^ p : ℝ) * toR (PowerSeries.mk fun j => coeff j (poly p x * cd p c k + C (-(2 ^ (2 * p)))) / 2 ^ p)) +
        C (1 / 2 ^ p : ℝ) * toR (PowerSeries.mk fun j => coeff j (poly p x * cd p c k + C (-(2 ^ (2 * p)))) / 2 ^ p) := by ring
    rw [h1]
    refine (nrm_add _ _ _).trans ?_
    rw [nrm_stored hnp hes, Nat.cast_add, add_div, add_comm]
    exact add_le_add_right (rem_nrm fun j _ => by rw [coeff_mk]) _
  · exact div_nonneg (Nat.cast_nonneg _) (pow_nonneg zero_le_two _)
  · rw [div_lt_one hp]
    have : ((norm p n (rnd p n (un p n n x * un p n n (yd p n f k) + (base p ^ n - 2 ^ (2 * p)))) + n : ℕ) : ℝ) < ((2 ^ p : ℕ) : ℝ) := by
      exact_mod_cast he1'
    push_cast at this ⊢
    exact this
  · exact end_spec hend'

end Mandelbrot.Known
