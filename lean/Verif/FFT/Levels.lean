import Verif.FFT.Cis
import Verif.FFT.Loop
import Mathlib.Tactic.IntervalCases

/-!
# Radix-2 levels, and the higher-radix butterflies as their compositions
-/

namespace Mandelbrot.FFT

open Complex

local notation "conj" => starRingEnd ℂ

/-- A radix-2 level with distance `2^t` and arbitrary factors. -/
noncomputable def levW (t : ℕ) (w : ℕ → ℂ) (y : ℕ → ℂ) (i : ℕ) : ℂ :=
  if i / 2 ^ t % 2 = 0 then y i + y (i + 2 ^ t) else conj (w (i % 2 ^ t) * (y (i - 2 ^ t) - y i))

/-- Its transpose. -/
noncomputable def levWT (t : ℕ) (w : ℕ → ℂ) (y : ℕ → ℂ) (i : ℕ) : ℂ :=
  if i / 2 ^ t % 2 = 0 then y i + conj (w (i % 2 ^ t) * y (i + 2 ^ t))
  else y (i - 2 ^ t) - conj (w (i % 2 ^ t) * y i)

/-- The factors of level `s`. -/
noncomputable def levF (s : ℕ) (j : ℕ) : ℂ := cis j (2 * 2 ^ s)

/-- Level `s` of the transform. -/
noncomputable def lev (s : ℕ) (y : ℕ → ℂ) : ℕ → ℂ := levW s (levF s) y

/-- The transpose of level `s`. -/
noncomputable def levT (s : ℕ) (y : ℕ → ℂ) : ℕ → ℂ := levWT s (levF s) y

section Blocks

variable (t : ℕ) (w : ℕ → ℂ) (y : ℕ → ℂ) (q : ℕ) {c : ℕ}

theorem block_lo (hc : c < 2 ^ t) : (q * (2 * 2 ^ t) + c) / 2 ^ t % 2 = 0 ∧ (q * (2 * 2 ^ t) + c) % 2 ^ t = c := by
  have hm : 0 < 2 ^ t := by positivity
  rw [show q * (2 * 2 ^ t) + c = 2 ^ t * (2 * q) + c by ring, Nat.mul_add_div hm, Nat.mul_add_mod (2 ^ t),
    Nat.div_eq_of_lt hc, Nat.mod_eq_of_lt hc]
  omega

theorem block_hi (hc : c < 2 ^ t) :
    (q * (2 * 2 ^ t) + 2 ^ t + c) / 2 ^ t % 2 = 1 ∧ (q * (2 * 2 ^ t) + 2 ^ t + c) % 2 ^ t = c := by
  have hm : 0 < 2 ^ t := by positivity
  rw [show q * (2 * 2 ^ t) + 2 ^ t + c = 2 ^ t * (2 * q + 1) + c by ring, Nat.mul_add_div hm, Nat.mul_add_mod (2 ^ t),
    Nat.div_eq_of_lt hc, Nat.mod_eq_of_lt hc]
  omega

theorem levW_lo (hc : c < 2 ^ t) :
    levW t w y (q * (2 * 2 ^ t) + c) = y (q * (2 * 2 ^ t) + c) + y (q * (2 * 2 ^ t) + 2 ^ t + c) := by
  rw [levW, if_pos (block_lo t q hc).1]
  congr 2; ring

theorem levW_hi (hc : c < 2 ^ t) :
    levW t w y (q * (2 * 2 ^ t) + 2 ^ t + c) =
      conj (w c * (y (q * (2 * 2 ^ t) + c) - y (q * (2 * 2 ^ t) + 2 ^ t + c))) := by
  rw [levW, if_neg (by rw [(block_hi t q hc).1]; norm_num), (block_hi t q hc).2]
  congr 4; omega

theorem levWT_lo (hc : c < 2 ^ t) :
    levWT t w y (q * (2 * 2 ^ t) + c) =
      y (q * (2 * 2 ^ t) + c) + conj (w c * y (q * (2 * 2 ^ t) + 2 ^ t + c)) := by
  rw [levWT, if_pos (block_lo t q hc).1, (block_lo t q hc).2]
  congr 4; ring

theorem levWT_hi (hc : c < 2 ^ t) :
    levWT t w y (q * (2 * 2 ^ t) + 2 ^ t + c) =
      y (q * (2 * 2 ^ t) + c) - conj (w c * y (q * (2 * 2 ^ t) + 2 ^ t + c)) := by
  rw [levWT, if_neg (by rw [(block_hi t q hc).1]; norm_num), (block_hi t q hc).2]
  congr 2; omega

end Blocks

/-- Every cell is in the lower or upper half of a block. -/
theorem block_cases (t k : ℕ) : ∃ q c, c < 2 ^ t ∧ (k = q * (2 * 2 ^ t) + c ∨ k = q * (2 * 2 ^ t) + 2 ^ t + c) := by
  have hm : 0 < 2 ^ t := by positivity
  have h1 := Nat.div_add_mod k (2 * 2 ^ t)
  have h2 := Nat.mod_lt k (show 0 < 2 * 2 ^ t by positivity)
  rw [Nat.mul_comm] at h1
  by_cases h : k % (2 * 2 ^ t) < 2 ^ t
  · exact ⟨k / (2 * 2 ^ t), k % (2 * 2 ^ t), h, Or.inl h1.symm⟩
  · exact ⟨k / (2 * 2 ^ t), k % (2 * 2 ^ t) - 2 ^ t, by omega, Or.inr (by omega)⟩

/-- A level of the transform followed by its transpose doubles. -/
theorem levWT_levW {t : ℕ} {w : ℕ → ℂ} (hw : ∀ c, conj (w c) * w c = 1) (y : ℕ → ℂ) (k : ℕ) :
    levWT t w (levW t w y) k = 2 * y k := by
  obtain ⟨q, c, hc, rfl | rfl⟩ := block_cases t k
  · rw [levWT_lo _ _ _ _ hc, levW_lo _ _ _ _ hc, levW_hi _ _ _ _ hc]
    simp only [map_mul, conj_conj, map_sub]
    linear_combination (y (q * (2 * 2 ^ t) + c) - y (q * (2 * 2 ^ t) + 2 ^ t + c)) * hw c
  · rw [levWT_hi _ _ _ _ hc, levW_lo _ _ _ _ hc, levW_hi _ _ _ _ hc]
    simp only [map_mul, conj_conj, map_sub]
    linear_combination -(y (q * (2 * 2 ^ t) + c) - y (q * (2 * 2 ^ t) + 2 ^ t + c)) * hw c

/-- Agreement of two buffers on their first `N` cells. -/
def EqOn {α : Type} (N : ℕ) (y y' : ℕ → α) : Prop := ∀ k < N, y k = y' k

theorem EqOn.symm {α : Type} {N : ℕ} {y y' : ℕ → α} (h : EqOn N y y') : EqOn N y' y := fun k hk => (h k hk).symm

theorem EqOn.trans {α : Type} {N : ℕ} {y y' y'' : ℕ → α} (h : EqOn N y y') (h' : EqOn N y' y'') : EqOn N y y'' :=
  fun k hk => (h k hk).trans (h' k hk)

theorem EqOn.rfl' {α : Type} {N : ℕ} {y : ℕ → α} : EqOn N y y := fun _ _ => rfl

theorem partner_lt {t N q c : ℕ} (hN : 2 * 2 ^ t ∣ N) (hc : c < 2 ^ t) (h : q * (2 * 2 ^ t) + c < N) :
    q * (2 * 2 ^ t) + 2 ^ t + c < N := by
  obtain ⟨Q, rfl⟩ := hN
  have hq : q < Q := by
    by_contra hq
    have : Q * (2 * 2 ^ t) ≤ q * (2 * 2 ^ t) := Nat.mul_le_mul_right _ (by omega)
    rw [Nat.mul_comm Q] at this
    omega
  have : (q + 1) * (2 * 2 ^ t) ≤ Q * (2 * 2 ^ t) := Nat.mul_le_mul_right _ hq
  rw [Nat.mul_comm (2 * 2 ^ t)]
  rw [Nat.add_mul, one_mul] at this
  omega

theorem levW_eqOn {t N : ℕ} (hN : 2 * 2 ^ t ∣ N) (w : ℕ → ℂ) {y y' : ℕ → ℂ} (h : EqOn N y y') :
    EqOn N (levW t w y) (levW t w y') := by
  intro k hk
  obtain ⟨q, c, hc, rfl | rfl⟩ := block_cases t k
  · rw [levW_lo _ _ _ _ hc, levW_lo _ _ _ _ hc, h _ hk, h _ (partner_lt hN hc hk)]
  · rw [levW_hi _ _ _ _ hc, levW_hi _ _ _ _ hc, h _ hk, h (q * (2 * 2 ^ t) + c) (by omega)]

theorem levWT_eqOn {t N : ℕ} (hN : 2 * 2 ^ t ∣ N) (w : ℕ → ℂ) {y y' : ℕ → ℂ} (h : EqOn N y y') :
    EqOn N (levWT t w y) (levWT t w y') := by
  intro k hk
  obtain ⟨q, c, hc, rfl | rfl⟩ := block_cases t k
  · rw [levWT_lo _ _ _ _ hc, levWT_lo _ _ _ _ hc, h _ hk, h _ (partner_lt hN hc hk)]
  · rw [levWT_hi _ _ _ _ hc, levWT_hi _ _ _ _ hc, h _ hk, h (q * (2 * 2 ^ t) + c) (by omega)]

/-! ## Strided views -/

theorem stride_div {s t j i : ℕ} (hj : j < 2 ^ s) : (i * 2 ^ s + j) / 2 ^ (s + t) = i / 2 ^ t := by
  rw [pow_add, ← Nat.div_div_eq_div_mul, Nat.mul_comm, Nat.mul_add_div (by positivity), Nat.div_eq_of_lt hj, add_zero]

theorem stride_mod {s t j i : ℕ} (hj : j < 2 ^ s) : (i * 2 ^ s + j) % 2 ^ (s + t) = i % 2 ^ t * 2 ^ s + j := by
  have hm : 0 < 2 ^ s := by positivity
  rw [pow_add, Nat.mod_mul, Nat.mul_comm, Nat.mul_add_mod, Nat.mod_eq_of_lt hj, Nat.mul_add_div hm,
    Nat.div_eq_of_lt hj, add_zero]
  ring

/-- Cells at distance `2^s` see level `s + t` as a level at distance `2^t`. -/
theorem lev_stride (s t : ℕ) (y : ℕ → ℂ) {j : ℕ} (hj : j < 2 ^ s) (i : ℕ) :
    lev (s + t) y (i * 2 ^ s + j) =
      levW t (fun c => levF (s + t) (c * 2 ^ s + j)) (fun i => y (i * 2 ^ s + j)) i := by
  simp only [lev, levW, stride_div hj, stride_mod hj]
  split_ifs with h
  · congr 2; rw [pow_add]; ring
  · congr 4
    have : 2 ^ t ≤ i := by
      by_contra hc
      rw [Nat.div_eq_of_lt (by omega)] at h
      exact h rfl
    rw [Nat.sub_mul, pow_add]
    have : 2 ^ t * 2 ^ s ≤ i * 2 ^ s := Nat.mul_le_mul_right _ this
    rw [Nat.mul_comm (2 ^ s)]
    omega

theorem levT_stride (s t : ℕ) (y : ℕ → ℂ) {j : ℕ} (hj : j < 2 ^ s) (i : ℕ) :
    levT (s + t) y (i * 2 ^ s + j) =
      levWT t (fun c => levF (s + t) (c * 2 ^ s + j)) (fun i => y (i * 2 ^ s + j)) i := by
  simp only [levT, levWT, stride_div hj, stride_mod hj]
  split_ifs with h
  · congr 4; rw [pow_add]; ring
  · congr 2
    have : 2 ^ t ≤ i := by
      by_contra hc
      rw [Nat.div_eq_of_lt (by omega)] at h
      exact h rfl
    rw [Nat.sub_mul, pow_add]
    have : 2 ^ t * 2 ^ s ≤ i * 2 ^ s := Nat.mul_le_mul_right _ this
    rw [Nat.mul_comm (2 ^ s)]
    omega

theorem block_shift (r t q i : ℕ) (h : t < r) :
    (q * 2 ^ r + i) / 2 ^ t % 2 = i / 2 ^ t % 2 ∧ (q * 2 ^ r + i) % 2 ^ t = i % 2 ^ t := by
  obtain ⟨d, rfl⟩ := Nat.exists_eq_add_of_lt h
  have e : q * 2 ^ (t + d + 1) + i = 2 ^ t * (2 * (q * 2 ^ d)) + i := by rw [pow_add, pow_add]; ring
  rw [e, Nat.mul_add_div (by positivity), Nat.mul_add_mod (2 ^ t)]
  omega

theorem levW_shift (r t q : ℕ) (h : t < r) (w : ℕ → ℂ) (y : ℕ → ℂ) (i : ℕ) :
    levW t w y (q * 2 ^ r + i) = levW t w (fun i => y (q * 2 ^ r + i)) i := by
  simp only [levW, (block_shift r t q i h).1, (block_shift r t q i h).2]
  split_ifs with h
  · congr 2; ring
  · congr 4
    have : 2 ^ t ≤ i := by
      by_contra hc
      rw [Nat.div_eq_of_lt (by omega)] at h
      exact h rfl
    omega

theorem levWT_shift (r t q : ℕ) (h : t < r) (w : ℕ → ℂ) (y : ℕ → ℂ) (i : ℕ) :
    levWT t w y (q * 2 ^ r + i) = levWT t w (fun i => y (q * 2 ^ r + i)) i := by
  simp only [levWT, (block_shift r t q i h).1, (block_shift r t q i h).2]
  split_ifs with h
  · congr 4; ring
  · congr 2
    have : 2 ^ t ≤ i := by
      by_contra hc
      rw [Nat.div_eq_of_lt (by omega)] at h
      exact h rfl
    omega

/-- The factors level `s + t` uses on a group of cells at distance `2^s`, offset `j`. -/
noncomputable def grpF (s j t c : ℕ) : ℂ := levF (s + t) (c * 2 ^ s + j)

/-- Level `s + t` on a group of `2^r` cells at distance `2^s`. -/
theorem lev_group (r s t q : ℕ) (h : t < r) (y : ℕ → ℂ) {j : ℕ} (hj : j < 2 ^ s) (i : ℕ) :
    lev (s + t) y ((q * 2 ^ r + i) * 2 ^ s + j) =
      levW t (grpF s j t) (fun i => y ((q * 2 ^ r + i) * 2 ^ s + j)) i := by
  rw [lev_stride s t y hj, levW_shift r t q h]
  rfl

theorem levT_group (r s t q : ℕ) (h : t < r) (y : ℕ → ℂ) {j : ℕ} (hj : j < 2 ^ s) (i : ℕ) :
    levT (s + t) y ((q * 2 ^ r + i) * 2 ^ s + j) =
      levWT t (grpF s j t) (fun i => y ((q * 2 ^ r + i) * 2 ^ s + j)) i := by
  rw [levT_stride s t y hj, levWT_shift r t q h]
  rfl

/-- The factors in terms of the one the butterfly of radix `2^r` reads first. -/
theorem grpF_eq (r s j t c : ℕ) (h : t < r) :
    grpF s j t c = cis j (2 * 2 ^ (s + r - 1)) ^ 2 ^ (r - 1 - t) * cis c (2 * 2 ^ t) := by
  obtain ⟨d, rfl⟩ := Nat.exists_eq_add_of_lt h
  rw [grpF, levF, cis_pow, show s + (t + d + 1) - 1 = s + t + d by omega, show t + d + 1 - 1 - t = d by omega]
  push_cast
  rw [cis_add, mul_comm, pow_add 2 s t]
  congr 1
  · rw [show 2 * (2 ^ (s + t + d)) = 2 * 2 ^ (s + t) * 2 ^ d by rw [pow_add 2 (s + t)]; ring, pow_add]
    have := cis_cancel (j : ℤ) (n := 2 * (2 ^ s * 2 ^ t)) (k := 2 ^ d) (by positivity)
    push_cast at this
    exact this.symm
  · rw [show 2 * (2 ^ s * 2 ^ t) = 2 * 2 ^ t * 2 ^ s by ring]
    have := cis_cancel (c : ℤ) (n := 2 * 2 ^ t) (k := 2 ^ s) (by positivity)
    push_cast at this
    exact this

/-! ## Butterflies -/

theorem cis_E8 (c : ℕ) : cis c (2 * 2 ^ 2) = E8 ^ c := by
  rw [← cis_one_eight, cis_pow, one_mul]; rfl

theorem cis_E8' (c : ℕ) : cis c (2 * 2 ^ 1) = E8 ^ (2 * c) := by
  rw [← cis_one_eight, cis_pow, one_mul]
  have := cis_cancel (c : ℤ) (n := 4) (k := 2) (by norm_num)
  rw [show ((2 * c : ℕ) : ℤ) = c * (2 : ℕ) by push_cast; ring]
  exact this.symm

theorem butterflyS1_eq {s j : ℕ} {tw : ℤ → ℂ} (htw : ∀ k, tw k = cis k (2 * 2 ^ s)) (y : ℕ → ℂ) {i : ℕ}
    (hi : i < 2) : butterflyR 1 j tw y i = levW 0 (grpF s j 0) y i := by
  interval_cases i
  · simp [butterflyR, butterflyS1, levW]
  · simp [butterflyR, butterflyS1, levW, htw, grpF, levF]

theorem butterflyS2_eq {s j : ℕ} {tw : ℤ → ℂ} (htw : ∀ k, tw k = cis k (2 * 2 ^ (s + 1))) (y : ℕ → ℂ) {i : ℕ}
    (hi : i < 4) : butterflyR 2 j tw y i = levW 0 (grpF s j 0) (levW 1 (grpF s j 1) y) i := by
  have hW := cis_ne_zero j (2 * 2 ^ (s + 1))
  have hE := E8_ne_zero
  have h0 : ∀ c, grpF s j 0 c = _ := fun c => grpF_eq 2 s j 0 c (by norm_num)
  have h1 : ∀ c, grpF s j 1 c = cis j (2 * 2 ^ (s + 1)) * E8 ^ (2 * c) := fun c => by
    rw [grpF_eq 2 s j 1 c (by norm_num), cis_E8']; simp
  have e2 : tw (2 * j) = cis j (2 * 2 ^ (s + 1)) ^ 2 := by rw [htw, cis_pow]; congr 1; push_cast; ring
  have hWc := conj_cis' j (2 * 2 ^ (s + 1))
  interval_cases i <;>
    simp [butterflyR, butterflyS2, levW, h0, h1, e2, htw j, hWc, conj_E8, left_eq] <;>
    field_simp

theorem butterflyS3_eq {s j : ℕ} {tw : ℤ → ℂ} (htw : ∀ k, tw k = cis k (2 * 2 ^ (s + 2))) (y : ℕ → ℂ) {i : ℕ}
    (hi : i < 8) : butterflyR 3 j tw y i =
      levW 0 (grpF s j 0) (levW 1 (grpF s j 1) (levW 2 (grpF s j 2) y)) i := by
  have hW := cis_ne_zero j (2 * 2 ^ (s + 2))
  have hE := E8_ne_zero
  have h0 : ∀ c, grpF s j 0 c = _ := fun c => grpF_eq 3 s j 0 c (by norm_num)
  have h1 : ∀ c, grpF s j 1 c = cis j (2 * 2 ^ (s + 2)) ^ 2 * E8 ^ (2 * c) := fun c => by
    rw [grpF_eq 3 s j 1 c (by norm_num), cis_E8']; simp
  have h2 : ∀ c, grpF s j 2 c = cis j (2 * 2 ^ (s + 2)) * E8 ^ c := fun c => by
    rw [grpF_eq 3 s j 2 c (by norm_num), cis_E8]; simp
  have e2 : tw (2 * j) = cis j (2 * 2 ^ (s + 2)) ^ 2 := by rw [htw, cis_pow]; congr 1; push_cast; ring
  have e3 : tw (3 * j) = cis j (2 * 2 ^ (s + 2)) ^ 3 := by rw [htw, cis_pow]; congr 1; push_cast; ring
  have e4 : tw (4 * j) = cis j (2 * 2 ^ (s + 2)) ^ 4 := by rw [htw, cis_pow]; congr 1; push_cast; ring
  have hWc := conj_cis' j (2 * 2 ^ (s + 2))
  interval_cases i <;>
    simp [butterflyR, butterflyS3, levW, h0, h1, h2, e2, e3, e4, htw j, hWc, conj_E8, left_eq,
      diagPos_eq, diagNeg_eq] <;>
    field_simp

end Mandelbrot.FFT
