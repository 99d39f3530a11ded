import Verif.Loops.Model
import Mathlib.Data.List.Range
import Mathlib.Data.List.Nodup
import Mathlib.Data.List.Perm.Basic
import Mathlib.Data.List.Pairwise

/-!
# Lemmas about grid-stride loops
-/

namespace Mandelbrot

theorem toInt32_id {n : ℤ} (h0 : -2 ^ 31 ≤ n) (h : n < 2 ^ 31) : toInt32 n = n := by
  unfold toInt32
  rw [Int.emod_eq_of_lt (by omega) (by omega)]
  ring

theorem strideFrom_spec {n S : ℤ} (hS : 0 < S) (hb : n + S ≤ 2 ^ 31) (fuel : ℕ) (i : ℤ) (hi : 0 ≤ i)
    (hf : n - i ≤ fuel) :
    ∃ l, strideFrom n S fuel i = some l ∧ l.Nodup ∧ ∀ j, j ∈ l ↔ (i ≤ j ∧ j < n ∧ S ∣ j - i) := by
  induction fuel generalizing i with
  | zero =>
    refine ⟨[], rfl, List.nodup_nil, fun j => ⟨fun h => absurd h List.not_mem_nil, fun h => ?_⟩⟩
    have : (n : ℤ) - i ≤ 0 := by simpa using hf
    omega
  | succ f ih =>
    by_cases h : i < n
    · obtain ⟨l, e, hn, hm⟩ := ih (i + S) (by omega) (by push_cast at hf; omega)
      refine ⟨i :: l, ?_, ?_, ?_⟩
      · simp only [strideFrom, if_pos h, if_pos (show i + S < 2 ^ 31 by omega), e, Option.map_some]
      · rw [List.nodup_cons]
        refine ⟨fun hc => ?_, hn⟩
        have := (hm i).mp hc
        omega
      · intro j
        rw [List.mem_cons, hm]
        constructor
        · rintro (rfl | ⟨h1, h2, h3⟩)
          · exact ⟨le_rfl, h, by simp⟩
          · refine ⟨by omega, h2, ?_⟩
            have : j - i = (j - (i + S)) + S := by ring
            rw [this]
            exact Int.dvd_add h3 dvd_rfl
        · rintro ⟨h1, h2, h3⟩
          by_cases hj : j = i
          · exact Or.inl hj
          · right
            have h4 : S ≤ j - i := Int.le_of_dvd (by omega) h3
            refine ⟨by omega, h2, ?_⟩
            have : j - (i + S) = (j - i) - S := by ring
            rw [this]
            exact Int.dvd_sub h3 dvd_rfl
    · refine ⟨[], by simp only [strideFrom, if_neg h], List.nodup_nil,
        fun j => ⟨fun h => absurd h List.not_mem_nil, fun h => by omega⟩⟩

theorem deviceLoop_spec {n B G b t : ℤ} (hn : 0 ≤ n) (hbound : n + B * G ≤ 2 ^ 31)
    (hb : 0 ≤ b) (hbG : b < G) (ht : 0 ≤ t) (htB : t < B) :
    ∃ l, deviceLoop n B G b t = some l ∧ l.Nodup ∧
      ∀ j, j ∈ l ↔ (0 ≤ j ∧ j < n ∧ j % (B * G) = b * B + t) := by
  have hS : 0 < B * G := mul_pos (by omega) (by omega)
  have hk0 : 0 ≤ b * B + t := by have := mul_nonneg hb (show 0 ≤ B by omega); omega
  have hk : b * B + t < B * G := by
    have : b * B ≤ (G - 1) * B := mul_le_mul_of_nonneg_right (by omega) (by omega)
    have e : (G - 1) * B = B * G - B := by ring
    omega
  by_cases h0 : n = 0
  · refine ⟨[], by simp [deviceLoop, h0], List.nodup_nil, fun j => ⟨fun h => absurd h List.not_mem_nil, fun h => by omega⟩⟩
  · have e := toInt32_id (n := n) (by omega) (by omega)
    obtain ⟨l, h1, h2, h3⟩ := strideFrom_spec hS hbound n.toNat (b * B + t) hk0 (by omega)
    refine ⟨l, by simp only [deviceLoop, if_neg h0, e, h1], h2, fun j => ?_⟩
    rw [h3]
    constructor
    · rintro ⟨g1, g2, g3⟩
      refine ⟨by omega, g2, ?_⟩
      have := Int.emod_emod_of_dvd (j - (b * B + t)) (dvd_refl (B * G))
      have h5 : j % (B * G) = (b * B + t) % (B * G) := Int.emod_eq_emod_iff_emod_sub_eq_zero.mpr
        (Int.emod_eq_zero_of_dvd g3)
      rw [h5, Int.emod_eq_of_lt hk0 hk]
    · rintro ⟨g1, g2, g3⟩
      have hd := Int.ediv_mul_add_emod j (B * G)
      have hq : 0 ≤ j / (B * G) := Int.ediv_nonneg g1 hS.le
      have hq2 := mul_nonneg hq hS.le
      refine ⟨by omega, g2, ⟨j / (B * G), ?_⟩⟩
      have hc : j / (B * G) * (B * G) = B * G * (j / (B * G)) := mul_comm _ _
      omega

end Mandelbrot
