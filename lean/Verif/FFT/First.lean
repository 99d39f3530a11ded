import Verif.FFT.Transpose

/-!
# The codelets between real and complex buffers
-/

namespace Mandelbrot.FFT

open Complex

local notation "conj" => starRingEnd ℂ

/-- First level: real to complex. -/
def b0 (N : ℕ) (x : ℕ → ℝ) (k : ℕ) : ℂ := ⟨x k, -x (k + N)⟩

/-- Its transpose. -/
def b0T (N : ℕ) (c : ℕ → ℂ) (k : ℕ) : ℝ := if k < N then (c k).re else -(c (k - N)).im

/-- Second level, with arbitrary factors. -/
noncomputable def b1W (M : ℕ) (a b : ℕ → ℂ) (y : ℕ → ℂ) (k : ℕ) : ℂ :=
  if k < M then a k * (y k + E8⁻¹ * y (k + M)) else conj (b (k - M) * (y (k - M) - E8⁻¹ * y k))

/-- Its transpose. -/
noncomputable def b1WT (M : ℕ) (a b : ℕ → ℂ) (c : ℕ → ℂ) (k : ℕ) : ℂ :=
  if k < M then conj (a k) * c k + conj (b k * c (k + M))
  else E8 * (conj (a (k - M)) * c (k - M) - conj (b (k - M) * c k))

theorem b1WT_b1W {M : ℕ} {a b : ℕ → ℂ} (ha : ∀ k, conj (a k) * a k = 1) (hb : ∀ k, conj (b k) * b k = 1)
    (y : ℕ → ℂ) {k : ℕ} (hk : k < 2 * M) : b1WT M a b (b1W M a b y) k = 2 * y k := by
  have hE := E8_ne_zero
  by_cases h : k < M
  · rw [b1WT, if_pos h, b1W, if_pos h, b1W, if_neg (by omega), Nat.add_sub_cancel]
    simp only [map_mul, conj_conj, map_sub]
    linear_combination (y k + E8⁻¹ * y (k + M)) * ha k + (y k - E8⁻¹ * y (k + M)) * hb k
  · rw [b1WT, if_neg h, b1W, if_pos (by omega), b1W, if_neg h, Nat.sub_add_cancel (by omega)]
    simp only [map_mul, conj_conj, map_sub]
    have e : E8 * E8⁻¹ = 1 := mul_inv_cancel₀ hE
    linear_combination E8 * (y (k - M) + E8⁻¹ * y k) * ha (k - M) - E8 * (y (k - M) - E8⁻¹ * y k) * hb (k - M) +
      2 * y k * e

theorem b0T_b0 {N : ℕ} (x : ℕ → ℝ) (k : ℕ) : b0T N (b0 N x) k = x k := by
  by_cases h : k < N
  · rw [b0T, if_pos h, b0]
  · rw [b0T, if_neg h, b0]
    simp only [neg_neg]
    rw [Nat.sub_add_cancel (by omega)]

theorem b0T_congr {N : ℕ} {c c' : ℕ → ℂ} (h : EqOn N c c') {k : ℕ} (hk : k < 2 * N) : b0T N c k = b0T N c' k := by
  rw [b0T, b0T]
  split_ifs with h1
  · rw [h k h1]
  · rw [h (k - N) (by omega)]

theorem b1WT_eqOn {M : ℕ} {a b : ℕ → ℂ} {c c' : ℕ → ℂ} (h : EqOn (2 * M) c c') :
    EqOn (2 * M) (b1WT M a b c) (b1WT M a b c') := by
  intro k hk
  rw [b1WT, b1WT]
  split_ifs with h1
  · rw [h k hk, h (k + M) (by omega)]
  · rw [h k hk, h (k - M) (by omega)]

/-! ## One iteration of the codelets -/

theorem firstLevels1_eq (j nr m : ℕ) (tw : ℤ → ℂ) (x : ℕ → ℝ) {i : ℕ} (hi : i < 1) :
    firstLevels 1 j nr m tw x i = b0 1 x i := by
  interval_cases i
  simp [firstLevels, b0, butterfly0]

/-- The factors of the second level. -/
noncomputable def b1A (tw : ℤ → ℂ) (j nr : ℕ) (i : ℕ) : ℂ := conj (tw ((j + i * nr : ℕ) : ℤ))
noncomputable def b1B (tw : ℤ → ℂ) (j nr : ℕ) (i : ℕ) : ℂ := tw (3 * ((j + i * nr : ℕ) : ℤ))

theorem firstLevels2_eq (j nr m : ℕ) (tw : ℤ → ℂ) (x : ℕ → ℝ) {i : ℕ} (hi : i < 2) :
    firstLevels 2 j nr m tw x i = b1W 1 (b1A tw j nr) (b1B tw j nr) (b0 2 x) i := by
  interval_cases i
  · simp [firstLevels, butterfly1, butterfly0, b1W, b0, b1A, diagNeg_eq]
  · simp [firstLevels, butterfly1, butterfly0, b1W, b0, b1B, diagNeg_eq]

theorem firstLevels3_eq (j nr m : ℕ) (tw : ℤ → ℂ) (x : ℕ → ℝ) {i : ℕ} (hi : i < 4) :
    firstLevels 3 j nr m tw x i =
      levW 0 (fun _ => tw (8 * ((j &&& (m - 1) : ℕ) : ℤ))) (b1W 2 (b1A tw j nr) (b1B tw j nr) (b0 4 x)) i := by
  interval_cases i
  · simp [firstLevels, butterfly1, butterfly0, butterflyS1, levW, b1W, b0, b1A, diagNeg_eq]
  · simp [firstLevels, butterfly1, butterfly0, butterflyS1, levW, b1W, b0, b1A, diagNeg_eq]
  · simp [firstLevels, butterfly1, butterfly0, butterflyS1, levW, b1W, b0, b1B, diagNeg_eq]
  · simp [firstLevels, butterfly1, butterfly0, butterflyS1, levW, b1W, b0, b1B, diagNeg_eq]

/-- Inner product of real vectors. -/
noncomputable def ipR (R : ℕ) (x h : ℕ → ℝ) : ℝ := ∑ k ∈ Finset.range R, x k * h k

theorem adj_b0_1 (x : ℕ → ℝ) (c : ℕ → ℂ) : ip 1 (b0 1 x) c = ipR 2 x (b0T 1 c) := by
  simp [ip, ipR, Finset.sum_range_succ, b0, b0T]

theorem adj_b0_2 (x : ℕ → ℝ) (c : ℕ → ℂ) : ip 2 (b0 2 x) c = ipR 4 x (b0T 2 c) := by
  simp [ip, ipR, Finset.sum_range_succ, b0, b0T]; ring

theorem adj_b0_4 (x : ℕ → ℝ) (c : ℕ → ℂ) : ip 4 (b0 4 x) c = ipR 8 x (b0T 4 c) := by
  simp [ip, ipR, Finset.sum_range_succ, b0, b0T]; ring

theorem adj_b1_1 (a b : ℕ → ℂ) (y c : ℕ → ℂ) : ip 2 (b1W 1 a b y) c = ip 2 y (b1WT 1 a b c) := by
  simp [ip, Finset.sum_range_succ, b1W, b1WT, ← conj_E8]; ring

theorem adj_b1_2 (a b : ℕ → ℂ) (y c : ℕ → ℂ) : ip 4 (b1W 2 a b y) c = ip 4 y (b1WT 2 a b c) := by
  simp [ip, Finset.sum_range_succ, b1W, b1WT, ← conj_E8]; ring

theorem firstLevels1_T (j nr m : ℕ) (tw : ℤ → ℂ) (c : ℕ → ℂ) {i : ℕ} (hi : i < 2) :
    transposeR 1 (firstLevels 1 j nr m tw) c i = b0T 1 c i := by
  refine transposeR_eq (a := 2) (fun x => ?_) hi
  refine Eq.trans ?_ (adj_b0_1 x c)
  exact ip_congr (fun k hk => firstLevels1_eq j nr m tw x hk) fun _ _ => rfl

theorem firstLevels2_T (j nr m : ℕ) (tw : ℤ → ℂ) (c : ℕ → ℂ) {i : ℕ} (hi : i < 4) :
    transposeR 2 (firstLevels 2 j nr m tw) c i = b0T 2 (b1WT 1 (b1A tw j nr) (b1B tw j nr) c) i := by
  refine transposeR_eq (a := 4) (fun x => ?_) hi
  refine Eq.trans ?_ (adj_b0_2 x _)
  rw [← adj_b1_1]
  exact ip_congr (fun k hk => firstLevels2_eq j nr m tw x hk) fun _ _ => rfl

theorem firstLevels3_T (j nr m : ℕ) (tw : ℤ → ℂ) (c : ℕ → ℂ) {i : ℕ} (hi : i < 8) :
    transposeR 4 (firstLevels 3 j nr m tw) c i =
      b0T 4 (b1WT 2 (b1A tw j nr) (b1B tw j nr) (levWT 0 (fun _ => tw (8 * ((j &&& (m - 1) : ℕ) : ℤ))) c)) i := by
  refine transposeR_eq (a := 8) (fun x => ?_) hi
  refine Eq.trans ?_ (adj_b0_4 x _)
  rw [← adj_b1_2, ← adj_2_0]
  exact ip_congr (fun k hk => firstLevels3_eq j nr m tw x hk) fun _ _ => rfl

/-! ## The loops -/

theorem firstLevels_congr {r : ℕ} (hr : r = 1 ∨ r = 2 ∨ r = 3) (j nr m : ℕ) (tw : ℤ → ℂ) {x x' : ℕ → ℝ}
    (h : ∀ i < 2 ^ r, x i = x' i) (i : ℕ) : firstLevels r j nr m tw x i = firstLevels r j nr m tw x' i := by
  rcases hr with rfl | rfl | rfl
  · simp only [firstLevels, h 0 (by norm_num), h 1 (by norm_num)]
  · simp only [firstLevels, h 0 (by norm_num), h 1 (by norm_num), h 2 (by norm_num), h 3 (by norm_num)]
  · simp only [firstLevels, h 0 (by norm_num), h 1 (by norm_num), h 2 (by norm_num), h 3 (by norm_num),
      h 4 (by norm_num), h 5 (by norm_num), h 6 (by norm_num), h 7 (by norm_num)]

theorem strided_own {cnt R j i : ℕ} (hj : j < cnt) (hi : i < R) :
    (if j + i * cnt < cnt * R then (j + i * cnt) % cnt else cnt) = j := by
  have h1 : (i + 1) * cnt ≤ R * cnt := Nat.mul_le_mul_right _ hi
  rw [Nat.add_mul, one_mul, Nat.mul_comm R] at h1
  rw [if_pos (by omega), Nat.add_mul_mod_self_right, Nat.mod_eq_of_lt hj]

theorem strided_cell {cnt R k : ℕ} (hk : k < cnt * R) : k / cnt < R ∧ k = k % cnt + k / cnt * cnt := by
  refine ⟨Nat.div_lt_of_lt_mul hk, ?_⟩
  have := Nat.div_add_mod k cnt
  rw [Nat.mul_comm] at this
  omega

theorem srfftFirst_at (r cnt m : ℕ) (tw : ℤ → ℂ) (y : ℕ → ℂ) (x : Span ℝ) {i j : ℕ} (hi : i < 2 ^ r / 2)
    (hj : j < cnt) :
    srfftFirst r cnt m tw y x (j + i * cnt) = firstLevels r j cnt m tw (fun i => x.getZ (j + i * cnt)) i := by
  set own : ℕ → ℕ := fun k => if k < cnt * (2 ^ r / 2) then k % cnt else cnt with hown
  have key := forLoop_own cnt (fun j y =>
    let xs := fun i => x.getZ (j + i * cnt)
    scatter j cnt (firstLevels r j cnt m tw xs) (2 ^ r / 2) y) own y ?_ ?_ (j + i * cnt)
  · rw [srfftFirst, key]
    have ho : own (j + i * cnt) = j := strided_own hj hi
    rw [ho, if_pos hj]
    exact scatter_at j (by omega) _ hi _
  · intro J hJ y k hk
    refine scatter_ne _ _ _ _ _ fun i' hi' e => hk ?_
    rw [e]
    exact strided_own hJ hi'
  · intro J hJ y y' _ k hk
    have hlt : k < cnt * (2 ^ r / 2) := by
      by_contra hc
      simp only [hown, if_neg hc] at hk
      omega
    simp only [hown, if_pos hlt] at hk
    obtain ⟨h1, h2⟩ := strided_cell hlt
    rw [hk] at h2
    rw [h2]
    exact (scatter_at J (by omega) _ h1 _).trans (scatter_at J (by omega) _ h1 _).symm

theorem isrfftLast_at (add : Bool) (r cnt m : ℕ) (tw : ℤ → ℂ) (y : ℕ → ℂ) (xn : ℕ) (x : ℕ → ℝ) (k : ℕ) :
    isrfftLast add r cnt m tw y xn x k =
      if k < cnt * 2 ^ r ∧ k < xn then
        (if add then x k else 0) +
          transposeR (2 ^ r / 2) (firstLevels r (k % cnt) cnt m tw) (fun i => y (k % cnt + i * cnt)) (k / cnt)
      else x k := by
  set own : ℕ → ℕ := fun k => if k < cnt * 2 ^ r then k % cnt else cnt with hown
  have key := forLoop_own cnt (fun j x =>
    let ys := fun i => y (j + i * cnt)
    scatterX add xn j cnt (transposeR (2 ^ r / 2) (firstLevels r j cnt m tw) ys) (2 ^ r) x) own x ?_ ?_ k
  · rw [isrfftLast, key]
    by_cases hk : k < cnt * 2 ^ r
    · have hpos : 0 < cnt := by
        rcases Nat.eq_zero_or_pos cnt with h | h
        · subst h; omega
        · exact h
      obtain ⟨h1, h2⟩ := strided_cell hk
      have ho : own k = k % cnt := by simp only [hown, if_pos hk]
      rw [ho, if_pos (Nat.mod_lt _ hpos)]
      by_cases hx : k < xn
      · rw [if_pos ⟨hk, hx⟩]
        conv_lhs => rw [h2]
        simp only [Nat.add_mul_mod_self_right, Nat.mod_mod]
        rw [scatterX_at add xn _ hpos _ h1 x (by omega), ← h2]
        cases add <;> simp
      · rw [if_neg (by omega)]
        refine scatterX_ne _ _ _ _ _ _ _ fun i' _ e => hx
    · have ho : own k = cnt := by simp only [hown, if_neg hk]
      rw [ho, if_neg (by omega), if_neg (by omega)]
  · intro J hJ x k hk
    refine scatterX_ne _ _ _ _ _ _ _ fun i' hi' e => absurd ?_ hk
    rw [e]
    exact strided_own hJ hi'
  · intro J hJ x x' hxx k hk
    have hlt : k < cnt * 2 ^ r := by
      by_contra hc
      simp only [hown, if_neg hc] at hk
      omega
    have hkk := hxx k hk
    simp only [hown, if_pos hlt] at hk
    obtain ⟨h1, h2⟩ := strided_cell hlt
    rw [hk] at h2
    by_cases hx : k < xn
    · rw [h2]
      refine (scatterX_at add xn J (by omega) _ h1 _ (by omega)).trans
        (Eq.trans ?_ (scatterX_at add xn J (by omega) _ h1 _ (by omega)).symm)
      rw [← h2, hkk]
    · exact (scatterX_ne _ _ _ _ _ _ _ fun i' _ e => hx).trans
        (hkk.trans (scatterX_ne _ _ _ _ _ _ _ fun i' _ e => hx).symm)

end Mandelbrot.FFT
