import Verif.FFT.Levels

/-!
# The backward codelets as transposed radix-2 levels
-/

namespace Mandelbrot.FFT

open Complex

local notation "conj" => starRingEnd ℂ

/-- Real inner product of two complex vectors. -/
noncomputable def ip (R : ℕ) (x c : ℕ → ℂ) : ℝ :=
  ∑ k ∈ Finset.range R, ((x k).re * (c k).re + (x k).im * (c k).im)

theorem ip_congr {R : ℕ} {x x' c c' : ℕ → ℂ} (h : ∀ k < R, x k = x' k) (h' : ∀ k < R, c k = c' k) :
    ip R x c = ip R x' c' := by
  refine Finset.sum_congr rfl fun k hk => ?_
  rw [h k (Finset.mem_range.1 hk), h' k (Finset.mem_range.1 hk)]

theorem ip_unit {R i : ℕ} (hi : i < R) (v : ℂ) (c : ℕ → ℂ) :
    ip R (unit i v) c = v.re * (c i).re + v.im * (c i).im := by
  rw [ip, Finset.sum_eq_single i]
  · simp [unit]
  · intro k _ hk; simp [unit, hk]
  · intro h; exact absurd (Finset.mem_range.2 hi) h

/-- The gradient of a linear circuit is whatever is adjoint to it. -/
theorem transposeC_eq {a b : ℕ} {f : (ℕ → ℂ) → ℕ → ℂ} {c h : ℕ → ℂ} (hadj : ∀ x, ip b (f x) c = ip a x h) {i : ℕ}
    (hi : i < a) : transposeC b f c i = h i := by
  apply Complex.ext
  · have := hadj (unit i 1)
    rw [ip_unit hi] at this
    simpa [transposeC, ip] using this
  · have := hadj (unit i I)
    rw [ip_unit hi] at this
    simpa [transposeC, ip] using this

theorem transposeR_eq {a b : ℕ} {f : (ℕ → ℝ) → ℕ → ℂ} {c : ℕ → ℂ} {h : ℕ → ℝ}
    (hadj : ∀ x, ip b (f x) c = ∑ k ∈ Finset.range a, x k * h k) {i : ℕ}
    (hi : i < a) : transposeR b f c i = h i := by
  have := hadj (unit i 1)
  rw [Finset.sum_eq_single i (by intro k _ hk; simp [unit, hk])
    (by intro h; exact absurd (Finset.mem_range.2 hi) h)] at this
  simpa [transposeR, ip, unit] using this

theorem transposeC_congr {b : ℕ} {f : (ℕ → ℂ) → ℕ → ℂ} {c c' : ℕ → ℂ} (h : ∀ k < b, c k = c' k) (i : ℕ) :
    transposeC b f c i = transposeC b f c' i := by
  rw [transposeC, transposeC]
  congr 1
  · exact Finset.sum_congr rfl fun k hk => by rw [h k (Finset.mem_range.1 hk)]
  · exact Finset.sum_congr rfl fun k hk => by rw [h k (Finset.mem_range.1 hk)]

theorem transposeR_congr {b : ℕ} {f : (ℕ → ℝ) → ℕ → ℂ} {c c' : ℕ → ℂ} (h : ∀ k < b, c k = c' k) (i : ℕ) :
    transposeR b f c i = transposeR b f c' i :=
  Finset.sum_congr rfl fun k hk => by rw [h k (Finset.mem_range.1 hk)]

theorem adj_1_0 (w : ℕ → ℂ) (x c : ℕ → ℂ) : ip 2 (levW 0 w x) c = ip 2 x (levWT 0 w c) := by
  simp [ip, Finset.sum_range_succ, levW, levWT]; ring

theorem adj_2_0 (w : ℕ → ℂ) (x c : ℕ → ℂ) : ip 4 (levW 0 w x) c = ip 4 x (levWT 0 w c) := by
  simp [ip, Finset.sum_range_succ, levW, levWT]; ring

theorem adj_2_1 (w : ℕ → ℂ) (x c : ℕ → ℂ) : ip 4 (levW 1 w x) c = ip 4 x (levWT 1 w c) := by
  simp [ip, Finset.sum_range_succ, levW, levWT]; ring

theorem adj_3_0 (w : ℕ → ℂ) (x c : ℕ → ℂ) : ip 8 (levW 0 w x) c = ip 8 x (levWT 0 w c) := by
  simp [ip, Finset.sum_range_succ, levW, levWT]; ring

theorem adj_3_1 (w : ℕ → ℂ) (x c : ℕ → ℂ) : ip 8 (levW 1 w x) c = ip 8 x (levWT 1 w c) := by
  simp [ip, Finset.sum_range_succ, levW, levWT]; ring

theorem adj_3_2 (w : ℕ → ℂ) (x c : ℕ → ℂ) : ip 8 (levW 2 w x) c = ip 8 x (levWT 2 w c) := by
  simp [ip, Finset.sum_range_succ, levW, levWT]; ring

theorem ibutterflyS1_eq {s j : ℕ} {tw : ℤ → ℂ} (htw : ∀ k, tw k = cis k (2 * 2 ^ s)) (c : ℕ → ℂ) {i : ℕ}
    (hi : i < 2) : transposeC 2 (butterflyR 1 j tw) c i = levWT 0 (grpF s j 0) c i := by
  refine transposeC_eq (a := 2) (fun x => ?_) hi
  rw [← adj_1_0]
  exact ip_congr (fun k hk => butterflyS1_eq htw x hk) fun _ _ => rfl

theorem ibutterflyS2_eq {s j : ℕ} {tw : ℤ → ℂ} (htw : ∀ k, tw k = cis k (2 * 2 ^ (s + 1))) (c : ℕ → ℂ) {i : ℕ}
    (hi : i < 4) :
    transposeC 4 (butterflyR 2 j tw) c i = levWT 1 (grpF s j 1) (levWT 0 (grpF s j 0) c) i := by
  refine transposeC_eq (a := 4) (fun x => ?_) hi
  rw [← adj_2_1, ← adj_2_0]
  exact ip_congr (fun k hk => butterflyS2_eq htw x hk) fun _ _ => rfl

theorem ibutterflyS3_eq {s j : ℕ} {tw : ℤ → ℂ} (htw : ∀ k, tw k = cis k (2 * 2 ^ (s + 2))) (c : ℕ → ℂ) {i : ℕ}
    (hi : i < 8) :
    transposeC 8 (butterflyR 3 j tw) c i =
      levWT 2 (grpF s j 2) (levWT 1 (grpF s j 1) (levWT 0 (grpF s j 0) c)) i := by
  refine transposeC_eq (a := 8) (fun x => ?_) hi
  rw [← adj_3_2, ← adj_3_1, ← adj_3_0]
  exact ip_congr (fun k hk => butterflyS3_eq htw x hk) fun _ _ => rfl

/-! ## The passes -/

theorem butterflyR_congr {r : ℕ} (hr : r = 1 ∨ r = 2 ∨ r = 3) (j : ℤ) (tw : ℤ → ℂ) {v v' : ℕ → ℂ}
    (h : ∀ i < 2 ^ r, v i = v' i) (i : ℕ) : butterflyR r j tw v i = butterflyR r j tw v' i := by
  rcases hr with rfl | rfl | rfl
  · simp only [butterflyR, h 0 (by norm_num), h 1 (by norm_num)]
  · simp only [butterflyR, butterflyS2, h 0 (by norm_num), h 1 (by norm_num), h 2 (by norm_num), h 3 (by norm_num)]
  · simp only [butterflyR, butterflyS3, h 0 (by norm_num), h 1 (by norm_num), h 2 (by norm_num), h 3 (by norm_num),
      h 4 (by norm_num), h 5 (by norm_num), h 6 (by norm_num), h 7 (by norm_num)]

/-- Coordinates of a cell in a pass of radix `2^r` at distance `2^s` over `cnt * 2^r` cells. -/
theorem pass_coords {r s cnt k : ℕ} (hk : k < cnt * 2 ^ r) (hd : 2 ^ s ∣ cnt) :
    ∃ q i j, i < 2 ^ r ∧ j < 2 ^ s ∧ q * 2 ^ s + j < cnt ∧ k = (q * 2 ^ r + i) * 2 ^ s + j := by
  have hm : 0 < 2 ^ s := by positivity
  have hR : 0 < 2 ^ r := by positivity
  obtain ⟨Q, rfl⟩ := hd
  refine ⟨k / 2 ^ s / 2 ^ r, k / 2 ^ s % 2 ^ r, k % 2 ^ s, Nat.mod_lt _ hR, Nat.mod_lt _ hm, ?_, ?_⟩
  · have hq : k / 2 ^ s / 2 ^ r < Q := by
      rw [Nat.div_div_eq_div_mul]
      refine Nat.div_lt_of_lt_mul ?_
      calc k < 2 ^ s * Q * 2 ^ r := hk
        _ = 2 ^ s * 2 ^ r * Q := by ring
    have h1 : (k / 2 ^ s / 2 ^ r + 1) * 2 ^ s ≤ Q * 2 ^ s := Nat.mul_le_mul_right _ hq
    have h2 := Nat.mod_lt k hm
    rw [Nat.mul_comm Q, Nat.add_mul, one_mul] at h1
    omega
  · have h1 := Nat.div_add_mod (k / 2 ^ s) (2 ^ r)
    rw [Nat.mul_comm] at h1
    rw [h1]
    have h2 := Nat.div_add_mod k (2 ^ s)
    rw [Nat.mul_comm] at h2
    omega

theorem slice_fun (s : ℕ) : ∀ k, slice s k = cis k (2 * 2 ^ s) := slice_eq s

theorem srfftLevels1_eq {s cnt : ℕ} (hd : 2 ^ s ∣ cnt) (y : ℕ → ℂ) :
    EqOn (cnt * 2) (srfftLevels 1 cnt y (slice s) s) (lev s y) := by
  intro k hk
  obtain ⟨q, i, j, hi, hj, hq, rfl⟩ := pass_coords (r := 1) (by simpa using hk) hd
  refine (levelLoop_at 1 cnt s (fun j => butterflyR 1 j (slice s)) y
    (fun j v v' h i _ => butterflyR_congr (by norm_num) _ _ h i) hi hj hq).trans ?_
  rw [butterflyS1_eq (slice_fun s) _ (by simpa using hi)]
  exact (lev_group 1 s 0 q (by norm_num) y hj i).symm

theorem srfftLevels2_eq {s cnt : ℕ} (hd : 2 ^ s ∣ cnt) (y : ℕ → ℂ) :
    EqOn (cnt * 4) (srfftLevels 2 cnt y (slice (s + 1)) s) (lev s (lev (s + 1) y)) := by
  intro k hk
  obtain ⟨q, i, j, hi, hj, hq, rfl⟩ := pass_coords (r := 2) (by simpa using hk) hd
  refine (levelLoop_at 2 cnt s (fun j => butterflyR 2 j (slice (s + 1))) y
    (fun j v v' h i _ => butterflyR_congr (by norm_num) _ _ h i) hi hj hq).trans ?_
  rw [butterflyS2_eq (slice_fun (s + 1)) _ (by simpa using hi)]
  refine Eq.trans ?_ (lev_group 2 s 0 q (by norm_num) _ hj i).symm
  simp only [lev_group 2 s 1 q (by norm_num) y hj]

theorem srfftLevels3_eq {s cnt : ℕ} (hd : 2 ^ s ∣ cnt) (y : ℕ → ℂ) :
    EqOn (cnt * 8) (srfftLevels 3 cnt y (slice (s + 2)) s) (lev s (lev (s + 1) (lev (s + 2) y))) := by
  intro k hk
  obtain ⟨q, i, j, hi, hj, hq, rfl⟩ := pass_coords (r := 3) (by simpa using hk) hd
  refine (levelLoop_at 3 cnt s (fun j => butterflyR 3 j (slice (s + 2))) y
    (fun j v v' h i _ => butterflyR_congr (by norm_num) _ _ h i) hi hj hq).trans ?_
  rw [butterflyS3_eq (slice_fun (s + 2)) _ (by simpa using hi)]
  refine Eq.trans ?_ (lev_group 3 s 0 q (by norm_num) _ hj i).symm
  simp only [lev_group 3 s 1 q (by norm_num) _ hj, lev_group 3 s 2 q (by norm_num) y hj]

theorem isrfftLevels1_eq {s cnt : ℕ} (hd : 2 ^ s ∣ cnt) (y : ℕ → ℂ) :
    EqOn (cnt * 2) (isrfftLevels 1 cnt y (slice s) s) (levT s y) := by
  intro k hk
  obtain ⟨q, i, j, hi, hj, hq, rfl⟩ := pass_coords (r := 1) (by simpa using hk) hd
  refine (levelLoop_at 1 cnt s (fun j => transposeC (2 ^ 1) (butterflyR 1 j (slice s))) y
    (fun j v v' h i _ => transposeC_congr h i) hi hj hq).trans ?_
  rw [show (2 : ℕ) ^ 1 = 2 by norm_num, ibutterflyS1_eq (slice_fun s) _ (by simpa using hi)]
  exact (levT_group 1 s 0 q (by norm_num) y hj i).symm

theorem isrfftLevels2_eq {s cnt : ℕ} (hd : 2 ^ s ∣ cnt) (y : ℕ → ℂ) :
    EqOn (cnt * 4) (isrfftLevels 2 cnt y (slice (s + 1)) s) (levT (s + 1) (levT s y)) := by
  intro k hk
  obtain ⟨q, i, j, hi, hj, hq, rfl⟩ := pass_coords (r := 2) (by simpa using hk) hd
  refine (levelLoop_at 2 cnt s (fun j => transposeC (2 ^ 2) (butterflyR 2 j (slice (s + 1)))) y
    (fun j v v' h i _ => transposeC_congr h i) hi hj hq).trans ?_
  refine (ibutterflyS2_eq (slice_fun (s + 1)) _ (by simpa using hi)).trans ?_
  refine Eq.trans ?_ (levT_group 2 s 1 q (by norm_num) _ hj i).symm
  have e : ∀ i', levT s y ((q * 2 ^ 2 + i') * 2 ^ s + j) = _ := levT_group 2 s 0 q (by norm_num) y hj
  simp only [e]

theorem isrfftLevels3_eq {s cnt : ℕ} (hd : 2 ^ s ∣ cnt) (y : ℕ → ℂ) :
    EqOn (cnt * 8) (isrfftLevels 3 cnt y (slice (s + 2)) s) (levT (s + 2) (levT (s + 1) (levT s y))) := by
  intro k hk
  obtain ⟨q, i, j, hi, hj, hq, rfl⟩ := pass_coords (r := 3) (by simpa using hk) hd
  refine (levelLoop_at 3 cnt s (fun j => transposeC (2 ^ 3) (butterflyR 3 j (slice (s + 2)))) y
    (fun j v v' h i _ => transposeC_congr h i) hi hj hq).trans ?_
  refine (ibutterflyS3_eq (slice_fun (s + 2)) _ (by simpa using hi)).trans ?_
  refine Eq.trans ?_ (levT_group 3 s 2 q (by norm_num) _ hj i).symm
  have e : ∀ i', levT s y ((q * 2 ^ 3 + i') * 2 ^ s + j) = _ := levT_group 3 s 0 q (by norm_num) y hj
  simp only [levT_group 3 s 1 q (by norm_num) _ hj, e]

end Mandelbrot.FFT
