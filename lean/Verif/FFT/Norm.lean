import Verif.FFT.Srfft
import Mathlib.Analysis.InnerProductSpace.PiL2

/-!
# Euclidean norms of buffers: every pass of the transforms scales them by a constant
-/

namespace Mandelbrot.FFT

open Complex Finset

local notation "conj" => starRingEnd ℂ

/-- Euclidean norm of the first `N` cells. -/
noncomputable def nrm {E : Type} [NormedAddCommGroup E] (N : ℕ) (y : ℕ → E) : ℝ :=
  Real.sqrt (∑ k ∈ range N, ‖y k‖ ^ 2)

section

variable {E : Type} [NormedAddCommGroup E] {N : ℕ}

theorem nrm_nonneg (y : ℕ → E) : 0 ≤ nrm N y := Real.sqrt_nonneg _

theorem nrm_sq (y : ℕ → E) : nrm N y ^ 2 = ∑ k ∈ range N, ‖y k‖ ^ 2 :=
  Real.sq_sqrt (sum_nonneg fun _ _ => by positivity)

theorem nrm_eq_norm (y : ℕ → E) : nrm N y = ‖(WithLp.toLp 2 fun i : Fin N => y i : PiLp 2 fun _ : Fin N => E)‖ := by
  rw [PiLp.norm_eq_of_L2, nrm]
  congr 1
  exact (Fin.sum_univ_eq_sum_range (fun k => ‖y k‖ ^ 2) N).symm

theorem nrm_add_le (a b : ℕ → E) : nrm N (fun k => a k + b k) ≤ nrm N a + nrm N b := by
  rw [nrm_eq_norm, nrm_eq_norm, nrm_eq_norm]
  exact norm_add_le (WithLp.toLp 2 fun i : Fin N => a i) (WithLp.toLp 2 fun i : Fin N => b i)

theorem nrm_sub_le (a b c : ℕ → E) :
    nrm N (fun k => a k - c k) ≤ nrm N (fun k => a k - b k) + nrm N (fun k => b k - c k) := by
  have := nrm_add_le (N := N) (fun k => a k - b k) (fun k => b k - c k)
  simpa using this

theorem nrm_le_add (a b : ℕ → E) : nrm N a ≤ nrm N (fun k => a k - b k) + nrm N b := by
  have := nrm_add_le (N := N) (fun k => a k - b k) b
  simpa using this

theorem nrm_congr {a b : ℕ → E} (h : EqOn N a b) : nrm N a = nrm N b := by
  unfold nrm
  congr 1
  exact sum_congr rfl fun k hk => by rw [h k (mem_range.1 hk)]

theorem nrm_mono {M : ℕ} (h : N ≤ M) (a : ℕ → E) : nrm N a ≤ nrm M a :=
  Real.sqrt_le_sqrt (sum_le_sum_of_subset_of_nonneg (range_mono h) fun _ _ _ => by positivity)

theorem nrm_le_nrm {F : Type} [NormedAddCommGroup F] {a : ℕ → E} {b : ℕ → F} (h : ∀ k < N, ‖a k‖ ≤ ‖b k‖) :
    nrm N a ≤ nrm N b :=
  Real.sqrt_le_sqrt (sum_le_sum fun k hk => by
    have := h k (mem_range.1 hk)
    gcongr)

theorem nrm_smul (c : ℝ) (hc : 0 ≤ c) (a : ℕ → ℝ) : nrm N (fun k => c * a k) = c * nrm N a := by
  unfold nrm
  have : ∑ k ∈ range N, ‖c * a k‖ ^ 2 = c ^ 2 * ∑ k ∈ range N, ‖a k‖ ^ 2 := by
    rw [mul_sum]
    refine sum_congr rfl fun k _ => ?_
    rw [norm_mul, mul_pow, Real.norm_of_nonneg hc]
  rw [this, Real.sqrt_mul (by positivity), Real.sqrt_sq hc]

theorem nrm_le_mul {F : Type} [NormedAddCommGroup F] {M : ℕ} {c : ℝ} (hc : 0 ≤ c) {a : ℕ → E} {b : ℕ → F}
    (h : ∑ k ∈ range N, ‖a k‖ ^ 2 ≤ c ^ 2 * ∑ k ∈ range M, ‖b k‖ ^ 2) : nrm N a ≤ c * nrm M b := by
  unfold nrm
  calc Real.sqrt (∑ k ∈ range N, ‖a k‖ ^ 2) ≤ Real.sqrt (c ^ 2 * ∑ k ∈ range M, ‖b k‖ ^ 2) := Real.sqrt_le_sqrt h
    _ = _ := by rw [Real.sqrt_mul (by positivity), Real.sqrt_sq hc]

theorem nrm_eq_mul {F : Type} [NormedAddCommGroup F] {M : ℕ} {c : ℝ} (hc : 0 ≤ c) {a : ℕ → E} {b : ℕ → F}
    (h : ∑ k ∈ range N, ‖a k‖ ^ 2 = c * ∑ k ∈ range M, ‖b k‖ ^ 2) : nrm N a = Real.sqrt c * nrm M b := by
  unfold nrm
  rw [h, Real.sqrt_mul hc]

end

/-- The pointwise product. -/
theorem nrm_mul_le {N : ℕ} (a b : ℕ → ℂ) : nrm N (fun k => a k * b k) ≤ nrm N a * nrm N b := by
  unfold nrm
  rw [← Real.sqrt_mul (sum_nonneg fun _ _ => by positivity)]
  refine Real.sqrt_le_sqrt ?_
  rw [sum_mul]
  refine sum_le_sum fun k hk => ?_
  rw [norm_mul, mul_pow]
  exact mul_le_mul_of_nonneg_left
    (single_le_sum (f := fun k => ‖b k‖ ^ 2) (fun _ _ => by positivity) hk) (by positivity)

/-! ## Sums over the cells of a pass -/

theorem sum_range_mul' {M : Type} [AddCommMonoid M] (a b : ℕ) (F : ℕ → M) :
    ∑ k ∈ range (a * b), F k = ∑ i ∈ range a, ∑ j ∈ range b, F (i * b + j) := by
  induction a with
  | zero => simp
  | succ a ih => rw [Nat.succ_mul, sum_range_add, ih, sum_range_succ]

/-- The cells of a pass, by iteration. -/
theorem sum_cells {M : Type} [AddCommMonoid M] {r s cnt : ℕ} (hd : 2 ^ s ∣ cnt) (F : ℕ → M) :
    ∑ k ∈ range (cnt * 2 ^ r), F k =
      ∑ J ∈ range cnt, ∑ i ∈ range (2 ^ r), F ((J / 2 ^ s * 2 ^ r + i) * 2 ^ s + J % 2 ^ s) := by
  obtain ⟨Q, rfl⟩ := hd
  have hm : 0 < 2 ^ s := by positivity
  rw [show 2 ^ s * Q * 2 ^ r = (Q * 2 ^ r) * 2 ^ s by ring, sum_range_mul', sum_range_mul', Nat.mul_comm (2 ^ s) Q,
    sum_range_mul']
  refine sum_congr rfl fun q _ => ?_
  rw [sum_comm]
  refine sum_congr rfl fun j hj => sum_congr rfl fun i _ => ?_
  have hj := mem_range.1 hj
  have h1 : (q * 2 ^ s + j) / 2 ^ s = q := by
    rw [Nat.mul_comm, Nat.mul_add_div hm, Nat.div_eq_of_lt hj, add_zero]
  have h2 : (q * 2 ^ s + j) % 2 ^ s = j := by
    rw [Nat.mul_comm, Nat.mul_add_mod, Nat.mod_eq_of_lt hj]
  rw [h1, h2]

/-- The cells of a strided pass, by iteration. -/
theorem sum_strided {M : Type} [AddCommMonoid M] (cnt n : ℕ) (F : ℕ → M) :
    ∑ k ∈ range (cnt * n), F k = ∑ j ∈ range cnt, ∑ i ∈ range n, F (j + i * cnt) := by
  rw [Nat.mul_comm, sum_range_mul', sum_comm]
  exact sum_congr rfl fun j _ => sum_congr rfl fun i _ => by rw [add_comm]

/-! ## Norms of the levels -/

theorem norm_conj (z : ℂ) : ‖conj z‖ = ‖z‖ := RCLike.norm_conj z

theorem norm_one_of_unit {w : ℂ} (h : conj w * w = 1) : ‖w‖ = 1 := by
  have h1 : ‖conj w * w‖ = 1 := by rw [h, norm_one]
  rw [norm_mul, norm_conj] at h1
  nlinarith [norm_nonneg w]

theorem pair_norm {w : ℂ} (hw : ‖w‖ = 1) (a b : ℂ) :
    ‖a + b‖ ^ 2 + ‖conj (w * (a - b))‖ ^ 2 = 2 * (‖a‖ ^ 2 + ‖b‖ ^ 2) := by
  rw [norm_conj, norm_mul, hw, one_mul]
  have := parallelogram_law_with_norm ℝ a b
  linarith [sq ‖a + b‖, sq ‖a - b‖, sq ‖a‖, sq ‖b‖]

theorem pair_normT {w : ℂ} (hw : ‖w‖ = 1) (a b : ℂ) :
    ‖a + conj (w * b)‖ ^ 2 + ‖a - conj (w * b)‖ ^ 2 = 2 * (‖a‖ ^ 2 + ‖b‖ ^ 2) := by
  have := parallelogram_law_with_norm ℝ a (conj (w * b))
  have h : ‖conj (w * b)‖ = ‖b‖ := by rw [norm_conj, norm_mul, hw, one_mul]
  rw [h] at this
  linarith [sq ‖a + conj (w * b)‖, sq ‖a - conj (w * b)‖, sq ‖a‖, sq ‖b‖]

theorem sum_pairs {t N : ℕ} (hN : 2 * 2 ^ t ∣ N) (F : ℕ → ℝ) :
    ∑ k ∈ range N, F k = ∑ q ∈ range (N / (2 * 2 ^ t)), ∑ c ∈ range (2 ^ t),
      (F (q * (2 * 2 ^ t) + c) + F (q * (2 * 2 ^ t) + 2 ^ t + c)) := by
  obtain ⟨Q, rfl⟩ := hN
  rw [Nat.mul_div_cancel_left _ (by positivity), Nat.mul_comm, sum_range_mul']
  refine sum_congr rfl fun q _ => ?_
  rw [two_mul, sum_range_add, ← sum_add_distrib]
  exact sum_congr rfl fun c _ => by rw [add_assoc]

theorem nrm_levW {t N : ℕ} (hN : 2 * 2 ^ t ∣ N) {w : ℕ → ℂ} (hw : ∀ c, ‖w c‖ = 1) (y : ℕ → ℂ) :
    nrm N (levW t w y) = Real.sqrt 2 * nrm N y := by
  refine nrm_eq_mul (by norm_num) ?_
  rw [sum_pairs hN, sum_pairs hN, mul_sum]
  refine sum_congr rfl fun q _ => ?_
  rw [mul_sum]
  refine sum_congr rfl fun c hc => ?_
  rw [levW_lo _ _ _ _ (mem_range.1 hc), levW_hi _ _ _ _ (mem_range.1 hc)]
  exact pair_norm (hw c) _ _

theorem nrm_levWT {t N : ℕ} (hN : 2 * 2 ^ t ∣ N) {w : ℕ → ℂ} (hw : ∀ c, ‖w c‖ = 1) (y : ℕ → ℂ) :
    nrm N (levWT t w y) = Real.sqrt 2 * nrm N y := by
  refine nrm_eq_mul (by norm_num) ?_
  rw [sum_pairs hN, sum_pairs hN, mul_sum]
  refine sum_congr rfl fun q _ => ?_
  rw [mul_sum]
  refine sum_congr rfl fun c hc => ?_
  rw [levWT_lo _ _ _ _ (mem_range.1 hc), levWT_hi _ _ _ _ (mem_range.1 hc)]
  exact pair_normT (hw c) _ _

theorem nrm_lev {s N : ℕ} (hN : 2 * 2 ^ s ∣ N) (y : ℕ → ℂ) : nrm N (lev s y) = Real.sqrt 2 * nrm N y :=
  nrm_levW hN (fun c => norm_one_of_unit (levF_unit s c)) y

theorem nrm_levT {s N : ℕ} (hN : 2 * 2 ^ s ∣ N) (y : ℕ → ℂ) : nrm N (levT s y) = Real.sqrt 2 * nrm N y :=
  nrm_levWT hN (fun c => norm_one_of_unit (levF_unit s c)) y

theorem norm_E8 : ‖E8‖ = 1 := norm_one_of_unit (by rw [conj_E8, inv_mul_cancel₀ E8_ne_zero])

theorem norm_E8_inv : ‖E8⁻¹‖ = 1 := by rw [norm_inv, norm_E8, inv_one]

theorem nrm_b1W {M : ℕ} {a b : ℕ → ℂ} (ha : ∀ k, ‖a k‖ = 1) (hb : ∀ k, ‖b k‖ = 1) (y : ℕ → ℂ) :
    nrm (2 * M) (b1W M a b y) = Real.sqrt 2 * nrm (2 * M) y := by
  refine nrm_eq_mul (by norm_num) ?_
  rw [two_mul, sum_range_add, sum_range_add, ← sum_add_distrib, ← sum_add_distrib, mul_sum]
  refine sum_congr rfl fun k hk => ?_
  have hk := mem_range.1 hk
  rw [b1W, if_pos hk, b1W, if_neg (by omega), show M + k - M = k by omega, Nat.add_comm M k, norm_mul, ha, one_mul]
  rw [pair_norm (hb k), norm_mul, norm_E8_inv, one_mul]

theorem nrm_b1WT {M : ℕ} {a b : ℕ → ℂ} (ha : ∀ k, ‖a k‖ = 1) (hb : ∀ k, ‖b k‖ = 1) (y : ℕ → ℂ) :
    nrm (2 * M) (b1WT M a b y) = Real.sqrt 2 * nrm (2 * M) y := by
  refine nrm_eq_mul (by norm_num) ?_
  rw [two_mul, sum_range_add, sum_range_add, ← sum_add_distrib, ← sum_add_distrib, mul_sum]
  refine sum_congr rfl fun k hk => ?_
  have hk := mem_range.1 hk
  rw [b1WT, if_pos hk, b1WT, if_neg (by omega), show M + k - M = k by omega, Nat.add_comm M k, norm_mul, norm_E8,
    one_mul, pair_normT (hb k), norm_mul, norm_conj, ha, one_mul]

theorem norm_sq_mk (a b : ℝ) : ‖(⟨a, b⟩ : ℂ)‖ ^ 2 = ‖a‖ ^ 2 + ‖b‖ ^ 2 := by
  rw [← Complex.normSq_eq_norm_sq, Complex.normSq_mk, Real.norm_eq_abs, Real.norm_eq_abs, sq_abs, sq_abs]
  ring

theorem nrm_b0 {N : ℕ} (x : ℕ → ℝ) : nrm N (b0 N x) = nrm (2 * N) x := by
  unfold nrm
  congr 1
  rw [two_mul, sum_range_add, ← sum_add_distrib]
  refine sum_congr rfl fun k _ => ?_
  rw [b0, norm_sq_mk, norm_neg, Nat.add_comm N k]

theorem nrm_b0T {N : ℕ} (c : ℕ → ℂ) : nrm (2 * N) (b0T N c) = nrm N c := by
  unfold nrm
  congr 1
  rw [two_mul, sum_range_add, ← sum_add_distrib]
  refine sum_congr rfl fun k hk => ?_
  rw [b0T, if_pos (mem_range.1 hk), b0T, if_neg (by omega), show N + k - N = k by omega, norm_neg, ← norm_sq_mk]

/-! ## Linearity -/

theorem levW_sub (t : ℕ) (w y y' : ℕ → ℂ) (i : ℕ) :
    levW t w y i - levW t w y' i = levW t w (fun k => y k - y' k) i := by
  unfold levW
  split_ifs
  · ring
  · simp only [map_mul, map_sub]; ring

theorem levWT_sub (t : ℕ) (w y y' : ℕ → ℂ) (i : ℕ) :
    levWT t w y i - levWT t w y' i = levWT t w (fun k => y k - y' k) i := by
  unfold levWT
  split_ifs <;> simp only [map_mul, map_sub] <;> ring

theorem b1W_sub (M : ℕ) (a b y y' : ℕ → ℂ) (i : ℕ) :
    b1W M a b y i - b1W M a b y' i = b1W M a b (fun k => y k - y' k) i := by
  unfold b1W
  split_ifs
  · ring
  · simp only [map_mul, map_sub]; ring

theorem b1WT_sub (M : ℕ) (a b y y' : ℕ → ℂ) (i : ℕ) :
    b1WT M a b y i - b1WT M a b y' i = b1WT M a b (fun k => y k - y' k) i := by
  unfold b1WT
  split_ifs <;> simp only [map_mul, map_sub] <;> ring

theorem b0T_sub (N : ℕ) (c c' : ℕ → ℂ) (k : ℕ) : b0T N c k - b0T N c' k = b0T N (fun k => c k - c' k) k := by
  unfold b0T
  split_ifs
  · simp
  · simp only [Complex.sub_im]; ring

end Mandelbrot.FFT
