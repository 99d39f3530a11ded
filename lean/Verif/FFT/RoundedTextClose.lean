import Verif.FFT.RoundedNear
import Verif.FFT.First

/-!
# Accuracy of the bodies of the loops
-/

namespace Mandelbrot.FFT

open Complex Finset Spec

local notation "conj" => starRingEnd ℂ

variable {R : Type} [Zero R] {A : Arith R} {T : Tables R} {val : R → ℝ} {ε : ℝ}

/-! ## Exact bodies -/

theorem clevel_exact {r : ℕ} (hr : r = 1 ∨ r = 2 ∨ r = 3) (w : ℤ → ℂ) (j : ℕ) (y : ℕ → ℂ) {i : ℕ} (hi : i < 2 ^ r) :
    clevel exactOps r w j y i = butterflyR r j w y i := by
  rcases hr with rfl | rfl | rfl
  · interval_cases i <;> rfl
  · interval_cases i <;> rfl
  · interval_cases i <;> rfl

theorem clevelT_exact {r : ℕ} (hr : r = 1 ∨ r = 2 ∨ r = 3) (w : ℤ → ℂ) (j : ℕ) (d : ℕ → ℂ) {i : ℕ} (hi : i < 2 ^ r) :
    clevelT exactOps r w j d i = transposeC (2 ^ r) (butterflyR r j w) d i := by
  symm
  refine transposeC_eq (a := 2 ^ r) (fun x => ?_) hi
  rcases hr with rfl | rfl | rfl
  · simp [ip, sum_range_succ, butterflyR, butterflyS1, clevelT, cs1T, exactOps]; ring
  · simp [ip, sum_range_succ, butterflyR, butterflyS2, clevelT, cs2T, exactOps, left, right]; ring
  · simp [ip, sum_range_succ, butterflyR, butterflyS3, clevelT, cs3T, exactOps, left, right, diagPos, diagNeg]; ring

theorem cfirst_exact {r : ℕ} (hr : r = 1 ∨ r = 2 ∨ r = 3) (w : ℤ → ℂ) (j nr m : ℕ) (x : ℕ → ℝ) {i : ℕ}
    (hi : i < 2 ^ r / 2) :
    cfirst exactOps r w j nr m (fun i => (⟨x i, -x (i + 2 ^ r / 2)⟩ : ℂ)) i = firstLevels r j nr m w x i := by
  rcases hr with rfl | rfl | rfl
  · norm_num at hi; subst hi; rfl
  · norm_num at hi; interval_cases i <;> rfl
  · norm_num at hi; interval_cases i <;> rfl

theorem cfirstT_exact {r : ℕ} (hr : r = 1 ∨ r = 2 ∨ r = 3) (w : ℤ → ℂ) (j nr m : ℕ) (d : ℕ → ℂ) {i : ℕ}
    (hi : i < 2 ^ r) :
    (if i < 2 ^ r / 2 then (cfirstT exactOps r w j nr m d i).re else -(cfirstT exactOps r w j nr m d (i - 2 ^ r / 2)).im) =
      transposeR (2 ^ r / 2) (firstLevels r j nr m w) d i := by
  symm
  refine transposeR_eq (a := 2 ^ r) (h := fun i => if i < 2 ^ r / 2 then (cfirstT exactOps r w j nr m d i).re
    else -(cfirstT exactOps r w j nr m d (i - 2 ^ r / 2)).im) (fun x => ?_) hi
  rcases hr with rfl | rfl | rfl
  · simp [ip, sum_range_succ, firstLevels, butterfly0, cfirstT]
  · simp [ip, sum_range_succ, firstLevels, butterfly0, butterfly1, cfirstT, cb1T, exactOps, diagPos, diagNeg]; ring
  · simp [ip, sum_range_succ, firstLevels, butterfly0, butterfly1, butterflyS1, cfirstT, cb1T, cs1T, exactOps, diagPos,
      diagNeg]
    ring

/-! ## Rounded bodies -/

variable {half : R}

theorem norm_one_sub_I : ‖(1 - I : ℂ)‖ = Real.sqrt 2 := by
  rw [Complex.norm_def, normSq_apply]; norm_num

theorem norm_one_add_I : ‖(1 + I : ℂ)‖ = Real.sqrt 2 := by
  rw [Complex.norm_def, normSq_apply]; norm_num

/-- Sums and differences of the parts. -/
theorem near_parts (H : Accurate A val ε) {a c : R × R} {m p : ℂ} {B : ℝ} {k : ℕ} (ha : Near val ε a p B k)
    (hm : ‖m‖ = Real.sqrt 2) (h1 : |(cval val c - m * cval val a).re| ≤ ε * (|val a.1| + |val a.2|))
    (h2 : |(cval val c - m * cval val a).im| ≤ ε * (|val a.1| + |val a.2|)) :
    Near val ε c (m * p) (Real.sqrt 2 * B) (k + 2) := by
  have hε := H.nonneg
  have hs := Real.sqrt_nonneg 2
  have hss := Real.mul_self_sqrt (show (0 : ℝ) ≤ 2 by norm_num)
  refine Near.of_round (e := m * cval val a) ?_ ?_ ?_
  · rw [norm_mul, hm]; exact mul_le_mul_of_nonneg_left ha.1 hs
  · rw [← mul_sub, norm_mul, hm, mul_assoc]; exact mul_le_mul_of_nonneg_left ha.2 hs
  · have e : ‖(⟨|val a.1| + |val a.2|, |val a.1| + |val a.2|⟩ : ℂ)‖ ≤ 2 * ‖cval val a‖ := by
      refine abs_le_of_sq_le_sq' (b := 2 * ‖cval val a‖) ?_ (by positivity) |>.2
      rw [mul_pow, Complex.sq_norm, Complex.sq_norm, normSq_apply, normSq_apply, cval_re, cval_im]
      have h1 := sq_abs (val a.1)
      have h2 := sq_abs (val a.2)
      nlinarith [sq_nonneg (|val a.1| - |val a.2|)]
    have h := norm_le_of_parts (u := ⟨|val a.1| + |val a.2|, |val a.1| + |val a.2|⟩) (v := 0) hε
      (h1.trans (by simp only [zero_re, abs_zero, add_zero]; exact mul_le_mul_of_nonneg_left (le_abs_self _) hε))
      (h2.trans (by simp only [zero_im, abs_zero, add_zero]; exact mul_le_mul_of_nonneg_left (le_abs_self _) hε))
    rw [norm_zero, add_zero] at h
    have h3 : ‖cval val c - m * cval val a‖ ≤ ε * (2 * (B * (1 + ε) ^ k)) :=
      h.trans (mul_le_mul_of_nonneg_left (e.trans (by linarith [ha.size])) hε)
    have hX : 0 ≤ B * (1 + ε) ^ k := mul_nonneg ((norm_nonneg _).trans ha.1) (by positivity)
    have h4 : ε * 2 ≤ Real.sqrt 2 * ((1 + ε) ^ 2 - 1) := by
      have : 1 ≤ Real.sqrt 2 := by rw [show (1 : ℝ) = Real.sqrt 1 by simp]; exact Real.sqrt_le_sqrt (by norm_num)
      nlinarith [mul_nonneg hε hε]
    calc _ ≤ ε * (2 * (B * (1 + ε) ^ k)) := h3
      _ = ε * 2 * (B * (1 + ε) ^ k) := by ring
      _ ≤ Real.sqrt 2 * ((1 + ε) ^ 2 - 1) * (B * (1 + ε) ^ k) := mul_le_mul_of_nonneg_right h4 hX
      _ = _ := by ring

theorem sqrtHalf_sqrt_two (B : ℝ) : sqrtHalf * (Real.sqrt 2 * B) = B := by
  rw [sqrtHalf_eq]
  linear_combination B / 2 * Real.mul_self_sqrt (show (0 : ℝ) ≤ 2 by norm_num)

omit [Zero R] in
theorem near_half (h : |val half - Real.sqrt (1 / 2)| ≤ ε * Real.sqrt (1 / 2)) :
    NearR val ε half sqrtHalf sqrtHalf 1 := by
  refine ⟨by rw [sqrtHalf, abs_of_nonneg (Real.sqrt_nonneg _)], ?_⟩
  rw [pow_one, add_sub_cancel_left, mul_comm]
  exact h

theorem near_diagPos (H : Accurate A val ε) (hh : NearR val ε half sqrtHalf sqrtHalf 1) {a : R × R} {p : ℂ} {B : ℝ}
    {k : ℕ} (ha : Near val ε a p B k) :
    Near val ε ((A.cops half).diagPos a) (exactOps.diagPos p) B (k + 4) := by
  have h := near_scale H hh (near_parts H (c := (A.sub a.1 a.2, A.add a.2 a.1)) (m := 1 + I) ha norm_one_add_I
    (by simpa [cval] using H.sub a.1 a.2)
    (by have := H.add a.2 a.1; rw [add_comm |val a.2|] at this; simpa [cval] using this))
  rw [sqrtHalf_sqrt_two, show (sqrtHalf : ℂ) * ((1 + I) * p) = exactOps.diagPos p by
    apply Complex.ext <;> simp [exactOps, diagPos], show 1 + (k + 2) + 1 = k + 4 by ring] at h
  exact h

theorem near_diagNeg (H : Accurate A val ε) (hh : NearR val ε half sqrtHalf sqrtHalf 1) {a : R × R} {p : ℂ} {B : ℝ}
    {k : ℕ} (ha : Near val ε a p B k) :
    Near val ε ((A.cops half).diagNeg a) (exactOps.diagNeg p) B (k + 4) := by
  have h := near_scale H hh (near_parts H (c := (A.add a.1 a.2, A.sub a.2 a.1)) (m := 1 - I) ha norm_one_sub_I
    (by simpa [cval] using H.add a.1 a.2)
    (by
      have := H.sub a.2 a.1
      rw [add_comm |val a.2|] at this
      have e : (cval val (A.add a.1 a.2, A.sub a.2 a.1) - (1 - I) * cval val a).im =
        val (A.sub a.2 a.1) - (val a.2 - val a.1) := by simp [cval]; ring
      rw [e]; exact this))
  rw [sqrtHalf_sqrt_two, show (sqrtHalf : ℂ) * ((1 - I) * p) = exactOps.diagNeg p by
    refine Complex.ext ?_ ?_
    · simp [exactOps, diagNeg]
    · simp only [exactOps, diagNeg, im_ofReal_mul, sub_mul, sub_im, one_mul, I_mul_im], show 1 + (k + 2) + 1 = k + 4 by ring] at h
  exact h

theorem near_add' (H : Accurate A val ε) {a b : R × R} {p q : ℂ} {B C : ℝ} {k l : ℕ} (ha : Near val ε a p B k)
    (hb : Near val ε b q C l) : Near val ε ((A.cops half).add a b) (exactOps.add p q) (B + C) (max k l + 1) :=
  near_add H ha hb

theorem near_sub' (H : Accurate A val ε) {a b : R × R} {p q : ℂ} {B C : ℝ} {k l : ℕ} (ha : Near val ε a p B k)
    (hb : Near val ε b q C l) : Near val ε ((A.cops half).sub a b) (exactOps.sub p q) (B + C) (max k l + 1) :=
  near_sub H ha hb

theorem near_mul' (H : Accurate A val ε) {a b : R × R} {p q : ℂ} {B C : ℝ} {k l : ℕ} (ha : Near val ε a p B k)
    (hb : Near val ε b q C l) : Near val ε ((A.cops half).mul a b) (exactOps.mul p q) (B * C) (k + l + 4) :=
  near_mul H ha hb

theorem near_conj' (H : Accurate A val ε) {a : R × R} {p : ℂ} {B : ℝ} {k : ℕ} (ha : Near val ε a p B k) :
    Near val ε ((A.cops half).conj a) (exactOps.conj p) B k := near_conj H ha

theorem near_left' (H : Accurate A val ε) {a : R × R} {p : ℂ} {B : ℝ} {k : ℕ} (ha : Near val ε a p B k) :
    Near val ε ((A.cops half).left a) (exactOps.left p) B k := near_left H ha

theorem near_right' (H : Accurate A val ε) {a : R × R} {p : ℂ} {B : ℝ} {k : ℕ} (ha : Near val ε a p B k) :
    Near val ε ((A.cops half).right a) (exactOps.right p) B k := near_right H ha

/-- Applies the rules for the operations. -/
local macro "near" H:ident hh:ident hw:ident hy:ident : tactic =>
  `(tactic| repeat (first
    | with_reducible exact $hw:ident _
    | with_reducible exact $hy:ident _
    | with_reducible apply near_add' $H:ident
    | with_reducible apply near_sub' $H:ident
    | with_reducible apply near_mul' $H:ident
    | with_reducible apply near_conj' $H:ident
    | with_reducible apply near_left' $H:ident
    | with_reducible apply near_right' $H:ident
    | with_reducible apply near_diagPos $H:ident $hh:ident
    | with_reducible apply near_diagNeg $H:ident $hh:ident))

section
variable {w' : ℤ → R × R} {w : ℤ → ℂ} {y' : ℕ → R × R} {y : ℕ → ℂ} {b : ℕ → ℝ}

theorem clevel_near (H : Accurate A val ε) (hh : NearR val ε half sqrtHalf sqrtHalf 1)
    (hw : ∀ k, Near val ε (w' k) (w k) 1 1) (hy : ∀ i, Near val ε (y' i) (y i) (b i) 0) {r : ℕ}
    (hr : r = 1 ∨ r = 2 ∨ r = 3) (j : ℕ) {i : ℕ} (hi : i < 2 ^ r) :
    Near val ε (clevel (A.cops half) r w' j y' i) (clevel exactOps r w j y i) (∑ i ∈ range (2 ^ r), b i) 28 := by
  have hε := H.nonneg
  have hb : ∀ i, 0 ≤ b i := fun i => (norm_nonneg _).trans (hy i).1
  rcases hr with rfl | rfl | rfl
  · interval_cases i <;>
    · apply Near.mono hε
      · simp only [clevel, cs1]; near H hh hw hy
      · norm_num [sum_range_succ]
      · decide
  · interval_cases i <;>
    · apply Near.mono hε
      · simp only [clevel, cs2]; near H hh hw hy
      · norm_num [sum_range_succ]; linarith
      · decide
  · interval_cases i <;>
    · apply Near.mono hε
      · simp only [clevel, cs3]; near H hh hw hy
      · norm_num [sum_range_succ]; linarith
      · decide

theorem clevelT_near (H : Accurate A val ε) (hh : NearR val ε half sqrtHalf sqrtHalf 1)
    (hw : ∀ k, Near val ε (w' k) (w k) 1 1) (hy : ∀ i, Near val ε (y' i) (y i) (b i) 0) {r : ℕ}
    (hr : r = 1 ∨ r = 2 ∨ r = 3) (j : ℕ) {i : ℕ} (hi : i < 2 ^ r) :
    Near val ε (clevelT (A.cops half) r w' j y' i) (clevelT exactOps r w j y i) (∑ i ∈ range (2 ^ r), b i) 28 := by
  have hε := H.nonneg
  rcases hr with rfl | rfl | rfl
  · interval_cases i <;>
    · apply Near.mono hε
      · simp only [clevelT, cs1T]; near H hh hw hy
      · norm_num [sum_range_succ]
      · decide
  · interval_cases i <;>
    · apply Near.mono hε
      · simp only [clevelT, cs2T]; near H hh hw hy
      · norm_num [sum_range_succ]; linarith
      · decide
  · interval_cases i <;>
    · apply Near.mono hε
      · simp only [clevelT, cs3T]; near H hh hw hy
      · norm_num [sum_range_succ]; linarith
      · decide

theorem cfirst_near (H : Accurate A val ε) (hh : NearR val ε half sqrtHalf sqrtHalf 1)
    (hw : ∀ k, Near val ε (w' k) (w k) 1 6) (hy : ∀ i, Near val ε (y' i) (y i) (b i) 0) {r : ℕ}
    (hr : r = 1 ∨ r = 2 ∨ r = 3) (j nr m : ℕ) {i : ℕ} (hi : i < 2 ^ r / 2) :
    Near val ε (cfirst (A.cops half) r w' j nr m y' i) (cfirst exactOps r w j nr m y i) (∑ i ∈ range (2 ^ r / 2), b i)
      28 := by
  have hε := H.nonneg
  rcases hr with rfl | rfl | rfl <;> norm_num at hi
  · subst hi
    apply Near.mono hε
    · simp only [cfirst]; near H hh hw hy
    · norm_num [sum_range_succ]
    · decide
  · interval_cases i <;>
    · apply Near.mono hε
      · simp only [cfirst, cb1]; near H hh hw hy
      · norm_num [sum_range_succ]
      · decide
  · interval_cases i <;>
    · apply Near.mono hε
      · simp only [cfirst, cb1, cs1]; near H hh hw hy
      · norm_num [sum_range_succ]; linarith
      · decide

theorem cfirstT_near (H : Accurate A val ε) (hh : NearR val ε half sqrtHalf sqrtHalf 1)
    (hw : ∀ k, Near val ε (w' k) (w k) 1 6) (hy : ∀ i, Near val ε (y' i) (y i) (b i) 0) {r : ℕ}
    (hr : r = 1 ∨ r = 2 ∨ r = 3) (j nr m : ℕ) {i : ℕ} (hi : i < 2 ^ r / 2) :
    Near val ε (cfirstT (A.cops half) r w' j nr m y' i) (cfirstT exactOps r w j nr m y i) (∑ i ∈ range (2 ^ r / 2), b i)
      28 := by
  have hε := H.nonneg
  rcases hr with rfl | rfl | rfl <;> norm_num at hi
  · subst hi
    apply Near.mono hε
    · simp only [cfirstT]; near H hh hw hy
    · norm_num [sum_range_succ]
    · decide
  · interval_cases i <;>
    · apply Near.mono hε
      · simp only [cfirstT, cb1T]; near H hh hw hy
      · norm_num [sum_range_succ]
      · decide
  · interval_cases i <;>
    · apply Near.mono hε
      · simp only [cfirstT, cb1T, cs1T]; near H hh hw hy
      · norm_num [sum_range_succ]; linarith
      · decide

end

end Mandelbrot.FFT
