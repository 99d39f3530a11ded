import Verif.FFT.RoundedTextClose

/-!
# The bodies of the loops are accurate
-/

namespace Mandelbrot.FFT

open Complex Finset Spec

variable {R : Type} [Zero R] {A : Arith R} {T : Tables R} {val : R → ℝ} {ε : ℝ}

theorem norm_cis' (a : ℤ) (n : ℕ) : ‖cis a n‖ = 1 := norm_one_of_unit (by rw [conj_cis', inv_mul_cancel₀ (cis_ne_zero _ _)])

omit [Zero R] in
theorem near_table {t : R × R} {a : ℤ} {n : ℕ} (h : ‖cval val t - cis a n‖ ≤ ε) : Near val ε t (cis a n) 1 1 := by
  refine ⟨(norm_cis' a n).le, ?_⟩
  rw [pow_one, one_mul, add_sub_cancel_left]
  exact h

theorem near_bigTw (H : Accurate A val ε) (HT : AccurateTables T val ε) (p : ℕ) (j : ℤ) :
    Near val ε (bigTw A T p j) (root p j) 1 6 := by
  unfold bigTw
  by_cases h : p ≤ 2
  · rw [if_pos h]
    exact (near_table (HT.const j p)).mono H.nonneg le_rfl (by norm_num)
  · rw [if_neg h]
    have h1 := near_mul (half := T.half) H (near_table (HT.slice (p - 2) (j / 4)))
      (near_table (HT.few p (j % 4) (Int.emod_nonneg _ (by norm_num)) (Int.emod_lt_of_pos _ (by norm_num))))
    obtain ⟨t, rfl⟩ : ∃ t, p = t + 3 := ⟨p - 3, by omega⟩
    have e : cis (j / 4) (2 * 2 ^ (t + 3 - 2)) * cis (j % 4) (2 * 2 ^ (t + 3)) = root (t + 3) j := by
      obtain ⟨tw, h2, h3⟩ := bigSlice_eq (lim := ⊤) (s := t + 3) (by omega) (ENat.natCast_lt_top _)
      simp only [bigSlice, slowAssert_true (show t + 3 ≥ 2 by omega), bok, if_pos (ENat.natCast_lt_top (t + 3))] at h2
      injection h2 with h2
      rw [root, ← h3 j, ← h2, ← slice_eq]
      rfl
    rw [e, one_mul] at h1
    exact h1

theorem near_csqr (H : Accurate A val ε) (a : R × R) :
    Near val ε (A.csqr a) (cval val a * cval val a) (‖cval val a‖ * ‖cval val a‖) 4 := by
  have hε := H.nonneg
  refine ⟨(norm_mul _ _).le, ?_⟩
  have hN : ‖cval val a‖ * ‖cval val a‖ = |val a.1| * |val a.1| + |val a.2| * |val a.2| := by
    rw [← pow_two, Complex.sq_norm, normSq_apply, abs_mul_abs_self, abs_mul_abs_self]; rfl
  have hre : |val (A.csqr a).1 - (val a.1 * val a.1 - val a.2 * val a.2)| ≤
      ((1 + ε) ^ 2 - 1) * (‖cval val a‖ * ‖cval val a‖) := by
    have h := (show NearR val ε _ _ _ 2 from nearR_sub H (nearR_mul H (nearR_refl a.1) (nearR_refl a.1))
      (nearR_mul H (nearR_refl a.2) (nearR_refl a.2))).2
    rw [← hN] at h
    exact h.trans (le_of_eq (mul_comm _ _))
  have him : |val (A.csqr a).2 - (val a.1 * val a.2 + val a.2 * val a.1)| ≤
      ((1 + ε) ^ 2 - 1) * (‖cval val a‖ * ‖cval val a‖) := by
    have h := H.mul a.1 a.2
    have e : val (A.csqr a).2 - (val a.1 * val a.2 + val a.2 * val a.1) =
      2 * (val (A.mul a.1 a.2) - val a.1 * val a.2) := by
      rw [show (A.csqr a).2 = A.twice (A.mul a.1 a.2) from rfl, H.twice]; ring
    rw [e, abs_mul, abs_two, hN]
    have h1 : 0 ≤ |val a.1| * |val a.1| + |val a.2| * |val a.2| := by positivity
    have h2 : ε ≤ (1 + ε) ^ 2 - 1 := by nlinarith
    nlinarith [sq_nonneg (|val a.1| - |val a.2|), mul_le_mul_of_nonneg_right h2 h1]
  have h1 := Complex.norm_le_abs_re_add_abs_im (cval val (A.csqr a) - cval val a * cval val a)
  rw [Complex.sub_re, Complex.sub_im, Complex.mul_re, Complex.mul_im] at h1
  have h2 := h1.trans (add_le_add hre him)
  refine h2.trans ?_
  rw [← two_mul, ← mul_assoc, mul_comm]
  refine mul_le_mul_of_nonneg_left ?_ (by positivity)
  nlinarith [one_le_epow hε 2, sq_nonneg ((1 + ε) ^ 2 - 1)]

/-- Sums by halves. -/
theorem nearR_sum (H : Accurate A val ε) (a : ℕ) {ι : Type} (f : ι → R) (g b : ι → ℝ) :
    ∀ l : List ι, (∀ i ∈ l, NearR val ε (f i) (g i) (b i) a) →
      NearR val ε (A.sum (l.map f)) (l.map g).sum (l.map b).sum (a + l.length) := by
  have hε := H.nonneg
  intro l
  induction hn : l.length using Nat.strong_induction_on generalizing l with
  | _ n ih =>
    intro hl
    match l with
    | [] =>
      simp only [List.map_nil, List.sum_nil]
      rw [Arith.sum]
      exact ⟨by simp, by rw [H.zero]; simp⟩
    | [i] =>
      simp only [List.map_cons, List.map_nil, List.sum_cons, List.sum_nil, add_zero]
      rw [Arith.sum]
      exact (hl i (by simp)).mono hε le_rfl (by omega)
    | i :: j :: l =>
      simp only [List.length_cons] at hn
      have h1 := ih ((n) / 2) (by omega) ((i :: j :: l).take (n / 2)) (by simp; omega)
        fun i hi => hl i (List.mem_of_mem_take hi)
      have h2 := ih (n - n / 2) (by omega) ((i :: j :: l).drop (n / 2)) (by simp; omega)
        fun i hi => hl i (List.mem_of_mem_drop hi)
      have h3 := nearR_add H h1 h2
      have e : A.sum ((i :: j :: l).map f) = A.add (A.sum (((i :: j :: l).take (n / 2)).map f))
          (A.sum (((i :: j :: l).drop (n / 2)).map f)) := by
        rw [List.map_take, List.map_drop]
        simp only [List.map_cons]
        rw [Arith.sum.eq_def]
        simp only [List.length_map]
        rw [show l.length + 2 = n by omega]
      rw [e]
      rw [← List.sum_append, ← List.sum_append, ← List.map_append, ← List.map_append, List.take_append_drop] at h3
      refine h3.mono hε le_rfl ?_
      rcases le_total (a + n / 2) (a + (n - n / 2)) with hm | hm
      · rw [max_eq_right hm]; omega
      · rw [max_eq_left hm]; omega

theorem nearR_twice (H : Accurate A val ε) {a : R} {q B : ℝ} {k : ℕ} (h : NearR val ε a q B k) :
    NearR val ε (A.twice a) (2 * q) (2 * B) k := by
  refine ⟨by rw [abs_mul, abs_two]; linarith [h.1], ?_⟩
  rw [H.twice, ← mul_sub, abs_mul, abs_two, mul_assoc]
  linarith [h.2]

theorem list_sum_range (n : ℕ) (f : ℕ → ℝ) : ((List.range n).map f).sum = ∑ i ∈ range n, f i := by
  induction n with
  | zero => simp
  | succ n ih => rw [List.range_succ, List.map_append, List.sum_append, ih, sum_range_succ]; simp

/-- The bodies of the loops, in an arithmetic with relative error `ε`. -/
theorem text_within (H : Accurate A val ε) (HT : AccurateTables T val ε) (p : ℕ) :
    Within (textCodelets A T) val ((1 + ε) ^ 28 - 1) p := by
  have hε := H.nonneg
  have hh := near_half HT.half
  have hsl : ∀ s j, Near val ε (T.slice s j) (slice s j) 1 1 := fun s j => by
    rw [slice_eq]; exact near_table (HT.slice s j)
  have hr : 1 ≤ p → firstRadix p = 1 ∨ firstRadix p = 2 ∨ firstRadix p = 3 := fun h => by unfold firstRadix; omega
  have hprod : ∀ x y : R, NearR val ε (A.mul x y) (val x * val y) (|val x| * |val y|) 1 := fun x y =>
    nearR_mul H (nearR_refl x) (nearR_refl y)
  refine { nonneg := by linarith [one_le_epow hε 28], zero := H.zero, first := ?_, level := ?_, level_local := ?_,
           mulc := ?_, sqrc := ?_, ilevel := ?_, ilevel_local := ?_, last := ?_, mulBase := ?_, sqrBase := ?_, add := ?_ }
  · intro j _ xs i hi
    have hp : 1 ≤ p := by
      by_contra hp
      rw [show p = 0 by omega] at hi
      simp [firstRadix] at hi
    have hy : ∀ i, Near val ε (xs i, A.neg (xs (i + 2 ^ firstRadix p / 2)))
        (⟨val (xs i), -val (xs (i + 2 ^ firstRadix p / 2))⟩ : ℂ) (|val (xs i)| + |val (xs (i + 2 ^ firstRadix p / 2))|) 0 := by
      intro i
      refine ⟨?_, ?_⟩
      · refine (Complex.norm_le_abs_re_add_abs_im _).trans ?_
        simp
      · have : cval val (xs i, A.neg (xs (i + 2 ^ firstRadix p / 2))) =
          (⟨val (xs i), -val (xs (i + 2 ^ firstRadix p / 2))⟩ : ℂ) := Complex.ext rfl (H.neg _)
        rw [this]; simp
    have h := cfirst_near H hh (near_bigTw H HT p) hy (hr hp) j (2 ^ (p - firstRadix p)) (1 <<< (p - 3)) hi
    have e := cfirst_exact (hr hp) (root p) j (2 ^ (p - firstRadix p)) (1 <<< (p - 3)) (fun i => val (xs i)) hi
    rw [← e]
    refine h.2.trans (le_of_eq ?_)
    rw [mul_comm, sum_add_distrib]
    congr 1
    have h2 : 2 ^ firstRadix p = 2 ^ firstRadix p / 2 + 2 ^ firstRadix p / 2 := by
      rcases hr hp with h | h | h <;> norm_num [h]
    conv_rhs => rw [h2]
    rw [sum_range_add]
    congr 1
    exact sum_congr rfl fun i _ => by rw [add_comm]
  · intro r hr s _ j _ ys i hi
    have h := clevel_near H hh (hsl (s + r - 1)) (fun i => near_refl (val := val) (ε := ε) (ys i)) hr j hi
    rw [clevel_exact hr _ _ _ hi] at h
    refine h.2.trans (le_of_eq ?_)
    rw [mul_comm]
  · rintro r (rfl | rfl | rfl) s j ys ys' h i hi
    · simp only [textCodelets, clevel, h 0 (by norm_num), h 1 (by norm_num)]
    · simp only [textCodelets, clevel, cs2, h 0 (by norm_num), h 1 (by norm_num), h 2 (by norm_num), h 3 (by norm_num)]
    · simp only [textCodelets, clevel, cs3, h 0 (by norm_num), h 1 (by norm_num), h 2 (by norm_num), h 3 (by norm_num),
        h 4 (by norm_num), h 5 (by norm_num), h 6 (by norm_num), h 7 (by norm_num)]
  · intro a b
    have hi : NearR val ε (T.inv (2 ^ (p - 1))) (1 / 2 ^ (p - 1)) (1 / 2 ^ (p - 1)) 1 := by
      refine ⟨by rw [abs_of_nonneg (by positivity)], ?_⟩
      rw [pow_one, add_sub_cancel_left, mul_comm]
      exact HT.inv (p - 1)
    have h := (near_mul (half := T.half) H (near_scale H hi (near_refl (val := val) (ε := ε) a))
      (near_refl (val := val) (ε := ε) b)).mono hε le_rfl (show _ ≤ 28 by norm_num)
    have e : ((1 / 2 ^ (p - 1) : ℝ) : ℂ) * cval val a * cval val b = cval val a * cval val b / 2 ^ (p - 1) := by
      push_cast; ring
    rw [e] at h
    refine h.2.trans (le_of_eq ?_)
    ring
  · intro a
    have hi : NearR val ε (T.inv (2 ^ (p - 1))) (1 / 2 ^ (p - 1)) (1 / 2 ^ (p - 1)) 1 := by
      refine ⟨by rw [abs_of_nonneg (by positivity)], ?_⟩
      rw [pow_one, add_sub_cancel_left, mul_comm]
      exact HT.inv (p - 1)
    have h := (near_scale H hi (near_csqr H a)).mono hε le_rfl (show _ ≤ 28 by norm_num)
    have e : ((1 / 2 ^ (p - 1) : ℝ) : ℂ) * (cval val a * cval val a) = cval val a * cval val a / 2 ^ (p - 1) := by
      push_cast; ring
    rw [e] at h
    refine h.2.trans (le_of_eq ?_)
    ring
  · intro r hr s _ j _ ys i hi
    have h := clevelT_near H hh (hsl (s + r - 1)) (fun i => near_refl (val := val) (ε := ε) (ys i)) hr j hi
    rw [clevelT_exact hr _ _ _ hi] at h
    refine h.2.trans (le_of_eq ?_)
    rw [mul_comm]
  · rintro r (rfl | rfl | rfl) s j ys ys' h i hi
    · simp only [textCodelets, clevelT, h 0 (by norm_num), h 1 (by norm_num)]
    · simp only [textCodelets, clevelT, cs2T, h 0 (by norm_num), h 1 (by norm_num), h 2 (by norm_num), h 3 (by norm_num)]
    · simp only [textCodelets, clevelT, cs3T, h 0 (by norm_num), h 1 (by norm_num), h 2 (by norm_num), h 3 (by norm_num),
        h 4 (by norm_num), h 5 (by norm_num), h 6 (by norm_num), h 7 (by norm_num)]
  · intro hp j _ ys i hi
    have h := fun i hi => cfirstT_near H hh (near_bigTw H HT p) (fun i => near_refl (val := val) (ε := ε) (ys i)) (hr hp) j
      (2 ^ (p - firstRadix p)) (1 <<< (p - 3)) (i := i) hi
    have e := cfirstT_exact (hr hp) (root p) j (2 ^ (p - firstRadix p)) (1 <<< (p - 3)) (fun i => cval val (ys i)) hi
    rw [← e]
    simp only [textCodelets]
    by_cases hi2 : i < 2 ^ firstRadix p / 2
    · rw [if_pos hi2, if_pos hi2, mul_comm]
      refine (Complex.abs_re_le_norm _).trans (h i hi2).2
    · have hi3 : i - 2 ^ firstRadix p / 2 < 2 ^ firstRadix p / 2 := by
        have h2 : 2 ^ firstRadix p = 2 ^ firstRadix p / 2 + 2 ^ firstRadix p / 2 := by
          rcases hr hp with h | h | h <;> norm_num [h]
        omega
      rw [if_neg hi2, if_neg hi2, mul_comm, H.neg, neg_sub_neg, abs_sub_comm]
      exact (Complex.abs_im_le_norm _).trans (h _ hi3).2
  · intro n hn x y k hk
    have h := nearR_sum H 1 (fun j => A.mul (x.getZ j) (y.getZ (k - j))) (fun j => val (x.getZ j) * val (y.getZ (k - j)))
      (fun j => |val (x.getZ j)| * |val (y.getZ (k - j))|) (List.range (k + 1)) (fun j _ => hprod _ _)
    rw [list_sum_range, list_sum_range, List.length_range] at h
    refine (h.mono hε le_rfl (show _ ≤ 28 by omega)).2.trans (le_of_eq (mul_comm _ _))
  · intro n hn x k hk
    have h := nearR_twice H (nearR_sum H 1 (fun j => A.mul (x.getZ j) (x.getZ (k - j)))
      (fun j => val (x.getZ j) * val (x.getZ (k - j)))
      (fun j => |val (x.getZ j)| * |val (x.getZ (k - j))|) (List.range ((k + 1) / 2)) (fun j _ => hprod _ _))
    rw [list_sum_range, list_sum_range, List.length_range] at h
    have hk8 : k < 8 := by omega
    have e : ∀ v : ℕ → ℝ, ∑ j ∈ range (k + 1), v j * v (k - j) =
        if k % 2 = 0 then 2 * ∑ j ∈ range ((k + 1) / 2), v j * v (k - j) + v (k / 2) * v (k / 2)
        else 2 * ∑ j ∈ range ((k + 1) / 2), v j * v (k - j) := by
      intro v
      interval_cases k <;> simp [sum_range_succ] <;> ring
    have e1 := e fun j => val (x.getZ j)
    have e2 := e fun j => |val (x.getZ j)|
    simp only [textCodelets]
    rw [e1, e2]
    by_cases h2 : k % 2 = 0
    · rw [if_pos h2, if_pos h2, if_pos h2]
      have h3 := nearR_add H h (hprod (x.getZ (k / 2)) (x.getZ (k / 2)))
      refine (h3.mono hε le_rfl (show _ ≤ 28 by omega)).2.trans (le_of_eq (mul_comm _ _))
    · rw [if_neg h2, if_neg h2, if_neg h2]
      refine (h.mono hε le_rfl (show _ ≤ 28 by omega)).2.trans (le_of_eq (mul_comm _ _))
  · intro a b
    have h := ((nearR_add H (nearR_refl a) (nearR_refl b)).mono hε le_rfl (show _ ≤ 28 by norm_num)).2
    rw [mul_comm] at h
    exact h

/-- The growth of errors as a power of `1 + ε`. -/
theorem grow_le (hε : 0 ≤ ε) (p : ℕ) : grow ((1 + ε) ^ 28 - 1) p ≤ (1 + ε) ^ (196 * passes p + 28) := by
  have h1 := one_le_epow hε 28
  have h2 : 1 + 3 * ((1 + ε) ^ 28 - 1) ≤ (1 + ε) ^ 84 := by
    have e : (1 + ε) ^ 84 = ((1 + ε) ^ 28) ^ 3 := by rw [← pow_mul]
    rw [e]
    set X := (1 + ε) ^ 28
    nlinarith [mul_nonneg (mul_self_nonneg (X - 1)) (show 0 ≤ X + 2 by linarith)]
  have h3 : (1 : ℝ) + ((1 + ε) ^ 28 - 1) = (1 + ε) ^ 28 := by ring
  unfold grow
  rw [h3]
  calc _ ≤ ((1 + ε) ^ 84) ^ (2 * passes p) * ((1 + ε) ^ 28) ^ (passes p + 1) := by
        gcongr
    _ = _ := by rw [← pow_mul, ← pow_mul, ← pow_add]; congr 1; ring

end Mandelbrot.FFT
