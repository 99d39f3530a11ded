import Verif.FFT.RoundedPass
import Verif.Spec.Rounding
import Mathlib.Algebra.Order.Chebyshev

/-!
# The forward transform and the pointwise product with rounding
-/

namespace Mandelbrot.FFT

open Complex Finset Mandelbrot.Spec

local notation "conj" => starRingEnd ℂ

variable {R : Type} [Zero R] {K : Codelets R} {val : R → ℝ} {κ : ℝ} {p : ℕ}

/-! ## Bounds by sums and by Euclidean norms -/

theorem sum_sq_le {n m : ℕ} (hn : n ≤ 8) {e : ℕ → ℝ} {a : ℕ → ℝ} (he : ∀ i < m, 0 ≤ e i)
    (h : ∀ i < m, e i ≤ κ * ∑ i ∈ range n, a i) :
    ∑ i ∈ range m, e i ^ 2 ≤ (3 * κ) ^ 2 * m * ∑ i ∈ range n, a i ^ 2 := by
  have h1 : (∑ i ∈ range n, a i) ^ 2 ≤ n * ∑ i ∈ range n, a i ^ 2 := by
    simpa using sq_sum_le_card_mul_sum_sq (s := range n) (f := a)
  have h2 : 0 ≤ ∑ i ∈ range n, a i ^ 2 := sum_nonneg fun _ _ => by positivity
  have h3 : (n : ℝ) ≤ 9 := by exact_mod_cast (by omega : n ≤ 9)
  calc ∑ i ∈ range m, e i ^ 2 ≤ ∑ _i ∈ range m, κ ^ 2 * (9 * ∑ i ∈ range n, a i ^ 2) := by
        refine sum_le_sum fun i hi => ?_
        have hi := mem_range.1 hi
        calc e i ^ 2 ≤ (κ * ∑ i ∈ range n, a i) ^ 2 := pow_le_pow_left₀ (he i hi) (h i hi) 2
          _ = κ ^ 2 * (∑ i ∈ range n, a i) ^ 2 := by ring
          _ ≤ _ := by
            refine mul_le_mul_of_nonneg_left (h1.trans ?_) (by positivity)
            exact mul_le_mul_of_nonneg_right h3 h2
    _ = _ := by rw [sum_const, card_range, nsmul_eq_mul]; ring

/-! ## The first pass -/

/-- The first pass in exact arithmetic. -/
noncomputable def fst (p : ℕ) (x : ℕ → ℝ) : ℕ → ℂ :=
  if p = 1 then b0 1 x
  else if p = 2 then b1W 1 (facA 2) (facB 2) (b0 2 x)
  else lev (p - 3) (b1W (2 ^ (p - 2)) (facA p) (facB p) (b0 (2 ^ (p - 1)) x))

theorem fwd_eq_fst (hp : 1 ≤ p) (x : ℕ → ℝ) : fwd p x = levsDown (p - 3) (fst p x) := by
  unfold fwd fst
  by_cases h1 : p = 1
  · subst h1; rfl
  · rw [if_neg h1, if_neg h1]
    by_cases h2 : p = 2
    · subst h2; rfl
    · rw [if_neg h2, show p - 2 = p - 3 + 1 by omega]; rfl

theorem norm_facA (p k : ℕ) : ‖facA p k‖ = 1 := norm_one_of_unit (facA_unit p k)

theorem norm_facB (p k : ℕ) : ‖facB p k‖ = 1 := norm_one_of_unit (facB_unit p k)

theorem nrm_fst (hp : 1 ≤ p) (x : ℕ → ℝ) :
    nrm (2 ^ (p - 1)) (fst p x) = Real.sqrt (2 ^ (firstRadix p - 1)) * nrm (2 ^ p) x := by
  unfold fst firstRadix
  by_cases h1 : p = 1
  · subst h1
    have := nrm_b0 (N := 1) x
    simpa using this
  · rw [if_neg h1]
    by_cases h2 : p = 2
    · subst h2
      have := nrm_b1W (M := 1) (norm_facA 2) (norm_facB 2) (b0 2 x)
      have h0 := nrm_b0 (N := 2) x
      norm_num at *
      rw [this, h0]
    · rw [if_neg h2]
      have e1 : 2 ^ (p - 1) = 2 * 2 ^ (p - 2) := by rw [← pow_succ', show p - 2 + 1 = p - 1 by omega]
      have e0 : 2 ^ p = 2 * 2 ^ (p - 1) := by rw [← pow_succ', show p - 1 + 1 = p by omega]
      rw [nrm_lev (by rw [← pow_succ']; exact pow_dvd_pow 2 (by omega)), e1, nrm_b1W (norm_facA p) (norm_facB p), ← e1,
        nrm_b0, ← e0, show min p 3 - 1 = 2 by omega, ← mul_assoc, pow_two, Real.sqrt_mul (by norm_num)]

theorem firstLevels_small {r : ℕ} (hr : r = 1 ∨ r = 2) (j nr m m' : ℕ) (tw : ℤ → ℂ) (x : ℕ → ℝ) :
    firstLevels r j nr m tw x = firstLevels r j nr m' tw x := by
  rcases hr with rfl | rfl <;> rfl

/-- The first pass of the exact program. -/
theorem srfftFirst_fst (hp : 1 ≤ p) (y : ℕ → ℂ) (x : Span ℝ) :
    EqOn (2 ^ (p - 1)) (srfftFirst (firstRadix p) (2 ^ (p - firstRadix p)) (1 <<< (p - 3)) (root p) y x)
      (fst p x.getZ) := by
  unfold fst firstRadix
  by_cases h3 : 3 ≤ p
  · rw [if_neg (by omega), if_neg (by omega), show min p 3 = 3 by omega]
    exact fwd_first h3 (fun k => rfl) y x
  · obtain rfl | rfl : p = 1 ∨ p = 2 := by omega
    · intro k hk
      have hk0 : k = 0 := by simpa using hk
      subst hk0
      have := srfftFirst_at 1 1 (1 <<< 0) (root 1) y x (i := 0) (j := 0) (by norm_num) (by norm_num)
      rw [firstLevels1_eq _ _ _ _ _ (by norm_num)] at this
      rw [if_pos rfl]
      simpa [b0] using this
    · intro k hk
      have hk2 : k < 2 := by simpa using hk
      have := srfftFirst_at 2 1 (1 <<< 0) (root 2) y x (i := k) (j := 0) (by simpa using hk2) (by norm_num)
      rw [firstLevels2_eq _ _ _ _ _ hk2] at this
      rw [if_neg (by norm_num), if_pos rfl]
      simp only [zero_add, mul_one] at this
      refine Eq.trans this ?_
      interval_cases k <;> simp [b1W, b1A, b1B, facA, facB, root, b0]

/-- The span of the values. -/
def valSpan (val : R → ℝ) (x : Span R) : Span ℝ := ⟨x.len, fun i => val (x.get i)⟩

theorem valSpan_getZ (h0 : val 0 = 0) (x : Span R) (i : ℕ) : (valSpan val x).getZ i = val (x.getZ i) := by
  rw [getZ_map val h0]; rfl

/-- Close to `y`, which is at most `M` long: the relative error is `g - 1`. -/
def Close (N : ℕ) (g M : ℝ) (y' y : ℕ → ℂ) : Prop := nrm N (fun k => y' k - y k) ≤ (g - 1) * M ∧ nrm N y ≤ M

theorem Close.nrm_le {N : ℕ} {g M : ℝ} {y' y : ℕ → ℂ} (h : Close N g M y' y) : nrm N y' ≤ g * M := by
  have := nrm_le_add (N := N) y' y
  have h1 := h.1
  have h2 := h.2
  linarith

theorem firstLoop_close (W : Within K val κ p) (hp : 1 ≤ p) (y : ℕ → R × R) (x : Span R) :
    Close (2 ^ (p - 1)) (1 + 3 * κ) (Real.sqrt (2 ^ (firstRadix p - 1)) * nrm (2 ^ p) (valSpan val x).getZ)
      (fun k => cval val (firstLoop (2 ^ firstRadix p / 2) (2 ^ (p - firstRadix p)) (K.first p) y x k))
      (fst p (valSpan val x).getZ) := by
  refine ⟨?_, le_of_eq (nrm_fst hp _)⟩
  have hr : 1 ≤ firstRadix p ∧ firstRadix p ≤ 3 ∧ firstRadix p ≤ p := by unfold firstRadix; omega
  have hex := srfftFirst_fst hp (fun _ => 0) (valSpan val x)
  generalize hrr : firstRadix p = r at *
  have ho : 2 ^ r / 2 = 2 ^ (r - 1) := pow_div (a := 1) hr.1
  have hN : 2 ^ (p - r) * 2 ^ (r - 1) = 2 ^ (p - 1) := by rw [← pow_add]; congr 1; omega
  have hN2 : 2 ^ (p - r) * 2 ^ r = 2 ^ p := by rw [← pow_add]; congr 1; omega
  rw [← mul_assoc]
  refine nrm_le_mul (by have := W.nonneg; nlinarith [Real.sqrt_nonneg (2 ^ (r - 1) : ℝ)]) ?_
  rw [mul_pow, Real.sq_sqrt (by positivity), ← hN, ← hN2, sum_strided, sum_strided, mul_sum]
  refine sum_le_sum fun j hj => ?_
  have hj := mem_range.1 hj
  have hfirst := W.first j (by rw [hrr]; exact hj) (fun i => x.getZ (j + i * 2 ^ (p - r)))
  rw [hrr] at hfirst
  have hn8 : 2 ^ r ≤ 8 := by
    calc 2 ^ r ≤ 2 ^ 3 := Nat.pow_le_pow_right (by norm_num) hr.2.1
      _ = 8 := by norm_num
  have key := sum_sq_le (m := 2 ^ (r - 1)) hn8 (fun i _ => norm_nonneg _)
    (fun i hi => hfirst i (by rw [ho]; exact hi))
  refine le_trans (le_of_eq (sum_congr rfl fun i hi => ?_)) (key.trans (le_of_eq ?_))
  · have hi := mem_range.1 hi
    have hi2 : i < 2 ^ r / 2 := by rw [ho]; exact hi
    simp only []
    rw [firstLoop_at _ _ _ _ _ hi2 hj]
    have hlt : j + i * 2 ^ (p - r) < 2 ^ (p - 1) := by
      have : (i + 1) * 2 ^ (p - r) ≤ 2 ^ (r - 1) * 2 ^ (p - r) := Nat.mul_le_mul_right _ hi
      rw [Nat.mul_comm (2 ^ (r - 1)), hN, Nat.add_mul, one_mul] at this
      omega
    rw [← hex _ hlt, srfftFirst_at _ _ _ _ _ _ hi2 hj]
    simp only [valSpan_getZ W.zero]
  · push_cast
    simp only [valSpan_getZ W.zero, Real.norm_eq_abs]
    ring_nf

/-! ## The other passes -/

/-- Linear and of constant scale. -/
structure Scales (N : ℕ) (c : ℝ) (T : (ℕ → ℂ) → ℕ → ℂ) : Prop where
  scale : ∀ y, nrm N (T y) = c * nrm N y
  sub : ∀ y y' i, T y i - T y' i = T (fun k => y k - y' k) i

theorem Scales.comp {N : ℕ} {c c' : ℝ} {T T' : (ℕ → ℂ) → ℕ → ℂ} (h : Scales N c T) (h' : Scales N c' T') :
    Scales N (c' * c) fun y => T' (T y) where
  scale y := by rw [h'.scale, h.scale, mul_assoc]
  sub y y' i := by
    rw [h'.sub]
    congr 1
    funext k
    exact h.sub y y' k

theorem scales_lev {s N : ℕ} (hN : 2 * 2 ^ s ∣ N) : Scales N (Real.sqrt 2) (lev s) :=
  ⟨nrm_lev hN, fun y y' i => levW_sub s _ y y' i⟩

/-- A pass with rounding keeps the result close. -/
theorem Close.pass {N : ℕ} {g M c : ℝ} {κ : ℝ} (hκ : 0 ≤ κ) (hc : 0 ≤ c) {T : (ℕ → ℂ) → ℕ → ℂ} (hT : Scales N c T)
    {y' y z : ℕ → ℂ} (h : Close N g M y' y) (hz : nrm N (fun k => z k - T y' k) ≤ κ * c * nrm N y') :
    Close N (g * (1 + κ)) (c * M) z (T y) := by
  refine ⟨?_, by rw [hT.scale]; exact mul_le_mul_of_nonneg_left h.2 hc⟩
  have h1 := nrm_sub_le (N := N) z (T y') (T y)
  have h2 : nrm N (fun k => T y' k - T y k) = c * nrm N (fun k => y' k - y k) := by
    rw [← hT.scale]
    congr 1
    funext k
    exact hT.sub y' y k
  have h3 : κ * c * nrm N y' ≤ κ * c * (g * M) := mul_le_mul_of_nonneg_left h.nrm_le (by positivity)
  have h4 : c * nrm N (fun k => y' k - y k) ≤ c * ((g - 1) * M) := mul_le_mul_of_nonneg_left h.1 hc
  rw [h2] at h1
  nlinarith

theorem level_pass (W : Within K val κ p) {r s cnt : ℕ} (hr : r = 1 ∨ r = 2 ∨ r = 3) (hs : s + r ≤ p - 3)
    (hd : 2 ^ s ∣ cnt) (y : ℕ → R × R) :
    nrm (cnt * 2 ^ r) (fun k => cval val (levelLoop r cnt s (K.level r s) y k) -
        srfftLevels r cnt (fun k => cval val (y k)) (slice (s + r - 1)) s k) ≤
      3 * κ * Real.sqrt (2 ^ r) * nrm (cnt * 2 ^ r) fun k => cval val (y k) := by
  refine levelLoop_err hd (by have := W.nonneg; positivity) (cval val) _
    (fun j => butterflyR r j (slice (s + r - 1))) (fun j v v' h => W.level_local r hr s j v v' h)
    (fun j v v' h i _ => butterflyR_congr hr _ _ h i) (fun j hj ys => ?_) y
  have hn8 : 2 ^ r ≤ 8 := by rcases hr with rfl | rfl | rfl <;> norm_num
  have := sum_sq_le (m := 2 ^ r) hn8 (fun i _ => norm_nonneg _) (W.level r hr s hs j hj ys)
  push_cast at this
  exact this

theorem srfftLoopK_close (W : Within K val κ p) (hp : 3 ≤ p) {d : ℕ} (hd : d ≤ p - 3) {g M : ℝ} {y : ℕ → ℂ}
    {y' : ℕ → R × R} (h : Close (2 ^ (p - 1)) g M (fun k => cval val (y' k)) y) :
    Close (2 ^ (p - 1)) (g * (1 + 3 * κ) ^ ((d + 2) / 3)) (Real.sqrt (2 ^ d) * M)
      (fun k => cval val (srfftLoopK K (2 ^ p) d y' k)) (levsDown d y) := by
  have hκ := W.nonneg
  have hdvd : ∀ s < p - 1, 2 * 2 ^ s ∣ 2 ^ (p - 1) := fun s hs => by
    rw [← pow_succ']; exact pow_dvd_pow 2 (by omega)
  induction d using Nat.strong_induction_on generalizing y y' g M with
  | _ d ih =>
    match d, hd, ih with
    | 0, _, _ => simpa [srfftLoopK, levsDown] using h
    | 1, hd, _ =>
      have h4 : 2 ^ p / 4 = 2 ^ (p - 2) := pow_div (a := 2) (by omega)
      have he := level_pass W (r := 1) (s := 0) (cnt := 2 ^ (p - 2)) (by simp) (by omega) (by simp) y'
      have hx := srfftLevels1_eq (s := 0) (cnt := 2 ^ (p - 2)) (by simp) (fun k => cval val (y' k))
      rw [← pow_add, show p - 2 + 1 = p - 1 by omega] at he
      rw [← pow_succ, show p - 2 + 1 = p - 1 by omega] at hx
      rw [srfftLoopK, h4]
      have hc := h.pass (κ := 3 * κ) (by positivity) (Real.sqrt_nonneg _) (scales_lev (hdvd 0 (by omega)))
        (z := fun k => cval val (levelLoop 1 (2 ^ (p - 2)) 0 (K.level 1 0) y' k)) (by
          refine le_trans (le_of_eq (nrm_congr fun k hk => ?_)) (by simpa using he)
          rw [← hx k hk])
      simpa [levsDown] using hc
    | 2, hd, _ =>
      have h8 : 2 ^ p / 8 = 2 ^ (p - 3) := pow_div (a := 3) (by omega)
      have he := level_pass W (r := 2) (s := 0) (cnt := 2 ^ (p - 3)) (by simp) (by omega) (by simp) y'
      have hx := srfftLevels2_eq (s := 0) (cnt := 2 ^ (p - 3)) (by simp) (fun k => cval val (y' k))
      rw [← pow_add, show p - 3 + 2 = p - 1 by omega] at he
      rw [show (4 : ℕ) = 2 ^ 2 by norm_num, ← pow_add, show p - 3 + 2 = p - 1 by omega] at hx
      rw [srfftLoopK, h8]
      have hsc := (scales_lev (hdvd 1 (by omega))).comp (scales_lev (hdvd 0 (by omega)))
      rw [← Real.sqrt_mul (by norm_num), ← pow_two] at hsc
      have hc := h.pass (κ := 3 * κ) (by positivity) (Real.sqrt_nonneg _) hsc
        (z := fun k => cval val (levelLoop 2 (2 ^ (p - 3)) 0 (K.level 2 0) y' k)) (by
          refine le_trans (le_of_eq (nrm_congr fun k hk => ?_)) he
          rw [← hx k hk])
      simpa [levsDown] using hc
    | s + 3, hd, ih =>
      have h16 : 2 ^ p / 16 = 2 ^ (p - 4) := pow_div (a := 4) (by omega)
      have hds : 2 ^ s ∣ 2 ^ (p - 4) := pow_dvd_pow 2 (by omega)
      have he := level_pass W (r := 3) (s := s) (cnt := 2 ^ (p - 4)) (by simp) (by omega) hds y'
      have hx := srfftLevels3_eq (s := s) (cnt := 2 ^ (p - 4)) hds (fun k => cval val (y' k))
      rw [← pow_add, show p - 4 + 3 = p - 1 by omega] at he
      rw [show (8 : ℕ) = 2 ^ 3 by norm_num, ← pow_add, show p - 4 + 3 = p - 1 by omega] at hx
      rw [srfftLoopK, h16]
      have hsc := ((scales_lev (hdvd (s + 2) (by omega))).comp (scales_lev (hdvd (s + 1) (by omega)))).comp
        (scales_lev (hdvd s (by omega)))
      rw [show Real.sqrt 2 * (Real.sqrt 2 * Real.sqrt 2) = Real.sqrt (2 ^ 3) by
        rw [pow_succ, Real.sqrt_mul (by positivity), pow_two, Real.sqrt_mul (by norm_num)]; ring] at hsc
      have hc := h.pass (κ := 3 * κ) (by positivity) (Real.sqrt_nonneg _) hsc
        (z := fun k => cval val (levelLoop 3 (2 ^ (p - 4)) s (K.level 3 s) y' k)) (by
          refine le_trans (le_of_eq (nrm_congr fun k hk => ?_)) he
          rw [← hx k hk]; rfl)
      have := ih s (by omega) (by omega) hc
      rw [show (s + 3 + 2) / 3 = (s + 2) / 3 + 1 by omega, pow_succ', ← mul_assoc, pow_add, Real.sqrt_mul (by positivity),
        mul_assoc (Real.sqrt (2 ^ s))]
      exact this

/-- The forward transform with rounding. -/
theorem srfftScrambleK_close {lim : ℕ∞} (W : Within K val κ p) (hp : 1 ≤ p) (hlim : p ≤ 2 ∨ (p : ℕ∞) < lim)
    (y : ℕ → R × R) {x : Span R} (hx : x.len ≤ 2 ^ p) :
    ∃ y', srfftScrambleK K lim (2 ^ (p - 1)) y x = .ok y' ∧
      Close (2 ^ (p - 1)) ((1 + 3 * κ) ^ passes p) (Real.sqrt (2 ^ (p - 1)) * nrm (2 ^ p) (valSpan val x).getZ)
        (fun k => cval val (y' k)) (fwd p (valSpan val x).getZ) := by
  have hn : 2 * 2 ^ (p - 1) = 2 ^ p := by rw [← pow_succ', Nat.sub_add_cancel hp]
  have hn0 : 2 ^ p ≠ 0 := by positivity
  have hc := firstLoop_close W hp y x
  rw [fwd_eq_fst hp]
  by_cases h3 : 3 ≤ p
  · obtain ⟨tw, htw, -⟩ := bigSlice_eq (lim := lim) (s := p) (by omega) (hlim.resolve_left (by omega))
    have h8 : 2 ^ p / 8 = 2 ^ (p - 3) := pow_div (a := 3) (by omega)
    have hr : firstRadix p = 3 := by unfold firstRadix; omega
    rw [hr, show (2 : ℕ) ^ 3 / 2 = 4 by norm_num] at hc
    have hl := srfftLoopK_close W h3 le_rfl hc
    refine ⟨srfftLoopK K (2 ^ p) (p - 3) (firstLoop 4 (2 ^ (p - 3)) (K.first p) y x), ?_, ?_⟩
    rotate_left
    · rw [← pow_succ', ← mul_assoc, ← Real.sqrt_mul (by positivity), ← pow_add, show p - 3 + (3 - 1) = p - 1 by omega] at hl
      rw [passes, show p - 3 + 2 = p - 1 by omega]
      exact hl
    · simp only [srfftScrambleK, hn, if_neg hn0, countrZero64_pow]
      rw [slowAssert_true ⟨trivial, hx⟩, bok]
      obtain ⟨q, rfl⟩ := Nat.exists_eq_add_of_le' h3
      simp only [htw, bok, pok, h8]
  · obtain rfl | rfl : p = 1 ∨ p = 2 := by omega
    · refine ⟨firstLoop 1 1 (K.first 1) y x, ?_, ?_⟩
      · simp only [srfftScrambleK, hn, if_neg hn0, countrZero64_pow]
        rw [slowAssert_true ⟨trivial, hx⟩]
        rfl
      · simpa [firstRadix, passes, levsDown] using hc
    · refine ⟨firstLoop 2 1 (K.first 2) y x, ?_, ?_⟩
      · simp only [srfftScrambleK, hn, if_neg hn0, countrZero64_pow]
        rw [slowAssert_true ⟨trivial, hx⟩]
        rfl
      · simpa [firstRadix, passes, levsDown] using hc

/-! ## The pointwise product -/

omit [Zero R] in
theorem mulCwiseK_at (n : ℕ) (fx fy : ℕ → R × R) (k : ℕ) :
    mulCwiseK K n fx fy k = if k < n then K.mulc n (fx k) (fy k) else fx k := by
  rw [mulCwiseK, forLoop_own n _ id]
  · simp
  · intro i _ y k hk
    rw [Function.update_of_ne (by simpa using hk)]
  · rintro i _ y y' h k rfl
    simp [h k rfl]

omit [Zero R] in
theorem sqrCwiseK_at (n : ℕ) (fx : ℕ → R × R) (k : ℕ) :
    sqrCwiseK K n fx k = if k < n then K.sqrc n (fx k) else fx k := by
  rw [sqrCwiseK, forLoop_own n _ id]
  · simp
  · intro i _ y k hk
    rw [Function.update_of_ne (by simpa using hk)]
  · rintro i _ y y' h k rfl
    simp [h k rfl]

theorem sum_mul_le_nrm (N : ℕ) (a b : ℕ → ℂ) : ∑ k ∈ range N, ‖a k‖ * ‖b k‖ ≤ nrm N a * nrm N b :=
  Real.sum_mul_le_sqrt_mul_sqrt _ _ _

/-- Sum of the errors of the pointwise product. -/
theorem product_err {N : ℕ} {g A B κ : ℝ} (hκ : 0 ≤ κ) (hA : 0 ≤ A) (hg : 1 ≤ g) {a' a b' b c : ℕ → ℂ} {n : ℝ}
    (hn : 0 < n)
    (ha : Close N g A a' a) (hb : Close N g B b' b)
    (hc : ∀ k < N, ‖c k - a' k * b' k / n‖ ≤ κ * (‖a' k‖ * ‖b' k‖ / n)) :
    ∑ k ∈ range N, ‖c k - a k * b k / n‖ ≤ (g ^ 2 * (1 + κ) - 1) * (A * B / n) ∧
      ∑ k ∈ range N, ‖a k * b k / n‖ ≤ A * B / n := by
  have nn : ∀ z : ℂ, ‖z / (n : ℂ)‖ = ‖z‖ / n := fun z => by rw [norm_div, Complex.norm_real, Real.norm_of_nonneg hn.le]
  refine ⟨?_, ?_⟩
  · have h1 : ∀ k ∈ range N, ‖c k - a k * b k / n‖ ≤
        (κ * (‖a' k‖ * ‖b' k‖) + ‖a' k - a k‖ * ‖b' k‖ + ‖a k‖ * ‖b' k - b k‖) / n := by
      intro k hk
      have e : c k - a k * b k / n = (c k - a' k * b' k / n) + (a' k - a k) * b' k / n + a k * (b' k - b k) / n := by ring
      rw [e]
      refine (norm_add_le _ _).trans ?_
      have h2 := norm_add_le (c k - a' k * b' k / n) ((a' k - a k) * b' k / n)
      have h3 := hc k (mem_range.1 hk)
      rw [nn, norm_mul] at h2
      rw [nn, norm_mul]
      have : κ * (‖a' k‖ * ‖b' k‖ / n) = κ * (‖a' k‖ * ‖b' k‖) / n := by ring
      rw [this] at h3
      calc _ ≤ κ * (‖a' k‖ * ‖b' k‖) / n + ‖a' k - a k‖ * ‖b' k‖ / n + ‖a k‖ * ‖b' k - b k‖ / n := by linarith
        _ = _ := by ring
    refine (sum_le_sum h1).trans ?_
    rw [← sum_div, ← mul_div_assoc]
    refine div_le_div_of_nonneg_right ?_ hn.le
    rw [sum_add_distrib, sum_add_distrib, ← mul_sum]
    have s1 := sum_mul_le_nrm N a' b'
    have s2 := sum_mul_le_nrm N (fun k => a' k - a k) b'
    have s3 := sum_mul_le_nrm N a (fun k => b' k - b k)
    have t1 : nrm N a' * nrm N b' ≤ (g * A) * (g * B) :=
      mul_le_mul ha.nrm_le hb.nrm_le (nrm_nonneg _) (by positivity)
    have t2 : nrm N (fun k => a' k - a k) * nrm N b' ≤ ((g - 1) * A) * (g * B) :=
      mul_le_mul ha.1 hb.nrm_le (nrm_nonneg _) (mul_nonneg (by linarith) hA)
    have t3 : nrm N a * nrm N (fun k => b' k - b k) ≤ A * ((g - 1) * B) :=
      mul_le_mul ha.2 hb.1 (nrm_nonneg _) hA
    have u1 := mul_le_mul_of_nonneg_left (s1.trans t1) hκ
    nlinarith
  · simp_rw [nn, norm_mul]
    rw [← sum_div]
    refine div_le_div_of_nonneg_right ((sum_mul_le_nrm N a b).trans ?_) hn.le
    exact mul_le_mul ha.2 hb.2 (nrm_nonneg _) hA

end Mandelbrot.FFT
