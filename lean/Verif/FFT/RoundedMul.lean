import Verif.FFT.RoundedBwd

/-!
# Products by transform with rounding
-/

namespace Mandelbrot.FFT

open Complex Finset Mandelbrot.Spec

variable {R : Type} [Zero R] {K : Codelets R} {val : R → ℝ} {κ : ℝ} {p : ℕ}

omit [Zero R] in
theorem coef_eq_conv (val : R → ℝ) (x y : Span R) (k : ℕ) : coef val x y k = (valSpan val x).conv (valSpan val y) k := by
  have h1 : ∀ i < x.len, (∑ j ∈ range y.len, if i + j = k then val (x.get i) * val (y.get j) else 0) =
      if i ≤ k then val (x.get i) * (valSpan val y).getZ (k - i) else 0 := by
    intro i hi
    by_cases hik : i ≤ k
    · rw [if_pos hik, Span.getZ]
      by_cases hj : k - i < y.len
      · rw [if_pos (show k - i < (valSpan val y).len from hj),
          sum_eq_single_of_mem (k - i) (mem_range.2 hj) fun j _ hne => if_neg (by omega), if_pos (by omega)]
        rfl
      · rw [if_neg (show ¬ k - i < (valSpan val y).len from hj), mul_zero]
        refine sum_eq_zero fun j hj' => if_neg ?_
        have := mem_range.1 hj'
        omega
    · rw [if_neg hik]
      exact sum_eq_zero fun j _ => if_neg (by omega)
  rw [coef, sum_congr rfl fun i hi => h1 i (mem_range.1 hi), Span.conv, Finset.Nat.sum_antidiagonal_eq_sum_range_succ_mk]
  have e1 : ∑ i ∈ range x.len, (if i ≤ k then val (x.get i) * (valSpan val y).getZ (k - i) else 0) =
      ∑ i ∈ range (x.len + (k + 1)), if i ≤ k then (valSpan val x).getZ i * (valSpan val y).getZ (k - i) else 0 := by
    rw [sum_range_add, ← add_zero (∑ i ∈ range x.len, _)]
    congr 1
    · refine sum_congr rfl fun i hi => ?_
      have : (valSpan val x).getZ i = val (x.get i) := if_pos (show i < (valSpan val x).len from mem_range.1 hi)
      rw [this]
    · refine (sum_eq_zero fun i _ => ?_).symm
      have : (valSpan val x).getZ (x.len + i) = 0 :=
        if_neg (show ¬ x.len + i < (valSpan val x).len by show ¬ x.len + i < x.len; omega)
      rw [this, zero_mul, ite_self]
  rw [e1, Nat.add_comm x.len, sum_range_add, ← add_zero (∑ i ∈ range k.succ, (valSpan val x).getZ i * _)]
  congr 1
  · refine sum_congr rfl fun i hi => ?_
    have := mem_range.1 hi
    rw [if_pos (by omega)]
  · exact sum_eq_zero fun i _ => if_neg (by omega)

omit [Zero R] in
theorem nrm_valSpan {N : ℕ} {x : Span R} (h : x.len ≤ N) : nrm N (valSpan val x).getZ = size val x := by
  unfold nrm size
  congr 1
  obtain ⟨d, rfl⟩ := Nat.exists_eq_add_of_le h
  rw [sum_range_add, ← add_zero (∑ i ∈ range x.len, val (x.get i) ^ 2)]
  congr 1
  · refine sum_congr rfl fun i hi => ?_
    rw [Span.getZ, if_pos (show i < (valSpan val x).len from mem_range.1 hi), Real.norm_eq_abs, sq_abs]
    rfl
  · refine sum_eq_zero fun i _ => ?_
    rw [Span.getZ, if_neg (show ¬ x.len + i < (valSpan val x).len by show ¬ x.len + i < x.len; omega)]
    simp

omit [Zero R] in
theorem size_nonneg (x : Span R) : 0 ≤ size val x := Real.sqrt_nonneg _

/-- Cauchy and Schwarz. -/
theorem sum_coef_le (h0 : val 0 = 0) (x y : Span R) (k : ℕ) :
    ∑ j ∈ range (k + 1), |val (x.getZ j)| * |val (y.getZ (k - j))| ≤ size val x * size val y := by
  refine (Real.sum_mul_le_sqrt_mul_sqrt _ _ _).trans ?_
  have hle : ∀ z : Span R, Real.sqrt (∑ j ∈ range (k + 1), |val (z.getZ j)| ^ 2) ≤ size val z := by
    intro z
    rw [← nrm_valSpan (N := z.len + (k + 1)) (by omega)]
    unfold nrm
    refine Real.sqrt_le_sqrt ?_
    rw [Nat.add_comm z.len, sum_range_add (m := z.len)]
    have : 0 ≤ ∑ i ∈ range z.len, ‖(valSpan val z).getZ (k + 1 + i)‖ ^ 2 := sum_nonneg fun _ _ => by positivity
    simp only [valSpan_getZ h0, Real.norm_eq_abs] at *
    linarith
  refine mul_le_mul (hle x) ?_ (Real.sqrt_nonneg _) (size_nonneg x)
  refine le_trans (le_of_eq ?_) (hle y)
  congr 1
  exact sum_flip fun j => |val (y.getZ j)| ^ 2

theorem coef_le (h0 : val 0 = 0) (x y : Span R) (k : ℕ) : |coef val x y k| ≤ size val x * size val y := by
  rw [coef_eq_conv, Span.conv, Finset.Nat.sum_antidiagonal_eq_sum_range_succ_mk]
  refine (abs_sum_le_sum_abs _ _).trans (le_trans (le_of_eq ?_) (sum_coef_le h0 x y k))
  refine sum_congr rfl fun j _ => ?_
  rw [abs_mul, valSpan_getZ h0, valSpan_getZ h0]

theorem one_le_grow (hκ : 0 ≤ κ) (p : ℕ) : 1 + κ ≤ grow κ p := by
  unfold grow
  have h1 : (1 : ℝ) ≤ (1 + 3 * κ) ^ (2 * passes p) := one_le_pow₀ (by linarith)
  have h2 : 1 + κ ≤ (1 + κ) ^ (passes p + 1) := by
    calc 1 + κ = (1 + κ) ^ 1 := (pow_one _).symm
      _ ≤ _ := pow_le_pow_right₀ (by linarith) (by omega)
  nlinarith

/-- Backward transform of the product of the forward transforms. -/
theorem product_close {lim : ℕ∞} (W : Within K val κ p) (hp : 1 ≤ p) (hlim : p ≤ 2 ∨ (p : ℕ∞) < lim) (add : Bool)
    {xn : ℕ} (hxn : xn ≤ 2 ^ p) {x y : Span R} (hx : x.len ≤ 2 ^ p) (hy : y.len ≤ 2 ^ p)
    (hxy : x.len + y.len ≤ 2 ^ p + 1) (z : ℕ → R) {fx fy c : ℕ → R × R}
    (hfx : Close (2 ^ (p - 1)) ((1 + 3 * κ) ^ passes p) (Real.sqrt (2 ^ (p - 1)) * nrm (2 ^ p) (valSpan val x).getZ)
        (fun k => cval val (fx k)) (fwd p (valSpan val x).getZ))
    (hfy : Close (2 ^ (p - 1)) ((1 + 3 * κ) ^ passes p) (Real.sqrt (2 ^ (p - 1)) * nrm (2 ^ p) (valSpan val y).getZ)
        (fun k => cval val (fy k)) (fwd p (valSpan val y).getZ))
    (hc : ∀ k < 2 ^ (p - 1), ‖cval val (c k) - cval val (fx k) * cval val (fy k) / 2 ^ (p - 1)‖ ≤
      κ * (‖cval val (fx k)‖ * ‖cval val (fy k)‖ / 2 ^ (p - 1))) :
    ∃ (z' v : ℕ → R), isrfftScrambleK K lim add xn z (2 ^ (p - 1)) c = .ok z' ∧
      (∀ k, z' k = if k < xn then (if add then K.add (z k) (v k) else v k) else z k) ∧
      ∀ k < xn, |val (v k) - coef val x y k| ≤ (grow κ p - 1) * (size val x * size val y) := by
  obtain ⟨z', v, e, hz, hv⟩ := isrfftScrambleK_close (lim := lim) W hp hlim add (xn := xn) (by omega) z c
  refine ⟨z', v, e, fun k => ?_, fun k hk => ?_⟩
  · rw [hz k]
    by_cases hk : k < xn
    · rw [if_pos ⟨by omega, hk⟩, if_pos hk]
    · rw [if_neg (by tauto), if_neg hk]
  · have hκ := W.nonneg
    have hk2 : k < 2 ^ p := by omega
    rw [nrm_valSpan hx] at hfx
    rw [nrm_valSpan hy] at hfy
    set N : ℝ := 2 ^ (p - 1) with hN
    have hNpos : 0 < N := by positivity
    set g := (1 + 3 * κ) ^ passes p with hg
    have hg1 : 1 ≤ g := one_le_pow₀ (by linarith)
    have hcast : ((N : ℝ) : ℂ) = 2 ^ (p - 1) := by rw [hN]; push_cast; rfl
    obtain ⟨s1, s2⟩ := product_err (c := fun k => cval val (c k)) hκ
      (mul_nonneg (Real.sqrt_nonneg N) (size_nonneg (val := val) x)) hg1 hNpos hfx hfy
      (fun k hk => by rw [hcast]; exact hc k hk)
    have hAB : Real.sqrt N * size val x * (Real.sqrt N * size val y) / N = size val x * size val y := by
      have := Real.mul_self_sqrt hNpos.le
      rw [div_eq_iff hNpos.ne']
      linear_combination size val x * size val y * this
    rw [hAB] at s1 s2
    set M := size val x * size val y with hM
    have hM0 : 0 ≤ M := mul_nonneg (size_nonneg x) (size_nonneg y)
    -- exact result
    have hex : bwd p (fun k => fwd p (valSpan val x).getZ k * fwd p (valSpan val y).getZ k / N) k = coef val x y k := by
      rw [bwd_product hp (a := (valSpan val x).getZ) (b := (valSpan val y).getZ)
        (fun i hi => getZ_of_le _ (show x.len ≤ i by omega)) (fun i hi => getZ_of_le _ (show y.len ≤ i by omega)) ?_ hk2]
      · rw [nega, ← conv_eq_cprod, ← conv_eq_cprod, conv_of_le (valSpan val x) (valSpan val y) (i := k + 2 ^ p), sub_zero,
          coef_eq_conv]
        show x.len + y.len ≤ _
        omega
      · intro k _
        rw [hcast]
        push_cast
        ring
    have b1 := bwd_le hp (fun k => cval val (c k))
      (fun k => fwd p (valSpan val x).getZ k * fwd p (valSpan val y).getZ k / N) hk2
    rw [hex] at b1
    have b2 := hv k hk2
    have b3 : ∑ i ∈ range (2 ^ (p - 1)), ‖cval val (c i)‖ ≤ (g ^ 2 * (1 + κ)) * M := by
      have : ∑ i ∈ range (2 ^ (p - 1)), ‖cval val (c i)‖ ≤ ∑ i ∈ range (2 ^ (p - 1)),
          (‖cval val (c i) - fwd p (valSpan val x).getZ i * fwd p (valSpan val y).getZ i / N‖ +
            ‖fwd p (valSpan val x).getZ i * fwd p (valSpan val y).getZ i / N‖) := by
        refine sum_le_sum fun i _ => ?_
        have := norm_add_le (cval val (c i) - fwd p (valSpan val x).getZ i * fwd p (valSpan val y).getZ i / N)
          (fwd p (valSpan val x).getZ i * fwd p (valSpan val y).getZ i / N)
        rwa [sub_add_cancel] at this
      rw [sum_add_distrib] at this
      nlinarith
    set G := (1 + κ) ^ passes p with hG
    have hG1 : 1 ≤ G := one_le_pow₀ (by linarith)
    have b4 := mul_le_mul_of_nonneg_left b3 (show 0 ≤ G - 1 by linarith)
    have b5 := abs_add_le (val (v k) - bwd p (fun k => cval val (c k)) k)
      (bwd p (fun k => cval val (c k)) k - coef val x y k)
    rw [sub_add_sub_cancel] at b5
    have hgrow : grow κ p = g ^ 2 * (1 + κ) * G := by
      rw [grow, hg, hG, ← pow_mul, Nat.mul_comm 2, pow_succ]; ring
    rw [hgrow]
    nlinarith

theorem fftMulK_close {lim : ℕ∞} (junk : ℕ → R × R) {nz : ℕ} (z : ℕ → R) {x y : Span R}
    (W : Within K val κ (Nat.clog 2 (2 * nz))) (h : nz ≤ x.len + y.len - 1)
    (hlim : nz ≤ 8 ∨ (Nat.clog 2 (2 * nz) : ℕ∞) < lim)
    (hxy : nz ≤ 8 ∨ x.len + y.len ≤ bitCeil (2 * nz) + 1 ∧ x.len ≤ bitCeil (2 * nz) ∧ y.len ≤ bitCeil (2 * nz)) :
    ∃ z', fftMulK K lim junk nz z x y = .ok z' ∧ (∀ k, nz ≤ k → z' k = z k) ∧
      ∀ k < nz, |val (z' k) - coef val x y k| ≤ (grow κ (Nat.clog 2 (2 * nz)) - 1) * (size val x * size val y) := by
  by_cases h8 : nz ≤ 8
  · refine ⟨fun i => if i < nz then K.mulBase nz x y i else z i, ?_, fun k hk => if_neg (by omega), fun k hk => ?_⟩
    · rw [fftMulK, slowAssert_true (by unfold relu; omega), bok, if_pos (show nz ≤ mulBaseN from h8)]
      rfl
    · simp only [if_pos hk]
      have h1 := W.mulBase nz h8 x y k hk
      have h2 : coef val x y k = ∑ j ∈ range (k + 1), val (x.getZ j) * val (y.getZ (k - j)) := by
        rw [coef_eq_conv, Span.conv, Finset.Nat.sum_antidiagonal_eq_sum_range_succ_mk]
        exact sum_congr rfl fun j _ => by rw [valSpan_getZ W.zero, valSpan_getZ W.zero]
      rw [h2]
      have h3 := sum_coef_le W.zero x y k
      have h4 := one_le_grow W.nonneg (Nat.clog 2 (2 * nz))
      have h5 := mul_nonneg (size_nonneg (val := val) x) (size_nonneg (val := val) y)
      refine h1.trans ((mul_le_mul_of_nonneg_left h3 W.nonneg).trans (mul_le_mul_of_nonneg_right (by linarith) h5))
  · obtain ⟨hs, hx, hy⟩ := hxy.resolve_left h8
    have hlim := hlim.resolve_left h8
    obtain ⟨p, hp, ep, ep2, hle, -⟩ := bitCeil_two_mul (show 0 < nz by omega)
    have hcl : Nat.clog 2 (2 * nz) = p := Nat.pow_right_injective (le_refl 2) ep
    rw [hcl] at hlim W ⊢
    rw [ep] at hx hy hs
    obtain ⟨fx, e1, h1⟩ := srfftScrambleK_close (lim := lim) W hp (.inr hlim) junk hx
    obtain ⟨fy, e2, h2⟩ := srfftScrambleK_close (lim := lim) W hp (.inr hlim) (fun i => junk (2 ^ (p - 1) + i)) hy
    obtain ⟨z', v, e3, hz, hv⟩ := product_close (lim := lim) W hp (.inr hlim) false (xn := nz) (by omega) hx hy hs z
      (c := mulCwiseK K (2 ^ (p - 1)) fx fy) h1 h2 (fun k hk => by rw [mulCwiseK_at, if_pos hk]; exact W.mulc _ _)
    refine ⟨z', ?_, fun k hk => by rw [hz k, if_neg (by omega)], fun k hk => ?_⟩
    · simp only [fftMulK]
      rw [slowAssert_true (by unfold relu; omega), bok, if_neg (show ¬nz ≤ mulBaseN by unfold mulBaseN; omega), ep2, e1,
        bok, e2, bok, e3]
    · rw [hz k, if_pos hk]
      exact hv k hk

theorem fftSqrK_close {lim : ℕ∞} (junk : ℕ → R × R) {ny : ℕ} (y : ℕ → R) {x : Span R}
    (W : Within K val κ (Nat.clog 2 (2 * ny))) (h : ny ≤ 2 * x.len - 1)
    (hlim : ny ≤ 8 ∨ (Nat.clog 2 (2 * ny) : ℕ∞) < lim) (hx : ny ≤ 8 ∨ 2 * x.len ≤ bitCeil (2 * ny) + 1) :
    ∃ y', fftSqrK K lim junk ny y x = .ok y' ∧ (∀ k, ny ≤ k → y' k = y k) ∧
      ∀ k < ny, |val (y' k) - coef val x x k| ≤ (grow κ (Nat.clog 2 (2 * ny)) - 1) * (size val x * size val x) := by
  by_cases h8 : ny ≤ 8
  · refine ⟨fun i => if i < ny then K.sqrBase ny x i else y i, ?_, fun k hk => if_neg (by omega), fun k hk => ?_⟩
    · rw [fftSqrK, slowAssert_true (by unfold relu; omega), bok, if_pos (show ny ≤ mulBaseN from h8)]
      rfl
    · simp only [if_pos hk]
      have h1 := W.sqrBase ny h8 x k hk
      have h2 : coef val x x k = ∑ j ∈ range (k + 1), val (x.getZ j) * val (x.getZ (k - j)) := by
        rw [coef_eq_conv, Span.conv, Finset.Nat.sum_antidiagonal_eq_sum_range_succ_mk]
        exact sum_congr rfl fun j _ => by rw [valSpan_getZ W.zero, valSpan_getZ W.zero]
      rw [h2]
      have h3 := sum_coef_le W.zero x x k
      have h4 := one_le_grow W.nonneg (Nat.clog 2 (2 * ny))
      have h5 := mul_nonneg (size_nonneg (val := val) x) (size_nonneg (val := val) x)
      refine h1.trans ((mul_le_mul_of_nonneg_left h3 W.nonneg).trans (mul_le_mul_of_nonneg_right (by linarith) h5))
  · have hs := hx.resolve_left h8
    have hlim := hlim.resolve_left h8
    obtain ⟨p, hp, ep, ep2, hle, -⟩ := bitCeil_two_mul (show 0 < ny by omega)
    have hcl : Nat.clog 2 (2 * ny) = p := Nat.pow_right_injective (le_refl 2) ep
    rw [hcl] at hlim W ⊢
    rw [ep] at hs
    obtain ⟨fx, e1, h1⟩ := srfftScrambleK_close (lim := lim) W hp (.inr hlim) junk (x := x) (by omega)
    obtain ⟨z', v, e3, hz, hv⟩ := product_close (lim := lim) W hp (.inr hlim) false (xn := ny) (by omega)
      (x := x) (y := x) (by omega) (by omega) (by omega) y
      (c := sqrCwiseK K (2 ^ (p - 1)) fx) h1 h1 (fun k hk => by rw [sqrCwiseK_at, if_pos hk]; exact W.sqrc _)
    refine ⟨z', ?_, fun k hk => by rw [hz k, if_neg (by omega)], fun k hk => ?_⟩
    · simp only [fftSqrK]
      rw [slowAssert_true (by unfold relu; omega), bok, if_neg (show ¬ny ≤ mulBaseN by unfold mulBaseN; omega), ep2, e1,
        bok, e3]
    · rw [hz k, if_pos hk]
      exact hv k hk

theorem fftAddmulK_close {lim : ℕ∞} (junk : ℕ → R × R) {nz : ℕ} (z : ℕ → R) {x y : Span R}
    {middle : (ℕ → R) → Res (ℕ → R)} {z1 : ℕ → R} (hmid : middle z = .ok z1)
    (W : Within K val κ (Nat.clog 2 (2 * nz))) (h : nz ≤ x.len + y.len - 1)
    (hlim : nz ≤ 2 ∨ (Nat.clog 2 (2 * nz) : ℕ∞) < lim)
    (hxy : nz = 0 ∨ x.len + y.len ≤ bitCeil (2 * nz) + 1 ∧ x.len ≤ bitCeil (2 * nz) ∧ y.len ≤ bitCeil (2 * nz)) :
    ∃ z', fftAddmulK K lim junk nz z x y middle = .ok z' ∧ (∀ k, nz ≤ k → z' k = z1 k) ∧
      ∀ k < nz, |val (z' k) - (val (z1 k) + coef val x y k)| ≤
        κ * |val (z1 k)| + ((1 + κ) * grow κ (Nat.clog 2 (2 * nz)) - 1) * (size val x * size val y) := by
  by_cases h0 : nz = 0
  · subst h0
    refine ⟨z1, ?_, fun _ _ => rfl, by simp⟩
    have hb : bitCeil (2 * 0) / 2 = 0 := by simp [bitCeil]
    simp only [fftAddmulK]
    rw [slowAssert_true (by unfold relu; omega), bok, hb]
    simp only [srfftScrambleK, isrfftScrambleK, mul_zero, if_true, bok, hmid]
  · obtain ⟨hs, hx, hy⟩ := hxy.resolve_left h0
    obtain ⟨p, hp, ep, ep2, hle, hlt⟩ := bitCeil_two_mul (show 0 < nz by omega)
    have hcl : Nat.clog 2 (2 * nz) = p := Nat.pow_right_injective (le_refl 2) ep
    rw [hcl] at hlim W ⊢
    have hlim' : p ≤ 2 ∨ (p : ℕ∞) < lim := by
      rcases hlim with h2 | h2
      · left
        by_contra hc
        have : 2 ^ 3 ≤ 2 ^ p := Nat.pow_le_pow_right (by norm_num) (by omega)
        omega
      · exact .inr h2
    rw [ep] at hx hy hs
    obtain ⟨fx, e1, h1⟩ := srfftScrambleK_close (lim := lim) W hp hlim' junk hx
    obtain ⟨fy, e2, h2⟩ := srfftScrambleK_close (lim := lim) W hp hlim' (fun i => junk (2 ^ (p - 1) + i)) hy
    obtain ⟨z', v, e3, hz, hv⟩ := product_close (lim := lim) W hp hlim' true (xn := nz) (by omega) hx hy hs z1
      (c := mulCwiseK K (2 ^ (p - 1)) fx fy) h1 h2 (fun k hk => by rw [mulCwiseK_at, if_pos hk]; exact W.mulc _ _)
    refine ⟨z', ?_, fun k hk => by rw [hz k, if_neg (by omega)], fun k hk => ?_⟩
    · simp only [fftAddmulK]
      rw [slowAssert_true (by unfold relu; omega), bok, ep2, e1, bok, e2, bok, hmid, bok, e3]
    · rw [hz k, if_pos hk, if_pos rfl]
      have a1 := W.add (z1 k) (v k)
      have a2 := hv k hk
      have a3 := coef_le W.zero x y k
      have a4 : |val (v k)| ≤ grow κ p * (size val x * size val y) := by
        have := abs_add_le (val (v k) - coef val x y k) (coef val x y k)
        rw [sub_add_cancel] at this
        linarith
      have a5 := abs_add_le (val (K.add (z1 k) (v k)) - (val (z1 k) + val (v k))) (val (v k) - coef val x y k)
      have a6 := mul_le_mul_of_nonneg_left a4 W.nonneg
      have e : val (K.add (z1 k) (v k)) - (val (z1 k) + coef val x y k) =
        val (K.add (z1 k) (v k)) - (val (z1 k) + val (v k)) + (val (v k) - coef val x y k) := by ring
      rw [e]
      linarith

theorem fftMulK_assert {lim : ℕ∞} {junk : ℕ → R × R} {nz : ℕ} {z : ℕ → R} {x y : Span R}
    (h : ¬nz ≤ x.len + y.len - 1) : fftMulK K lim junk nz z x y = .error .assertion := by
  rw [fftMulK, slowAssert_false (by unfold relu; omega)]
  rfl

end Mandelbrot.FFT
