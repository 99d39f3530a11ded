import Verif.Series.Ops

/-!
# Products of series, derivative and integral: exactness lemmas
-/

set_option linter.unusedSectionVars false

namespace Mandelbrot

open PowerSeries Finset

/-- A coefficient of the product of two spans read as polynomials. -/
def Span.conv {K : Type} [Field K] (x y : Span K) (i : ℕ) : K :=
  ∑ p ∈ antidiagonal i, x.getZ p.1 * y.getZ p.2

/-- The multiplication kernels compute exact truncated products, for all sizes up to `N` that their assertion admits. -/
structure Ker.ExactMul {K : Type} [Field K] (ker : Ker K) (N : ℕ) : Prop where
  mul : ∀ (nz : ℕ) (x y : Span K), nz ≤ N → nz ≤ x.len + y.len - 1 → x.len ≤ nz → y.len ≤ nz →
    ∃ r, ker.mul nz x y = .ok r ∧ ∀ i < nz, r i = x.conv y i
  addmul : ∀ (nz : ℕ) (x y : Span K), nz ≤ N → nz ≤ x.len + y.len - 1 → x.len ≤ nz → y.len ≤ nz →
    ∃ r, ker.addmul nz x y = .ok r ∧ ∀ i < nz, r i = x.conv y i
  sqr : ∀ (nz : ℕ) (x : Span K), nz ≤ N → nz ≤ x.len + x.len - 1 → x.len ≤ nz →
    ∃ r, ker.sqr nz x = .ok r ∧ ∀ i < nz, r i = x.conv x i

theorem Ker.ExactMul.mono {K : Type} [Field K] {ker : Ker K} {M N : ℕ} (h : ker.ExactMul N) (hle : M ≤ N) :
    ker.ExactMul M where
  mul nz x y h0 := h.mul nz x y (h0.trans hle)
  addmul nz x y h0 := h.addmul nz x y (h0.trans hle)
  sqr nz x h0 := h.sqr nz x (h0.trans hle)

namespace Ser

variable {K : Type} [Field K]

theorem lowSpan_len (x : Ser K) (n : ℕ) : (x.lowSpan n).len = min n x.nonzero.toNat := by
  simp only [lowSpan, relu]; omega

theorem lowSpan_getZ (x : Ser K) (n : ℕ) {i : ℕ} (hi : i < n) :
    (x.lowSpan n).getZ i = coeff i x.ps := by
  rw [coeff_ps, Span.getZ, lowSpan_len]
  by_cases h : (i : ℤ) < x.nonzero
  · rw [if_pos h, if_pos (by omega)]; rfl
  · rw [if_neg h, if_neg (by omega)]

theorem lowSpan_conv (x y : Ser K) (n : ℕ) {i : ℕ} (hi : i < n) :
    (x.lowSpan n).conv (y.lowSpan n) i = coeff i (x.ps * y.ps) := by
  rw [coeff_mul, Span.conv]
  refine sum_congr rfl fun p hp => ?_
  rw [mem_antidiagonal] at hp
  rw [lowSpan_getZ x n (by omega), lowSpan_getZ y n (by omega)]

theorem coeff_ps_of_le (x : Ser K) {i : ℕ} (h : x.nonzero ≤ i) : coeff i x.ps = 0 := by
  rw [coeff_ps, if_neg (by omega)]

theorem coeff_mul_ps_of_le {x y : Ser K} {i : ℕ}
    (h : x.nonzero + y.nonzero - 1 ≤ i) : coeff i (x.ps * y.ps) = 0 := by
  rw [coeff_mul]
  refine sum_eq_zero fun p hp => ?_
  rw [mem_antidiagonal] at hp
  by_cases h1 : x.nonzero ≤ p.1
  · rw [coeff_ps_of_le x h1, zero_mul]
  · rw [coeff_ps_of_le y (by omega), mul_zero]

/-- When the product functions accept their operands. -/
def MulOk (n : ℤ) (x y : Ser K) : Prop :=
  n ≤ 0 ∨ ((x.nonzero = 0 → y.nonzero ≤ 1) ∧ (y.nonzero = 0 → x.nonzero ≤ 1))

theorem MulOk.of_pos {n : ℤ} {x y : Ser K} (hx : 1 ≤ x.nonzero) (hy : 1 ≤ y.nonzero) :
    MulOk n x y := Or.inr ⟨by omega, by omega⟩

theorem mul_spec {ker : Ker K} {N : ℕ} (hker : ker.ExactMul N) {z x y : Ser K} (hx : x.WF) (hy : y.WF)
    (hok : MulOk (min x.known y.known) x y)
    (hl : min (min x.known y.known) (relu (x.nonzero + y.nonzero - 1)) ≤ z.limit)
    (hN : min (min x.known y.known) (relu (x.nonzero + y.nonzero - 1)) ≤ N) :
    ∃ z' : Ser K, mul ker z x y = .ok z' ∧ z'.limit = z.limit ∧
      z'.known = min x.known y.known ∧
      z'.nonzero = min (min x.known y.known) (relu (x.nonzero + y.nonzero - 1)) ∧ z'.WF ∧
      ∀ n : ℕ, (n : ℤ) ≤ z'.known → Agree n z'.ps (x.ps * y.ps) := by
  have hx0 := hx.nonneg
  have hy0 := hy.nonneg
  have hxk := hx.le_known
  have hyk := hy.le_known
  set nk := min x.known y.known with hnk
  set nz := min nk (relu (x.nonzero + y.nonzero - 1)) with hnz
  have hr := relu_nonneg (x.nonzero + y.nonzero - 1)
  have hnz0 : 0 ≤ nz := by omega
  have hnzk : nz ≤ nk := min_le_left _ _
  obtain ⟨q, hq⟩ := Int.eq_ofNat_of_zero_le hnz0
  have hlen : (⟨z.limit, nk, nz, z.data⟩ : Ser K).span.len = q := by
    simp [span, hq]
  obtain ⟨r, hr1, hr2⟩ := hker.mul q (x.lowSpan q) (y.lowSpan q) (by omega)
    (by
      rw [lowSpan_len, lowSpan_len]
      rcases hok with h | ⟨h1, h2⟩
      · omega
      · unfold relu at hnz; omega)
    (by rw [lowSpan_len]; omega) (by rw [lowSpan_len]; omega)
  have e : mul ker z x y = .ok ((⟨z.limit, nk, nz, z.data⟩ : Ser K).loopSet nz r) := by
    simp only [mul, ← hnk, ← hnz, setCounts_ok z hnz0 hnzk hl]
    show (ker.mul (⟨z.limit, nk, nz, z.data⟩ : Ser K).span.len _ _ >>= _) = _
    rw [hlen, hq, hr1]; rfl
  refine ⟨_, e, rfl, rfl, rfl, ⟨hnz0, hnzk, hl⟩, ?_⟩
  intro n hn i hi
  have hn' : (n : ℤ) ≤ nk := hn
  rw [coeff_ps]
  simp only [loopSet]
  by_cases h : (i : ℤ) < nz
  · rw [if_pos h, if_pos h, hr2 i (by omega), lowSpan_conv x y q (by omega)]
  · rw [if_neg h, coeff_mul_ps_of_le]
    unfold relu at hnz; omega

theorem mul1p_spec {ker : Ker K} {N : ℕ} (hker : ker.ExactMul N) {z x y : Ser K} (hx : x.WF) (hy : y.WF)
    {s : ℕ} (hs : 0 < s)
    (hok : MulOk (min x.known (y.known + s) - s) x y)
    (hl : min (min x.known (y.known + s)) (x.nonzero + y.nonzero + s - 1) ≤ z.limit)
    (hN : min (min x.known (y.known + s)) (x.nonzero + y.nonzero + s - 1) - s ≤ N) :
    ∃ z' : Ser K, mul1p ker z x y s = .ok z' ∧ z'.limit = z.limit ∧
      z'.known = min x.known (y.known + s) ∧
      z'.nonzero = min (min x.known (y.known + s)) (x.nonzero + y.nonzero + s - 1) ∧ z'.WF ∧
      ∀ n : ℕ, (n : ℤ) ≤ z'.known → Agree n z'.ps (x.ps * (1 + X ^ s * y.ps)) := by
  have hx0 := hx.nonneg
  have hy0 := hy.nonneg
  have hxk := hx.le_known
  have hyk := hy.le_known
  set nk := min x.known (y.known + s) with hnk
  set nz := min nk (x.nonzero + y.nonzero + s - 1) with hnz
  have hnz0 : 0 ≤ nz := by omega
  have hnzk : nz ≤ nk := min_le_left _ _
  obtain ⟨q, hq⟩ := Int.eq_ofNat_of_zero_le hnz0
  have hlen : ((⟨z.limit, nk, nz, z.data⟩ : Ser K).highSpan s).len = q - s := by
    simp only [highSpan, hq, relu]; omega
  have hlow : ∀ w : Ser K, w.lowSpan (nz - s) = w.lowSpan ((q - s : ℕ) : ℤ) := by
    intro w
    simp only [lowSpan, relu]
    congr 1
    omega
  obtain ⟨r, hr1, hr2⟩ := hker.addmul (q - s) (x.lowSpan (q - s : ℕ)) (y.lowSpan (q - s : ℕ)) (by omega)
    (by
      rw [lowSpan_len, lowSpan_len]
      rcases hok with h | ⟨h1, h2⟩ <;> omega)
    (by rw [lowSpan_len]; omega) (by rw [lowSpan_len]; omega)
  have e : mul1p ker z x y s = .ok
      (let z1 := (⟨z.limit, nk, nz, z.data⟩ : Ser K).loopSet nz
        fun i => if (i : ℤ) < x.nonzero then x.data i else 0
       z1.loopSet nz fun i => if (s : ℤ) ≤ (i : ℤ) then z1.data i + r ((i : ℤ) - s).toNat else z1.data i) := by
    have hs' : (s : ℤ) > 0 := by omega
    simp only [mul1p, slowAssert, if_pos hs', ← hnk, ← hnz, setCounts_ok z hnz0 hnzk hl]
    show (ker.addmul ((⟨z.limit, nk, nz, z.data⟩ : Ser K).highSpan s).len _ _ >>= _) = _
    rw [hlen, hlow, hlow, hr1]; rfl
  refine ⟨_, e, rfl, rfl, rfl, ⟨hnz0, hnzk, hl⟩, ?_⟩
  intro n hn i hi
  have hn' : (n : ℤ) ≤ nk := hn
  have hrw : x.ps * (1 + X ^ s * y.ps) = x.ps + X ^ s * (x.ps * y.ps) := by ring
  rw [hrw, map_add, coeff_X_pow_mul', coeff_ps, coeff_ps]
  simp only [loopSet]
  by_cases h : (i : ℤ) < nz
  · simp only [if_pos h]
    by_cases hsi : s ≤ i
    · have e1 : ((i : ℤ) - s).toNat = i - s := by omega
      rw [if_pos (by omega : (s : ℤ) ≤ i), if_pos hsi, e1, hr2 _ (by omega),
        lowSpan_conv x y _ (by omega)]
    · rw [if_neg (by omega : ¬ (s : ℤ) ≤ i), if_neg hsi, add_zero]
  · rw [if_neg h, if_neg (by omega), zero_add]
    split_ifs with hsi
    · rw [coeff_mul_ps_of_le]; omega
    · rfl

theorem sqr_spec {ker : Ker K} {N : ℕ} (hker : ker.ExactMul N) {y x : Ser K} (hx : x.WF)
    (hl : min x.known (relu (2 * x.nonzero - 1)) ≤ y.limit)
    (hN : min x.known (relu (2 * x.nonzero - 1)) ≤ N) :
    ∃ y' : Ser K, sqr ker y x = .ok y' ∧ y'.limit = y.limit ∧ y'.known = x.known ∧
      y'.nonzero = min x.known (relu (2 * x.nonzero - 1)) ∧ y'.WF ∧
      ∀ n : ℕ, (n : ℤ) ≤ y'.known → Agree n y'.ps (x.ps ^ 2) := by
  have hx0 := hx.nonneg
  have hxk := hx.le_known
  set nz := min x.known (relu (2 * x.nonzero - 1)) with hnz
  have hr := relu_nonneg (2 * x.nonzero - 1)
  have hnz0 : 0 ≤ nz := by omega
  have hnzk : nz ≤ x.known := min_le_left _ _
  obtain ⟨q, hq⟩ := Int.eq_ofNat_of_zero_le hnz0
  have hlen : (⟨y.limit, x.known, nz, y.data⟩ : Ser K).span.len = q := by
    simp [span, hq]
  have hsp : x.span.len = x.nonzero.toNat := rfl
  obtain ⟨r, hr1, hr2⟩ := hker.sqr q x.span (by omega)
    (by rw [hsp]; unfold relu at hnz; omega) (by rw [hsp]; unfold relu at hnz; omega)
  have e : sqr ker y x = .ok ((⟨y.limit, x.known, nz, y.data⟩ : Ser K).loopSet nz r) := by
    simp only [sqr, ← hnz, setCounts_ok y hnz0 hnzk hl]
    show (ker.sqr (⟨y.limit, x.known, nz, y.data⟩ : Ser K).span.len _ >>= _) = _
    rw [hlen, hr1]; rfl
  refine ⟨_, e, rfl, rfl, rfl, ⟨hnz0, hnzk, hl⟩, ?_⟩
  intro n hn i hi
  have hn' : (n : ℤ) ≤ x.known := hn
  rw [coeff_ps, pow_two]
  simp only [loopSet]
  by_cases h : (i : ℤ) < nz
  · rw [if_pos h, if_pos h, hr2 i (by omega), coeff_mul, Span.conv]
    refine sum_congr rfl fun p _ => ?_
    have : ∀ j, x.span.getZ j = coeff j x.ps := by
      intro j
      rw [coeff_ps, Span.getZ, hsp]
      by_cases h : (j : ℤ) < x.nonzero
      · rw [if_pos h, if_pos (by omega)]; rfl
      · rw [if_neg h, if_neg (by omega)]
    rw [this, this]
  · rw [if_neg h, coeff_mul_ps_of_le]
    unfold relu at hnz; omega

/-! ## Derivative and integral -/

theorem derivativeShift_spec {y x : Ser K} (hx : x.WF) (hl : x.nonzero ≤ y.limit) (s : ℤ) :
    ∃ y' : Ser K, derivativeShift y x s = .ok y' ∧ y'.limit = y.limit ∧ y'.known = x.known ∧
      y'.nonzero = x.nonzero ∧ y'.WF ∧
      ∀ i, coeff i y'.ps = ((s + i : ℤ) : K) * coeff i x.ps := by
  have e : derivativeShift y x s = .ok ((⟨y.limit, x.known, x.nonzero, y.data⟩ : Ser K).loopSet
      x.nonzero fun i => ((s + (i : ℤ) : ℤ) : K) * x.data i) := by
    simp only [derivativeShift, setCounts_ok y hx.nonneg hx.le_known hl]; rfl
  refine ⟨_, e, rfl, rfl, rfl, ⟨hx.nonneg, hx.le_known, hl⟩, fun i => ?_⟩
  rw [coeff_ps, coeff_ps]
  simp only [loopSet]
  split_ifs <;> simp

theorem integralShift_spec {y x : Ser K} (hx : x.WF) (hl : x.nonzero ≤ y.limit) (s : ℤ) :
    ∃ y' : Ser K, integralShift y x s = .ok y' ∧ y'.limit = y.limit ∧ y'.known = x.known ∧
      y'.nonzero = x.nonzero ∧ y'.WF ∧
      ∀ i, coeff i y'.ps = if s + (i : ℤ) ≠ 0 then coeff i x.ps / ((s + i : ℤ) : K) else 0 := by
  have e : integralShift y x s = .ok ((⟨y.limit, x.known, x.nonzero, y.data⟩ : Ser K).loopSet
      x.nonzero fun i => if s + (i : ℤ) ≠ 0 then x.data i / ((s + (i : ℤ) : ℤ) : K) else 0) := by
    simp only [integralShift, setCounts_ok y hx.nonneg hx.le_known hl]; rfl
  refine ⟨_, e, rfl, rfl, rfl, ⟨hx.nonneg, hx.le_known, hl⟩, fun i => ?_⟩
  rw [coeff_ps, coeff_ps]
  simp only [loopSet]
  split_ifs <;> simp

end Ser

end Mandelbrot
