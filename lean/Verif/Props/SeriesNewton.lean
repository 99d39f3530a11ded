import Verif.Props.SeriesBasic

/-!
# Properties of the Newton-based series functions: C12-C18
-/

set_option linter.unusedSectionVars false

namespace Mandelbrot

open PowerSeries Finset

namespace Props

variable {K : Type} [Field K] [CharZero K] [Ldexp K] [Ser.LawfulLdexp K] [DecidableEq K]
variable {ker : Ker K}

/-- The stored polynomial is one series with these known terms. -/
theorem has_self {x : Ser K} (hx : x.WF) {n : ℕ} (hn : x.known = n) (h1 : 0 < n → 1 ≤ x.nonzero) :
    x.Has n x.ps := ⟨Ser.Is.self hx n hn, h1⟩

theorem cc_ps (x : Ser K) : constantCoeff x.ps = x.at 0 := by
  rw [← Ser.coeff_ps_at, coeff_zero_eq_constantCoeff_apply]

theorem agree_at {y : Ser K} {n : ℕ} {F : K⟦X⟧} (h : y.Has n F) (k : ℕ) (hk : k < n) :
    y.at k = seqOf F k := by rw [← Ser.coeff_ps_at]; exact h.agree k hk

/-- C12.  `inv` returns the reciprocal to full order. -/
theorem C12_inv {N : ℕ} (hker : ker.Exact N) (J : Junk K) (y x : Ser K) (n : ℕ) (hx : x.WF) (hn : x.known = n)
    (h1 : 0 < n → 1 ≤ x.nonzero) (h0 : 0 < n → x.at 0 ≠ 0) (hl : n ≤ y.limit) (hN : n ≤ N) :
    ∃ y' : Ser K, Ser.inv ker J y x = .ok y' ∧ y'.limit = y.limit ∧ y'.known = n ∧
      ∀ k < n, (∑ p ∈ antidiagonal k, x.at p.1 * y'.at p.2) = if k = 0 then 1 else 0 := by
  have hF : 0 < n → constantCoeff x.ps ≠ 0 := fun h => by rw [cc_ps]; exact h0 h
  obtain ⟨y', e, hy1, hy2⟩ := Ser.inv_has hker J (y := y) (has_self hx hn h1) hF hl
  refine ⟨y', e, hy1, hy2.known, fun k hk => ?_⟩
  have h2 : Agree n (x.ps * y'.ps) 1 := by
    have := (Agree.rfl' (F := x.ps)).mul hy2.agree
    rwa [PowerSeries.mul_inv_cancel _ (hF (by omega))] at this
  have h3 := h2 k hk
  rw [coeff_mul_seq, Ser.seqOf_ps, Ser.seqOf_ps, coeff_one] at h3
  exact h3

/-- C12.  When `inv` is refused: no stored term. -/
theorem C12_inv_throws (J : Junk K) (y x : Ser K) (hk : x.known ≠ 0) (hz : x.nonzero = 0) :
    Ser.inv ker J y x = .error .assertion := by
  simp only [Ser.inv, if_neg hk, slowAssert_false (show ¬ x.nonzero ≠ 0 by simpa using hz), berr]

example : ∃ y' : Ser ℚ, Ser.inv codeletKer (fun _ _ => (9 : ℚ)) (Ser.new 7 fun _ => 9)
    ⟨3, 7, 2, fun i => i + 2⟩ = .ok y' ∧ y'.known = 7 ∧
    (∑ p ∈ antidiagonal 0, (⟨3, 7, 2, fun i => i + 2⟩ : Ser ℚ).at p.1 * y'.at p.2) = 1 := by
  obtain ⟨y', e, _, h2, h3⟩ := C12_inv (codeletKer_exact (K := ℚ)) (fun _ _ => (9 : ℚ)) (Ser.new 7 fun _ => 9)
    ⟨3, 7, 2, fun i => i + 2⟩ 7 ⟨by norm_num, by norm_num, by norm_num⟩ rfl (by norm_num)
    (by norm_num [Ser.at]) (by norm_num [Ser.new, relu]) le_rfl
  exact ⟨y', e, by simpa using h2, by simpa using h3 0 (by norm_num)⟩

/-- C13.  `div(a, b)` is the quotient to full order. -/
theorem C13_div {N : ℕ} (hker : ker.Exact N) (J : Junk K) (y a b : Ser K) (na nb : ℕ) (ha : a.WF) (hb : b.WF)
    (hna : a.known = na) (hnb : b.known = nb) (ha1 : 0 < na → 1 ≤ a.nonzero)
    (hb1 : 0 < nb → 1 ≤ b.nonzero) (h0 : 0 < min na nb → b.at 0 ≠ 0)
    (hl : ((min na nb : ℕ) : ℤ) ≤ y.limit) (hN : min na nb ≤ N) :
    ∃ y' : Ser K, Ser.div ker J y a b = .ok y' ∧ y'.limit = y.limit ∧ y'.known = (min na nb : ℕ) ∧
      ∀ k < min na nb, (∑ p ∈ antidiagonal k, b.at p.1 * y'.at p.2) = a.at k := by
  have hB : 0 < min na nb → constantCoeff b.ps ≠ 0 := fun h => by rw [cc_ps]; exact h0 h
  obtain ⟨y', e, hy1, hy2⟩ := Ser.div_has hker J (y := y) (has_self ha hna ha1) (has_self hb hnb hb1)
    rfl hB hl
  refine ⟨y', e, hy1, hy2.known, fun k hk => ?_⟩
  have h2 : Agree (min na nb) (b.ps * y'.ps) a.ps := by
    have := (Agree.rfl' (F := b.ps)).mul hy2.agree
    rwa [mul_left_comm, PowerSeries.mul_inv_cancel _ (hB (by omega)), mul_one] at this
  have h3 := h2 k hk
  rw [coeff_mul_seq, Ser.seqOf_ps, Ser.seqOf_ps, Ser.coeff_ps_at] at h3
  exact h3

example : ∃ y' : Ser ℚ, Ser.div codeletKer (fun _ _ => (9 : ℚ)) (Ser.new 6 fun _ => 9)
    ⟨3, 7, 2, fun i => i + 3⟩ ⟨3, 6, 3, fun i => i + 2⟩ = .ok y' ∧ y'.known = 6 := by
  obtain ⟨y', e, _, h2, _⟩ := C13_div (codeletKer_exact (K := ℚ)) (fun _ _ => (9 : ℚ)) (Ser.new 6 fun _ => 9)
    ⟨3, 7, 2, fun i => i + 3⟩ ⟨3, 6, 3, fun i => i + 2⟩ 7 6 ⟨by norm_num, by norm_num, by norm_num⟩
    ⟨by norm_num, by norm_num, by norm_num⟩ rfl rfl (by norm_num) (by norm_num)
    (by norm_num [Ser.at]) (by norm_num [Ser.new, relu]) le_rfl
  exact ⟨y', e, by simpa using h2⟩

/-- C14.  `inv1p(x, s)`: `(1 + z^s x)(1 + z^s y) = 1` to order `x.known() + s`. -/
theorem C14_inv1p {N : ℕ} (hker : ker.Exact N) (J : Junk K) (y x : Ser K) (n s : ℕ) (hs : 0 < s) (hx : x.WF)
    (hn : x.known = n) (h1 : 0 < n → 1 ≤ x.nonzero) (hl : n ≤ y.limit) (hN : n ≤ N) :
    ∃ y' : Ser K, Ser.inv1p ker J y x s = .ok y' ∧ y'.limit = y.limit ∧ y'.known = n ∧
      ∀ k < n + s, (∑ p ∈ antidiagonal k, Spec.onePlus s x.at p.1 * Spec.onePlus s y'.at p.2) =
        if k = 0 then 1 else 0 := by
  obtain ⟨y', e, hy1, hy2⟩ := Ser.inv1p_has hker J (y := y) hs (has_self hx hn h1) hl
  refine ⟨y', e, hy1, hy2.known, fun k hk => ?_⟩
  have h2 : Agree (n + s) ((1 + X ^ s * x.ps) * (1 + X ^ s * y'.ps)) 1 := by
    have := (Agree.rfl' (F := 1 + X ^ s * x.ps)).mul
      ((Agree.rfl' (F := (1 : K⟦X⟧))).add (hy2.agree.X_pow_mul s))
    rwa [Ser.inv1pS_mul hs x.ps] at this
  have h3 := h2 k hk
  rw [coeff_mul_seq, seqOf_onePlus, seqOf_onePlus, Ser.seqOf_ps, Ser.seqOf_ps, coeff_one] at h3
  exact h3

/-- C14.  `div1p(a, b, s)`: `(1 + z^s b) y = a` to order `min(a.known(), b.known() + s)`. -/
theorem C14_div1p {N : ℕ} (hker : ker.Exact N) (J : Junk K) (y a b : Ser K) (na nb s : ℕ) (hs : 0 < s)
    (ha : a.WF) (hb : b.WF) (hna : a.known = na) (hnb : b.known = nb) (ha1 : 0 < na → 1 ≤ a.nonzero)
    (hb1 : 0 < nb → 1 ≤ b.nonzero) (hl : ((min na (nb + s) : ℕ) : ℤ) ≤ y.limit) (hN : min na (nb + s) ≤ N) :
    ∃ y' : Ser K, Ser.div1p ker J y a b s = .ok y' ∧ y'.limit = y.limit ∧
      y'.known = (min na (nb + s) : ℕ) ∧
      ∀ k < min na (nb + s), (∑ p ∈ antidiagonal k, Spec.onePlus s b.at p.1 * y'.at p.2) = a.at k := by
  obtain ⟨y', e, hy1, hy2⟩ := Ser.div1p_has hker J (y := y) hs (has_self ha hna ha1)
    (has_self hb hnb hb1) rfl hl
  refine ⟨y', e, hy1, hy2.known, fun k hk => ?_⟩
  have h2 : Agree (min na (nb + s)) ((1 + X ^ s * b.ps) * y'.ps) a.ps := by
    have := (Agree.rfl' (F := 1 + X ^ s * b.ps)).mul hy2.agree
    rwa [mul_left_comm, PowerSeries.mul_inv_cancel _
      (by rw [Ser.constantCoeff_1p hs]; exact one_ne_zero), mul_one] at this
  have h3 := h2 k hk
  rw [coeff_mul_seq, seqOf_onePlus, Ser.seqOf_ps, Ser.seqOf_ps, Ser.coeff_ps_at] at h3
  exact h3

example : ∃ y' : Ser ℚ, Ser.inv1p codeletKer (fun _ _ => (9 : ℚ)) (Ser.new 7 fun _ => 9)
    ⟨3, 7, 2, fun i => i + 2⟩ (2 : ℕ) = .ok y' ∧ y'.known = 7 := by
  obtain ⟨y', e, _, h2, h3⟩ := C14_inv1p (codeletKer_exact (K := ℚ)) (fun _ _ => (9 : ℚ)) (Ser.new 7 fun _ => 9)
    ⟨3, 7, 2, fun i => i + 2⟩ 7 2 (by norm_num) ⟨by norm_num, by norm_num, by norm_num⟩ rfl (by norm_num)
    (by norm_num [Ser.new, relu]) le_rfl
  exact ⟨y', e, by simpa using h2⟩

example : ∃ y' : Ser ℚ, Ser.div1p codeletKer (fun _ _ => (9 : ℚ)) (Ser.new 7 fun _ => 9)
    ⟨3, 7, 2, fun i => i + 3⟩ ⟨3, 6, 3, fun i => i + 2⟩ (1 : ℕ) = .ok y' ∧ y'.known = 7 := by
  obtain ⟨y', e, _, h2, _⟩ := C14_div1p (codeletKer_exact (K := ℚ)) (fun _ _ => (9 : ℚ)) (Ser.new 7 fun _ => 9)
    ⟨3, 7, 2, fun i => i + 3⟩ ⟨3, 6, 3, fun i => i + 2⟩ 7 6 1 (by norm_num)
    ⟨by norm_num, by norm_num, by norm_num⟩
    ⟨by norm_num, by norm_num, by norm_num⟩ rfl rfl (by norm_num) (by norm_num)
    (by norm_num [Ser.new, relu]) le_rfl
  exact ⟨y', e, by simpa using h2⟩

/-- C15.  `exp` is the exponential to full order, also for a series without stored terms. -/
theorem C15_exp {N : ℕ} (hker : ker.Exact N) (J : Junk K) (y x : Ser K) (n : ℕ) (hx : x.WF) (hn : x.known = n)
    (h0 : x.at 0 = 0) (hl : n ≤ y.limit) (hN : n ≤ N) :
    ∃ y' : Ser K, Ser.exp ker J y x = .ok y' ∧ y'.limit = y.limit ∧ y'.known = n ∧
      Spec.IsExp n x.at y'.at := by
  have hF : constantCoeff x.ps = 0 := by rw [cc_ps]; exact h0
  obtain ⟨y', e, hy1, hy2⟩ := Ser.exp_has hker J (y := y) (Ser.Is.self hx n hn) (fun _ => hF) hl
  refine ⟨y', e, hy1, hy2.known, ?_⟩
  have := isExp_of_agree hF hy2.agree
  rwa [Ser.seqOf_ps, Ser.seqOf_ps] at this

/-- C15.  On the host, `exp` of a series with a nonzero constant term is refused. -/
theorem C15_exp_throws (J : Junk K) (y x : Ser K) (hc : ker.check = true) (hk : x.known ≠ 0)
    (hz : x.nonzero ≠ 0) (h0 : x.data 0 ≠ 0) : Ser.exp ker J y x = .error .assertion := by
  simp only [Ser.exp, if_neg hk, hc, if_true,
    slowAssert_false (show ¬ (x.nonzero = 0 ∨ x.data 0 = 0) by simp [hz, h0]), berr]

example : ∃ y' : Ser ℚ, Ser.exp codeletKer (fun _ _ => (9 : ℚ)) (Ser.new 7 fun _ => 9)
    ⟨3, 7, 3, fun i => i⟩ = .ok y' ∧ y'.known = 7 ∧ y'.at 0 = 1 ∧ y'.at 1 = 1 := by
  obtain ⟨y', e, _, h2, h3, h4⟩ := C15_exp (codeletKer_exact (K := ℚ)) (fun _ _ => (9 : ℚ)) (Ser.new 7 fun _ => 9)
    ⟨3, 7, 3, fun i => i⟩ 7 ⟨by norm_num, by norm_num, by norm_num⟩ rfl
    (by norm_num [Ser.at]) (by norm_num [Ser.new, relu]) le_rfl
  refine ⟨y', e, by simpa using h2, h3 (by norm_num), ?_⟩
  have := h4 0 (by norm_num)
  have h5 := h3 (by norm_num)
  simp only [Spec.deriv, Spec.prod, Finset.Nat.antidiagonal_zero, sum_singleton, h5] at this
  norm_num [Ser.at] at this ⊢
  exact this

/-- C16.  `log` of a series with constant term one. -/
theorem C16_log {N : ℕ} (hker : ker.Exact N) (J : Junk K) (y x : Ser K) (n : ℕ) (hx : x.WF) (hn : x.known = n)
    (h1 : 0 < n → 1 ≤ x.nonzero) (h0 : 0 < n → x.at 0 = 1) (hl : n ≤ y.limit) (hN : n ≤ N) :
    ∃ y' : Ser K, Ser.log ker J y x = .ok y' ∧ y'.limit = y.limit ∧ y'.known = n ∧
      Spec.IsLog n x.at y'.at := by
  have hF : 0 < n → constantCoeff x.ps = 1 := fun h => by rw [cc_ps]; exact h0 h
  obtain ⟨y', e, hy1, hy2⟩ := Ser.log_has hker J (y := y) (has_self hx hn h1) hF hl
  refine ⟨y', e, hy1, hy2.known, ?_⟩
  rcases Nat.eq_zero_or_pos n with rfl | hpos
  · exact ⟨fun h => absurd h (by omega), fun h => absurd h (by omega), fun k hk => absurd hk (by omega)⟩
  · have := isLog_of_agree (hF hpos) hy2.agree
    rwa [Ser.seqOf_ps, Ser.seqOf_ps] at this

/-- C16.  On the host, `log` of a series with constant term other than one is refused. -/
theorem C16_log_throws (J : Junk K) (y x : Ser K) (hc : ker.check = true) (hk : x.known ≠ 0)
    (h0 : x.nonzero = 0 ∨ x.data 0 ≠ 1) : Ser.log ker J y x = .error .assertion := by
  by_cases hz : x.nonzero = 0
  · simp only [Ser.log, if_neg hk, slowAssert_false (show ¬ x.nonzero ≠ 0 by simpa using hz), berr]
  · have h2 : ¬ x.data 0 = 1 := h0.resolve_left hz
    simp only [Ser.log, if_neg hk, slowAssert_true (show x.nonzero ≠ 0 from hz), bok, hc, if_true,
      slowAssert_false h2, berr]

/-- C16.  `log1p(x, s)`: `z^s y = log(1 + z^s x)`. -/
theorem C16_log1p {N : ℕ} (hker : ker.Exact N) (J : Junk K) (y x : Ser K) (n s : ℕ) (hs : 0 < s) (hx : x.WF)
    (hn : x.known = n) (h1 : 0 < n → 1 ≤ x.nonzero) (hl : n ≤ y.limit) (hN : n ≤ N) :
    ∃ y' : Ser K, Ser.log1p ker J y x s = .ok y' ∧ y'.limit = y.limit ∧ y'.known = n ∧
      Spec.IsLog (n + s) (Spec.onePlus s x.at) (Spec.shift s y'.at) := by
  obtain ⟨y', e, hy1, hy2⟩ := Ser.log1p_has hker J (y := y) hs (has_self hx hn h1) hl
  refine ⟨y', e, hy1, hy2.known, ?_⟩
  have h2 := hy2.agree.X_pow_mul s
  rw [Ser.X_pow_mul_log1pS hs] at h2
  have := isLog_of_agree (Ser.constantCoeff_1p hs x.ps) h2
  rwa [seqOf_onePlus, seqOf_shift, Ser.seqOf_ps, Ser.seqOf_ps] at this

example : ∃ y' : Ser ℚ, Ser.log codeletKer (fun _ _ => (9 : ℚ)) (Ser.new 7 fun _ => 9)
    ⟨3, 7, 3, fun i => i + 1⟩ = .ok y' ∧ y'.known = 7 := by
  obtain ⟨y', e, _, h2, h3⟩ := C16_log (codeletKer_exact (K := ℚ)) (fun _ _ => (9 : ℚ)) (Ser.new 7 fun _ => 9)
    ⟨3, 7, 3, fun i => i + 1⟩ 7 ⟨by norm_num, by norm_num, by norm_num⟩ rfl (by norm_num)
    (by norm_num [Ser.at]) (by norm_num [Ser.new, relu]) le_rfl
  exact ⟨y', e, by simpa using h2⟩

example : ∃ y' : Ser ℚ, Ser.log1p codeletKer (fun _ _ => (9 : ℚ)) (Ser.new 7 fun _ => 9)
    ⟨3, 7, 3, fun i => i + 4⟩ (3 : ℕ) = .ok y' ∧ y'.known = 7 := by
  obtain ⟨y', e, _, h2, h3⟩ := C16_log1p (codeletKer_exact (K := ℚ)) (fun _ _ => (9 : ℚ)) (Ser.new 7 fun _ => 9)
    ⟨3, 7, 3, fun i => i + 4⟩ 7 3 (by norm_num) ⟨by norm_num, by norm_num, by norm_num⟩ rfl (by norm_num)
    (by norm_num [Ser.new, relu]) le_rfl
  exact ⟨y', e, by simpa using h2⟩

/-- C17.  `expm1(x, a, s)`: `1 + z^s y = exp(a z^s x)` for `a = ±1`. -/
theorem C17_expm1 {N : ℕ} (hker : ker.Exact N) (J : Junk K) (y x : Ser K) (n s : ℕ) (a : ℤ) (ha : a = 1 ∨ a = -1)
    (hs : 0 < s) (hx : x.WF) (hn : x.known = n) (h1 : 0 < n → 1 ≤ x.nonzero) (hl : n ≤ y.limit) (hN : n ≤ N) :
    ∃ y' : Ser K, Ser.expm1 ker J y x a s = .ok y' ∧ y'.limit = y.limit ∧ y'.known = n ∧
      Spec.IsExp (n + s) (fun k => (a : K) * Spec.shift s x.at k) (Spec.onePlus s y'.at) := by
  obtain ⟨y', e, hy1, hy2⟩ := Ser.expm1_has hker J (y := y) ha hs (has_self hx hn h1) hl
  refine ⟨y', e, hy1, hy2.known, ?_⟩
  have h2 : Agree (n + s) (1 + X ^ s * y'.ps) (E ((a : K⟦X⟧) * (X ^ s * x.ps))) := by
    rw [← Ser.X_pow_mul_expm1S hs]
    exact Agree.rfl'.add (hy2.agree.X_pow_mul s)
  have := isExp_of_agree (Ser.constantCoeff_aXs hs a x.ps) h2
  rw [seqOf_onePlus, Ser.seqOf_ps] at this
  convert this using 1
  ext k
  rw [← Ser.seqOf_ps, ← seqOf_shift]
  have e3 : (a : K⟦X⟧) = C (a : K) := by simp
  simp only [seqOf, e3, coeff_C_mul]

/-- C17.  Any other multiplier, or a shift below one, is refused. -/
theorem C17_expm1_throws (J : Junk K) (y x : Ser K) (a s : ℤ) (h : ¬ ((a = 1 ∨ a = -1) ∧ s > 0)) :
    Ser.expm1 ker J y x a s = .error .assertion := by
  simp only [Ser.expm1, slowAssert_false h, berr]

example : ∃ y' : Ser ℚ, Ser.expm1 codeletKer (fun _ _ => (9 : ℚ)) (Ser.new 7 fun _ => 9)
    ⟨3, 7, 3, fun i => i + 4⟩ (-1) (3 : ℕ) = .ok y' ∧ y'.known = 7 := by
  obtain ⟨y', e, _, h2, h3⟩ := C17_expm1 (codeletKer_exact (K := ℚ)) (fun _ _ => (9 : ℚ)) (Ser.new 7 fun _ => 9)
    ⟨3, 7, 3, fun i => i + 4⟩ 7 3 (-1) (Or.inr rfl) (by norm_num) ⟨by norm_num, by norm_num, by norm_num⟩
    rfl (by norm_num) (by norm_num [Ser.new, relu]) le_rfl
  exact ⟨y', e, by simpa using h2⟩

/-- C18.  `log1p_exp(x, s)`: `z^s y = log(1 + z^s e^x)`, where `e` is the exponential of `x`. -/
theorem C18_log1p_exp {N : ℕ} (hker : ker.Exact N) (J : Junk K) (y x : Ser K) (n s : ℕ) (hs : 0 < s) (hx : x.WF)
    (hn : x.known = n) (h1 : 0 < n → 1 ≤ x.nonzero) (h0 : x.at 0 = 0) (hl : n ≤ y.limit) (hN : n ≤ N) :
    ∃ y' : Ser K, Ser.log1pExp ker J y x s = .ok y' ∧ y'.limit = y.limit ∧ y'.known = n ∧
      ∀ e : ℕ → K, Spec.IsExp n x.at e →
        Spec.IsLog (n + s) (Spec.onePlus s e) (Spec.shift s y'.at) := by
  have hF : constantCoeff x.ps = 0 := by rw [cc_ps]; exact h0
  obtain ⟨y', e, hy1, hy2⟩ := Ser.log1pExp_has hker J (y := y) hs (has_self hx hn h1) (fun _ => hF) hl
  refine ⟨y', e, hy1, hy2.known, fun u hu => ?_⟩
  have hu' : Agree n (PowerSeries.mk u) (E x.ps) := by
    refine agree_of_isExp hF ?_
    have : seqOf (PowerSeries.mk u) = u := by ext k; simp [seqOf]
    rwa [Ser.seqOf_ps, this]
  have h2 := hy2.agree.X_pow_mul s
  rw [Ser.log1pExpS, Ser.X_pow_mul_log1pS hs] at h2
  have h3 : Agree (n + s) (L (1 + X ^ s * E x.ps)) (L (1 + X ^ s * PowerSeries.mk u)) :=
    L_agree (Ser.constantCoeff_1p hs _) (Ser.constantCoeff_1p hs _)
      (Agree.rfl'.add (hu'.symm.X_pow_mul s))
  have := isLog_of_agree (Ser.constantCoeff_1p hs _) (h2.trans h3)
  have e2 : seqOf (PowerSeries.mk u) = u := by ext k; simp [seqOf]
  rwa [seqOf_onePlus, seqOf_shift, Ser.seqOf_ps, e2] at this

/-- The exponential of a sequence with constant term zero exists, so C18 is not vacuous. -/
theorem exists_isExp (n : ℕ) (x : ℕ → K) (h0 : x 0 = 0) : ∃ e : ℕ → K, Spec.IsExp n x e := by
  have hF : constantCoeff (PowerSeries.mk x) = 0 := by
    rw [← coeff_zero_eq_constantCoeff_apply, coeff_mk, h0]
  have := isExp_of_agree hF (Agree.rfl' (n := n) (F := E (PowerSeries.mk x)))
  have e2 : seqOf (PowerSeries.mk x) = x := by ext k; simp [seqOf]
  rw [e2] at this
  exact ⟨_, this⟩

example : ∃ y' : Ser ℚ, Ser.log1pExp codeletKer (fun _ _ => (9 : ℚ)) (Ser.new 7 fun _ => 9)
    ⟨3, 7, 3, fun i => i⟩ (3 : ℕ) = .ok y' ∧ y'.known = 7 := by
  obtain ⟨y', e, _, h2, h3⟩ := C18_log1p_exp (codeletKer_exact (K := ℚ)) (fun _ _ => 9)
    (Ser.new 7 fun _ => 9) ⟨3, 7, 3, fun i => i⟩ 7 3 (by norm_num)
    ⟨by norm_num, by norm_num, by norm_num⟩ rfl (by norm_num) (by norm_num [Ser.at])
    (by norm_num [Ser.new, relu]) le_rfl
  exact ⟨y', e, by simpa using h2⟩

end Props

end Mandelbrot
