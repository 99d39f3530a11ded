import Verif.Area.Bridge
import Verif.Area.AreaSum
import Verif.Props.SeriesNewton
import Verif.Props.Loops
import Mathlib.RingTheory.LaurentSeries

/-!
# C27 to C31: the functions of /repo/area.cc
-/

set_option linter.unusedSectionVars false

namespace Mandelbrot

open PowerSeries Finset

namespace Props

variable {K : Type} [Field K] [CharZero K] [Ldexp K] [Ser.LawfulLdexp K] [DecidableEq K]
variable {ker : Ker K}

/-! ## C27 escape and implicit -/

theorem c27_agree {n k : ℕ} {G H' : K⟦X⟧} (hG : constantCoeff G = 0)
    (hF : Agree n H' (Bottcher.H G k + G)) (f : ℕ → K) (hf : Spec.IsExp n (seqOf G) f) :
    Spec.IsExp n (fun j => 2 ^ k * seqOf H' j) (Spec.mandelQ f k) := by
  have hcc : constantCoeff (C ((2 : K) ^ k) * (Bottcher.H G k + G)) = 0 := by
    rw [map_mul, map_add, Bottcher.constantCoeff_H, hG, add_zero, mul_zero]
  rw [← seqOf_mk f] at hf
  have h1 := agree_of_isExp hG hf
  have h2 := isExp_of_agree hcc (n := n) (Y := Bottcher.Q (PowerSeries.mk f) k) (by
    rw [Bottcher.E_H hG]; exact Bottcher.Q_agree h1 k)
  rw [seqOf_Q, seqOf_mk] at h2
  refine h2.congr (fun j hj _ => ?_) (fun _ _ => rfl)
  rw [seqOf_C_mul]
  have := hF j hj
  simp only [seqOf]
  rw [this]

theorem c27_dagree {n dn k : ℕ} (hdn : dn ≤ n) {G D dF : K⟦X⟧} (hG : constantCoeff G = 0)
    (hF : Agree dn dF (Bottcher.dH G D k + D)) (f : ℕ → K) (hf : Spec.IsExp n (seqOf G) f) :
    ∀ j < dn, 2 ^ k * Spec.prod (Spec.mandelQ f k) (seqOf dF) j =
      Spec.dmandelQ f (Spec.prod f (seqOf D)) k j := by
  intro j hj
  rw [← seqOf_mk f] at hf
  have h1 := (agree_of_isExp hG hf).mono hdn
  have hdQ : ∀ k, Agree dn (Bottcher.dQ (PowerSeries.mk f) D k) (Bottcher.dQ (E G) D k) := by
    intro k
    induction k with
    | zero => exact h1.mul Agree.rfl'
    | succ k ih =>
      exact ((Agree.rfl'.mul (Bottcher.Q_agree h1 k)).mul ih).add (Agree.rfl'.mul (h1.mul Agree.rfl'))
  have h2 : Agree dn (C ((2 : K) ^ k) * (Bottcher.Q (PowerSeries.mk f) k * dF))
      (Bottcher.dQ (PowerSeries.mk f) D k) := by
    refine Agree.trans ?_ (hdQ k).symm
    rw [← Bottcher.Q_mul_dH hG, mul_assoc]
    exact Agree.rfl'.mul ((Bottcher.Q_agree h1 k).mul hF)
  have h3 := h2 j hj
  have e1 : coeff j (C ((2 : K) ^ k) * (Bottcher.Q (PowerSeries.mk f) k * dF)) =
      2 ^ k * Spec.prod (Spec.mandelQ f k) (seqOf dF) j := by
    rw [coeff_C_mul, coeff_mul_seq, seqOf_Q, seqOf_mk]
  have e2 : coeff j (Bottcher.dQ (PowerSeries.mk f) D k) =
      Spec.dmandelQ f (Spec.prod f (seqOf D)) k j := by
    have := congrFun (seqOf_dQ (PowerSeries.mk f) D k) j
    rwa [seqOf_mul, seqOf_mk] at this
  rw [← e1, ← e2, h3]

/-- C27.  `implicit(F, dF, k, g, dg, n, dn)` returns, to the requested orders, `F` with
`exp(2^k F) = Q_k(exp(g))` and `dF` with `2^k Q_k dF` equal to the derivative of `Q_k` when `g` changes by `dg`.
The orders `n` and `dn ≤ n` are arbitrary; `dn = 0` gives an unknown series, as used for `ignore`. -/
theorem C27_implicit {N : ℕ} (hker : ker.Exact N) (J : Junk K) (F dF g dg : Ser K) (k n dn : ℕ)
    (hg : g.WF) (hdg : dg.WF) (hgn : n ≤ g.known) (hdgn : dn ≤ dg.known) (hdn : dn ≤ n) (h0 : g.at 0 = 0)
    (hF : n ≤ F.limit) (hdF : dn ≤ dF.limit) (hN : n ≤ N) :
    ∃ F' dF', Area.implicit ker J F dF k g dg n dn = .ok (F', dF') ∧
      F'.limit = F.limit ∧ F'.known = n ∧ dF'.limit = dF.limit ∧ dF'.known = dn ∧
      ∀ f, Spec.IsExp n g.at f →
        Spec.IsExp n (fun j => 2 ^ k * F'.at j) (Spec.mandelQ f k) ∧
        ∀ j < dn, 2 ^ k * Spec.prod (Spec.mandelQ f k) dF'.at j = Spec.dmandelQ f (Spec.prod f dg.at) k j := by
  obtain ⟨ng, hng⟩ := Int.eq_ofNat_of_zero_le (show 0 ≤ g.known by omega)
  obtain ⟨nd, hnd⟩ := Int.eq_ofNat_of_zero_le (show 0 ≤ dg.known by omega)
  have hG : constantCoeff g.ps = 0 := by rw [cc_ps]; exact h0
  obtain ⟨F', dF', e, h1, l1, h2, l2, _⟩ := Area.implicit_has hker J (Ser.Is.self hg ng hng) (by omega) hG
    (Ser.Is.self hdg nd hnd) (by omega) hdn hF hdF k
  refine ⟨F', dF', e, l1, h1.known, l2, h2.known, fun f hf => ?_⟩
  rw [← Ser.seqOf_ps] at hf
  refine ⟨?_, ?_⟩
  · have := c27_agree hG h1.agree f hf
    rwa [Ser.seqOf_ps] at this
  · have := c27_dagree hdn hG h2.agree f hf
    rwa [Ser.seqOf_ps, Ser.seqOf_ps] at this

/-- C27.  `escape` returns the same without `g`: `h = F - g`. -/
theorem C27_escape {N : ℕ} (hker : ker.Exact N) (J : Junk K) (h dh g dg : Ser K) (k n dn : ℕ)
    (hg : g.WF) (hdg : dg.WF) (hgn : n ≤ g.known) (hdgn : dn ≤ dg.known) (hdn : dn ≤ n) (h0 : g.at 0 = 0)
    (hF : n ≤ h.limit) (hdF : dn ≤ dh.limit) (hN : n ≤ N) :
    ∃ h' dh', Area.escape ker J h dh k g dg n dn = .ok (h', dh') ∧
      h'.limit = h.limit ∧ h'.known = n ∧ dh'.limit = dh.limit ∧ dh'.known = dn ∧
      ∀ f, Spec.IsExp n g.at f →
        Spec.IsExp n (fun j => 2 ^ k * (h'.at j + g.at j)) (Spec.mandelQ f k) ∧
        ∀ j < dn, 2 ^ k * Spec.prod (Spec.mandelQ f k) (fun i => dh'.at i + dg.at i) j =
          Spec.dmandelQ f (Spec.prod f dg.at) k j := by
  obtain ⟨ng, hng⟩ := Int.eq_ofNat_of_zero_le (show 0 ≤ g.known by omega)
  obtain ⟨nd, hnd⟩ := Int.eq_ofNat_of_zero_le (show 0 ≤ dg.known by omega)
  have hG : constantCoeff g.ps = 0 := by rw [cc_ps]; exact h0
  obtain ⟨F', dF', e, h1, l1, h2, l2, _⟩ := Area.escape_has hker J (Ser.Is.self hg ng hng) (by omega) hG
    (Ser.Is.self hdg nd hnd) (by omega) hdn hF hdF k
  refine ⟨F', dF', e, l1, h1.known, l2, h2.known, fun f hf => ?_⟩
  rw [← Ser.seqOf_ps] at hf
  have s1 : ∀ a b : Ser K, seqOf (a.ps + b.ps) = fun j => a.at j + b.at j := by
    intro a b; ext j; rw [seqOf_add, Ser.seqOf_ps, Ser.seqOf_ps]
  refine ⟨?_, ?_⟩
  · have := c27_agree hG (h1.agree.add (Agree.rfl' (F := g.ps))) f hf
    rwa [s1] at this
  · have := c27_dagree hdn hG (h2.agree.add (Agree.rfl' (F := dg.ps))) f hf
    rwa [s1, Ser.seqOf_ps] at this

/-- C27.  `dF` is the derivative of `F`: when `g` changes by `z^m dg`, `F` changes by `z^m dF` up to terms of
order `2m`. -/
theorem C27_perturbation {N : ℕ} (hker : ker.Exact N) (J J' : Junk K) (F₁ dF₁ F₂ dF₂ g g₂ dg : Ser K) (k n dn m : ℕ)
    (hm : 0 < m) (hg : g.WF) (hg₂ : g₂.WF) (hdg : dg.WF) (hgn : n ≤ g.known) (hgn₂ : n ≤ g₂.known)
    (hdgn : dn ≤ dg.known) (hdn : dn ≤ n) (h0 : g.at 0 = 0)
    (hpert : ∀ j < n, g₂.at j = g.at j + Spec.shift m dg.at j) (hn : 0 < n)
    (h1 : n ≤ F₁.limit) (h2 : dn ≤ dF₁.limit) (h3 : n ≤ F₂.limit) (h4 : dn ≤ dF₂.limit) (hN : n ≤ N) :
    ∃ F dF F' dF', Area.implicit ker J F₁ dF₁ k g dg n dn = .ok (F, dF) ∧
      Area.implicit ker J' F₂ dF₂ k g₂ dg n dn = .ok (F', dF') ∧
      ∀ j < n, j < 2 * m → j < m + dn → F'.at j = F.at j + Spec.shift m dF.at j := by
  obtain ⟨ng, hng⟩ := Int.eq_ofNat_of_zero_le (show 0 ≤ g.known by omega)
  obtain ⟨ng₂, hng₂⟩ := Int.eq_ofNat_of_zero_le (show 0 ≤ g₂.known by omega)
  obtain ⟨nd, hnd⟩ := Int.eq_ofNat_of_zero_le (show 0 ≤ dg.known by omega)
  have hG : constantCoeff g.ps = 0 := by rw [cc_ps]; exact h0
  have hG₂ : constantCoeff g₂.ps = 0 := by
    rw [cc_ps, hpert 0 hn, h0, Spec.shift, if_pos hm, add_zero]
  obtain ⟨F, dF, e, hF, _, hdF, _, _⟩ := Area.implicit_has hker J (Ser.Is.self hg ng hng) (by omega) hG
    (Ser.Is.self hdg nd hnd) (by omega) hdn h1 h2 k
  obtain ⟨F', dF', e', hF', _, _, _, _⟩ := Area.implicit_has hker J' (Ser.Is.self hg₂ ng₂ hng₂) (by omega) hG₂
    (Ser.Is.self hdg nd hnd) (by omega) hdn h3 h4 k
  refine ⟨F, dF, F', dF', e, e', fun j hj hj2 hjd => ?_⟩
  have hD : Agree m (X ^ m * dg.ps) 0 := by
    have := Agree.X_pow_mul m (Agree.zero dg.ps 0)
    rwa [mul_zero, zero_add] at this
  have hD0 : constantCoeff (X ^ m * dg.ps) = 0 := by
    rw [map_mul, map_pow, constantCoeff_X, zero_pow hm.ne', zero_mul]
  have hT := Bottcher.F_taylor hm hG hD k
  have hA : Agree n g₂.ps (g.ps + X ^ m * dg.ps) := by
    intro i hi
    have := hpert i hi
    rw [← Ser.seqOf_ps g₂, ← Ser.seqOf_ps g, ← Ser.seqOf_ps dg, ← seqOf_shift] at this
    rw [map_add]
    exact this
  have hH := Bottcher.H_agree hG₂ (by rw [map_add, hG, hD0, add_zero]) hA k
  have e3 : F'.at j = coeff j (Bottcher.H g₂.ps k + g₂.ps) := by
    rw [← Ser.coeff_ps_at]; exact hF'.agree j hj
  have e4 : F.at j = coeff j (Bottcher.H g.ps k + g.ps) := by
    rw [← Ser.coeff_ps_at]; exact hF.agree j hj
  have e5 : Bottcher.dH g.ps (X ^ m * dg.ps) k + X ^ m * dg.ps = X ^ m * (Bottcher.dH g.ps dg.ps k + dg.ps) := by
    rw [Bottcher.dH_mul]; ring
  rw [e3, hH j hj, hT j hj2, map_add, ← e4, e5]
  congr 1
  have h6 := Agree.X_pow_mul m hdF.agree j (by omega)
  rw [← h6, ← Ser.seqOf_ps, ← seqOf_shift]
  rfl

/-- C27.  What `Q_k` is: in the field of Laurent series, `z^(2^k)` times the `k`-th Mandelbrot iterate at
`c = f/z`. -/
theorem C27_mandelbrot (f : ℕ → K) (k : ℕ) :
    let toLaurent := HahnSeries.ofPowerSeries ℤ K
    let z := toLaurent X
    toLaurent (PowerSeries.mk (Spec.mandelQ f k)) =
      z ^ 2 ^ k * Spec.mandel (toLaurent (PowerSeries.mk f) / z) k := by
  intro φ z
  have hz : z ≠ 0 := by
    intro h
    have : (X : K⟦X⟧) = 0 := HahnSeries.ofPowerSeries_injective (Γ := ℤ) (h.trans (map_zero _).symm)
    exact X_ne_zero this
  have hQ : ∀ k, PowerSeries.mk (Spec.mandelQ f k) = Bottcher.Q (PowerSeries.mk f) k := by
    intro k
    ext j
    rw [coeff_mk, ← seqOf_mk f, ← seqOf_Q, seqOf_mk]
    rfl
  rw [hQ]
  induction k with
  | zero =>
    simp only [Bottcher.Q, Spec.mandel, pow_zero, pow_one]
    field_simp
  | succ k ih =>
    rw [Bottcher.Q, map_add, map_pow, ih, map_mul, map_pow, Spec.mandel]
    have e : φ (PowerSeries.mk f) = z * (φ (PowerSeries.mk f) / z) := by field_simp
    have hp : (2 : ℕ) ^ (k + 1) = 2 ^ (k + 1) - 1 + 1 := by
      have := Nat.two_pow_pos (k + 1); omega
    have h2 : z ^ 2 ^ (k + 1) = (z ^ 2 ^ k) ^ 2 := by rw [← pow_mul, pow_succ]
    have h3 : z ^ 2 ^ (k + 1) = z ^ (2 ^ (k + 1) - 1) * z := by rw [← pow_succ, ← hp]
    rw [mul_add]
    nth_rewrite 2 [h3]
    rw [h2]
    nth_rewrite 2 [e]
    ring

/-- C27 example: `g = z` to three terms, two iterations, derivative to two terms. -/
example : ∃ F' dF', Area.implicit (codeletKer (K := ℚ)) (fun _ _ => 9) (Ser.new 3 fun _ => 9) (Ser.new 2 fun _ => 9)
    2 ⟨2, 3, 2, fun i => i⟩ ⟨1, 2, 1, fun _ => 1⟩ (3 : ℕ) (2 : ℕ) = .ok (F', dF') ∧ F'.known = 3 ∧
    dF'.known = 2 := by
  obtain ⟨F', dF', e, _, h1, _, h2, _⟩ := C27_implicit (codeletKer_exact (K := ℚ)) (fun _ _ => 9)
    (Ser.new 3 fun _ => 9) (Ser.new 2 fun _ => 9) ⟨2, 3, 2, fun i => i⟩ ⟨1, 2, 1, fun _ => 1⟩ 2 3 2
    ⟨by norm_num, by norm_num, by norm_num⟩ ⟨by norm_num, by norm_num, by norm_num⟩ (by norm_num) (by norm_num)
    (by norm_num) (by norm_num [Ser.at]) (by norm_num [Ser.new, relu]) (by norm_num [Ser.new, relu]) le_rfl
  exact ⟨F', dF', e, h1, h2⟩

/-! ## C28 bottcher_step -/

/-- C28.  Starting from a `g` with `2^k` correct terms, `bottcher_step` either throws because the area was
judged inaccurate, or leaves `g` with `2^(k+1)` correct terms, the ones present unchanged, and returns
`f = exp(g)`.  (`k + 1 ≤ 30`: see `C28_overflow`.) -/
theorem C28_step {N : ℕ} (hker : ker.Exact N) (J : Junk K) (accept : ℕ → Bool → Ser K → Bool) (k : ℕ) (hk : k + 1 ≤ 30)
    (g : Ser K) (hg : g.WF) (hgn : g.known = 2 ^ k) (h1 : 1 ≤ g.nonzero) (hB : Spec.IsBottcher k g.at)
    (hN : 2 ^ (k + 1) ≤ N) :
    (∃ f' b, accept (k + 1) b f' = false ∧ Area.bottcherStep ker J accept g = .error .assertion) ∨
    ∃ g' f', Area.bottcherStep ker J accept g = .ok (g', f') ∧ g'.WF ∧ f'.WF ∧ 1 ≤ g'.nonzero ∧
      g'.limit = 2 ^ (k + 1) ∧ g'.known = 2 ^ (k + 1) ∧ f'.known = 2 ^ (k + 1) ∧
      (∀ j < 2 ^ k, g'.at j = g.at j) ∧ Spec.IsBottcher (k + 1) g'.at ∧
      Spec.IsExp (2 ^ (k + 1)) g'.at f'.at := by
  have hG : constantCoeff g.ps = 0 := by rw [cc_ps]; exact hB.1
  have hs : Bottcher.Solves k g.ps := (solves_iff_isBottcher hG k).mpr (by rw [Ser.seqOf_ps]; exact hB)
  have hgn' : g.known = ((2 ^ k : ℕ) : ℤ) := by rw [hgn]; push_cast; rfl
  rcases Area.bottcherStep_has hker J accept hk (has_self hg hgn' (fun _ => h1)) hG hs with
    h | ⟨g', f', G', e, l1, l2, hg', ha, hs', hf'⟩
  · exact Or.inl h
  · have hG' : constantCoeff G' = 0 := by rw [ha.constantCoeff_eq (Nat.two_pow_pos k), hG]
    have hc : constantCoeff g'.ps = 0 := by rw [hg'.agree.constantCoeff_eq (Nat.two_pow_pos _), hG']
    have hs2 : Bottcher.Solves (k + 1) g'.ps := hs'.congr hG' hg'.agree
    refine Or.inr ⟨g', f', e, hg'.wf, hf'.wf, hg'.pos (Nat.two_pow_pos _), l1, ?_, ?_, ?_, ?_, ?_⟩
    · rw [hg'.known]; push_cast; rfl
    · rw [hf'.known]; push_cast; rfl
    · intro j hj
      rw [← Ser.coeff_ps_at, ← Ser.coeff_ps_at, hg'.agree j (hj.trans (Nat.pow_lt_pow_right (by norm_num)
        (Nat.lt_succ_self k))), ha j hj]
    · have := (solves_iff_isBottcher hc (k + 1)).mp hs2
      rwa [Ser.seqOf_ps] at this
    · have := isExp_of_agree hc (hf'.agree.trans (E_agree hG' hc hg'.agree.symm))
      rwa [Ser.seqOf_ps, Ser.seqOf_ps] at this

/-- C28.  `bottcher_base` has one correct term. -/
theorem C28_base (J : Junk K) : ∃ g, Area.bottcherBase J = .ok g ∧ g.WF ∧ g.limit = 1 ∧ g.known = 2 ^ 0 ∧
    1 ≤ g.nonzero ∧ Spec.IsBottcher 0 g.at := by
  obtain ⟨g, e, l, h⟩ := Area.bottcherBase_has J
  have hc : constantCoeff g.ps = 0 := by rw [h.agree.constantCoeff_eq (by norm_num), map_zero]
  refine ⟨g, e, h.wf, l, by rw [h.known]; norm_num, h.pos (by norm_num), ?_⟩
  have := (solves_iff_isBottcher hc 0).mp (Bottcher.solves_zero hc)
  rwa [Ser.seqOf_ps] at this

/-- C28.  By induction: after any number `k ≤ 30` of accepted steps from `bottcher_base`, `g` has exactly `2^k`
terms and all are correct; the only way not to get there is that an area was judged inaccurate. -/
theorem C28_areas {N : ℕ} (hker : ker.Exact N) (J : Junk K) (accept : ℕ → Bool → Ser K → Bool) (k : ℕ) (hk : k ≤ 30)
    (hN : 2 ^ k ≤ N) :
    (∃ i b f, i ≤ k ∧ accept i b f = false ∧ Area.areas ker J accept k = .error .assertion) ∨
    ∃ g, Area.areas ker J accept k = .ok g ∧ g.WF ∧ g.limit = 2 ^ k ∧ g.known = 2 ^ k ∧ 1 ≤ g.nonzero ∧
      Spec.IsBottcher k g.at := by
  induction k with
  | zero =>
    obtain ⟨g, e, h1, h2, h3, h4, h5⟩ := C28_base (J.sub 0)
    exact Or.inr ⟨g, e, h1, by simpa using h2, h3, h4, h5⟩
  | succ k ih =>
    rcases ih (by omega) ((Nat.pow_le_pow_right (by norm_num) (Nat.le_succ k)).trans hN) with
      ⟨i, b, f, hi, ha, e⟩ | ⟨g, e, h1, h2, h3, h4, h5⟩
    · exact Or.inl ⟨i, b, f, by omega, ha, by simp only [Area.areas, e, berr]⟩
    · rcases C28_step hker (J.sub (k + 1)) accept k hk g h1 h3 h4 h5 hN with
        ⟨f, b, ha, e2⟩ | ⟨g', f', e2, w1, _, w2, w3, w4, _, _, w5, _⟩
      · exact Or.inl ⟨k + 1, b, f, le_rfl, ha, by simp only [Area.areas, e, bok, e2, berr]⟩
      · exact Or.inr ⟨g', by simp only [Area.areas, e, bok, e2, pok], w1, w3, w4, w2, w5⟩

/-- C28.  With an assertion that accepts every area, all steps succeed. -/
theorem C28_areas_accept {N : ℕ} (hker : ker.Exact N) (J : Junk K) (k : ℕ) (hk : k ≤ 30) (hN : 2 ^ k ≤ N) :
    ∃ g, Area.areas ker J (fun _ _ _ => true) k = .ok g ∧ g.WF ∧ g.limit = 2 ^ k ∧ g.known = 2 ^ k ∧
      1 ≤ g.nonzero ∧ Spec.IsBottcher k g.at := by
  rcases C28_areas hker J (fun _ _ _ => true) k hk hN with ⟨_, _, _, _, h, _⟩ | h
  · cases h
  · exact h

/-- C28.  `g` with a number of terms that is not a power of two is refused, whatever it contains. -/
theorem C28_not_power (J : Junk K) (accept : ℕ → Bool → Ser K → Bool) (g : Ser K) (h1 : 0 < g.known)
    (h2 : g.known < 2 ^ 63) (h3 : ∀ k : ℕ, g.known ≠ 2 ^ k) :
    Area.bottcherStep ker J accept g = .error .assertion := by
  have : Area.knownToK g.known = .error .assertion := by
    unfold Area.knownToK
    have hk : ¬ Area.countrZeroI64 g.known ≥ 64 := by
      intro h
      unfold Area.countrZeroI64 countrZero64 at h
      rw [toU64_of_nonneg h1.le] at h
      have hpos : 0 < g.known.toNat := by omega
      rw [if_neg hpos.ne'] at h
      have hd : 2 ^ 64 ∣ g.known.toNat := (pow_dvd_pow 2 h).trans pow_padicValNat_dvd
      have := Nat.le_of_dvd hpos hd
      omega
    simp only [if_neg hk]
    rw [slowAssert_false, berr]
    intro h
    split_ifs at h
    · omega
    · exact h3 _ h
  simp only [Area.bottcherStep, this, berr]

/-- C28 fails for larger `k`: `1 << k` is computed in `int`.  At `2^30` terms the next size becomes `-2^31` and
the step throws; at `2^31` terms and beyond the shift is undefined. -/
theorem C28_overflow (J : Junk K) (accept : ℕ → Bool → Ser K → Bool) (k : ℕ) (hk : 31 ≤ k + 1) (hk2 : k ≤ 62)
    (g : Ser K) (hgn : g.known = 2 ^ k) (h1 : 1 ≤ g.nonzero) :
    Area.bottcherStep ker J accept g = if k + 1 = 31 then .error .assertion else .error .ub := by
  have e0 : Area.knownToK g.known = .ok k := by rw [hgn]; exact Area.knownToK_pow hk2
  split_ifs with h
  · have hk' : k = 30 := by omega
    subst hk'
    have hnew : (Ser.new (-2 ^ 31) ((J.sub 0) [0]) : Ser K).limit = 0 := by norm_num [Ser.new, relu]
    have e1 : Ser.copy g (-2 ^ 31) ((J.sub 0) [0]) = .error .assertion := by
      unfold Ser.copy Ser.assign
      rw [slowAssert_false (by rw [hnew]; omega), berr]
    simp only [Area.bottcherStep, e0, bok, Area.shl32]
    norm_num
    simp only [bok, Area.bottcherPass]
    norm_num at e1
    rw [e1]
    rfl
  · simp only [Area.bottcherStep, e0, bok, Area.shl32, if_pos (show k + 1 ≥ 32 by omega), berr]

example : ∃ g, Area.areas (codeletKer (K := ℚ)) (fun _ _ => 9) (fun _ _ _ => true) 3 = .ok g ∧
    g.known = 8 ∧ g.at 0 = 0 := by
  obtain ⟨g, e, _, _, h3, _, h5⟩ := C28_areas_accept (codeletKer_exact (K := ℚ)) (fun _ _ => 9) 3 (by norm_num) le_rfl
  exact ⟨g, e, by rw [h3]; norm_num, h5.1⟩

end Props

/-! ## C29 uniqueness -/

namespace Props

section

variable {K : Type} [Field K] [CharZero K]

/-- The operations the power series lemmas mention; any field has them. -/
@[reducible] noncomputable def someLdexp : Ldexp K := ⟨fun a b => a * 2 ^ b⟩

theorem cc_mk (g : ℕ → K) : constantCoeff (PowerSeries.mk g) = g 0 := by
  rw [← coeff_zero_eq_constantCoeff_apply, coeff_mk]

/-- C29.  There is one infinite sequence such that the solutions for any `k` are exactly the sequences that agree
with it on `2^k` terms. -/
theorem C29_one_series : ∃ g₀ : ℕ → K, ∀ k (g : ℕ → K), Spec.IsBottcher k g ↔ ∀ j < 2 ^ k, g j = g₀ j := by
  classical
  let _ : Ldexp K := someLdexp
  have _ : Ser.LawfulLdexp K := ⟨fun _ _ => rfl⟩
  have hiff : ∀ k (g : ℕ → K), g 0 = 0 → (Spec.IsBottcher k g ↔ Bottcher.Solves k (PowerSeries.mk g)) := by
    intro k g h0
    rw [solves_iff_isBottcher (by rw [cc_mk, h0]), seqOf_mk]
  have huniq : ∀ k (g g' : ℕ → K), Spec.IsBottcher k g → Spec.IsBottcher k g' → ∀ j < 2 ^ k, g j = g' j := by
    intro k g g' h h' j hj
    have := Bottcher.Solves.unique (by rw [cc_mk, h'.1]) (by rw [cc_mk, h.1]) ((hiff k g' h'.1).mp h')
      ((hiff k g h.1).mp h) j hj
    rwa [coeff_mk, coeff_mk] at this
  have hex : ∀ k, ∃ g : ℕ → K, Spec.IsBottcher k g := by
    intro k
    obtain ⟨G, hG, hs⟩ := Bottcher.exists_solves (K := K) k
    exact ⟨seqOf G, (solves_iff_isBottcher hG k).mp hs⟩
  have hpred : ∀ k (g : ℕ → K), Spec.IsBottcher (k + 1) g → Spec.IsBottcher k g := by
    intro k g h
    exact (hiff k g h.1).mpr ((hiff (k + 1) g h.1).mp h).pred
  have hle : ∀ d k (g : ℕ → K), Spec.IsBottcher (k + d) g → Spec.IsBottcher k g := by
    intro d
    induction d with
    | zero => intro k g h; exact h
    | succ d ih => intro k g h; exact ih k g (hpred _ _ h)
  choose G hG using hex
  have hj : ∀ j, j < 2 ^ j := fun j => Nat.lt_two_pow_self
  refine ⟨fun j => G j j, fun k g => ⟨fun h j hjk => ?_, fun h => ?_⟩⟩
  · rcases le_total k j with hkj | hkj
    · have h1 := hle (j - k) k (G j) (by rw [show k + (j - k) = j by omega]; exact hG j)
      exact huniq k g (G j) h h1 j hjk
    · have h1 := hle (k - j) j g (by rw [show j + (k - j) = k by omega]; exact h)
      exact huniq j g (G j) h1 (hG j) j (hj j)
  · have hGk := hG k
    have heq : ∀ j < 2 ^ k, g j = G k j := by
      intro j hjk
      rw [h j hjk]
      rcases le_total k j with hkj | hkj
      · have h1 := hle (j - k) k (G j) (by rw [show k + (j - k) = j by omega]; exact hG j)
        exact huniq k (G j) (G k) h1 hGk j hjk
      · have h1 := hle (k - j) j (G k) (by rw [show j + (k - j) = k by omega]; exact hGk)
        exact huniq j (G j) (G k) (hG j) h1 j (hj j)
    have h0 : g 0 = 0 := by rw [heq 0 (Nat.two_pow_pos k), hGk.1]
    rw [hiff k g h0]
    refine ((hiff k (G k) hGk.1).mp hGk).congr (by rw [cc_mk, hGk.1]) (fun j hj => ?_)
    rw [coeff_mk, coeff_mk, heq j hj]

/-- C29.  Uniqueness. -/
theorem C29_unique (k : ℕ) (g g' : ℕ → K) (h : Spec.IsBottcher k g) (h' : Spec.IsBottcher k g') :
    ∀ j < 2 ^ k, g j = g' j := by
  obtain ⟨g₀, h0⟩ := C29_one_series (K := K)
  intro j hj
  rw [(h0 k g).mp h j hj, (h0 k g').mp h' j hj]

/-- C29.  Existence. -/
theorem C29_exists (k : ℕ) : ∃ g : ℕ → K, Spec.IsBottcher k g := by
  obtain ⟨g₀, h0⟩ := C29_one_series (K := K)
  exact ⟨g₀, (h0 k g₀).mpr fun _ _ => rfl⟩

/-- C29.  A solution with more terms is a solution with fewer. -/
theorem C29_prefix (k k' : ℕ) (hk : k ≤ k') (g : ℕ → K) (h : Spec.IsBottcher k' g) : Spec.IsBottcher k g := by
  obtain ⟨g₀, h0⟩ := C29_one_series (K := K)
  exact (h0 k g).mpr fun j hj => (h0 k' g).mp h j (hj.trans_le (Nat.pow_le_pow_right (by norm_num) hk))

end

variable {K : Type} [Field K] [CharZero K] [Ldexp K] [Ser.LawfulLdexp K] [DecidableEq K]

/-- C29.  Runs of the program with different numbers of steps, kernels, memory contents and tolerances agree on
their common terms. -/
theorem C29_runs_agree {ker ker' : Ker K} {N N' : ℕ} (hker : ker.Exact N) (hker' : ker'.Exact N') (J J' : Junk K)
    (accept accept' : ℕ → Bool → Ser K → Bool) (k k' : ℕ) (hk : k ≤ 30) (hk' : k' ≤ 30)
    (hN : 2 ^ k ≤ N) (hN' : 2 ^ k' ≤ N') (g g' : Ser K)
    (e : Area.areas ker J accept k = .ok g) (e' : Area.areas ker' J' accept' k' = .ok g') :
    ∀ j < min (2 ^ k) (2 ^ k'), g.at j = g'.at j := by
  obtain ⟨g₀, h0⟩ := C29_one_series (K := K)
  have key : ∀ {ker : Ker K} {N : ℕ}, ker.Exact N → ∀ (J : Junk K) accept k, k ≤ 30 → 2 ^ k ≤ N → ∀ g : Ser K,
      Area.areas ker J accept k = .ok g → ∀ j < 2 ^ k, g.at j = g₀ j := by
    intro ker N hker J accept k hk hN g e
    rcases C28_areas hker J accept k hk hN with ⟨_, _, _, _, _, h⟩ | ⟨g1, h, _, _, _, _, hB⟩
    · rw [h] at e; cases e
    · rw [h] at e; cases e
      exact (h0 k _).mp hB
  intro j hj
  rw [key hker J accept k hk hN g e j (lt_of_lt_of_le hj (min_le_left _ _)),
    key hker' J' accept' k' hk' hN' g' e' j (lt_of_lt_of_le hj (min_le_right _ _))]

/-- C29 example: the first terms of the solution for `k = 2` are `0, -1/2`. -/
example (g : ℕ → ℚ) (h : Spec.IsBottcher 1 g) : g 0 = 0 ∧ g 1 = -1 / 2 := by
  refine ⟨h.1, ?_⟩
  have hf : Spec.IsExp (2 ^ 1) g (fun j => if j = 0 then 1 else g 1) := by
    refine ⟨fun _ => rfl, fun j hj => ?_⟩
    have : j = 0 := by omega
    subst this
    simp [Spec.deriv, Spec.prod]
  have := h.2 _ hf 1 (by norm_num)
  simp [Spec.mandelQ, Spec.prod, Spec.shift, Spec.one, Nat.antidiagonal_succ] at this
  linarith

/-! ## C30 area -/

/-- Gronwall's sum over the first `n` terms. -/
noncomputable def Spec.gronwall (f : ℕ → ℝ) (n : ℕ) : ℝ := Real.pi * ∑ i ∈ range n, (1 - (i : ℝ)) * f i ^ 2

theorem sequentialReduce_sum (m : ℤ → ℝ) (n : ℕ) (z : ℝ) :
    Spec.sequentialReduce (fun a b => a + b) m n z = z + ∑ i ∈ range n, m i := by
  induction n with
  | zero => simp [Spec.sequentialReduce]
  | succ n ih => rw [Spec.sequentialReduce, ih, sum_range_succ, add_assoc]

/-- C30.  Whatever the precision, the number of threads and the interleaving, the ball that `area` computes
contains Gronwall's sum over the stored terms. -/
theorem C30_encloses {A : Type} (ops : Area.ArbOps A) (mem : ℝ → A → Prop) (hops : ops.Encloses mem)
    (prec threads : ℕ) (hT : 0 < threads) (f : ℕ → ℝ) (fa : ℤ → A) (n : ℕ)
    (hf : ∀ i : ℕ, i < n → mem (f i) (fa i)) (r : A) (h : Area.AreaAt ops prec threads fa n r) :
    mem (Spec.gronwall f n) r := by
  obtain ⟨s, h1, h2, rfl⟩ := h
  have := C02_map_reduce_relational mem (ops.add prec) (Area.areaMap ops prec fa) (fun a b => a + b)
    (fun i => f i.toNat ^ 2 * ((1 - i : ℤ) : ℝ)) (fun y a b => add_assoc y a b)
    (fun z y z' y' => hops.add prec z z' y y') n (by
      intro i hi0 hin
      refine hops.mulSi _ _ _ _ (hops.sqr _ _ _ ?_)
      have := hf i.toNat (by omega)
      rwa [Int.toNat_of_nonneg hi0] at this) threads hT s h1 h2 0 ops.zero hops.zero
  rw [sequentialReduce_sum] at this
  have h3 := hops.mul prec _ _ _ _ this (hops.pi prec)
  have e : Spec.gronwall f n = (0 + ∑ i ∈ range n, f (i : ℤ).toNat ^ 2 * ((1 - (i : ℤ) : ℤ) : ℝ)) * Real.pi := by
    rw [Spec.gronwall, zero_add, mul_comm]
    congr 1
    refine sum_congr rfl fun i _ => ?_
    rw [Int.toNat_natCast]
    push_cast
    ring
  rw [e]
  exact h3

/-- C30.  In exact arithmetic the result is Gronwall's sum, for every number of threads and interleaving. -/
theorem C30_exact (prec threads : ℕ) (hT : 0 < threads) (f : ℕ → ℝ) (n : ℕ) (r : ℝ)
    (h : Area.AreaAt Area.realOps prec threads (fun i => f i.toNat) n r) : r = Spec.gronwall f n := by
  refine (C30_encloses Area.realOps (fun x a => x = a) ?_ prec threads hT f _ n (fun i _ => ?_) r h).symm
  · constructor <;> intros <;> simp_all [Area.realOps]
  · simp

/-- C30.  Past the first term, more terms never increase the sum. -/
theorem C30_antitone (f : ℕ → ℝ) (n n' : ℕ) (hn : 1 ≤ n) (h : n ≤ n') :
    Spec.gronwall f n' ≤ Spec.gronwall f n := by
  refine mul_le_mul_of_nonneg_left ?_ Real.pi_pos.le
  obtain ⟨d, rfl⟩ := Nat.exists_eq_add_of_le h
  rw [sum_range_add]
  have : ∑ x ∈ range d, (1 - ((n + x : ℕ) : ℝ)) * f (n + x) ^ 2 ≤ 0 := by
    refine sum_nonpos fun x _ => ?_
    have h1 : (1 : ℝ) ≤ ((n + x : ℕ) : ℝ) := by exact_mod_cast le_trans hn (Nat.le_add_right n x)
    exact mul_nonpos_of_nonpos_of_nonneg (by linarith) (sq_nonneg _)
  linarith

/-- C30.  Hence at most `π f(0)^2`, which is `π` for the Böttcher series. -/
theorem C30_le_pi (f : ℕ → ℝ) (n : ℕ) (hn : 1 ≤ n) (h0 : f 0 = 1) : Spec.gronwall f n ≤ Real.pi := by
  have := C30_antitone f 1 n le_rfl hn
  simpa [Spec.gronwall, h0] using this

/-- C30 example: every thread count has a run, so the statements above are not vacuous. -/
theorem areaAt_exists {A : Type} (ops : Area.ArbOps A) (prec threads : ℕ) (f : ℤ → A)
    (n : ℕ) : ∃ r, Area.AreaAt ops prec threads f n r := by
  by_contra hno
  have hnd : ∀ s, MRState.Steps (ops.add prec) (Area.areaMap ops prec f) n threads MRState.init (.ok s) →
      ∃ t < threads, s.pc t ≠ .done := by
    intro s hs
    by_contra h
    push Not at h
    exact hno ⟨_, s, hs, h, rfl⟩
  have hprog : ∀ s : {s // MRState.Steps (ops.add prec) (Area.areaMap ops prec f) n threads MRState.init
      (.ok s)}, ∃ s' : {s // MRState.Steps (ops.add prec) (Area.areaMap ops prec f) n threads MRState.init
      (.ok s)}, ∃ t < threads, s.1.step (ops.add prec) (Area.areaMap ops prec f) n threads t = some (.ok s'.1) := by
    rintro ⟨s, hs⟩
    obtain ⟨t, ht, s', e⟩ := C02_progress _ _ n threads s hs (hnd s hs)
    exact ⟨⟨s', .tail hs ht e⟩, t, ht, e⟩
  choose nx hnx using hprog
  let run : ℕ → {s // MRState.Steps (ops.add prec) (Area.areaMap ops prec f) n threads MRState.init (.ok s)} :=
    fun k => Nat.rec ⟨MRState.init, .refl _⟩ (fun _ s => nx s) k
  have := C02_terminates (ops.add prec) (Area.areaMap ops prec f) n threads (fun k => (run k).1)
    (n + 5 * threads + 1) rfl (fun j _ => hnx (run j))
  omega

example : ∃ r, Area.AreaAt Area.realOps 200 3 (fun i => ((i.toNat : ℕ) : ℝ)) (5 : ℕ) r ∧
    r = Real.pi * (-1 * 4 + -2 * 9 + -3 * 16) := by
  obtain ⟨r, hr⟩ := areaAt_exists Area.realOps 200 3 (fun i => ((i.toNat : ℕ) : ℝ)) 5
  have h := C30_exact 200 3 (by norm_num) (fun i => (i : ℝ)) 5 r hr
  refine ⟨r, hr, ?_⟩
  rw [h, Spec.gronwall]
  norm_num [sum_range_succ]

/-! ## C31 known_to_k -/

/-- C31.  On all 64-bit values: `known_to_k(n)` is undefined for `n = 0`, returns `k` exactly for `n = 2^k` (and
63 for `-2^63`, whose bit pattern is `2^63`), and throws otherwise. -/
theorem C31_known_to_k (n : ℤ) (h1 : -2 ^ 63 ≤ n) (h2 : n < 2 ^ 63) :
    (n = 0 → Area.knownToK n = .error .ub) ∧
    (∀ k, Area.knownToK n = .ok k ↔ (k ≤ 62 ∧ n = 2 ^ k) ∨ (k = 63 ∧ n = -2 ^ 63)) ∧
    (n ≠ 0 → (∀ k ≤ 62, n ≠ 2 ^ k) → n ≠ -2 ^ 63 → Area.knownToK n = .error .assertion) := by
  have hlt : n ≠ 0 → Area.countrZeroI64 n < 64 := by
    intro h0
    by_contra h
    unfold Area.countrZeroI64 countrZero64 at h
    have hr : 0 < toU64 n ∧ toU64 n < 2 ^ 64 := by
      unfold toU64; split_ifs <;> constructor <;> omega
    have hpos : 0 < (toU64 n).toNat := by omega
    rw [if_neg hpos.ne'] at h
    have hd : 2 ^ 64 ∣ (toU64 n).toNat := (pow_dvd_pow 2 (by omega)).trans pow_padicValNat_dvd
    have := Nat.le_of_dvd hpos hd
    omega
  have hmin : Area.countrZeroI64 (-2 ^ 63) = 63 := by
    unfold Area.countrZeroI64 countrZero64 toU64
    have : Fact (Nat.Prime 2) := ⟨Nat.prime_two⟩
    have e : ((if (-2 ^ 63 : ℤ) < 0 then (-2 ^ 63 : ℤ) + 2 ^ 64 else -2 ^ 63)).toNat = 2 ^ 63 := by
      rw [if_pos (by norm_num)]; rfl
    rw [e, if_neg (by norm_num)]
    exact padicValNat.prime_pow 63
  have hkind : n ≠ 0 → Area.knownToK n = if n = (if Area.countrZeroI64 n = 63 then -2 ^ 63 else
      2 ^ Area.countrZeroI64 n) then .ok (Area.countrZeroI64 n) else .error .assertion := by
    intro h0
    have := hlt h0
    simp only [Area.knownToK, if_neg (show ¬ Area.countrZeroI64 n ≥ 64 by omega), slowAssert]
    by_cases h : n = (if Area.countrZeroI64 n = 63 then -2 ^ 63 else 2 ^ Area.countrZeroI64 n)
    · rw [if_pos h, if_pos h, bok, pok]
    · rw [if_neg h, if_neg h, berr]
  refine ⟨?_, fun k => ⟨fun h => ?_, ?_⟩, fun h0 hk hm => ?_⟩
  · rintro rfl
    have : Area.countrZeroI64 0 = 64 := by simp [Area.countrZeroI64, countrZero64, toU64]
    simp only [Area.knownToK, this, if_pos (le_refl 64)]
    rfl
  · have h0 : n ≠ 0 := by
      rintro rfl
      have : Area.countrZeroI64 0 = 64 := by simp [Area.countrZeroI64, countrZero64, toU64]
      simp only [Area.knownToK, this, if_pos (le_refl 64)] at h
      cases h
    have hl := hlt h0
    rw [hkind h0] at h
    by_cases h3 : n = (if Area.countrZeroI64 n = 63 then -2 ^ 63 else 2 ^ Area.countrZeroI64 n)
    · rw [if_pos h3] at h
      cases h
      by_cases h4 : Area.countrZeroI64 n = 63
      · rw [if_pos h4] at h3; exact Or.inr ⟨h4, h3⟩
      · rw [if_neg h4] at h3; exact Or.inl ⟨by omega, h3⟩
    · rw [if_neg h3] at h; cases h
  · rintro (⟨h, rfl⟩ | ⟨rfl, rfl⟩)
    · exact Area.knownToK_pow h
    · rw [hkind (by norm_num), hmin]; rfl
  · rw [hkind h0, if_neg]
    intro h
    by_cases h4 : Area.countrZeroI64 n = 63
    · rw [if_pos h4] at h; exact hm h
    · rw [if_neg h4] at h; exact hk _ (by have := hlt h0; omega) h

example : Area.knownToK (2 ^ 20) = .ok 20 ∧ Area.knownToK 12 = .error .assertion :=
  ⟨((C31_known_to_k (2 ^ 20) (by norm_num) (by norm_num)).2.1 20).mpr (Or.inl ⟨by norm_num, rfl⟩),
    (C31_known_to_k 12 (by norm_num) (by norm_num)).2.2 (by norm_num) (by
      intro k _ h
      have hk : k < 4 := by
        by_contra hk
        have : (2 : ℤ) ^ 4 ≤ 2 ^ k := pow_le_pow_right₀ (by norm_num) (by omega)
        omega
      interval_cases k <;> omega) (by norm_num)⟩

end Props

end Mandelbrot
