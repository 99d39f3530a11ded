import Verif.Series.Has
import Verif.PS.ExpLog
import Mathlib.Tactic.LinearCombination

/-!
# The Newton-based series functions are exact for exact kernels
-/

set_option linter.unusedSectionVars false

namespace Mandelbrot

open PowerSeries

/-- The kernels are exact up to the size `N`, and the base cases are exact. -/
structure Ker.Exact {K : Type} [Field K] [CharZero K] (ker : Ker K) (N : ℕ) : Prop extends ker.ExactMul N where
  invBase : ∀ (y x : Ser K) (n : ℕ) (F : K⟦X⟧), x.Has n F → 0 < n → constantCoeff F ≠ 0 →
    n ≤ y.limit → ∃ (b : ℕ) (y' : Ser K), 0 < b ∧ b ≤ n ∧ ker.invBase y x = .ok y' ∧
      y'.limit = y.limit ∧ y'.Has b F⁻¹ ∧ y'.nonzero = b
  expBase : ∀ (y x : Ser K) (n : ℕ) (F : K⟦X⟧), x.Is n F → 0 < n → constantCoeff F = 0 →
    n ≤ y.limit → ∃ (b : ℕ) (y' : Ser K), 0 < b ∧ b ≤ n ∧ ker.expBase y x = .ok y' ∧
      y'.limit = y.limit ∧ y'.Has b (E F) ∧ y'.nonzero = b

theorem Ker.Exact.mono {K : Type} [Field K] [CharZero K] {ker : Ker K} {M N : ℕ} (h : ker.Exact N) (hle : M ≤ N) :
    ker.Exact M where
  toExactMul := h.toExactMul.mono hle
  invBase := h.invBase
  expBase := h.expBase

namespace Ser

variable {K : Type} [Field K] [CharZero K] [Ldexp K] [LawfulLdexp K] [DecidableEq K]
variable {ker : Ker K} {N : ℕ}

/-- Terms from `s` on. -/
noncomputable def shiftDown (s : ℕ) (F : K⟦X⟧) : K⟦X⟧ := PowerSeries.mk fun i => coeff (i + s) F

theorem X_pow_mul_shiftDown {s : ℕ} {F : K⟦X⟧} (h : Agree s F 0) : X ^ s * shiftDown s F = F := by
  ext i
  rw [coeff_X_pow_mul', shiftDown]
  split_ifs with hs
  · rw [coeff_mk, Nat.sub_add_cancel hs]
  · rw [h i (by omega)]; simp

theorem shiftDown_X_pow_mul (s : ℕ) (F : K⟦X⟧) : shiftDown s (X ^ s * F) = F := by
  ext i
  rw [shiftDown, coeff_mk, coeff_X_pow_mul]

/-! ## inv -/

theorem setKnown_newton {y : Ser K} {m0 m : ℕ} {r : Bool} {F : K⟦X⟧}
    (h : y.Has (if r then m else m0) F) (h0 : 0 < m0) (hm : m0 ≤ m) :
    ∃ y' : Ser K, y.setKnown m = .ok y' ∧ y'.limit = y.limit ∧ ∃ G, y'.Has m G ∧ Agree m0 G F ∧
      (r = true → Agree m G F) := by
  obtain ⟨y', e, h1, h2⟩ := setKnown_has h (by split_ifs <;> omega) (show 0 < m by omega)
  refine ⟨y', e, h1, y.ps, h2, h.agree.mono (by split_ifs <;> omega), ?_⟩
  rintro rfl
  exact h.agree

theorem setKnown_nonzero {y y1 : Ser K} {m : ℤ} (e : y.setKnown m = .ok y1) :
    y1.nonzero = min y.nonzero m := by
  obtain ⟨_, _, h⟩ := bind_eq_ok e
  cases h
  rfl

/-- After a Newton update with a correction storing all its terms, all terms are stored. -/
theorem newton_full {y y1 dy y2 : Ser K} {m0 m : ℕ} {r : Bool} (e1 : y.setKnown m = .ok y1)
    (e5 : y1.highSub m0 (dy.high m0) = .ok y2) (k2 : y1.known = m) (k4 : dy.known = m)
    (f3 : dy.nonzero = m) (hm : m0 ≤ m) (hy : y.nonzero = (if r then m else m0 : ℕ))
    : y2.nonzero = m := by
  have c4 := (highAddsubLdexp_counts e5).2.2
  have c1 := setKnown_nonzero e1
  rw [high_nonzero, high_known, f3, k2, k4] at c4
  unfold relu at c4
  rcases hm.eq_or_lt with h | h
  · rw [if_neg (by omega)] at c4
    rw [← h, ite_self] at hy
    omega
  · rw [if_pos (by omega)] at c4
    have : y1.nonzero ≤ m := by omega
    omega

theorem mul_full {ker : Ker K} {z x y z' : Ser K} {m : ℤ} (e : mul ker z x y = .ok z')
    (hm : min x.known y.known = m)
    (h : (m ≤ x.nonzero ∧ 1 ≤ y.nonzero) ∨ (m ≤ y.nonzero ∧ 1 ≤ x.nonzero)) : z'.nonzero = m := by
  have := (mul_counts e).2.2
  rw [hm] at this
  unfold relu at this
  rcases h with h | h <;> omega

theorem inv_has' (hker : ker.Exact N) (J : Junk K) {y x : Ser K} {n : ℕ} {F : K⟦X⟧} (hx : x.Has n F)
    (hF : 0 < n → constantCoeff F ≠ 0) (hl : n ≤ y.limit) (hN : n ≤ N := by omega) :
    ∃ y' : Ser K, inv ker J y x = .ok y' ∧ y'.limit = y.limit ∧ y'.Has n F⁻¹ ∧
      (x.nonzero = n → y'.nonzero = n) := by
  rcases Nat.eq_zero_or_pos n with rfl | hn
  · have e : inv ker J y x = .ok y.setUnknown := by
      simp only [inv, hx.known]; rfl
    obtain ⟨h1, h2⟩ := setUnknown_has (y := y) F⁻¹ (by simpa using hl)
    exact ⟨_, e, h1, h2, fun _ => rfl⟩
  have hF := hF hn
  obtain ⟨b, y0, hb0, hbn, eb, hbl, hb, hbf⟩ := hker.invBase y x n F hx hn hF hl
  have hnz : x.nonzero ≠ 0 := by have := hx.pos hn; omega
  have hn' : ¬ ((n : ℤ) = 0) := by omega
  let P : ℕ → Ser K × Ser K → Prop := fun m st =>
    st.1.limit = y.limit ∧ st.2.limit = n ∧ st.1.Has m F⁻¹ ∧ (x.nonzero = n → st.1.nonzero = m)
  have hstep : ∀ (m0 m : ℕ) (r : Bool) (st : Ser K × Ser K), 0 < m0 → m0 ≤ m → m ≤ 2 * m0 → m ≤ n →
      P (if r then m else m0) st → ∃ st', invStep ker x m0 m r st = .ok st' ∧ P m st' := by
    rintro m0 m r ⟨y, dy⟩ h0 hm hm2 hmn ⟨hyl, hdl, hy, hyf⟩
    simp only at hyl hdl hy hyf
    obtain ⟨y1, e1, l1, G, hy1, hG, -⟩ := setKnown_newton hy h0 hm
    obtain ⟨d1, e2, l2, hd1⟩ := mul_has (z := dy) (n := m) hker.toExactMul hx hy1 (by omega) (by omega)
    obtain ⟨d2, e3, l3, hd2⟩ := addScalar_has hd1 (by omega) (((-1 : ℤ) : K))
    obtain ⟨d3, e4, l4, hd3⟩ := mul_has (z := d2) (n := m) hker.toExactMul hd2 hy1 (by omega) (by omega)
    have hFi := PowerSeries.mul_inv_cancel F hF
    have hr : Agree m0 (F * G + C (((-1 : ℤ) : K))) 0 := by
      have := ((Agree.rfl' (n := m0) (F := F)).mul hG).add (Agree.rfl' (F := C (((-1 : ℤ) : K))))
      rw [hFi] at this
      refine this.trans (Agree.of_eq ?_)
      simp
    obtain ⟨y2, e5, l5, hy2⟩ := newtonSub_has hy1 hd3 hm (hr.mul_zero_left G) (by omega)
    refine ⟨(y2, d3), ?_, by simp only; omega, by simp only; omega, hy2.congr ?_, ?_⟩
    · simp only [invStep, e1, bok, e2, e3, e4, e5, pok]
    · refine Agree.mul_left_cancel hF ?_
      have h2 := (hr.mul_zeros hr).mono (show m ≤ m0 + m0 by omega)
      have : F * (G - (F * G + C (((-1 : ℤ) : K))) * G) - F * F⁻¹ =
          -((F * G + C (((-1 : ℤ) : K))) * (F * G + C (((-1 : ℤ) : K)))) := by
        rw [hFi]
        have hc : (C (((-1 : ℤ) : K)) : K⟦X⟧) = -1 := by simp
        rw [hc]; ring
      rw [agree_iff_dvd, this, dvd_neg, ← sub_zero (_ * _), ← agree_iff_dvd]
      exact h2
    · intro hfull
      have p1 := hy1.pos (by omega)
      have f1 : d1.nonzero = m :=
        mul_full e2 (by rw [hx.known, hy1.known]; omega) (Or.inl ⟨by rw [hfull]; omega, p1⟩)
      have f2 : d2.nonzero = m := (addScalar_counts e3).2.2.trans f1
      have f3 : d3.nonzero = m :=
        mul_full e4 (by rw [hd2.known, hy1.known]; omega) (Or.inl ⟨f2.ge, p1⟩)
      exact newton_full e1 e5 hy1.known hd3.known f3 hm (hyf hfull)
  obtain ⟨st, es, hs1, hs2, hs3, hs4⟩ := newtonIterate_rule (invStep ker x) n P hstep b
    (y0, new n (J [0])) hbn (fun _ => hb0) ⟨hbl, new_limit n _, hb, fun _ => hbf⟩
  refine ⟨st.1, ?_, hs1, hs3, hs4⟩
  simp only [inv, hx.known, if_neg hn', slowAssert, if_pos hnz, bok, eb, hb.known, es, pok]

theorem inv_has (hker : ker.Exact N) (J : Junk K) {y x : Ser K} {n : ℕ} {F : K⟦X⟧} (hx : x.Has n F)
    (hF : 0 < n → constantCoeff F ≠ 0) (hl : n ≤ y.limit) (hN : n ≤ N := by omega) :
    ∃ y' : Ser K, inv ker J y x = .ok y' ∧ y'.limit = y.limit ∧ y'.Has n F⁻¹ := by
  obtain ⟨y', h1, h2, h3, _⟩ := inv_has' hker J hx hF hl
  exact ⟨y', h1, h2, h3⟩

/-! ## inv1p -/

/-- The power series `z^-s (1 / (1 + z^s F) - 1)`. -/
noncomputable def inv1pS (s : ℕ) (F : K⟦X⟧) : K⟦X⟧ := -F * (1 + X ^ s * F)⁻¹

theorem constantCoeff_1p {s : ℕ} (hs : 0 < s) (F : K⟦X⟧) : constantCoeff (1 + X ^ s * F) = 1 := by
  simp [hs.ne']

theorem inv1pS_mul {s : ℕ} (hs : 0 < s) (F : K⟦X⟧) :
    (1 + X ^ s * F) * (1 + X ^ s * inv1pS s F) = 1 := by
  have h := PowerSeries.mul_inv_cancel (1 + X ^ s * F)
    (by rw [constantCoeff_1p hs]; exact one_ne_zero)
  rw [inv1pS]
  linear_combination (-X ^ s * F) * h

theorem agree_inv1pS {s n : ℕ} (hs : 0 < s) {F G : K⟦X⟧}
    (h : Agree n (F + G + X ^ s * (F * G)) 0) : Agree n G (inv1pS s F) := by
  have hc : constantCoeff (1 + X ^ s * F) ≠ 0 := by rw [constantCoeff_1p hs]; exact one_ne_zero
  refine Agree.mul_left_cancel hc ?_
  have h1 := PowerSeries.mul_inv_cancel (1 + X ^ s * F) hc
  rw [agree_iff_dvd] at *
  have : (1 + X ^ s * F) * G - (1 + X ^ s * F) * inv1pS s F = F + G + X ^ s * (F * G) - 0 := by
    rw [inv1pS]; linear_combination F * h1
  rwa [this]

theorem inv1pS_agree {s n : ℕ} (hs : 0 < s) {F G : K⟦X⟧} (h : Agree n F G) :
    Agree n (inv1pS s F) (inv1pS s G) := by
  refine h.neg.mul (Agree.inv (Agree.rfl'.add (Agree.rfl'.mul h)) ?_ ?_) <;>
  · rw [constantCoeff_1p hs]; exact one_ne_zero

theorem inv1p_has (hker : ker.Exact N) (J : Junk K) {y x : Ser K} {n s : ℕ} {F : K⟦X⟧} (hs : 0 < s)
    (hx : x.Has n F) (hl : n ≤ y.limit) (hN : n ≤ N := by omega) :
    ∃ y' : Ser K, inv1p ker J y x s = .ok y' ∧ y'.limit = y.limit ∧ y'.Has n (inv1pS s F) := by
  rcases Nat.eq_zero_or_pos n with rfl | hn
  · have e : inv1p ker J y x s = .ok y.setUnknown := by
      simp only [inv1p, hx.known]; rfl
    obtain ⟨h1, h2⟩ := setUnknown_has (y := y) (inv1pS s F) (by simpa using hl)
    exact ⟨_, e, h1, h2⟩
  have hn' : ¬ ((n : ℤ) = 0) := by omega
  have hs' : (s : ℤ) > 0 := by omega
  obtain ⟨y0, e0, l0, hy0⟩ := neg_has (y := y) (low_has hx s) (by push_cast; omega)
  let P : ℕ → Ser K × Ser K → Prop := fun m st =>
    st.1.limit = y.limit ∧ st.2.limit = n ∧ st.1.Has m (inv1pS s F)
  have hI := inv1pS_mul hs F
  have hstep : ∀ (m0 m : ℕ) (r : Bool) (st : Ser K × Ser K), 0 < m0 → m0 ≤ m → m ≤ 2 * m0 → m ≤ n →
      P (if r then m else m0) st → ∃ st', inv1pStep ker x s m0 m r st = .ok st' ∧ P m st' := by
    rintro m0 m r ⟨y, dy⟩ h0 hm hm2 hmn ⟨hyl, hdl, hy⟩
    simp only at hyl hdl hy
    obtain ⟨y1, e1, l1, G, hy1, hG, -⟩ := setKnown_newton hy h0 hm
    have hxm : x.Has n F := hx
    obtain ⟨d1, e2, l2, hd1⟩ := mul1p_has (z := dy) (n := min n (m + s)) hker.toExactMul hs hxm hy1
      rfl (by push_cast; omega)
    obtain ⟨d2, e3, l3, hd2⟩ := addAssign_has (n := m) hd1 hy1.is (by omega) (by omega)
    obtain ⟨d3, e4, l4, hd3⟩ := mul1p_has (z := d2) (n := m) hker.toExactMul hs hd2 hy1 (by omega)
      (by omega)
    set R := F * (1 + X ^ s * G) + G with hR
    have hr : Agree m0 R 0 := by
      have h1 : Agree m0 R (F * (1 + X ^ s * inv1pS s F) + inv1pS s F) :=
        (Agree.rfl'.mul (Agree.rfl'.add (Agree.rfl'.mul hG))).add hG
      refine h1.trans (Agree.of_X_pow_mul s (Agree.of_eq ?_))
      linear_combination hI
    obtain ⟨y2, e5, l5, hy2⟩ := newtonSub_has hy1 hd3 hm (hr.mul_zero_left _) (by omega)
    refine ⟨(y2, d3), ?_, by simp only; omega, by simp only; omega, hy2.congr (agree_inv1pS hs ?_)⟩
    · simp only [inv1pStep, e1, bok, e2, e3, e4, e5, pok]
    · have h2 := ((hr.mul_zeros hr).mono (show m ≤ m0 + m0 by omega)).mul_zero_left (-X ^ s)
      refine (Agree.of_eq ?_).trans h2
      rw [hR]; ring
  have hbase : y0.Has (min s n) (inv1pS s F) := by
    refine hy0.congr (agree_inv1pS hs ?_)
    have : F + -F + X ^ s * (F * -F) = X ^ s * (-F ^ 2) := by ring
    rw [this]
    have h := (Agree.X_pow_mul s (Agree.zero (-F ^ 2) 0)).mono (show min s n ≤ 0 + s by omega)
    simpa using h
  obtain ⟨st, es, hs1, hs2, hs3⟩ := newtonIterate_rule (inv1pStep ker x s) n P hstep (min s n)
    (y0, new n (J [0])) (by omega) (fun _ => by omega) ⟨l0, new_limit n _, hbase⟩
  refine ⟨st.1, ?_, hs1, hs3⟩
  simp only [inv1p, hx.known, if_neg hn', slowAssert, if_pos hs', bok, e0, hbase.known, es, pok]

/-! ## div and div1p -/

theorem div_has (hker : ker.Exact N) (J : Junk K) {y a b : Ser K} {na nb n : ℕ} {A B : K⟦X⟧}
    (ha : a.Has na A) (hb : b.Has nb B) (hn : n = min na nb) (hB : 0 < n → constantCoeff B ≠ 0)
    (hl : n ≤ y.limit) (hN : n ≤ N := by omega) :
    ∃ y' : Ser K, div ker J y a b = .ok y' ∧ y'.limit = y.limit ∧ y'.Has n (A * B⁻¹) := by
  have hk : min a.known b.known = n := by rw [ha.known, hb.known, hn]; push_cast; rfl
  have hbl : (b.low n).Has n B := by
    have := low_has hb n; rwa [show min n nb = n by omega] at this
  obtain ⟨i, e1, l1, hi⟩ := inv_has hker (J.sub 1) (y := new n (J [0])) hbl hB (by rw [new_limit])
  obtain ⟨y1, e2, l2, hy1⟩ := mul_has (z := y) (n := n) hker.toExactMul ha hi (by omega) hl
  obtain ⟨d1, e3, l3, hd1⟩ := mul_has (z := new n (J [2])) (n := n) hker.toExactMul hb hy1 (by omega)
    (by rw [new_limit])
  rw [new_limit] at l3
  obtain ⟨d2, e4, l4, hd2⟩ := subAssign_has (n := n) hd1 ha.is (by omega) (by omega)
  obtain ⟨d3, e5, l5, hd3⟩ := mul_has (z := d2) (n := n) hker.toExactMul hd2 hi (by omega) (by omega)
  obtain ⟨y2, e6, l6, hy2⟩ := subAssign_has (n := n) hy1 hd3.is (by omega) (by omega)
  refine ⟨y2, ?_, by omega, hy2.congr ?_⟩
  · simp only [div, hk, e1, bok, e2, e3, e4, e5, e6]
  · rcases Nat.eq_zero_or_pos n with h0 | h0
    · rw [h0]; exact Agree.zero _ _
    · refine Agree.of_eq ?_
      have := PowerSeries.mul_inv_cancel B (hB h0)
      linear_combination (-A * B⁻¹) * this

theorem div1p_has (hker : ker.Exact N) (J : Junk K) {y a b : Ser K} {na nb n s : ℕ} {A B : K⟦X⟧}
    (hs : 0 < s) (ha : a.Has na A) (hb : b.Has nb B) (hn : n = min na (nb + s)) (hl : n ≤ y.limit) (hN : n ≤ N := by omega) :
    ∃ y' : Ser K, div1p ker J y a b s = .ok y' ∧ y'.limit = y.limit ∧
      y'.Has n (A * (1 + X ^ s * B)⁻¹) := by
  have hk : min a.known (b.known + s) = n := by rw [ha.known, hb.known, hn]; push_cast; rfl
  have hs' : (s : ℤ) > 0 := by omega
  have hlow : b.low ((n : ℤ) - s) = b.low ((n - s : ℕ) : ℤ) := by
    simp only [low]
    have : relu ((n : ℤ) - s) = relu ((n - s : ℕ) : ℤ) := by unfold relu; omega
    rw [this]
  have hnew : (new ((n : ℤ) - s) (J [0]) : Ser K) = new ((n - s : ℕ) : ℤ) (J [0]) := by
    simp only [new]
    have : relu ((n : ℤ) - s) = relu ((n - s : ℕ) : ℤ) := by unfold relu; omega
    rw [this]
  have hbl : (b.low ((n - s : ℕ) : ℤ)).Has (n - s) B := by
    have := low_has hb (n - s); rwa [show min (n - s) nb = n - s by omega] at this
  obtain ⟨i, e1, l1, hi⟩ := inv1p_has hker (J.sub 1) (y := new (n - s : ℕ) (J [0])) hs hbl
    (by rw [new_limit])
  obtain ⟨y1, e2, l2, hy1⟩ := mul1p_has (z := y) (n := n) hker.toExactMul hs ha hi (by omega) hl
  obtain ⟨d1, e3, l3, hd1⟩ := mul1p_has (z := new n (J [2])) (n := n) hker.toExactMul hs hy1 hb
    (by omega) (by rw [new_limit])
  rw [new_limit] at l3
  obtain ⟨d2, e4, l4, hd2⟩ := subAssign_has (n := n) hd1 ha.is (by omega) (by omega)
  obtain ⟨d3, e5, l5, hd3⟩ := mul1p_has (z := d2) (n := n) hker.toExactMul hs hd2 hi (by omega)
    (by omega)
  obtain ⟨y2, e6, l6, hy2⟩ := subAssign_has (n := n) hy1 hd3.is (by omega) (by omega)
  refine ⟨y2, ?_, by omega, hy2.congr (Agree.of_eq ?_)⟩
  · simp only [div1p, slowAssert, if_pos hs', hk, hlow, hnew, e1, bok, e2, e3, e4, e5, e6]
  · have h1 := PowerSeries.mul_inv_cancel (1 + X ^ s * B)
      (by rw [constantCoeff_1p hs]; exact one_ne_zero)
    have h2 : 1 + X ^ s * inv1pS s B = (1 + X ^ s * B)⁻¹ := by
      rw [inv1pS]; linear_combination (-1 : K⟦X⟧) * h1
    rw [h2]
    linear_combination (-A * (1 + X ^ s * B)⁻¹) * h1

/-! ## log and log1p -/

theorem dshift_zero (F : K⟦X⟧) : dshift 0 F = X * d⁄dX K F := by
  ext i
  rcases i with _ | i
  · simp [coeff_dshift]
  · rw [coeff_dshift, coeff_succ_X_mul, coeff_derivative]
    push_cast; ring

theorem X_mul_deriv_X_pow_mul (s : ℕ) (F : K⟦X⟧) :
    X * d⁄dX K (X ^ s * F) = X ^ s * dshift s F := by
  rw [← dshift_zero]
  ext i
  rw [coeff_dshift, coeff_X_pow_mul', coeff_X_pow_mul']
  split_ifs with h
  · rw [coeff_dshift]; congr 2; omega
  · simp

theorem log_has (hker : ker.Exact N) (J : Junk K) {y x : Ser K} {n : ℕ} {F : K⟦X⟧} (hx : x.Has n F)
    (hF : 0 < n → constantCoeff F = 1) (hl : n ≤ y.limit) (hN : n ≤ N := by omega) :
    ∃ y' : Ser K, log ker J y x = .ok y' ∧ y'.limit = y.limit ∧ y'.Has n (L F) := by
  rcases Nat.eq_zero_or_pos n with rfl | hn
  · have e : log ker J y x = .ok y.setUnknown := by
      simp only [log, hx.known]; rfl
    obtain ⟨h1, h2⟩ := setUnknown_has (y := y) (L F) (by simpa using hl)
    exact ⟨_, e, h1, h2⟩
  have hF := hF hn
  have hn' : ¬ ((n : ℤ) = 0) := by omega
  have hnz : x.nonzero ≠ 0 := by have := hx.pos hn; omega
  have hx1 : x.data 0 = 1 := by rw [hx.data_zero hn, hF]
  obtain ⟨dx, e1, l1, hdx⟩ := derivativeShift_has (y := new n (J [0])) (s := 0) hx (by rw [new_limit])
  obtain ⟨y1, e2, l2, hy1⟩ := div_has hker (J.sub 1) (y := y) (n := n) hdx hx (by omega)
    (fun _ => by rw [hF]; exact one_ne_zero) hl
  have hd : dshift 0 F * F⁻¹ = dshift 0 (L F) := by
    rw [dshift_zero, dshift_zero, deriv_L hF]; ring
  rw [hd] at hy1
  obtain ⟨y2, e3, l3, hy2⟩ := integralShift_has (y := y1) hy1 (fun _ => constantCoeff_L hF) (by omega)
  refine ⟨y2, ?_, by omega, hy2⟩
  have e1' : derivativeShift (new n (J [0])) x 0 = .ok dx := e1
  have e3' : integralShift y1 y1 0 = .ok y2 := e3
  simp only [log, hx.known, if_neg hn', slowAssert, if_pos hnz, if_pos hx1, bok, e1', e2, e3']
  split_ifs <;> rfl

/-- The power series `z^-s log(1 + z^s F)`. -/
noncomputable def log1pS (s : ℕ) (F : K⟦X⟧) : K⟦X⟧ := shiftDown s (L (1 + X ^ s * F))

theorem L_1p_low {s : ℕ} (hs : 0 < s) (F : K⟦X⟧) : Agree s (L (1 + X ^ s * F)) 0 := by
  rw [← L_one (K := K)]
  refine L_agree (constantCoeff_1p hs F) (by simp) ?_
  have := (Agree.rfl' (n := s) (F := (1 : K⟦X⟧))).add
    ((Agree.X_pow_mul s (Agree.zero F 0)).mono (show s ≤ 0 + s by omega))
  simpa using this

theorem X_pow_mul_log1pS {s : ℕ} (hs : 0 < s) (F : K⟦X⟧) :
    X ^ s * log1pS s F = L (1 + X ^ s * F) := X_pow_mul_shiftDown (L_1p_low hs F)

theorem dshift_log1pS {s : ℕ} (hs : 0 < s) (F : K⟦X⟧) :
    dshift s (log1pS s F) = dshift s F * (1 + X ^ s * F)⁻¹ := by
  have h1 := X_mul_deriv_X_pow_mul s (log1pS s F)
  rw [X_pow_mul_log1pS hs, deriv_L (constantCoeff_1p hs F)] at h1
  have h2 := X_mul_deriv_X_pow_mul s F
  have h3 : d⁄dX K (1 + X ^ s * F) = d⁄dX K (X ^ s * F) := by
    rw [map_add]; simp
  rw [h3] at h1
  have h4 : X ^ s * dshift s (log1pS s F) = X ^ s * (dshift s F * (1 + X ^ s * F)⁻¹) := by
    rw [← h1, ← mul_assoc, ← mul_assoc, h2]
  rw [← shiftDown_X_pow_mul s (dshift s (log1pS s F)), h4, shiftDown_X_pow_mul]

theorem log1p_has (hker : ker.Exact N) (J : Junk K) {y x : Ser K} {n s : ℕ} {F : K⟦X⟧} (hs : 0 < s)
    (hx : x.Has n F) (hl : n ≤ y.limit) (hN : n ≤ N := by omega) :
    ∃ y' : Ser K, log1p ker J y x s = .ok y' ∧ y'.limit = y.limit ∧ y'.Has n (log1pS s F) := by
  rcases Nat.eq_zero_or_pos n with rfl | hn
  · have e : log1p ker J y x s = .ok y.setUnknown := by
      simp only [log1p, hx.known]; rfl
    obtain ⟨h1, h2⟩ := setUnknown_has (y := y) (log1pS s F) (by simpa using hl)
    exact ⟨_, e, h1, h2⟩
  have hn' : ¬ ((n : ℤ) = 0) := by omega
  have hs' : (s : ℤ) > 0 := by omega
  obtain ⟨dx, e1, l1, hdx⟩ := derivativeShift_has (y := new n (J [0])) (s := s) hx (by rw [new_limit])
  obtain ⟨y1, e2, l2, hy1⟩ := div1p_has hker (J.sub 1) (y := y) (n := n) hs hdx hx (by omega) hl
  rw [← dshift_log1pS hs] at hy1
  obtain ⟨y2, e3, l3, hy2⟩ := integralShift_has (y := y1) hy1 (fun h => by omega) (by omega)
  refine ⟨y2, ?_, by omega, hy2⟩
  simp only [log1p, hx.known, if_neg hn', slowAssert, if_pos hs', bok, e1, e2, e3]

/-! ## exp -/

theorem exp_has' (hker : ker.Exact N) (J : Junk K) {y x : Ser K} {n : ℕ} {F : K⟦X⟧} (hx : x.Is n F)
    (hF : 0 < n → constantCoeff F = 0) (hl : n ≤ y.limit) (hN : n ≤ N := by omega) :
    ∃ y' : Ser K, exp ker J y x = .ok y' ∧ y'.limit = y.limit ∧ y'.Has n (E F) ∧
      (x.nonzero = n → y'.nonzero = n) := by
  rcases Nat.eq_zero_or_pos n with rfl | hn
  · have e : exp ker J y x = .ok y.setUnknown := by
      simp only [exp, hx.known]; rfl
    obtain ⟨h1, h2⟩ := setUnknown_has (y := y) (E F) (by simpa using hl)
    exact ⟨_, e, h1, h2, fun _ => rfl⟩
  have hF := hF hn
  have hn' : ¬ ((n : ℤ) = 0) := by omega
  have hx0 : x.nonzero = 0 ∨ x.data 0 = 0 := by
    by_cases h : x.nonzero = 0
    · exact Or.inl h
    · right
      have h1 := hx.agree 0 hn
      have := hx.wf.nonneg
      rw [coeff_ps, if_pos (by omega)] at h1
      rw [h1, coeff_zero_eq_constantCoeff_apply, hF]
  obtain ⟨b, y0, hb0, hbn, eb, hbl, hb, hbf⟩ := hker.expBase y x n F hx hn hF hl
  let P : ℕ → Ser K × Ser K → Prop := fun m st =>
    st.1.limit = y.limit ∧ st.2.limit = n ∧ st.1.Has m (E F) ∧
      (x.nonzero = n → st.1.nonzero = m)
  have hstep : ∀ (m0 m : ℕ) (r : Bool) (st : Ser K × Ser K), 0 < m0 → m0 ≤ m → m ≤ 2 * m0 → m ≤ n →
      P (if r then m else m0) st → ∃ st', expStep ker (J.sub 1) x m0 m r st = .ok st' ∧ P m st' := by
    rintro m0 m r ⟨y, dy⟩ h0 hm hm2 hmn ⟨hyl, hdl, hy, hyf⟩
    simp only at hyl hdl hy
    obtain ⟨y1, e1, l1, G, hy1, hG, -⟩ := setKnown_newton hy h0 hm
    have hG1 : constantCoeff G = 1 := by rw [hG.constantCoeff_eq h0, constantCoeff_E hF]
    obtain ⟨d1, e2, l2, hd1⟩ := log_has hker (J.sub 1) (y := dy) hy1 (fun _ => hG1) (by omega)
    obtain ⟨d2, e3, l3, hd2⟩ := subAssign_has (n := m) hd1 hx (by omega) (by omega)
    obtain ⟨d3, e4, l4, hd3⟩ := mul_has (z := d2) (n := m) hker.toExactMul hy1 hd2 (by omega) (by omega)
    have hr : Agree m0 (L G - F) 0 := by
      have h1 := (L_agree hG1 (constantCoeff_E hF) hG).sub (Agree.rfl' (F := F))
      rw [L_E hF, sub_self] at h1
      exact h1
    have hr' : Agree m0 (G * (L G - F)) 0 := by
      rw [mul_comm]; exact hr.mul_zero_left G
    obtain ⟨y2, e5, l5, hy2⟩ := newtonSub_has hy1 hd3 hm hr' (by omega)
    refine ⟨(y2, d3), ?_, by simp only; omega, by simp only; omega, hy2.congr ?_, ?_⟩
    · simp only [expStep, e1, bok, e2, e3, e4, e5, pok]
    · have hD : Agree m0 (F - L G) 0 := by
        have := hr.neg; rwa [neg_sub, neg_zero] at this
      have hE : E F = G * E (F - L G) := by
        have h1 := E_add (F := L G) (G := F - L G) (constantCoeff_L hG1)
          (by rw [map_sub, hF, constantCoeff_L hG1, sub_zero])
        rw [E_L hG1, add_sub_cancel] at h1
        exact h1
      have h2 := ((Agree.rfl' (F := G)).mul (E_sub_one_agree h0 hD)).mono hm2
      rw [hE]
      refine (Agree.of_eq ?_).trans h2.symm
      ring
    · intro hfull
      have p1 := hy1.pos (by omega)
      have f2 : d2.nonzero = m := by
        have c2 := (highAddsubLdexp_counts e3).2.2
        rw [hd1.known, hx.known, hfull, if_pos (by omega)] at c2
        rw [c2]; clear * - hmn; omega
      have f3 : d3.nonzero = m :=
        mul_full e4 (by rw [hd2.known, hy1.known]; omega) (Or.inr ⟨f2.ge, p1⟩)
      exact newton_full e1 e5 hy1.known hd3.known f3 hm (hyf hfull)
  obtain ⟨st, es, hs1, hs2, hs3, hs4⟩ := newtonIterate_rule (expStep ker (J.sub 1) x) n P hstep b
    (y0, new n (J [0])) hbn (fun _ => hb0) ⟨hbl, new_limit n _, hb, fun _ => hbf⟩
  refine ⟨st.1, ?_, hs1, hs3, hs4⟩
  simp only [exp, hx.known, if_neg hn', slowAssert, if_pos hx0, bok, eb, hb.known, es, pok]
  split_ifs <;> rfl

theorem exp_has (hker : ker.Exact N) (J : Junk K) {y x : Ser K} {n : ℕ} {F : K⟦X⟧} (hx : x.Is n F)
    (hF : 0 < n → constantCoeff F = 0) (hl : n ≤ y.limit) (hN : n ≤ N := by omega) :
    ∃ y' : Ser K, exp ker J y x = .ok y' ∧ y'.limit = y.limit ∧ y'.Has n (E F) := by
  obtain ⟨y', h1, h2, h3, _⟩ := exp_has' hker J hx hF hl
  exact ⟨y', h1, h2, h3⟩

/-! ## expm1 -/

/-- The power series `z^-s (exp(a z^s F) - 1)`. -/
noncomputable def expm1S (a : ℤ) (s : ℕ) (F : K⟦X⟧) : K⟦X⟧ :=
  shiftDown s (E ((a : K⟦X⟧) * (X ^ s * F)) - 1)

theorem constantCoeff_aXs {s : ℕ} (hs : 0 < s) (a : ℤ) (F : K⟦X⟧) :
    constantCoeff ((a : K⟦X⟧) * (X ^ s * F)) = 0 := by simp [hs.ne']

theorem aXs_low {s : ℕ} (a : ℤ) (F : K⟦X⟧) : Agree s ((a : K⟦X⟧) * (X ^ s * F)) 0 := by
  rw [mul_comm]
  exact (((Agree.X_pow_mul s (Agree.zero F 0)).mono (show s ≤ 0 + s by omega)).trans
    (Agree.of_eq (mul_zero _))).mul_zero_left _

theorem E_aXs_agree {s : ℕ} (hs : 0 < s) (a : ℤ) (F : K⟦X⟧) :
    Agree (2 * s) (E ((a : K⟦X⟧) * (X ^ s * F))) (1 + (a : K⟦X⟧) * (X ^ s * F)) :=
  E_sub_one_agree hs (aXs_low a F)

theorem X_pow_mul_expm1S {s : ℕ} (hs : 0 < s) (a : ℤ) (F : K⟦X⟧) :
    1 + X ^ s * expm1S a s F = E ((a : K⟦X⟧) * (X ^ s * F)) := by
  rw [expm1S, X_pow_mul_shiftDown]
  · ring
  · have h1 := ((E_aXs_agree hs a F).mono (show s ≤ 2 * s by omega)).sub (Agree.rfl' (F := (1 : K⟦X⟧)))
    refine h1.trans ?_
    rw [add_sub_cancel_left]
    exact aXs_low a F

/-- `y` agrees with `expm1S` when the exponentials agree. -/
theorem agree_expm1S {s n : ℕ} (hs : 0 < s) {a : ℤ} {F Y : K⟦X⟧}
    (h : Agree (n + s) (1 + X ^ s * Y) (E ((a : K⟦X⟧) * (X ^ s * F)))) : Agree n Y (expm1S a s F) := by
  rw [← X_pow_mul_expm1S hs] at h
  refine Agree.of_X_pow_mul s ?_
  have := h.sub (Agree.rfl' (F := (1 : K⟦X⟧)))
  simpa using this

theorem expm1_has (hker : ker.Exact N) (J : Junk K) {y x : Ser K} {n s : ℕ} {a : ℤ} {F : K⟦X⟧}
    (ha : a = 1 ∨ a = -1) (hs : 0 < s) (hx : x.Has n F) (hl : n ≤ y.limit) (hN : n ≤ N := by omega) :
    ∃ y' : Ser K, expm1 ker J y x a s = .ok y' ∧ y'.limit = y.limit ∧ y'.Has n (expm1S a s F) := by
  have has : (a = 1 ∨ a = -1) ∧ (s : ℤ) > 0 := ⟨ha, by omega⟩
  have hbase : ∃ y0 : Ser K, (if a > 0 then y.assign (x.low s) else neg y (x.low s)) = .ok y0 ∧
      y0.limit = y.limit ∧ y0.Has (min s n) (expm1S a s F) := by
    have hag : Agree (min s n) ((a : K⟦X⟧) * F) (expm1S a s F) := by
      refine agree_expm1S hs ?_
      refine (Agree.of_eq ?_).trans ((E_aXs_agree hs a F).symm.mono (by omega))
      ring
    rcases ha with rfl | rfl
    · obtain ⟨y0, e, l, h⟩ := assign_has (x := y) (low_has hx s) (by push_cast; omega)
      exact ⟨y0, by simpa using e, l, h.congr (by simpa using hag)⟩
    · obtain ⟨y0, e, l, h⟩ := neg_has (y := y) (low_has hx s) (by push_cast; omega)
      exact ⟨y0, by simpa using e, l, h.congr (by simpa using hag)⟩
  obtain ⟨y0, e0, l0, hy0⟩ := hbase
  let P : ℕ → Ser K × Ser K → Prop := fun m st =>
    st.1.limit = y.limit ∧ st.2.limit = n ∧ st.1.Has m (expm1S a s F)
  have hstep : ∀ (m0 m : ℕ) (r : Bool) (st : Ser K × Ser K), 0 < m0 → m0 ≤ m → m ≤ 2 * m0 → m ≤ n →
      P (if r then m else m0) st →
      ∃ st', expm1Step ker (J.sub 1) x a s m0 m r st = .ok st' ∧ P m st' := by
    rintro m0 m r ⟨y, dy⟩ h0 hm hm2 hmn ⟨hyl, hdl, hy⟩
    simp only at hyl hdl hy
    obtain ⟨y1, e1, l1, G, hy1, hG, -⟩ := setKnown_newton hy h0 hm
    obtain ⟨d1, e2, l2, hd1⟩ := log1p_has hker (J.sub 1) (y := dy) hs hy1 (by omega)
    have hsub : ∃ d2 : Ser K, (if a > 0 then d1.subAssign x else d1.addAssign x) = .ok d2 ∧
        d2.limit = d1.limit ∧ d2.Has m (log1pS s G - (a : K⟦X⟧) * F) := by
      rcases ha with rfl | rfl
      · obtain ⟨d2, e, l, h⟩ := subAssign_has (n := m) hd1 hx.is (by omega) (by omega)
        exact ⟨d2, by simpa using e, l, h.congr (Agree.of_eq (by simp))⟩
      · obtain ⟨d2, e, l, h⟩ := addAssign_has (n := m) hd1 hx.is (by omega) (by omega)
        exact ⟨d2, by simpa using e, l, h.congr (Agree.of_eq (by simp))⟩
    obtain ⟨d2, e3, l3, hd2⟩ := hsub
    obtain ⟨d3, e4, l4, hd3⟩ := mul1p_has (z := d2) (n := m) hker.toExactMul hs hd2 hy1 (by omega)
      (by omega)
    have hY1 := constantCoeff_1p hs G
    have haX := constantCoeff_aXs hs a F
    have hEc := constantCoeff_E haX
    have hYE : Agree (m0 + s) (1 + X ^ s * G) (E ((a : K⟦X⟧) * (X ^ s * F))) := by
      rw [← X_pow_mul_expm1S hs]
      exact Agree.rfl'.add (Agree.X_pow_mul s hG)
    have hD : Agree (m0 + s) ((a : K⟦X⟧) * (X ^ s * F) - L (1 + X ^ s * G)) 0 := by
      have h1 := (Agree.rfl' (F := (a : K⟦X⟧) * (X ^ s * F))).sub (L_agree hY1 hEc hYE)
      rw [L_E haX, sub_self] at h1
      exact h1
    have hr : Agree m0 (log1pS s G - (a : K⟦X⟧) * F) 0 := by
      refine Agree.of_X_pow_mul s ?_
      have := hD.neg
      rw [mul_sub, X_pow_mul_log1pS hs, mul_zero]
      rw [neg_sub, neg_zero] at this
      refine (Agree.of_eq ?_).trans this
      ring
    obtain ⟨y2, e5, l5, hy2⟩ := newtonSub_has hy1 hd3 hm (hr.mul_zero_left _) (by omega)
    refine ⟨(y2, d3), ?_, by simp only; omega, by simp only; omega, hy2.congr (agree_expm1S hs ?_)⟩
    · by_cases h : a > 0
      · rw [if_pos h] at e3
        simp only [expm1Step, e1, bok, e2, if_pos h, e3, e4, e5, pok]
      · rw [if_neg h] at e3
        simp only [expm1Step, e1, bok, e2, if_neg h, e3, e4, e5, pok]
    · have hE : E ((a : K⟦X⟧) * (X ^ s * F)) = (1 + X ^ s * G) *
          E ((a : K⟦X⟧) * (X ^ s * F) - L (1 + X ^ s * G)) := by
        have h1 := E_add (F := L (1 + X ^ s * G)) (G := (a : K⟦X⟧) * (X ^ s * F) - L (1 + X ^ s * G))
          (constantCoeff_L hY1) (by rw [map_sub, haX, constantCoeff_L hY1, sub_zero])
        rw [E_L hY1, add_sub_cancel] at h1
        exact h1
      have h2 := ((Agree.rfl' (F := 1 + X ^ s * G)).mul (E_sub_one_agree (by omega) hD)).mono
        (show m + s ≤ 2 * (m0 + s) by omega)
      rw [hE]
      refine (Agree.of_eq ?_).trans h2.symm
      rw [← X_pow_mul_log1pS hs]
      ring
  obtain ⟨st, es, hs1, hs2, hs3⟩ := newtonIterate_rule (expm1Step ker (J.sub 1) x a s) n P hstep
    (min s n) (y0, new n (J [0])) (by omega) (fun _ => by omega) ⟨l0, new_limit n _, hy0⟩
  refine ⟨st.1, ?_, hs1, hs3⟩
  by_cases h : a > 0
  · rw [if_pos h] at e0
    simp only [expm1, hx.known, slowAssert, if_pos has, if_pos h, bok, e0, hy0.known, es, pok]
  · rw [if_neg h] at e0
    simp only [expm1, hx.known, slowAssert, if_pos has, if_neg h, bok, e0, hy0.known, es, pok]

/-! ## log1p_exp -/

/-- The power series `z^-s log(1 + z^s exp F)`. -/
noncomputable def log1pExpS (s : ℕ) (F : K⟦X⟧) : K⟦X⟧ := log1pS s (E F)

theorem agree_log1pExpS {s n : ℕ} (hs : 0 < s) {F Y : K⟦X⟧}
    (h : Agree (n + s) (X ^ s * Y) (L (1 + X ^ s * E F))) : Agree n Y (log1pExpS s F) := by
  rw [← X_pow_mul_log1pS hs] at h
  exact Agree.of_X_pow_mul s h

theorem L_1p_agree {n : ℕ} (hn : 0 < n) {D : K⟦X⟧} (h : Agree n D 0) :
    Agree (2 * n) (L (1 + D)) D := by
  have h0 : constantCoeff D = 0 := by simpa using h.constantCoeff_eq hn
  have h1 : constantCoeff (1 + D) = 1 := by simp [h0]
  have := L_agree (by rw [constantCoeff_E h0]) h1 (E_sub_one_agree hn h)
  rw [L_E h0] at this
  exact this.symm

theorem log1pExp_has (hker : ker.Exact N) (J : Junk K) {y x : Ser K} {n s : ℕ} {F : K⟦X⟧}
    (hs : 0 < s) (hx : x.Has n F) (hF : 0 < n → constantCoeff F = 0) (hl : n ≤ y.limit) (hN : n ≤ N := by omega) :
    ∃ y' : Ser K, log1pExp ker J y x s = .ok y' ∧ y'.limit = y.limit ∧ y'.Has n (log1pExpS s F) := by
  rcases Nat.eq_zero_or_pos n with rfl | hn
  · have e : log1pExp ker J y x s = .ok y.setUnknown := by
      simp only [log1pExp, hx.known]; rfl
    obtain ⟨h1, h2⟩ := setUnknown_has (y := y) (log1pExpS s F) (by simpa using hl)
    exact ⟨_, e, h1, h2⟩
  have hF := hF hn
  have hn' : ¬ ((n : ℤ) = 0) := by omega
  have hs' : (s : ℤ) > 0 := by omega
  obtain ⟨y0, e0, l0, hy0⟩ := exp_has hker (J.sub 0) (y := y) (low_has hx s).is (fun _ => hF)
    (by push_cast; omega)
  have hW1 := constantCoeff_1p hs (E F)
  have hbase : y0.Has (min s n) (log1pExpS s F) := by
    refine hy0.congr (agree_log1pExpS hs ?_)
    refine (L_1p_agree hs ?_).symm.mono (by omega)
    exact ((Agree.X_pow_mul s (Agree.zero (E F) 0)).mono (show s ≤ 0 + s by omega)).trans
      (Agree.of_eq (mul_zero _))
  let P : ℕ → Ser K × Ser K × Ser K → Prop := fun m st =>
    st.1.limit = y.limit ∧ st.2.1.limit = n ∧ st.2.2.limit = n ∧ st.1.Has m (log1pExpS s F)
  have hstep : ∀ (m0 m : ℕ) (r : Bool) (st : Ser K × Ser K × Ser K), 0 < m0 → m0 ≤ m → m ≤ 2 * m0 →
      m ≤ n → P (if r then m else m0) st →
      ∃ st', log1pExpStep ker (J.sub 3) x s m0 m r st = .ok st' ∧ P m st' := by
    rintro m0 m r ⟨y, ndy, t⟩ h0 hm hm2 hmn ⟨hyl, hdl, htl, hy⟩
    simp only at hyl hdl htl hy
    obtain ⟨y1, e1, l1, G, hy1, hG, -⟩ := setKnown_newton hy h0 hm
    have hxl : (x.low m).Has m F := by
      have := low_has hx m; rwa [show min m n = m by omega] at this
    obtain ⟨t1, e2, l2, ht1⟩ := assign_has (x := t) hxl (by omega)
    obtain ⟨t2, e3, l3, ht2⟩ := highSub_has (n := m) (s := s) ht1 hy1.is (by omega) (by omega)
    have hXG : constantCoeff (X ^ s * G) = 0 := by simp [hs.ne']
    have hc : constantCoeff (F - X ^ s * G) = 0 := by rw [map_sub, hF, hXG, sub_zero]
    obtain ⟨d1, e4, l4, hd1⟩ := exp_has hker ((J.sub 3).sub 0) (y := ndy) ht2.is (fun _ => hc)
      (by omega)
    obtain ⟨t3, e5, l5, ht3⟩ := expm1_has hker ((J.sub 3).sub 1) (y := t2) (Or.inr rfl) hs hy1
      (by omega)
    obtain ⟨d2, e6, l6, hd2⟩ := addAssign_has (n := m) hd1 ht3.is (by omega) (by omega)
    -- the correction, multiplied by `z^s`, is `exp D - 1` with `D = log(1 + z^s e^F) - z^s G`
    set D := L (1 + X ^ s * E F) - X ^ s * G with hDdef
    have hD : Agree (m0 + s) D 0 := by
      have h1 := (Agree.rfl' (F := L (1 + X ^ s * E F))).sub (Agree.X_pow_mul s hG)
      rw [log1pExpS, X_pow_mul_log1pS hs, sub_self] at h1
      exact h1
    have hcD : constantCoeff D = 0 := by rw [hDdef, map_sub, constantCoeff_L hW1, hXG, sub_zero]
    have hXS : X ^ s * (E (F - X ^ s * G) + expm1S (-1) s G) = E D - 1 := by
      have h1 := X_pow_mul_expm1S hs (-1) G
      have h2 : E (F - X ^ s * G) = E F * E (-(X ^ s * G)) := by
        rw [sub_eq_add_neg, E_add hF (by rw [map_neg, hXG, neg_zero])]
      have h3 : E D = (1 + X ^ s * E F) * E (-(X ^ s * G)) := by
        rw [hDdef, sub_eq_add_neg, E_add (constantCoeff_L hW1) (by rw [map_neg, hXG, neg_zero]),
          E_L hW1]
      have h4 : (((-1 : ℤ) : K⟦X⟧) * (X ^ s * G)) = -(X ^ s * G) := by push_cast; ring
      rw [h4] at h1
      rw [h2, h3]
      linear_combination h1
    have hED : Agree (2 * (m0 + s)) (E D - 1) D := by
      have := (E_sub_one_agree (by omega) hD).sub (Agree.rfl' (F := (1 : K⟦X⟧)))
      rwa [add_sub_cancel_left] at this
    have hr : Agree m0 (E (F - X ^ s * G) + expm1S (-1) s G) 0 := by
      refine Agree.of_X_pow_mul s ?_
      rw [hXS, mul_zero]
      exact (hED.mono (by omega)).trans hD
    obtain ⟨y2, e7, l7, hy2⟩ := newtonAdd_has hy1 hd2 hm hr (by omega)
    refine ⟨(y2, d2, t3), ?_, by simp only; omega, by simp only; omega, by simp only; omega,
      hy2.congr (agree_log1pExpS hs ?_)⟩
    · simp only [log1pExpStep, e1, bok, e2, e3, e4, e5, e6, e7, pok]
    · rw [mul_add, hXS]
      have h1 := (Agree.rfl' (F := X ^ s * G)).add (hED.mono (show m + s ≤ 2 * (m0 + s) by omega))
      refine h1.trans (Agree.of_eq ?_)
      rw [hDdef]; ring
  obtain ⟨st, es, hs1, hs2, hs3, hs4⟩ := newtonIterate_rule (log1pExpStep ker (J.sub 3) x s) n P hstep
    (min s n) (y0, new n (J [1]), new n (J [2])) (by omega) (fun _ => by omega)
    ⟨l0, new_limit n _, new_limit n _, hbase⟩
  refine ⟨st.1, ?_, hs1, hs4⟩
  simp only [log1pExp, hx.known, if_neg hn', slowAssert, if_pos hs', bok, e0, hbase.known, es, pok]

end Ser

end Mandelbrot
