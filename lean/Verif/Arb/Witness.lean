import Verif.Arb.HullArb

/-!
# `poly_exp_refine` is not an enclosure in general

The input is the exact series `-z - z^2/2 - z^3/3 + O(z^4) = log(1 - z)`.  The library is allowed to answer with the box
`1, [-1, 3], 0, [-1, 1]`, which contains `1 - z`.  Its midpoint is `1 + z`.  The refinement step then computes the value
`-2/3` for the coefficient of `z^3`, which is zero in `1 - z`.
-/

namespace Mandelbrot

open PowerSeries

namespace ArbPoly

open Spec Classical

noncomputable section

namespace Witness

/-- How much the library widens its answer. -/
def W (i : ℕ) : Set ℝ := if i = 1 then Set.Icc 0 4 else if i = 3 then Set.Icc (-1) 1 else {0}

theorem W_zero (i : ℕ) : (0 : ℝ) ∈ W i := by
  unfold W; split_ifs
  · constructor <;> norm_num
  · constructor <;> norm_num
  · rfl

/-- The ball arithmetic. -/
abbrev A : Arb (Set ℝ) := hullArb W

theorem sound : ArbSound A hmem := hullArb_sound W W_zero

/-- `log(1 - z)`. -/
def F : ℝ⟦X⟧ := rlog (1 - X)

/-- The exact input. -/
def x : List (Set ℝ) := [{0}, {-1}, {-1 / 2}, {-1 / 3}]

theorem cc_sub : constantCoeff (1 - X : ℝ⟦X⟧) = 1 := by simp
theorem cc_add : constantCoeff (1 + X : ℝ⟦X⟧) = 1 := by simp

theorem rexp_F : rexp F = 1 - X := rexp_rlog (by rw [cc_sub]; norm_num)

theorem d_one : d⁄dX ℝ (1 : ℝ⟦X⟧) = 0 := by simp

theorem coeff_of_deriv (G : ℝ⟦X⟧) (i : ℕ) : coeff (i + 1) G = coeff i (d⁄dX ℝ G) / (i + 1) := by
  rw [coeff_derivative, mul_div_cancel_right₀]
  positivity

theorem coeff_F_zero : coeff 0 F = 0 := by
  rw [coeff_zero_eq_constantCoeff_apply, F, constantCoeff_rlog (by rw [cc_sub]; norm_num), cc_sub, Real.log_one]

theorem deriv_F : d⁄dX ℝ F * (1 - X) = -1 := by
  have h := PowerSeries.inv_mul_cancel (1 - X : ℝ⟦X⟧) (by rw [cc_sub]; norm_num)
  rw [F, deriv_rlog (by rw [cc_sub]; norm_num), map_sub, d_one, derivative_X, mul_assoc, h]
  ring

theorem coeff_deriv_F (i : ℕ) : coeff i (d⁄dX ℝ F) = -1 := by
  induction i with
  | zero =>
    have := congrArg (coeff 0) deriv_F
    rw [mul_sub, mul_one, map_sub, coeff_zero_mul_X, sub_zero] at this
    simpa using this
  | succ i ih =>
    have := congrArg (coeff (i + 1)) deriv_F
    rw [mul_sub, mul_one, map_sub, coeff_succ_mul_X, ih] at this
    simp only [map_neg, coeff_one, Nat.succ_ne_zero, if_false, neg_zero] at this
    linarith

theorem coeff_F (i : ℕ) : coeff (i + 1) F = -1 / (i + 1) := by rw [coeff_of_deriv, coeff_deriv_F]

theorem enc_x : Encloses hmem {0} 4 x F := by
  refine enc_sub ?_
  intro i hi
  have h : i = 0 ∨ i = 1 ∨ i = 2 ∨ i = 3 := by omega
  rcases h with rfl | rfl | rfl | rfl
  · exact coeff_F_zero
  · show coeff 1 F = -1
    rw [coeff_F 0]; norm_num
  · show coeff 2 F = -1 / 2
    rw [coeff_F 1]; norm_num
  · show coeff 3 F = -1 / 3
    rw [coeff_F 2]; norm_num

theorem pt_x : Pt x := by
  intro i
  rcases i with _ | _ | _ | _ | i <;> exact Set.subsingleton_singleton

/-- `log(1 + z) - log(1 - z)`. -/
def T : ℝ⟦X⟧ := rlog (1 + X) - F

theorem deriv_T : d⁄dX ℝ T * (1 - X ^ 2) = 2 := by
  have h1 := PowerSeries.inv_mul_cancel (1 - X : ℝ⟦X⟧) (by rw [cc_sub]; norm_num)
  have h2 := PowerSeries.inv_mul_cancel (1 + X : ℝ⟦X⟧) (by rw [cc_add]; norm_num)
  rw [T, F, map_sub, deriv_rlog (F := 1 + X) (by rw [cc_add]; norm_num), deriv_rlog (F := 1 - X) (by rw [cc_sub]; norm_num), map_sub, map_add,
    d_one, derivative_X]
  linear_combination (1 + X) * h1 + (1 - X) * h2

theorem T0 : coeff 0 T = 0 := by
  rw [T, map_sub, coeff_F_zero, coeff_zero_eq_constantCoeff_apply, constantCoeff_rlog (by rw [cc_add]; norm_num), cc_add,
    Real.log_one, sub_zero]

theorem dT (i : ℕ) : coeff i (d⁄dX ℝ T) = (if i = 0 then 2 else 0) + if 2 ≤ i then coeff (i - 2) (d⁄dX ℝ T) else 0 := by
  have := congrArg (coeff i) deriv_T
  rw [mul_sub, mul_one, map_sub, coeff_mul_X_pow'] at this
  have h2 : coeff i (2 : ℝ⟦X⟧) = if i = 0 then 2 else 0 := by
    rw [show (2 : ℝ⟦X⟧) = C (2 : ℝ) by rw [map_ofNat], coeff_C]
  rw [h2] at this
  linarith

theorem T1 : coeff 1 T = 2 := by rw [coeff_of_deriv, dT]; norm_num

theorem T2 : coeff 2 T = 0 := by rw [coeff_of_deriv, dT]; norm_num

theorem T3 : coeff 3 T = 2 / 3 := by rw [coeff_of_deriv, dT, if_pos le_rfl, dT]; norm_num

/-- The answer of the library. -/
def y : List (Set ℝ) := A.expSeries x 4

theorem y_length : y.length = 4 := by show ((List.range 4).map _).length = 4; simp

theorem y_get {i : ℕ} (hi : i < 4) : y.getD i {0} = {c | ∃ w ∈ W i, c = coeff i (1 - X : ℝ⟦X⟧) + w} := by
  show ((List.range 4).map fun i => {c : ℝ | ∃ F ∈ box 4 (x.map hull), ∃ w ∈ W i, c = coeff i (rexp F) + w}).getD i {0} = _
  rw [getD_map_range, if_pos hi]
  ext c
  constructor
  · rintro ⟨G, hG, w, hw, rfl⟩
    exact ⟨w, hw, by rw [rexp_agree (pt_x.hull.agree hG (enc_hull.1 enc_x)) i hi, rexp_F]⟩
  · rintro ⟨w, hw, rfl⟩
    exact ⟨F, enc_hull.1 enc_x, w, hw, by rw [rexp_F]⟩

theorem c0 : coeff 0 (1 - X : ℝ⟦X⟧) = 1 := by simp
theorem c1 : coeff 1 (1 - X : ℝ⟦X⟧) = -1 := by simp [coeff_one, coeff_X]
theorem c2 : coeff 2 (1 - X : ℝ⟦X⟧) = 0 := by simp [coeff_one, coeff_X]
theorem c3 : coeff 3 (1 - X : ℝ⟦X⟧) = 0 := by simp [coeff_one, coeff_X]

theorem y0_eq : y.getD 0 {0} = {1} := by
  rw [y_get (by norm_num), c0]; ext c
  simp [W]

theorem y1_eq : y.getD 1 {0} = Set.Icc (-1) 3 := by
  rw [y_get (by norm_num), c1]; ext c
  constructor
  · rintro ⟨w, hw, rfl⟩
    have hw : w ∈ Set.Icc (0 : ℝ) 4 := hw
    constructor <;> linarith [hw.1, hw.2]
  · intro h
    exact ⟨c + 1, (⟨by linarith [h.1], by linarith [h.2]⟩ : c + 1 ∈ Set.Icc (0 : ℝ) 4), by ring⟩

theorem y2_eq : y.getD 2 {0} = {0} := by
  rw [y_get (by norm_num), c2]; ext c
  simp [W]

theorem y3_eq : y.getD 3 {0} = Set.Icc (-1) 1 := by
  rw [y_get (by norm_num), c3]; ext c
  constructor
  · rintro ⟨w, hw, rfl⟩
    rw [zero_add]; exact hw
  · intro h
    exact ⟨c, h, by rw [zero_add]⟩

theorem midf_singleton (a : ℝ) : midf {a} = a := by
  unfold midf; rw [csInf_singleton, csSup_singleton, if_pos (by simp)]; ring

theorem midf_Icc {a b : ℝ} (h : a ≤ b) : midf (Set.Icc a b) = (a + b) / 2 := by
  unfold midf
  rw [csInf_Icc h, csSup_Icc h, if_pos (by constructor <;> linarith)]

theorem hull_Icc (a b : ℝ) : hull (Set.Icc a b) = Set.Icc a b := by
  ext y
  constructor
  · rintro ⟨x, hx, z, hz, h1, h2⟩
    exact ⟨hx.1.trans h1, h2.trans hz.2⟩
  · exact fun h => sub_hull h

theorem midh_Icc {a b : ℝ} (h : a ≤ b) : midh (hull (Set.Icc a b)) = (a + b) / 2 := by
  rw [hull_Icc, midh, if_neg, midf_Icc h]
  intro e
  have : b + 1 ∈ Set.Icc a b := by rw [e]; trivial
  linarith [this.2]

theorem midh_singleton (a : ℝ) : midh (hull {a}) = a := by
  rw [hull_singleton, midh, if_neg, midf_singleton]
  intro e
  have : a + 1 ∈ ({a} : Set ℝ) := by rw [e]; trivial
  have : a + 1 = a := this
  linarith

theorem mid_get {i : ℕ} (hi : i < 4) : (polyMid A y).getD i {0} = {midh (hull (y.getD i {0}))} := by
  have := polyMid_getD (A := A) y i
  rw [if_pos (by rw [y_length]; exact hi)] at this
  exact this

theorem m0 : (polyMid A y).getD 0 {0} = {1} := by rw [mid_get (by norm_num), y0_eq, midh_singleton]
theorem m1 : (polyMid A y).getD 1 {0} = {1} := by
  rw [mid_get (by norm_num), y1_eq, midh_Icc (by norm_num)]; norm_num
theorem m2 : (polyMid A y).getD 2 {0} = {0} := by rw [mid_get (by norm_num), y2_eq, midh_singleton]
theorem m3 : (polyMid A y).getD 3 {0} = {0} := by
  rw [mid_get (by norm_num), y3_eq, midh_Icc (by norm_num)]; norm_num

theorem pt_mid : Pt (polyMid A y) := by
  intro i
  by_cases hi : i < 4
  · rw [mid_get hi]; exact Set.subsingleton_singleton
  · rw [List.getD_eq_default _ _ (by rw [polyMid, List.length_map, y_length]; omega)]
    exact Set.subsingleton_singleton

theorem enc_mid : Encloses hmem {0} 4 (polyMid A y) (1 + X) := by
  refine enc_sub ?_
  intro i hi
  have h : i = 0 ∨ i = 1 ∨ i = 2 ∨ i = 3 := by omega
  rcases h with rfl | rfl | rfl | rfl
  · rw [m0]; simp
  · rw [m1]; simp [coeff_one, coeff_X]
  · rw [m2]; simp [coeff_one, coeff_X]
  · rw [m3]; simp [coeff_one, coeff_X]

/-- The coefficients of a product with `T`. -/
theorem coeff_three (M D : ℝ⟦X⟧) : coeff 3 (M * D) =
    coeff 0 M * coeff 3 D + coeff 1 M * coeff 2 D + coeff 2 M * coeff 1 D + coeff 3 M * coeff 0 D := by
  rw [coeff_mul, Finset.Nat.sum_antidiagonal_eq_sum_range_succ_mk]
  simp [Finset.sum_range_succ]

theorem result : ∃ r, expRefine A false x 4 = .ok r ∧ ¬ Encloses hmem {0} 4 r (rexp F) := by
  have hone : A.isOne (get A (polyMid A y) 0) = true := by
    have e : get A (polyMid A y) 0 = {1} := m0
    rw [e]; exact decide_eq_true (fun z hz => by rw [hull_singleton] at hz; exact hz)
  have hpos : A.isPositive (get A (polyMid A y) 0) = true := by
    have e : get A (polyMid A y) 0 = {1} := m0
    rw [e]; exact decide_eq_true (fun z hz => by rw [hull_singleton] at hz; rw [Set.mem_singleton_iff.1 hz]; norm_num)
  obtain ⟨l, hl1, hl2⟩ := logRefine_enc (n := 4) sound false (F := 1 + X) (by rw [cc_add]; norm_num) (fun _ _ => hpos) enc_mid
  have hlp := pth_logRefine W hl1 pt_mid hone
  have he : Encloses hmem {0} 4 (A.subSeries l x 4) T := sound.subSeries hl2 enc_x
  have hep := pt_subSeries W hlp.hull pt_x.hull 4
  have hM : Encloses hmem {0} 4 y (1 : ℝ⟦X⟧) := by
    refine enc_sub ?_
    intro i hi
    have h : i = 0 ∨ i = 1 ∨ i = 2 ∨ i = 3 := by omega
    rcases h with rfl | rfl | rfl | rfl
    · rw [y0_eq]; simp
    · rw [y1_eq]; simp [coeff_one]
    · rw [y2_eq]; simp [coeff_one]
    · rw [y3_eq]; simp [coeff_one]
  have hdy : Encloses hmem {0} 4 (A.mullow y (A.subSeries l x 4) 4) T := by
    have := sound.mullow hM he
    rwa [one_mul] at this
  have hR : Encloses hmem {0} 4 y (1 + X - T) := by
    refine enc_sub ?_
    intro i hi
    have h : i = 0 ∨ i = 1 ∨ i = 2 ∨ i = 3 := by omega
    rcases h with rfl | rfl | rfl | rfl
    · rw [y0_eq, map_sub, T0]; simp
    · rw [y1_eq, map_sub, T1]; simp [coeff_one, coeff_X]; norm_num
    · rw [y2_eq, map_sub, T2]; simp [coeff_one, coeff_X]
    · rw [y3_eq, map_sub, T3]; simp [coeff_one, coeff_X]; norm_num
  obtain ⟨r, hr1, -, -⟩ := intersectSub_enc sound hR (n' := 4) rfl enc_mid hdy (Agree.refl _ _)
  refine ⟨r, ?_, ?_⟩
  · show (if (4 : ℤ) ≤ 0 then _ else _) = _
    rw [if_neg (by norm_num)]
    show (logRefine A false (polyMid A y) 4 >>= _) = _
    rw [hl1, bok]
    exact hr1
  · intro hc
    have h3 := hc 3 (by norm_num)
    rw [rexp_F, c3, intersectSub_eq hr1, getD_map_range, if_pos (by
      rw [y_length, polyMid, List.length_map, y_length]; simp)] at h3
    have key : ∀ v ∈ A.sub (get A (polyMid A y) 3) (get A (A.mullow y (A.subSeries l x 4) 4) 3), v = -2 / 3 := by
      rintro v ⟨a, ha, b, hb, hab⟩
      have ha : a = 0 := by
        have e : get A (polyMid A y) 3 = {0} := m3
        rw [e, hull_singleton] at ha; exact ha
      have hb2 : b = 2 / 3 := by
        refine hull_const ?_ hb
        intro b hb
        have hb : b ∈ (img 4 {H | ∃ F ∈ box 4 (y.map hull), ∃ G ∈ box 4 ((A.subSeries l x 4).map hull),
          H = F * G}).getD 3 {0} := hb
        rw [img, getD_map_range, if_pos (by norm_num)] at hb
        obtain ⟨H, ⟨M, hM, D, hD, rfl⟩, rfl⟩ := hb
        have hD4 := hep.hull.agree hD (enc_hull.1 he)
        have M0 : coeff 0 M = 1 := by
          have := hM 0 (by norm_num); rw [getD_map_hull, y0_eq, hull_singleton] at this; exact this
        have M2 : coeff 2 M = 0 := by
          have := hM 2 (by norm_num); rw [getD_map_hull, y2_eq, hull_singleton] at this; exact this
        rw [coeff_three, hD4 0 (by norm_num), hD4 1 (by norm_num), hD4 2 (by norm_num), hD4 3 (by norm_num), T0, T1, T2, T3,
          M0, M2]
        norm_num
      rw [hab, ha, hb2]; norm_num
    have h4 : (0 : ℝ) = -2 / 3 := by
      refine hull_const ?_ h3
      intro v hv
      exact hull_const key hv.2
    norm_num at h4

end Witness

end

end ArbPoly

end Mandelbrot
