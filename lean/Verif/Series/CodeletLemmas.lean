import Verif.Series.Codelet
import Verif.Series.NewtonFns

/-!
# The generated base cases are exact
-/

set_option linter.unusedSectionVars false

namespace Mandelbrot

open PowerSeries Finset

variable {K : Type} [Field K]

theorem treeSum_eq : ∀ l : List K, treeSum l = l.sum
  | [] => by simp [treeSum]
  | [x] => by simp [treeSum]
  | x :: y :: l => by
    have h1 := treeSum_eq ((x :: y :: l).take ((x :: y :: l).length / 2))
    have h2 := treeSum_eq ((x :: y :: l).drop ((x :: y :: l).length / 2))
    rw [treeSum, h1, h2, ← List.sum_append, List.take_append_drop]
  termination_by l => l.length
  decreasing_by all_goals simp +arith; try omega

theorem naiveCoeff_eq (x y : Span K) (i : ℕ) : naiveCoeff x y i = x.conv y i := by
  rw [naiveCoeff, treeSum_eq, Span.conv, Nat.sum_antidiagonal_eq_sum_range_succ_mk]
  show _ = ((((List.range (i + 1) : List ℕ) : Multiset ℕ)).map _).sum
  rw [Multiset.map_coe, Multiset.sum_coe]
  generalize List.range (i + 1) = l
  induction l with
  | nil => rfl
  | cons a l ih =>
    rw [List.map_cons, List.sum_cons, ← ih, List.filter_cons]
    simp only [Span.getZ]
    by_cases h1 : a < x.len <;> by_cases h2 : i - a < y.len <;> simp [h1, h2]

variable [CharZero K] [Ldexp K] [Ser.LawfulLdexp K] [DecidableEq K]

theorem oneTermBase_spec (f : K → K) (y x : Ser K) (hl : 1 ≤ y.limit) :
    ∃ y', oneTermBase f y x = .ok y' ∧ y'.limit = y.limit ∧
      y'.Has 1 (C (f (if x.nonzero ≠ 0 then x.data 0 else 0))) ∧ y'.nonzero = (1 : ℕ) := by
  have e : oneTermBase f y x = .ok ((⟨y.limit, 1, 1, y.data⟩ : Ser K).loopSet 1
      fun _ => f (if x.nonzero ≠ 0 then x.data 0 else 0)) := by
    simp only [oneTermBase, Ser.setCounts_ok y (by norm_num : (0 : ℤ) ≤ 1) le_rfl hl, bok, pok]
  refine ⟨_, e, rfl, ⟨⟨⟨by simp [Ser.loopSet], by simp [Ser.loopSet], hl⟩, rfl, fun i hi => ?_⟩,
    fun _ => le_rfl⟩, rfl⟩
  have : i = 0 := by omega
  subst this
  rw [Ser.coeff_ps]
  simp [Ser.loopSet]

theorem agree_one {F G : K⟦X⟧} (h : constantCoeff F = constantCoeff G) : Agree 1 F G := by
  intro i hi
  have : i = 0 := by omega
  subst this
  simpa using h

theorem codeletKer_exact {N : ℕ} : (codeletKer : Ker K).Exact N where
  mul := fun nz x y _ _ _ _ => ⟨_, rfl, fun i _ => naiveCoeff_eq x y i⟩
  addmul := fun nz x y _ _ _ _ => ⟨_, rfl, fun i _ => naiveCoeff_eq x y i⟩
  sqr := fun nz x _ _ _ => ⟨_, rfl, fun i _ => naiveCoeff_eq x x i⟩
  invBase := by
    intro y x n F hx hn hF hl
    obtain ⟨y', e, l, h, z⟩ := oneTermBase_spec (fun x0 => 1 / x0) y x (by omega)
    refine ⟨1, y', one_pos, hn, e, l, h.congr (agree_one ?_), z⟩
    rw [if_pos (by have := hx.pos hn; omega), hx.data_zero hn]
    simp
  expBase := by
    intro y x n F hx hn hF hl
    obtain ⟨y', e, l, h, z⟩ := oneTermBase_spec (fun _ => (1 : K)) y x (by omega)
    refine ⟨1, y', one_pos, hn, e, l, h.congr (agree_one ?_), z⟩
    rw [constantCoeff_E hF]
    simp

/-- What the generated wrapper needs of its body. -/
theorem serialBase_spec {leading : ℕ} {set : Junk K → Ser K → Ser K → Res (Ser K)} (J : Junk K)
    {y x : Ser K} {n : ℕ} {F G : K⟦X⟧} (hx : x.Is n F) (hn : 0 < n) (hl : n ≤ y.limit)
    (hlead : ∀ i < leading, coeff i F = 0)
    (hset : ∀ xs : Ser K, xs.Has 5 xs.ps → xs.nonzero = 5 → Agree (min 5 n) xs.ps F →
      (∀ i < leading, coeff i xs.ps = 0) →
      ∃ ys H, set (J.sub 1) (Ser.new 5 (J [0])) xs = .ok ys ∧ ys.Has 5 H ∧ ys.nonzero = 5 ∧
        Agree (min 5 n) H G) :
    ∃ (b : ℕ) (y' : Ser K), 0 < b ∧ b ≤ n ∧ serialBase leading set J y x = .ok y' ∧
      y'.limit = y.limit ∧ y'.Has b G ∧ y'.nonzero = b := by
  set b := min 5 n with hb
  have hny : min (5 : ℤ) x.known = b := by rw [hx.known, hb]; push_cast; rfl
  have hb0 : ((b : ℕ) : ℤ) ≠ 0 := by omega
  set xs : Ser K := ⟨5, 5, 5, fun i =>
      if i < leading then 0 else if (i : ℤ) < x.nonzero then x.data i else 0⟩ with hxs
  have hxv : xs.view = xs := rfl
  have hxwf : xs.WF := ⟨by simp [hxs], by simp [hxs], by simp [hxs]⟩
  have hxhas : xs.Has 5 xs.ps := ⟨Ser.Is.self hxwf 5 rfl, fun _ => by simp [hxs]⟩
  have hag : Agree b xs.ps F := by
    intro i hi
    rw [Ser.coeff_ps]
    have h5 : (i : ℤ) < xs.nonzero := by simp only [hxs]; omega
    rw [if_pos h5]
    simp only [hxs]
    by_cases h : i < leading
    · rw [if_pos h, hlead i h]
    · rw [if_neg h, ← Ser.coeff_ps, hx.agree i (by omega)]
  have hz : ∀ i < leading, coeff i xs.ps = 0 := by
    intro i hi
    rw [Ser.coeff_ps]
    simp only [hxs, if_pos hi, ite_self]
  obtain ⟨ys, H, e1, h1, h2, h3⟩ := hset xs hxhas rfl hag hz
  have e : serialBase leading set J y x = .ok ((⟨y.limit, b, b, y.data⟩ : Ser K).loopSet b ys.data) := by
    simp only [serialBase, hny, Ser.setCounts_ok y (show (0 : ℤ) ≤ b by omega) le_rfl (by omega), bok,
      if_pos hb0]
    rw [← hxs, hxv, e1, bok, pok]
  refine ⟨b, _, by omega, by omega, e, rfl, ⟨⟨⟨?_, ?_, ?_⟩, rfl, fun i hi => ?_⟩, fun _ => ?_⟩, rfl⟩
  · simp only [Ser.loopSet]; omega
  · exact le_rfl
  · simp only [Ser.loopSet]; omega
  · rw [Ser.coeff_ps]
    simp only [Ser.loopSet]
    have hi' : (i : ℤ) < b := by omega
    rw [if_pos hi', if_pos hi', ← h3 i hi, ← h1.agree i (by omega), Ser.coeff_ps,
      if_pos (by omega)]
  · simp only [Ser.loopSet]; omega

theorem invBase_exact (J : Junk K) (y x : Ser K) (n : ℕ) (F : K⟦X⟧) (hx : x.Has n F) (hn : 0 < n)
    (hF : constantCoeff F ≠ 0) (hl : n ≤ y.limit) :
    ∃ (b : ℕ) (y' : Ser K), 0 < b ∧ b ≤ n ∧ invBase J y x = .ok y' ∧
      y'.limit = y.limit ∧ y'.Has b F⁻¹ ∧ y'.nonzero = b := by
  refine serialBase_spec J hx.is hn hl (fun i hi => by omega) ?_
  intro xs hxs hfull hag _
  have hnew : ∀ j, (Ser.new 5 j : Ser K).limit = 5 := fun j => rfl
  have hx0 : xs.data 0 = constantCoeff F := by
    rw [hxs.data_zero (by norm_num), hag.constantCoeff_eq (by omega)]
  have hxc : constantCoeff xs.ps ≠ 0 := by rwa [hag.constantCoeff_eq (by omega)]
  obtain ⟨r, e1, l1, k1, z1, w1, i1⟩ := Ser.setScalar_spec (Ser.new 5 ((J.sub 1) [0])) 5 (1 / xs.data 0)
    (by rw [hnew]; norm_num) (by rw [hnew]; norm_num)
  have hr : r.Has 5 (C (1 / xs.data 0)) := ⟨i1, fun _ => by rw [z1]; norm_num⟩
  obtain ⟨rx, e2, l2, hrx⟩ := Ser.mul_has (z := Ser.new 5 ((J.sub 1) [1])) (n := 5)
    (codeletKer_exact (K := K) (N := 5)).toExactMul hr hxs (by norm_num) (by rw [hnew]; norm_num)
  have f2 : rx.nonzero = 5 := Ser.mul_full e2 (by rw [hr.known, hxs.known]; norm_num)
    (Or.inr ⟨hfull.ge, by rw [z1]; norm_num⟩)
  have hu : constantCoeff (C (1 / xs.data 0) * xs.ps) = 1 := by
    rw [map_mul, constantCoeff_C, hx0, hag.constantCoeff_eq (by omega)]
    field_simp
  obtain ⟨ir, e3, l3, hir, f3⟩ := Ser.inv_has' (codeletKer_exact (N := 5)) ((J.sub 1).sub 2)
    (y := Ser.new 5 ((J.sub 1) [3])) hrx (fun _ => by rw [hu]; exact one_ne_zero) (by rw [hnew]; norm_num)
  obtain ⟨ys, e4, l4, hys⟩ := Ser.mul_has (z := Ser.new 5 (J [0])) (n := 5)
    (codeletKer_exact (K := K) (N := 5)).toExactMul hr hir (by norm_num) (by rw [hnew]; norm_num)
  have f4 : ys.nonzero = 5 := Ser.mul_full e4 (by rw [hr.known, hir.known]; norm_num)
    (Or.inr ⟨(f3 f2).ge, by rw [z1]; norm_num⟩)
  refine ⟨ys, _, ?_, hys, f4, ?_⟩
  · have e1' : (Ser.new 5 ((J.sub 1) [0])).setScalar 5 (1 / xs.data 0) = .ok r := e1
    simp only [invBaseBody, e1', bok, e2, e3, e4]
  · have h1 : C (1 / xs.data 0) * (C (1 / xs.data 0) * xs.ps)⁻¹ = xs.ps⁻¹ := by
      have h1 := PowerSeries.mul_inv_cancel xs.ps hxc
      have h2 := PowerSeries.mul_inv_cancel (C (1 / xs.data 0) * xs.ps) (by rw [hu]; exact one_ne_zero)
      linear_combination (-C (1 / xs.data 0) * (C (1 / xs.data 0) * xs.ps)⁻¹) * h1 + xs.ps⁻¹ * h2
    rw [h1]
    exact hag.inv hxc hF

theorem expBase_exact (J : Junk K) (y x : Ser K) (n : ℕ) (F : K⟦X⟧) (hx : x.Is n F) (hn : 0 < n)
    (hF : constantCoeff F = 0) (hl : n ≤ y.limit) :
    ∃ (b : ℕ) (y' : Ser K), 0 < b ∧ b ≤ n ∧ expBase J y x = .ok y' ∧
      y'.limit = y.limit ∧ y'.Has b (E F) ∧ y'.nonzero = b := by
  refine serialBase_spec J hx hn hl (fun i hi => ?_) ?_
  · have : i = 0 := by omega
    subst this
    simpa using hF
  intro xs hxs hfull hag hz
  have h0 : constantCoeff xs.ps = 0 := by simpa using hz 0 (by norm_num)
  obtain ⟨ys, e, l, h, f⟩ := Ser.exp_has' (codeletKer_exact (N := 5)) (J.sub 1) (y := Ser.new 5 (J [0])) hxs.is
    (fun _ => h0) (show (5 : ℤ) ≤ 5 from le_rfl)
  exact ⟨ys, _, e, h, f hfull, E_agree h0 hF hag⟩

/-- Exact multiplication kernels and the generated base cases are exact. -/
theorem hostKer_exact (J : Junk K) {N : ℕ} {mul addmul : ℕ → Span K → Span K → Res (ℕ → K)}
    {sqr : ℕ → Span K → Res (ℕ → K)} (h : (hostKer J mul addmul sqr).ExactMul N) :
    (hostKer J mul addmul sqr).Exact N where
  toExactMul := h
  invBase := invBase_exact (J.sub 0)
  expBase := expBase_exact (J.sub 1)

end Mandelbrot
