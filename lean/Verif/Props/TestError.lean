import Verif.Test.Error
import Verif.Series.Ops

/-!
# C66, continued: what the distance of two series, as used by the tests, means
-/

namespace Mandelbrot.Props

open Area (Dbl)
open Harness

/-- A coefficient of a series: zero if it is not stored. -/
noncomputable def Spec.term (x : Ser Dbl) (i : ℕ) : Dbl := if (i : ℤ) < x.nonzero then x.data i else dreal 0

/-- The distance of two coefficients, as a formula on doubles. -/
noncomputable def Spec.dist (rnd : ℝ → EReal) (relative : Bool) (a b : Dbl) : Dbl :=
  let d := dabs (dsub rnd a b)
  if relative then ddiv rnd d (dmax (dreal 1) (dabs b)) else d

/-- A double is at most `t` or not a number. -/
def Spec.AtMost (t : EReal) (d : Dbl) : Prop := ∀ v, d = .val v → v ≤ t

/-- A double that the rounding leaves alone, with either sign. -/
def Spec.Fixed (rnd : ℝ → EReal) (d : Dbl) : Prop := ∀ r : ℝ, d = dreal r → rnd r = r ∧ rnd (-r) = ((-r : ℝ) : EReal)

theorem dmax_fold (l : List ℕ) (f : ℕ → Dbl) (m : EReal) (hm : 0 ≤ m) :
    ∃ m', l.foldl (fun e i => dmax e (f i)) (.val m) = .val m' ∧ 0 ≤ m' ∧
      ∀ t, m' ≤ t ↔ m ≤ t ∧ ∀ i ∈ l, Spec.AtMost t (f i) := by
  induction l generalizing m with
  | nil => exact ⟨m, rfl, hm, fun t => by simp⟩
  | cons a l ih =>
    rw [List.foldl_cons]
    rcases ha : f a with _ | v
    · have h1 : dmax (.val m) .nan = .val m := by simp [dmax, Dbl.lt]
      rw [h1]
      obtain ⟨m', h2, h3, h4⟩ := ih m hm
      refine ⟨m', h2, h3, fun t => ?_⟩
      rw [h4 t, List.forall_mem_cons, ha]
      simp [Spec.AtMost]
    · have h1 : dmax (.val m) (.val v) = .val (max m v) := by
        by_cases h : m < v
        · simp [dmax, Dbl.lt, h, max_eq_right h.le]
        · simp [dmax, Dbl.lt, h, max_eq_left (not_lt.mp h)]
      rw [h1]
      obtain ⟨m', h2, h3, h4⟩ := ih (max m v) (le_max_of_le_left hm)
      refine ⟨m', h2, h3, fun t => ?_⟩
      rw [h4 t, List.forall_mem_cons, ha, max_le_iff, and_assoc]
      simp [Spec.AtMost]

theorem dabs_real (r : ℝ) : dabs (dreal r) = dreal |r| := by
  simp only [dabs, dreal, abs]
  rw [← EReal.coe_neg]
  norm_cast

theorem dsub_real (rnd : ℝ → EReal) (a b : ℝ) : dsub rnd (dreal a) (dreal b) = .val (rnd (a - b)) := by
  simp [dsub, dreal]

theorem ddiv_real (rnd : ℝ → EReal) (a b : ℝ) : ddiv rnd (dreal a) (dreal b) = .val (rnd (a / b)) := by
  simp [ddiv, dreal]

theorem dmax_real (a b : ℝ) : dmax (dreal a) (dreal b) = dreal (max a b) := by
  by_cases h : a < b
  · simp [dmax, Dbl.lt, dreal, h, max_eq_right h.le]
  · simp [dmax, Dbl.lt, dreal, h, max_eq_left (not_lt.mp h)]

theorem dmin_real (a b : ℝ) : dmin (dreal a) (dreal b) = dreal (min a b) := by
  by_cases h : b < a
  · simp [dmin, Dbl.lt, dreal, h, min_eq_right h.le]
  · simp [dmin, Dbl.lt, dreal, h, min_eq_left (not_lt.mp h)]

theorem dbl_cases (d : Dbl) : d = .nan ∨ d = .val ⊤ ∨ d = .val ⊥ ∨ ∃ r : ℝ, d = dreal r := by
  rcases d with _ | v
  · exact Or.inl rfl
  · induction v using EReal.rec with
    | bot => simp
    | top => simp
    | coe r => exact Or.inr (Or.inr (Or.inr ⟨r, rfl⟩))

theorem fixed_abs {rnd : ℝ → EReal} {r : ℝ} (h : rnd r = r ∧ rnd (-r) = ((-r : ℝ) : EReal)) : rnd |r| = ((|r| : ℝ) : EReal) := by
  rcases abs_choice r with e | e <;> rw [e]
  exacts [h.1, h.2]

/-- Terms that only `x` stores. -/
theorem dist_left {rnd : ℝ → EReal} (relative : Bool) (a : Dbl) (ha : Spec.Fixed rnd a) :
    Spec.dist rnd relative a (dreal 0) = dabs a := by
  have h0 : dmax (dreal 1) (dabs (dreal 0)) = dreal 1 := by
    rw [dabs_real, dmax_real]
    norm_num
  unfold Spec.dist
  rw [h0]
  rcases dbl_cases a with rfl | rfl | rfl | ⟨r, rfl⟩
  · cases relative <;> rfl
  · have h1 : dabs (dsub rnd (.val ⊤) (dreal 0)) = .val ⊤ := by simp [dsub, dreal, dabs]
    rw [h1]
    cases relative <;> simp [ddiv, dreal, dabs, -EReal.coe_one]
  · have h1 : dabs (dsub rnd (.val ⊥) (dreal 0)) = .val ⊤ := by simp [dsub, dreal, dabs]
    rw [h1]
    cases relative <;> simp [ddiv, dreal, dabs, -EReal.coe_one]
  · have hr := ha r rfl
    have h1 : dabs (dsub rnd (dreal r) (dreal 0)) = dreal |r| := by
      rw [dsub_real, sub_zero, hr.1]
      exact dabs_real r
    rw [h1, dabs_real]
    cases relative
    · rfl
    · simp only [if_true]
      rw [ddiv_real, div_one, fixed_abs hr]
      rfl

/-- Terms that only `y` stores. -/
theorem dist_right {rnd : ℝ → EReal} (h1' : rnd 1 = (1 : ℝ)) (relative : Bool) (b : Dbl) (hb : Spec.Fixed rnd b)
    (hinf : relative = true → b ≠ .val ⊤ ∧ b ≠ .val ⊥) :
    Spec.dist rnd relative (dreal 0) b = if relative then dmin (dabs b) (dreal 1) else dabs b := by
  unfold Spec.dist
  rcases dbl_cases b with rfl | rfl | rfl | ⟨r, rfl⟩
  · cases relative
    · rfl
    · simp [dsub, dabs, ddiv, dmin, dreal, Dbl.lt]
  · cases relative
    · simp [dsub, dreal, dabs]
    · exact absurd rfl (hinf rfl).1
  · cases relative
    · simp [dsub, dreal, dabs]
    · exact absurd rfl (hinf rfl).2
  · have hr := hb r rfl
    have h1 : dabs (dsub rnd (dreal 0) (dreal r)) = dreal |r| := by
      rw [dsub_real, zero_sub, hr.2]
      exact (dabs_real (-r)).trans (by rw [abs_neg])
    rw [h1, dabs_real]
    cases relative
    · rfl
    · simp only [if_true]
      rw [dmax_real, ddiv_real, dmin_real]
      rcases le_total |r| 1 with h | h
      · rw [max_eq_left h, div_one, fixed_abs hr, min_eq_left h]
        rfl
      · rw [max_eq_right h, div_self (by linarith), h1', min_eq_right h]
        rfl

/-- C66.  Series of different order are infinitely far apart.  Otherwise the distance is the largest, over all known terms, of the
distances of the terms, with zero for those that are not stored; relative distances are divided by the larger of 1 and the size of
the expected term.  Distances that are not a number are left out.  (`m` is determined by the last part, since it is not negative.) -/
theorem C66_error (rnd : ℝ → EReal) (h0 : rnd 0 = (0 : ℝ)) (h1 : rnd 1 = (1 : ℝ)) (x y : Ser Dbl) (hx : x.WF) (hy : y.WF)
    (fx : ∀ i : ℕ, (i : ℤ) < x.nonzero → Spec.Fixed rnd (x.data i)) (fy : ∀ i : ℕ, (i : ℤ) < y.nonzero → Spec.Fixed rnd (y.data i))
    (relative : Bool)
    (hinf : relative = true → ∀ i : ℕ, (i : ℤ) < y.nonzero → y.data i ≠ .val ⊤ ∧ y.data i ≠ .val ⊥) :
    (x.known ≠ y.known → error rnd x y relative = .val ⊤) ∧
    (x.known = y.known → ∃ m, error rnd x y relative = .val m ∧ 0 ≤ m ∧ ∀ t, 0 ≤ t →
      (m ≤ t ↔ ∀ i : ℕ, (i : ℤ) < x.known → Spec.AtMost t (Spec.dist rnd relative (Spec.term x i) (Spec.term y i)))) := by
  refine ⟨fun h => by simp [error, h], fun h => ?_⟩
  obtain ⟨a, ha⟩ := Int.eq_ofNat_of_zero_le hx.nonneg
  obtain ⟨b, hb⟩ := Int.eq_ofNat_of_zero_le hy.nonneg
  have hmin : (min x.nonzero y.nonzero).toNat = min a b := by omega
  obtain ⟨m1, e1, p1, q1⟩ := dmax_fold (List.range (min a b)) (fun i => Spec.dist rnd relative (x.data i) (y.data i)) ((0 : ℝ) : EReal) le_rfl
  obtain ⟨m2, e2, p2, q2⟩ := dmax_fold (List.range' (min a b) (a - min a b)) (fun i => dabs (x.data i)) m1 p1
  obtain ⟨m3, e3, p3, q3⟩ := dmax_fold (List.range' (min a b) (b - min a b))
    (fun i => if relative then dmin (dabs (y.data i)) (dreal 1) else dabs (y.data i)) m2 p2
  refine ⟨m3, ?_, p3, fun t ht => ?_⟩
  · rw [← e3, ← e2, ← e1]
    have ha' : x.nonzero.toNat = a := by omega
    have hb' : y.nonzero.toNat = b := by omega
    simp only [error, h, ne_eq, not_true_eq_false, if_false, hmin, ha', hb']
    rfl
  · have hzero : Spec.dist rnd relative (dreal 0) (dreal 0) = dreal 0 := by
      rw [dist_left relative (dreal 0) (fun r hr => ?_), dabs_real, abs_zero]
      have : r = 0 := by
        simp only [dreal, Dbl.val.injEq, EReal.coe_eq_coe_iff] at hr
        exact hr.symm
      subst this
      simpa using h0
    rw [q3, q2, q1]
    constructor
    · rintro ⟨⟨⟨-, r1⟩, r2⟩, r3⟩ i hi
      by_cases hia : i < a <;> by_cases hib : i < b
      · have := r1 i (List.mem_range.mpr (by omega))
        simpa [Spec.term, ha, hb, hia, hib] using this
      · have := r2 i (List.mem_range'_1.mpr (by omega))
        simpa [Spec.term, ha, hb, hia, hib, dist_left relative _ (fx i (by omega))] using this
      · have := r3 i (List.mem_range'_1.mpr (by omega))
        simpa [Spec.term, ha, hb, hia, hib, dist_right h1 relative _ (fy i (by omega)) (fun h => hinf h i (by omega))] using this
      · simp only [Spec.term, ha, hb, Nat.cast_lt, hia, hib, if_false, hzero]
        intro v hv
        simp only [dreal, Dbl.val.injEq] at hv
        rw [← hv]
        exact_mod_cast ht
    · intro r
      refine ⟨⟨⟨by exact_mod_cast ht, fun i hi => ?_⟩, fun i hi => ?_⟩, fun i hi => ?_⟩
      · rw [List.mem_range] at hi
        have := r i (by have := hx.le_known; omega)
        simpa [Spec.term, ha, hb, show i < a by omega, show i < b by omega] using this
      · rw [List.mem_range'_1] at hi
        have := r i (by have := hx.le_known; omega)
        simpa [Spec.term, ha, hb, show i < a by omega, show ¬i < b by omega, dist_left relative _ (fx i (by omega))] using this
      · rw [List.mem_range'_1] at hi
        have := r i (by have := hy.le_known; omega)
        simpa [Spec.term, ha, hb, show ¬i < a by omega, show i < b by omega,
          dist_right h1 relative _ (fy i (by omega)) (fun h => hinf h i (by omega))] using this

theorem atMost_real (t : EReal) (r : ℝ) : Spec.AtMost t (dreal r) ↔ (r : EReal) ≤ t := by
  simp [Spec.AtMost, dreal]

/-- C66.  For finite terms and a rounding that gives zero for no difference but zero (as gradual underflow ensures), the absolute distance is
zero exactly if the series have the same known terms. -/
theorem C66_error_zero (rnd : ℝ → EReal) (h0 : rnd 0 = (0 : ℝ)) (h1 : rnd 1 = (1 : ℝ)) (a b : ℕ → ℝ) (x y : Ser Dbl) (hx : x.WF)
    (hy : y.WF) (hxa : x.data = fun i => dreal (a i)) (hyb : y.data = fun i => dreal (b i))
    (fa : ∀ i, rnd (a i) = a i ∧ rnd (-a i) = ((-a i : ℝ) : EReal)) (fb : ∀ i, rnd (b i) = b i ∧ rnd (-b i) = ((-b i : ℝ) : EReal))
    (hd : ∀ i j, rnd (a i - b j) = 0 → a i = b j) :
    error rnd x y false = .val 0 ↔
      x.known = y.known ∧ ∀ i : ℕ, (i : ℤ) < x.known → Spec.term x i = Spec.term y i := by
  have fx : ∀ i : ℕ, (i : ℤ) < x.nonzero → Spec.Fixed rnd (x.data i) := by
    intro i _ r hr
    rw [hxa] at hr
    simp only [dreal, Dbl.val.injEq, EReal.coe_eq_coe_iff] at hr
    exact hr ▸ fa i
  have fy : ∀ i : ℕ, (i : ℤ) < y.nonzero → Spec.Fixed rnd (y.data i) := by
    intro i _ r hr
    rw [hyb] at hr
    simp only [dreal, Dbl.val.injEq, EReal.coe_eq_coe_iff] at hr
    exact hr ▸ fb i
  obtain ⟨c1, c2⟩ := C66_error rnd h0 h1 x y hx hy fx fy false (by simp)
  by_cases hk : x.known = y.known
  swap
  · rw [c1 hk]
    simp [hk]
  obtain ⟨m, e, hm, hq⟩ := c2 hk
  rw [e]
  have hiff : (Dbl.val m = Dbl.val 0) ↔ m ≤ 0 := by
    rw [Dbl.val.injEq]
    exact ⟨fun h => h.le, fun h => le_antisymm h hm⟩
  rw [hiff, hq 0 le_rfl]
  simp only [hk, true_and]
  refine forall_congr' fun i => imp_congr_right fun _ => ?_
  -- one term
  have habs : ∀ v : EReal, Spec.AtMost 0 (dabs (.val v)) ↔ v = 0 := by
    intro v
    simp only [Spec.AtMost, dabs, Dbl.val.injEq, forall_eq', max_le_iff, EReal.neg_le_zero]
    exact ⟨fun h => le_antisymm h.1 h.2, fun h => by simp [h]⟩
  have hzz : (dreal 0 : Dbl) = .val 0 := rfl
  have hre : ∀ r : ℝ, dreal r = dreal 0 ↔ (r : EReal) = 0 := fun r => by simp [dreal]
  unfold Spec.term
  simp only [hxa, hyb]
  split <;> split
  · have h2 : Spec.dist rnd false (dreal (a i)) (dreal (b i)) = dabs (.val (rnd (a i - b i))) := by
      simp only [Spec.dist, dsub_real]
      rfl
    rw [h2, habs]
    constructor
    · intro h
      rw [hd i i h]
    · intro h
      simp only [dreal, Dbl.val.injEq, EReal.coe_eq_coe_iff] at h
      rw [h, sub_self, h0]
      rfl
  · rw [dist_left false _ (fun r hr => ?_), hre]
    · exact habs _
    · simp only [dreal, Dbl.val.injEq, EReal.coe_eq_coe_iff] at hr
      exact hr ▸ fa i
  · rw [dist_right h1 false _ (fun r hr => ?_) (by simp)]
    · rw [@eq_comm _ (dreal 0), hre]
      exact habs _
    · simp only [dreal, Dbl.val.injEq, EReal.coe_eq_coe_iff] at hr
      exact hr ▸ fb i
  · refine ⟨fun _ => rfl, fun _ => ?_⟩
    have h2 : Spec.dist rnd false (dreal 0) (dreal 0) = dabs (.val (rnd (0 - 0))) := by
      simp only [Spec.dist, dsub_real]
      rfl
    rw [h2, habs, sub_zero, h0]
    rfl

/-- C66, where the code falls short: terms that are not a number are not seen.  A series of nothing else is at distance zero from every
series of the same order, so a test that asks for a small distance passes. -/
theorem C66_error_nan_witness (rnd : ℝ → EReal) (n : ℕ) (y : Ser Dbl) (hy : y.nonzero = n) (hk : y.known = n) (relative : Bool) :
    error rnd ⟨n, n, n, fun _ => .nan⟩ y relative = .val 0 ∧ error rnd y ⟨n, n, n, fun _ => .nan⟩ relative = .val 0 := by
  have h1 : ∀ d, dmax d .nan = d := by
    intro d
    cases d <;> simp [dmax, Dbl.lt]
  have hfold : ∀ (l : List ℕ) (d : Dbl), l.foldl (fun e _ => e) d = d := by
    intro l d
    induction l with
    | nil => rfl
    | cons _ _ ih => exact ih
  have h2 : ∀ a, dsub rnd a .nan = .nan := by intro a; cases a <;> rfl
  have h3 : ∀ a, dsub rnd .nan a = .nan := by intro a; cases a <;> rfl
  have h5 : ∀ a, ddiv rnd .nan a = .nan := by intro a; cases a <;> rfl
  constructor <;> cases relative <;> simp [error, hk, hy, h1, h2, h3, h5, hfold, dabs, dreal]

/-- C66.  A series and a polynomial: infinitely far apart if the polynomial has more terms than are known; otherwise the distance to the
series of the rounded midpoints, all of its terms known. -/
theorem C66_error_poly (rnd nearest : ℝ → EReal) (x : Ser Dbl) (hx : x.WF) (y : List ℝ) (relative : Bool) :
    (x.known < y.length → errorPoly rnd nearest x y relative = .ok (.val ⊤)) ∧
    (y.length ≤ x.known → ∃ y' : Ser Dbl, y'.WF ∧ y'.known = x.known ∧
      (∀ i : ℕ, (i : ℤ) < x.known → Spec.term y' i = .val (nearest (y.getD i 0))) ∧
      errorPoly rnd nearest x y relative = .ok (error rnd x y' relative)) := by
  constructor
  · intro h
    simp only [errorPoly, h, if_true]
    rfl
  · intro h
    have h0 := hx.nonneg
    have h1 := hx.le_known
    refine ⟨⟨x.known, x.known, x.known, fun i => .val (nearest (y.getD i 0))⟩, ⟨by simp; omega, le_rfl, le_rfl⟩, rfl, ?_, ?_⟩
    · intro i hi
      simp [Spec.term, hi]
    · have : ¬x.known < y.length := not_lt.mpr h
      simp only [errorPoly, this, if_false, approx, slowAssert, ge_iff_le, h, if_true]
      rfl

/-! ## Examples -/

/-- A series with a stored zero, and the same without: the distance is zero. -/
example : error (fun r => (r : EReal)) ⟨3, 3, 2, fun i => dreal (if i = 0 then 5 else 0)⟩ ⟨3, 3, 1, fun _ => dreal 5⟩ false = .val 0 := by
  rw [C66_error_zero (fun r => (r : EReal)) rfl rfl (fun i => if i = 0 then 5 else 0) (fun _ => 5) _ _
    ⟨by norm_num, by norm_num, by norm_num⟩ ⟨by norm_num, by norm_num, by norm_num⟩ rfl rfl (fun _ => ⟨rfl, rfl⟩) (fun _ => ⟨rfl, rfl⟩)
    (fun i j h => sub_eq_zero.mp (by exact_mod_cast h))]
  refine ⟨rfl, fun i hi => ?_⟩
  rcases i with _ | i
  · simp [Spec.term]
  · have h1 : ¬((i + 1 : ℕ) : ℤ) < 1 := by omega
    simp only [Spec.term, h1, if_false]
    split <;> simp

/-- `[1, 3]` and `[1, 1]`: the relative distance is more than 1, as the second terms differ by 2. -/
example (m : EReal) (h : error (fun r => (r : EReal)) ⟨2, 2, 2, fun i => dreal (if i = 0 then 1 else 3)⟩ ⟨2, 2, 2, fun _ => dreal 1⟩ true =
    .val m) : ¬m ≤ 1 := by
  obtain ⟨m', e, -, hq⟩ := (C66_error (fun r => (r : EReal)) rfl rfl ⟨2, 2, 2, fun i => dreal (if i = 0 then 1 else 3)⟩
    ⟨2, 2, 2, fun _ => dreal 1⟩ ⟨by norm_num, by norm_num, by norm_num⟩ ⟨by norm_num, by norm_num, by norm_num⟩
    (fun i _ r _ => ⟨rfl, rfl⟩) (fun i _ r _ => ⟨rfl, rfl⟩) true (by simp [dreal, -EReal.coe_one])).2 rfl
  rw [h, Dbl.val.injEq] at e
  rw [e, hq 1 zero_le_one]
  intro hc
  have h1 := hc 1 (by norm_num)
  have h2 : Spec.dist (fun r => (r : EReal)) true (dreal 3) (dreal 1) = dreal 2 := by
    have h3 : dabs (dsub (fun r => (r : EReal)) (dreal 3) (dreal 1)) = dreal 2 := by
      rw [dsub_real]
      exact (dabs_real _).trans (by norm_num)
    simp only [Spec.dist, h3, if_true, dabs_real, dmax_real]
    rw [ddiv_real]
    norm_num [dreal]
  have h4 : Spec.term ⟨2, 2, 2, fun i => dreal (if i = 0 then 1 else 3)⟩ 1 = dreal 3 := by simp [Spec.term]
  have h5 : Spec.term ⟨2, 2, 2, fun _ => dreal 1⟩ 1 = dreal 1 := by simp [Spec.term]
  rw [h4, h5, h2, atMost_real] at h1
  have : (2 : ℝ) ≤ 1 := by exact_mod_cast h1
  norm_num at this

/-- A series of 10 terms that are not a number passes for the powers of two. -/
example (rnd : ℝ → EReal) : error rnd ⟨10, 10, 10, fun _ => .nan⟩ ⟨10, 10, 10, fun i => dreal (2 ^ i)⟩ true = .val 0 :=
  (C66_error_nan_witness rnd 10 ⟨10, 10, 10, fun i => dreal (2 ^ i)⟩ rfl rfl true).1

end Mandelbrot.Props
