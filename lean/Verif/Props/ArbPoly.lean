import Verif.Arb.Sound
import Verif.Arb.Witness

/-!
# C49: the interval polynomial routines of /repo/poly.cc

Every theorem holds for every ball arithmetic `A` with `Spec.ArbSound A mem`, that is, for every implementation of the Arb
calls whose results enclose.  `skip = false` is the code as it is in /repo; `skip = true` is the code with the constant
`skip_refine` of line 94 set, which leaves out the final refinements.
-/

set_option linter.unusedVariables false

namespace Mandelbrot

open PowerSeries

namespace Props

open ArbPoly Spec

variable {B : Type} {A : Arb B} {mem : ℝ → B → Prop}

/-! ## The contract can be met

Sets of reals with exact images. -/

/-- Sets of reals as balls. -/
noncomputable abbrev exactArb : Arb (Set ℝ) := setArb fun _ => {0}

theorem C49_contract_met : ArbSound exactArb smem := setArb_sound _ fun _ => rfl

/-! ## Shifted sums and differences -/

/-- The result of `poly_add_shift_series`, coefficient by coefficient, whichever operands are aliased with the output. -/
theorem C49_add_shift_exact (hf hg : Bool) {h f g : List B} (s n : ℕ) (ef : hf = true → h = f) (eg : hg = true → h = g)
    (hn : s < n) : addShift A hf hg h f g s n = .ok ((List.range n).map fun i =>
      if s ≤ i then A.add (f.getD i A.zero) (g.getD (i - s) A.zero) else f.getD i A.zero) :=
  shiftOp_eq A.add hf hg s n ef eg hn

/-- The same for `poly_sub_shift_series`. -/
theorem C49_sub_shift_exact (hf hg : Bool) {h f g : List B} (s n : ℕ) (ef : hf = true → h = f) (eg : hg = true → h = g)
    (hn : s < n) : subShift A hf hg h f g s n = .ok ((List.range n).map fun i =>
      if s ≤ i then A.sub (f.getD i A.zero) (g.getD (i - s) A.zero) else f.getD i A.zero) :=
  shiftOp_eq A.sub hf hg s n ef eg hn

/-- Nothing is added when the shift reaches the number of terms. -/
theorem C49_shift_beyond (hf hg : Bool) {h f g : List B} {s n : ℤ} (hn : n ≤ s) :
    addShift A hf hg h f g s n = .ok (f.take n.toNat) ∧ subShift A hf hg h f g s n = .ok (f.take n.toNat) :=
  ⟨shiftOp_trunc A.add hf hg hn, shiftOp_trunc A.sub hf hg hn⟩

/-- A negative shift writes before the buffer. -/
theorem C49_shift_negative (hf hg : Bool) {h f g : List B} {s n : ℤ} (hs : s < 0) (hn : s < n) :
    addShift A hf hg h f g s n = .error .ub ∧ subShift A hf hg h f g s n = .error .ub :=
  ⟨shiftOp_ub A.add hf hg hs hn, shiftOp_ub A.sub hf hg hs hn⟩

/-- `poly_add_shift_series` encloses `F + z^s G`. -/
theorem C49_add_shift (S : ArbSound A mem) (hf hg : Bool) {h f g : List B} {s n : ℕ} (ef : hf = true → h = f)
    (eg : hg = true → h = g) {F G : ℝ⟦X⟧} (hF : Encloses mem A.zero n f F) (hG : Encloses mem A.zero (n - s) g G) :
    ∃ r, addShift A hf hg h f g s n = .ok r ∧ r.length ≤ n ∧ Encloses mem A.zero n r (F + X ^ s * G) := by
  obtain ⟨r, h1, h2, h3⟩ := addShift_enc S hf hg ef eg hF hG
  exact ⟨r, h1, h3, h2⟩

/-- `poly_sub_shift_series` encloses `F - z^s G`. -/
theorem C49_sub_shift (S : ArbSound A mem) (hf hg : Bool) {h f g : List B} {s n : ℕ} (ef : hf = true → h = f)
    (eg : hg = true → h = g) {F G : ℝ⟦X⟧} (hF : Encloses mem A.zero n f F) (hG : Encloses mem A.zero (n - s) g G) :
    ∃ r, subShift A hf hg h f g s n = .ok r ∧ r.length ≤ n ∧ Encloses mem A.zero n r (F - X ^ s * G) := by
  obtain ⟨r, h1, h2, h3⟩ := subShift_enc S hf hg ef eg hF hG
  exact ⟨r, h1, h3, h2⟩

/-- In place: `f = f + z f`, from `1 + 2z`, with two terms. -/
example : addShift exactArb true true [{1}, {2}] [{1}, {2}] [{1}, {2}] (1 : ℕ) (2 : ℕ) =
    .ok [{1}, {z | ∃ x ∈ ({2} : Set ℝ), ∃ y ∈ ({1} : Set ℝ), z = x + y}] :=
  C49_add_shift_exact true true 1 2 (fun _ => rfl) (fun _ => rfl) (by norm_num)

theorem ex_enc (a b : ℝ) : Encloses smem exactArb.zero 2 [({a} : Set ℝ), {b}] (C a + C b * X) := by
  intro i hi
  have : i = 0 ∨ i = 1 := by omega
  rcases this with rfl | rfl
  · show _ ∈ ({a} : Set ℝ)
    simp
  · show _ ∈ ({b} : Set ℝ)
    simp [coeff_C]

example : ∃ r, subShift exactArb true true [{1}, {2}] [{1}, {2}] [{1}, {2}] (1 : ℕ) (2 : ℕ) = .ok r ∧ r.length ≤ 2 ∧
    Encloses smem exactArb.zero 2 r (C 1 + C 2 * X - X ^ 1 * (C 1 + C 2 * X)) :=
  C49_sub_shift C49_contract_met true true (fun _ => rfl) (fun _ => rfl) (ex_enc 1 2) (enc_mono (ex_enc 1 2) (by norm_num))

/-! ## Intersection, midpoints, tests -/

/-- `poly_intersect_sub(C, P, Q, n)`: the exact result, and exactly when it throws. -/
theorem C49_intersect_sub_exact (C P Q : List B) (n : ℕ) :
    intersectSub A C P Q n =
      if ∀ i < min (min n C.length) (max P.length Q.length),
          A.overlaps (C.getD i A.zero) (A.sub (P.getD i A.zero) (Q.getD i A.zero)) = true
      then .ok ((List.range (min (min n C.length) (max P.length Q.length))).map fun i =>
        A.inter (C.getD i A.zero) (A.sub (P.getD i A.zero) (Q.getD i A.zero)))
      else .error .assertion := by
  unfold intersectSub
  generalize min (min n C.length) (max P.length Q.length) = m
  split_ifs with h
  · refine mapM_ok _ fun i hi => ?_
    rw [List.mem_range] at hi
    show (slowAssert (A.overlaps _ _ = true) >>= fun _ => _) = _
    rw [slowAssert_true (show A.overlaps (ArbPoly.get A C i) (A.sub (ArbPoly.get A P i) (ArbPoly.get A Q i)) = true from h i hi), bok]; rfl
  · push Not at h
    have key : ∀ l : List ℕ, (∃ i ∈ l, ¬ A.overlaps (C.getD i A.zero) (A.sub (P.getD i A.zero) (Q.getD i A.zero)) = true) →
        (l.mapM fun i => (do
          let t := A.sub (ArbPoly.get A P i) (ArbPoly.get A Q i)
          slowAssert (A.overlaps (ArbPoly.get A C i) t = true)
          return A.inter (ArbPoly.get A C i) t : Res B)) = .error .assertion := by
      intro l
      induction l with
      | nil => rintro ⟨i, hi, -⟩; cases hi
      | cons a l ih =>
        rintro ⟨i, hi, hh⟩
        rw [List.mapM_cons]
        by_cases ha : A.overlaps (C.getD a A.zero) (A.sub (P.getD a A.zero) (Q.getD a A.zero)) = true
        · have hi' : i ∈ l := by
            rcases List.mem_cons.1 hi with rfl | h'
            · exact absurd ha hh
            · exact h'
          rw [ih ⟨i, hi', hh⟩]
          show ((slowAssert (A.overlaps _ _ = true) >>= fun _ => _) >>= fun _ => _) = _
          rw [slowAssert_true (show A.overlaps (ArbPoly.get A C a) (A.sub (ArbPoly.get A P a) (ArbPoly.get A Q a)) = true from ha), bok]; rfl
        · show ((slowAssert (A.overlaps _ _ = true) >>= fun _ => _) >>= fun _ => _) = _
          rw [slowAssert_false (show ¬ A.overlaps (ArbPoly.get A C a) (A.sub (ArbPoly.get A P a) (ArbPoly.get A Q a)) = true from ha)]; rfl
    obtain ⟨i, hi, hh⟩ := h
    exact key _ ⟨i, List.mem_range.2 hi, hh⟩

/-- `poly_intersect_sub` keeps every series that is in `C` and in `P - Q`, and does not throw when there is one. -/
theorem C49_intersect_sub (S : ArbSound A mem) {n : ℕ} {R P Q : List B} {F G H : ℝ⟦X⟧} (hR : Encloses mem A.zero n R F)
    (hP : Encloses mem A.zero n P G) (hQ : Encloses mem A.zero n Q H) (e : ∀ i < n, coeff i F = coeff i (G - H)) :
    ∃ r, intersectSub A R P Q n = .ok r ∧ r.length ≤ n ∧ Encloses mem A.zero n r F := by
  obtain ⟨r, h1, h2, h3⟩ := intersectSub_enc S hR rfl hP hQ e
  exact ⟨r, h1, h3, h2⟩

/-- `poly_mid` of a polynomial that encloses a series encloses some series in it. -/
theorem C49_mid (S : ArbSound A mem) {n : ℕ} {P : List B} {F : ℝ⟦X⟧} (h : Encloses mem A.zero n P F) :
    ∃ Y, Encloses mem A.zero n P Y ∧ Encloses mem A.zero n (polyMid A P) Y := by
  obtain ⟨Y, h1, h2, -⟩ := exists_mid S h
  exact ⟨Y, h1, h2⟩

/-- Two polynomials that enclose the same series overlap. -/
theorem C49_overlaps (S : ArbSound A mem) {P Q : List B} {F : ℝ⟦X⟧}
    (hP : Encloses mem A.zero (max P.length Q.length) P F) (hQ : Encloses mem A.zero (max P.length Q.length) Q F) :
    overlapsP A P Q = true := by
  rw [overlapsP, List.all_eq_true]
  intro i hi
  rw [List.mem_range] at hi
  exact S.overlaps (hP i hi) (hQ i hi)

/-- `overlaps` looks at every coefficient. -/
theorem C49_overlaps_exact (P Q : List B) : overlapsP A P Q = true ↔
    ∀ i < max P.length Q.length, A.overlaps (P.getD i A.zero) (Q.getD i A.zero) = true := by
  rw [overlapsP, List.all_eq_true]
  exact ⟨fun h i hi => h i (List.mem_range.2 hi), fun h i hi => h i (List.mem_range.1 hi)⟩

/-- `assert_low_zero` passes exactly when each of the low balls contains zero. -/
theorem C49_assert_low_zero_exact (P : List B) (n : ℕ) : assertLowZero A P n =
    if ∀ i < n, A.containsZero (P.getD i A.zero) = true then .ok () else .error .assertion := by
  unfold assertLowZero
  split_ifs with h
  · refine forM_ok _ fun i hi => ?_
    exact slowAssert_true (show A.containsZero (ArbPoly.get A P i) = true from h i (List.mem_range.1 hi))
  · push Not at h
    obtain ⟨i, hi, hh⟩ := h
    have key : ∀ l : List ℕ, i ∈ l →
        (l.forM fun i => (slowAssert (A.containsZero (ArbPoly.get A P i) = true) : Res Unit)) = .error .assertion := by
      intro l
      induction l with
      | nil => intro h; cases h
      | cons a l ih =>
        intro h
        show ((slowAssert (A.containsZero (ArbPoly.get A P a) = true) : Res Unit) >>= fun _ => l.forM _) = _
        by_cases ha : A.containsZero (P.getD a A.zero) = true
        · have hi' : i ∈ l := by
            rcases List.mem_cons.1 h with rfl | h'
            · exact absurd ha hh
            · exact h'
          rw [slowAssert_true (show A.containsZero (ArbPoly.get A P a) = true from ha), bok]
          exact ih hi'
        · rw [slowAssert_false (show ¬ A.containsZero (ArbPoly.get A P a) = true from ha), berr]
    exact key _ (List.mem_range.2 hi)

/-- `safe_poly_mullow` encloses the product, for any number of terms. -/
theorem C49_safe_mullow (S : ArbSound A mem) {n : ℤ} {f g : List B} {F G : ℝ⟦X⟧} (hf : Encloses mem A.zero n.toNat f F)
    (hg : Encloses mem A.zero n.toNat g G) : Encloses mem A.zero n.toNat (safeMullow A f g n) (F * G) :=
  safeMullow_enc S hf hg

/-- No terms: every routine returns the empty polynomial. -/
theorem C49_no_terms (skip : Bool) (x a : List B) (k s : ℤ) {n : ℤ} (hn : n ≤ 0) :
    safeMullow A x a n = [] ∧ invRefine A skip x n = .ok [] ∧ divRefine A skip a x n = .ok [] ∧
      logRefine A skip x n = .ok [] ∧ log1pRefine A skip x n = .ok [] ∧ expRefine A skip x n = .ok [] ∧
      log1pShift A skip x s n = .ok [] ∧ expm1Shift A skip x k s n = .ok [] ∧ log1pExpShift A skip x s n = .ok [] := by
  refine ⟨if_neg (by omega), if_pos hn, if_pos hn, if_pos hn, if_pos hn, if_pos hn, if_pos hn, if_pos hn, if_pos hn⟩

/-! ## Reciprocal, quotient, logarithm -/

/-- `poly_inv_refine` encloses the reciprocal. -/
theorem C49_inv (S : ArbSound A mem) (skip : Bool) {n : ℤ} {x : List B} {F Y : ℝ⟦X⟧} (hY : F * Y = 1)
    (h : Encloses mem A.zero n.toNat x F) :
    ∃ y, invRefine A skip x n = .ok y ∧ Encloses mem A.zero n.toNat y Y := by
  have h0 : constantCoeff F ≠ 0 := by
    intro h0
    have := congrArg constantCoeff hY
    rw [map_mul, h0, zero_mul, map_one] at this
    exact zero_ne_one this
  have e : F⁻¹ = Y := by
    have h2 := PowerSeries.inv_mul_cancel F h0
    linear_combination (-F⁻¹) * hY + Y * h2
  rw [← e]
  exact invRefine_enc S skip h0 h

/-- `poly_div_refine` encloses the quotient. -/
theorem C49_div (S : ArbSound A mem) (skip : Bool) {n : ℤ} {a b : List B} {F G Y : ℝ⟦X⟧} (h0 : constantCoeff G ≠ 0)
    (hY : G * Y = F) (ha : Encloses mem A.zero n.toNat a F) (hb : Encloses mem A.zero n.toNat b G) :
    ∃ y, divRefine A skip a b n = .ok y ∧ Encloses mem A.zero n.toNat y Y := by
  have e : F * G⁻¹ = Y := by
    have h2 := PowerSeries.inv_mul_cancel G h0
    linear_combination (-G⁻¹) * hY + Y * h2
  rw [← e]
  exact divRefine_enc S skip h0 ha hb

/-- `poly_log_refine` encloses the logarithm when the constant ball is known to be positive. -/
theorem C49_log (S : ArbSound A mem) {n : ℤ} {x : List B} {F : ℝ⟦X⟧} (hp : A.isPositive (x.getD 0 A.zero) = true)
    (hn : 0 < n) (h : Encloses mem A.zero n.toNat x F) :
    ∃ y, logRefine A false x n = .ok y ∧ Encloses mem A.zero n.toNat y (rlog F) := by
  have h0 : 0 < constantCoeff F := by
    rw [← coeff_zero_eq_constantCoeff_apply]
    exact S.isPositive hp (h 0 (by omega))
  exact logRefine_enc S false h0 (fun _ _ => hp) h

/-- It throws otherwise. -/
theorem C49_log_throws {n : ℤ} {x : List B} (hn : 0 < n) (hp : A.isPositive (x.getD 0 A.zero) = false) :
    logRefine A false x n = .error .assertion := by
  unfold logRefine
  have h : ¬ A.isPositive (ArbPoly.get A x 0) = true := by
    show ¬ A.isPositive (x.getD 0 A.zero) = true
    rw [hp]; simp
  rw [if_neg (by omega), if_neg (by simp)]
  show (slowAssert (A.isPositive (ArbPoly.get A x 0) = true) >>= fun _ => _) = _
  rw [slowAssert_false h, berr]

/-- With `skip_refine`, positivity of the constant coefficient is enough. -/
theorem C49_log_skip (S : ArbSound A mem) {n : ℤ} {x : List B} {F : ℝ⟦X⟧} (h0 : 0 < constantCoeff F)
    (h : Encloses mem A.zero n.toNat x F) :
    ∃ y, logRefine A true x n = .ok y ∧ Encloses mem A.zero n.toNat y (rlog F) :=
  logRefine_enc S true h0 (fun h => absurd h (by simp)) h

/-- `poly_log1p_refine` encloses `log(1 + F)` when the constant ball contains zero and one plus it is known to be
positive. -/
theorem C49_log1p (S : ArbSound A mem) {n : ℤ} {x : List B} {F : ℝ⟦X⟧} (hz : A.containsZero (x.getD 0 A.zero) = true)
    (hp : A.isPositive ((A.addSi x 1).getD 0 A.zero) = true) (hn : 0 < n) (h : Encloses mem A.zero n.toNat x F) :
    ∃ y, log1pRefine A false x n = .ok y ∧ Encloses mem A.zero n.toNat y (rlog (1 + F)) := by
  have h0 : 0 < constantCoeff (1 + F) := by
    rw [← coeff_zero_eq_constantCoeff_apply]
    exact S.isPositive hp (enc_one S h 0 (by omega))
  exact log1pRefine_enc S false h0 (fun _ _ => ⟨hz, hp⟩) h

/-- It throws otherwise. -/
theorem C49_log1p_throws {n : ℤ} {x : List B} (hn : 0 < n)
    (h : A.containsZero (x.getD 0 A.zero) = false ∨ A.isPositive ((A.addSi x 1).getD 0 A.zero) = false) :
    log1pRefine A false x n = .error .assertion := by
  unfold log1pRefine
  rw [if_neg (by omega), if_neg (by simp)]
  by_cases hz : A.containsZero (x.getD 0 A.zero) = true
  · rw [slowAssert_true (show A.containsZero (ArbPoly.get A x 0) = true from hz), bok]
    rcases h with h | h
    · rw [hz] at h; cases h
    · exact C49_log_throws hn h
  · rw [slowAssert_false (show ¬ A.containsZero (ArbPoly.get A x 0) = true from hz), berr]

/-- `poly_log1p_shift_refine` encloses `z^-s log(1 + z^s F)`. -/
theorem C49_log1p_shift (S : ArbSound A mem) (skip : Bool) {n s : ℤ} (hs : 1 ≤ s) {x : List B} {F : ℝ⟦X⟧}
    (h : Encloses mem A.zero n.toNat x F) :
    ∃ y Y, X ^ s.toNat * Y = rlog (1 + X ^ s.toNat * F) ∧ log1pShift A skip x s n = .ok y ∧
      Encloses mem A.zero n.toNat y Y := by
  obtain ⟨s, rfl⟩ : ∃ t : ℕ, s = t := ⟨s.toNat, by omega⟩
  have hs' : 0 < s := by omega
  obtain ⟨y, h1, h2⟩ := log1pShift_enc S skip hs' h
  refine ⟨y, Ser.log1pS s F, ?_, h1, h2⟩
  rw [Int.toNat_natCast, Ser.X_pow_mul_log1pS hs', rlog_of_one]
  rw [map_add, map_one, map_mul, map_pow, constantCoeff_X, zero_pow hs'.ne', zero_mul, add_zero]

/-- A shift below one throws. -/
theorem C49_log1p_shift_throws (skip : Bool) {n s : ℤ} (hn : 0 < n) (hs : s < 1) (x : List B) :
    log1pShift A skip x s n = .error .assertion := by
  unfold log1pShift
  rw [if_neg (by omega)]
  simp only [slowAssert, if_neg (show ¬ s ≥ 1 by omega), berr]

/-- The reciprocal of `2 + z`. -/
example : ∃ y, invRefine exactArb false [{2}, {1}] 2 = .ok y ∧
    Encloses smem exactArb.zero 2 y (C 2 + C 1 * X)⁻¹ :=
  C49_inv C49_contract_met false (PowerSeries.mul_inv_cancel _ (by simp)) (ex_enc 2 1)

/-- The logarithm of `2 + z`. -/
example : ∃ y, logRefine exactArb false [{2}, {1}] 2 = .ok y ∧
    Encloses smem exactArb.zero 2 y (rlog (C 2 + C 1 * X)) :=
  open Classical in C49_log C49_contract_met (decide_eq_true (fun x hx => by rw [Set.mem_singleton_iff.1 hx]; norm_num)) (by norm_num)
    (ex_enc 2 1)

/-- `z^-3 log(1 + z^3 (2 + z))`. -/
example : ∃ y Y, X ^ 3 * Y = rlog (1 + X ^ 3 * (C 2 + C 1 * X)) ∧ log1pShift exactArb false [{2}, {1}] 3 2 = .ok y ∧
    Encloses smem exactArb.zero 2 y Y :=
  C49_log1p_shift (n := 2) (s := 3) C49_contract_met false (by norm_num) (ex_enc 2 1)

/-! ## Exponentials

The routines with an exponential end with a step that multiplies by the enclosure of the function where the mean value
theorem asks for an enclosure of a mean.  Without this step they enclose. -/

/-- `poly_exp_refine` without its last step encloses the exponential. -/
theorem C49_exp_skip (S : ArbSound A mem) {n : ℤ} {x : List B} {F : ℝ⟦X⟧} (h : Encloses mem A.zero n.toNat x F) :
    ∃ y, expRefine A true x n = .ok y ∧ Encloses mem A.zero n.toNat y (rexp F) :=
  expRefine_enc S true h fun h => absurd h (by simp)

/-- `poly_exp_refine` as it is encloses the exponential when the box that the library returns contains the quotient
`(Y0 - exp F) / (log Y0 - F)` for its midpoint `Y0`, and the midpoint of the constant coefficient is known to be positive.
Missing: the box need not contain it, see `C49_exp_witness`. -/
theorem C49_exp_partial (S : ArbSound A mem) {n : ℤ} {x : List B} {F : ℝ⟦X⟧} (h : Encloses mem A.zero n.toNat x F)
    (hp : A.isPositive ((polyMid A (A.expSeries x n.toNat)).getD 0 A.zero) = true)
    (hmean : ∀ Y0, Encloses mem A.zero n.toNat (A.expSeries x n.toNat) Y0 →
        Encloses mem A.zero n.toNat (polyMid A (A.expSeries x n.toNat)) Y0 →
        ∃ M, Encloses mem A.zero n.toNat (A.expSeries x n.toNat) M ∧
          ∀ i < n.toNat, coeff i (M * (rlog Y0 - F)) = coeff i (Y0 - rexp F)) :
    ∃ y, expRefine A false x n = .ok y ∧ Encloses mem A.zero n.toNat y (rexp F) :=
  expRefine_enc S false h fun _ _ => ⟨hp, hmean⟩

/-- The enclosure of the exponential is not a consequence of the contract: there is an interval arithmetic whose every
operation encloses, and an input that encloses a series, for which `poly_exp_refine` returns normally a polynomial that does
not enclose the exponential of that series. -/
theorem C49_exp_witness : ∃ (A : Arb (Set ℝ)) (mem : ℝ → Set ℝ → Prop) (x : List (Set ℝ)) (F : ℝ⟦X⟧),
    ArbSound A mem ∧ Intervals mem ∧ Encloses mem A.zero 4 x F ∧
      ∃ y, expRefine A false x 4 = .ok y ∧ ¬ Encloses mem A.zero 4 y (rexp F) :=
  ⟨Witness.A, hmem, Witness.x, Witness.F, Witness.sound, hull_intervals, Witness.enc_x, Witness.result⟩

/-- `poly_expm1_shift_refine` without its last step encloses `z^-s (exp(a z^s F) - 1)`. -/
theorem C49_expm1_shift_skip (S : ArbSound A mem) {n a s : ℤ} (ha : a = 1 ∨ a = -1) (hs : 1 ≤ s) {x : List B} {F : ℝ⟦X⟧}
    (h : Encloses mem A.zero n.toNat x F) :
    ∃ y Y, 1 + X ^ s.toNat * Y = rexp (C (a : ℝ) * (X ^ s.toNat * F)) ∧ expm1Shift A true x a s n = .ok y ∧
      Encloses mem A.zero n.toNat y Y := by
  obtain ⟨s, rfl⟩ : ∃ t : ℕ, s = t := ⟨s.toNat, by omega⟩
  have hs' : 0 < s := by omega
  obtain ⟨y, h1, h2⟩ := expm1Shift_enc S true ha hs' h (fun h => absurd h (by simp))
  refine ⟨y, Ser.expm1S a s F, ?_, h1, h2⟩
  rw [Int.toNat_natCast, Ser.X_pow_mul_expm1S hs', rexp_of_zero, show (C (a : ℝ) : ℝ⟦X⟧) = (a : ℝ⟦X⟧) by rw [map_intCast]]
  rw [map_mul, map_mul, map_pow, constantCoeff_X, zero_pow hs'.ne', zero_mul, mul_zero]

/-- `poly_expm1_shift_refine` as it is, when the box `1 + z^s y` of its last step contains the mean it stands for.  Missing:
the box need not contain it. -/
theorem C49_expm1_shift_partial (S : ArbSound A mem) {n a s : ℤ} (ha : a = 1 ∨ a = -1) (hs : 1 ≤ s) {x : List B} {F : ℝ⟦X⟧}
    (h : Encloses mem A.zero n.toNat x F)
    (hmean : ∀ y, expm1Newton A false x a s n.toNat = .ok y → ∀ Y0, Encloses mem A.zero n.toNat y Y0 →
      Encloses mem A.zero n.toNat (polyMid A y) Y0 →
      ∃ M, Encloses mem A.zero n.toNat (trunc (A.addSi (shiftLeft A y s.toNat) 1) n.toNat) M ∧
        ∀ i < n.toNat + s.toNat, coeff i ((rlog (1 + X ^ s.toNat * Y0) - C (a : ℝ) * (X ^ s.toNat * F)) * M) =
          coeff i (1 + X ^ s.toNat * Y0 - rexp (C (a : ℝ) * (X ^ s.toNat * F)))) :
    ∃ y Y, 1 + X ^ s.toNat * Y = rexp (C (a : ℝ) * (X ^ s.toNat * F)) ∧ expm1Shift A false x a s n = .ok y ∧
      Encloses mem A.zero n.toNat y Y := by
  obtain ⟨s, rfl⟩ : ∃ t : ℕ, s = t := ⟨s.toNat, by omega⟩
  have hs' : 0 < s := by omega
  have ca : (C (a : ℝ) : ℝ⟦X⟧) = (a : ℝ⟦X⟧) := by rw [map_intCast]
  have c0 : ∀ G : ℝ⟦X⟧, constantCoeff (X ^ s * G) = 0 := fun G => by
    rw [map_mul, map_pow, constantCoeff_X, zero_pow hs'.ne', zero_mul]
  have eE : 1 + X ^ s * Ser.expm1S a s F = rexp (C (a : ℝ) * (X ^ s * F)) := by
    rw [Ser.X_pow_mul_expm1S hs', rexp_of_zero (by rw [map_mul, c0, mul_zero]), ca]
  simp only [Int.toNat_natCast] at hmean ⊢
  obtain ⟨y, h1, h2⟩ := expm1Shift_enc S false ha hs' h (fun _ y hy Y0 hY hY0 => by
    obtain ⟨M, hM, e⟩ := hmean y hy Y0 hY hY0
    refine ⟨M, hM, fun i hi => ?_⟩
    have := e (i + s) (by omega)
    rw [← eE, rlog_of_one (by rw [map_add, c0, map_one, add_zero]), ← Ser.X_pow_mul_log1pS hs', ca,
      show (X ^ s * Ser.log1pS s Y0 - (a : ℝ⟦X⟧) * (X ^ s * F)) * M = X ^ s * ((Ser.log1pS s Y0 - (a : ℝ⟦X⟧) * F) * M) by ring,
      show (1 + X ^ s * Y0 - (1 + X ^ s * Ser.expm1S a s F) : ℝ⟦X⟧) = X ^ s * (Y0 - Ser.expm1S a s F) by ring,
      coeff_X_pow_mul, coeff_X_pow_mul] at this
    exact this)
  exact ⟨y, Ser.expm1S a s F, eE, h1, h2⟩

/-- Other factors than `1` and `-1`, and shifts below one, throw. -/
theorem C49_expm1_shift_throws (skip : Bool) {n a s : ℤ} (hn : 0 < n) (h : (a ≠ 1 ∧ a ≠ -1) ∨ s < 1) (x : List B) :
    expm1Shift A skip x a s n = .error .assertion := by
  unfold expm1Shift
  rw [if_neg (by omega)]
  by_cases ha : |a| = 1
  · have hs : ¬ s ≥ 1 := by
      rcases h with h | h
      · rcases abs_eq (by norm_num : (0 : ℤ) ≤ 1) |>.1 ha with h' | h'
        · exact absurd h' h.1
        · exact absurd h' h.2
      · omega
    simp only [slowAssert, if_pos ha, bok, if_neg hs, berr]
  · simp only [slowAssert, if_neg ha, berr]

/-- `poly_log1p_exp_shift_refine` without the last steps encloses `z^-s log(1 + z^s exp F)`. -/
theorem C49_log1p_exp_shift_skip (S : ArbSound A mem) {n s : ℤ} (hs : 1 ≤ s) {x : List B} {F : ℝ⟦X⟧}
    (h : Encloses mem A.zero n.toNat x F) :
    ∃ y Y, X ^ s.toNat * Y = rlog (1 + X ^ s.toNat * rexp F) ∧ log1pExpShift A true x s n = .ok y ∧
      Encloses mem A.zero n.toNat y Y := by
  obtain ⟨s, rfl⟩ : ∃ t : ℕ, s = t := ⟨s.toNat, by omega⟩
  have hs' : 0 < s := by omega
  obtain ⟨y, h1, h2⟩ := log1pExpShift_enc S (expOk_skip S) (expm1Ok_skip S) hs' h (fun h => absurd h (by simp))
  refine ⟨y, Ser.log1pS s (rexp F), ?_, h1, h2⟩
  rw [Int.toNat_natCast, Ser.X_pow_mul_log1pS hs', rlog_of_one]
  rw [map_add, map_one, map_mul, map_pow, constantCoeff_X, zero_pow hs'.ne', zero_mul, add_zero]

/-- `poly_log1p_exp_shift_refine` as it is, when the two routines it calls enclose and the box of its last step contains the
mean it stands for.  Missing: these conditions are not consequences of the contract. -/
theorem C49_log1p_exp_shift_partial (S : ArbSound A mem)
    (hE : ∀ (x : List B) (n : ℤ) (F : ℝ⟦X⟧), Encloses mem A.zero n.toNat x F →
      ∃ y, expRefine A false x n = .ok y ∧ Encloses mem A.zero n.toNat y (rexp F))
    (hM : ∀ (x : List B) (s : ℕ) (n : ℤ) (F Y : ℝ⟦X⟧), 0 < s → Encloses mem A.zero n.toNat x F →
      1 + X ^ s * Y = rexp (-(X ^ s * F)) →
      ∃ y, expm1Shift A false x (-1) s n = .ok y ∧ Encloses mem A.zero n.toNat y Y)
    {n s : ℤ} (hs : 1 ≤ s) {x : List B} {F : ℝ⟦X⟧} (h : Encloses mem A.zero n.toNat x F)
    (hmean : ∀ y e, log1pExpNewton A false x s n.toNat = .ok y →
      expRefine A false (radShift A y s.toNat n.toNat) n = .ok e → ∀ Y0, Encloses mem A.zero n.toNat y Y0 →
      Encloses mem A.zero n.toNat (polyMid A y) Y0 →
      ∃ M, Encloses mem A.zero n.toNat e M ∧ ∀ i < n.toNat + s.toNat,
        coeff i (M * (1 - (1 + X ^ s.toNat * rexp F) * rexp (-(X ^ s.toNat * Y0)))) =
          coeff i (X ^ s.toNat * Y0 - rlog (1 + X ^ s.toNat * rexp F))) :
    ∃ y Y, X ^ s.toNat * Y = rlog (1 + X ^ s.toNat * rexp F) ∧ log1pExpShift A false x s n = .ok y ∧
      Encloses mem A.zero n.toNat y Y := by
  obtain ⟨s, rfl⟩ : ∃ t : ℕ, s = t := ⟨s.toNat, by omega⟩
  have hs' : 0 < s := by omega
  have c0 : ∀ G : ℝ⟦X⟧, constantCoeff (X ^ s * G) = 0 := fun G => by
    rw [map_mul, map_pow, constantCoeff_X, zero_pow hs'.ne', zero_mul]
  have eM : ∀ G : ℝ⟦X⟧, 1 + X ^ s * Ser.expm1S (-1) s G = rexp (-(X ^ s * G)) := fun G => by
    rw [Ser.X_pow_mul_expm1S hs', rexp_of_zero (by rw [map_neg, c0, neg_zero])]
    simp
  have eL : X ^ s * Ser.log1pS s (rexp F) = rlog (1 + X ^ s * rexp F) := by
    rw [Ser.X_pow_mul_log1pS hs', rlog_of_one]
    rw [map_add, c0, map_one, add_zero]
  simp only [Int.toNat_natCast] at hmean ⊢
  have hM' : Expm1Ok A mem false := by
    intro x t n F ht hx
    refine hM x t n F _ ht hx ?_
    rw [Ser.X_pow_mul_expm1S ht, rexp_of_zero]
    · simp
    · rw [map_neg, map_mul, map_pow, constantCoeff_X, zero_pow ht.ne', zero_mul, neg_zero]
  obtain ⟨y, h1, h2⟩ := log1pExpShift_enc S hE hM' hs' h (fun _ y e hy he Y0 hY hY0 => by
    obtain ⟨M, hMe, e⟩ := hmean y e hy he Y0 hY hY0
    refine ⟨M, hMe, fun i hi => ?_⟩
    have := e (i + s) (by omega)
    have k : (1 - (1 + X ^ s * rexp F) * rexp (-(X ^ s * Y0)) : ℝ⟦X⟧) =
        X ^ s * -(Ser.expm1S (-1) s Y0 + rexp (F - X ^ s * Y0)) := by
      rw [sub_eq_add_neg F, rexp_add, ← eM]; ring
    rw [← eL, k, show (M * (X ^ s * -(Ser.expm1S (-1) s Y0 + rexp (F - X ^ s * Y0))) : ℝ⟦X⟧) =
        X ^ s * (M * -(Ser.expm1S (-1) s Y0 + rexp (F - X ^ s * Y0))) by ring, ← mul_sub, coeff_X_pow_mul,
      coeff_X_pow_mul] at this
    exact this)
  exact ⟨y, Ser.log1pS s (rexp F), eL, h1, h2⟩

/-- `exp(2 + z)` without the last step. -/
example : ∃ y, expRefine exactArb true [{2}, {1}] 2 = .ok y ∧ Encloses smem exactArb.zero 2 y (rexp (C 2 + C 1 * X)) :=
  C49_exp_skip C49_contract_met (ex_enc 2 1)

/-- `z^-1 log(1 + z exp(2 + z))` without the last steps. -/
example : ∃ y Y, X ^ 1 * Y = rlog (1 + X ^ 1 * rexp (C 2 + C 1 * X)) ∧ log1pExpShift exactArb true [{2}, {1}] 1 2 = .ok y ∧
    Encloses smem exactArb.zero 2 y Y :=
  C49_log1p_exp_shift_skip (n := 2) (s := 1) C49_contract_met (by norm_num) (ex_enc 2 1)

end Props

end Mandelbrot
