import Verif.Float.Division
import Verif.Props.Float

/-!
# Reciprocal, division and product of expansions: C64

`n` is 2, 3 or 4, the sizes the generator produces. The rounding is any rounding to nearest of `double`. The range hypotheses keep the results
away from underflow; overflow is not represented in the model.
-/

namespace Mandelbrot.Float

variable {rn : ℝ → ℝ}

/-- The components after the first are smaller by `2^-g` for every place. -/
def Graded (g : ℕ) (x : List ℝ) : Prop := ∀ i (h : i < x.length), |x[i]| ≤ |x.headD 0| / 2 ^ (g * i)

theorem Graded.mono {g g' : ℕ} (hg : g' ≤ g) {x : List ℝ} (h : Graded g x) : Graded g' x := fun i hi =>
  (h i hi).trans (div_le_div_of_nonneg_left (abs_nonneg _) (by positivity) (pow_le_pow_right₀ (by norm_num) (Nat.mul_le_mul_right _ hg)))

theorem Falls.graded : ∀ {x : List ℝ}, Falls double x → Graded 52 x := by
  intro x
  induction x with
  | nil => intro _ i hi; simp at hi
  | cons a x ih =>
    intro h i hi
    cases x with
    | nil =>
      obtain rfl : i = 0 := by simp at hi; exact hi
      simp
    | cons b x =>
      cases i with
      | zero => simp
      | succ i =>
        have h1 := ih h.2 i (by simpa using hi)
        have h2 : |b| ≤ |a| / 2 ^ 52 := by
          have h3 := h.1
          rw [show (2 : ℝ) / 2 ^ double.p * |a| = |a| / 2 ^ 52 by rw [show double.p = 53 from rfl]; ring] at h3
          exact h3
        have h4 : |(b :: x).headD 0| / 2 ^ (52 * i) ≤ |a| / 2 ^ 52 / 2 ^ (52 * i) := div_le_div_of_nonneg_right h2 (by positivity)
        refine (h1.trans h4).trans (le_of_eq ?_)
        show _ = |a| / 2 ^ (52 * (i + 1))
        rw [div_div, ← pow_add]
        congr 2; ring

/-! ## From grades to bounds and back -/

def gradeB (g n : ℕ) : List ℕ := (List.range n).map fun i => 2 ^ (250 - g * i)

theorem Graded.bds {g : ℕ} {x : List ℝ} {X : ℝ} (h : Graded g x) (hX : |x.headD 0| = X) (hg : g * 3 ≤ 250) (hn : x.length ≤ 4) :
    Bds (X / 2 ^ 250) x (gradeB g x.length) := by
  refine List.forall₂_iff_get.mpr ⟨by simp [gradeB], ?_⟩
  intro i h1 h2
  have := h i h1
  rw [hX] at this
  simp only [List.get_eq_getElem]
  refine this.trans (le_of_eq ?_)
  simp only [gradeB, List.getElem_map, List.getElem_range]
  have hgi : g * i ≤ 250 := by
    have : g * i ≤ g * 3 := Nat.mul_le_mul_left _ (by omega)
    omega
  push_cast
  rw [pow_sub₀ (2 : ℝ) (by norm_num) hgi]
  field_simp

/-- The leading component is at least what is left of the value. -/
theorem head_ge {ω V : ℝ} {x : List ℝ} {A : List ℕ} (h : Bds ω x A) (hV : V ≤ |x.sum|) : V - ω * (A.tail.sum : ℕ) ≤ |x.headD 0| := by
  unfold Bds at h
  cases h with
  | nil => simp at hV ⊢; exact hV
  | @cons a C x A h1 h2 =>
    have hs : |x.sum| ≤ ω * (A.sum : ℕ) := bds_sum h2
    rw [List.sum_cons] at hV
    show V - ω * (A.sum : ℕ) ≤ |a|
    have := abs_add_le a x.sum
    linarith

/-- The check on bounds that a result with value at least `L` units is graded. -/
def gradedB (g : ℕ) (A : List ℕ) (L : ℕ) : Bool :=
  A.tail.sum ≤ L ∧ (List.range A.length).all fun i => i = 0 ∨ A[i]! * 2 ^ (g * i) ≤ L - A.tail.sum

theorem graded_of_bds {ω : ℝ} (hω : 0 ≤ ω) {g L : ℕ} {x : List ℝ} {A : List ℕ} (h : Bds ω x A) (hL : ω * L ≤ |x.sum|) (hc : gradedB g A L = true) :
    Graded g x := by
  simp only [gradedB, Bool.decide_and, Bool.and_eq_true, decide_eq_true_eq, List.all_eq_true, List.mem_range, Bool.decide_or,
    Bool.or_eq_true] at hc
  obtain ⟨h1, h2⟩ := hc
  intro i hi
  have hh := head_ge h hL
  by_cases h0 : i = 0
  · subst h0
    cases x with
    | nil => simp at hi
    | cons a x => simp
  · have hlen : x.length = A.length := List.Forall₂.length_eq h
    obtain ⟨_, h3⟩ := List.forall₂_iff_get.mp h
    have h4 := h3 i hi (hlen ▸ hi)
    simp only [List.get_eq_getElem] at h4
    rcases h2 i (hlen ▸ hi) with h5 | h5
    · exact absurd h5 h0
    · rw [getElem!_pos A i (hlen ▸ hi)] at h5
      rw [le_div_iff₀ (by positivity)]
      have h6 : ((A[i]'(hlen ▸ hi) : ℕ) : ℝ) * 2 ^ (g * i) ≤ (L : ℝ) - (A.tail.sum : ℕ) := by
        rw [← Nat.cast_sub h1]; exact_mod_cast h5
      calc |x[i]| * 2 ^ (g * i) ≤ ω * (A[i]'(hlen ▸ hi) : ℕ) * 2 ^ (g * i) := mul_le_mul_of_nonneg_right h4 (by positivity)
        _ = ω * ((A[i]'(hlen ▸ hi) : ℕ) * 2 ^ (g * i)) := by ring
        _ ≤ ω * ((L : ℝ) - (A.tail.sum : ℕ)) := mul_le_mul_of_nonneg_left h6 hω
        _ = ω * L - ω * (A.tail.sum : ℕ) := by ring
        _ ≤ _ := hh

theorem gradeB_tail {g n : ℕ} (hg : 8 ≤ g) (hn : n ≤ 4) : (gradeB g n).tail.sum < 2 ^ 250 := by
  have h1 : 2 ^ (250 - g) ≤ 2 ^ 242 := Nat.pow_le_pow_right (by norm_num) (by omega)
  have h2 : 2 ^ (250 - g * 2) ≤ 2 ^ 242 := Nat.pow_le_pow_right (by norm_num) (by omega)
  have h3 : 2 ^ (250 - g * 3) ≤ 2 ^ 242 := Nat.pow_le_pow_right (by norm_num) (by omega)
  have h4 : 3 * 2 ^ 242 < 2 ^ 250 := by decide +kernel
  generalize 2 ^ 250 = z at *
  have h0 : z = z := rfl
  interval_cases n <;> simp [gradeB, List.range_succ] <;> omega

theorem Graded.divisor {g : ℕ} {x : List ℝ} (h : Graded g x) (r : ∀ a ∈ x, double.Rep a) (h0 : x.headD 0 ≠ 0) (hg : 8 ≤ g) (hg3 : g * 3 ≤ 250)
    (hn : x.length ≤ 4) : Divisor double 250 |x.headD 0| x (gradeB g x.length) := by
  refine ⟨r, abs_pos.mpr h0, ?_, hn, h.bds rfl hg3 hn, gradeB_tail hg hn⟩
  cases x with
  | nil => exact absurd rfl h0
  | cons a l => exact ⟨a, l, rfl, rfl⟩

theorem theta_double : double.theta = (2 : ℝ) ^ (-1021 : ℤ) := by
  unfold Fmt.theta
  rw [show double.p = 53 from rfl, show double.emin = -1074 from rfl, ← zpow_natCast, ← zpow_add₀ (by norm_num)]
  norm_num

theorem theta_le {V : ℝ} (h : (2 : ℝ) ^ (-700 : ℤ) ≤ V) : double.theta ≤ V / 2 ^ 250 := by
  rw [theta_double, le_div_iff₀ (by positivity)]
  refine le_trans ?_ h
  rw [show ((2 : ℝ) ^ 250) = (2 : ℝ) ^ (250 : ℤ) by norm_cast, ← zpow_add₀ (by norm_num)]
  exact zpow_le_zpow_right₀ (by norm_num) (by norm_num)

theorem theta_one : double.theta ≤ 1 / 2 ^ 250 :=
  theta_le (by rw [← zpow_zero (2 : ℝ)]; exact zpow_le_zpow_right₀ (by norm_num) (by norm_num))

theorem theta_inv {X : ℝ} (h0 : 0 < X) (h : X ≤ (2 : ℝ) ^ (700 : ℤ)) : double.theta ≤ 1 / X / 2 ^ 250 := by
  refine theta_le ?_
  rw [zpow_neg, ← one_div]
  exact one_div_le_one_div_of_le h0 h

/-! ## The reciprocal -/

/-- The numbers for the reciprocal. -/
def invCheck (g n bits out : ℕ) : Bool :=
  let B := gradeB g n
  let v := invB 53 250 B n
  v.2 * 2 ^ bits ≤ 2 ^ 250 ∧ v.2 ≤ 2 ^ 250 ∧ gradedB out v.1 ((2 ^ 250 - v.2) * 2 ^ 250 / B.sum)

theorem inv_check (h : double.Rounds rn) {g bits out : ℕ} {b : List ℝ} (hg : 8 ≤ g) (hg3 : g * 3 ≤ 250) (hn : b.length ≤ 4) (rb : ∀ a ∈ b, double.Rep a)
    (hb : Graded g b) (h0 : b.headD 0 ≠ 0) (hr : |b.headD 0| ≤ (2 : ℝ) ^ (700 : ℤ)) (hc : invCheck g b.length bits out = true) :
    ∃ y, invExp rn b = .ok y ∧ y.length = b.length ∧ (∀ a ∈ y, double.Rep a) ∧ Graded out y ∧ |b.sum * y.sum - 1| ≤ 1 / 2 ^ bits := by
  simp only [invCheck, Bool.decide_and, Bool.and_eq_true, decide_eq_true_eq, Bool.decide_eq_true] at hc
  obtain ⟨c1, c2, c3⟩ := hc
  have hX : 0 < |b.headD 0| := abs_pos.mpr h0
  have hd := hb.divisor rb h0 hg hg3 hn
  obtain ⟨y, h1, h2⟩ := inv_bd (by norm_num [double]) (by norm_num [double]) h theta_one (theta_inv hX hr) hd
  rw [show double.p = 53 from rfl] at h2
  set X := |b.headD 0|
  set B := gradeB g b.length
  set v := invB 53 250 B b.length
  have hres := h2.res
  refine ⟨y, h1, h2.len, h2.rep, ?_, ?_⟩
  · refine graded_of_bds (by positivity) h2.bds ?_ c3
    have e1 : 1 - (v.2 : ℝ) / 2 ^ 250 ≤ |b.sum * y.sum| := by
      have := abs_sub_abs_le_abs_sub 1 (b.sum * y.sum)
      rw [abs_one] at this
      linarith
    have := hd.quot_ge (y := y.sum) (N := 2 ^ 250 - v.2) zero_le_one (by
      rw [Nat.cast_sub c2, Nat.cast_pow, Nat.cast_ofNat]
      refine le_trans (le_of_eq ?_) e1
      rw [one_mul, sub_div, div_self (by positivity)])
    rwa [one_mul] at this
  · rw [abs_sub_comm]
    refine hres.trans ?_
    rw [div_le_div_iff₀ (by positivity) (by positivity), one_mul]
    exact_mod_cast c1

/-- **C64.** The reciprocal: for `n` components the product with the operand is 1 up to `2^-(47n+5)`. -/
theorem C64_inv (h : double.Rounds rn) {b : List ℝ} (hn2 : 2 ≤ b.length) (hn4 : b.length ≤ 4) (rb : ∀ a ∈ b, double.Rep a) (hb : Falls double b)
    (h0 : b.headD 0 ≠ 0) (hr : |b.headD 0| ≤ (2 : ℝ) ^ (700 : ℤ)) :
    ∃ y, invExp rn b = .ok y ∧ y.length = b.length ∧ (∀ a ∈ y, double.Rep a) ∧ Graded 47 y ∧ |b.sum * y.sum - 1| ≤ 1 / 2 ^ (47 * b.length + 5) := by
  refine inv_check h (by norm_num) (by norm_num) hn4 rb hb.graded h0 hr ?_
  have h3 : b.length = 2 ∨ b.length = 3 ∨ b.length = 4 := by omega
  rcases h3 with h3 | h3 | h3 <;> rw [h3] <;> decide +kernel

/-! ## The product -/

def mulCheck (g n bits out : ℕ) : Bool :=
  let B := gradeB g n
  let r := mulB 53 250 B B
  r.2 * 2 ^ bits * 2 ^ 250 ≤ (2 ^ 250 - B.tail.sum) * (2 ^ 250 - B.tail.sum) ∧
    gradedB out r.1 ((2 ^ 250 - B.tail.sum) * (2 ^ 250 - B.tail.sum) / 2 ^ 250 - r.2)

theorem mul_check (h : double.Rounds rn) {g bits out : ℕ} {a b : List ℝ} (hg : 8 ≤ g) (hg3 : g * 3 ≤ 250) (hn : b.length ≤ 4) (hl : a.length = b.length)
    (ra : ∀ z ∈ a, double.Rep z) (rb : ∀ z ∈ b, double.Rep z) (ha : Graded g a) (hb : Graded g b) (ha0 : a.headD 0 ≠ 0) (hb0 : b.headD 0 ≠ 0)
    (hr : (2 : ℝ) ^ (-700 : ℤ) ≤ |a.headD 0| * |b.headD 0|) (hc : mulCheck g b.length bits out = true) :
    ∃ r, collangeMul rn a b = .ok r ∧ r.length = a.length ∧ (∀ z ∈ r, double.Rep z) ∧ Graded out r ∧
      |a.sum * b.sum - r.sum| ≤ |a.sum * b.sum| / 2 ^ bits := by
  simp only [mulCheck, Bool.decide_and, Bool.and_eq_true, decide_eq_true_eq, Bool.decide_eq_true] at hc
  obtain ⟨c1, c2⟩ := hc
  have da := ha.divisor ra ha0 hg hg3 (by omega)
  have db := hb.divisor rb hb0 hg hg3 hn
  have hX := da.pos
  have hY := db.pos
  have hpos : 0 < b.length := by
    cases b with
    | nil => exact absurd rfl hb0
    | cons _ _ => simp
  obtain ⟨r, r1, r2, r3, r4, r5⟩ := mul_bd (by norm_num [double]) h hX.le hY.le (theta_le hr) (by omega) (by omega) (by norm_num [double]) hl ra rb
    da.bds db.bds
  have la := da.lower
  have lb := db.lower
  rw [hl] at la r4 r5
  rw [show double.p = 53 from rfl] at r4 r5
  set X := |a.headD 0|
  set Y := |b.headD 0|
  set B := gradeB g b.length
  set R := mulB 53 250 B B
  set t := 2 ^ 250 - B.tail.sum
  have hlow : X * Y / 2 ^ 250 * (((t * t : ℕ) : ℝ) / 2 ^ 250) ≤ |a.sum * b.sum| := by
    rw [abs_mul]
    refine le_trans (le_of_eq ?_) (mul_le_mul la lb (by positivity) (abs_nonneg _))
    rw [Nat.cast_mul]
    ring
  have hω : 0 ≤ X * Y / 2 ^ 250 := by positivity
  refine ⟨r, r1, r2, r3, graded_of_bds hω r4 ?_ c2, ?_⟩
  · rcases Nat.lt_or_ge (t * t / 2 ^ 250) R.2 with hlt | hge
    · rw [Nat.sub_eq_zero_of_le hlt.le]; simp
    · rw [Nat.cast_sub hge]
      have h1 : ((t * t / 2 ^ 250 : ℕ) : ℝ) ≤ ((t * t : ℕ) : ℝ) / 2 ^ 250 := by
        rw [le_div_iff₀ (by positivity)]
        exact_mod_cast Nat.div_mul_le_self (t * t) (2 ^ 250)
      have h2 := mul_le_mul_of_nonneg_left h1 hω
      have h3 := abs_sub_abs_le_abs_sub (a.sum * b.sum) r.sum
      rw [mul_sub]
      linarith
  · rw [le_div_iff₀ (by positivity)]
    refine le_trans ?_ hlow
    refine (mul_le_mul_of_nonneg_right r5 (by positivity)).trans ?_
    rw [mul_assoc]
    refine mul_le_mul_of_nonneg_left ?_ hω
    rw [le_div_iff₀ (by positivity)]
    exact_mod_cast c1

/-- **C64.** The product of expansions with falling components is exact up to the fraction `2^-(50n+1)`. -/
theorem C64_mul (h : double.Rounds rn) {a b : List ℝ} (hn2 : 2 ≤ b.length) (hn4 : b.length ≤ 4) (hl : a.length = b.length)
    (ra : ∀ z ∈ a, double.Rep z) (rb : ∀ z ∈ b, double.Rep z) (ha : Falls double a) (hb : Falls double b) (ha0 : a.headD 0 ≠ 0) (hb0 : b.headD 0 ≠ 0)
    (hr : (2 : ℝ) ^ (-700 : ℤ) ≤ |a.headD 0| * |b.headD 0|) :
    ∃ r, collangeMul rn a b = .ok r ∧ r.length = a.length ∧ (∀ z ∈ r, double.Rep z) ∧ Graded 50 r ∧
      |a.sum * b.sum - r.sum| ≤ |a.sum * b.sum| / 2 ^ (50 * b.length + 1) := by
  refine mul_check h (g := 52) (by norm_num) (by norm_num) hn4 hl ra rb ha.graded hb.graded ha0 hb0 hr ?_
  have h3 : b.length = 2 ∨ b.length = 3 ∨ b.length = 4 := by omega
  rcases h3 with h3 | h3 | h3 <;> rw [h3] <;> decide +kernel

/-! ## The division -/

def divCheck (g n bits out : ℕ) : Bool :=
  let B := gradeB g n
  let q := divB 53 250 B B (invB 53 250 B n)
  q.2 * 2 ^ bits ≤ 2 ^ 250 - B.tail.sum ∧ q.2 ≤ 2 ^ 250 - B.tail.sum ∧ gradedB out q.1 ((2 ^ 250 - B.tail.sum - q.2) * 2 ^ 250 / B.sum)

theorem divExp_ok {a b v y c d f q : List ℝ} (h0 : invExp rn b = .ok v) (h1 : collangeMul rn a v = .ok y) (h2 : collangeMul rn b y = .ok c)
    (h3 : collangeSub rn c a = .ok d) (h4 : collangeMul rn d v = .ok f) (h5 : collangeSub rn y f = .ok q) : divExp rn a b = .ok q := by
  rw [divExp, h0, bok, h1, bok, h2, bok, h3, bok, h4, bok, h5]

theorem div_check (h : double.Rounds rn) {g bits out : ℕ} {a b : List ℝ} (hg : 8 ≤ g) (hg3 : g * 3 ≤ 250) (hn : b.length ≤ 4) (hl : a.length = b.length)
    (ra : ∀ z ∈ a, double.Rep z) (rb : ∀ z ∈ b, double.Rep z) (ha : Graded g a) (hb : Graded g b) (ha0 : a.headD 0 ≠ 0) (hb0 : b.headD 0 ≠ 0)
    (hrb : |b.headD 0| ≤ (2 : ℝ) ^ (700 : ℤ)) (hra : (2 : ℝ) ^ (-700 : ℤ) ≤ |a.headD 0|) (hrq : (2 : ℝ) ^ (-700 : ℤ) ≤ |a.headD 0| / |b.headD 0|)
    (hc : divCheck g b.length bits out = true) :
    ∃ q, divExp rn a b = .ok q ∧ q.length = a.length ∧ (∀ z ∈ q, double.Rep z) ∧ Graded out q ∧ |b.sum * q.sum - a.sum| ≤ |a.sum| / 2 ^ bits := by
  simp only [divCheck, Bool.decide_and, Bool.and_eq_true, decide_eq_true_eq, Bool.decide_eq_true] at hc
  obtain ⟨c1, c2, c3⟩ := hc
  have da := ha.divisor ra ha0 hg hg3 (by omega)
  have db := hb.divisor rb hb0 hg hg3 hn
  have hX := db.pos
  have hW := da.pos
  obtain ⟨v, v1, v2⟩ := inv_bd (by norm_num [double]) (by norm_num [double]) h theta_one (theta_inv hX hrb) db
  have la := da.lower
  have dab := da.bds
  rw [hl] at la dab
  have hA : (gradeB g b.length).headD 0 = 2 ^ 250 := by
    cases b with
    | nil => exact absurd rfl hb0
    | cons z l => simp [gradeB, List.range_succ_eq_map]
  obtain ⟨y, c, d, f, q, h1, h2, h3, h4, h5, q1, q2, q3, q4⟩ := div_bd (by norm_num [double]) h hW
    (theta_le (by rwa [mul_one_div])) (theta_le hra) db hl ra dab hA v2
  rw [show double.p = 53 from rfl] at q3 q4
  set X := |b.headD 0|
  set W := |a.headD 0|
  set B := gradeB g b.length
  set Q := divB 53 250 B B (invB 53 250 B b.length)
  set t := 2 ^ 250 - B.tail.sum
  have hω : 0 ≤ W / 2 ^ 250 := by positivity
  refine ⟨q, divExp_ok v1 h1 h2 h3 h4 h5, q1, q2, ?_, ?_⟩
  · refine graded_of_bds (by positivity) q3 ?_ c3
    refine db.quot_ge hW.le ?_
    rw [Nat.cast_sub c2]
    have h6 := abs_sub_abs_le_abs_sub a.sum (b.sum * q.sum)
    rw [abs_sub_comm a.sum] at h6
    have h7 : W * ((t : ℝ) - (Q.2 : ℝ)) / 2 ^ 250 = W * (t : ℝ) / 2 ^ 250 - W / 2 ^ 250 * (Q.2 : ℝ) := by ring
    rw [h7]
    linarith
  · rw [le_div_iff₀ (by positivity)]
    refine le_trans ?_ la
    refine (mul_le_mul_of_nonneg_right q4 (by positivity)).trans ?_
    rw [mul_assoc, mul_div_right_comm]
    refine mul_le_mul_of_nonneg_left ?_ hω
    exact_mod_cast c1

/-- **C64.** Division: for `n` components, the quotient times the divisor is the dividend up to the fraction `2^-(47n+4)`. -/
theorem C64_div (h : double.Rounds rn) {a b : List ℝ} (hn2 : 2 ≤ b.length) (hn4 : b.length ≤ 4) (hl : a.length = b.length)
    (ra : ∀ z ∈ a, double.Rep z) (rb : ∀ z ∈ b, double.Rep z) (ha : Falls double a) (hb : Falls double b) (ha0 : a.headD 0 ≠ 0) (hb0 : b.headD 0 ≠ 0)
    (hrb : |b.headD 0| ≤ (2 : ℝ) ^ (700 : ℤ)) (hra : (2 : ℝ) ^ (-700 : ℤ) ≤ |a.headD 0|) (hrq : (2 : ℝ) ^ (-700 : ℤ) ≤ |a.headD 0| / |b.headD 0|) :
    ∃ q, divExp rn a b = .ok q ∧ q.length = a.length ∧ (∀ z ∈ q, double.Rep z) ∧ Graded 50 q ∧
      |b.sum * q.sum - a.sum| ≤ |a.sum| / 2 ^ (47 * b.length + 4) := by
  refine div_check h (g := 52) (by norm_num) (by norm_num) hn4 hl ra rb ha.graded hb.graded ha0 hb0 hrb hra hrq ?_
  have h3 : b.length = 2 ∨ b.length = 3 ∨ b.length = 4 := by omega
  rcases h3 with h3 | h3 | h3 <;> rw [h3] <;> decide +kernel

/-- **C64.** Operands that fall off by only `2^-48` for each place still give a quotient that falls off by `2^-50`, so quotients, and products of
them, can be divided again. -/
theorem C64_div_graded (h : double.Rounds rn) {a b : List ℝ} (hn2 : 2 ≤ b.length) (hn4 : b.length ≤ 4) (hl : a.length = b.length)
    (ra : ∀ z ∈ a, double.Rep z) (rb : ∀ z ∈ b, double.Rep z) (ha : Graded 48 a) (hb : Graded 48 b) (ha0 : a.headD 0 ≠ 0) (hb0 : b.headD 0 ≠ 0)
    (hrb : |b.headD 0| ≤ (2 : ℝ) ^ (700 : ℤ)) (hra : (2 : ℝ) ^ (-700 : ℤ) ≤ |a.headD 0|) (hrq : (2 : ℝ) ^ (-700 : ℤ) ≤ |a.headD 0| / |b.headD 0|) :
    ∃ q, divExp rn a b = .ok q ∧ q.length = a.length ∧ (∀ z ∈ q, double.Rep z) ∧ Graded 50 q ∧
      |b.sum * q.sum - a.sum| ≤ |a.sum| / 2 ^ (47 * b.length) := by
  refine div_check h (g := 48) (by norm_num) (by norm_num) hn4 hl ra rb ha hb ha0 hb0 hrb hra hrq ?_
  have h3 : b.length = 2 ∨ b.length = 3 ∨ b.length = 4 := by omega
  rcases h3 with h3 | h3 | h3 <;> rw [h3] <;> decide +kernel

/-- **C64.** The product of two such quotients falls off by `2^-48`. -/
theorem C64_mul_graded (h : double.Rounds rn) {a b : List ℝ} (hn2 : 2 ≤ b.length) (hn4 : b.length ≤ 4) (hl : a.length = b.length)
    (ra : ∀ z ∈ a, double.Rep z) (rb : ∀ z ∈ b, double.Rep z) (ha : Graded 50 a) (hb : Graded 50 b) (ha0 : a.headD 0 ≠ 0) (hb0 : b.headD 0 ≠ 0)
    (hr : (2 : ℝ) ^ (-700 : ℤ) ≤ |a.headD 0| * |b.headD 0|) :
    ∃ r, collangeMul rn a b = .ok r ∧ r.length = a.length ∧ (∀ z ∈ r, double.Rep z) ∧ Graded 48 r ∧
      |a.sum * b.sum - r.sum| ≤ |a.sum * b.sum| / 2 ^ (48 * b.length + 2) := by
  refine mul_check h (g := 50) (by norm_num) (by norm_num) hn4 hl ra rb ha hb ha0 hb0 hr ?_
  have h3 : b.length = 2 ∨ b.length = 3 ∨ b.length = 4 := by omega
  rcases h3 with h3 | h3 | h3 <;> rw [h3] <;> decide +kernel

/-- A value bounded away from zero by its leading component. -/
theorem Graded.sum_ne {g : ℕ} {x : List ℝ} (h : Graded g x) (r : ∀ a ∈ x, double.Rep a) (h0 : x.headD 0 ≠ 0) (hg : 8 ≤ g) (hg3 : g * 3 ≤ 250)
    (hn : x.length ≤ 4) : x.sum ≠ 0 := by
  have hd := h.divisor r h0 hg hg3 hn
  have h1 := hd.lower
  have h2 : 0 < 2 ^ 250 - (gradeB g x.length).tail.sum := by have := hd.tail; omega
  have h3 : (0 : ℝ) < ((2 ^ 250 - (gradeB g x.length).tail.sum : ℕ) : ℝ) := by exact_mod_cast h2
  have := hd.pos
  have h4 : 0 < |x.sum| := lt_of_lt_of_le (by positivity) h1
  exact abs_pos.mp h4

/-- **C64.** The same as a relative error of the quotient. -/
theorem C64_div_error (h : double.Rounds rn) {a b : List ℝ} (hn2 : 2 ≤ b.length) (hn4 : b.length ≤ 4) (hl : a.length = b.length)
    (ra : ∀ z ∈ a, double.Rep z) (rb : ∀ z ∈ b, double.Rep z) (ha : Falls double a) (hb : Falls double b) (ha0 : a.headD 0 ≠ 0) (hb0 : b.headD 0 ≠ 0)
    (hrb : |b.headD 0| ≤ (2 : ℝ) ^ (700 : ℤ)) (hra : (2 : ℝ) ^ (-700 : ℤ) ≤ |a.headD 0|) (hrq : (2 : ℝ) ^ (-700 : ℤ) ≤ |a.headD 0| / |b.headD 0|) :
    ∃ q, divExp rn a b = .ok q ∧ |q.sum - a.sum / b.sum| ≤ |a.sum / b.sum| / 2 ^ (47 * b.length + 4) := by
  obtain ⟨q, h1, _, _, _, h2⟩ := C64_div h hn2 hn4 hl ra rb ha hb ha0 hb0 hrb hra hrq
  refine ⟨q, h1, ?_⟩
  have hβ := hb.graded.sum_ne rb hb0 (by norm_num) (by norm_num) hn4
  have hβ' : 0 < |b.sum| := abs_pos.mpr hβ
  rw [← mul_le_mul_iff_right₀ hβ', ← abs_mul, mul_sub, mul_div_cancel₀ _ hβ, mul_div_assoc', ← abs_mul, mul_div_cancel₀ _ hβ]
  exact h2

/-! ### A dividend zero -/

theorem bds_zero {ω : ℝ} {x : List ℝ} {n : ℕ} (h : Bds ω x (List.replicate n 0)) : x = List.replicate n 0 := by
  unfold Bds at h
  induction n generalizing x with
  | zero => cases h; rfl
  | succ n ih =>
    cases h with
    | cons h1 h2 =>
      rw [List.replicate_succ, ih h2]
      congr 1
      simp only [Nat.cast_zero, mul_zero] at h1
      exact abs_nonpos_iff.mp h1

theorem zero_bds (ω : ℝ) (n : ℕ) : Bds ω (List.replicate n 0) (List.replicate n 0) := by
  unfold Bds
  induction n with
  | zero => exact List.Forall₂.nil
  | succ n ih => exact List.Forall₂.cons (by simp) ih

theorem rep_zeros {F : Fmt} (n : ℕ) : ∀ a ∈ List.replicate n (0 : ℝ), F.Rep a := by
  intro a ha
  rw [(List.mem_replicate.mp ha).2]
  exact rep_zero

/-- **C64.** Zero divided by anything is zero in every component. -/
theorem C64_div_zero (h : double.Rounds rn) {b : List ℝ} (hn2 : 2 ≤ b.length) (hn4 : b.length ≤ 4) (rb : ∀ z ∈ b, double.Rep z) (hb : Falls double b)
    (hb0 : b.headD 0 ≠ 0) (hrb : |b.headD 0| ≤ (2 : ℝ) ^ (700 : ℤ)) :
    divExp rn (List.replicate b.length 0) b = .ok (List.replicate b.length 0) := by
  have db := hb.graded.divisor rb hb0 (by norm_num) (by norm_num) hn4
  have hX := db.pos
  obtain ⟨v, v1, v2⟩ := inv_bd (by norm_num [double]) (by norm_num [double]) h theta_one (theta_inv hX hrb) db
  set X := |b.headD 0|
  have hX1 : X * ((X + 1) * (1 / X)) = X + 1 := by field_simp
  have t1 : (2 : ℝ) ^ (-700 : ℤ) ≤ 1 := by rw [← zpow_zero (2 : ℝ)]; exact zpow_le_zpow_right₀ (by norm_num) (by norm_num)
  have t2 : (2 : ℝ) ^ (-700 : ℤ) ≤ (X + 1) * (1 / X) := by
    have h1 : (X + 1) * (1 / X) = 1 + 1 / X := by field_simp
    have h2 : 0 < 1 / X := by positivity
    rw [h1]; linarith
  have mz : ∀ {u : List ℝ} {U : List ℕ}, u.length = b.length → (∀ a ∈ u, double.Rep a) → Bds (1 / X / 2 ^ 250) u U →
      (mulB 53 250 (List.replicate b.length 0) U).1 = List.replicate b.length 0 →
      collangeMul rn (List.replicate b.length 0) u = .ok (List.replicate b.length 0) := by
    intro u U hul hur hub hU
    obtain ⟨r, r1, _, _, r4, _⟩ := mul_bd (by norm_num [double]) h (X := X + 1) (Y := 1 / X) (K := 250) (by positivity) (by positivity) (theta_le t2)
      (x := List.replicate b.length 0) (y := u) (by simp; omega) (by simp; omega) (by norm_num [double]) (by simp [hul]) (rep_zeros _) hur
      (zero_bds _ _) hub
    rw [show double.p = 53 from rfl, hU] at r4
    rw [r1, bds_zero r4]
  have az : collangeSub rn (List.replicate b.length 0) (List.replicate b.length 0) = .ok (List.replicate b.length 0) := by
    obtain ⟨r, r1, _, _, r4, _⟩ := sub_bd (by norm_num [double]) h (ω := 1) (by norm_num) (x := List.replicate b.length 0)
      (y := List.replicate b.length 0) rfl (rep_zeros _) (rep_zeros _) (zero_bds _ _) (zero_bds _ _)
    have hz : (addB 53 (List.replicate b.length 0) (List.replicate b.length 0)).1 = List.replicate b.length 0 := by
      have h3 : b.length = 2 ∨ b.length = 3 ∨ b.length = 4 := by omega
      rcases h3 with h3 | h3 | h3 <;> rw [h3] <;> decide +kernel
    rw [show double.p = 53 from rfl, hz] at r4
    rw [r1, bds_zero r4]
  have mv : collangeMul rn (List.replicate b.length 0) v = .ok (List.replicate b.length 0) := by
    refine mz v2.len v2.rep v2.bds ?_
    rw [show double.p = 53 from rfl]
    have h3 : b.length = 2 ∨ b.length = 3 ∨ b.length = 4 := by omega
    rcases h3 with h3 | h3 | h3 <;> rw [h3] <;> decide +kernel
  have mb : collangeMul rn b (List.replicate b.length 0) = .ok (List.replicate b.length 0) := by
    obtain ⟨r, r1, _, _, r4, _⟩ := mul_bd (by norm_num [double]) h (X := X) (Y := (X + 1) * (1 / X)) (K := 250) (by positivity) (by positivity)
      (theta_le (by rw [hX1]; linarith)) (x := b) (y := List.replicate b.length 0) (by omega) hn4 (by norm_num [double]) (by simp) rb (rep_zeros _)
      db.bds (zero_bds _ _)
    have hz : (mulB 53 250 (gradeB 52 b.length) (List.replicate b.length 0)).1 = List.replicate b.length 0 := by
      have h3 : b.length = 2 ∨ b.length = 3 ∨ b.length = 4 := by omega
      rcases h3 with h3 | h3 | h3 <;> rw [h3] <;> decide +kernel
    rw [show double.p = 53 from rfl, hz] at r4
    rw [r1, bds_zero r4]
  exact divExp_ok v1 mv mb az mv az

/-! ### Division by integers -/

theorem ofInt64_falls (h : double.Rounds rn) {n : ℕ} {a : ℤ} {x : List ℝ} (ha : a ≠ 0) (hx : ofInt64 rn n a = .ok x) (hr : ∀ c ∈ x, double.Rep c)
    (hs : x.sum = a) : Falls double x ∧ x.headD 0 ≠ 0 ∧ |x.headD 0| ≤ 2 * |(a : ℝ)| ∧ |(a : ℝ)| ≤ 2 * |x.headD 0| := by
  have hform : ∃ d, x = rn a :: d :: List.replicate (n - 2) 0 := by
    simp only [ofInt64] at hx
    split at hx
    · split at hx
      · injection hx with hx; exact ⟨_, hx.symm⟩
      · cases hx
    · cases hx
  obtain ⟨d, rfl⟩ := hform
  have hd : d = a - rn a := by
    simp only [List.sum_cons, List.sum_replicate, smul_zero, add_zero] at hs
    linarith
  have h1 : (1 : ℝ) ≤ |(a : ℝ)| := by exact_mod_cast Int.one_le_abs ha
  have he := abs_error (show 1 ≤ double.p by norm_num [double]) (h (a : ℝ))
  have hη : double.eta ≤ 1 / 2 ^ 100 := by
    unfold Fmt.eta
    rw [show double.emin = -1074 from rfl]
    have h2 : (2 : ℝ) ^ (-1074 : ℤ) ≤ (2 : ℝ) ^ (-100 : ℤ) := zpow_le_zpow_right₀ (by norm_num) (by norm_num)
    have h3 : (2 : ℝ) ^ (-100 : ℤ) = 1 / 2 ^ 100 := by rw [zpow_neg, one_div]; norm_cast
    have h4 := two_zpow_pos (-1074)
    rw [h3] at h2
    linarith
  have hu : double.u = 1 / 2 ^ 53 := rfl
  rw [hu] at he
  have h2 : |(a : ℝ) - rn a| ≤ (1 / 2 ^ 53 + 1 / 2 ^ 100) * |(a : ℝ)| := by nlinarith
  have h3 : |(a : ℝ)| ≤ |rn a| + |(a : ℝ) - rn a| := by
    calc |(a : ℝ)| = |rn a + (a - rn a)| := by congr 1; ring
      _ ≤ _ := abs_add_le _ _
  have h4 : |rn a| ≤ |(a : ℝ)| + |(a : ℝ) - rn a| := by
    calc |rn a| = |a - (a - rn a)| := by congr 1; ring
      _ ≤ _ := abs_sub _ _
  have h5 : |(a : ℝ)| ≤ 2 * |rn a| := by
    norm_num at h2
    linarith
  refine ⟨⟨?_, ?_⟩, ?_, ?_, h5⟩
  · rw [hd, show double.p = 53 from rfl]
    norm_num at h2 ⊢
    linarith
  · have hz : ∀ k, Falls double (0 :: List.replicate k 0) := by
      intro k
      induction k with
      | zero => trivial
      | succ k ih => exact ⟨by simp, ih⟩
    cases hk : n - 2 with
    | zero => trivial
    | succ k => exact ⟨by rw [abs_zero]; positivity, hz k⟩
  · intro h0
    simp only [List.headD_cons] at h0
    rw [h0, abs_zero] at h5
    linarith
  · show |rn a| ≤ _
    norm_num at h2
    linarith

/-- **C64.** Division by a 64-bit integer other than zero that does not round to `2^63`: the same accuracy, for dividends of any usual size. -/
theorem C64_div_int (h : double.Rounds rn) {a : List ℝ} {b : ℤ} (hn2 : 2 ≤ a.length) (hn4 : a.length ≤ 4) (h1 : -2 ^ 63 ≤ b) (h2 : b < 2 ^ 63 - 512)
    (hb : b ≠ 0) (ra : ∀ z ∈ a, double.Rep z) (ha : Falls double a) (ha0 : a.headD 0 ≠ 0) (hra : (2 : ℝ) ^ (-600 : ℤ) ≤ |a.headD 0|) :
    ∃ q, divInt rn a b = .ok q ∧ q.length = a.length ∧ (∀ z ∈ q, double.Rep z) ∧ Graded 50 q ∧
      |b * q.sum - a.sum| ≤ |a.sum| / 2 ^ (47 * a.length + 4) := by
  obtain ⟨x, x1, x2, x3, x4, _⟩ := C46_int64 h hn2 h1 h2
  obtain ⟨y1, y2, y3, _⟩ := ofInt64_falls h hb x1 x3 x4
  have hb64 : |(b : ℝ)| ≤ 2 ^ 63 := by
    have : |b| ≤ 2 ^ 63 := abs_le.mpr ⟨h1, by omega⟩
    exact_mod_cast this
  have hx64 : |x.headD 0| ≤ (2 : ℝ) ^ (64 : ℤ) := by
    refine y3.trans ?_
    have : (2 : ℝ) ^ (64 : ℤ) = 2 * 2 ^ 63 := by norm_num
    rw [this]; linarith
  have hxpos : 0 < |x.headD 0| := abs_pos.mpr y2
  obtain ⟨q, q1, q2, q3, q4, q5⟩ := C64_div h (by omega) (by omega) x2.symm ra x3 ha y1 ha0 y2
    (hx64.trans (zpow_le_zpow_right₀ (by norm_num) (by norm_num)))
    ((zpow_le_zpow_right₀ (by norm_num) (by norm_num)).trans hra) (by
      rw [le_div_iff₀ hxpos]
      refine (mul_le_mul_of_nonneg_left hx64 (two_zpow_pos _).le).trans ?_
      rw [← zpow_add₀ (by norm_num)]
      exact (zpow_le_zpow_right₀ (by norm_num) (by norm_num)).trans hra)
  refine ⟨q, ?_, q2, q3, q4, by rwa [x4, x2] at q5⟩
  rw [divInt, x1, bok, q1]

/-- **C64.** The largest integers make the conversion, and so the division, undefined. -/
theorem C64_div_int_ub (h : double.Rounds rn) (a : List ℝ) {b : ℤ} (h1 : 2 ^ 63 - 512 < b) (h2 : b < 2 ^ 63) : divInt rn a b = .error .ub := by
  rw [divInt, C46_int64_ub h h1 h2]; rfl

/-! ### Cases that meet the hypotheses -/

theorem case_falls : Falls double [3, (2 : ℝ) ^ (-53 : ℤ)] := by
  refine ⟨?_, trivial⟩
  rw [abs_of_pos (two_zpow_pos _), show double.p = 53 from rfl]
  norm_num

theorem case_rep : ∀ z ∈ [3, (2 : ℝ) ^ (-53 : ℤ)], double.Rep z := by
  intro z hz
  simp only [List.mem_cons, List.not_mem_nil, or_false] at hz
  rcases hz with rfl | rfl
  · simpa using rep_int (F := double) (m := 3) (by norm_num [double]) (by norm_num [double])
  · exact double_pow (by norm_num)

/-- The reciprocal of `3 + 2^-53` in two components, to 99 bits. -/
example : ∃ y, invExp double.rne [3, (2 : ℝ) ^ (-53 : ℤ)] = .ok y ∧ |(3 + (2 : ℝ) ^ (-53 : ℤ)) * y.sum - 1| ≤ 1 / 2 ^ 99 := by
  obtain ⟨y, h1, _, _, _, h2⟩ := C64_inv double_rounds (b := [3, (2 : ℝ) ^ (-53 : ℤ)]) (by simp) (by simp) case_rep case_falls (by simp)
    (by
      simp only [List.headD_cons]
      rw [abs_of_pos (by norm_num)]
      calc (3 : ℝ) ≤ (2 : ℝ) ^ (2 : ℤ) := by norm_num
        _ ≤ _ := zpow_le_zpow_right₀ (by norm_num) (by norm_num))
  exact ⟨y, h1, by simpa using h2⟩

/-- One third of `3 + 2^-53`, and its square. -/
example : ∃ q, divInt double.rne [3, (2 : ℝ) ^ (-53 : ℤ)] 3 = .ok q ∧ |3 * q.sum - (3 + (2 : ℝ) ^ (-53 : ℤ))| ≤ |3 + (2 : ℝ) ^ (-53 : ℤ)| / 2 ^ 98 := by
  obtain ⟨q, h1, _, _, _, h2⟩ := C64_div_int double_rounds (a := [3, (2 : ℝ) ^ (-53 : ℤ)]) (b := 3) (by simp) (by simp) (by norm_num) (by norm_num)
    (by norm_num) case_rep case_falls (by simp) (by
      simp only [List.headD_cons]
      rw [abs_of_pos (by norm_num)]
      calc (2 : ℝ) ^ (-600 : ℤ) ≤ (2 : ℝ) ^ (0 : ℤ) := zpow_le_zpow_right₀ (by norm_num) (by norm_num)
        _ ≤ 3 := by norm_num)
  exact ⟨q, h1, by simpa using h2⟩

example : ∃ r, collangeMul double.rne [3, (2 : ℝ) ^ (-53 : ℤ)] [3, (2 : ℝ) ^ (-53 : ℤ)] = .ok r ∧ Graded 50 r := by
  obtain ⟨r, h1, _, _, h2, _⟩ := C64_mul double_rounds (a := [3, (2 : ℝ) ^ (-53 : ℤ)]) (b := [3, (2 : ℝ) ^ (-53 : ℤ)]) (by simp) (by simp) rfl case_rep
    case_rep case_falls case_falls (by simp) (by simp) (by
      simp only [List.headD_cons]
      calc (2 : ℝ) ^ (-700 : ℤ) ≤ (2 : ℝ) ^ (0 : ℤ) := zpow_le_zpow_right₀ (by norm_num) (by norm_num)
        _ ≤ |3| * |3| := by norm_num)
  exact ⟨r, h1, h2⟩

end Mandelbrot.Float
