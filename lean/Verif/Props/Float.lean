import Verif.Float.Product
import Mathlib.Tactic.NormNum
import Mathlib.Tactic.IntervalCases
import Mathlib.Tactic.FinCases

/-!
# Floating point expansions: C44, C45, C46

`F.Rep`, `F.Nearest` and `F.Rounds` of `Verif.Float.Format` specify the numbers and the rounding; `rn` is any rounding to nearest,
whatever it does with ties.
-/

namespace Mandelbrot.Float

variable {F : Fmt} {rn : ℝ → ℝ}

/-! ## C44 -/

/-- **C44.** `two_sum` returns a nearest number to the sum and the exact error, for every precision and down to the smallest numbers. -/
theorem C44_two_sum (h : F.Rounds rn) {a b : ℝ} (ha : F.Rep a) (hb : F.Rep b) :
    ∃ x y, twoSum rn (some a) (some b) = (some x, some y) ∧ x = rn (a + b) ∧ F.Nearest (a + b) x ∧ F.Rep y ∧ x + y = a + b :=
  ⟨_, _, twoSum_some h ha hb, rfl, h _, add_error ha hb (h _), by ring⟩

/-- **C44.** With a literal zero the other operand is returned and the error is the literal zero. -/
theorem C44_two_sum_zero (a b : Sc) : twoSum rn none b = (b, none) ∧ twoSum rn a none = (a, none) := by
  constructor
  · rfl
  · cases a <;> rfl

/-- **C44.** `two_prod` returns a nearest number to the product and the exact error, unless the product has bits below the smallest
number. -/
theorem C44_two_prod (h : F.Rounds rn) {a b : ℝ} (hu : NoUnderflow F a b) :
    ∃ x y, twoProd rn a b = (x, y) ∧ x = rn (a * b) ∧ F.Nearest (a * b) x ∧ F.Rep y ∧ x + y = a * b := by
  obtain ⟨e, hr⟩ := twoProd_spec h hu
  exact ⟨_, _, e, rfl, h _, hr, by ring⟩

theorem rep_int {m : ℤ} (hm : |m| ≤ 2 ^ F.p) (he : F.emin ≤ 0) : F.Rep m := ⟨m, 0, by simp, hm, he⟩

theorem double_pow {k : ℤ} (hk : -1074 ≤ k) : double.Rep ((2 : ℝ) ^ k) := ⟨1, k, by simp, by norm_num [double], hk⟩

theorem double_rounds : double.Rounds double.rne := rne_rounds (by norm_num [double])

/-- `1` and `2^-60`: the error is not zero. -/
example : ∃ x y, twoSum double.rne (some 1) (some ((2 : ℝ) ^ (-60 : ℤ))) = (some x, some y) ∧ x + y = 1 + (2 : ℝ) ^ (-60 : ℤ) := by
  obtain ⟨x, y, e, _, _, _, h⟩ := C44_two_sum double_rounds (by simpa using double_pow (k := 0) (by norm_num)) (double_pow (k := -60) (by norm_num))
  exact ⟨x, y, e, h⟩

example : NoUnderflow double (2 ^ 53 - 1) ((2 : ℝ) ^ (-60 : ℤ)) :=
  ⟨2 ^ 53 - 1, 1, 0, -60, by push_cast; ring, by push_cast; ring, by norm_num [double], by norm_num [double], by norm_num [double]⟩

/-- **C44.** Underflow does lose: `two_prod` of two numbers near `2^-600` returns `(0, 0)`. -/
theorem C44_underflow_witness (h : double.Rounds rn) :
    double.Rep ((2 : ℝ) ^ (-600 : ℤ)) ∧ twoProd rn ((2 : ℝ) ^ (-600 : ℤ)) ((2 : ℝ) ^ (-600 : ℤ)) = (0, 0) ∧
      (2 : ℝ) ^ (-600 : ℤ) * (2 : ℝ) ^ (-600 : ℤ) ≠ 0 := by
  refine ⟨double_pow (by norm_num), ?_, (mul_pos (two_zpow_pos _) (two_zpow_pos _)).ne'⟩
  have hz : (2 : ℝ) ^ (-600 : ℤ) * (2 : ℝ) ^ (-600 : ℤ) = (2 : ℝ) ^ (-1200 : ℤ) := by rw [← zpow_add₀ (by norm_num)]; norm_num
  have hpos := two_zpow_pos (-1200)
  have h0 : rn ((2 : ℝ) ^ (-1200 : ℤ)) = 0 := by
    obtain ⟨hr, hn⟩ := h ((2 : ℝ) ^ (-1200 : ℤ))
    obtain ⟨m, hm⟩ := hr.multMin
    have h1 := hn 0 rep_zero
    rw [sub_zero, abs_of_pos hpos] at h1
    have h2 : |rn ((2 : ℝ) ^ (-1200 : ℤ))| ≤ 2 * (2 : ℝ) ^ (-1200 : ℤ) := by
      obtain ⟨h3, h4⟩ := abs_le.mp h1
      rw [abs_le]
      constructor <;> linarith
    have h5 : 2 * (2 : ℝ) ^ (-1200 : ℤ) < (2 : ℝ) ^ (-1074 : ℤ) := by
      calc 2 * (2 : ℝ) ^ (-1200 : ℤ) = (2 : ℝ) ^ (-1199 : ℤ) := by
            rw [show (-1199 : ℤ) = 1 + -1200 by norm_num, zpow_add₀ (by norm_num)]; norm_num
        _ < _ := zpow_lt_zpow_right₀ (by norm_num) (by norm_num)
    have h6 : |(m : ℝ)| < 1 := by
      have := h2.trans_lt h5
      rw [hm, abs_mul, abs_of_pos (two_zpow_pos _)] at this
      have h7 := two_zpow_pos (-1074)
      by_contra hc
      rw [not_lt] at hc
      have : (2 : ℝ) ^ (-1074 : ℤ) ≤ |(m : ℝ)| * (2 : ℝ) ^ (-1074 : ℤ) := le_mul_of_one_le_left h7.le hc
      have h8 : double.emin = -1074 := rfl
      rename_i hlt
      rw [h8] at hlt
      linarith
    have h9 : m = 0 := by
      have : |m| < 1 := by exact_mod_cast h6
      exact Int.abs_lt_one_iff.mp this
    rw [hm, h9]; simp
  simp only [twoProd, hz, h0, neg_zero, add_zero]

/-! ## C45 -/

theorem map_take_drop (l : List Sc) (n : ℕ) : (l.map Sc.val).sum = ((l.take n).map Sc.val).sum + ((l.drop n).map Sc.val).sum := by
  rw [← List.sum_append, ← List.map_append, List.take_append_drop]

/-- **C45.** Addition never fails on operands of the same size; the result and the discarded components are numbers of the format, as
many of the one as of the other, and together they are exactly the sum. -/
theorem C45_add (h : F.Rounds rn) {x y : List ℝ} (hl : x.length = y.length) (hx : ∀ a ∈ x, F.Rep a) (hy : ∀ a ∈ y, F.Rep a) :
    ∃ r tail, collangeAdd rn x y = .ok r ∧ (sumState rn x y).map Sc.val = r ++ tail ∧ r.length = x.length ∧ tail.length = x.length ∧
      (∀ a ∈ r ++ tail, F.Rep a) ∧ r.sum + tail.sum = x.sum + y.sum := by
  obtain ⟨h1, h2, h3⟩ := sumState_spec h hl hx hy
  refine ⟨((sumState rn x y).take x.length).map Sc.val, ((sumState rn x y).drop x.length).map Sc.val, ?_, ?_, ?_, ?_, ?_, ?_⟩
  · simp only [collangeAdd]
    rw [slowAssert_true hl]
    simp only [bok]
    rw [slowAssert_true h3]
    rfl
  · rw [← List.map_append, List.take_append_drop]
  · rw [List.length_map, List.length_take, h3]; omega
  · rw [List.length_map, List.length_drop, h3]; omega
  · rw [← List.map_append, List.take_append_drop]
    intro a ha
    obtain ⟨b, hb, rfl⟩ := List.mem_map.mp ha
    exact h1 b hb
  · rw [← map_take_drop]; exact h2

/-- **C45.** Operands of different sizes are refused. -/
theorem C45_add_assert {x y : List ℝ} (hl : x.length ≠ y.length) : collangeAdd rn x y = .error .assertion := by
  simp only [collangeAdd]
  rw [slowAssert_false hl]
  rfl

/-- **C45.** What is discarded is small: with `N = 2n` summands of size at most `M` and `κ = 1 + N (1+u)^N`, the error of the sum is at
most `n N (1+u)^N M (κ u)^n`, where `u = 2^-p`. -/
theorem C45_add_error (hp : 1 ≤ F.p) (h : F.Rounds rn) {x y r : List ℝ} {M κ : ℝ} (hl : x.length = y.length) (hx : ∀ a ∈ x, F.Rep a)
    (hy : ∀ a ∈ y, F.Rep a) (hr : collangeAdd rn x y = .ok r) (hM : ∀ a ∈ x ++ y, |a| ≤ M)
    (hκ : κ = 1 + (2 * x.length : ℕ) * (1 + 1 / 2 ^ F.p) ^ (2 * x.length)) (hρ : κ / 2 ^ F.p ≤ 1) :
    |x.sum + y.sum - r.sum| ≤ x.length * ((2 * x.length : ℕ) * (1 + 1 / 2 ^ F.p) ^ (2 * x.length) * M * (κ / 2 ^ F.p) ^ x.length) := by
  obtain ⟨r', tail, hr', hs, h1, h2, _, h3⟩ := C45_add h hl hx hy
  rw [hr] at hr'
  obtain rfl : r = r' := by simpa using hr'
  rcases Nat.eq_zero_or_pos x.length with h0 | hpos
  · rw [h0] at h2
    have : tail = [] := List.length_eq_zero_iff.mp h2
    rw [this] at h3
    rw [← h3, h0]; simp
  have hM0 : 0 ≤ M := by
    obtain ⟨a, l, e⟩ := List.exists_cons_of_length_pos hpos
    exact (abs_nonneg a).trans (hM a (by simp [e]))
  have hu := u_pos (F := F)
  have hue : κ / 2 ^ F.p = κ * F.u := by unfold Fmt.u; ring
  have hκ' : 1 + (2 * x.length : ℕ) * (1 + F.u) ^ (2 * x.length) ≤ κ := by rw [hκ]; rfl
  have hκ0 : 0 ≤ κ := le_trans (by positivity) hκ'
  obtain ⟨i1, i2, i3⟩ := interleave_spec x y hl
  have hb := fold_bounds hp h hM0 (2 * x.length) hκ' (interleave x y) [] 0 (by rw [i2]; omega) (fun a ha => by
    obtain ⟨c, rfl, hc⟩ := i3 a ha
    exact hc.elim (hx c) (hy c)) (by simp) (fun a ha => by
    obtain ⟨c, rfl, hc⟩ := i3 a ha
    exact hM c (by simpa using hc)) (by simp)
  have hw : Within ((2 * x.length : ℕ) * (1 + F.u) ^ (2 * x.length) * M) (κ * F.u) 0 (sumState rn x y) :=
    within_of_get _ _ fun i hi => by rw [Nat.zero_add]; exact hb i hi
  have hd := (hw.drop x.length).total_le (by positivity) (by positivity) (by rwa [← hue])
  have ht : total ((sumState rn x y).drop x.length) = tail.sum := by
    unfold total
    rw [List.map_drop, hs, List.drop_append_of_le_length (by omega), List.drop_of_length_le (by omega), List.nil_append]
  rw [ht, List.length_drop, (sumState_spec h hl hx hy).2.2, Nat.zero_add, show 2 * x.length - x.length = x.length by omega] at hd
  rw [show x.sum + y.sum - r.sum = tail.sum by linarith, hue]
  exact hd

/-- **C45.** For `double` and at most four components the error of a sum is below `2^(18-53n)` times the largest component. -/
theorem C45_add_error_double (h : double.Rounds rn) {x y r : List ℝ} {M : ℝ} (hl : x.length = y.length) (hn : x.length ≤ 4)
    (hx : ∀ a ∈ x, double.Rep a) (hy : ∀ a ∈ y, double.Rep a) (hr : collangeAdd rn x y = .ok r) (hM : ∀ a ∈ x ++ y, |a| ≤ M) (hM0 : 0 ≤ M) :
    |x.sum + y.sum - r.sum| ≤ 2 ^ 18 / (2 ^ 53) ^ x.length * M := by
  have hp : double.p = 53 := rfl
  have key := C45_add_error (κ := 1 + (2 * x.length : ℕ) * (1 + 1 / 2 ^ double.p) ^ (2 * x.length)) (by norm_num [double]) h hl hx hy hr hM rfl
    (by rw [hp]; interval_cases x.length <;> norm_num)
  refine key.trans ?_
  rw [hp]
  generalize x.length = n at hn
  have : (n : ℝ) * ((2 * n : ℕ) * (1 + 1 / 2 ^ 53) ^ (2 * n) * M * ((1 + (2 * n : ℕ) * (1 + 1 / 2 ^ 53) ^ (2 * n)) / 2 ^ 53) ^ n) =
      ((n : ℝ) * ((2 * n : ℕ) * (1 + 1 / 2 ^ 53) ^ (2 * n) * ((1 + (2 * n : ℕ) * (1 + 1 / 2 ^ 53) ^ (2 * n)) / 2 ^ 53) ^ n)) * M := by ring
  rw [this]
  refine mul_le_mul_of_nonneg_right ?_ hM0
  interval_cases n <;> norm_num

/-- **C45.** Negation is exact. -/
theorem C45_neg {x : List ℝ} (hx : ∀ a ∈ x, F.Rep a) : (negate x).length = x.length ∧ (∀ a ∈ negate x, F.Rep a) ∧ (negate x).sum = -x.sum := by
  refine ⟨by simp [negate], ?_, ?_⟩
  · intro a ha
    obtain ⟨b, hb, rfl⟩ := List.mem_map.mp ha
    exact (hx b hb).neg
  · induction x with
    | nil => simp [negate]
    | cons a x ih =>
      have := ih fun b hb => hx b (by simp [hb])
      simp only [negate, List.map_cons, List.sum_cons] at this ⊢
      rw [this]; ring

/-- **C45.** Subtraction: the same as addition. -/
theorem C45_sub (h : F.Rounds rn) {x y : List ℝ} (hl : x.length = y.length) (hx : ∀ a ∈ x, F.Rep a) (hy : ∀ a ∈ y, F.Rep a) :
    ∃ r tail, collangeSub rn x y = .ok r ∧ (sumState rn x (negate y)).map Sc.val = r ++ tail ∧ r.length = x.length ∧
      tail.length = x.length ∧ (∀ a ∈ r ++ tail, F.Rep a) ∧ r.sum + tail.sum = x.sum - y.sum := by
  obtain ⟨n1, n2, n3⟩ := C45_neg hy
  obtain ⟨r, tail, h1, h2, h3, h4, h5, h6⟩ := C45_add h (hl.trans n1.symm) hx n2
  exact ⟨r, tail, h1, h2, h3, h4, h5, by rw [h6, n3]; ring⟩

/-- **C45.** Subtraction: the error. -/
theorem C45_sub_error_double (h : double.Rounds rn) {x y r : List ℝ} {M : ℝ} (hl : x.length = y.length) (hn : x.length ≤ 4)
    (hx : ∀ a ∈ x, double.Rep a) (hy : ∀ a ∈ y, double.Rep a) (hr : collangeSub rn x y = .ok r) (hM : ∀ a ∈ x ++ y, |a| ≤ M) (hM0 : 0 ≤ M) :
    |x.sum - y.sum - r.sum| ≤ 2 ^ 18 / (2 ^ 53) ^ x.length * M := by
  obtain ⟨n1, n2, n3⟩ := C45_neg hy
  have := C45_add_error_double h (hl.trans n1.symm) hn hx n2 hr (fun a ha => by
    rw [List.mem_append] at ha
    rcases ha with ha | ha
    · exact hM a (by simp [ha])
    · obtain ⟨b, hb, rfl⟩ := List.mem_map.mp ha
      rw [abs_neg]; exact hM b (by simp [hb])) hM0
  rwa [n3, ← sub_eq_add_neg] at this

/-- A sum of two-component expansions that needs four components. -/
example : ∃ r tail : List ℝ, collangeAdd double.rne [(2 : ℝ) ^ (0 : ℤ), (2 : ℝ) ^ (-60 : ℤ)] [(2 : ℝ) ^ (-120 : ℤ), (2 : ℝ) ^ (-180 : ℤ)] = .ok r ∧
    r.length = 2 ∧ r.sum + tail.sum = (2 : ℝ) ^ (0 : ℤ) + (2 : ℝ) ^ (-60 : ℤ) + ((2 : ℝ) ^ (-120 : ℤ) + (2 : ℝ) ^ (-180 : ℤ)) := by
  obtain ⟨r, tail, h1, _, h3, _, _, h6⟩ := C45_add (rn := double.rne) double_rounds (x := [(2 : ℝ) ^ (0 : ℤ), (2 : ℝ) ^ (-60 : ℤ)])
    (y := [(2 : ℝ) ^ (-120 : ℤ), (2 : ℝ) ^ (-180 : ℤ)]) rfl
    (by intro a ha; fin_cases ha <;> exact double_pow (by norm_num)) (by intro a ha; fin_cases ha <;> exact double_pow (by norm_num))
  exact ⟨r, tail, h1, h3, by simpa using h6⟩

/-- **C45.** The exact sum of an expansion. -/
theorem map_exact {f g : ℝ → ℝ} {c : ℝ} (hg : ∀ a, g a = c * a) : ∀ {x : List ℝ}, (∀ a ∈ x, f a = g a) → (x.map f).sum = c * x.sum := by
  intro x
  induction x with
  | nil => intro _; simp
  | cons a x ih =>
    intro h
    simp only [List.map_cons, List.sum_cons]
    rw [ih fun b hb => h b (by simp [hb]), h a (by simp), hg]; ring

/-- **C45.** `ldexp` is exact upwards, and downwards as long as no bit falls below the smallest number. -/
theorem C45_ldexp (h : F.Rounds rn) {x : List ℝ} {e : ℤ} (hx : ∀ a ∈ x, F.Rep a) (he : 0 ≤ e ∨ ∀ a ∈ x, Mult (F.emin - e) a) :
    (ldexpExp rn x e).length = x.length ∧ (∀ a ∈ ldexpExp rn x e, F.Rep a) ∧ (ldexpExp rn x e).sum = x.sum * (2 : ℝ) ^ e := by
  have key : ∀ a ∈ x, F.Rep (a * (2 : ℝ) ^ e) := by
    intro a ha
    obtain ⟨m, k, hmk, hm, hk⟩ := hx a ha
    rcases he with he | he
    · exact ⟨m, k + e, by rw [hmk, zpow_add₀ (by norm_num)]; ring, hm, by omega⟩
    · by_cases hke : F.emin ≤ k + e
      · exact ⟨m, k + e, by rw [hmk, zpow_add₀ (by norm_num)]; ring, hm, hke⟩
      · obtain ⟨m', hm'⟩ := he a ha
        refine rep_of_mult (k := F.emin) ⟨m', ?_⟩ le_rfl ?_
        · rw [hm', mul_assoc, ← zpow_add₀ (by norm_num)]; congr 2; ring
        · rw [hmk, mul_assoc, ← zpow_add₀ (by norm_num), abs_mul, abs_of_pos (two_zpow_pos _)]
          have h1 : |(m : ℝ)| ≤ 2 ^ F.p := by exact_mod_cast hm
          exact mul_le_mul h1 (zpow_le_zpow_right₀ (by norm_num) (by omega)) (two_zpow_pos _).le (by positivity)
  refine ⟨by simp [ldexpExp], ?_, ?_⟩
  · intro a ha
    obtain ⟨b, hb, rfl⟩ := List.mem_map.mp ha
    exact (h _).1
  · rw [mul_comm]
    exact map_exact (fun a => mul_comm _ _) fun a ha => rounds_eq h (key a ha)

/-- **C45.** `twice` is exact, `half` is exact if no component has the smallest bit. -/
theorem C45_twice_half (h : F.Rounds rn) {x : List ℝ} (hx : ∀ a ∈ x, F.Rep a) :
    (twiceExp rn x).sum = 2 * x.sum ∧ ((∀ a ∈ x, Mult (F.emin + 1) a) → (halfExp rn x).sum = x.sum / 2) := by
  constructor
  · refine map_exact (g := fun a => 2 * a) (fun a => rfl) fun a ha => ?_
    rw [← two_mul]
    have := (hx a ha).twice
    exact rounds_eq h this
  · intro hm
    obtain ⟨_, _, h3⟩ := C45_ldexp h (e := -1) hx (Or.inr (by simpa using hm))
    have e : halfExp rn x = ldexpExp rn x (-1) := by
      simp only [halfExp, ldexpExp]
      refine List.map_congr_left fun a _ => ?_
      congr 1
      rw [zpow_neg_one]; ring
    rw [e, h3, zpow_neg_one]; ring

/-- **C45.** Multiplication: the exact product is the result plus what is left in the state plus what was dropped on the way. -/
theorem C45_mul (h : F.Rounds rn) {x y : List ℝ} (hl : x.length = y.length) (hu : ∀ b ∈ y, ∀ a ∈ x, NoUnderflow F a b) :
    ∃ r left dropped, collangeMul rn x y = .ok (r.map Sc.val) ∧ mulRounds rn x y (List.replicate x.length none) = (left, r, dropped) ∧
      left.length = x.length ∧ r.length = x.length ∧ (∀ a ∈ r.map Sc.val, F.Rep a) ∧
      (r.map Sc.val).sum + total left + total dropped = x.sum * y.sum := by
  rcases Nat.eq_zero_or_pos x.length with h0 | hpos
  · have hx : x = [] := List.length_eq_zero_iff.mp h0
    have hy : y = [] := List.length_eq_zero_iff.mp (hl ▸ h0)
    subst hx hy
    exact ⟨[], [], [], rfl, rfl, rfl, rfl, by simp, by simp⟩
  · have hrep : total (List.replicate x.length none) = 0 := total_none fun a ha => (List.mem_replicate.mp ha).2
    obtain ⟨h1, h2, h3, h4⟩ := mulRounds_spec h hpos y (List.replicate x.length none) (by simp) hu
      (fun a ha => by rw [(List.mem_replicate.mp ha).2]; exact Sc.ok_none)
    refine ⟨_, _, _, ?_, rfl, h1, h3.trans hl.symm, ?_, ?_⟩
    · simp only [collangeMul]
      rw [slowAssert_true hl]
      simp only [bok]
      rw [slowAssert_true (hl.trans h3.symm)]
      rfl
    · intro a ha
      obtain ⟨b, hb, rfl⟩ := List.mem_map.mp ha
      exact h2 b hb
    · rw [hrep] at h4
      unfold total at h4 ⊢
      linarith

/-- **C45.** Operands of different sizes are refused. -/
theorem C45_mul_assert {x y : List ℝ} (hl : x.length ≠ y.length) : collangeMul rn x y = .error .assertion := by
  simp only [collangeMul]
  rw [slowAssert_false hl]
  rfl

/-- **C45.** The two inner loops of the multiplication end by themselves: after as many rounds as there are components nothing is left to
add, and allowing more rounds changes nothing. -/
theorem C45_mul_loops {s e out : List Sc} (hl : s.length = e.length) :
    (∀ a ∈ (drain rn e.length s e out).2.1, a = none) ∧ ∀ fuel, e.length ≤ fuel → drain rn fuel s e out = drain rn e.length s e out :=
  ⟨drain_done e.length 0 s e out hl (by omega) (by simp), fun fuel hf => drain_stable hl fuel hf⟩

/-- **C45.** The error of the product: with `N = n (2n + 1)` additions per place, `κ = 1 + N (1+u)^N` and products of components bounded by
`P (κ u)^(i+j)`, it is at most `(2 n² + n N (1+u)^N) (1+u) P (κ u)^n`. -/
theorem C45_mul_error (hp : 1 ≤ F.p) (h : F.Rounds rn) {x y r : List ℝ} {P κ : ℝ} {N : ℕ} (hl : x.length = y.length)
    (hu : ∀ b ∈ y, ∀ a ∈ x, NoUnderflow F a b) (hr : collangeMul rn x y = .ok r) (hP : 0 ≤ P) (hN : N = x.length * (2 * x.length + 1))
    (hκ : κ = 1 + N * (1 + 1 / 2 ^ F.p) ^ N) (hρ : κ / 2 ^ F.p ≤ 1)
    (hb : ∀ i (hi : i < x.length) j (hj : j < y.length), |x[i] * y[j]| ≤ P * (κ / 2 ^ F.p) ^ (j + i)) :
    |x.sum * y.sum - r.sum| ≤
      (2 * x.length * x.length + x.length * (N * (1 + 1 / 2 ^ F.p) ^ N)) * ((1 + 1 / 2 ^ F.p) * P * (κ / 2 ^ F.p) ^ x.length) := by
  obtain ⟨r', left, dropped, h1, h2, h3, h4, _, h6⟩ := C45_mul h hl hu
  rw [hr] at h1
  obtain rfl : r = r'.map Sc.val := by simpa using h1
  rcases Nat.eq_zero_or_pos x.length with h0 | hpos
  · have hx : x = [] := List.length_eq_zero_iff.mp h0
    have hy : y = [] := List.length_eq_zero_iff.mp (hl ▸ h0)
    have hr' : r' = [] := List.length_eq_zero_iff.mp (h4.trans h0)
    subst hx hy hr'
    simp
  have hu0 := u_pos (F := F)
  have hue : κ / 2 ^ F.p = κ * F.u := by unfold Fmt.u; ring
  rw [hue] at hρ hb ⊢
  have hκ' : 1 + grow F N ≤ κ := by rw [hκ]; rfl
  have hκ0 : 0 ≤ κ := le_trans (by have := grow_nonneg (F := F) N; linarith) hκ'
  have hκu : 0 ≤ κ * F.u := by positivity
  have hB : 0 ≤ (1 + F.u) * P := by positivity
  obtain ⟨w1, w2, w3⟩ := mulRounds_within hp h hpos hP hκ' hρ y (List.replicate x.length none) 0 0 (by simp) hu
    (fun a ha => by rw [(List.mem_replicate.mp ha).2]; exact Sc.ok_none) (by rw [hN, ← hl]; omega)
    (fun i hi j hj => by rw [Nat.zero_add]; exact hb i hi j hj)
    (within_of_get _ _ fun i hi => by rw [List.getElem_replicate]; simp [Sc.val, grow])
  rw [h2] at w1 w2 w3
  have hg := grow_nonneg (F := F) N
  have e1 := w1.total_le (by positivity) hκu hρ
  have e2 := total_le_of_forall w2
  rw [Nat.zero_add, ← hl, h3] at e1
  have e3 : (1 + F.u) * P * (κ * F.u) ^ (0 + 1 + x.length) ≤ (1 + F.u) * P * (κ * F.u) ^ x.length :=
    mul_le_mul_of_nonneg_left (pow_le_pow_of_le_one hκu hρ (by omega)) hB
  have e4 : (dropped.length : ℝ) ≤ 2 * x.length * x.length := by rw [← hl] at w3; exact_mod_cast w3
  have e5 : (dropped.length : ℝ) * ((1 + F.u) * P * (κ * F.u) ^ (0 + 1 + x.length)) ≤
      2 * x.length * x.length * ((1 + F.u) * P * (κ * F.u) ^ x.length) := mul_le_mul e4 e3 (by positivity) (by positivity)
  have e6 : x.sum * y.sum - (r'.map Sc.val).sum = total left + total dropped := by linarith
  rw [e6]
  refine (abs_add_le _ _).trans ((add_le_add e1 (e2.trans e5)).trans (le_of_eq ?_))
  unfold grow Fmt.u
  ring

/-- **C45.** For `double` and at most four components: if the components fall off at least as `2^-52` per place, as the invariant of
`Expansion` asks, the product is right to `2^(29-53n)` of the product of the leading sizes. -/
theorem C45_mul_error_double (h : double.Rounds rn) {x y r : List ℝ} {X Y : ℝ} (hl : x.length = y.length) (hn : x.length ≤ 4)
    (hu : ∀ b ∈ y, ∀ a ∈ x, NoUnderflow double a b) (hr : collangeMul rn x y = .ok r) (hX : 0 ≤ X) (hY : 0 ≤ Y)
    (hx : ∀ i (hi : i < x.length), |x[i]| ≤ X * (1 / 2 ^ 52) ^ i) (hy : ∀ i (hi : i < y.length), |y[i]| ≤ Y * (1 / 2 ^ 52) ^ i) :
    |x.sum * y.sum - r.sum| ≤ 2 ^ 29 / (2 ^ 53) ^ x.length * (X * Y) := by
  have hp : double.p = 53 := rfl
  rcases Nat.eq_zero_or_pos x.length with h0 | hpos
  · obtain ⟨r', left, dropped, h1, _, h3, h4, _, h6⟩ := C45_mul h hl hu
    rw [hr] at h1
    obtain rfl : r = r'.map Sc.val := by simpa using h1
    have hx : x = [] := List.length_eq_zero_iff.mp h0
    have hy : y = [] := List.length_eq_zero_iff.mp (hl ▸ h0)
    have hr' : r' = [] := List.length_eq_zero_iff.mp (h4.trans h0)
    subst hx hy hr'
    simp only [List.sum_nil, List.map_nil, List.length_nil, pow_zero]
    norm_num
    positivity
  have key := C45_mul_error (P := X * Y) (N := x.length * (2 * x.length + 1))
    (κ := 1 + (x.length * (2 * x.length + 1) : ℕ) * (1 + 1 / 2 ^ double.p) ^ (x.length * (2 * x.length + 1))) (by norm_num [double]) h hl hu hr
    (by positivity) rfl rfl (by rw [hp]; clear hx hu hr; generalize x.length = n at *; interval_cases n <;> norm_num) (fun i hi j hj => by
      rw [abs_mul, pow_add]
      have h1 := mul_le_mul (hx i hi) (hy j hj) (abs_nonneg _) (by positivity)
      refine h1.trans ?_
      have hb : (1 : ℝ) / 2 ^ 52 ≤ (1 + (x.length * (2 * x.length + 1) : ℕ) * (1 + 1 / 2 ^ double.p) ^ (x.length * (2 * x.length + 1))) / 2 ^ double.p := by
        rw [hp]
        have hN : (1 : ℝ) ≤ (x.length * (2 * x.length + 1) : ℕ) := by
          have : 1 ≤ x.length * (2 * x.length + 1) := Nat.mul_pos hpos (by omega)
          exact_mod_cast this
        have h3 : (1 : ℝ) ≤ (1 + 1 / 2 ^ 53) ^ (x.length * (2 * x.length + 1)) := one_le_pow₀ (by norm_num)
        rw [div_le_div_iff₀ (by positivity) (by positivity)]
        nlinarith [mul_le_mul hN h3 (by norm_num) (by positivity)]
      have p1 := pow_le_pow_left₀ (by positivity) hb i
      have p2 := pow_le_pow_left₀ (by positivity) hb j
      calc X * (1 / 2 ^ 52) ^ i * (Y * (1 / 2 ^ 52) ^ j) = X * Y * ((1 / 2 ^ 52) ^ j * (1 / 2 ^ 52) ^ i) := by ring
        _ ≤ _ := mul_le_mul_of_nonneg_left (mul_le_mul p2 p1 (by positivity) (by positivity)) (by positivity))
  refine key.trans ?_
  rw [hp]
  have e : ∀ a b : ℝ, a * ((1 + 1 / 2 ^ 53) * (X * Y) * b) = a * ((1 + 1 / 2 ^ 53) * b) * (X * Y) := fun a b => by ring
  rw [e]
  refine mul_le_mul_of_nonneg_right ?_ (by positivity)
  clear key hx hu hr
  generalize x.length = n at *
  interval_cases n <;> norm_num

/-- A product of two-component expansions. -/
example : ∃ r : List ℝ, collangeMul double.rne [(2 : ℝ) ^ (0 : ℤ), (2 : ℝ) ^ (-60 : ℤ)] [(2 : ℝ) ^ (-3 : ℤ), (2 : ℝ) ^ (-70 : ℤ)] = .ok r ∧
    |((2 : ℝ) ^ (0 : ℤ) + (2 : ℝ) ^ (-60 : ℤ)) * ((2 : ℝ) ^ (-3 : ℤ) + (2 : ℝ) ^ (-70 : ℤ)) - r.sum| ≤ 2 ^ 29 / (2 ^ 53) ^ 2 * (1 * 1) := by
  have hu : ∀ b ∈ [(2 : ℝ) ^ (-3 : ℤ), (2 : ℝ) ^ (-70 : ℤ)], ∀ a ∈ [(2 : ℝ) ^ (0 : ℤ), (2 : ℝ) ^ (-60 : ℤ)], NoUnderflow double a b := by
    have key : ∀ j k : ℤ, -1074 ≤ j + k → NoUnderflow double ((2 : ℝ) ^ j) ((2 : ℝ) ^ k) := fun j k hjk =>
      ⟨1, 1, j, k, by simp, by simp, by norm_num [double], by norm_num [double], hjk⟩
    intro b hb a ha
    fin_cases hb <;> fin_cases ha <;> exact key _ _ (by norm_num)
  obtain ⟨r, left, dropped, h1, _⟩ := C45_mul (rn := double.rne) double_rounds (x := [(2 : ℝ) ^ (0 : ℤ), (2 : ℝ) ^ (-60 : ℤ)])
    (y := [(2 : ℝ) ^ (-3 : ℤ), (2 : ℝ) ^ (-70 : ℤ)]) rfl hu
  refine ⟨_, h1, ?_⟩
  have := C45_mul_error_double (x := [(2 : ℝ) ^ (0 : ℤ), (2 : ℝ) ^ (-60 : ℤ)])
    (y := [(2 : ℝ) ^ (-3 : ℤ), (2 : ℝ) ^ (-70 : ℤ)]) double_rounds rfl (by norm_num) hu h1 (X := 1) (Y := 1) (by norm_num) (by norm_num)
    (by intro i hi; simp only [List.length_cons, List.length_nil] at hi; interval_cases i <;> norm_num)
    (by intro i hi; simp only [List.length_cons, List.length_nil] at hi; interval_cases i <;> norm_num)
  simpa using this

/-! ## C46 -/

/-- A normalised expansion: every component is the rounding of what it and the later ones add up to. -/
def Normal (rn : ℝ → ℝ) : List ℝ → Prop
  | [] => True
  | a :: x => a = rn (a + x.sum) ∧ Normal rn x

/-- The components fall off by a unit in the last place, as /repo/expansion.h 34 asks, away from the subnormal range. -/
def Falls (F : Fmt) : List ℝ → Prop
  | [] => True
  | [_] => True
  | a :: b :: x => |b| ≤ 2 / 2 ^ F.p * |a| ∧ Falls F (b :: x)

/-- The sign of the value is the sign of the first component that is not zero. -/
def Leads : List ℝ → Prop
  | [] => True
  | a :: x => ((0 < a → 0 < a + x.sum) ∧ (a < 0 → a + x.sum < 0)) ∧ Leads x

theorem Normal.leads (h : F.Rounds rn) : ∀ {x : List ℝ}, Normal rn x → Leads x := by
  intro x
  induction x with
  | nil => intro _; trivial
  | cons a x ih =>
    intro hn
    refine ⟨⟨fun ha => ?_, fun ha => ?_⟩, ih hn.2⟩
    · by_contra hc
      have := (h (a + x.sum)).le rep_zero (not_lt.mp hc)
      rw [← hn.1] at this
      linarith
    · by_contra hc
      have := (h (a + x.sum)).ge rep_zero (not_lt.mp hc)
      rw [← hn.1] at this
      linarith

theorem Falls.sum_le (hp : 3 ≤ F.p) : ∀ {x : List ℝ} {a : ℝ}, Falls F (a :: x) → |x.sum| ≤ 1 / 2 * |a| := by
  have hq : (2 : ℝ) / 2 ^ F.p ≤ 1 / 4 := by
    rw [div_le_div_iff₀ (by positivity) (by norm_num)]
    have : (2 : ℝ) ^ 3 ≤ 2 ^ F.p := pow_le_pow_right₀ (by norm_num) hp
    linarith
  intro x
  induction x with
  | nil => intro a _; simp
  | cons b x ih =>
    intro a h
    have h1 := ih h.2
    have h2 : |b| ≤ 1 / 4 * |a| := h.1.trans (mul_le_mul_of_nonneg_right hq (abs_nonneg _))
    rw [List.sum_cons]
    refine (abs_add_le _ _).trans ?_
    linarith [abs_nonneg a]

theorem Falls.leads (hp : 3 ≤ F.p) : ∀ {x : List ℝ}, Falls F x → Leads x := by
  intro x
  induction x with
  | nil => intro _; trivial
  | cons a x ih =>
    intro h
    have hs := h.sum_le hp
    obtain ⟨h1, h2⟩ := abs_le.mp hs
    refine ⟨⟨fun ha => ?_, fun ha => ?_⟩, ih ?_⟩
    · rw [abs_of_pos ha] at h1; linarith
    · rw [abs_of_neg ha] at h2; linarith
    · cases x with
      | nil => trivial
      | cons b x => exact h.2

/-- **C46.** `sign` is the sign of the exact value. -/
theorem C46_sign : ∀ {x : List ℝ}, Leads x → sign x = if 0 < x.sum then 1 else if x.sum < 0 then -1 else 0 := by
  intro x
  induction x with
  | nil => intro _; simp [sign]
  | cons a x ih =>
    intro h
    rw [sign, List.sum_cons]
    rcases lt_trichotomy a 0 with ha | ha | ha
    · have := h.1.2 ha
      rw [if_pos ha.ne, if_neg (not_lt.mpr ha.le), if_neg (not_lt.mpr this.le), if_pos this]
    · rw [if_neg (by simpa using ha), ih h.2, ha, zero_add]
    · have := h.1.1 ha
      rw [if_pos ha.ne', if_pos ha, if_pos this]

/-- **C46.** On normalised expansions and on expansions that fall off, `sign` is the sign of the exact value. -/
theorem C46_sign_normal (h : F.Rounds rn) {x : List ℝ} (hx : Normal rn x ∨ 3 ≤ F.p ∧ Falls F x) :
    sign x = if 0 < x.sum then 1 else if x.sum < 0 then -1 else 0 :=
  C46_sign (hx.elim (fun hx => hx.leads h) fun hx => hx.2.leads hx.1)

theorem sum_map_mul (c : ℝ) (x : List ℝ) : (x.map fun a => c * a).sum = c * x.sum :=
  map_exact (f := fun a => c * a) (fun _ => rfl) fun _ _ => rfl

/-- **C46.** `abs` is the absolute value and has components of the format. -/
theorem C46_abs {x : List ℝ} (hx : Leads x) (hr : ∀ a ∈ x, F.Rep a) :
    (absExp x).sum = |x.sum| ∧ (absExp x).length = x.length ∧ ∀ a ∈ absExp x, F.Rep a := by
  refine ⟨?_, by simp [absExp], ?_⟩
  · rw [absExp, sum_map_mul, C46_sign hx]
    split
    · rename_i h; rw [abs_of_pos h]; simp
    · split
      · rename_i h; rw [abs_of_neg h]; push_cast; ring
      · rename_i h1 h2
        have : x.sum = 0 := le_antisymm (not_lt.mp h1) (not_lt.mp h2)
        rw [this]; simp
  · intro a ha
    obtain ⟨b, hb, rfl⟩ := List.mem_map.mp ha
    have h3 : sign x = 1 ∨ sign x = -1 ∨ sign x = 0 := by
      rw [C46_sign hx]
      split
      · exact Or.inl rfl
      · split
        · exact Or.inr (Or.inl rfl)
        · exact Or.inr (Or.inr rfl)
    rcases h3 with h3 | h3 | h3 <;> rw [h3]
    · simpa using hr b hb
    · simpa using (hr b hb).neg
    · simpa using rep_zero

/-- **C46.** `bool` is whether the value is zero. -/
theorem C46_bool : ∀ {x : List ℝ}, Leads x → (toBool x = true ↔ x.sum ≠ 0) := by
  intro x
  induction x with
  | nil => intro _; simp [toBool]
  | cons a x ih =>
    intro h
    have := ih h.2
    simp only [toBool, List.any_cons, Bool.or_eq_true, decide_eq_true_eq, List.sum_cons] at this ⊢
    rcases lt_trichotomy a 0 with ha | ha | ha
    · exact ⟨fun _ => (h.1.2 ha).ne, fun _ => Or.inl ha.ne⟩
    · rw [ha, zero_add, ← this]; simp
    · exact ⟨fun _ => (h.1.1 ha).ne', fun _ => Or.inl ha.ne'⟩

/-- **C46.** `==` of normalised expansions is equality of the values. -/
theorem C46_eq : ∀ {x y : List ℝ}, x.length = y.length → Normal rn x → Normal rn y → (eqExp x y = true ↔ x.sum = y.sum) := by
  intro x y hl hx hy
  simp only [eqExp, decide_eq_true_eq]
  refine ⟨fun h => by rw [h], ?_⟩
  induction x generalizing y with
  | nil => intro _; exact (List.length_eq_zero_iff.mp hl.symm).symm
  | cons a x ih =>
    intro h
    cases y with
    | nil => simp at hl
    | cons b y =>
      have hab : a = b := by
        rw [List.sum_cons, List.sum_cons] at h
        rw [hx.1, hy.1, h]
      subst hab
      rw [ih (by simpa using hl) hx.2 hy.2 (by simpa using h)]

/-- **C46.** `== a` for an `int` compares the values. -/
theorem C46_eq_int (h : F.Rounds rn) (hp : 32 ≤ F.p) (he : F.emin ≤ 0) {x : List ℝ} {a : ℤ} (ha : |a| ≤ 2 ^ 31) (hx : Normal rn x) (hne : x ≠ []) :
    eqInt x a = true ↔ x.sum = a := by
  obtain ⟨b, x, rfl⟩ := List.exists_cons_of_ne_nil hne
  have hrep : F.Rep (a : ℝ) := rep_int (ha.trans (pow_le_pow_right₀ (by norm_num) (by omega))) he
  simp only [eqInt, List.headD_cons, List.tail_cons, Bool.and_eq_true, List.all_eq_true, List.sum_cons, decide_eq_true_eq]
  constructor
  · rintro ⟨h1, h2⟩
    have : x.sum = 0 := List.sum_eq_zero h2
    rw [this, add_zero, of_decide_eq_true h1]
  · intro hs
    have hb : b = a := by
      have := hx.1
      rwa [hs, rounds_eq h hrep] at this
    refine ⟨decide_eq_true hb, ?_⟩
    have h0 : x.sum = 0 := by rw [hb] at hs; linarith
    have hb0 : ¬ toBool x = true := by
      rw [C46_bool (hx.2.leads h)]; simpa using h0
    intro c hc
    by_contra hne
    exact hb0 (List.any_eq_true.mpr ⟨c, hc, by simpa using hne⟩)

/-- **C46.** The conversion to `double` of a two-component expansion is a nearest number to the exact value. -/
theorem C46_to_double (h : F.Rounds rn) (a b : ℝ) : F.Nearest (a + b) (toDouble rn [a, b]) := by
  simp only [toDouble]
  rw [add_comm a b]
  exact h _

/-- **C46.** The invariant of /repo/expansion.h 34 alone does not make `==` equality of values: `1 + 2^-52` has two forms. -/
theorem C46_eq_witness : Falls double [1, 1 / 2 ^ 52] ∧ Falls double [1 + 1 / 2 ^ 52, 0] ∧ (∀ a ∈ [1, 1 / 2 ^ 52, 1 + 1 / 2 ^ 52, (0 : ℝ)], double.Rep a) ∧
    [1, (1 : ℝ) / 2 ^ 52].sum = [1 + (1 : ℝ) / 2 ^ 52, 0].sum ∧ eqExp [1, 1 / 2 ^ 52] [1 + 1 / 2 ^ 52, 0] = false := by
  have h52 : ((2 : ℝ) ^ (-52 : ℤ)) = 1 / 2 ^ 52 := by rw [zpow_neg]; norm_num
  refine ⟨⟨by norm_num [double], trivial⟩, ⟨by norm_num [double], trivial⟩, ?_, by norm_num, ?_⟩
  · intro a ha
    fin_cases ha
    · exact ⟨1, 0, by norm_num, by norm_num [double], by norm_num [double]⟩
    · exact ⟨1, -52, by rw [h52]; norm_num, by norm_num [double], by norm_num [double]⟩
    · exact ⟨2 ^ 52 + 1, -52, by rw [h52]; norm_num, by norm_num [double], by norm_num [double]⟩
    · exact rep_zero
  · simp only [eqExp, decide_eq_false_iff_not]
    intro h
    have := List.head_eq_of_cons_eq h
    norm_num at this

/-- **C46.** In the subnormal range the invariant, a unit in the last place per component, does not even give the sign: `2^-1074` and
`-2^-1074` add up to zero, whose sign is reported as `1`. -/
theorem C46_sign_witness : (∀ a ∈ [(2 : ℝ) ^ (-1074 : ℤ), -(2 : ℝ) ^ (-1074 : ℤ)], double.Rep a) ∧
    |-(2 : ℝ) ^ (-1074 : ℤ)| ≤ (2 : ℝ) ^ double.lastPlace ((2 : ℝ) ^ (-1074 : ℤ)) ∧
    [(2 : ℝ) ^ (-1074 : ℤ), -(2 : ℝ) ^ (-1074 : ℤ)].sum = 0 ∧ sign [(2 : ℝ) ^ (-1074 : ℤ), -(2 : ℝ) ^ (-1074 : ℤ)] = 1 ∧
    toBool [(2 : ℝ) ^ (-1074 : ℤ), -(2 : ℝ) ^ (-1074 : ℤ)] = true := by
  have hpos := two_zpow_pos (-1074)
  refine ⟨?_, ?_, by simp, ?_, ?_⟩
  · intro a ha
    fin_cases ha
    · exact double_pow le_rfl
    · exact (double_pow le_rfl).neg
  · rw [abs_neg, abs_of_pos hpos]
    exact zpow_le_zpow_right₀ (by norm_num) (le_max_left _ _)
  · rw [sign, if_pos hpos.ne', if_pos hpos]
  · simp [toBool]

theorem int_near (h : double.Rounds rn) {a : ℤ} (ha : |a| ≤ 2 ^ 63) : ∃ m : ℤ, rn a = m ∧ |a - m| ≤ 512 := by
  have hm : Mult 0 (a : ℝ) := ⟨a, by simp⟩
  obtain ⟨m, hm⟩ := (h (a : ℝ)).mult (by norm_num [double]) hm
  rw [zpow_zero, mul_one] at hm
  refine ⟨m, hm, ?_⟩
  obtain ⟨a1, a2⟩ := abs_le.mp ha
  have hc : double.Rep ((((a + 512) / 1024 : ℤ) : ℝ) * (2 : ℝ) ^ (10 : ℤ)) := by
    refine ⟨_, 10, rfl, ?_, by norm_num [double]⟩
    show _ ≤ (2 : ℤ) ^ 53
    rw [abs_le]; constructor <;> omega
  have h1 := (h (a : ℝ)).2 _ hc
  rw [hm] at h1
  have h2 : |(a : ℝ) - (((a + 512) / 1024 : ℤ) : ℝ) * (2 : ℝ) ^ (10 : ℤ)| ≤ 512 := by
    have : |a - (a + 512) / 1024 * 1024| ≤ 512 := by rw [abs_le]; constructor <;> omega
    have h3 : ((|a - (a + 512) / 1024 * 1024| : ℤ) : ℝ) ≤ ((512 : ℤ) : ℝ) := by exact_mod_cast this
    rw [show (2 : ℝ) ^ (10 : ℤ) = 1024 by norm_num]
    rw [Int.cast_abs, Int.cast_sub, Int.cast_mul] at h3
    exact h3
  have h3 := h1.trans h2
  exact_mod_cast h3

theorem normal_zero (h : F.Rounds rn) : ∀ k, Normal rn (List.replicate k 0) := by
  intro k
  induction k with
  | zero => trivial
  | succ k ih => exact ⟨by simp [rounds_eq h rep_zero], ih⟩

/-- **C46.** Every 64-bit integer that does not round to `2^63` is represented exactly and normalised. -/
theorem C46_int64 (h : double.Rounds rn) {n : ℕ} (hn : 2 ≤ n) {a : ℤ} (h1 : -2 ^ 63 ≤ a) (h2 : a < 2 ^ 63 - 512) :
    ∃ x, ofInt64 rn n a = .ok x ∧ x.length = n ∧ (∀ c ∈ x, double.Rep c) ∧ x.sum = a ∧ Normal rn x := by
  obtain ⟨m, hm, hd⟩ := int_near h (a := a) (abs_le.mpr ⟨h1, by omega⟩)
  obtain ⟨d1, d2⟩ := abs_le.mp hd
  have hlow : -2 ^ 63 ≤ m := by
    have hr : double.Rep (-(2 : ℝ) ^ (63 : ℤ)) := (double_pow (by norm_num)).neg
    have := (h (a : ℝ)).ge hr (by
      have : ((-2 ^ 63 : ℤ) : ℝ) ≤ (a : ℝ) := by exact_mod_cast h1
      push_cast at this
      exact_mod_cast this)
    rw [hm] at this
    exact_mod_cast this
  have hdr : double.Rep ((a - m : ℤ) : ℝ) := ⟨a - m, 0, by simp, hd.trans (by norm_num [double]), by norm_num [double]⟩
  have hsum : (m : ℝ) + (((a - m : ℤ) : ℝ) + (List.replicate (n - 2) (0 : ℝ)).sum) = a := by
    rw [List.sum_replicate]; push_cast; simp
  refine ⟨(m : ℝ) :: ((a - m : ℤ) : ℝ) :: List.replicate (n - 2) 0, ?_, ?_, ?_, ?_, ?_⟩
  · simp only [ofInt64, hm, Int.floor_intCast]
    rw [if_pos ⟨hlow, by omega⟩, if_pos ⟨by omega, by omega⟩, rounds_eq h hdr]
  · simp only [List.length_cons, List.length_replicate]; omega
  · intro c hc
    simp only [List.mem_cons] at hc
    rcases hc with rfl | rfl | hc
    · rw [← hm]; exact (h _).1
    · exact hdr
    · rw [(List.mem_replicate.mp hc).2]; exact rep_zero
  · rw [List.sum_cons, List.sum_cons]; exact hsum
  · refine ⟨?_, ?_, normal_zero h _⟩
    · rw [List.sum_cons, hsum, hm]
    · rw [List.sum_replicate, smul_zero, add_zero, rounds_eq h hdr]

/-- **C46.** For the largest integers the conversion back from `double` is undefined. -/
theorem C46_int64_ub (h : double.Rounds rn) {n : ℕ} {a : ℤ} (h1 : 2 ^ 63 - 512 < a) (h2 : a < 2 ^ 63) : ofInt64 rn n a = .error .ub := by
  obtain ⟨m, hm, _⟩ := int_near h (a := a) (abs_le.mpr ⟨by omega, by omega⟩)
  have h3 := (h (a : ℝ)).2 _ (double_pow (k := 63) (by norm_num))
  rw [hm, show (2 : ℝ) ^ (63 : ℤ) = ((2 ^ 63 : ℤ) : ℝ) by push_cast; norm_cast] at h3
  have h4 : |a - m| ≤ |a - 2 ^ 63| := by exact_mod_cast h3
  rw [abs_of_neg (show a - 2 ^ 63 < 0 by omega)] at h4
  obtain ⟨h5, h6⟩ := abs_le.mp h4
  have hge : 2 ^ 63 ≤ m := by
    by_contra hc
    obtain ⟨q, e, hq, hqa, he⟩ := (h (a : ℝ)).1
    rw [hm] at hq
    by_cases h10 : 10 ≤ e
    · obtain ⟨t, ht⟩ := Mult.mono (⟨q, hq⟩ : Mult e (m : ℝ)) h10
      have : m = t * 1024 := by
        rw [show (2 : ℝ) ^ (10 : ℤ) = 1024 by norm_num] at ht
        exact_mod_cast ht
      omega
    · have hb : |(m : ℝ)| ≤ 2 ^ 53 * (2 : ℝ) ^ (9 : ℤ) := by
        rw [hq, abs_mul, abs_of_pos (two_zpow_pos _)]
        have : |(q : ℝ)| ≤ 2 ^ 53 := by exact_mod_cast hqa
        exact mul_le_mul this (zpow_le_zpow_right₀ (by norm_num) (by omega)) (two_zpow_pos _).le (by positivity)
      rw [show (2 : ℝ) ^ 53 * (2 : ℝ) ^ (9 : ℤ) = ((2 ^ 62 : ℤ) : ℝ) by norm_num] at hb
      have hb' : |m| ≤ 2 ^ 62 := by exact_mod_cast hb
      obtain ⟨_, h8⟩ := abs_le.mp hb'
      omega
  simp only [ofInt64, hm, Int.floor_intCast]
  rw [if_neg (by omega)]

/-- The largest `int64_t` is not converted, one with 60 bits is. -/
example : ofInt64 double.rne 2 (2 ^ 63 - 1) = .error .ub := C46_int64_ub double_rounds (by norm_num) (by norm_num)

example : ∃ x, ofInt64 double.rne 2 (2 ^ 60 + 12345) = .ok x ∧ x.sum = ((2 ^ 60 + 12345 : ℤ) : ℝ) := by
  obtain ⟨x, h1, _, _, h2, _⟩ := C46_int64 double_rounds (n := 2) (by norm_num) (a := 2 ^ 60 + 12345) (by norm_num) (by norm_num)
  exact ⟨x, h1, h2⟩

/-- A normalised expansion whose value needs two components. -/
example : ∃ x, Normal double.rne x ∧ x.length = 2 ∧ sign x = 1 ∧ toBool x = true ∧ ¬ double.Rep x.sum := by
  obtain ⟨x, _, h1, _, h2, h3⟩ := C46_int64 double_rounds (n := 2) (by norm_num) (a := 2 ^ 60 + 1) (by norm_num) (by norm_num)
  refine ⟨x, h3, h1, ?_, ?_, ?_⟩
  · rw [C46_sign_normal double_rounds (Or.inl h3), h2, if_pos (by norm_num)]
  · rw [C46_bool (h3.leads double_rounds), h2]; norm_num
  · rw [h2]
    rintro ⟨m, e, h4, h5, _⟩
    by_cases he : 1 ≤ e
    · obtain ⟨t, ht⟩ := Mult.mono (⟨m, h4⟩ : Mult e (((2 ^ 60 + 1 : ℤ)) : ℝ)) he
      rw [show (2 : ℝ) ^ (1 : ℤ) = 2 by norm_num] at ht
      have : (2 ^ 60 + 1 : ℤ) = t * 2 := by exact_mod_cast ht
      omega
    · have hb : |((2 ^ 60 + 1 : ℤ) : ℝ)| ≤ 2 ^ 53 * (2 : ℝ) ^ (0 : ℤ) := by
        rw [h4, abs_mul, abs_of_pos (two_zpow_pos _)]
        have : |(m : ℝ)| ≤ 2 ^ 53 := by exact_mod_cast h5
        exact mul_le_mul this (zpow_le_zpow_right₀ (by norm_num) (by omega)) (two_zpow_pos _).le (by positivity)
      norm_num at hb

end Mandelbrot.Float
