import Verif.Float.Random
import Verif.Props.Float

/-!
# C74: random expansions are valid expansions
-/

namespace Mandelbrot.Props
open Mandelbrot.Float

namespace Rnd

/-- The last place of a nonzero `double` that is not subnormal: the distance to the next larger one. -/
noncomputable def place (a : ℝ) : ℝ := (2 : ℝ) ^ (Int.log 2 |a| - 52)

/-- No component is zero and each is at most one unit in the last place of the one before it. -/
def Valid : List ℝ → Prop
  | [] => True
  | [a] => a ≠ 0
  | a :: b :: x => a ≠ 0 ∧ |b| ≤ place a ∧ Valid (b :: x)

end Rnd
open Rnd

variable {rn : ℝ → ℝ}

/-- **C74.** `exponent` is the one exponent that leaves a factor from a half to one. -/
theorem C74_exponent {a : ℝ} (ha : a ≠ 0) (e : ℤ) : exponent a = e ↔ ∃ m : ℝ, a = m * (2 : ℝ) ^ e ∧ 1 / 2 ≤ |m| ∧ |m| < 1 := by
  have hl1 : (2 : ℝ) ^ Int.log 2 |a| ≤ |a| := by exact_mod_cast Int.zpow_log_le_self (b := 2) (by norm_num) (abs_pos.mpr ha)
  have hl2 : |a| < (2 : ℝ) ^ (Int.log 2 |a| + 1) := by exact_mod_cast Int.lt_zpow_succ_log_self (b := 2) (by norm_num) |a|
  unfold exponent
  rw [if_neg ha]
  constructor
  · rintro rfl
    have hp := two_zpow_pos (Int.log 2 |a| + 1)
    refine ⟨a / (2 : ℝ) ^ (Int.log 2 |a| + 1), (div_mul_cancel₀ _ hp.ne').symm, ?_, ?_⟩
    · rw [abs_div, abs_of_pos hp, le_div_iff₀ hp, zpow_add₀ (by norm_num), zpow_one]
      linarith
    · rw [abs_div, abs_of_pos hp, div_lt_one hp]
      exact hl2
  · rintro ⟨m, rfl, h1, h2⟩
    have hp := two_zpow_pos e
    rw [abs_mul, abs_of_pos hp] at hl1 hl2 ⊢
    have a1 : (2 : ℝ) ^ Int.log 2 (|m| * (2 : ℝ) ^ e) < (2 : ℝ) ^ e := hl1.trans_lt (mul_lt_of_lt_one_left hp h2)
    have a2 : (2 : ℝ) ^ (e - 1) < (2 : ℝ) ^ (Int.log 2 (|m| * (2 : ℝ) ^ e) + 1) := by
      refine lt_of_le_of_lt ?_ hl2
      rw [zpow_sub₀ (by norm_num), zpow_one, div_eq_inv_mul]
      exact mul_le_mul_of_nonneg_right (by norm_num at h1 ⊢; exact h1) hp.le
    have b1 := (zpow_lt_zpow_iff_right₀ (by norm_num : (1 : ℝ) < 2)).mp a1
    have b2 := (zpow_lt_zpow_iff_right₀ (by norm_num : (1 : ℝ) < 2)).mp a2
    omega

/-- The exponent of -6 is 3: `-6 = -(3/4) 2^3`. -/
example : exponent (-6) = 3 := (C74_exponent (by norm_num) 3).mpr ⟨-(3 / 4), by norm_num, by rw [abs_neg]; norm_num [abs_of_pos],
  by rw [abs_neg]; norm_num [abs_of_pos]⟩

theorem rnd_place_le {a : ℝ} (ha : a ≠ 0) : place a ≤ 2 / 2 ^ double.p * |a| := by
  have hl := Int.zpow_log_le_self (b := 2) (by norm_num) (abs_pos.mpr ha)
  have : (2 : ℝ) ^ (Int.log 2 |a| - 52) = 2 / 2 ^ 53 * (2 : ℝ) ^ Int.log 2 |a| := by
    rw [zpow_sub₀ (by norm_num)]; norm_num; ring
  unfold place
  rw [this, show double.p = 53 from rfl]
  exact mul_le_mul_of_nonneg_left (by exact_mod_cast hl) (by positivity)

/-- **C74.** Validity is the condition under which sign, absolute value and conversion to `bool` are right. -/
theorem C74_valid_falls : ∀ {x : List ℝ}, Valid x → Falls double x
  | [], _ => trivial
  | [_], _ => trivial
  | _ :: _ :: _, h => ⟨h.2.1.trans (rnd_place_le h.1), C74_valid_falls h.2.2⟩

theorem rnd_exact (h : double.Rounds rn) {u : ℝ} {e : ℤ} {k : ℕ} (hr : double.Rep u) (h0 : (2 : ℝ) ^ (-(k : ℤ)) ≤ |u|)
    (he : (k : ℤ) + 53 ≤ e + 1074) : rn (u * (2 : ℝ) ^ e) = u * (2 : ℝ) ^ e := by
  obtain ⟨j, _, hm, hb⟩ := hr.mult
  have hj : -(k : ℤ) ≤ 53 + j := by
    have h1 := h0.trans hb
    rw [show double.p = 53 from rfl, ← zpow_natCast, ← zpow_add₀ (by norm_num)] at h1
    exact (zpow_le_zpow_iff_right₀ (by norm_num)).mp h1
  refine rounds_eq h (rep_of_mult (k := j + e) ?_ (by show (-1074 : ℤ) ≤ _; omega) ?_)
  · obtain ⟨m, rfl⟩ := hm
    exact ⟨m, by rw [zpow_add₀ (by norm_num)]; ring⟩
  · rw [abs_mul, abs_of_pos (two_zpow_pos e), zpow_add₀ (by norm_num), ← mul_assoc]
    exact mul_le_mul_of_nonneg_right hb (two_zpow_pos e).le

/-- **C74.** Draws of at most one in size and not smaller than `2^-k` give a valid expansion: as many components as draws, all of them
`double`s, the first one exactly its draw times `2^e`, none zero, each at most a unit in the last place of the one before.  The
condition on the exponent keeps the last component out of the subnormal range. -/
theorem C74_random (h : double.Rounds rn) {k : ℕ} : ∀ {us : List ℝ} {e : ℤ},
    (∀ u ∈ us, double.Rep u ∧ |u| ≤ 1 ∧ (2 : ℝ) ^ (-(k : ℤ)) ≤ |u|) → (us.length : ℤ) * (k + 52) + 1 ≤ e + 1074 →
    (randomWithExponent rn us e).length = us.length ∧ Valid (randomWithExponent rn us e) ∧
      (∀ a ∈ randomWithExponent rn us e, double.Rep a ∧ |a| ≤ (2 : ℝ) ^ e) ∧
      (randomWithExponent rn us e).head? = us.head?.map (· * (2 : ℝ) ^ e) := by
  intro us
  induction us with
  | nil => intro e _ _; exact ⟨rfl, trivial, by simp [randomWithExponent], rfl⟩
  | cons u us ih =>
    intro e hu he
    obtain ⟨hr, h1, h0⟩ := hu u (by simp)
    simp only [List.length_cons] at he
    push_cast at he
    have hlen : (0 : ℤ) ≤ (us.length : ℤ) * (k + 52) := by positivity
    have hx := rnd_exact h (e := e) hr h0 (by nlinarith)
    have hrep : double.Rep (u * (2 : ℝ) ^ e) := by rw [← hx]; exact (h _).1
    have hu0 : 0 < |u| := (two_zpow_pos _).trans_le h0
    have ha : u * (2 : ℝ) ^ e ≠ 0 := mul_ne_zero (abs_pos.mp hu0) (two_zpow_pos e).ne'
    have habs : |u * (2 : ℝ) ^ e| = |u| * (2 : ℝ) ^ e := by rw [abs_mul, abs_of_pos (two_zpow_pos e)]
    have hle : |u * (2 : ℝ) ^ e| ≤ (2 : ℝ) ^ e := by
      rw [habs]; exact mul_le_of_le_one_left (two_zpow_pos e).le h1
    have hlog : e - k ≤ Int.log 2 |u * (2 : ℝ) ^ e| := by
      rw [← Int.zpow_le_iff_le_log (by norm_num) (abs_pos.mpr ha), habs]
      push_cast
      rw [show e - (k : ℤ) = -(k : ℤ) + e by ring, zpow_add₀ (by norm_num)]
      exact mul_le_mul_of_nonneg_right h0 (two_zpow_pos e).le
    have hlog2 : Int.log 2 |u * (2 : ℝ) ^ e| ≤ e := by
      by_contra hc
      have h2 : (2 : ℝ) ^ (e + 1) ≤ |u * (2 : ℝ) ^ e| := by
        have := (Int.zpow_le_iff_le_log (b := 2) (R := ℝ) (by norm_num) (abs_pos.mpr ha)).mpr (show e + 1 ≤ _ by omega)
        exact_mod_cast this
      have h3 := h2.trans hle
      have := (zpow_le_zpow_iff_right₀ (by norm_num : (1 : ℝ) < 2)).mp h3
      omega
    obtain ⟨i1, i2, i3, i4⟩ := ih (e := exponent (u * (2 : ℝ) ^ e) - 52 - 1) (fun v hv => hu v (by simp [hv])) (by
      unfold exponent
      rw [if_neg ha]
      nlinarith)
    have hexp : exponent (u * (2 : ℝ) ^ e) - 52 - 1 = Int.log 2 |u * (2 : ℝ) ^ e| - 52 := by
      unfold exponent; rw [if_neg ha]; ring
    have hun : randomWithExponent rn (u :: us) e =
        u * (2 : ℝ) ^ e :: randomWithExponent rn us (exponent (u * (2 : ℝ) ^ e) - 52 - 1) := by
      simp only [randomWithExponent, hx]
    rw [hun]
    rw [hexp] at i1 i2 i3 i4 ⊢
    refine ⟨congrArg (· + 1) i1, ?_, ?_, rfl⟩
    · cases hq : randomWithExponent rn us (Int.log 2 |u * (2 : ℝ) ^ e| - 52) with
      | nil => exact ha
      | cons b x =>
        rw [hq] at i2 i3
        exact ⟨ha, (i3 b (by simp)).2, i2⟩
    · intro a hm
      rcases List.mem_cons.mp hm with rfl | hm
      · exact ⟨hrep, hle⟩
      · refine ⟨(i3 a hm).1, (i3 a hm).2.trans (zpow_le_zpow_right₀ (by norm_num) (by omega))⟩

/-- **C74.** `random_expansion` for up to four components.  The draws of the standard library are multiples of `2^-53`, so those that
are not zero are not smaller than that; the exponent is from -20 to 20. -/
theorem C74_random_expansion (h : double.Rounds rn) {us : List ℝ} {e : ℤ} (hn : us.length ≤ 4) (he : -20 ≤ e)
    (hu : ∀ u ∈ us, double.Rep u ∧ |u| ≤ 1 ∧ (2 : ℝ) ^ (-53 : ℤ) ≤ |u|) :
    (randomExpansion rn e us).length = us.length ∧ Valid (randomExpansion rn e us) ∧
      (∀ a ∈ randomExpansion rn e us, double.Rep a ∧ |a| ≤ (2 : ℝ) ^ e) ∧ sign (randomExpansion rn e us) = sign (us.take 1) := by
  have key := C74_random h (k := 53) (us := us) (e := e) (by exact_mod_cast hu) (by
    have : (us.length : ℤ) ≤ 4 := by exact_mod_cast hn
    push_cast; nlinarith)
  refine ⟨key.1, key.2.1, key.2.2.1, ?_⟩
  cases us with
  | nil => rfl
  | cons u us =>
    have hu0 : u ≠ 0 := abs_pos.mp ((two_zpow_pos _).trans_le (hu u (by simp)).2.2)
    have h4 := key.2.2.2
    unfold randomExpansion
    cases hq : randomWithExponent rn (u :: us) e with
    | nil => rw [hq] at h4; simp at h4
    | cons a x =>
      rw [hq] at h4
      simp only [List.head?_cons, Option.map_some, Option.some.injEq] at h4
      have ha : a ≠ 0 := by rw [h4]; exact mul_ne_zero hu0 (two_zpow_pos e).ne'
      simp only [List.take_succ_cons, List.take_zero, sign, if_pos ha, if_pos hu0]
      rw [h4]
      by_cases hp : 0 < u
      · rw [if_pos hp, if_pos (mul_pos hp (two_zpow_pos e))]
      · rw [if_neg hp, if_neg (by
          have : u < 0 := lt_of_le_of_ne (not_lt.mp hp) hu0
          exact not_lt.mpr (mul_neg_of_neg_of_pos this (two_zpow_pos e)).le)]

/-- **C74.** A draw of exactly zero gives an expansion that is not valid: the component is zero and the next one is not, because the
exponent of zero is zero. -/
theorem C74_zero_witness (h : double.Rounds rn) (e : ℤ) :
    randomWithExponent rn [0, 1 / 2] e = [0, (2 : ℝ) ^ (-54 : ℤ)] ∧ ¬Falls double (randomWithExponent rn [0, 1 / 2] e) := by
  have h0 : rn (0 * (2 : ℝ) ^ e) = 0 := by rw [zero_mul]; exact rounds_eq h rep_zero
  have h2 : (1 : ℝ) / 2 * (2 : ℝ) ^ (-53 : ℤ) = (2 : ℝ) ^ (-54 : ℤ) := by norm_num
  have h1 : rn (1 / 2 * (2 : ℝ) ^ (-53 : ℤ)) = (2 : ℝ) ^ (-54 : ℤ) := by
    rw [h2]
    exact rounds_eq h ⟨1, -54, by simp, by norm_num [double], by norm_num [double]⟩
  have he : randomWithExponent rn [0, 1 / 2] e = [0, (2 : ℝ) ^ (-54 : ℤ)] := by
    simp only [randomWithExponent, h0, exponent, if_true, show (0 : ℤ) - 52 - 1 = -53 by norm_num, h1]
  refine ⟨he, ?_⟩
  rw [he]
  rintro ⟨h3, _⟩
  rw [abs_zero, mul_zero] at h3
  exact absurd h3 (not_le.mpr (abs_pos.mpr (two_zpow_pos _).ne'))

theorem rnd_sum_le : ∀ {x : List ℝ} {B : ℝ}, 0 ≤ B → Valid x → (∀ a ∈ x, |a| ≤ B) → |x.sum| ≤ 3 / 2 * B
  | [], B, h0, _, _ => by simpa using h0
  | a :: x, B, _, hv, hB => by
    have h1 := (C74_valid_falls hv).sum_le (by norm_num [double])
    have h2 := hB a (by simp)
    rw [List.sum_cons]
    refine (abs_add_le _ _).trans ?_
    linarith

/-- **C74.** `random_expansion_near` succeeds, and the value of its result is that of `x` or of `-x`, as the bit says, up to `3 2^-d`
times the first component and the error of the sum. -/
theorem C74_near (h : double.Rounds rn) {k : ℕ} {x us : List ℝ} {d : ℤ} {b : Bool} (hl : us.length = x.length) (hn : x.length ≤ 4)
    (h0 : x.headD 0 ≠ 0) (hx : ∀ a ∈ x, double.Rep a ∧ |a| ≤ |x.headD 0|) (hd : 1 ≤ d)
    (hu : ∀ u ∈ us, double.Rep u ∧ |u| ≤ 1 ∧ (2 : ℝ) ^ (-(k : ℤ)) ≤ |u|)
    (he : (us.length : ℤ) * (k + 52) + 1 ≤ Int.log 2 |x.headD 0| + 1 - d + 1074) :
    ∃ r, randomNear rn x d b us = .ok r ∧ r.length = x.length ∧ (∀ a ∈ r, double.Rep a) ∧
      |r.sum - (if b then x.sum else -x.sum)| ≤ (3 * (2 : ℝ) ^ (-d) + 2 ^ 18 / (2 ^ 53) ^ x.length) * |x.headD 0| := by
  set a0 := x.headD 0 with ha0
  have hexp : exponent a0 - d = Int.log 2 |a0| + 1 - d := by unfold exponent; rw [if_neg h0]
  obtain ⟨q1, q2, q3, _⟩ := C74_random h hu he
  set y := randomWithExponent rn us (Int.log 2 |a0| + 1 - d) with hy
  set z := if b then x else negate x with hz
  have hneg := C45_neg (F := double) (x := x) fun a ha => (hx a ha).1
  have hzl : z.length = y.length := by
    rw [hz, q1, hl]; cases b
    · exact hneg.1
    · rfl
  have hzr : ∀ a ∈ z, double.Rep a := by
    rw [hz]; cases b
    · exact hneg.2.1
    · exact fun a ha => (hx a ha).1
  have hzs : z.sum = if b then x.sum else -x.sum := by
    rw [hz]; cases b
    · exact hneg.2.2
    · rfl
  have hzb : ∀ a ∈ z, |a| ≤ |a0| := by
    rw [hz]; cases b
    · intro a ha
      obtain ⟨c, hc, rfl⟩ := List.mem_map.mp ha
      rw [abs_neg]; exact (hx c hc).2
    · exact fun a ha => (hx a ha).2
  have hpow : (2 : ℝ) ^ (Int.log 2 |a0| + 1 - d) ≤ 2 * (2 : ℝ) ^ (-d) * |a0| := by
    have hlog := Int.zpow_log_le_self (b := 2) (by norm_num) (abs_pos.mpr h0)
    have hlog' : (2 : ℝ) ^ Int.log 2 |a0| ≤ |a0| := by exact_mod_cast hlog
    rw [show Int.log 2 |a0| + 1 - d = 1 + -d + Int.log 2 |a0| by ring, zpow_add₀ (by norm_num), zpow_add₀ (by norm_num), zpow_one]
    exact mul_le_mul_of_nonneg_left hlog' (mul_pos two_pos (two_zpow_pos (-d))).le
  have hd2 : 2 * (2 : ℝ) ^ (-d) ≤ 1 := by
    have : (2 : ℝ) ^ (-d) ≤ (2 : ℝ) ^ (-1 : ℤ) := zpow_le_zpow_right₀ (by norm_num) (by omega)
    have h2 : (2 : ℝ) ^ (-1 : ℤ) = 1 / 2 := by norm_num
    rw [h2] at this
    generalize (2 : ℝ) ^ (-d) = t at this ⊢
    linarith
  have hyb : ∀ a ∈ y, |a| ≤ |a0| := fun a ha =>
    (q3 a ha).2.trans (hpow.trans (mul_le_of_le_one_left (abs_nonneg _) hd2))
  obtain ⟨r, tail, e1, _, e3, _, e5, _⟩ := C45_add h hzl hzr fun a ha => (q3 a ha).1
  have hlen : z.length = x.length := by rw [hzl, q1, hl]
  have herr := C45_add_error_double h hzl (by rw [hlen]; exact hn) hzr (fun a ha => (q3 a ha).1) e1 (M := |a0|) (fun a ha => by
    rcases List.mem_append.mp ha with ha | ha
    · exact hzb a ha
    · exact hyb a ha) (abs_nonneg _)
  refine ⟨r, ?_, by rw [e3, hlen], fun a ha => e5 a (by simp [ha]), ?_⟩
  · unfold randomNear
    simp only [← ha0, hexp]
    exact e1
  · rw [← hzs]
    have hys := rnd_sum_le (two_zpow_pos _).le q2 fun a ha => (q3 a ha).2
    rw [hlen] at herr
    have h1 : |r.sum - z.sum| ≤ |y.sum| + |z.sum + y.sum - r.sum| := by
      rw [show r.sum - z.sum = y.sum - (z.sum + y.sum - r.sum) by ring]
      exact abs_sub _ _
    have h2 : |y.sum| ≤ 3 * (2 : ℝ) ^ (-d) * |a0| := by
      refine hys.trans ((mul_le_mul_of_nonneg_left hpow (by norm_num)).trans (le_of_eq ?_))
      ring
    rw [add_mul]
    exact h1.trans (add_le_add h2 herr)

/-- Three draws: the components are a half, then a quarter of a last place, and so on. -/
example (h : double.Rounds rn) : ∃ x, randomExpansion rn 3 [1 / 2, -(1 / 4), 1] = x ∧ x.length = 3 ∧ Valid x ∧ x.head? = some 4 ∧ sign x = 1 := by
  have hr : ∀ u ∈ [(1 : ℝ) / 2, -(1 / 4), 1], double.Rep u ∧ |u| ≤ 1 ∧ (2 : ℝ) ^ (-53 : ℤ) ≤ |u| := by
    intro u hu
    simp only [List.mem_cons, List.not_mem_nil, or_false] at hu
    rcases hu with rfl | rfl | rfl
    · exact ⟨⟨1, -1, by norm_num, by norm_num [double], by norm_num [double]⟩, by norm_num [abs_of_pos], by norm_num [abs_of_pos]⟩
    · exact ⟨⟨-1, -2, by norm_num, by norm_num [double], by norm_num [double]⟩, by rw [abs_neg]; norm_num [abs_of_pos],
        by rw [abs_neg]; norm_num [abs_of_pos]⟩
    · exact ⟨⟨1, 0, by norm_num, by norm_num [double], by norm_num [double]⟩, by norm_num, by norm_num⟩
  obtain ⟨a1, a2, _, a4⟩ := C74_random_expansion h (e := 3) (by simp) (by norm_num) hr
  have h4 := (C74_random h (k := 53) (us := [(1 : ℝ) / 2, -(1 / 4), 1]) (e := 3) (by exact_mod_cast hr) (by norm_num)).2.2.2
  refine ⟨_, rfl, a1, a2, ?_, ?_⟩
  · unfold randomExpansion
    rw [h4]; norm_num
  · rw [a4]; norm_num [sign]

/-- Near one: the draw is scaled by `2^(1-5)`. -/
example (h : double.Rounds rn) : ∃ r, randomNear rn [1, 0] 5 false [1 / 2, 1 / 2] = .ok r ∧ |r.sum + 1| ≤ 1 / 10 := by
  have hhalf : double.Rep (1 / 2) ∧ |(1 / 2 : ℝ)| ≤ 1 ∧ (2 : ℝ) ^ (-((1 : ℕ) : ℤ)) ≤ |1 / 2| :=
    ⟨⟨1, -1, by norm_num, by norm_num [double], by norm_num [double]⟩, by norm_num [abs_of_pos], by norm_num [abs_of_pos]⟩
  obtain ⟨r, e, _, _, hb⟩ := C74_near h (k := 1) (x := [1, 0]) (us := [1 / 2, 1 / 2]) (d := 5) (b := false) rfl (by simp) (by simp)
    (by
      intro a ha
      simp only [List.mem_cons, List.not_mem_nil, or_false] at ha
      rcases ha with rfl | rfl
      · exact ⟨⟨1, 0, by norm_num, by norm_num [double], by norm_num [double]⟩, by simp⟩
      · exact ⟨rep_zero, by simp⟩) (by norm_num)
    (by
      intro u hu
      simp only [List.mem_cons, List.not_mem_nil, or_false, or_self] at hu
      rw [hu]; exact hhalf) (by simp)
  refine ⟨r, e, ?_⟩
  simp only [List.sum_cons, List.sum_nil, List.headD_cons, List.length_cons, List.length_nil, abs_one] at hb
  have : r.sum - (if false = true then (1 : ℝ) + (0 + 0) else -(1 + (0 + 0))) = r.sum + 1 := by simp
  rw [this] at hb
  refine hb.trans ?_
  norm_num

end Mandelbrot.Props
