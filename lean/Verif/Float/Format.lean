import Mathlib.Data.Real.Basic
import Mathlib.Algebra.Order.Floor.Ring
import Mathlib.Data.Int.Log
import Mathlib.Algebra.Order.Round
import Mathlib.Algebra.Order.Archimedean.Real.Basic
import Mathlib.Tactic.Linarith
import Mathlib.Tactic.Ring
import Mathlib.Tactic.FieldSimp
import Mathlib.Tactic.Positivity

/-!
# Binary floating point numbers

The numbers `m * 2 ^ e` with at most `p` bits and exponent at least `emin`, so with gradual underflow; `p = 53` and `emin = -1074`
are those of `double`.  There is no largest number: results that overflow are outside this model.  A rounding is any function that
returns a nearest number, whatever it does with ties.
-/

namespace Mandelbrot.Float

/-- Precision and smallest exponent. -/
structure Fmt where
  p : ℕ
  emin : ℤ

/-- `double`. -/
def double : Fmt := ⟨53, -1074⟩

/-- A number of the format; `2 ^ p` itself is allowed as it can be written with a larger exponent. -/
def Fmt.Rep (F : Fmt) (z : ℝ) : Prop := ∃ (m : ℤ) (e : ℤ), z = m * (2 : ℝ) ^ e ∧ |m| ≤ 2 ^ F.p ∧ F.emin ≤ e

/-- `f` is a number of the format nearest to `z`. -/
def Fmt.Nearest (F : Fmt) (z f : ℝ) : Prop := F.Rep f ∧ ∀ g, F.Rep g → |z - f| ≤ |z - g|

/-- A rounding to nearest. -/
def Fmt.Rounds (F : Fmt) (rn : ℝ → ℝ) : Prop := ∀ z, F.Nearest z (rn z)

/-- `z` is a multiple of `2 ^ k`. -/
def Mult (k : ℤ) (z : ℝ) : Prop := ∃ m : ℤ, z = m * (2 : ℝ) ^ k

variable {F : Fmt}

theorem two_zpow_pos (k : ℤ) : (0 : ℝ) < (2 : ℝ) ^ k := zpow_pos (by norm_num) k

theorem Mult.mono {j k : ℤ} {z : ℝ} (h : Mult k z) (hjk : j ≤ k) : Mult j z := by
  obtain ⟨m, rfl⟩ := h
  obtain ⟨d, hd⟩ := Int.eq_ofNat_of_zero_le (show 0 ≤ k - j by omega)
  refine ⟨m * 2 ^ d, ?_⟩
  rw [show k = d + j by omega, zpow_add₀ (by norm_num)]
  push_cast
  rw [zpow_natCast]; ring

theorem Mult.add {k : ℤ} {a b : ℝ} (ha : Mult k a) (hb : Mult k b) : Mult k (a + b) := by
  obtain ⟨m, rfl⟩ := ha
  obtain ⟨n, rfl⟩ := hb
  exact ⟨m + n, by push_cast; ring⟩

theorem Mult.neg {k : ℤ} {a : ℝ} (ha : Mult k a) : Mult k (-a) := by
  obtain ⟨m, rfl⟩ := ha
  exact ⟨-m, by push_cast; ring⟩

theorem Mult.sub {k : ℤ} {a b : ℝ} (ha : Mult k a) (hb : Mult k b) : Mult k (a - b) := by
  rw [sub_eq_add_neg]; exact ha.add hb.neg

theorem rep_of_mult {k : ℤ} {z : ℝ} (h : Mult k z) (hk : F.emin ≤ k) (hz : |z| ≤ 2 ^ F.p * (2 : ℝ) ^ k) : F.Rep z := by
  obtain ⟨m, rfl⟩ := h
  refine ⟨m, k, rfl, ?_, hk⟩
  rw [abs_mul, abs_of_pos (two_zpow_pos k)] at hz
  have := le_of_mul_le_mul_right hz (two_zpow_pos k)
  have h2 : ((|m| : ℤ) : ℝ) ≤ ((2 ^ F.p : ℤ) : ℝ) := by push_cast; exact this
  exact_mod_cast h2

theorem Fmt.Rep.mult {z : ℝ} (h : F.Rep z) : ∃ k, F.emin ≤ k ∧ Mult k z ∧ |z| ≤ 2 ^ F.p * (2 : ℝ) ^ k := by
  obtain ⟨m, e, rfl, hm, he⟩ := h
  refine ⟨e, he, ⟨m, rfl⟩, ?_⟩
  rw [abs_mul, abs_of_pos (two_zpow_pos e)]
  refine mul_le_mul_of_nonneg_right ?_ (two_zpow_pos e).le
  exact_mod_cast hm

theorem Fmt.Rep.multMin {z : ℝ} (h : F.Rep z) : Mult F.emin z := by
  obtain ⟨k, hk, hm, _⟩ := h.mult
  exact hm.mono hk

theorem rep_zero : F.Rep 0 := ⟨0, F.emin, by simp, by simp, le_refl _⟩

theorem Fmt.Rep.neg {z : ℝ} (h : F.Rep z) : F.Rep (-z) := by
  obtain ⟨m, e, rfl, hm, he⟩ := h
  exact ⟨-m, e, by push_cast; ring, by rwa [abs_neg], he⟩

theorem rep_neg_iff {z : ℝ} : F.Rep (-z) ↔ F.Rep z := ⟨fun h => by simpa using h.neg, Fmt.Rep.neg⟩

theorem Fmt.Rep.twice {z : ℝ} (h : F.Rep z) : F.Rep (2 * z) := by
  obtain ⟨m, e, rfl, hm, he⟩ := h
  exact ⟨m, e + 1, by rw [zpow_add₀ (by norm_num)]; ring, hm, by omega⟩

theorem rep_pow {k : ℤ} (hk : F.emin ≤ k) : F.Rep (2 ^ F.p * (2 : ℝ) ^ k) :=
  ⟨2 ^ F.p, k, by push_cast; ring, by rw [abs_of_nonneg (by positivity)], hk⟩

theorem Fmt.Nearest.neg {z f : ℝ} (h : F.Nearest z f) : F.Nearest (-z) (-f) := by
  refine ⟨h.1.neg, fun g hg => ?_⟩
  have := h.2 (-g) hg.neg
  rw [show -z - -f = -(z - f) by ring, show -z - g = -(z - -g) by ring, abs_neg, abs_neg]
  exact this

theorem Fmt.Nearest.eq_of_rep {z f : ℝ} (h : F.Nearest z f) (hz : F.Rep z) : f = z := by
  have := h.2 z hz
  rw [sub_self, abs_zero] at this
  have := abs_eq_zero.mp (le_antisymm this (abs_nonneg _))
  linarith

/-- A number of the format not above `z` is not above what `z` is rounded to. -/
theorem Fmt.Nearest.ge {z f g : ℝ} (h : F.Nearest z f) (hg : F.Rep g) (hz : g ≤ z) : g ≤ f := by
  by_contra hc
  rw [not_le] at hc
  have := h.2 g hg
  rw [abs_of_nonneg (show 0 ≤ z - f by linarith), abs_of_nonneg (show 0 ≤ z - g by linarith)] at this
  linarith

theorem Fmt.Nearest.le {z f g : ℝ} (h : F.Nearest z f) (hg : F.Rep g) (hz : z ≤ g) : f ≤ g := by
  have := h.neg.ge hg.neg (by linarith)
  linarith

/-- Rounding is monotone. -/
theorem Fmt.Nearest.mono {z w f g : ℝ} (hf : F.Nearest z f) (hg : F.Nearest w g) (h : z < w) : f ≤ g := by
  by_contra hc
  rw [not_le] at hc
  have h1 := hf.2 g hg.1
  have h2 := hg.2 f hf.1
  rcases abs_cases (z - f) with ⟨e1, _⟩ | ⟨e1, _⟩ <;> rcases abs_cases (z - g) with ⟨e2, _⟩ | ⟨e2, _⟩ <;>
    rcases abs_cases (w - f) with ⟨e3, _⟩ | ⟨e3, _⟩ <;> rcases abs_cases (w - g) with ⟨e4, _⟩ | ⟨e4, _⟩ <;>
    rw [e1, e2] at h1 <;> rw [e3, e4] at h2 <;> linarith

/-- What a multiple of a power of two is rounded to is a multiple of it. -/
theorem Fmt.Nearest.mult {k : ℤ} {z f : ℝ} (h : F.Nearest z f) (hk : F.emin ≤ k) (hz : Mult k z) : Mult k f := by
  by_cases hb : |z| ≤ 2 ^ F.p * (2 : ℝ) ^ k
  · rw [h.eq_of_rep (rep_of_mult hz hk hb)]; exact hz
  · rw [not_le] at hb
    obtain ⟨m, e, hf, hm, he⟩ := h.1
    by_cases hke : k ≤ e
    · exact Mult.mono ⟨m, hf⟩ hke
    · exfalso
      have hT := rep_pow (F := F) hk
      have hsmall : |f| < 2 ^ F.p * (2 : ℝ) ^ k := by
        rw [hf, abs_mul, abs_of_pos (two_zpow_pos e)]
        have h1 : ((|m| : ℤ) : ℝ) ≤ 2 ^ F.p := by exact_mod_cast hm
        rw [Int.cast_abs] at h1
        have h2 : (2 : ℝ) ^ e < 2 ^ k := zpow_lt_zpow_right₀ (by norm_num) (by omega)
        have h3 : (0 : ℝ) < 2 ^ F.p := by positivity
        calc |(m : ℝ)| * 2 ^ e ≤ 2 ^ F.p * 2 ^ e := mul_le_mul_of_nonneg_right h1 (two_zpow_pos e).le
          _ < _ := mul_lt_mul_of_pos_left h2 h3
      rcases le_total 0 z with hz0 | hz0
      · rw [abs_of_nonneg hz0] at hb
        have := h.ge hT hb.le
        have := le_abs_self f
        linarith
      · rw [abs_of_nonpos hz0] at hb
        have := h.le hT.neg (by linarith)
        have := neg_abs_le f
        linarith

/-- Two numbers within a factor of two of each other have a difference in the format. -/
theorem sterbenz {x y : ℝ} (hx : F.Rep x) (hy : F.Rep y) (h1 : y / 2 ≤ x) (h2 : x ≤ 2 * y) : F.Rep (x - y) := by
  obtain ⟨j, hj, mj, bj⟩ := hx.mult
  obtain ⟨k, hk, mk, bk⟩ := hy.mult
  have hy0 : 0 ≤ y := by linarith
  have hx0 : 0 ≤ x := by linarith
  rw [abs_of_nonneg hx0] at bj
  rw [abs_of_nonneg hy0] at bk
  rcases le_total j k with h | h
  · refine rep_of_mult (mj.sub (mk.mono h)) hj (le_trans ?_ bj)
    rw [abs_le]; constructor <;> linarith
  · refine rep_of_mult ((mj.mono h).sub mk) hk (le_trans ?_ bk)
    rw [abs_le]; constructor <;> linarith

/-- The error of an addition is in the format. -/
theorem add_error {a b s : ℝ} (ha : F.Rep a) (hb : F.Rep b) (hs : F.Nearest (a + b) s) : F.Rep (a + b - s) := by
  obtain ⟨j, hj, mj, bj⟩ := ha.mult
  obtain ⟨k, hk, mk, bk⟩ := hb.mult
  rcases le_total j k with h | h
  · have hm := mj.add (mk.mono h)
    refine rep_of_mult (hm.sub (hs.mult hj hm)) hj (le_trans ?_ bj)
    have := hs.2 b hb
    rwa [show a + b - b = a by ring] at this
  · have hm := (mj.mono h).add mk
    refine rep_of_mult (hm.sub (hs.mult hk hm)) hk (le_trans ?_ bk)
    have := hs.2 a ha
    rwa [show a + b - a = b by ring] at this

theorem fast_pos {a b s : ℝ} (ha : F.Rep a) (hb : F.Rep b) (hs : F.Nearest (a + b) s) (h : |b| ≤ a) : F.Rep (s - a) := by
  have ha0 : 0 ≤ a := le_trans (abs_nonneg b) h
  obtain ⟨h1, h2⟩ := abs_le.mp h
  rcases le_total 0 b with hb0 | hb0
  · refine sterbenz hs.1 ha ?_ ?_
    · have := hs.ge ha (by linarith); linarith
    · exact hs.le ha.twice (by linarith)
  · by_cases hx : F.Rep (a + b)
    · rw [hs.eq_of_rep hx]; simpa using hb
    · have hlow : a / 2 ≤ s := by
        obtain ⟨m, e, hae, hm, he⟩ := ha
        by_cases he' : F.emin ≤ e - 1
        · refine hs.ge ⟨m, e - 1, ?_, hm, he'⟩ ?_
          · rw [hae, zpow_sub₀ (by norm_num)]; ring
          · by_contra hc
            rw [not_le] at hc
            have hb' := hb.neg
            have := sterbenz (x := -b) (y := a) hb' ⟨m, e, hae, hm, he⟩ (by linarith) (by linarith)
            apply hx
            have h3 := this.neg
            rwa [show -(-b - a) = a + b by ring] at h3
        · exfalso
          apply hx
          have hee : e = F.emin := by omega
          refine rep_of_mult (k := F.emin) (Mult.add (a := a) ⟨m, by rw [hae, hee]⟩ hb.multMin) le_rfl ?_
          rw [abs_of_nonneg (by linarith)]
          have hbd : a ≤ 2 ^ F.p * (2 : ℝ) ^ F.emin := by
            rw [hae, hee]
            refine mul_le_mul_of_nonneg_right ?_ (two_zpow_pos _).le
            have h1 : ((|m| : ℤ) : ℝ) ≤ 2 ^ F.p := by exact_mod_cast hm
            rw [Int.cast_abs] at h1
            exact le_trans (le_abs_self _) h1
          linarith
      refine sterbenz hs.1 ha hlow ?_
      have := hs.le ha (by linarith)
      linarith

/-- The sum minus the larger operand is in the format. -/
theorem fast {a b s : ℝ} (ha : F.Rep a) (hb : F.Rep b) (hs : F.Nearest (a + b) s) (h : |b| ≤ |a|) : F.Rep (s - a) := by
  rcases le_total 0 a with h0 | h0
  · rw [abs_of_nonneg h0] at h; exact fast_pos ha hb hs h
  · rw [abs_of_nonpos h0] at h
    have hs' : F.Nearest (-a + -b) (-s) := by have := hs.neg; rwa [show -(a + b) = -a + -b by ring] at this
    have := fast_pos ha.neg hb.neg hs' (by rwa [abs_neg])
    have := this.neg
    rwa [show -(-s - -a) = s - a by ring] at this

/-- The other operand minus that is in the format if the first operand is the smaller one. -/
theorem slow_pos {a b s v : ℝ} (ha : F.Rep a) (hb : F.Rep b) (hs : F.Nearest (a + b) s) (hv : F.Nearest (s - a) v) (h : |a| < b) :
    F.Rep (b - v) := by
  obtain ⟨h1, h2⟩ := abs_lt.mp h
  have hb0 : 0 < b := lt_of_le_of_lt (abs_nonneg a) h
  -- the error of the sum is at most `b / 2`
  have hd : |a + b - s| ≤ b / 2 := by
    rcases le_total 0 a with ha0 | ha0
    · rcases le_total a (b / 2) with h3 | h3
      · refine le_trans (hs.2 b hb) ?_
        rw [show a + b - b = a by ring, abs_of_nonneg ha0]; exact h3
      · refine le_trans (hs.2 _ hb.twice) ?_
        rw [show a + b - 2 * b = -(b - a) by ring, abs_neg, abs_of_nonneg (by linarith)]; linarith
    · rcases le_total (-a) (b / 2) with h3 | h3
      · refine le_trans (hs.2 b hb) ?_
        rw [show a + b - b = a by ring, abs_of_nonpos ha0]; exact h3
      · have := sterbenz (x := -a) (y := b) ha.neg hb (by linarith) (by linarith)
        have hx : F.Rep (a + b) := by have := this.neg; rwa [show -(-a - b) = a + b by ring] at this
        rw [hs.eq_of_rep hx]; simp; linarith
  obtain ⟨d1, d2⟩ := abs_le.mp hd
  have hup : v ≤ 2 * b := hv.le hb.twice (by linarith)
  have hlow : b / 2 ≤ v := by
    obtain ⟨m, e, hbe, hm, he⟩ := id hb
    by_cases he' : F.emin ≤ e - 1
    · refine hv.ge ⟨m, e - 1, ?_, hm, he'⟩ (by linarith)
      rw [hbe, zpow_sub₀ (by norm_num)]; ring
    · have hee : e = F.emin := by omega
      have hbd : b ≤ 2 ^ F.p * (2 : ℝ) ^ F.emin := by
        rw [hbe, hee]
        refine mul_le_mul_of_nonneg_right ?_ (two_zpow_pos _).le
        have h1 : ((|m| : ℤ) : ℝ) ≤ 2 ^ F.p := by exact_mod_cast hm
        rw [Int.cast_abs] at h1
        exact le_trans (le_abs_self _) h1
      rcases le_total (s - a) (2 ^ F.p * (2 : ℝ) ^ F.emin) with h3 | h3
      · have hw : F.Rep (s - a) := by
          refine rep_of_mult (k := F.emin) (hs.1.multMin.sub ha.multMin) le_rfl ?_
          rwa [abs_of_nonneg (by linarith)]
        rw [hv.eq_of_rep hw]; linarith
      · have := hv.ge (rep_pow le_rfl) h3
        linarith
  have := sterbenz hv.1 hb hlow hup
  have := this.neg
  rwa [show -(v - b) = b - v by ring] at this

theorem slow {a b s v : ℝ} (ha : F.Rep a) (hb : F.Rep b) (hs : F.Nearest (a + b) s) (hv : F.Nearest (s - a) v) (h : |a| < |b|) :
    F.Rep (b - v) := by
  rcases le_total 0 b with h0 | h0
  · rw [abs_of_nonneg h0] at h; exact slow_pos ha hb hs hv h
  · rw [abs_of_nonpos h0] at h
    have hs' : F.Nearest (-a + -b) (-s) := by have := hs.neg; rwa [show -(a + b) = -a + -b by ring] at this
    have hv' : F.Nearest (-s - -a) (-v) := by have := hv.neg; rwa [show -(s - a) = -s - -a by ring] at this
    have := slow_pos ha.neg hb.neg hs' hv' (by rwa [abs_neg])
    have := this.neg
    rwa [show -(-b - -v) = b - v by ring] at this

theorem small_pos {a b s : ℝ} (ha : F.Rep a) (hb : F.Rep b) (hs : F.Nearest (a + b) s) (h : |a| < b) (h' : |s| < |a|) : F.Rep (a + b) := by
  obtain ⟨h1, h2⟩ := abs_lt.mp h
  have hb0 : 0 < b := lt_of_le_of_lt (abs_nonneg a) h
  rcases le_total 0 a with ha0 | ha0
  · exfalso
    have := hs.ge hb (by linarith)
    have := le_abs_self s
    linarith
  · rw [abs_of_nonpos ha0] at h'
    rcases le_total b (2 * -a) with h3 | h3
    · have := (sterbenz (x := -a) (y := b) ha.neg hb (by linarith) (by linarith)).neg
      rwa [show -(-a - b) = a + b by ring] at this
    · exfalso
      have := hs.ge ha.neg (by linarith)
      have := le_abs_self s
      linarith

theorem small {a b s : ℝ} (ha : F.Rep a) (hb : F.Rep b) (hs : F.Nearest (a + b) s) (h : |a| < |b|) (h' : |s| < |a|) : F.Rep (a + b) := by
  rcases le_total 0 b with h0 | h0
  · rw [abs_of_nonneg h0] at h; exact small_pos ha hb hs h h'
  · rw [abs_of_nonpos h0] at h
    have hs' : F.Nearest (-a + -b) (-s) := by have := hs.neg; rwa [show -(a + b) = -a + -b by ring] at this
    have := (small_pos ha.neg hb.neg hs' (by rwa [abs_neg]) (by rwa [abs_neg, abs_neg])).neg
    rwa [show -(-a + -b) = a + b by ring] at this

/-- The error of a product is in the format if the exponents allow it. -/
theorem mul_error {a b s : ℝ} {j k : ℤ} {m n : ℤ} (ha : a = m * (2 : ℝ) ^ j) (hm : |m| ≤ 2 ^ F.p) (hb : b = n * (2 : ℝ) ^ k)
    (hn : |n| ≤ 2 ^ F.p) (hjk : F.emin ≤ j + k) (hs : F.Nearest (a * b) s) : F.Rep (a * b - s) := by
  have hz : a * b = ((m * n : ℤ) : ℝ) * (2 : ℝ) ^ (j + k) := by
    rw [ha, hb, zpow_add₀ (by norm_num)]; push_cast; ring
  have hM : Mult (j + k) (a * b) := ⟨_, hz⟩
  refine rep_of_mult (hM.sub (hs.mult hjk hM)) hjk ?_
  -- a candidate: round the significand down to a multiple of `2 ^ p`
  set q := (m * n) / 2 ^ F.p with hq
  have hp : (0 : ℤ) < 2 ^ F.p := by positivity
  have hmn : |m * n| ≤ 2 ^ F.p * 2 ^ F.p := by rw [abs_mul]; exact mul_le_mul hm hn (abs_nonneg _) hp.le
  have hr0 := Int.emod_nonneg (m * n) hp.ne'
  have hr1 := Int.emod_lt_of_pos (m * n) hp
  have hdm := Int.emod_add_mul_ediv (m * n) (2 ^ F.p)
  have hqb : |q| ≤ 2 ^ F.p := by
    obtain ⟨h1, h2⟩ := abs_le.mp hmn
    rw [abs_le]
    constructor
    · rw [hq, Int.le_ediv_iff_mul_le hp]; linarith
    · rw [hq]; exact Int.ediv_le_of_le_mul hp h2
  have hc : F.Rep ((q : ℝ) * (2 : ℝ) ^ (j + k + F.p)) := ⟨q, _, rfl, hqb, by omega⟩
  refine le_trans (hs.2 _ hc) ?_
  have he : a * b - (q : ℝ) * (2 : ℝ) ^ (j + k + F.p) = (((m * n) % 2 ^ F.p : ℤ) : ℝ) * (2 : ℝ) ^ (j + k) := by
    have hdm' : ((m * n : ℤ) : ℝ) = (((m * n) % 2 ^ F.p : ℤ) : ℝ) + 2 ^ F.p * (q : ℝ) := by
      rw [hq]; exact_mod_cast hdm.symm
    rw [hz, hdm', zpow_add₀ (a := (2 : ℝ)) (by norm_num) (j + k) F.p, zpow_natCast]; ring
  rw [he, abs_mul, abs_of_pos (two_zpow_pos _)]
  refine mul_le_mul_of_nonneg_right ?_ (two_zpow_pos _).le
  have h3 : |(m * n) % 2 ^ F.p| ≤ 2 ^ F.p := by rw [abs_of_nonneg hr0]; exact hr1.le
  exact_mod_cast h3

/-! ## Ties to even -/

/-- The nearest integer, the even one of two. -/
noncomputable def roundEven (x : ℝ) : ℤ :=
  if x - ⌊x⌋ < 1 / 2 then ⌊x⌋ else if 1 / 2 < x - ⌊x⌋ then ⌊x⌋ + 1 else if ⌊x⌋ % 2 = 0 then ⌊x⌋ else ⌊x⌋ + 1

theorem roundEven_half (x : ℝ) : |x - roundEven x| ≤ 1 / 2 := by
  have h1 := Int.floor_le x
  have h2 := Int.lt_floor_add_one x
  unfold roundEven
  split_ifs with a b c <;> push_cast <;> rw [abs_le] <;> constructor <;> linarith

theorem roundEven_nearest (x : ℝ) (n : ℤ) : |x - roundEven x| ≤ |x - n| := by
  by_cases h : roundEven x = n
  · rw [h]
  · have h1 : (1 : ℝ) ≤ |(roundEven x : ℝ) - n| := by
      have : 1 ≤ |roundEven x - n| := Int.one_le_abs (sub_ne_zero.mpr h)
      exact_mod_cast this
    have h2 := roundEven_half x
    have h3 : |(roundEven x : ℝ) - n| ≤ |x - roundEven x| + |x - n| := by
      calc |(roundEven x : ℝ) - n| = |(x - n) - (x - roundEven x)| := by congr 1; ring
        _ ≤ |x - n| + |x - roundEven x| := abs_sub _ _
        _ = _ := add_comm _ _
    linarith

/-- The exponent of the last place of a result near `z`. -/
noncomputable def Fmt.lastPlace (F : Fmt) (z : ℝ) : ℤ := max F.emin (Int.log 2 |z| + 1 - F.p)

/-- Rounding to nearest, ties to even: the rounding of IEEE arithmetic (/repo never changes the rounding mode). -/
noncomputable def Fmt.rne (F : Fmt) (z : ℝ) : ℝ := roundEven (z / (2 : ℝ) ^ F.lastPlace z) * (2 : ℝ) ^ F.lastPlace z

theorem rne_rounds (hp : 1 ≤ F.p) : F.Rounds F.rne := by
  intro z
  set e := F.lastPlace z with he
  have hpos := two_zpow_pos e
  have hemin : F.emin ≤ e := le_max_left _ _
  have hdist : ∀ n : ℤ, |z - F.rne z| ≤ |z - n * (2 : ℝ) ^ e| := by
    intro n
    have h1 := roundEven_nearest (z / (2 : ℝ) ^ e) n
    have h2 : ∀ k : ℤ, |z - k * (2 : ℝ) ^ e| = |z / (2 : ℝ) ^ e - k| * (2 : ℝ) ^ e := by
      intro k
      rw [← abs_of_pos hpos, ← abs_mul, abs_of_pos hpos, sub_mul, div_mul_cancel₀ _ hpos.ne']
    show |z - roundEven (z / (2 : ℝ) ^ e) * (2 : ℝ) ^ e| ≤ _
    rw [h2, h2]
    exact mul_le_mul_of_nonneg_right h1 hpos.le
  by_cases hz : z = 0
  · have h0 : F.rne z = 0 := by
      have := hdist 0
      rw [hz] at this ⊢
      simp only [Int.cast_zero, zero_mul, sub_self, abs_zero] at this
      have := abs_eq_zero.mp (le_antisymm this (abs_nonneg _))
      linarith
    rw [h0, hz]
    exact ⟨rep_zero, fun g _ => by simp⟩
  have hz0 : 0 < |z| := abs_pos.mpr hz
  have hl1 : (2 : ℝ) ^ Int.log 2 |z| ≤ |z| := Int.zpow_log_le_self (by norm_num) hz0
  have hl2 : |z| < (2 : ℝ) ^ (Int.log 2 |z| + 1) := Int.lt_zpow_succ_log_self (by norm_num) _
  have hbound : |z| ≤ 2 ^ F.p * (2 : ℝ) ^ e := by
    refine hl2.le.trans ?_
    rw [← zpow_natCast, ← zpow_add₀ (by norm_num)]
    refine zpow_le_zpow_right₀ (by norm_num) ?_
    have : Int.log 2 |z| + 1 - F.p ≤ e := le_max_right _ _
    omega
  have hint : ((2 ^ F.p : ℤ) : ℝ) = 2 ^ F.p := by push_cast; rfl
  refine ⟨⟨roundEven (z / (2 : ℝ) ^ e), e, rfl, ?_, hemin⟩, ?_⟩
  · -- the significand stays within bounds as `2 ^ p` is an integer
    have hx : |z / (2 : ℝ) ^ e| ≤ 2 ^ F.p := by
      rw [abs_div, abs_of_pos hpos, div_le_iff₀ hpos]; exact hbound
    obtain ⟨x1, x2⟩ := abs_le.mp hx
    have hr := roundEven_nearest (z / (2 : ℝ) ^ e)
    rw [abs_le]
    constructor
    · by_contra hc
      rw [not_le] at hc
      have h1 := hr (-2 ^ F.p)
      have hc' : (roundEven (z / (2 : ℝ) ^ e) : ℝ) < -2 ^ F.p := by
        have : ((roundEven (z / (2 : ℝ) ^ e) : ℤ) : ℝ) < ((-2 ^ F.p : ℤ) : ℝ) := by exact_mod_cast hc
        push_cast at this; exact this
      push_cast at h1
      rw [abs_of_nonneg (by linarith), abs_of_nonneg (by linarith)] at h1
      linarith
    · by_contra hc
      rw [not_le] at hc
      have h1 := hr (2 ^ F.p)
      have hc' : (2 : ℝ) ^ F.p < (roundEven (z / (2 : ℝ) ^ e) : ℝ) := by
        have : ((2 ^ F.p : ℤ) : ℝ) < ((roundEven (z / (2 : ℝ) ^ e) : ℤ) : ℝ) := by exact_mod_cast hc
        push_cast at this; exact this
      push_cast at h1
      rw [abs_of_nonpos (by linarith), abs_of_nonpos (by linarith)] at h1
      linarith
  · intro g hg
    obtain ⟨n, k, rfl, hn, hk⟩ := hg
    by_cases hke : e ≤ k
    · obtain ⟨n', hn'⟩ := Mult.mono (⟨n, rfl⟩ : Mult k (n * (2 : ℝ) ^ k)) hke
      rw [hn']; exact hdist n'
    · -- a number with a smaller exponent lies on the other side of a power of two
      have hee : e = Int.log 2 |z| + 1 - F.p := by
        rcases max_choice F.emin (Int.log 2 |z| + 1 - F.p) with h | h
        · exfalso; have : e = F.emin := h; omega
        · exact h
      have hsmall : |(n : ℝ) * (2 : ℝ) ^ k| ≤ (2 : ℝ) ^ Int.log 2 |z| := by
        rw [abs_mul, abs_of_pos (two_zpow_pos k)]
        have h1 : ((|n| : ℤ) : ℝ) ≤ 2 ^ F.p := by exact_mod_cast hn
        rw [Int.cast_abs] at h1
        calc |(n : ℝ)| * (2 : ℝ) ^ k ≤ 2 ^ F.p * (2 : ℝ) ^ k := mul_le_mul_of_nonneg_right h1 (two_zpow_pos k).le
          _ = (2 : ℝ) ^ (F.p + k : ℤ) := by rw [zpow_add₀ (by norm_num), zpow_natCast]
          _ ≤ _ := zpow_le_zpow_right₀ (by norm_num) (by omega)
      obtain ⟨t, ht⟩ := Mult.mono (⟨1, by simp⟩ : Mult (Int.log 2 |z|) ((2 : ℝ) ^ Int.log 2 |z|)) (show e ≤ _ by omega)
      obtain ⟨g1, g2⟩ := abs_le.mp hsmall
      rcases le_total 0 z with h0 | h0
      · rw [abs_of_nonneg h0] at hl1 g1 g2 ht
        refine le_trans (hdist t) ?_
        rw [← ht, abs_of_nonneg (by linarith), abs_of_nonneg (by linarith)]
        linarith
      · rw [abs_of_nonpos h0] at hl1 g1 g2 ht
        refine le_trans (hdist (-t)) ?_
        have : ((-t : ℤ) : ℝ) * (2 : ℝ) ^ e = -((2 : ℝ) ^ Int.log 2 (-z)) := by rw [ht]; push_cast; ring
        rw [this, abs_of_nonpos (by linarith), abs_of_nonpos (by linarith)]
        linarith

end Mandelbrot.Float
