import Verif.Spec.Rounding
import Verif.FFT.Norm

/-!
# Propagation of errors through the bodies of the loops
-/

namespace Mandelbrot.FFT

open Complex Finset Spec

variable {R : Type} [Zero R] {A : Arith R} {T : Tables R} {val : R → ℝ} {ε : ℝ}

/-- `t` is within relative error `(1 + ε)^k - 1` of `q`, measured by `B`. -/
def NearR (val : R → ℝ) (ε : ℝ) (t : R) (q B : ℝ) (k : ℕ) : Prop := |q| ≤ B ∧ |val t - q| ≤ B * ((1 + ε) ^ k - 1)

/-- The same for pairs. -/
def Near (val : R → ℝ) (ε : ℝ) (t : R × R) (q : ℂ) (B : ℝ) (k : ℕ) : Prop :=
  ‖q‖ ≤ B ∧ ‖cval val t - q‖ ≤ B * ((1 + ε) ^ k - 1)

/-- Exact operations. -/
noncomputable def exactOps : COps ℂ where
  add := (· + ·)
  sub := (· - ·)
  mul := (· * ·)
  conj := starRingEnd ℂ
  left := FFT.left
  right := FFT.right
  diagPos := FFT.diagPos sqrtHalf
  diagNeg := FFT.diagNeg sqrtHalf

theorem one_le_epow (h : 0 ≤ ε) (k : ℕ) : 1 ≤ (1 + ε) ^ k := one_le_pow₀ (by linarith)

theorem epow_mono (h : 0 ≤ ε) {k l : ℕ} (hkl : k ≤ l) : (1 + ε) ^ k ≤ (1 + ε) ^ l := pow_le_pow_right₀ (by linarith) hkl

omit [Zero R] in
theorem Near.mono {t : R × R} {q : ℂ} {B B' : ℝ} {k k' : ℕ} (hε : 0 ≤ ε) (h : Near val ε t q B k) (hB : B ≤ B')
    (hk : k ≤ k') : Near val ε t q B' k' := by
  have h0 : 0 ≤ B := (norm_nonneg _).trans h.1
  refine ⟨h.1.trans hB, h.2.trans (mul_le_mul hB ?_ ?_ (h0.trans hB))⟩
  · linarith [epow_mono hε hk]
  · linarith [one_le_epow hε k]

omit [Zero R] in
theorem Near.size {t : R × R} {q : ℂ} {B : ℝ} {k : ℕ} (h : Near val ε t q B k) : ‖cval val t‖ ≤ B * (1 + ε) ^ k := by
  have := norm_add_le (cval val t - q) q
  rw [sub_add_cancel] at this
  linarith [h.1, h.2]

omit [Zero R] in
/-- From one rounding to the accumulated error. -/
theorem Near.of_round {t : R × R} {e q : ℂ} {B : ℝ} {k l : ℕ} (hq : ‖q‖ ≤ B) (h1 : ‖e - q‖ ≤ B * ((1 + ε) ^ k - 1))
    (h2 : ‖cval val t - e‖ ≤ B * (1 + ε) ^ k * ((1 + ε) ^ l - 1)) : Near val ε t q B (k + l) := by
  refine ⟨hq, ?_⟩
  have := norm_add_le (cval val t - e) (e - q)
  rw [sub_add_sub_cancel] at this
  rw [pow_add]
  nlinarith

omit [Zero R] in
theorem near_refl (t : R × R) : Near val ε t (cval val t) ‖cval val t‖ 0 := by
  refine ⟨le_rfl, ?_⟩
  simp

omit [Zero R] in
theorem cval_re (t : R × R) : (cval val t).re = val t.1 := rfl

omit [Zero R] in
theorem cval_im (t : R × R) : (cval val t).im = val t.2 := rfl

/-- Vectors with components bounded by sums. -/
theorem norm_le_of_parts {z u v : ℂ} {e : ℝ} (he : 0 ≤ e) (hr : |z.re| ≤ e * (|u.re| + |v.re|))
    (hi : |z.im| ≤ e * (|u.im| + |v.im|)) : ‖z‖ ≤ e * (‖u‖ + ‖v‖) := by
  have h1 : ‖z‖ ≤ ‖(⟨e * (|u.re| + |v.re|), e * (|u.im| + |v.im|)⟩ : ℂ)‖ := by
    rw [Complex.norm_def, Complex.norm_def]
    refine Real.sqrt_le_sqrt ?_
    rw [normSq_apply, normSq_apply, ← abs_mul_abs_self z.re, ← abs_mul_abs_self z.im]
    exact add_le_add (mul_self_le_mul_self (abs_nonneg _) hr) (mul_self_le_mul_self (abs_nonneg _) hi)
  have h2 : (⟨e * (|u.re| + |v.re|), e * (|u.im| + |v.im|)⟩ : ℂ) = (e : ℂ) * (⟨|u.re|, |u.im|⟩ + ⟨|v.re|, |v.im|⟩) := by
    apply Complex.ext <;> simp
  have h3 : ∀ w : ℂ, ‖(⟨|w.re|, |w.im|⟩ : ℂ)‖ = ‖w‖ := fun w => by
    rw [Complex.norm_def, Complex.norm_def, normSq_apply, normSq_apply]; simp
  rw [h2, norm_mul, Complex.norm_real, Real.norm_eq_abs, abs_of_nonneg he] at h1
  refine h1.trans (mul_le_mul_of_nonneg_left ?_ he)
  exact (norm_add_le _ _).trans (by rw [h3, h3])

variable {half : R}

theorem near_add (H : Accurate A val ε) {a b : R × R} {p q : ℂ} {B C : ℝ} {k l : ℕ} (ha : Near val ε a p B k)
    (hb : Near val ε b q C l) : Near val ε ((A.cops half).add a b) (p + q) (B + C) (max k l + 1) := by
  have hε := H.nonneg
  have ha := ha.mono hε le_rfl (le_max_left k l)
  have hb := hb.mono hε le_rfl (le_max_right k l)
  refine Near.of_round (e := cval val a + cval val b) ((norm_add_le _ _).trans (add_le_add ha.1 hb.1)) ?_ ?_
  · rw [add_sub_add_comm, add_mul]
    exact (norm_add_le _ _).trans (add_le_add ha.2 hb.2)
  · have h := norm_le_of_parts (z := cval val ((A.cops half).add a b) - (cval val a + cval val b)) (u := cval val a)
      (v := cval val b) hε (H.add _ _) (H.add _ _)
    have := mul_le_mul_of_nonneg_left (add_le_add ha.size hb.size) hε
    rw [pow_one]
    linarith

theorem near_sub (H : Accurate A val ε) {a b : R × R} {p q : ℂ} {B C : ℝ} {k l : ℕ} (ha : Near val ε a p B k)
    (hb : Near val ε b q C l) : Near val ε ((A.cops half).sub a b) (p - q) (B + C) (max k l + 1) := by
  have hε := H.nonneg
  have ha := ha.mono hε le_rfl (le_max_left k l)
  have hb := hb.mono hε le_rfl (le_max_right k l)
  refine Near.of_round (e := cval val a - cval val b) ((norm_sub_le _ _).trans (add_le_add ha.1 hb.1)) ?_ ?_
  · rw [sub_sub_sub_comm, add_mul]
    exact (norm_sub_le _ _).trans (add_le_add ha.2 hb.2)
  · have h := norm_le_of_parts (z := cval val ((A.cops half).sub a b) - (cval val a - cval val b)) (u := cval val a)
      (v := cval val b) hε (H.sub _ _) (H.sub _ _)
    have := mul_le_mul_of_nonneg_left (add_le_add ha.size hb.size) hε
    rw [pow_one]
    linarith

omit [Zero R] in
theorem near_of_isometry {a b : R × R} {p q : ℂ} {B : ℝ} {k : ℕ} (ha : Near val ε a p B k) (h1 : ‖q‖ = ‖p‖)
    (h2 : ‖cval val b - q‖ = ‖cval val a - p‖) : Near val ε b q B k := ⟨by rw [h1]; exact ha.1, by rw [h2]; exact ha.2⟩

theorem near_conj (H : Accurate A val ε) {a : R × R} {p : ℂ} {B : ℝ} {k : ℕ} (ha : Near val ε a p B k) :
    Near val ε ((A.cops half).conj a) (starRingEnd ℂ p) B k := by
  refine near_of_isometry ha (norm_conj p) ?_
  rw [← norm_conj (cval val a - p), map_sub]
  congr 2
  apply Complex.ext
  · rfl
  · exact H.neg _

theorem near_left (H : Accurate A val ε) {a : R × R} {p : ℂ} {B : ℝ} {k : ℕ} (ha : Near val ε a p B k) :
    Near val ε ((A.cops half).left a) (FFT.left p) B k := by
  have e : ∀ z : ℂ, FFT.left z = I * z := fun z => by apply Complex.ext <;> simp [FFT.left]
  have e' : cval val ((A.cops half).left a) = FFT.left (cval val a) := Complex.ext (H.neg _) rfl
  refine near_of_isometry ha (by rw [e, norm_mul, norm_I, one_mul]) ?_
  rw [e', e, e, ← mul_sub, norm_mul, norm_I, one_mul]

theorem near_right (H : Accurate A val ε) {a : R × R} {p : ℂ} {B : ℝ} {k : ℕ} (ha : Near val ε a p B k) :
    Near val ε ((A.cops half).right a) (FFT.right p) B k := by
  have e : ∀ z : ℂ, FFT.right z = -I * z := fun z => by apply Complex.ext <;> simp [FFT.right]
  have e' : cval val ((A.cops half).right a) = FFT.right (cval val a) := Complex.ext rfl (H.neg _)
  have n : ‖(-I : ℂ)‖ = 1 := by rw [norm_neg, norm_I]
  refine near_of_isometry ha (by rw [e, norm_mul, n, one_mul]) ?_
  rw [e', e, e, ← mul_sub, norm_mul, n, one_mul]

/-! ## Products -/

omit [Zero R] in
/-- Scalars. -/
theorem NearR.size {t : R} {q B : ℝ} {k : ℕ} (h : NearR val ε t q B k) : |val t| ≤ B * (1 + ε) ^ k := by
  have := abs_add_le (val t - q) q
  rw [sub_add_cancel] at this
  linarith [h.1, h.2]

omit [Zero R] in
theorem nearR_refl (t : R) : NearR val ε t (val t) |val t| 0 := ⟨le_rfl, by simp⟩

omit [Zero R] in
theorem NearR.of_round {t : R} {e q : ℝ} {B : ℝ} {k l : ℕ} (hq : |q| ≤ B) (h1 : |e - q| ≤ B * ((1 + ε) ^ k - 1))
    (h2 : |val t - e| ≤ B * (1 + ε) ^ k * ((1 + ε) ^ l - 1)) : NearR val ε t q B (k + l) := by
  refine ⟨hq, ?_⟩
  have := abs_add_le (val t - e) (e - q)
  rw [sub_add_sub_cancel] at this
  rw [pow_add]
  nlinarith

omit [Zero R] in
theorem NearR.mono {t : R} {q : ℝ} {B B' : ℝ} {k k' : ℕ} (hε : 0 ≤ ε) (h : NearR val ε t q B k) (hB : B ≤ B')
    (hk : k ≤ k') : NearR val ε t q B' k' := by
  have h0 : 0 ≤ B := (abs_nonneg _).trans h.1
  refine ⟨h.1.trans hB, h.2.trans (mul_le_mul hB ?_ ?_ (h0.trans hB))⟩
  · linarith [epow_mono hε hk]
  · linarith [one_le_epow hε k]

theorem nearR_add (H : Accurate A val ε) {a b : R} {p q B C : ℝ} {k l : ℕ} (ha : NearR val ε a p B k)
    (hb : NearR val ε b q C l) : NearR val ε (A.add a b) (p + q) (B + C) (max k l + 1) := by
  have hε := H.nonneg
  have ha := ha.mono hε le_rfl (le_max_left k l)
  have hb := hb.mono hε le_rfl (le_max_right k l)
  refine NearR.of_round (e := val a + val b) ((abs_add_le _ _).trans (add_le_add ha.1 hb.1)) ?_ ?_
  · rw [add_sub_add_comm, add_mul]
    exact (abs_add_le _ _).trans (add_le_add ha.2 hb.2)
  · have := mul_le_mul_of_nonneg_left (add_le_add ha.size hb.size) hε
    rw [pow_one]
    linarith [H.add a b]

theorem nearR_sub (H : Accurate A val ε) {a b : R} {p q B C : ℝ} {k l : ℕ} (ha : NearR val ε a p B k)
    (hb : NearR val ε b q C l) : NearR val ε (A.sub a b) (p - q) (B + C) (max k l + 1) := by
  have hε := H.nonneg
  have ha := ha.mono hε le_rfl (le_max_left k l)
  have hb := hb.mono hε le_rfl (le_max_right k l)
  refine NearR.of_round (e := val a - val b) ((abs_sub _ _).trans (add_le_add ha.1 hb.1)) ?_ ?_
  · rw [sub_sub_sub_comm, add_mul]
    exact (abs_sub _ _).trans (add_le_add ha.2 hb.2)
  · have := mul_le_mul_of_nonneg_left (add_le_add ha.size hb.size) hε
    rw [pow_one]
    linarith [H.sub a b]

/-- Errors of factors multiply. -/
theorem mul_err {a p b q B C X Y : ℝ} (hp : |p| ≤ B) (hq : |q| ≤ C) (ha : |a - p| ≤ B * (X - 1))
    (hb : |b - q| ≤ C * (Y - 1)) (hX : 1 ≤ X) : |a * b - p * q| ≤ B * C * (X * Y - 1) := by
  have hB : 0 ≤ B := (abs_nonneg _).trans hp
  have h1 : a * b - p * q = (a - p) * (b - q) + (a - p) * q + p * (b - q) := by ring
  have h2 : |(a - p) * (b - q) + (a - p) * q + p * (b - q)| ≤ |a - p| * |b - q| + |a - p| * |q| + |p| * |b - q| := by
    rw [← abs_mul, ← abs_mul, ← abs_mul]
    exact (abs_add_le _ _).trans (add_le_add_left (abs_add_le _ _) _)
  rw [h1]
  have hX' : 0 ≤ B * (X - 1) := mul_nonneg hB (by linarith)
  have i1 := mul_le_mul ha hb (abs_nonneg _) hX'
  have i2 := mul_le_mul ha hq (abs_nonneg _) hX'
  have i3 := mul_le_mul hp hb (abs_nonneg _) hB
  refine h2.trans ((add_le_add (add_le_add i1 i2) i3).trans (le_of_eq ?_))
  ring

theorem nearR_mul (H : Accurate A val ε) {a b : R} {p q B C : ℝ} {k l : ℕ} (ha : NearR val ε a p B k)
    (hb : NearR val ε b q C l) : NearR val ε (A.mul a b) (p * q) (B * C) (k + l + 1) := by
  have hε := H.nonneg
  have hB : 0 ≤ B := (abs_nonneg _).trans ha.1
  refine NearR.of_round (e := val a * val b) ?_ ?_ ?_
  · rw [abs_mul]; exact mul_le_mul ha.1 hb.1 (abs_nonneg _) hB
  · rw [pow_add]; exact mul_err ha.1 hb.1 ha.2 hb.2 (one_le_epow hε k)
  · have := mul_le_mul_of_nonneg_left
      (mul_le_mul ha.size hb.size (abs_nonneg _) (mul_nonneg hB (by positivity))) hε
    rw [pow_one, pow_add]
    linarith [H.mul a b]

/-- Product of pairs. -/
theorem near_mul (H : Accurate A val ε) {a b : R × R} {p q : ℂ} {B C : ℝ} {k l : ℕ} (ha : Near val ε a p B k)
    (hb : Near val ε b q C l) : Near val ε ((A.cops half).mul a b) (p * q) (B * C) (k + l + 4) := by
  have hε := H.nonneg
  have hB : 0 ≤ B := (norm_nonneg _).trans ha.1
  have hk := one_le_epow hε k
  refine Near.of_round (e := cval val a * cval val b) ?_ ?_ ?_
  · rw [norm_mul]; exact mul_le_mul ha.1 hb.1 (norm_nonneg _) hB
  · have h1 : cval val a * cval val b - p * q =
        (cval val a - p) * (cval val b - q) + (cval val a - p) * q + p * (cval val b - q) := by ring
    have h2 : ‖(cval val a - p) * (cval val b - q) + (cval val a - p) * q + p * (cval val b - q)‖ ≤
        ‖cval val a - p‖ * ‖cval val b - q‖ + ‖cval val a - p‖ * ‖q‖ + ‖p‖ * ‖cval val b - q‖ := by
      rw [← norm_mul, ← norm_mul, ← norm_mul]
      exact (norm_add_le _ _).trans (add_le_add_left (norm_add_le _ _) _)
    rw [h1, pow_add]
    have hX' : 0 ≤ B * ((1 + ε) ^ k - 1) := mul_nonneg hB (by linarith)
    have i1 := mul_le_mul ha.2 hb.2 (norm_nonneg _) hX'
    have i2 := mul_le_mul ha.2 hb.1 (norm_nonneg _) hX'
    have i3 := mul_le_mul ha.1 hb.2 (norm_nonneg _) hB
    refine h2.trans ((add_le_add (add_le_add i1 i2) i3).trans (le_of_eq ?_))
    ring
  · -- each part is within `(1 + ε)^2 - 1` times the product of the lengths
    have cs : ∀ x y u v : ℝ, |x| * |u| + |y| * |v| ≤ ‖(⟨x, y⟩ : ℂ)‖ * ‖(⟨u, v⟩ : ℂ)‖ := by
      intro x y u v
      have e1 : ‖(⟨x, y⟩ : ℂ)‖ ^ 2 = x ^ 2 + y ^ 2 := by rw [Complex.sq_norm, normSq_apply]; ring
      have e2 : ‖(⟨u, v⟩ : ℂ)‖ ^ 2 = u ^ 2 + v ^ 2 := by rw [Complex.sq_norm, normSq_apply]; ring
      refine abs_le_of_sq_le_sq' (b := ‖(⟨x, y⟩ : ℂ)‖ * ‖(⟨u, v⟩ : ℂ)‖) ?_ (by positivity) |>.2
      rw [mul_pow, e1, e2]
      have h1 := sq_abs x
      have h2 := sq_abs y
      have h3 := sq_abs u
      have h4 := sq_abs v
      nlinarith [sq_nonneg (|x| * |v| - |y| * |u|)]
    have swap : ‖(⟨val b.2, val b.1⟩ : ℂ)‖ = ‖cval val b‖ := by
      rw [Complex.norm_def, Complex.norm_def, normSq_apply, normSq_apply, cval]; congr 1; simp only; ring
    set N := ‖cval val a‖ * ‖cval val b‖ with hN
    have hre : |val ((A.cops half).mul a b).1 - (val a.1 * val b.1 - val a.2 * val b.2)| ≤ ((1 + ε) ^ 2 - 1) * N := by
      have h := (show NearR val ε _ _ _ 2 from nearR_sub H (nearR_mul H (nearR_refl a.1) (nearR_refl b.1))
        (nearR_mul H (nearR_refl a.2) (nearR_refl b.2))).2
      refine h.trans ?_
      rw [mul_comm]
      refine mul_le_mul_of_nonneg_left (cs _ _ _ _) ?_
      linarith [one_le_epow hε 2]
    have him : |val ((A.cops half).mul a b).2 - (val a.1 * val b.2 + val a.2 * val b.1)| ≤ ((1 + ε) ^ 2 - 1) * N := by
      have h := (show NearR val ε _ _ _ 2 from nearR_add H (nearR_mul H (nearR_refl a.1) (nearR_refl b.2))
        (nearR_mul H (nearR_refl a.2) (nearR_refl b.1))).2
      refine h.trans ?_
      rw [mul_comm]
      refine mul_le_mul_of_nonneg_left ?_ ?_
      · rw [hN, ← swap]; exact cs _ _ _ _
      · linarith [one_le_epow hε 2]
    have h1 := Complex.norm_le_abs_re_add_abs_im (cval val ((A.cops half).mul a b) - cval val a * cval val b)
    rw [Complex.sub_re, Complex.sub_im, Complex.mul_re, Complex.mul_im] at h1
    have h2 : ‖cval val ((A.cops half).mul a b) - cval val a * cval val b‖ ≤ 2 * (((1 + ε) ^ 2 - 1) * N) :=
      h1.trans (by rw [two_mul]; exact add_le_add hre him)
    have h3 : N ≤ B * C * (1 + ε) ^ (k + l) := by
      rw [pow_add]
      refine (mul_le_mul ha.size hb.size (norm_nonneg _) (mul_nonneg hB (by positivity))).trans (le_of_eq ?_)
      ring
    have h4 : 0 ≤ N := by positivity
    have h5 : 2 * ((1 + ε) ^ 2 - 1) ≤ (1 + ε) ^ 4 - 1 := by nlinarith [one_le_epow hε 2, sq_nonneg ((1 + ε) ^ 2 - 1)]
    have h6 : 0 ≤ (1 + ε) ^ 4 - 1 := by linarith [one_le_epow hε 4]
    calc _ ≤ 2 * (((1 + ε) ^ 2 - 1) * N) := h2
      _ = 2 * ((1 + ε) ^ 2 - 1) * N := by ring
      _ ≤ ((1 + ε) ^ 4 - 1) * N := mul_le_mul_of_nonneg_right h5 h4
      _ ≤ ((1 + ε) ^ 4 - 1) * (B * C * (1 + ε) ^ (k + l)) := mul_le_mul_of_nonneg_left h3 h6
      _ = _ := by ring

/-- Product with a scalar. -/
theorem near_scale (H : Accurate A val ε) {a : R} {b : R × R} {p : ℝ} {q : ℂ} {B C : ℝ} {k l : ℕ}
    (ha : NearR val ε a p B k) (hb : Near val ε b q C l) : Near val ε (A.scale a b) (p * q) (B * C) (k + l + 1) := by
  have hε := H.nonneg
  have hB : 0 ≤ B := (abs_nonneg _).trans ha.1
  have hk := one_le_epow hε k
  refine Near.of_round (e := val a * cval val b) ?_ ?_ ?_
  · rw [norm_mul, norm_real]; exact mul_le_mul ha.1 hb.1 (norm_nonneg _) hB
  · have h1 : val a * cval val b - p * q =
        ((val a - p : ℝ) : ℂ) * (cval val b - q) + ((val a - p : ℝ) : ℂ) * q + p * (cval val b - q) := by push_cast; ring
    have h2 : ‖((val a - p : ℝ) : ℂ) * (cval val b - q) + ((val a - p : ℝ) : ℂ) * q + p * (cval val b - q)‖ ≤
        |val a - p| * ‖cval val b - q‖ + |val a - p| * ‖q‖ + |p| * ‖cval val b - q‖ := by
      rw [← Real.norm_eq_abs, ← Real.norm_eq_abs, ← norm_real, ← norm_real, ← norm_mul, ← norm_mul, ← norm_mul]
      exact (norm_add_le _ _).trans (add_le_add_left (norm_add_le _ _) _)
    rw [h1, pow_add]
    have hX' : 0 ≤ B * ((1 + ε) ^ k - 1) := mul_nonneg hB (by linarith)
    have i1 := mul_le_mul ha.2 hb.2 (norm_nonneg _) hX'
    have i2 := mul_le_mul ha.2 hb.1 (norm_nonneg _) hX'
    have i3 := mul_le_mul ha.1 hb.2 (norm_nonneg _) hB
    refine h2.trans ((add_le_add (add_le_add i1 i2) i3).trans (le_of_eq ?_))
    ring
  · have h := norm_le_of_parts (z := cval val (A.scale a b) - val a * cval val b) (u := val a * cval val b) (v := 0) hε
      (by simpa [Arith.scale, cval, abs_mul] using H.mul a b.1) (by simpa [Arith.scale, cval, abs_mul] using H.mul a b.2)
    rw [norm_zero, add_zero, norm_mul, norm_real] at h
    have := mul_le_mul_of_nonneg_left
      (mul_le_mul ha.size hb.size (norm_nonneg _) (mul_nonneg hB (by positivity))) hε
    rw [Real.norm_eq_abs] at h
    rw [pow_one, pow_add]
    linarith

end Mandelbrot.FFT
