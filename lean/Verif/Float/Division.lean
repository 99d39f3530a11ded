import Verif.Float.Bounds

/-!
# Model of the reciprocal and the division of expansions: /repo/expansion.h 63, 138-171

Only finite numbers are modelled: a divisor whose leading component is zero gives infinities in the machine, which the model does not
represent (`1 / 0` is `0` here), and the theorems exclude it.
-/

namespace Mandelbrot.Float

/-- /repo/expansion.h 48, 152: `Expansion<n>(int32_t)`, for `two`. -/
def ofSmall (n : ℕ) (a : ℝ) : List ℝ := a :: List.replicate (n - 1) 0

/-- /repo/expansion.h 153-154: `k` steps of Newton's method. -/
def invLoop (rn : ℝ → ℝ) (x : List ℝ) : ℕ → List ℝ → Res (List ℝ)
  | 0, y => return y
  | k + 1, y => do
    let t ← collangeMul rn x y
    let s ← collangeSub rn (ofSmall x.length 2) t
    let y' ← collangeMul rn y s
    invLoop rn x k y'

/-- /repo/expansion.h 138-156 `inv`: the other components of the first `y` are zero by the default constructor, line 37. -/
noncomputable def invExp (rn : ℝ → ℝ) (x : List ℝ) : Res (List ℝ) :=
  invLoop rn x x.length (ofSmall x.length (rn (1 / x.headD 0)))

/-- /repo/expansion.h 159-171 `operator/`. -/
noncomputable def divExp (rn : ℝ → ℝ) (a b : List ℝ) : Res (List ℝ) := do
  let v ← invExp rn b
  let y ← collangeMul rn a v
  let c ← collangeMul rn b y
  let d ← collangeSub rn c a
  let f ← collangeMul rn d v
  collangeSub rn y f

/-- /repo/expansion.h 63 `operator/(int64_t)`. -/
noncomputable def divInt (rn : ℝ → ℝ) (a : List ℝ) (b : ℤ) : Res (List ℝ) := do
  let e ← ofInt64 rn a.length b
  divExp rn a e

variable {F : Fmt} {rn : ℝ → ℝ}

/-! ## Bounds -/

/-- `A / 2^K`, rounded up. -/
def sc (K A : ℕ) : ℕ := A / 2 ^ K + 1

theorem sc_ge (K A : ℕ) : (A : ℝ) / 2 ^ K ≤ sc K A := by
  rw [div_le_iff₀ (by positivity)]
  have h3 : A ≤ (A / 2 ^ K + 1) * 2 ^ K := by
    have h4 := Nat.div_add_mod A (2 ^ K)
    have h5 := Nat.mod_lt A (show 0 < 2 ^ K by positivity)
    rw [add_mul, one_mul]
    rw [mul_comm] at h4
    omega
  exact_mod_cast h3

/-- The leading bound replaced by one from the value. -/
def tight : List ℕ → ℕ → List ℕ
  | [], _ => []
  | a :: l, v => min a (v + l.sum) :: l

theorem bds_sum {ω : ℝ} {x : List ℝ} {A : List ℕ} (h : Bds ω x A) : |x.sum| ≤ ω * (A.sum : ℕ) := by
  unfold Bds at h
  induction h with
  | nil => simp
  | cons h1 _ ih =>
    rw [List.sum_cons, List.sum_cons]
    push_cast
    refine (abs_add_le _ _).trans ?_
    linarith

theorem tight_bd {ω : ℝ} {x : List ℝ} {A : List ℕ} {v : ℕ} (h : Bds ω x A) (hv : |x.sum| ≤ ω * v) : Bds ω x (tight A v) := by
  unfold Bds at *
  cases h with
  | nil => exact List.Forall₂.nil
  | @cons a B x A h1 h2 =>
    refine List.Forall₂.cons ?_ h2
    have hs : |x.sum| ≤ ω * (A.sum : ℕ) := bds_sum h2
    rw [List.sum_cons] at hv
    have h3 : |a| ≤ ω * v + ω * (A.sum : ℕ) := by
      calc |a| = |(a + x.sum) - x.sum| := by congr 1; ring
        _ ≤ |a + x.sum| + |x.sum| := abs_sub _ _
        _ ≤ _ := add_le_add hv hs
    rcases min_choice B (v + A.sum) with hm | hm
    · rw [hm]; exact h1
    · rw [hm]; push_cast; linarith

theorem bds_negate {ω : ℝ} {x : List ℝ} {A : List ℕ} (h : Bds ω x A) : Bds ω (negate x) A := by
  unfold Bds at *
  induction h with
  | nil => exact List.Forall₂.nil
  | cons h1 _ ih => exact List.Forall₂.cons (by rwa [abs_neg]) ih

theorem negate_sum (x : List ℝ) : (negate x).sum = -x.sum := by
  induction x with
  | nil => simp [negate]
  | cons a x ih =>
    simp only [negate, List.map_cons, List.sum_cons] at ih ⊢
    rw [ih]; ring

/-- The difference: the components and what is discarded. -/
theorem sub_bd (hp : 1 ≤ F.p) (h : F.Rounds rn) {ω : ℝ} (hω : 0 ≤ ω) {x y : List ℝ} {X Y : List ℕ} (hl : x.length = y.length)
    (rx : ∀ a ∈ x, F.Rep a) (ry : ∀ a ∈ y, F.Rep a) (hx : Bds ω x X) (hy : Bds ω y Y) :
    ∃ r, collangeSub rn x y = .ok r ∧ r.length = x.length ∧ (∀ a ∈ r, F.Rep a) ∧ Bds ω r (addB F.p X Y).1 ∧
      |x.sum - y.sum - r.sum| ≤ ω * (addB F.p X Y).2 := by
  obtain ⟨r, h1, h2, h3, h4, h5⟩ := add_bd hp h hω (y := negate y) (by simpa [negate] using hl) rx (by
    intro a ha
    obtain ⟨b, hb, rfl⟩ := List.mem_map.mp ha
    exact (ry b hb).neg) hx (bds_negate hy)
  refine ⟨r, h1, h2, h3, h4, ?_⟩
  rwa [negate_sum, ← sub_eq_add_neg] at h5

/-! ## The reciprocal -/

/-- One step on bounds: of the components of the approximation and of its residue. -/
def invStepB (p K : ℕ) (B : List ℕ) (y : List ℕ × ℕ) : List ℕ × ℕ :=
  let t := mulB p K B y.1
  let s := addB p (2 * 2 ^ K :: List.replicate (B.length - 1) 0) (tight t.1 (2 ^ K + y.2 + t.2))
  let q := mulB p K y.1 (tight s.1 (2 ^ K + y.2 + t.2 + s.2))
  let e := sc K (y.2 * y.2) + sc K ((2 ^ K + y.2) * (t.2 + s.2)) + sc K (B.sum * q.2)
  (tight q.1 ((2 ^ K + e) * 2 ^ K / (2 ^ K - B.tail.sum) + 1), e)

/-- The bounds for the first approximation. -/
def invStartB (p K : ℕ) (B : List ℕ) : List ℕ × ℕ :=
  ((2 ^ K + up p (2 ^ K) + 1) :: List.replicate (B.length - 1) 0, up p (2 ^ K) + 1 + sc K (B.tail.sum * (2 ^ K + up p (2 ^ K) + 1)))

def invB (p K : ℕ) (B : List ℕ) : ℕ → List ℕ × ℕ
  | 0 => invStartB p K B
  | k + 1 => invStepB p K B (invB p K B k)

/-- What is known of the divisor: components bounded by `B` in units `X / 2^K`, with the leading one of size exactly `X`. -/
structure Divisor (F : Fmt) (K : ℕ) (X : ℝ) (x : List ℝ) (B : List ℕ) : Prop where
  rep : ∀ a ∈ x, F.Rep a
  pos : 0 < X
  head : ∃ b l, x = b :: l ∧ |b| = X
  len : x.length ≤ 4
  bds : Bds (X / 2 ^ K) x B
  tail : B.tail.sum < 2 ^ K

/-- What is known of an approximation of the reciprocal of a number of size `X`. -/
structure Approx (F : Fmt) (K : ℕ) (X : ℝ) (x y : List ℝ) (Y : List ℕ × ℕ) : Prop where
  rep : ∀ a ∈ y, F.Rep a
  len : y.length = x.length
  bds : Bds (1 / X / 2 ^ K) y Y.1
  res : |1 - x.sum * y.sum| ≤ (Y.2 : ℝ) / 2 ^ K

theorem Divisor.lower {K : ℕ} {X : ℝ} {x : List ℝ} {B : List ℕ} (h : Divisor F K X x B) :
    X * ((2 ^ K - B.tail.sum : ℕ) : ℝ) / 2 ^ K ≤ |x.sum| := by
  obtain ⟨b, l, rfl, hb⟩ := h.head
  have hbd := h.bds
  unfold Bds at hbd
  cases hbd with
  | @cons _ C _ B h1 h2 =>
    have hs : |l.sum| ≤ X / 2 ^ K * (B.sum : ℕ) := bds_sum h2
    have ht := h.tail
    simp only [List.tail_cons] at ht ⊢
    have h3 : X ≤ |b + l.sum| + |l.sum| := by
      calc X = |(b + l.sum) - l.sum| := by rw [← hb]; congr 1; ring
        _ ≤ _ := abs_sub _ _
    rw [List.sum_cons, Nat.cast_sub ht.le]
    push_cast
    have h4 : X * (2 ^ K - (B.sum : ℝ)) / 2 ^ K = X - X / 2 ^ K * (B.sum : ℝ) := by field_simp
    rw [h4]
    linarith

theorem Divisor.upper {K : ℕ} {X : ℝ} {x : List ℝ} {B : List ℕ} (h : Divisor F K X x B) : |x.sum| ≤ X / 2 ^ K * (B.sum : ℕ) := bds_sum h.bds

/-- The size of a quotient from its residue. -/
theorem Divisor.quot {K : ℕ} {X : ℝ} {x : List ℝ} {B : List ℕ} (h : Divisor F K X x B) {y W : ℝ} {E : ℕ} (hW : 0 ≤ W)
    (hy : |x.sum * y| ≤ W * ((2 ^ K + E : ℕ) : ℝ) / 2 ^ K) :
    |y| ≤ W * (1 / X) / 2 ^ K * (((2 ^ K + E) * 2 ^ K / (2 ^ K - B.tail.sum) + 1 : ℕ) : ℝ) := by
  have hX := h.pos
  have hl := h.lower
  have ht := h.tail
  set D := 2 ^ K - B.tail.sum with hD
  have hDpos : 0 < D := by omega
  have hDr : (0 : ℝ) < D := by exact_mod_cast hDpos
  have h1 : (((2 ^ K + E) * 2 ^ K : ℕ) : ℝ) / D ≤ ((2 ^ K + E) * 2 ^ K / D + 1 : ℕ) := by
    rw [div_le_iff₀ hDr]
    have h3 : (2 ^ K + E) * 2 ^ K ≤ ((2 ^ K + E) * 2 ^ K / D + 1) * D := by
      generalize (2 ^ K + E) * 2 ^ K = N
      have h4 := Nat.div_add_mod N D
      have h5 := Nat.mod_lt N hDpos
      rw [add_mul, one_mul]
      rw [mul_comm] at h4
      omega
    exact_mod_cast h3
  have h2 : |y| * (X * D / 2 ^ K) ≤ W * ((2 ^ K + E : ℕ) : ℝ) / 2 ^ K := by
    refine le_trans ?_ hy
    rw [abs_mul, mul_comm]
    exact mul_le_mul_of_nonneg_right hl (abs_nonneg _)
  have h3 : |y| ≤ W * ((2 ^ K + E : ℕ) : ℝ) / 2 ^ K / (X * D / 2 ^ K) := by
    rw [le_div_iff₀ (by positivity)]; exact h2
  refine h3.trans ?_
  have h4 : W * ((2 ^ K + E : ℕ) : ℝ) / 2 ^ K / (X * D / 2 ^ K) = W * (1 / X) / 2 ^ K * ((((2 ^ K + E) * 2 ^ K : ℕ) : ℝ) / D) := by
    push_cast
    field_simp
  rw [h4]
  exact mul_le_mul_of_nonneg_left h1 (by positivity)

/-- The size of a quotient from below. -/
theorem Divisor.quot_ge {K : ℕ} {X : ℝ} {x : List ℝ} {B : List ℕ} (h : Divisor F K X x B) {y W : ℝ} {N : ℕ} (hW : 0 ≤ W)
    (hy : W * (N : ℝ) / 2 ^ K ≤ |x.sum * y|) : W * (1 / X) / 2 ^ K * ((N * 2 ^ K / B.sum : ℕ) : ℝ) ≤ |y| := by
  have hX := h.pos
  rcases Nat.eq_zero_or_pos B.sum with h0 | h0
  · rw [h0, Nat.div_zero]; simp
  · have hB : (0 : ℝ) < (B.sum : ℕ) := by exact_mod_cast h0
    have h1 : ((N * 2 ^ K / B.sum : ℕ) : ℝ) * (B.sum : ℕ) ≤ (N : ℝ) * 2 ^ K := by exact_mod_cast Nat.div_mul_le_self (N * 2 ^ K) B.sum
    have h2 : W * (N : ℝ) / 2 ^ K ≤ X / 2 ^ K * (B.sum : ℕ) * |y| := by
      refine hy.trans ?_
      rw [abs_mul]
      exact mul_le_mul_of_nonneg_right h.upper (abs_nonneg _)
    rw [← mul_le_mul_iff_right₀ (show 0 < X / 2 ^ K * ((B.sum : ℕ) : ℝ) by positivity)]
    refine le_trans ?_ h2
    have h3 : X / 2 ^ K * ((B.sum : ℕ) : ℝ) * (W * (1 / X) / 2 ^ K * ((N * 2 ^ K / B.sum : ℕ) : ℝ)) =
        W / 2 ^ K / 2 ^ K * (((N * 2 ^ K / B.sum : ℕ) : ℝ) * (B.sum : ℕ)) := by
      generalize ((N * 2 ^ K / B.sum : ℕ) : ℝ) = z
      field_simp
    rw [h3]
    refine (mul_le_mul_of_nonneg_left h1 (by positivity)).trans (le_of_eq ?_)
    field_simp

theorem ofSmall_length {n : ℕ} (hn : 0 < n) (a : ℝ) : (ofSmall n a).length = n := by
  simp only [ofSmall, List.length_cons, List.length_replicate]; omega

theorem ofSmall_sum (n : ℕ) (a : ℝ) : (ofSmall n a).sum = a := by simp [ofSmall]

theorem ofSmall_rep {n : ℕ} {a : ℝ} (ha : F.Rep a) : ∀ b ∈ ofSmall n a, F.Rep b := by
  intro b hb
  simp only [ofSmall, List.mem_cons, List.mem_replicate] at hb
  rcases hb with rfl | ⟨_, rfl⟩
  · exact ha
  · exact rep_zero

theorem ofSmall_bd {ω : ℝ} {n : ℕ} {a : ℝ} {A : ℕ} (h : |a| ≤ ω * A) : Bds ω (ofSmall n a) (A :: List.replicate (n - 1) 0) := by
  refine List.Forall₂.cons h ?_
  have : ∀ k : ℕ, List.Forall₂ (fun (a : ℝ) (C : ℕ) => |a| ≤ ω * (C : ℝ)) (List.replicate k 0) (List.replicate k 0) := by
    intro k
    induction k with
    | zero => exact List.Forall₂.nil
    | succ k ih => exact List.Forall₂.cons (by simp) ih
  exact this _

theorem rep_two (hp : 1 ≤ F.p) (he : F.emin ≤ 0) : F.Rep 2 :=
  ⟨2, 0, by simp, by
    rw [show |(2 : ℤ)| = 2 from rfl]
    calc (2 : ℤ) = 2 ^ 1 := by norm_num
      _ ≤ 2 ^ F.p := pow_le_pow_right₀ (by norm_num) hp, he⟩

/-- One step of Newton's method. -/
theorem invStep_bd (hp : 4 ≤ F.p) (he : F.emin ≤ 0) (h : F.Rounds rn) {K : ℕ} {X : ℝ} {x y : List ℝ} {B : List ℕ} {Y : List ℕ × ℕ}
    (hθ1 : F.theta ≤ 1 / 2 ^ K) (hθ2 : F.theta ≤ 1 / X / 2 ^ K) (hd : Divisor F K X x B) (ha : Approx F K X x y Y) :
    ∃ t s y', collangeMul rn x y = .ok t ∧ collangeSub rn (ofSmall x.length 2) t = .ok s ∧ collangeMul rn y s = .ok y' ∧
      Approx F K X x y' (invStepB F.p K B Y) := by
  have hX := hd.pos
  have hX' : X ≠ 0 := hX.ne'
  have hn : 0 < x.length := by obtain ⟨b, l, rfl, _⟩ := hd.head; simp
  have hBl : B.length = x.length := (List.Forall₂.length_eq hd.bds).symm
  have hK : (0 : ℝ) < 2 ^ K := by positivity
  have hX1 : X * (1 / X) = 1 := by field_simp
  -- the product
  obtain ⟨t, t1, t2, t3, t4, t5⟩ := mul_bd (by omega) h hX.le (one_div_pos.mpr hX).le (by rw [hX1]; exact hθ1) hn hd.len hp ha.len.symm hd.rep ha.rep
    hd.bds ha.bds
  rw [hX1] at t4 t5
  set tB := mulB F.p K B Y.1 with htB
  set d1 := tB.2
  have hres := ha.res
  set q := y.sum
  set β := x.sum
  have hβq : |β * q| ≤ 1 + (Y.2 : ℝ) / 2 ^ K := by
    calc |β * q| = |1 - (1 - β * q)| := by congr 1; ring
      _ ≤ |(1 : ℝ)| + |1 - β * q| := abs_sub _ _
      _ ≤ _ := by rw [abs_one]; linarith
  have ht : |t.sum| ≤ 1 / 2 ^ K * ((2 ^ K + Y.2 + d1 : ℕ) : ℝ) := by
    have h1 : |t.sum| ≤ |β * q| + |β * q - t.sum| := by
      calc |t.sum| = |β * q - (β * q - t.sum)| := by congr 1; ring
        _ ≤ _ := abs_sub _ _
    have h2 : 1 / 2 ^ K * ((2 ^ K + Y.2 + d1 : ℕ) : ℝ) = 1 + (Y.2 : ℝ) / 2 ^ K + 1 / 2 ^ K * (d1 : ℝ) := by
      push_cast; field_simp
    rw [h2]; linarith
  have tt := tight_bd t4 ht
  -- the difference
  obtain ⟨s, s1, s2, s3, s4, s5⟩ := sub_bd (by omega) h (ω := 1 / 2 ^ K) (by positivity) (x := ofSmall x.length 2) (y := t)
    (X := 2 * 2 ^ K :: List.replicate (x.length - 1) 0) (by rw [ofSmall_length hn, t2])
    (ofSmall_rep (rep_two (by omega) he)) t3 (ofSmall_bd (by push_cast; rw [abs_of_pos (by norm_num)]; apply le_of_eq; field_simp)) tt
  rw [← hBl] at s4 s5
  set sB := addB F.p (2 * 2 ^ K :: List.replicate (B.length - 1) 0) (tight tB.1 (2 ^ K + Y.2 + d1)) with hsB
  set d2 := sB.2
  rw [ofSmall_sum] at s5
  have hs : |s.sum| ≤ 1 / 2 ^ K * ((2 ^ K + Y.2 + d1 + d2 : ℕ) : ℝ) := by
    have h1 : s.sum = 1 + (1 - β * q) + (β * q - t.sum) - (2 - t.sum - s.sum) := by ring
    have h2 : 1 / 2 ^ K * ((2 ^ K + Y.2 + d1 + d2 : ℕ) : ℝ) = 1 + (Y.2 : ℝ) / 2 ^ K + 1 / 2 ^ K * (d1 : ℝ) + 1 / 2 ^ K * (d2 : ℝ) := by
      push_cast; field_simp
    rw [h1, h2]
    refine (abs_sub _ _).trans (add_le_add ?_ s5)
    refine (abs_add_le _ _).trans (add_le_add ?_ t5)
    refine (abs_add_le _ _).trans (add_le_add (by rw [abs_one]) hres)
  have ss := tight_bd s4 hs
  -- the new approximation
  obtain ⟨y', y1, y2, y3, y4, y5⟩ := mul_bd (by omega) h (one_div_pos.mpr hX).le zero_le_one (K := K) (by rw [mul_one]; exact hθ2) (x := y) (y := s)
    (by rw [ha.len]; exact hn) (by rw [ha.len]; exact hd.len) hp (by rw [s2, ofSmall_length hn, ha.len]) ha.rep s3 ha.bds ss
  rw [mul_one] at y4 y5
  set qB := mulB F.p K Y.1 (tight sB.1 (2 ^ K + Y.2 + d1 + d2)) with hqB
  set d3 := qB.2
  set E := sc K (Y.2 * Y.2) + sc K ((2 ^ K + Y.2) * (d1 + d2)) + sc K (B.sum * d3) with hE
  have hstep : invStepB F.p K B Y = (tight qB.1 ((2 ^ K + E) * 2 ^ K / (2 ^ K - B.tail.sum) + 1), E) := rfl
  have hβ := hd.upper
  have hres' : |1 - β * y'.sum| ≤ (E : ℝ) / 2 ^ K := by
    have h1 : 1 - β * y'.sum = (1 - β * q) ^ 2 - (β * q) * ((β * q - t.sum) - (2 - t.sum - s.sum)) + β * (q * s.sum - y'.sum) := by ring
    have e1 : |(1 - β * q) ^ 2| ≤ 1 / 2 ^ K * ((sc K (Y.2 * Y.2) : ℕ) : ℝ) := by
      have h2 := mul_le_mul hres hres (abs_nonneg _) (by positivity)
      rw [pow_two, abs_mul]
      refine h2.trans ?_
      have h3 := mul_le_mul_of_nonneg_left (sc_ge K (Y.2 * Y.2)) (show (0 : ℝ) ≤ 1 / 2 ^ K by positivity)
      refine le_trans (le_of_eq ?_) h3
      push_cast; ring
    have e2 : |(β * q) * ((β * q - t.sum) - (2 - t.sum - s.sum))| ≤ 1 / 2 ^ K * ((sc K ((2 ^ K + Y.2) * (d1 + d2)) : ℕ) : ℝ) := by
      have h2 : |(β * q - t.sum) - (2 - t.sum - s.sum)| ≤ 1 / 2 ^ K * (d1 : ℝ) + 1 / 2 ^ K * (d2 : ℝ) := (abs_sub _ _).trans (add_le_add t5 s5)
      have h3 := mul_le_mul hβq h2 (abs_nonneg _) (by positivity)
      rw [abs_mul]
      refine h3.trans ?_
      have h4 := mul_le_mul_of_nonneg_left (sc_ge K ((2 ^ K + Y.2) * (d1 + d2))) (show (0 : ℝ) ≤ 1 / 2 ^ K by positivity)
      refine le_trans (le_of_eq ?_) h4
      push_cast; field_simp
    have e3 : |β * (q * s.sum - y'.sum)| ≤ 1 / 2 ^ K * ((sc K (B.sum * d3) : ℕ) : ℝ) := by
      have h3 := mul_le_mul hβ y5 (abs_nonneg _) (by positivity)
      rw [abs_mul]
      refine h3.trans ?_
      have h4 := mul_le_mul_of_nonneg_left (sc_ge K (B.sum * d3)) (show (0 : ℝ) ≤ 1 / 2 ^ K by positivity)
      refine le_trans (le_of_eq ?_) h4
      push_cast; field_simp
    rw [h1, hE]
    refine (abs_add_le _ _).trans ?_
    have e4 := abs_sub ((1 - β * q) ^ 2) ((β * q) * ((β * q - t.sum) - (2 - t.sum - s.sum)))
    have e5 : ((sc K (Y.2 * Y.2) + sc K ((2 ^ K + Y.2) * (d1 + d2)) + sc K (B.sum * d3) : ℕ) : ℝ) / 2 ^ K =
        1 / 2 ^ K * ((sc K (Y.2 * Y.2) : ℕ) : ℝ) + 1 / 2 ^ K * ((sc K ((2 ^ K + Y.2) * (d1 + d2)) : ℕ) : ℝ) + 1 / 2 ^ K * ((sc K (B.sum * d3) : ℕ) : ℝ) := by
      push_cast; ring
    rw [e5]
    linarith
  refine ⟨t, s, y', t1, s1, y1, ⟨y3, by rw [y2, ha.len], ?_, by rw [hstep]; exact hres'⟩⟩
  rw [hstep]
  refine tight_bd y4 ?_
  have h1 : |β * y'.sum| ≤ 1 * ((2 ^ K + E : ℕ) : ℝ) / 2 ^ K := by
    have h2 : 1 * ((2 ^ K + E : ℕ) : ℝ) / 2 ^ K = 1 + (E : ℝ) / 2 ^ K := by push_cast; field_simp
    rw [h2]
    calc |β * y'.sum| = |1 - (1 - β * y'.sum)| := by congr 1; ring
      _ ≤ |(1 : ℝ)| + |1 - β * y'.sum| := abs_sub _ _
      _ ≤ _ := by rw [abs_one]; linarith
  have := hd.quot zero_le_one h1
  rwa [one_mul] at this

/-- The first approximation. -/
theorem invStart_bd (hp : 4 ≤ F.p) (h : F.Rounds rn) {K : ℕ} {X : ℝ} {x : List ℝ} {B : List ℕ} (hη : F.eta ≤ 1 / X / 2 ^ K)
    (hd : Divisor F K X x B) : Approx F K X x (ofSmall x.length (rn (1 / x.headD 0))) (invStartB F.p K B) := by
  have hX := hd.pos
  have hn : 0 < x.length := by obtain ⟨b, l, rfl, _⟩ := hd.head; simp
  have hBl : B.length = x.length := (List.Forall₂.length_eq hd.bds).symm
  have hK : (0 : ℝ) < 2 ^ K := by positivity
  have hu := u_pos (F := F)
  obtain ⟨b, l, hx, hb⟩ := hd.head
  have hb0 : b ≠ 0 := by
    rintro rfl
    rw [abs_zero] at hb
    linarith
  have hhead : x.headD 0 = b := by rw [hx]; rfl
  rw [hhead]
  have e1 := abs_error (show 1 ≤ F.p by omega) (h (1 / b))
  have hinv : |1 / b| = 1 / X := by rw [abs_div, abs_one, hb]
  rw [hinv] at e1
  have hup : F.u * (1 / X) ≤ 1 / X / 2 ^ K * (up F.p (2 ^ K) : ℕ) := by
    have := u_up (F := F) (ω := 1 / X / 2 ^ K) (by positivity) (2 ^ K)
    refine le_trans (le_of_eq ?_) this
    push_cast; field_simp
  have e2 : |1 / b - rn (1 / b)| ≤ 1 / X / 2 ^ K * ((up F.p (2 ^ K) + 1 : ℕ) : ℝ) := by
    push_cast
    rw [mul_add, mul_one]
    linarith
  have e3 : |rn (1 / b)| ≤ 1 / X / 2 ^ K * ((2 ^ K + up F.p (2 ^ K) + 1 : ℕ) : ℝ) := by
    have h1 : |rn (1 / b)| ≤ |1 / b| + |1 / b - rn (1 / b)| := by
      calc |rn (1 / b)| = |1 / b - (1 / b - rn (1 / b))| := by congr 1; ring
        _ ≤ _ := abs_sub _ _
    rw [hinv] at h1
    have h2 : 1 / X / 2 ^ K * ((2 ^ K + up F.p (2 ^ K) + 1 : ℕ) : ℝ) = 1 / X + 1 / X / 2 ^ K * ((up F.p (2 ^ K) + 1 : ℕ) : ℝ) := by
      push_cast; field_simp; ring
    rw [h2]; linarith
  refine ⟨ofSmall_rep (h _).1, ofSmall_length hn _, ?_, ?_⟩
  · show Bds _ _ ((2 ^ K + up F.p (2 ^ K) + 1) :: List.replicate (B.length - 1) 0)
    rw [hBl]
    exact ofSmall_bd e3
  · rw [ofSmall_sum]
    show _ ≤ ((up F.p (2 ^ K) + 1 + sc K (B.tail.sum * (2 ^ K + up F.p (2 ^ K) + 1)) : ℕ) : ℝ) / 2 ^ K
    have hl : |l.sum| ≤ X / 2 ^ K * (B.tail.sum : ℕ) := by
      have hbd := hd.bds
      rw [hx] at hbd
      unfold Bds at hbd
      cases hbd with
      | cons _ h2 => exact bds_sum h2
    have hs : x.sum = b + l.sum := by rw [hx, List.sum_cons]
    have h1 : 1 - x.sum * rn (1 / b) = b * (1 / b - rn (1 / b)) - l.sum * rn (1 / b) := by
      rw [hs, mul_sub, mul_one_div_cancel hb0]; ring
    rw [h1]
    refine (abs_sub _ _).trans ?_
    rw [abs_mul, abs_mul, hb]
    have h2 := mul_le_mul_of_nonneg_left e2 hX.le
    have h3 := mul_le_mul hl e3 (abs_nonneg _) (by positivity)
    have h4 : X * (1 / X / 2 ^ K * ((up F.p (2 ^ K) + 1 : ℕ) : ℝ)) = ((up F.p (2 ^ K) + 1 : ℕ) : ℝ) / 2 ^ K := by field_simp
    have h5 : X / 2 ^ K * (B.tail.sum : ℕ) * (1 / X / 2 ^ K * ((2 ^ K + up F.p (2 ^ K) + 1 : ℕ) : ℝ)) =
        ((B.tail.sum * (2 ^ K + up F.p (2 ^ K) + 1) : ℕ) : ℝ) / 2 ^ K / 2 ^ K := by push_cast; field_simp
    have h6 := div_le_div_of_nonneg_right (sc_ge K (B.tail.sum * (2 ^ K + up F.p (2 ^ K) + 1))) hK.le
    rw [Nat.cast_add, add_div]
    rw [h4] at h2
    rw [h5] at h3
    linarith

theorem invLoop_bd (hp : 4 ≤ F.p) (he : F.emin ≤ 0) (h : F.Rounds rn) {K : ℕ} {X : ℝ} {x : List ℝ} {B : List ℕ} (hθ1 : F.theta ≤ 1 / 2 ^ K)
    (hθ2 : F.theta ≤ 1 / X / 2 ^ K) (hd : Divisor F K X x B) : ∀ (k j : ℕ) (y : List ℝ), Approx F K X x y (invB F.p K B j) →
      ∃ r, invLoop rn x k y = .ok r ∧ Approx F K X x r (invB F.p K B (j + k)) := by
  intro k
  induction k with
  | zero => intro j y hy; exact ⟨y, rfl, hy⟩
  | succ k ih =>
    intro j y hy
    obtain ⟨t, s, y', h1, h2, h3, h4⟩ := invStep_bd hp he h hθ1 hθ2 hd hy
    obtain ⟨r, h5, h6⟩ := ih (j + 1) y' h4
    refine ⟨r, ?_, by rwa [show j + 1 + k = j + (k + 1) by omega] at h6⟩
    rw [invLoop, h1, bok, h2, bok, h3, bok, h5]

theorem eta_le_theta : F.eta ≤ F.theta := by
  have ht := theta_pos (F := F)
  have hu1 : F.u ≤ 1 := by
    unfold Fmt.u
    rw [div_le_one (by positivity)]
    exact one_le_pow₀ (by norm_num)
  have := mul_le_mul_of_nonneg_right hu1 ht.le
  have := eta_eq (F := F)
  have := eta_pos (F := F)
  linarith

theorem inv_bd (hp : 4 ≤ F.p) (he : F.emin ≤ 0) (h : F.Rounds rn) {K : ℕ} {X : ℝ} {x : List ℝ} {B : List ℕ} (hθ1 : F.theta ≤ 1 / 2 ^ K)
    (hθ2 : F.theta ≤ 1 / X / 2 ^ K) (hd : Divisor F K X x B) :
    ∃ r, invExp rn x = .ok r ∧ Approx F K X x r (invB F.p K B x.length) := by
  obtain ⟨r, h1, h2⟩ := invLoop_bd hp he h hθ1 hθ2 hd x.length 0 _ (invStart_bd hp h (eta_le_theta.trans hθ2) hd)
  exact ⟨r, h1, by rwa [Nat.zero_add] at h2⟩

/-! ## The division -/

/-- The division on bounds: of the components of the quotient and of its residue. -/
def divB (p K : ℕ) (A B : List ℕ) (v : List ℕ × ℕ) : List ℕ × ℕ :=
  let y := mulB p K A v.1
  let r := sc K (A.sum * v.2) + sc K (B.sum * y.2)
  let yt := tight y.1 ((2 ^ K + (A.tail.sum + r)) * 2 ^ K / (2 ^ K - B.tail.sum) + 1)
  let c := mulB p K B yt
  let d := addB p (tight c.1 (A.sum + r + c.2)) A
  let f := mulB p K (tight d.1 (r + c.2 + d.2)) v.1
  let q := addB p yt f.1
  (q.1, sc K (r * v.2) + sc K ((2 ^ K + v.2) * (c.2 + d.2)) + sc K (B.sum * (f.2 + q.2)))

theorem div_bd (hp : 4 ≤ F.p) (h : F.Rounds rn) {K : ℕ} {X W : ℝ} {a b v : List ℝ} {A B : List ℕ} {V : List ℕ × ℕ} (hW : 0 < W)
    (hθ1 : F.theta ≤ W * (1 / X) / 2 ^ K) (hθ2 : F.theta ≤ W / 2 ^ K) (hb : Divisor F K X b B) (hl : a.length = b.length)
    (ra : ∀ z ∈ a, F.Rep z) (ha : Bds (W / 2 ^ K) a A) (hA : A.headD 0 = 2 ^ K) (hv : Approx F K X b v V) :
    ∃ y c d f q, collangeMul rn a v = .ok y ∧ collangeMul rn b y = .ok c ∧ collangeSub rn c a = .ok d ∧ collangeMul rn d v = .ok f ∧
      collangeSub rn y f = .ok q ∧ q.length = a.length ∧ (∀ z ∈ q, F.Rep z) ∧ Bds (W * (1 / X) / 2 ^ K) q (divB F.p K A B V).1 ∧
      |b.sum * q.sum - a.sum| ≤ W / 2 ^ K * (divB F.p K A B V).2 := by
  have hX := hb.pos
  have hX' : X ≠ 0 := hX.ne'
  have hn : 0 < b.length := by obtain ⟨z, l, rfl, _⟩ := hb.head; simp
  have hK : (0 : ℝ) < 2 ^ K := by positivity
  have hX1 : X * (W * (1 / X)) = W := by field_simp
  have hω : 0 ≤ W * (1 / X) / 2 ^ K := by positivity
  have hβ := hb.upper
  have hα := bds_sum ha
  have hres := hv.res
  set β := b.sum
  set α := a.sum
  -- the first quotient
  obtain ⟨y, y1, y2, y3, y4, y5⟩ := mul_bd (by omega) h hW.le (one_div_pos.mpr hX).le hθ1 (by omega) (by rw [hl]; exact hb.len) hp (by rw [hv.len, hl])
    ra hv.rep ha hv.bds
  set yB := mulB F.p K A V.1 with hyB
  set r := sc K (A.sum * V.2) + sc K (B.sum * yB.2) with hr
  have hr0 : |β * y.sum - α| ≤ W / 2 ^ K * (r : ℝ) := by
    have h1 : β * y.sum - α = -(α * (1 - β * v.sum)) - β * (α * v.sum - y.sum) := by ring
    have e1 : |α * (1 - β * v.sum)| ≤ W / 2 ^ K * ((sc K (A.sum * V.2) : ℕ) : ℝ) := by
      rw [abs_mul]
      refine (mul_le_mul hα hres (abs_nonneg _) (by positivity)).trans ?_
      have h4 := mul_le_mul_of_nonneg_left (sc_ge K (A.sum * V.2)) (show 0 ≤ W / 2 ^ K by positivity)
      refine le_trans (le_of_eq ?_) h4
      push_cast; ring
    have e2 : |β * (α * v.sum - y.sum)| ≤ W / 2 ^ K * ((sc K (B.sum * yB.2) : ℕ) : ℝ) := by
      rw [abs_mul]
      refine (mul_le_mul hβ y5 (abs_nonneg _) (by positivity)).trans ?_
      have h4 := mul_le_mul_of_nonneg_left (sc_ge K (B.sum * yB.2)) (show 0 ≤ W / 2 ^ K by positivity)
      refine le_trans (le_of_eq ?_) h4
      push_cast; field_simp
    rw [h1, hr]
    refine (abs_sub _ _).trans ?_
    rw [abs_neg]
    push_cast
    linarith
  have hAs : A.sum = 2 ^ K + A.tail.sum := by
    rw [← hA]
    cases A with
    | nil => simp
    | cons C A => simp
  have hyq : |β * y.sum| ≤ W * ((2 ^ K + (A.tail.sum + r) : ℕ) : ℝ) / 2 ^ K := by
    have h1 : |β * y.sum| ≤ |α| + |β * y.sum - α| := by
      calc |β * y.sum| = |α + (β * y.sum - α)| := by congr 1; ring
        _ ≤ _ := abs_add_le _ _
    have h2 : W * ((2 ^ K + (A.tail.sum + r) : ℕ) : ℝ) / 2 ^ K = W / 2 ^ K * (A.sum : ℕ) + W / 2 ^ K * (r : ℝ) := by
      rw [hAs]; push_cast; ring
    rw [h2]; linarith
  have yt := tight_bd y4 (hb.quot hW.le hyq)
  set ytB := tight yB.1 ((2 ^ K + (A.tail.sum + r)) * 2 ^ K / (2 ^ K - B.tail.sum) + 1) with hytB
  have hylen : y.length = b.length := by rw [y2, hl]
  -- the product with the divisor
  obtain ⟨c, c1, c2, c3, c4, c5⟩ := mul_bd (by omega) h hX.le (by positivity : 0 ≤ W * (1 / X)) (by rw [hX1]; exact hθ2) hn hb.len hp hylen.symm
    hb.rep y3 hb.bds yt
  rw [hX1] at c4 c5
  set cB := mulB F.p K B ytB with hcB
  have hc : |c.sum| ≤ W / 2 ^ K * ((A.sum + r + cB.2 : ℕ) : ℝ) := by
    have h1 : c.sum = α + (β * y.sum - α) - (β * y.sum - c.sum) := by ring
    rw [h1]
    refine (abs_sub _ _).trans ?_
    have := abs_add_le α (β * y.sum - α)
    push_cast
    linarith
  have ct := tight_bd c4 hc
  -- the residue
  obtain ⟨d, d1, d2, d3, d4, d5⟩ := sub_bd (by omega) h (ω := W / 2 ^ K) (by positivity) (x := c) (y := a) (by rw [c2, hl]) c3 ra ct ha
  set dB := addB F.p (tight cB.1 (A.sum + r + cB.2)) A with hdB
  have hdv : |d.sum - (β * y.sum - α)| ≤ W / 2 ^ K * ((cB.2 + dB.2 : ℕ) : ℝ) := by
    have h1 : d.sum - (β * y.sum - α) = -(β * y.sum - c.sum) - (c.sum - a.sum - d.sum) := by ring
    rw [h1]
    refine (abs_sub _ _).trans ?_
    rw [abs_neg]
    push_cast
    linarith
  have hds : |d.sum| ≤ W / 2 ^ K * ((r + cB.2 + dB.2 : ℕ) : ℝ) := by
    have h1 : |d.sum| ≤ |β * y.sum - α| + |d.sum - (β * y.sum - α)| := by
      calc |d.sum| = |(β * y.sum - α) + (d.sum - (β * y.sum - α))| := by congr 1; ring
        _ ≤ _ := abs_add_le _ _
    push_cast at *
    linarith
  have dt := tight_bd d4 hds
  -- the correction
  obtain ⟨f, f1, f2, f3, f4, f5⟩ := mul_bd (by omega) h hW.le (one_div_pos.mpr hX).le hθ1 (x := d) (y := v) (by rw [d2, c2]; exact hn)
    (by rw [d2, c2]; exact hb.len) hp (by rw [d2, c2, hv.len]) d3 hv.rep dt hv.bds
  set fB := mulB F.p K (tight dB.1 (r + cB.2 + dB.2)) V.1 with hfB
  -- the quotient
  obtain ⟨q, q1, q2, q3, q4, q5⟩ := sub_bd (by omega) h hω (x := y) (y := f) (by rw [f2, d2, c2, hylen]) y3 f3 yt f4
  set qB := addB F.p ytB fB.1 with hqB
  refine ⟨y, c, d, f, q, y1, c1, d1, f1, q1, by rw [q2, y2], q3, q4, ?_⟩
  have hdiv : (divB F.p K A B V).2 = sc K (r * V.2) + sc K ((2 ^ K + V.2) * (cB.2 + dB.2)) + sc K (B.sum * (fB.2 + qB.2)) := rfl
  rw [hdiv]
  have hβv : |β * v.sum| ≤ 1 + (V.2 : ℝ) / 2 ^ K := by
    calc |β * v.sum| = |1 - (1 - β * v.sum)| := by congr 1; ring
      _ ≤ |(1 : ℝ)| + |1 - β * v.sum| := abs_sub _ _
      _ ≤ _ := by rw [abs_one]; linarith
  have h1 : β * q.sum - α = (β * y.sum - α) * (1 - β * v.sum) - (β * v.sum) * (d.sum - (β * y.sum - α)) +
      β * ((d.sum * v.sum - f.sum) - (y.sum - f.sum - q.sum)) := by ring
  have e1 : |(β * y.sum - α) * (1 - β * v.sum)| ≤ W / 2 ^ K * ((sc K (r * V.2) : ℕ) : ℝ) := by
    rw [abs_mul]
    refine (mul_le_mul hr0 hres (abs_nonneg _) (by positivity)).trans ?_
    have h4 := mul_le_mul_of_nonneg_left (sc_ge K (r * V.2)) (show 0 ≤ W / 2 ^ K by positivity)
    refine le_trans (le_of_eq ?_) h4
    push_cast; ring
  have e2 : |(β * v.sum) * (d.sum - (β * y.sum - α))| ≤ W / 2 ^ K * ((sc K ((2 ^ K + V.2) * (cB.2 + dB.2)) : ℕ) : ℝ) := by
    rw [abs_mul]
    refine (mul_le_mul hβv hdv (abs_nonneg _) (by positivity)).trans ?_
    have h4 := mul_le_mul_of_nonneg_left (sc_ge K ((2 ^ K + V.2) * (cB.2 + dB.2))) (show 0 ≤ W / 2 ^ K by positivity)
    refine le_trans (le_of_eq ?_) h4
    push_cast; field_simp
  have e3 : |β * ((d.sum * v.sum - f.sum) - (y.sum - f.sum - q.sum))| ≤ W / 2 ^ K * ((sc K (B.sum * (fB.2 + qB.2)) : ℕ) : ℝ) := by
    have h2 : |(d.sum * v.sum - f.sum) - (y.sum - f.sum - q.sum)| ≤ W * (1 / X) / 2 ^ K * ((fB.2 + qB.2 : ℕ) : ℝ) := by
      refine (abs_sub _ _).trans ?_
      push_cast
      rw [mul_add]
      exact add_le_add f5 q5
    rw [abs_mul]
    refine (mul_le_mul hβ h2 (abs_nonneg _) (by positivity)).trans ?_
    have h4 := mul_le_mul_of_nonneg_left (sc_ge K (B.sum * (fB.2 + qB.2))) (show 0 ≤ W / 2 ^ K by positivity)
    refine le_trans (le_of_eq ?_) h4
    push_cast; field_simp
  rw [h1]
  refine (abs_add_le _ _).trans ?_
  have e4 := abs_sub ((β * y.sum - α) * (1 - β * v.sum)) ((β * v.sum) * (d.sum - (β * y.sum - α)))
  push_cast
  linarith

end Mandelbrot.Float
