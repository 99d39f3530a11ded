import Verif.FFT.RoundedText

/-!
# Specification: rounding errors of the generated loops
-/

namespace Mandelbrot.Spec

open FFT Finset

variable {R : Type}

/-- The complex number meant by a pair. -/
def cval (val : R → ℝ) (z : R × R) : ℂ := ⟨val z.1, val z.2⟩

/-- Euclidean length of a span of numbers. -/
noncomputable def size (val : R → ℝ) (x : Span R) : ℝ := Real.sqrt (∑ i ∈ range x.len, val (x.get i) ^ 2)

/-- Coefficient `k` of the product of the polynomials with the given coefficients. -/
noncomputable def coef (val : R → ℝ) (x y : Span R) (k : ℕ) : ℝ :=
  ∑ i ∈ range x.len, ∑ j ∈ range y.len, if i + j = k then val (x.get i) * val (y.get j) else 0

/-- Roots of unity of the first and last pass for size `2^p`. -/
noncomputable def root (p : ℕ) (k : ℤ) : ℂ := cis k (2 * 2 ^ p)

/-- The loop bodies for size `2^p` are accurate: a result differs from that of the same body in exact arithmetic, on
the same inputs, by at most `κ` times the sum of the absolute values of the inputs, and it depends on the cells the
body reads only. -/
structure Within [Zero R] (K : Codelets R) (val : R → ℝ) (κ : ℝ) (p : ℕ) : Prop where
  nonneg : 0 ≤ κ
  zero : val 0 = 0
  first : ∀ j < 2 ^ (p - firstRadix p), ∀ xs : ℕ → R, ∀ i < 2 ^ firstRadix p / 2,
    ‖cval val (K.first p j xs i) -
        firstLevels (firstRadix p) j (2 ^ (p - firstRadix p)) (1 <<< (p - 3)) (root p) (fun i => val (xs i)) i‖ ≤
      κ * ∑ i ∈ range (2 ^ firstRadix p), |val (xs i)|
  level : ∀ r, r = 1 ∨ r = 2 ∨ r = 3 → ∀ s, s + r ≤ p - 3 → ∀ j < 2 ^ s, ∀ ys : ℕ → R × R, ∀ i < 2 ^ r,
    ‖cval val (K.level r s j ys i) - butterflyR r j (slice (s + r - 1)) (fun i => cval val (ys i)) i‖ ≤
      κ * ∑ i ∈ range (2 ^ r), ‖cval val (ys i)‖
  level_local : ∀ r, r = 1 ∨ r = 2 ∨ r = 3 → ∀ s j ys ys', (∀ i < 2 ^ r, ys i = ys' i) → ∀ i < 2 ^ r, K.level r s j ys i = K.level r s j ys' i
  mulc : ∀ a b, ‖cval val (K.mulc (2 ^ (p - 1)) a b) - cval val a * cval val b / 2 ^ (p - 1)‖ ≤
    κ * (‖cval val a‖ * ‖cval val b‖ / 2 ^ (p - 1))
  sqrc : ∀ a, ‖cval val (K.sqrc (2 ^ (p - 1)) a) - cval val a * cval val a / 2 ^ (p - 1)‖ ≤
    κ * (‖cval val a‖ * ‖cval val a‖ / 2 ^ (p - 1))
  ilevel : ∀ r, r = 1 ∨ r = 2 ∨ r = 3 → ∀ s, s + r ≤ p - 3 → ∀ j < 2 ^ s, ∀ ys : ℕ → R × R, ∀ i < 2 ^ r,
    ‖cval val (K.ilevel r s j ys i) -
        transposeC (2 ^ r) (butterflyR r j (slice (s + r - 1))) (fun i => cval val (ys i)) i‖ ≤
      κ * ∑ i ∈ range (2 ^ r), ‖cval val (ys i)‖
  ilevel_local : ∀ r, r = 1 ∨ r = 2 ∨ r = 3 → ∀ s j ys ys', (∀ i < 2 ^ r, ys i = ys' i) → ∀ i < 2 ^ r, K.ilevel r s j ys i = K.ilevel r s j ys' i
  last : 1 ≤ p → ∀ j < 2 ^ (p - firstRadix p), ∀ ys : ℕ → R × R, ∀ i < 2 ^ firstRadix p,
    |val (K.last p j ys i) -
        transposeR (2 ^ firstRadix p / 2)
          (firstLevels (firstRadix p) j (2 ^ (p - firstRadix p)) (1 <<< (p - 3)) (root p)) (fun i => cval val (ys i)) i| ≤
      κ * ∑ i ∈ range (2 ^ firstRadix p / 2), ‖cval val (ys i)‖
  mulBase : ∀ n ≤ 8, ∀ x y, ∀ k < n,
    |val (K.mulBase n x y k) - ∑ j ∈ range (k + 1), val (x.getZ j) * val (y.getZ (k - j))| ≤
      κ * ∑ j ∈ range (k + 1), |val (x.getZ j)| * |val (y.getZ (k - j))|
  sqrBase : ∀ n ≤ 8, ∀ x, ∀ k < n,
    |val (K.sqrBase n x k) - ∑ j ∈ range (k + 1), val (x.getZ j) * val (x.getZ (k - j))| ≤
      κ * ∑ j ∈ range (k + 1), |val (x.getZ j)| * |val (x.getZ (k - j))|
  add : ∀ a b, |val (K.add a b) - (val a + val b)| ≤ κ * (|val a| + |val b|)

/-- Number of passes of a transform of size `2^p`: one for the first or last levels, and the others by threes. -/
def passes (p : ℕ) : ℕ := (p - 3 + 2) / 3 + 1

/-- Growth of errors over a product with transforms of size `2^p`: two forward transforms, where a pass multiplies by
at most `1 + 3κ`, the pointwise product, and one backward transform. -/
noncomputable def grow (κ : ℝ) (p : ℕ) : ℝ := (1 + 3 * κ) ^ (2 * passes p) * (1 + κ) ^ (passes p + 1)

/-- An arithmetic with relative error `ε`: sums within `ε` times the sum of the absolute values, products within `ε`
times the product, negation and doubling exact. -/
structure Accurate [Zero R] (A : Arith R) (val : R → ℝ) (ε : ℝ) : Prop where
  nonneg : 0 ≤ ε
  zero : val 0 = 0
  add : ∀ a b, |val (A.add a b) - (val a + val b)| ≤ ε * (|val a| + |val b|)
  sub : ∀ a b, |val (A.sub a b) - (val a - val b)| ≤ ε * (|val a| + |val b|)
  mul : ∀ a b, |val (A.mul a b) - val a * val b| ≤ ε * (|val a| * |val b|)
  neg : ∀ a, val (A.neg a) = -val a
  twice : ∀ a, val (A.twice a) = 2 * val a

/-- Constants with relative error `ε`. -/
structure AccurateTables (T : Tables R) (val : R → ℝ) (ε : ℝ) : Prop where
  slice : ∀ s j, ‖cval val (T.slice s j) - cis j (2 * 2 ^ s)‖ ≤ ε
  few : ∀ s j, 0 ≤ j → j < 4 → ‖cval val (T.few s j) - cis j (2 * 2 ^ s)‖ ≤ ε
  const : ∀ j s, ‖cval val (T.const j s) - cis j (2 * 2 ^ s)‖ ≤ ε
  half : |val T.half - Real.sqrt (1 / 2)| ≤ ε * Real.sqrt (1 / 2)
  inv : ∀ k, |val (T.inv (2 ^ k)) - 1 / 2 ^ k| ≤ ε * (1 / 2 ^ k)

end Mandelbrot.Spec
