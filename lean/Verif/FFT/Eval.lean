import Verif.FFT.Srfft

/-!
# The transforms evaluate polynomials at roots of unity
-/

namespace Mandelbrot.FFT

open Complex

local notation "conj" => starRingEnd ℂ

/-- The terms of `Σ x_i ζ^i` with `i = j` modulo `M`, for `L` values of the quotient. -/
noncomputable def part (L M : ℕ) (X : ℕ → ℂ) (ζ : ℂ) (j : ℕ) : ℂ :=
  ∑ l ∈ Finset.range L, X (j + l * M) * ζ ^ (j + l * M)

theorem sum_two_mul (L : ℕ) (g : ℕ → ℂ) :
    ∑ l ∈ Finset.range (2 * L), g l = ∑ l ∈ Finset.range L, (g (2 * l) + g (2 * l + 1)) := by
  induction L with
  | zero => simp
  | succ L ih =>
    rw [show 2 * (L + 1) = 2 * L + 1 + 1 by ring, Finset.sum_range_succ, Finset.sum_range_succ, ih,
      Finset.sum_range_succ]
    ring

theorem part_add (L M : ℕ) (X : ℕ → ℂ) (ζ : ℂ) (j : ℕ) :
    part L (2 * M) X ζ j + part L (2 * M) X ζ (j + M) = part (2 * L) M X ζ j := by
  rw [part, part, part, sum_two_mul, ← Finset.sum_add_distrib]
  refine Finset.sum_congr rfl fun l _ => ?_
  rw [show j + 2 * l * M = j + l * (2 * M) by ring, show j + (2 * l + 1) * M = j + M + l * (2 * M) by ring]

theorem part_sub (L M : ℕ) (X : ℕ → ℂ) (ζ v : ℂ) (hv : v ^ M = -1) (j : ℕ) :
    v ^ j * (part L (2 * M) X ζ j - part L (2 * M) X ζ (j + M)) = part (2 * L) M X (v * ζ) j := by
  rw [part, part, part, sum_two_mul, ← Finset.sum_sub_distrib, Finset.mul_sum]
  refine Finset.sum_congr rfl fun l _ => ?_
  have h2 : v ^ (l * (2 * M)) = 1 := by
    rw [show l * (2 * M) = M * 2 * l by ring, pow_mul, pow_mul, hv]; simp
  rw [show j + 2 * l * M = j + l * (2 * M) by ring, show j + (2 * l + 1) * M = j + M + l * (2 * M) by ring,
    mul_pow, mul_pow, pow_add v j (l * (2 * M)), pow_add v (j + M), pow_add v j M, hv, h2]
  ring

theorem conj_part (L M : ℕ) (x : ℕ → ℝ) (ζ : ℂ) (j : ℕ) :
    conj (part L M (fun i => (x i : ℂ)) ζ j) = part L M (fun i => (x i : ℂ)) (conj ζ) j := by
  simp [part, map_sum]

/-! ## The shifted transform -/

/-- Exponents of the roots at which the scrambled transform of size `2^(d+1)` evaluates: cell `q` is the value at
`exp(-2πi sexp(d, q) / 2^(d+2))`. -/
def sexp : ℕ → ℕ → ℤ
  | 0, _ => 1
  | d + 1, q => if q % 2 = 0 then sexp d (q / 2) else 2 ^ (d + 2) - sexp d (q / 2)

/-- The state after the levels down to `s`, `2^d` blocks of `2^s` cells. -/
def Blocks (s d : ℕ) (x : ℕ → ℝ) (y : ℕ → ℂ) : Prop :=
  ∀ q < 2 ^ d, ∀ j < 2 ^ s,
    y (q * 2 ^ s + j) = part (2 ^ (d + 1)) (2 ^ s) (fun i => (x i : ℂ)) (cis (-sexp d q) (2 * 2 ^ (s + d + 1))) j

theorem cis_pow_half (s : ℕ) : cis 1 (2 * 2 ^ s) ^ 2 ^ s = -1 := by
  rw [cis_pow, one_mul]; exact cis_half (by positivity)

theorem levF_eq_pow (s j : ℕ) : levF s j = cis 1 (2 * 2 ^ s) ^ j := by
  rw [levF, cis_pow, one_mul]

theorem Blocks.lev {s d : ℕ} {x : ℕ → ℝ} {y : ℕ → ℂ} (h : Blocks (s + 1) d x y) : Blocks s (d + 1) x (lev s y) := by
  intro q hq j hj
  have hq2 : q / 2 < 2 ^ d := by
    rw [pow_succ] at hq; omega
  have hbase : ∀ j, q / 2 * (2 * 2 ^ s) + j = q / 2 * 2 ^ (s + 1) + j := by intro j; rw [pow_succ]; ring
  have h1 := h (q / 2) hq2 j (by rw [pow_succ]; omega)
  have h2 := h (q / 2) hq2 (j + 2 ^ s) (by rw [pow_succ]; omega)
  rw [← hbase] at h1 h2
  rw [← add_assoc, add_right_comm] at h2
  rw [show s + 1 + d + 1 = s + (d + 1) + 1 by ring] at h1 h2
  rw [show (2 : ℕ) ^ (s + 1) = 2 * 2 ^ s by rw [pow_succ]; ring] at h1 h2
  rcases Nat.even_or_odd' q with ⟨q', rfl | rfl⟩
  · have e : 2 * q' / 2 = q' := by omega
    rw [e] at h1 h2
    rw [show 2 * q' * 2 ^ s + j = q' * (2 * 2 ^ s) + j by ring, FFT.lev, levW_lo _ _ _ _ hj, h1, h2,
      show (2 : ℕ) ^ (d + 1 + 1) = 2 * 2 ^ (d + 1) by rw [pow_succ]; ring, sexp, if_pos (by omega), e]
    exact part_add _ _ _ _ _
  · have e : (2 * q' + 1) / 2 = q' := by omega
    rw [e] at h1 h2
    rw [show (2 * q' + 1) * 2 ^ s + j = q' * (2 * 2 ^ s) + 2 ^ s + j by ring, FFT.lev, levW_hi _ _ _ _ hj, h1, h2,
      show (2 : ℕ) ^ (d + 1 + 1) = 2 * 2 ^ (d + 1) by rw [pow_succ]; ring, sexp, if_neg (by omega), e, levF_eq_pow,
      part_sub _ _ _ _ _ (cis_pow_half s), conj_part]
    congr 1
    rw [map_mul, conj_cis, conj_cis, neg_neg]
    have : cis (-1) (2 * 2 ^ s) = cis (-2 ^ (d + 2)) (2 * 2 ^ (s + (d + 1) + 1)) := by
      have := cis_cancel (-1) (n := 2 * 2 ^ s) (k := 2 ^ (d + 2)) (by positivity)
      rw [← this]
      congr 1
      · push_cast; ring
      · rw [show s + (d + 1) + 1 = s + (d + 2) by ring, pow_add 2 s]; ring
    rw [this, ← cis_add]
    congr 1; ring

theorem blocks_levsDown {s d : ℕ} {x : ℕ → ℝ} {y : ℕ → ℂ} (h : Blocks s d x y) : Blocks 0 (s + d) x (levsDown s y) := by
  induction s generalizing d y with
  | zero => simpa [levsDown] using h
  | succ s ih =>
    have := ih h.lev
    rw [show s + (d + 1) = s + 1 + d by ring] at this
    exact this

theorem blocks_first (s : ℕ) (x : ℕ → ℝ) :
    Blocks s 1 x (b1W (2 ^ s) (facA (s + 2)) (facB (s + 2)) (b0 (2 ^ (s + 1)) x)) := by
  have hE := E8_ne_zero
  have hb : ∀ k, b0 (2 ^ (s + 1)) x k = x k + E8⁻¹ ^ 2 * x (k + 2 ^ (s + 1)) := by
    intro k
    rw [inv_pow, E8_sq]
    apply Complex.ext <;> simp [b0]
  have hζ : ∀ a : ℤ, cis a (2 * 2 ^ (s + 2)) ^ 2 ^ s = cis a 8 := by
    intro a
    rw [cis_pow, pow_add]
    have := cis_cancel a (n := 8) (k := 2 ^ s) (by positivity)
    rw [← this]
    congr 1
    ring
  have hc1 : cis (-1) 8 = E8⁻¹ := by rw [cis_neg, cis_one_eight]
  have hc3 : cis (-3) 8 = E8⁻¹ ^ 3 := by
    rw [← hc1, cis_pow]; rfl
  have hE4 := E8_pow_four
  intro q hq j hj
  have hpart : ∀ (ζ e : ℂ), ζ ^ 2 ^ s = e → part (2 ^ (1 + 1)) (2 ^ s) (fun i => (x i : ℂ)) ζ j =
      ζ ^ j * (x j + x (j + 2 ^ s) * e + x (j + 2 * 2 ^ s) * e ^ 2 + x (j + 3 * 2 ^ s) * e ^ 3) := by
    intro ζ e he
    rw [show 2 ^ (1 + 1) = 4 by norm_num, part]
    simp only [Finset.sum_range_succ, Finset.sum_range_zero, pow_add, pow_mul']
    simp only [he]
    simp only [zero_mul, add_zero, one_mul]
    ring
  have hz1 : j + 2 ^ (s + 1) = j + 2 * 2 ^ s := by rw [pow_succ]; ring
  have hz2 : j + 2 ^ s + 2 ^ (s + 1) = j + 3 * 2 ^ s := by rw [pow_succ]; ring
  have hq2 : q < 2 := by simpa using hq
  interval_cases q
  · rw [zero_mul, zero_add, b1W, if_pos hj, hb, hb, hz1, hz2]
    have hs : sexp 1 0 = 1 := by simp [sexp]
    rw [hs, show s + 1 + 1 = s + 2 by ring, hpart _ _ ((hζ (-1)).trans hc1), facA, conj_cis]
    have : cis (-1) (2 * 2 ^ (s + 2)) ^ j = cis (-j) (2 * 2 ^ (s + 2)) := by
      rw [cis_pow]; congr 1; ring
    rw [this]
    ring
  · rw [one_mul, b1W, if_neg (by omega), Nat.add_sub_cancel_left, hb, hb, add_comm (2 ^ s) j, hz1, hz2]
    have hs : sexp 1 1 = 3 := by simp [sexp]
    rw [hs, show s + 1 + 1 = s + 2 by ring, hpart _ _ ((hζ (-3)).trans hc3), facB]
    have : cis (-3) (2 * 2 ^ (s + 2)) ^ j = cis (-(3 * j)) (2 * 2 ^ (s + 2)) := by
      rw [cis_pow]; congr 1
    rw [this]
    simp only [map_mul, map_sub, map_add, conj_cis, map_pow, map_inv₀, conj_E8, conj_ofReal, inv_inv]
    congr 1
    have e2 : E8⁻¹ ^ 3 = -E8 := by
      field_simp
      linear_combination hE4
    have e6 : (E8⁻¹ ^ 3) ^ 2 = E8 ^ 2 := by rw [e2]; ring
    have e9 : (E8⁻¹ ^ 3) ^ 3 = -E8 ^ 3 := by rw [e2]; ring
    rw [e6, e9, e2]
    ring

/-- Value of the polynomial with coefficients `x_0, ..., x_{n-1}`. -/
noncomputable def polyVal (n : ℕ) (x : ℕ → ℝ) (ζ : ℂ) : ℂ := ∑ i ∈ Finset.range n, (x i : ℂ) * ζ ^ i

/-- The scrambled transform of size `2^p` evaluates at the roots `exp(-2πi sexp(p-1, k)/2^(p+1))`. -/
theorem fwd_eval {p : ℕ} (hp : 1 ≤ p) (x : ℕ → ℝ) {k : ℕ} (hk : k < 2 ^ (p - 1)) :
    fwd p x k = polyVal (2 ^ p) x (cis (-sexp (p - 1) k) (2 * 2 ^ p)) := by
  by_cases h1 : p = 1
  · subst h1
    have hk0 : k = 0 := by simpa using hk
    subst hk0
    rw [fwd, if_pos rfl, polyVal]
    have : cis (-sexp (1 - 1) 0) (2 * 2 ^ 1) = -I := by
      have h := cis_quarter (n := 1) (by norm_num)
      have h0 : sexp (1 - 1) 0 = ((1 : ℕ) : ℤ) := rfl
      rw [cis_neg, h0, show 2 * 2 ^ 1 = 4 * 1 by norm_num, h, inv_I]
    rw [this]
    simp only [pow_one, Finset.sum_range_succ, Finset.sum_range_zero, b0]
    apply Complex.ext <;> simp
  · obtain ⟨s, rfl⟩ := Nat.exists_eq_add_of_le (show 2 ≤ p by omega)
    have hb := blocks_levsDown (blocks_first s x) k (by
      rw [show s + 1 = 2 + s - 1 by omega]; exact hk) 0 (by norm_num)
    rw [fwd, if_neg h1, show 2 + s - 2 = s by omega, show 2 + s - 1 = s + 1 by omega, add_comm 2 s]
    simp only [pow_zero, mul_one, add_zero, zero_add] at hb
    rw [hb, part, polyVal, show s + 1 + 1 = s + 2 by ring]
    refine Finset.sum_congr rfl fun l _ => ?_
    rw [mul_one, zero_add]

/-! ## Which roots -/

theorem sexp_odd (d q : ℕ) : sexp d q % 2 = 1 := by
  induction d generalizing q with
  | zero => rfl
  | succ d ih =>
    have := ih (q / 2)
    rw [sexp]
    split_ifs
    · exact this
    · rw [pow_succ]; omega

theorem sexp_range (d q : ℕ) : 0 < sexp d q ∧ sexp d q < 2 ^ (d + 1) := by
  induction d generalizing q with
  | zero => simp [sexp]
  | succ d ih =>
    have := ih (q / 2)
    have h2 : (2 : ℤ) ^ (d + 1 + 1) = 2 * 2 ^ (d + 1) := by rw [pow_succ]; ring
    have h3 : (2 : ℤ) ^ (d + 2) = 2 * 2 ^ (d + 1) := h2
    rw [sexp]
    split_ifs <;> omega

theorem sexp_inj (d : ℕ) {q q' : ℕ} (hq : q < 2 ^ d) (hq' : q' < 2 ^ d) (h : sexp d q = sexp d q') : q = q' := by
  induction d generalizing q q' with
  | zero => simp at hq hq'; omega
  | succ d ih =>
    have h3 : (2 : ℤ) ^ (d + 2) = 2 * 2 ^ (d + 1) := by rw [pow_succ]; ring
    have r1 := sexp_range d (q / 2)
    have r2 := sexp_range d (q' / 2)
    have b1 : q / 2 < 2 ^ d := by rw [pow_succ] at hq; omega
    have b2 : q' / 2 < 2 ^ d := by rw [pow_succ] at hq'; omega
    rw [sexp, sexp] at h
    split_ifs at h with c1 c2 c2
    · have := ih b1 b2 h; omega
    · omega
    · omega
    · have := ih b1 b2 (by omega); omega

/-- The roots are `n`-th roots of `-1`. -/
theorem root_pow (p q : ℕ) : cis (-sexp (p - 1) q) (2 * 2 ^ p) ^ 2 ^ p = -1 := by
  have ho := sexp_odd (p - 1) q
  rw [cis_pow]
  have e : -sexp (p - 1) q * ((2 ^ p : ℕ) : ℤ) =
      ((2 ^ p : ℕ) : ℤ) + ((2 * 2 ^ p : ℕ) : ℤ) * (-(sexp (p - 1) q + 1) / 2) := by
    push_cast
    have : -(sexp (p - 1) q + 1) / 2 * 2 = -(sexp (p - 1) q + 1) := by omega
    linear_combination -(2 ^ p : ℤ) * this
  rw [e, cis_add, cis_mul_full _ (by positivity), mul_one, cis_half (by positivity)]

end Mandelbrot.FFT
