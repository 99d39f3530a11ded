import Verif.Series.NewtonFns

/-!
# The power series identities behind /repo/area.cc

`Q f k` is `z^(2^k)` times the `k`-th Mandelbrot iterate at `c = f/z`.
-/

set_option linter.unusedSectionVars false

namespace Mandelbrot

open PowerSeries

namespace Bottcher

variable {K : Type} [Field K]

/-- `Q_0 = f`, `Q_i = Q_{i-1}^2 + z^(2^i - 1) f`. -/
noncomputable def Q (f : K⟦X⟧) : ℕ → K⟦X⟧
  | 0 => f
  | i + 1 => Q f i ^ 2 + X ^ (2 ^ (i + 1) - 1) * f

/-- The derivative of `Q` along `f * D` (`f = exp g`, `D` the change of `g`). -/
noncomputable def dQ (f D : K⟦X⟧) : ℕ → K⟦X⟧
  | 0 => f * D
  | i + 1 => 2 * Q f i * dQ f D i + X ^ (2 ^ (i + 1) - 1) * (f * D)

theorem dQ_mul (f D U : K⟦X⟧) (k : ℕ) : dQ f (U * D) k = U * dQ f D k := by
  induction k with
  | zero => simp only [dQ]; ring
  | succ k ih => simp only [dQ, ih]; ring

theorem two_pow_sub_pos (i : ℕ) : 0 < 2 ^ (i + 1) - 1 := by
  have : 2 ^ (i + 1) ≥ 2 := by
    calc 2 ^ (i + 1) = 2 ^ i * 2 := pow_succ _ _
      _ ≥ 1 * 2 := Nat.mul_le_mul_right _ Nat.one_le_two_pow
  omega

theorem constantCoeff_Q {f : K⟦X⟧} (h : constantCoeff f = 1) (k : ℕ) : constantCoeff (Q f k) = 1 := by
  induction k with
  | zero => exact h
  | succ k ih =>
    have := two_pow_sub_pos k
    rw [Q, map_add, map_pow, ih, map_mul, map_pow, constantCoeff_X, zero_pow this.ne']
    simp

theorem constantCoeff_dQ {f : K⟦X⟧} (h : constantCoeff f = 1) (k : ℕ) :
    constantCoeff (dQ f 1 k) = 2 ^ k := by
  induction k with
  | zero => simp [dQ, h]
  | succ k ih =>
    have := two_pow_sub_pos k
    rw [dQ, map_add, map_mul, map_mul, ih, constantCoeff_Q h, map_mul, map_pow, constantCoeff_X,
      zero_pow this.ne']
    simp only [map_ofNat, mul_one, zero_mul, add_zero]
    ring

theorem Q_agree {n : ℕ} {f f' : K⟦X⟧} (h : Agree n f f') (k : ℕ) : Agree n (Q f k) (Q f' k) := by
  induction k with
  | zero => exact h
  | succ k ih => exact (ih.pow 2).add (Agree.rfl'.mul h)

/-- First-order expansion of `Q` with a remainder of order `2m`. -/
theorem Q_taylor {m : ℕ} {f e D : K⟦X⟧} (hD : Agree m D 0) (he : Agree (2 * m) e (1 + D)) (k : ℕ) :
    Agree (2 * m) (Q (f * e) k) (Q f k + dQ f D k) := by
  have hdQ : ∀ k, Agree m (dQ f D k) 0 := by
    intro k
    have := dQ_mul f 1 D k
    rw [mul_one] at this
    rw [this]
    exact hD.mul_zero_left _
  induction k with
  | zero =>
    simp only [Q, dQ]
    have := (Agree.rfl' (n := 2 * m) (F := f)).mul he
    rwa [mul_add, mul_one] at this
  | succ k ih =>
    simp only [Q, dQ]
    have h1 := ih.pow 2
    have h2 : Agree (2 * m) ((Q f k + dQ f D k) ^ 2) (Q f k ^ 2 + 2 * Q f k * dQ f D k) := by
      have h3 : Agree (2 * m) (dQ f D k * dQ f D k) 0 := by
        rw [two_mul]; exact (hdQ k).mul_zeros (hdQ k)
      have h4 := (Agree.rfl' (n := 2 * m) (F := Q f k ^ 2 + 2 * Q f k * dQ f D k)).add h3
      rw [add_zero] at h4
      refine (Agree.of_eq ?_).trans h4
      ring
    have h5 : Agree (2 * m) (X ^ (2 ^ (k + 1) - 1) * (f * e)) (X ^ (2 ^ (k + 1) - 1) * (f * (1 + D))) :=
      Agree.rfl'.mul (Agree.rfl'.mul he)
    refine ((h1.trans h2).add h5).trans (Agree.of_eq ?_)
    ring

open Ser

variable [CharZero K] [Ldexp K] [LawfulLdexp K] [DecidableEq K]

/-- The series `h` after `i` iterations of the loop in `escape`. -/
noncomputable def H (G : K⟦X⟧) : ℕ → K⟦X⟧
  | 0 => 0
  | i + 1 => H G i + C ((2 : K) ^ (-((i : ℤ) + 1))) * (X ^ (2 ^ (i + 1) - 1) *
      log1pExpS (2 ^ (i + 1) - 1) (C (1 - 2 ^ (i + 1)) * G - C (2 ^ (i + 1)) * H G i))

/-- The exponent `t` of iteration `i + 1`. -/
noncomputable def T (G : K⟦X⟧) (i : ℕ) : K⟦X⟧ := C (1 - 2 ^ (i + 1)) * G - C (2 ^ (i + 1)) * H G i

/-- The series `dh` after `i` iterations. -/
noncomputable def dH (G D : K⟦X⟧) : ℕ → K⟦X⟧
  | 0 => 0
  | i + 1 => dH G D i + C ((2 : K) ^ (-((i : ℤ) + 1))) * (X ^ (2 ^ (i + 1) - 1) *
      (E (T G i - X ^ (2 ^ (i + 1) - 1) * log1pExpS (2 ^ (i + 1) - 1) (T G i)) *
        (C (1 - 2 ^ (i + 1)) * D - C (2 ^ (i + 1)) * dH G D i)))

theorem H_succ (G : K⟦X⟧) (i : ℕ) : H G (i + 1) = H G i + C ((2 : K) ^ (-((i : ℤ) + 1))) *
    (X ^ (2 ^ (i + 1) - 1) * log1pExpS (2 ^ (i + 1) - 1) (T G i)) := rfl

theorem constantCoeff_H (G : K⟦X⟧) (i : ℕ) : constantCoeff (H G i) = 0 := by
  induction i with
  | zero => simp [H]
  | succ i ih =>
    have := two_pow_sub_pos i
    rw [H_succ, map_add, ih, map_mul, map_mul, map_pow, constantCoeff_X, zero_pow this.ne']
    simp

theorem constantCoeff_T {G : K⟦X⟧} (hG : constantCoeff G = 0) (i : ℕ) : constantCoeff (T G i) = 0 := by
  rw [T, map_sub, map_mul, map_mul, hG, constantCoeff_H]; simp

theorem two_pow_C (i : ℕ) : C ((2 : K) ^ (i + 1)) * C ((2 : K) ^ (-((i : ℤ) + 1))) = (1 : K⟦X⟧) := by
  rw [← map_mul, ← map_one C]
  congr 1
  rw [← zpow_natCast, ← zpow_add₀ (by norm_num : (2 : K) ≠ 0)]
  simp

theorem C_pow_nat (i : ℕ) : (C ((2 : K) ^ i) : K⟦X⟧) = ((2 ^ i : ℕ) : K⟦X⟧) := by
  rw [map_pow, map_ofNat]; push_cast; rfl

/-- `exp(2^k (h + g)) = Q_k(exp g)`. -/
theorem E_H {G : K⟦X⟧} (hG : constantCoeff G = 0) (k : ℕ) :
    E (C (2 ^ k) * (H G k + G)) = Q (E G) k := by
  induction k with
  | zero => simp [H, Q]
  | succ k ih =>
    have hs := two_pow_sub_pos k
    have h2 := two_pow_C (K := K) k
    have hW := constantCoeff_1p hs (E (T G k))
    have hF : constantCoeff (H G k + G) = 0 := by rw [map_add, constantCoeff_H, hG, add_zero]
    have e : C (2 ^ (k + 1)) * (H G (k + 1) + G) =
        ((2 : ℕ) : K⟦X⟧) * (C (2 ^ k) * (H G k + G)) +
          L (1 + X ^ (2 ^ (k + 1) - 1) * E (T G k)) := by
      rw [← X_pow_mul_log1pS hs, H_succ]
      have e1 : (C ((2 : K) ^ (k + 1)) : K⟦X⟧) = ((2 : ℕ) : K⟦X⟧) * C (2 ^ k) := by
        rw [pow_succ, map_mul, map_ofNat]; push_cast; ring
      rw [e1] at h2 ⊢
      unfold log1pExpS
      linear_combination (X ^ (2 ^ (k + 1) - 1) * log1pS (2 ^ (k + 1) - 1) (E (T G k))) * h2
    have hA : constantCoeff (C ((2 : K) ^ k) * (H G k + G)) = 0 := by rw [map_mul, hF, mul_zero]
    rw [e, E_add (by rw [map_mul, hA, mul_zero]) (constantCoeff_L hW), E_L hW, E_nsmul hA, ih, Q, mul_add,
      mul_one]
    congr 1
    -- Q_k^2 exp(t) = f
    have h3 : Q (E G) k ^ 2 * E (T G k) = E G := by
      rw [← ih, ← E_nsmul hA, ← E_add (by rw [map_mul, hA, mul_zero]) (constantCoeff_T hG k)]
      congr 1
      rw [T]
      have e1 : (C ((2 : K) ^ (k + 1)) : K⟦X⟧) = ((2 : ℕ) : K⟦X⟧) * C (2 ^ k) := by
        rw [pow_succ, map_mul, map_ofNat]; push_cast; ring
      rw [map_sub, map_one, e1]
      ring
    linear_combination X ^ (2 ^ (k + 1) - 1) * h3

/-- `Q_k^2 exp(t) = f`. -/
theorem Q_sq_mul_E_T {G : K⟦X⟧} (hG : constantCoeff G = 0) (k : ℕ) :
    Q (E G) k ^ 2 * E (T G k) = E G := by
  have hF : constantCoeff (H G k + G) = 0 := by rw [map_add, constantCoeff_H, hG, add_zero]
  have hA : constantCoeff (C ((2 : K) ^ k) * (H G k + G)) = 0 := by rw [map_mul, hF, mul_zero]
  rw [← E_H hG, ← E_nsmul hA, ← E_add (by rw [map_mul, hA, mul_zero]) (constantCoeff_T hG k)]
  congr 1
  rw [T]
  have e1 : (C ((2 : K) ^ (k + 1)) : K⟦X⟧) = ((2 : ℕ) : K⟦X⟧) * C (2 ^ k) := by
    rw [pow_succ, map_mul, map_ofNat]; push_cast; ring
  rw [map_sub, map_one, e1]
  ring

/-- `2^k Q_k (dh + dg)` is the derivative of `Q_k`. -/
theorem Q_mul_dH {G : K⟦X⟧} (hG : constantCoeff G = 0) (D : K⟦X⟧) (k : ℕ) :
    C (2 ^ k) * Q (E G) k * (dH G D k + D) = dQ (E G) D k := by
  induction k with
  | zero => simp [dH, Q, dQ]
  | succ k ih =>
    have hs := two_pow_sub_pos k
    have h2 := two_pow_C (K := K) k
    have hW := constantCoeff_1p hs (E (T G k))
    have h3 := Q_sq_mul_E_T hG k
    have hQ : Q (E G) (k + 1) = Q (E G) k ^ 2 * (1 + X ^ (2 ^ (k + 1) - 1) * E (T G k)) := by
      rw [Q]; linear_combination (-X ^ (2 ^ (k + 1) - 1)) * h3
    have hE : E (T G k - X ^ (2 ^ (k + 1) - 1) * log1pExpS (2 ^ (k + 1) - 1) (T G k)) *
        (1 + X ^ (2 ^ (k + 1) - 1) * E (T G k)) = E (T G k) := by
      unfold log1pExpS
      rw [X_pow_mul_log1pS hs]
      have h4 := E_add (F := T G k - L (1 + X ^ (2 ^ (k + 1) - 1) * E (T G k)))
        (G := L (1 + X ^ (2 ^ (k + 1) - 1) * E (T G k)))
        (by rw [map_sub, constantCoeff_T hG, constantCoeff_L hW, sub_zero]) (constantCoeff_L hW)
      rw [sub_add_cancel, E_L hW] at h4
      exact h4.symm
    have e1 : (C ((2 : K) ^ (k + 1)) : K⟦X⟧) = 2 * C (2 ^ k) := by
      rw [pow_succ, map_mul, map_ofNat]; ring
    simp only [dQ, dH]
    rw [← ih, hQ, map_sub, map_one]
    set s := 2 ^ (k + 1) - 1
    set e := E (T G k - X ^ s * log1pExpS s (T G k))
    set W := 1 + X ^ s * E (T G k) with hWdef
    set q := Q (E G) k
    set c := C ((2 : K) ^ (k + 1)) with hc
    set ci := C ((2 : K) ^ (-((k : ℤ) + 1))) with hci
    set d := dH G D k
    have h5 : c * (q ^ 2 * W) * (d + ci * (X ^ s * (e * ((1 - c) * D - c * d))) + D) =
        c * q ^ 2 * W * (d + D) + q ^ 2 * X ^ s * E (T G k) * ((1 - c) * D - c * d) := by
      linear_combination (q ^ 2 * X ^ s * ((1 - c) * D - c * d) * (e * W)) * h2 +
        (q ^ 2 * X ^ s * ((1 - c) * D - c * d)) * hE
    rw [h5]
    have h6 : q ^ 2 * X ^ s * E (T G k) * ((1 - c) * D - c * d) =
        X ^ s * E G * (D - c * (d + D)) := by
      linear_combination (X ^ s * ((1 - c) * D - c * d)) * h3
    rw [h6, hWdef]
    linear_combination (c * (d + D) * X ^ s) * h3 + (q ^ 2 * (d + D)) * e1

theorem dH_mul (G D U : K⟦X⟧) (k : ℕ) : dH G (U * D) k = U * dH G D k := by
  induction k with
  | zero => simp [dH]
  | succ k ih => simp only [dH, ih]; ring

theorem constantCoeff_dH (G D : K⟦X⟧) (i : ℕ) : constantCoeff (dH G D i) = 0 := by
  induction i with
  | zero => simp [dH]
  | succ i ih =>
    have := two_pow_sub_pos i
    rw [dH, map_add, ih, map_mul, map_mul, map_pow, constantCoeff_X, zero_pow this.ne']
    simp

/-- `log Q_k = 2^k (h + g)`. -/
theorem L_Q {G : K⟦X⟧} (hG : constantCoeff G = 0) (k : ℕ) :
    L (Q (E G) k) = C (2 ^ k) * (H G k + G) := by
  have hF : constantCoeff (C ((2 : K) ^ k) * (H G k + G)) = 0 := by
    rw [map_mul, map_add, constantCoeff_H, hG, add_zero, mul_zero]
  rw [← E_H hG, L_E hF]

theorem two_pow_ne (k : ℕ) : (2 : K) ^ k ≠ 0 := pow_ne_zero _ (by norm_num)

/-- Cancel a power of two. -/
theorem agree_of_C_mul {n k : ℕ} {F G : K⟦X⟧} (h : Agree n (C ((2 : K) ^ k) * F) (C (2 ^ k) * G)) :
    Agree n F G :=
  Agree.mul_left_cancel (by rw [constantCoeff_C]; exact two_pow_ne k) h

theorem H_agree {n : ℕ} {G G' : K⟦X⟧} (hG : constantCoeff G = 0) (hG' : constantCoeff G' = 0)
    (h : Agree n G G') (k : ℕ) : Agree n (H G k + G) (H G' k + G') := by
  refine agree_of_C_mul (k := k) ?_
  rw [← L_Q hG, ← L_Q hG']
  exact L_agree (constantCoeff_Q (constantCoeff_E hG) k) (constantCoeff_Q (constantCoeff_E hG') k)
    (Q_agree (E_agree hG hG' h) k)

/-- First-order expansion of `h + g` with a remainder of order `2m`. -/
theorem F_taylor {m : ℕ} (hm : 0 < m) {G D : K⟦X⟧} (hG : constantCoeff G = 0) (hD : Agree m D 0) (k : ℕ) :
    Agree (2 * m) (H (G + D) k + (G + D)) (H G k + G + (dH G D k + D)) := by
  have hD0 : constantCoeff D = 0 := by simpa using hD.constantCoeff_eq hm
  have hGD : constantCoeff (G + D) = 0 := by rw [map_add, hG, hD0, add_zero]
  have hQ1 := constantCoeff_Q (constantCoeff_E hG) k
  refine agree_of_C_mul (k := k) ?_
  rw [← L_Q hGD]
  have ht := Q_taylor (f := E G) (e := E D) hD (E_sub_one_agree hm hD) k
  rw [← E_add hG hD0] at ht
  -- Q + dQ = Q (1 + R)
  set R := C ((2 : K) ^ k) * (dH G D k + D) with hR
  have hdQ : dQ (E G) D k = Q (E G) k * R := by rw [← Q_mul_dH hG]; rw [hR]; ring
  have hRm : Agree m R 0 := by
    have h1 := dH_mul G 1 D k
    rw [mul_one] at h1
    rw [hR, h1]
    have h2 : Agree m (D * (C ((2 : K) ^ k) * (dH G 1 k + 1))) 0 := hD.mul_zero_left _
    refine (Agree.of_eq ?_).trans h2
    ring
  have hR0 : constantCoeff R = 0 := by simpa using hRm.constantCoeff_eq hm
  rw [hdQ, show Q (E G) k + Q (E G) k * R = Q (E G) k * (1 + R) by ring] at ht
  have h1R : constantCoeff (1 + R) = 1 := by rw [map_add, hR0]; simp
  have h1 := L_agree (constantCoeff_Q (constantCoeff_E hGD) k)
    (by rw [map_mul, hQ1, h1R, mul_one]) ht
  rw [L_mul hQ1 h1R, L_Q hG] at h1
  refine h1.trans ((Agree.rfl'.add (L_1p_agree hm hRm)).trans (Agree.of_eq ?_))
  rw [hR]; ring

/-- A later iteration changes `h` only from `2^(k+1) - 1` on. -/
theorem H_succ_agree (G : K⟦X⟧) (k : ℕ) : Agree (2 ^ (k + 1) - 1) (H G (k + 1)) (H G k) := by
  rw [H_succ]
  have h1 : Agree (2 ^ (k + 1) - 1) (X ^ (2 ^ (k + 1) - 1) * log1pExpS (2 ^ (k + 1) - 1) (T G k)) 0 := by
    have := Agree.X_pow_mul (2 ^ (k + 1) - 1) (Agree.zero (log1pExpS (2 ^ (k + 1) - 1) (T G k)) 0)
    rw [mul_zero, zero_add] at this
    exact this
  have h2 := (Agree.rfl' (F := C ((2 : K) ^ (-((k : ℤ) + 1))))).mul h1
  have h3 := (Agree.rfl' (F := H G k)).add h2
  rwa [mul_zero, add_zero] at h3

/-- `g` solves the equation of order `k`: `h_k + g = O(z^(2^k))`. -/
def Solves (k : ℕ) (G : K⟦X⟧) : Prop := Agree (2 ^ k) (H G k + G) 0

/-- The equation in terms of `Q`. -/
theorem solves_iff {G : K⟦X⟧} (hG : constantCoeff G = 0) (k : ℕ) :
    Solves k G ↔ Agree (2 ^ k) (Q (E G) k) 1 := by
  have hF : constantCoeff (C ((2 : K) ^ k) * (H G k + G)) = 0 := by
    rw [map_mul, map_add, constantCoeff_H, hG, add_zero, mul_zero]
  constructor
  · intro h
    have h1 := (Agree.rfl' (F := C ((2 : K) ^ k))).mul h
    rw [mul_zero] at h1
    have := E_agree hF (by simp) h1
    rwa [E_H hG, E_zero] at this
  · intro h
    have h1 := L_agree (constantCoeff_Q (constantCoeff_E hG) k) (by simp) h
    rw [L_Q hG, L_one] at h1
    exact agree_of_C_mul (k := k) (by rwa [mul_zero])

theorem two_pow_lt (k : ℕ) : 2 ^ k ≤ 2 ^ (k + 1) - 1 := by
  have := Nat.one_le_two_pow (n := k)
  rw [pow_succ]; omega

/-- A solution of order `k + 1` is a solution of order `k`. -/
theorem Solves.pred {k : ℕ} {G : K⟦X⟧} (h : Solves (k + 1) G) : Solves k G := by
  have h1 := (H_succ_agree G k).mono (two_pow_lt k)
  have h2 : Agree (2 ^ k) (H G (k + 1) + G) 0 := h.mono (Nat.pow_le_pow_right (by norm_num) (Nat.le_succ k))
  exact ((h1.symm.add Agree.rfl').trans h2)

/-- The residual of order `k + 1` at a solution of order `k`. -/
theorem Solves.residual {k : ℕ} {G : K⟦X⟧} (h : Solves k G) : Agree (2 ^ k) (H G (k + 1) + G) 0 :=
  (((H_succ_agree G k).mono (two_pow_lt k)).add Agree.rfl').trans h

theorem Solves.congr {k : ℕ} {G G' : K⟦X⟧} (hG : constantCoeff G = 0) (h : Solves k G)
    (e : Agree (2 ^ k) G' G) : Solves k G' := by
  have hG' : constantCoeff G' = 0 := by rw [e.constantCoeff_eq (Nat.two_pow_pos k), hG]
  exact (H_agree hG' hG e k).trans h

theorem constantCoeff_dF (G : K⟦X⟧) (k : ℕ) : constantCoeff (dH G 1 k + 1) = 1 := by
  rw [map_add, constantCoeff_dH]; simp

/-- The Newton step: from a solution of order `k` to one of order `k + 1`. -/
theorem newton_solves {k : ℕ} {G : K⟦X⟧} (hG : constantCoeff G = 0) (h : Solves k G) :
    Solves (k + 1) (G - (H G (k + 1) + G) * (dH G 1 (k + 1) + 1)⁻¹) := by
  have hm := Nat.two_pow_pos k
  have hres := h.residual
  set F := H G (k + 1) + G with hF
  set dF := dH G 1 (k + 1) + 1 with hdF
  have hinv : dF * dF⁻¹ = 1 := PowerSeries.mul_inv_cancel dF (by rw [hdF, constantCoeff_dF]; simp)
  have hD : Agree (2 ^ k) (-(F * dF⁻¹)) 0 := by
    have := (hres.mul_zero_left dF⁻¹).neg
    rwa [neg_zero] at this
  have ht := F_taylor hm hG hD (k + 1)
  have e : dH G (-(F * dF⁻¹)) (k + 1) + -(F * dF⁻¹) = -F := by
    have h1 := dH_mul G 1 (-(F * dF⁻¹)) (k + 1)
    rw [mul_one] at h1
    rw [h1]
    linear_combination (-F) * hinv + (F * dF⁻¹) * hdF
  rw [e, ← hF, add_neg_cancel, ← sub_eq_add_neg] at ht
  unfold Solves
  rw [pow_succ, mul_comm]
  exact ht

/-- Uniqueness: two solutions of order `k` agree to `2^k` terms. -/
theorem Solves.unique {k : ℕ} {G G' : K⟦X⟧} (hG : constantCoeff G = 0) (hG' : constantCoeff G' = 0)
    (h : Solves k G) (h' : Solves k G') : Agree (2 ^ k) G' G := by
  have key : ∀ m, m < 2 ^ k → Agree (m + 1) G' G := by
    intro m
    induction m with
    | zero =>
      intro _ i hi
      have : i = 0 := by omega
      subst this
      rw [coeff_zero_eq_constantCoeff_apply, coeff_zero_eq_constantCoeff_apply, hG, hG']
    | succ m ih =>
      intro hm
      have hD : Agree (m + 1) (G' - G) 0 := by
        have := (ih (by omega)).sub (Agree.rfl' (F := G)); rwa [sub_self] at this
      have ht := F_taylor (Nat.succ_pos m) hG hD k
      rw [add_sub_cancel] at ht
      have h1 : Agree (m + 2) (dH G (G' - G) k + (G' - G)) 0 := by
        have a := ht.mono (show m + 2 ≤ 2 * (m + 1) by omega)
        have b : Agree (m + 2) (H G' k + G') 0 := h'.mono (by omega)
        have c : Agree (m + 2) (H G k + G) 0 := h.mono (by omega)
        have d := ((a.symm.trans b).sub c)
        rwa [add_sub_cancel_left, sub_zero] at d
      have e1 := dH_mul G 1 (G' - G) k
      rw [mul_one] at e1
      rw [e1] at h1
      have h2 : Agree (m + 2) ((dH G 1 k + 1) * (G' - G)) ((dH G 1 k + 1) * 0) := by
        refine (Agree.of_eq ?_).trans (h1.trans (Agree.of_eq (mul_zero _).symm))
        ring
      have h3 := Agree.mul_left_cancel (by rw [constantCoeff_dF]; simp) h2
      have h4 := h3.add (Agree.rfl' (F := G))
      rwa [sub_add_cancel, zero_add] at h4
  have := key (2 ^ k - 1) (by have := Nat.two_pow_pos k; omega)
  rwa [Nat.sub_add_cancel (Nat.two_pow_pos k)] at this

/-- The base case: `g = 0` to one term. -/
theorem solves_zero {G : K⟦X⟧} (hG : constantCoeff G = 0) : Solves 0 G := by
  intro i hi
  have : i = 0 := by simpa using hi
  subst this
  simp [H, hG]

/-- Existence of solutions of every order. -/
theorem exists_solves (k : ℕ) : ∃ G : K⟦X⟧, constantCoeff G = 0 ∧ Solves k G := by
  induction k with
  | zero => exact ⟨0, by simp, solves_zero (by simp)⟩
  | succ k ih =>
    obtain ⟨G, hG, h⟩ := ih
    refine ⟨_, ?_, newton_solves hG h⟩
    rw [map_sub, map_mul, map_add, constantCoeff_H, hG]
    simp

end Bottcher

end Mandelbrot
