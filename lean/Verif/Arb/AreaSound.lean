import Verif.Arb.AreaModel
import Verif.Arb.SetArb
import Verif.PS.Deriv
import Verif.PS.Bottcher

/-!
# The routines of /repo/arb_area.cc enclose
-/

set_option linter.unusedSectionVars false

namespace Mandelbrot

open PowerSeries

namespace ArbPoly

open Spec PSD

/-! ### The exact series -/

/-- `h` after `i` iterations, for any constant coefficient of `G`. -/
noncomputable def RH (G : ℝ⟦X⟧) : ℕ → ℝ⟦X⟧
  | 0 => 0
  | i + 1 => RH G i + C ((2 : ℝ) ^ (-((i : ℤ) + 1))) * (X ^ (2 ^ (i + 1) - 1) *
      Ser.log1pS (2 ^ (i + 1) - 1) (rexp (C (1 - 2 ^ (i + 1)) * G - C (2 ^ (i + 1)) * RH G i)))

/-- The exponent `t` of iteration `i + 1`. -/
noncomputable def RT (G : ℝ⟦X⟧) (i : ℕ) : ℝ⟦X⟧ := C (1 - 2 ^ (i + 1)) * G - C (2 ^ (i + 1)) * RH G i

/-- `dh` after `i` iterations. -/
noncomputable def RdH (G D : ℝ⟦X⟧) : ℕ → ℝ⟦X⟧
  | 0 => 0
  | i + 1 => RdH G D i + C ((2 : ℝ) ^ (-((i : ℤ) + 1))) * (X ^ (2 ^ (i + 1) - 1) *
      (rexp (RT G i - X ^ (2 ^ (i + 1) - 1) * Ser.log1pS (2 ^ (i + 1) - 1) (rexp (RT G i))) *
        (C (1 - 2 ^ (i + 1)) * D - C (2 ^ (i + 1)) * RdH G D i)))

theorem RH_succ (G : ℝ⟦X⟧) (i : ℕ) : RH G (i + 1) = RH G i + C ((2 : ℝ) ^ (-((i : ℤ) + 1))) *
    (X ^ (2 ^ (i + 1) - 1) * Ser.log1pS (2 ^ (i + 1) - 1) (rexp (RT G i))) := rfl

theorem RH_eq {G : ℝ⟦X⟧} (hG : constantCoeff G = 0) (i : ℕ) : RH G i = Bottcher.H G i := by
  induction i with
  | zero => rfl
  | succ i ih =>
    have e : RT G i = Bottcher.T G i := by rw [RT, Bottcher.T, ih]
    rw [RH_succ, Bottcher.H_succ, ih, e, rexp_of_zero (Bottcher.constantCoeff_T hG i)]
    rfl

theorem RT_eq {G : ℝ⟦X⟧} (hG : constantCoeff G = 0) (i : ℕ) : RT G i = Bottcher.T G i := by
  rw [RT, Bottcher.T, RH_eq hG]

theorem RdH_eq {G : ℝ⟦X⟧} (hG : constantCoeff G = 0) (D : ℝ⟦X⟧) (i : ℕ) : RdH G D i = Bottcher.dH G D i := by
  induction i with
  | zero => rfl
  | succ i ih =>
    have hT := Bottcher.constantCoeff_T hG i
    have hs := Bottcher.two_pow_sub_pos i
    rw [RdH, Bottcher.dH, ih, RT_eq hG, rexp_of_zero hT, rexp_of_zero]
    · rfl
    · rw [map_sub, hT, map_mul, map_pow, constantCoeff_X, zero_pow hs.ne', zero_mul, sub_zero]

theorem RdH_mul (G D U : ℝ⟦X⟧) (k : ℕ) : RdH G (U * D) k = U * RdH G D k := by
  induction k with
  | zero => simp [RdH]
  | succ k ih => simp only [RdH, ih]; ring

theorem constantCoeff_RdH (G D : ℝ⟦X⟧) (i : ℕ) : constantCoeff (RdH G D i) = 0 := by
  induction i with
  | zero => simp [RdH]
  | succ i ih =>
    have := Bottcher.two_pow_sub_pos i
    rw [RdH, map_add, ih, map_mul, map_mul, map_pow, constantCoeff_X, zero_pow this.ne']
    simp

/-- `exp(t - log V) = exp(t) / V`. -/
theorem rexp_sub_rlog {T V : ℝ⟦X⟧} (h : constantCoeff V = 1) : rexp (T - rlog V) = rexp T * V⁻¹ := by
  have h0 : (0 : ℝ) < constantCoeff V := by rw [h]; norm_num
  have h1 := rexp_add (T - rlog V) (rlog V)
  rw [sub_add_cancel, rexp_rlog h0] at h1
  have h2 := PowerSeries.mul_inv_cancel V h0.ne'
  rw [h1, mul_assoc, h2, mul_one]

theorem cc_1p {s : ℕ} (hs : 0 < s) (G : ℝ⟦X⟧) : constantCoeff (1 + X ^ s * G) = 1 := by
  rw [map_add, map_one, map_mul, map_pow, constantCoeff_X, zero_pow hs.ne', zero_mul, add_zero]

theorem X_log1pS {s : ℕ} (hs : 0 < s) (G : ℝ⟦X⟧) : X ^ s * Ser.log1pS s G = rlog (1 + X ^ s * G) := by
  rw [Ser.X_pow_mul_log1pS hs, rlog_of_one (cc_1p hs G)]

/-! ### Derivatives along a line -/

theorem hasD_log {P P' : ℝ → ℝ⟦X⟧} (h : HasD P P') {s : ℕ} (hs : 0 < s) :
    HasD (fun t => X ^ s * Ser.log1pS s (rexp (P t)))
      (fun t => X ^ s * (rexp (P t - X ^ s * Ser.log1pS s (rexp (P t))) * P' t)) := by
  have h1 : ∀ t, constantCoeff (1 + X ^ s * rexp (P t)) = 1 := fun t => cc_1p hs _
  have h2 := ((HasD.const (1 : ℝ⟦X⟧)).add (h.rexp.const_mul (X ^ s))).rlog h1
  have e : (fun t => X ^ s * Ser.log1pS s (rexp (P t))) = fun t => rlog (1 + X ^ s * rexp (P t)) := by
    funext t; rw [X_log1pS hs]
  rw [e]
  refine h2.congr fun t => ?_
  rw [X_log1pS hs, rexp_sub_rlog (h1 t)]
  ring

theorem hasD_RT {P P' Q Q' : ℝ → ℝ⟦X⟧} (h : HasD P P') (h' : HasD Q Q') (a b : ℝ) :
    HasD (fun t => C a * P t - C b * Q t) (fun t => C a * P' t - C b * Q' t) :=
  (h.const_mul _).sub (h'.const_mul _)

theorem hasD_RH {P P' : ℝ → ℝ⟦X⟧} (h : HasD P P') (k : ℕ) : HasD (fun t => RH (P t) k) (fun t => RdH (P t) (P' t) k) := by
  induction k with
  | zero => exact HasD.const 0
  | succ k ih =>
    have h1 := hasD_log (hasD_RT h ih (1 - 2 ^ (k + 1)) (2 ^ (k + 1))) (Bottcher.two_pow_sub_pos k)
    exact ih.add (h1.const_mul _)

/-- The derivative is differentiable too. -/
theorem hasD_RdH {P P' : ℝ → ℝ⟦X⟧} (h : HasD P P') (k : ℕ) : ∃ R, HasD (fun t => RdH (P t) 1 k) R := by
  induction k with
  | zero => exact ⟨_, HasD.const 0⟩
  | succ k ih =>
    obtain ⟨R, hR⟩ := ih
    have hT := hasD_RT h (hasD_RH h k) (1 - 2 ^ (k + 1)) (2 ^ (k + 1))
    have h1 := hasD_log hT (Bottcher.two_pow_sub_pos k)
    have h2 := (hT.sub h1).rexp
    have h3 := hasD_RT (HasD.const (1 : ℝ⟦X⟧)) hR (1 - 2 ^ (k + 1)) (2 ^ (k + 1))
    exact ⟨_, hR.add (((h2.mul h3).const_mul (X ^ (2 ^ (k + 1) - 1))).const_mul (C ((2 : ℝ) ^ (-((k : ℤ) + 1)))))⟩

/-- The mean value theorem for `F(G) = h + G` along a line. -/
theorem mean_F (G D : ℝ⟦X⟧) (k : ℕ) : ∃ R : ℝ⟦X⟧, (RH (G + D) k + (G + D)) - (RH G k + G) = R * D ∧
    ∀ i, ∃ a ∈ Set.Icc (0 : ℝ) 1, ∃ b ∈ Set.Icc (0 : ℝ) 1,
      coeff i (RdH (G + C a * D) 1 k + 1) ≤ coeff i R ∧ coeff i R ≤ coeff i (RdH (G + C b * D) 1 k + 1) := by
  have hl := HasD.line G D
  have h1 := (hasD_RH hl k).add hl
  obtain ⟨R', hR'⟩ := hasD_RdH hl k
  have h2 := hR'.add (HasD.const (1 : ℝ⟦X⟧))
  have h3 : HasD (fun t => RH (G + C t * D) k + (G + C t * D)) (fun t => (RdH (G + C t * D) 1 k + 1) * D) := by
    refine h1.congr fun t => ?_
    have := RdH_mul (G + C t * D) 1 D k
    rw [mul_one] at this
    rw [this]; ring
  obtain ⟨R, h4, h5⟩ := h3.mean h2
  refine ⟨R, ?_, h5⟩
  rw [← h4]
  simp

/-! ### Enclosures -/

variable {B : Type} {A : Arb B} {mem : ℝ → B → Prop}

/-- `poly_log1p_exp_shift_refine` encloses. -/
def Log1pExpOk (A : Arb B) (mem : ℝ → B → Prop) (skip : Bool) : Prop :=
  ∀ (x : List B) (s : ℕ) (n : ℤ) (F : ℝ⟦X⟧), 0 < s → Encloses mem A.zero n.toNat x F →
    ∃ y, log1pExpShift A skip x s n = .ok y ∧ Encloses mem A.zero n.toNat y (Ser.log1pS s (rexp F))

theorem log1pExpOk_skip (S : ArbSound A mem) : Log1pExpOk A mem true :=
  fun _ _ _ _ hs hx => log1pExpShift_enc S (expOk_skip S) (expm1Ok_skip S) hs hx (fun h => absurd h (by simp))

theorem linearSub_enc (S : ArbSound A mem) {n : ℕ} {P Q : List B} {F G : ℝ⟦X⟧} (a l : ℤ) (hP : Encloses mem A.zero n P F)
    (hQ : Encloses mem A.zero n Q G) :
    Encloses mem A.zero n (linearSub A a P l Q) (C (a : ℝ) * F - C ((2 : ℝ) ^ l) * G) := by
  intro i hi
  rw [linearSub, getD_map_range, map_sub, coeff_C_mul, coeff_C_mul]
  split_ifs with h
  · have := S.addmulSi a (S.neg (S.mul2exp l (hQ i hi))) (hP i hi)
    rw [show -(coeff i G * (2 : ℝ) ^ l) + coeff i F * (a : ℝ) = (a : ℝ) * coeff i F - 2 ^ l * coeff i G by ring] at this
    exact this
  · rw [enc_beyond S hP hi (by omega), enc_beyond S hQ hi (by omega), S.zero]
    ring

/-- `poly_sub_shift_series` without aliasing, for any number of terms. -/
theorem subShift_any (S : ArbSound A mem) {f g : List B} {s : ℕ} {n : ℤ} {F G : ℝ⟦X⟧}
    (hF : Encloses mem A.zero n.toNat f F) (hG : Encloses mem A.zero (n.toNat - s) g G) :
    ∃ r, subShift A false false [] f g s n = .ok r ∧ Encloses mem A.zero n.toNat r (F - X ^ s * G) := by
  by_cases hn : n < 0
  · refine ⟨_, shiftOp_trunc A.sub false false (by omega), ?_⟩
    rw [Int.toNat_of_nonpos hn.le]
    exact enc_zero _ _
  · obtain ⟨m, rfl⟩ : ∃ m : ℕ, n = m := ⟨n.toNat, by omega⟩
    rw [Int.toNat_natCast] at *
    obtain ⟨r, h1, h2, -⟩ := subShift_enc S false false (h := []) (by simp) (by simp) hF hG
    exact ⟨r, h1, h2⟩

theorem escapeStep_enc (S : ArbSound A mem) {skip : Bool} (hE : ExpOk A mem skip) (hL : Log1pExpOk A mem skip)
    {g dg : List B} {n dn : ℕ} (hdn : dn ≤ n) {G D : ℝ⟦X⟧} (hg : Encloses mem A.zero n g G)
    (hdg : Encloses mem A.zero dn dg D) {k : ℕ} (hk : k + 1 < 31) {st : List B × List B}
    (h : Encloses mem A.zero n st.1 (RH G k)) (dh : Encloses mem A.zero dn st.2 (RdH G D k)) :
    ∃ st', escapeStep A skip g dg n dn (k + 1) st = .ok st' ∧ Encloses mem A.zero n st'.1 (RH G (k + 1)) ∧
      Encloses mem A.zero dn st'.2 (RdH G D (k + 1)) := by
  have hs := Bottcher.two_pow_sub_pos k
  have ep : ((2 : ℤ) ^ (k + 1) - 1) = ((2 ^ (k + 1) - 1 : ℕ) : ℤ) := by
    have : 1 ≤ 2 ^ (k + 1) := Nat.one_le_two_pow
    push_cast [this]; ring
  have ea : (((1 - (2 : ℤ) ^ (k + 1) : ℤ)) : ℝ) = 1 - 2 ^ (k + 1) := by push_cast; ring
  have el : ((2 : ℝ) ^ (((k + 1 : ℕ) : ℤ))) = 2 ^ (k + 1) := zpow_natCast _ _
  have ht := linearSub_enc S (1 - (2 : ℤ) ^ (k + 1)) ((k + 1 : ℕ) : ℤ) hg h
  have hdt := linearSub_enc S (1 - (2 : ℤ) ^ (k + 1)) ((k + 1 : ℕ) : ℤ) hdg dh
  rw [ea, el] at ht hdt
  set s := 2 ^ (k + 1) - 1 with hsdef
  obtain ⟨sl, e1, hsl⟩ := hL _ s ((n : ℤ) - s) _ hs (enc_mono ht (by omega))
  obtain ⟨u, e2, hu⟩ := subShift_any S (s := s) (n := (dn : ℤ) - s) (enc_mono ht (by omega)) (enc_mono hsl (by omega))
  obtain ⟨t, e3, ht2⟩ := hE _ _ _ hu
  have hds := safeMullow_enc S ht2 (enc_mono hdt (show ((dn : ℤ) - s).toNat ≤ dn by omega))
  have hs2 := S.scalar2exp (-((k + 1 : ℕ) : ℤ)) hsl
  have hds2 := S.scalar2exp (-((k + 1 : ℕ) : ℤ)) hds
  obtain ⟨h', e4, hh, -⟩ := addShift_enc S true false (h := st.1) (fun _ => rfl) (by simp) h
    (g := A.scalar2exp sl (-((k + 1 : ℕ) : ℤ))) (s := s) (enc_mono hs2 (by omega))
  obtain ⟨dh', e5, hdh, -⟩ := addShift_enc S true false (h := st.2) (fun _ => rfl) (by simp) dh
    (s := s) (enc_mono hds2 (by omega))
  refine ⟨(h', dh'), ?_, ?_, ?_⟩
  · unfold escapeStep
    rw [if_neg (by omega)]
    simp only [ep]
    rw [e1, bok, e2, bok, e3, bok, e4, bok, e5, bok, pok]
  · refine enc_congr hh (Agree.of_eq ?_)
    rw [RH_succ, RT, ← hsdef]
    push_cast
    ring
  · refine enc_congr hdh (Agree.of_eq ?_)
    rw [RdH, RT, ← hsdef]
    push_cast
    ring

theorem escape_enc (S : ArbSound A mem) {skip : Bool} (hE : ExpOk A mem skip) (hL : Log1pExpOk A mem skip)
    {g dg : List B} {n dn : ℕ} (hdn : dn ≤ n) {G D : ℝ⟦X⟧} (hg : Encloses mem A.zero n g G)
    (hdg : Encloses mem A.zero dn dg D) {k : ℕ} (hk : k < 31) :
    ∃ st, escape A skip g dg n dn k = .ok st ∧ Encloses mem A.zero n st.1 (RH G k) ∧
      Encloses mem A.zero dn st.2 (RdH G D k) := by
  induction k with
  | zero => exact ⟨([], []), rfl, (enc_nil S).2 (Agree.refl _ _), (enc_nil S).2 (Agree.refl _ _)⟩
  | succ k ih =>
    obtain ⟨st, e, h1, h2⟩ := ih (by omega)
    obtain ⟨st', e', h1', h2'⟩ := escapeStep_enc S hE hL hdn hg hdg hk h1 h2
    exact ⟨st', by rw [escape, e, bok, e'], h1', h2'⟩

theorem implicit_enc (S : ArbSound A mem) {skip : Bool} (hE : ExpOk A mem skip) (hL : Log1pExpOk A mem skip)
    {g dg : List B} {n dn : ℕ} (hdn : dn ≤ n) {G D : ℝ⟦X⟧} (hg : Encloses mem A.zero n g G)
    (hdg : Encloses mem A.zero dn dg D) {k : ℕ} (hk : k < 31) :
    ∃ st, implicit A skip k g dg n dn = .ok st ∧ Encloses mem A.zero n st.1 (RH G k + G) ∧
      Encloses mem A.zero dn st.2 (RdH G D k + D) := by
  obtain ⟨st, e, h1, h2⟩ := escape_enc S hE hL hdn hg hdg hk
  exact ⟨_, by rw [implicit, e, bok]; rfl, S.addSeries h1 hg, S.addSeries h2 hdg⟩

theorem one_enc (S : ArbSound A mem) (n : ℕ) : Encloses mem A.zero n [A.one] (1 : ℝ⟦X⟧) := by
  intro i _
  rcases i with _ | i
  · show mem (coeff 0 (1 : ℝ⟦X⟧)) A.one
    simpa using S.one
  · show mem (coeff (i + 1) (1 : ℝ⟦X⟧)) A.zero
    rw [S.zero, coeff_one, if_neg (Nat.succ_ne_zero i)]

/-- The line between two enclosed series is enclosed. -/
theorem line_enc (hI : Intervals mem) {n : ℕ} {g : List B} {G G' : ℝ⟦X⟧} (h : Encloses mem A.zero n g G)
    (h' : Encloses mem A.zero n g G') {t : ℝ} (ht : t ∈ Set.Icc (0 : ℝ) 1) :
    Encloses mem A.zero n g (G + C t * (G' - G)) := by
  intro i hi
  rw [map_add, coeff_C_mul, map_sub]
  have a := h i hi
  have b := h' i hi
  rcases le_total (coeff i G) (coeff i G') with hl | hl
  · exact hI _ _ _ _ a b (by nlinarith [ht.1, ht.2]) (by nlinarith [ht.1, ht.2])
  · exact hI _ _ _ _ b a (by nlinarith [ht.1, ht.2]) (by nlinarith [ht.1, ht.2])

/-- The invariant: `g` encloses a solution with `2^k` terms and has no more. -/
def Good (A : Arb B) (mem : ℝ → B → Prop) (k : ℕ) (g : List B) : Prop :=
  g.length ≤ 2 ^ k ∧ ∃ G : ℝ⟦X⟧, constantCoeff G = 0 ∧ Bottcher.Solves k G ∧ Encloses mem A.zero (2 ^ k) g G

theorem good_zero (S : ArbSound A mem) : Good A mem 0 ([] : List B) :=
  ⟨by simp, 0, by simp, Bottcher.solves_zero (by simp), (enc_nil S).2 (Agree.refl _ _)⟩

theorem cut_cc {n : ℕ} (hn : 0 < n) {G : ℝ⟦X⟧} (h : constantCoeff G = 0) : constantCoeff (cut n G) = 0 := by
  rw [(agree_cut n G).constantCoeff_eq hn, h]

/-- The first pass. -/
theorem newG_first (S : ArbSound A mem) {skip : Bool} (hE : ExpOk A mem skip) (hL : Log1pExpOk A mem skip) {k : ℕ}
    (hk : k + 1 < 31) {g : List B} (h : Good A mem k g) :
    ∃ g', newG A skip (k + 1) false g = .ok g' ∧ Good A mem (k + 1) g' := by
  obtain ⟨hl, G0, hG0, hs0, he0⟩ := h
  have hpos := Nat.two_pow_pos k
  -- replace the series by the polynomial
  set G := cut (2 ^ k) G0 with hGdef
  have hG : constantCoeff G = 0 := cut_cc hpos hG0
  have hs : Bottcher.Solves k G := hs0.congr hG0 (agree_cut _ _)
  have he : ∀ m, Encloses mem A.zero m g G := fun m => enc_cut S he0 hl m
  have e2 : 2 ^ (k + 1) / 2 = 2 ^ k := by rw [pow_succ]; omega
  obtain ⟨⟨F, dF⟩, e1, hF, hdF⟩ := implicit_enc S hE hL (n := 2 ^ (k + 1)) (dn := 2 ^ k)
    (Nat.pow_le_pow_right (by norm_num) (Nat.le_succ k)) (he _) (one_enc S (2 ^ k)) hk
  simp only at hF hdF
  rw [RH_eq hG] at hF
  rw [RdH_eq hG] at hdF
  have hres := hs.residual
  have e3 := assertLowZero_ok S hF (Nat.pow_le_pow_right (by norm_num) (Nat.le_succ k)) hres
  set R := Bottcher.H G (k + 1) + G with hR
  set dR := Bottcher.dH G 1 (k + 1) + 1 with hdR
  have hXR : X ^ 2 ^ k * Ser.shiftDown (2 ^ k) R = R := Ser.X_pow_mul_shiftDown hres
  have hF2 : Encloses mem A.zero (2 ^ k) (shiftRight F (2 ^ k)) (Ser.shiftDown (2 ^ k) R) := by
    refine enc_shiftRight (2 ^ k) (enc_mono hF (by rw [pow_succ]; omega)) ?_
    rw [hXR]
  have hdR0 : constantCoeff dR ≠ 0 := by rw [hdR, Bottcher.constantCoeff_dF]; exact one_ne_zero
  obtain ⟨q, e4, hq⟩ := divRefine_enc S skip (n := ((2 ^ k : ℕ) : ℤ)) hdR0
    (by rw [Int.toNat_natCast]; exact hF2) (by rw [Int.toNat_natCast]; exact hdF)
  rw [Int.toNat_natCast] at hq
  have hq2 := enc_shiftLeft S (2 ^ k) hq
  rw [← mul_assoc, hXR] at hq2
  have hfin := S.subSeries (he (2 ^ (k + 1))) (enc_mono hq2 (show 2 ^ (k + 1) ≤ 2 ^ k + 2 ^ k by rw [pow_succ]; omega))
  refine ⟨A.subSeries g (shiftLeft A q (2 ^ k)) (2 ^ (k + 1)), ?_, S.subSeries_length _ _ _, _, ?_,
    Bottcher.newton_solves hG hs, hfin⟩
  · unfold newG
    rw [if_neg (by omega)]
    simp only [Bool.false_eq_true, if_false, e2]
    rw [e1, bok]
    simp only
    rw [e3, bok, e4, bok, pok]
  · rw [map_sub, map_mul, map_add, Bottcher.constantCoeff_H, hG]; simp

/-- The refinement. -/
theorem newG_refine (S : ArbSound A mem) (hI : Intervals mem) {skip : Bool} (hE : ExpOk A mem skip)
    (hL : Log1pExpOk A mem skip) {k : ℕ} (hk : k < 31) {g : List B} (h : Good A mem k g) :
    ∃ g', newG A skip k true g = .ok g' ∧ Good A mem k g' := by
  obtain ⟨hl, G, hG, hs, he⟩ := h
  obtain ⟨Y, hY, hY0, -⟩ := exists_mid S he
  obtain ⟨⟨F, x⟩, e1, hF, -⟩ := implicit_enc S hE hL (n := 2 ^ k) (dn := 0) (Nat.zero_le _) hY0 (one_enc S 0) hk
  obtain ⟨⟨x', dF⟩, e2, -, -⟩ := implicit_enc S hE hL (n := 2 ^ k) (dn := 2 ^ k) le_rfl he (one_enc S (2 ^ k)) hk
  simp only at hF
  have hdF : ∀ H, Encloses mem A.zero (2 ^ k) g H → Encloses mem A.zero (2 ^ k) dF (RdH H 1 k + 1) := by
    intro H hH
    obtain ⟨st, e3, -, h3⟩ := implicit_enc S hE hL (n := 2 ^ k) (dn := 2 ^ k) le_rfl hH (one_enc S (2 ^ k)) hk
    rw [e2] at e3
    cases e3
    exact h3
  obtain ⟨R, hR1, hR2⟩ := mean_F G (Y - G) k
  rw [add_sub_cancel] at hR1
  have hRdF : Encloses mem A.zero (2 ^ k) dF R := by
    intro i hi
    obtain ⟨a, ha, b, hb, h1, h2⟩ := hR2 i
    exact hI _ _ _ _ (hdF _ (line_enc hI he hY ha) i hi) (hdF _ (line_enc hI he hY hb) i hi) h1 h2
  have hR0 : constantCoeff R = 1 := by
    obtain ⟨a, -, b, -, h1, h2⟩ := hR2 0
    rw [coeff_zero_eq_constantCoeff_apply, coeff_zero_eq_constantCoeff_apply, map_add, constantCoeff_RdH, zero_add,
      map_one] at h1
    rw [coeff_zero_eq_constantCoeff_apply, coeff_zero_eq_constantCoeff_apply, map_add, constantCoeff_RdH, zero_add,
      map_one] at h2
    exact le_antisymm h2 h1
  have hR0' : constantCoeff R ≠ 0 := by rw [hR0]; exact one_ne_zero
  obtain ⟨q, e3, hq⟩ := divRefine_enc S skip (n := ((2 ^ k : ℕ) : ℤ)) hR0'
    (by rw [Int.toNat_natCast]; exact hF) (by rw [Int.toNat_natCast]; exact hRdF)
  rw [Int.toNat_natCast] at hq
  have hag : Agree (2 ^ k) G (Y - (RH Y k + Y) * R⁻¹) := by
    have hinv := PowerSeries.mul_inv_cancel R hR0'
    have h0 : Agree (2 ^ k) (RH G k + G) 0 := by rw [RH_eq hG]; exact hs
    have h1 : Agree (2 ^ k) (Y - (RH Y k + Y) * R⁻¹) (Y - (RH Y k + Y) * R⁻¹ + (RH G k + G) * R⁻¹) := by
      have := (Agree.rfl' (n := 2 ^ k) (F := Y - (RH Y k + Y) * R⁻¹)).add (h0.mul_zero_left R⁻¹)
      rw [add_zero] at this
      exact this.symm
    refine (h1.trans (Agree.of_eq ?_)).symm
    linear_combination (-R⁻¹) * hR1 - (Y - G) * hinv
  obtain ⟨r, e4, hr, hrl⟩ := intersectSub_enc S he rfl hY0 hq hag
  refine ⟨r, ?_, hrl, G, hG, hs, hr⟩
  unfold newG
  rw [if_neg (by omega)]
  simp only [if_true]
  rw [show (((2 ^ k : ℕ) : ℤ)) = ((2 ^ k : ℕ) : ℤ) from rfl] at *
  have e1' : implicit A skip k (polyMid A g) [A.one] ((2 ^ k : ℕ) : ℤ) 0 = .ok (F, x) := e1
  rw [e1', bok]
  simp only
  rw [e2, bok]
  simp only
  rw [e3, bok]
  exact e4

/-- The sum of `area`. -/
theorem area_enc (S : ArbSound A mem) {n : ℕ} {f : List B} {F : ℝ⟦X⟧} (hl : f.length ≤ n) (h : Encloses mem A.zero n f F) :
    mem (Real.pi * ∑ i ∈ Finset.range n, (1 - (i : ℝ)) * coeff i F ^ 2) (area A f) := by
  have key : ∀ m ≤ n, mem (∑ i ∈ Finset.range m, (1 - (i : ℝ)) * coeff i F ^ 2)
      ((List.range m).foldl (fun mu i => A.addmulSi mu (A.sqr (get A f i)) (1 - (i : ℤ))) A.zero) := by
    intro m
    induction m with
    | zero => intro _; exact (S.zero _).2 (by simp)
    | succ m ih =>
      intro hm
      rw [List.range_succ, List.foldl_append, Finset.sum_range_succ]
      have := S.addmulSi (1 - (m : ℤ)) (ih (by omega)) (S.sqr (h m (by omega)))
      rw [show (coeff m F) ^ 2 * (((1 - (m : ℤ) : ℤ)) : ℝ) = (1 - (m : ℝ)) * coeff m F ^ 2 by push_cast; ring] at this
      exact this
  have e : ∑ i ∈ Finset.range n, (1 - (i : ℝ)) * coeff i F ^ 2 =
      ∑ i ∈ Finset.range f.length, (1 - (i : ℝ)) * coeff i F ^ 2 := by
    refine (Finset.sum_subset (Finset.range_mono hl) fun i hi hi' => ?_).symm
    rw [enc_beyond S h (Finset.mem_range.1 hi) (by simpa using hi')]
    ring
  rw [e, mul_comm]
  exact S.mul (key _ hl) S.pi

theorem expRefine_length (S : ArbSound A mem) {skip : Bool} {x y : List B} {n : ℤ} (h : expRefine A skip x n = .ok y) :
    y.length ≤ n.toNat := by
  unfold expRefine at h
  split_ifs at h with h1 h2
  · cases h; simp
  · cases h; exact S.expSeries_length _ _
  · simp only at h
    cases e : logRefine A skip (polyMid A (A.expSeries x n.toNat)) n with
    | error e' => rw [e] at h; cases h
    | ok dy =>
      rw [e, bok] at h
      rw [intersectSub_eq h, List.length_map, List.length_range]
      omega

/-- `b` contains the sum over `2^k` terms of any solution. -/
def HasArea (mem : ℝ → B → Prop) (k : ℕ) (b : B) : Prop :=
  ∀ G : ℝ⟦X⟧, constantCoeff G = 0 → Bottcher.Solves k G →
    mem (Real.pi * ∑ i ∈ Finset.range (2 ^ k), (1 - (i : ℝ)) * coeff i (E G) ^ 2) b

theorem hasArea_of (S : ArbSound A mem) {skip : Bool} (hE : ExpOk A mem skip) {k : ℕ} {g : List B} (h : Good A mem k g) :
    ∃ f, expRefine A skip g ((2 : ℤ) ^ k) = .ok f ∧ HasArea mem k (area A f) := by
  obtain ⟨hl, G, hG, hs, he⟩ := h
  have e : ((2 : ℤ) ^ k).toNat = 2 ^ k := by
    rw [show ((2 : ℤ) ^ k) = ((2 ^ k : ℕ) : ℤ) by push_cast; rfl, Int.toNat_natCast]
  obtain ⟨f, e1, hf⟩ := hE g ((2 : ℤ) ^ k) G (by rw [e]; exact he)
  have hlen := expRefine_length S e1
  rw [e] at hf hlen
  rw [rexp_of_zero hG] at hf
  refine ⟨f, e1, fun G' hG' hs' => ?_⟩
  have ha := hs.unique hG hG' hs'
  have := area_enc S hlen (enc_congr hf (E_agree hG hG' ha.symm))
  exact this

theorem pass_of (S : ArbSound A mem) {skip : Bool} (hE : ExpOk A mem skip) {k : ℕ} {refine : Bool} {g g' : List B}
    (e : newG A skip k refine g = .ok g') (h : Good A mem k g') :
    ∃ mu, pass A skip k refine g = .ok (g', mu) ∧ HasArea mem k mu := by
  obtain ⟨f, e1, h1⟩ := hasArea_of S hE h
  exact ⟨_, by rw [pass, e, bok, e1, bok]; rfl, h1⟩

theorem pass_ub {skip : Bool} {k : ℕ} (hk : 31 ≤ k) (refine : Bool) (g : List B) : pass A skip k refine g = .error .ub := by
  rw [pass, newG, if_pos hk]; rfl

theorem run_enc (S : ArbSound A mem) (hI : Intervals mem) {skip : Bool} (hE : ExpOk A mem skip)
    (hL : Log1pExpOk A mem skip) (known : ℕ → Option B) (c : ℕ) : ∀ (k : ℕ) (g : List B), Good A mem k g →
    (∀ j b, (arbAreasFrom A skip known c (k + 1) g).1[j]? = some b → HasArea mem (k + 1 + j / 2) b) ∧
    (∀ g', (arbAreasFrom A skip known c (k + 1) g).2 = .ok g' → Good A mem (k + c) g') ∧
    (k ≤ 30 → (∀ m b, known m = some b → HasArea mem m b) → if k + c ≤ 30 then
        (∃ g', (arbAreasFrom A skip known c (k + 1) g).2 = .ok g') ∧
          (arbAreasFrom A skip known c (k + 1) g).1.length = 2 * c
      else (arbAreasFrom A skip known c (k + 1) g).2 = .error .ub ∧
        (arbAreasFrom A skip known c (k + 1) g).1.length = 2 * (30 - k)) := by
  have acc : ∀ {k mu}, (∀ m b, known m = some b → HasArea mem m b) → HasArea mem k mu → accept A known k mu = true := by
    intro k mu hk hm
    unfold accept
    cases e : known k with
    | none => rfl
    | some b =>
      obtain ⟨G, hG, hs⟩ := Bottcher.exists_solves (K := ℝ) k
      exact S.overlaps (hm G hG hs) (hk k b e G hG hs)
  induction c with
  | zero =>
    intro k g hg
    refine ⟨by simp [arbAreasFrom], ?_, ?_⟩
    · intro g' e; cases e; exact hg
    · intro h _
      rw [if_pos (by omega)]
      exact ⟨⟨g, rfl⟩, rfl⟩
  | succ c ih =>
    intro k g hg
    by_cases hk : 31 ≤ k + 1
    · have e := pass_ub (A := A) (skip := skip) hk false g
      simp only [arbAreasFrom, e]
      refine ⟨by simp, by simp, fun hk' _ => ?_⟩
      rw [if_neg (by omega)]
      exact ⟨trivial, by simp only [List.length_nil]; omega⟩
    · obtain ⟨g1, e1, hg1⟩ := newG_first S hE hL (by omega : k + 1 < 31) hg
      obtain ⟨mu1, p1, m1⟩ := pass_of S hE e1 hg1
      obtain ⟨g2, e2, hg2⟩ := newG_refine S hI hE hL (by omega : k + 1 < 31) hg1
      obtain ⟨mu2, p2, m2⟩ := pass_of S hE e2 hg2
      obtain ⟨i1, i2, i3⟩ := ih (k + 1) g2 hg2
      simp only [arbAreasFrom, p1, p2]
      by_cases a1 : accept A known (k + 1) mu1 = false
      · rw [if_pos a1]
        refine ⟨?_, by simp, fun _ h => ?_⟩
        · intro j b hj
          rcases j with _ | j
          · cases hj; exact m1
          · simp at hj
        · rw [acc h m1] at a1; cases a1
      · rw [if_neg a1]
        by_cases a2 : accept A known (k + 1) mu2 = false
        · rw [if_pos a2]
          refine ⟨?_, by simp, fun _ h => ?_⟩
          · intro j b hj
            rcases j with _ | _ | j
            · cases hj; exact m1
            · cases hj; exact m2
            · simp at hj
          · rw [acc h m2] at a2; cases a2
        · rw [if_neg a2]
          refine ⟨?_, ?_, ?_⟩
          · intro j b hj
            rcases j with _ | _ | j
            · cases hj; exact m1
            · cases hj; exact m2
            · have := i1 j b (by simpa using hj)
              rw [show k + 1 + (j + 1 + 1) / 2 = k + 1 + 1 + j / 2 by omega]
              exact this
          · intro g' e
            have := i2 g' e
            rw [show k + (c + 1) = k + 1 + c by omega]
            exact this
          · intro _ h
            have := i3 (by omega) h
            simp only [List.length_cons]
            split_ifs at this ⊢ with h1 h2 h2
            · exact ⟨this.1, by omega⟩
            · omega
            · omega
            · exact ⟨this.1, by omega⟩

/-- A run that ends normally has checked every area. -/
theorem run_checked {skip : Bool} (known : ℕ → Option B) (c : ℕ) : ∀ (k : ℕ) (g g' : List B),
    (arbAreasFrom A skip known c k g).2 = .ok g' → (arbAreasFrom A skip known c k g).1.length = 2 * c ∧
      ∀ j b e, (arbAreasFrom A skip known c k g).1[j]? = some b → known (k + j / 2) = some e → A.overlaps b e = true := by
  have acc : ∀ {k mu b}, accept A known k mu ≠ false → known k = some b → A.overlaps mu b = true := by
    intro k mu b h e
    unfold accept at h
    rw [e] at h
    simpa using h
  induction c with
  | zero => intro k g g' _; exact ⟨rfl, by simp [arbAreasFrom]⟩
  | succ c ih =>
    intro k g g' h
    cases p1 : pass A skip k false g with
    | error e => simp only [arbAreasFrom, p1] at h; cases h
    | ok r1 =>
      obtain ⟨g1, mu1⟩ := r1
      simp only [arbAreasFrom, p1] at h ⊢
      by_cases a1 : accept A known k mu1 = false
      · rw [if_pos a1] at h; cases h
      · rw [if_neg a1] at h ⊢
        cases p2 : pass A skip k true g1 with
        | error e => rw [p2] at h; cases h
        | ok r2 =>
          obtain ⟨g2, mu2⟩ := r2
          simp only [p2] at h ⊢
          by_cases a2 : accept A known k mu2 = false
          · rw [if_pos a2] at h; cases h
          · rw [if_neg a2] at h ⊢
            obtain ⟨i1, i2⟩ := ih (k + 1) g2 g' h
            refine ⟨by simp only [List.length_cons]; omega, ?_⟩
            intro j b e hj he
            rcases j with _ | _ | j
            · cases hj; exact acc a1 he
            · cases hj; exact acc a2 he
            · refine i2 j b e (by simpa using hj) ?_
              rw [← he]; congr 1; omega

/-- How a run can fail. -/
theorem run_stops (S : ArbSound A mem) (hI : Intervals mem) {skip : Bool} (hE : ExpOk A mem skip)
    (hL : Log1pExpOk A mem skip) (known : ℕ → Option B) (c : ℕ) : ∀ (k : ℕ) (g : List B), Good A mem k g → ∀ x,
    (arbAreasFrom A skip known c (k + 1) g).2 = .error x →
    (x = .ub ∧ 31 ≤ k + c ∧ (arbAreasFrom A skip known c (k + 1) g).1.length = 2 * (30 - k)) ∨
    (x = .assertion ∧ ∃ j b e, (arbAreasFrom A skip known c (k + 1) g).1.length = j + 1 ∧
      (arbAreasFrom A skip known c (k + 1) g).1[j]? = some b ∧ known (k + 1 + j / 2) = some e ∧ A.overlaps b e = false) := by
  have acc : ∀ {k mu}, accept A known k mu = false → ∃ e, known k = some e ∧ A.overlaps mu e = false := by
    intro k mu h
    unfold accept at h
    cases e : known k with
    | none => rw [e] at h; cases h
    | some b => rw [e] at h; exact ⟨b, rfl, h⟩
  induction c with
  | zero => intro k g _ x h; cases h
  | succ c ih =>
    intro k g hg x
    by_cases hk : 31 ≤ k + 1
    · have e := pass_ub (A := A) (skip := skip) hk false g
      simp only [arbAreasFrom, e]
      intro h
      cases h
      exact Or.inl ⟨rfl, by omega, by simp only [List.length_nil]; omega⟩
    · obtain ⟨g1, e1, hg1⟩ := newG_first S hE hL (by omega : k + 1 < 31) hg
      obtain ⟨mu1, p1, -⟩ := pass_of S hE e1 hg1
      obtain ⟨g2, e2, hg2⟩ := newG_refine S hI hE hL (by omega : k + 1 < 31) hg1
      obtain ⟨mu2, p2, -⟩ := pass_of S hE e2 hg2
      simp only [arbAreasFrom, p1, p2]
      by_cases a1 : accept A known (k + 1) mu1 = false
      · rw [if_pos a1]
        intro h
        cases h
        obtain ⟨e, he, ho⟩ := acc a1
        exact Or.inr ⟨rfl, 0, mu1, e, rfl, rfl, he, ho⟩
      · rw [if_neg a1]
        by_cases a2 : accept A known (k + 1) mu2 = false
        · rw [if_pos a2]
          intro h
          cases h
          obtain ⟨e, he, ho⟩ := acc a2
          exact Or.inr ⟨rfl, 1, mu2, e, rfl, rfl, he, ho⟩
        · rw [if_neg a2]
          intro h
          rcases ih (k + 1) g2 hg2 x h with ⟨h1, h2, h3⟩ | ⟨h1, j, b, e, h2, h3, h4, h5⟩
          · exact Or.inl ⟨h1, by omega, by simp only [List.length_cons]; omega⟩
          · refine Or.inr ⟨h1, j + 2, b, e, by simp only [List.length_cons]; omega, by simpa using h3, ?_, h5⟩
            rw [← h4]; congr 1; omega

end ArbPoly

end Mandelbrot
