import Verif.FFT.First
import Mathlib.NumberTheory.Padics.PadicVal.Basic

/-!
# The shifted real transform as a composition of levels
-/

namespace Mandelbrot.FFT

open Complex

local notation "conj" => starRingEnd ℂ

/-- Levels `d - 1, ..., 0`. -/
noncomputable def levsDown : ℕ → (ℕ → ℂ) → (ℕ → ℂ)
  | 0, y => y
  | d + 1, y => levsDown d (lev d y)

/-- Transposed levels `s, ..., s + d - 1`. -/
noncomputable def levsUpFrom (s : ℕ) : ℕ → (ℕ → ℂ) → (ℕ → ℂ)
  | 0, y => y
  | d + 1, y => levT (s + d) (levsUpFrom s d y)

theorem levsUpFrom_succ (s d : ℕ) (y : ℕ → ℂ) : levsUpFrom s (d + 1) y = levsUpFrom (s + 1) d (levT s y) := by
  induction d with
  | zero => rfl
  | succ d ih =>
    rw [levsUpFrom, ih, levsUpFrom]
    congr 1; omega

theorem levsDown_eqOn {d N : ℕ} (hN : 2 ^ d ∣ N) {y y' : ℕ → ℂ} (h : EqOn N y y') :
    EqOn N (levsDown d y) (levsDown d y') := by
  induction d generalizing y y' with
  | zero => exact h
  | succ d ih =>
    rw [pow_succ, Nat.mul_comm] at hN
    exact ih (dvd_trans (Dvd.intro_left _ rfl) hN) (levW_eqOn hN _ h)

theorem levsUpFrom_eqOn {s d N : ℕ} (hN : 2 ^ (s + d) ∣ N) {y y' : ℕ → ℂ} (h : EqOn N y y') :
    EqOn N (levsUpFrom s d y) (levsUpFrom s d y') := by
  induction d with
  | zero => exact h
  | succ d ih =>
    have hN' : 2 * 2 ^ (s + d) ∣ N := by
      rw [← pow_succ']; exact hN
    exact levWT_eqOn hN' _ (ih (dvd_trans (Dvd.intro_left _ rfl) hN'))

theorem levF_unit (s c : ℕ) : conj (levF s c) * levF s c = 1 := by
  rw [levF, conj_cis', inv_mul_cancel₀ (cis_ne_zero _ _)]

theorem levT_lev (s : ℕ) (y : ℕ → ℂ) (k : ℕ) : levT s (lev s y) k = 2 * y k :=
  levWT_levW (levF_unit s) y k

theorem levT_smul (s : ℕ) (a : ℝ) (y : ℕ → ℂ) (k : ℕ) : levT s (fun k => (a : ℂ) * y k) k = a * levT s y k := by
  simp only [levT, levWT]
  split_ifs <;> simp only [map_mul, conj_ofReal] <;> ring

theorem levsUp_smul (d : ℕ) (a : ℝ) (y : ℕ → ℂ) : levsUpFrom 0 d (fun k => (a : ℂ) * y k) = fun k => a * levsUpFrom 0 d y k := by
  induction d with
  | zero => rfl
  | succ d ih =>
    funext k
    rw [levsUpFrom, ih, levT_smul]
    rfl

theorem levsUp_levsDown (d : ℕ) (y : ℕ → ℂ) : levsUpFrom 0 d (levsDown d y) = fun k => ((2 ^ d : ℝ) : ℂ) * y k := by
  induction d generalizing y with
  | zero => funext k; simp [levsUpFrom, levsDown]
  | succ d ih =>
    funext k
    rw [levsDown, levsUpFrom, ih, levT_smul, Nat.zero_add, levT_lev, pow_succ]
    push_cast
    ring

/-! ## The loops over levels -/

theorem pow_div {p a : ℕ} (h : a ≤ p) : 2 ^ p / 2 ^ a = 2 ^ (p - a) :=
  Nat.pow_div h (by norm_num)

theorem srfftLoop_eq {p : ℕ} (hp : 3 ≤ p) {d : ℕ} (hd : d ≤ p - 3) (y : ℕ → ℂ) :
    EqOn (2 ^ (p - 1)) (srfftLoop (2 ^ p) d y) (levsDown d y) := by
  induction d using Nat.strong_induction_on generalizing y with
  | _ d ih =>
    match d, hd, ih with
    | 0, _, _ => exact EqOn.rfl'
    | 1, hd, _ =>
      have h4 : 2 ^ p / 4 = 2 ^ (p - 2) := pow_div (a := 2) (by omega)
      have := srfftLevels1_eq (s := 0) (cnt := 2 ^ (p - 2)) (by simp) y
      rw [← pow_succ, show p - 2 + 1 = p - 1 by omega] at this
      rw [srfftLoop, h4]
      exact this
    | 2, hd, _ =>
      have h8 : 2 ^ p / 8 = 2 ^ (p - 3) := pow_div (a := 3) (by omega)
      have := srfftLevels2_eq (s := 0) (cnt := 2 ^ (p - 3)) (by simp) y
      rw [show (4 : ℕ) = 2 ^ 2 by norm_num, ← pow_add, show p - 3 + 2 = p - 1 by omega] at this
      rw [srfftLoop, h8]
      exact this
    | s + 3, hd, ih =>
      have h16 : 2 ^ p / 16 = 2 ^ (p - 4) := pow_div (a := 4) (by omega)
      have h := srfftLevels3_eq (s := s) (cnt := 2 ^ (p - 4)) (pow_dvd_pow 2 (by omega)) y
      rw [show (8 : ℕ) = 2 ^ 3 by norm_num, ← pow_add, show p - 4 + 3 = p - 1 by omega] at h
      rw [srfftLoop, h16]
      refine (ih s (by omega) (by omega) _).trans ?_
      exact levsDown_eqOn (pow_dvd_pow 2 (by omega)) h

theorem isrfftLoop_eq {p : ℕ} (hp : 3 ≤ p) (fuel s : ℕ) (hf : p - 3 ≤ s + fuel) (hs : s ≤ p - 3)
    (h3 : s = 0 ∨ (p - 3 - s) % 3 = 0) (y : ℕ → ℂ) :
    EqOn (2 ^ (p - 1)) (isrfftLoop (2 ^ p) p fuel s y) (levsUpFrom s (p - 3 - s) y) := by
  induction fuel generalizing s y with
  | zero =>
    rw [show p - 3 - s = 0 by omega]
    exact EqOn.rfl'
  | succ fuel ih =>
    rw [isrfftLoop]
    by_cases hlt : s < p - 3
    · rw [if_pos hlt]
      by_cases h1 : s = 0 ∧ p % 3 = 1
      · rw [if_pos h1]
        obtain ⟨rfl, hp3⟩ := h1
        have h4 : 2 ^ p / 4 = 2 ^ (p - 2) := pow_div (a := 2) (by omega)
        have h := isrfftLevels1_eq (s := 0) (cnt := 2 ^ (p - 2)) (by simp) y
        rw [← pow_succ, show p - 2 + 1 = p - 1 by omega] at h
        rw [h4]
        refine (ih 1 (by omega) (by omega) (Or.inr (by omega)) _).trans ?_
        refine (levsUpFrom_eqOn (pow_dvd_pow 2 (by omega)) h).trans ?_
        rw [← levsUpFrom_succ, show p - 3 - (0 + 1) + 1 = p - 3 - 0 by omega]
        exact EqOn.rfl'
      · rw [if_neg h1]
        by_cases h2 : s = 0 ∧ p % 3 = 2
        · rw [if_pos h2]
          obtain ⟨rfl, hp3⟩ := h2
          have h8 : 2 ^ p / 8 = 2 ^ (p - 3) := pow_div (a := 3) (by omega)
          have h := isrfftLevels2_eq (s := 0) (cnt := 2 ^ (p - 3)) (by simp) y
          rw [show (4 : ℕ) = 2 ^ 2 by norm_num, ← pow_add, show p - 3 + 2 = p - 1 by omega] at h
          rw [h8]
          refine (ih 2 (by omega) (by omega) (Or.inr (by omega)) _).trans ?_
          refine (levsUpFrom_eqOn (pow_dvd_pow 2 (by omega)) h).trans ?_
          rw [← levsUpFrom_succ, ← levsUpFrom_succ, show p - 3 - (0 + 2) + 1 + 1 = p - 3 - 0 by omega]
          exact EqOn.rfl'
        · rw [if_neg h2]
          have h16 : 2 ^ p / 16 = 2 ^ (p - 4) := pow_div (a := 4) (by omega)
          have h := isrfftLevels3_eq (s := s) (cnt := 2 ^ (p - 4)) (pow_dvd_pow 2 (by omega)) y
          rw [show (8 : ℕ) = 2 ^ 3 by norm_num, ← pow_add, show p - 4 + 3 = p - 1 by omega] at h
          rw [h16]
          refine (ih (s + 3) (by omega) (by omega) (Or.inr (by omega)) _).trans ?_
          refine (levsUpFrom_eqOn (pow_dvd_pow 2 (by omega)) h).trans ?_
          have e : p - 3 - s = p - 3 - (s + 3) + 1 + 1 + 1 := by omega
          rw [e, levsUpFrom_succ, levsUpFrom_succ, levsUpFrom_succ]
          exact EqOn.rfl'
    · rw [if_neg hlt, show p - 3 - s = 0 by omega]
      exact EqOn.rfl'

/-! ## The scrambled transforms -/

/-- Factors of the second level for size `2^p`. -/
noncomputable def facA (p k : ℕ) : ℂ := conj (cis k (2 * 2 ^ p))
noncomputable def facB (p k : ℕ) : ℂ := cis (3 * (k : ℤ)) (2 * 2 ^ p)

/-- What `srfft_scramble` computes for size `2^p`. -/
noncomputable def fwd (p : ℕ) (x : ℕ → ℝ) : ℕ → ℂ :=
  if p = 1 then b0 1 x
  else levsDown (p - 2) (b1W (2 ^ (p - 2)) (facA p) (facB p) (b0 (2 ^ (p - 1)) x))

/-- What `isrfft_scramble` computes for size `2^p`. -/
noncomputable def bwd (p : ℕ) (c : ℕ → ℂ) : ℕ → ℝ :=
  if p = 1 then b0T 1 c
  else b0T (2 ^ (p - 1)) (b1WT (2 ^ (p - 2)) (facA p) (facB p) (levsUpFrom 0 (p - 2) c))

theorem facA_unit (p k : ℕ) : conj (facA p k) * facA p k = 1 := by
  rw [facA, conj_conj, conj_cis', mul_inv_cancel₀ (cis_ne_zero _ _)]

theorem facB_unit (p k : ℕ) : conj (facB p k) * facB p k = 1 := by
  rw [facB, conj_cis', inv_mul_cancel₀ (cis_ne_zero _ _)]

/-- The backward transform undoes the forward one up to the factor `2^(p-1)`. -/
theorem bwd_fwd {p : ℕ} (hp : 1 ≤ p) (x : ℕ → ℝ) {k : ℕ} (hk : k < 2 ^ p) :
    bwd p (fwd p x) k = 2 ^ (p - 1) * x k := by
  by_cases h1 : p = 1
  · subst h1
    simp only [bwd, fwd, if_true]
    rw [b0T_b0]; simp
  · rw [bwd, fwd, if_neg h1, if_neg h1, levsUp_levsDown]
    have hM : 2 * 2 ^ (p - 2) = 2 ^ (p - 1) := by rw [← pow_succ', show p - 2 + 1 = p - 1 by omega]
    have hN : 2 * 2 ^ (p - 1) = 2 ^ p := by rw [← pow_succ', show p - 1 + 1 = p by omega]
    set z := b0 (2 ^ (p - 1)) x with hz
    have hlin : EqOn (2 ^ (p - 1)) (b1WT (2 ^ (p - 2)) (facA p) (facB p)
        (fun k => ((2 ^ (p - 2) : ℝ) : ℂ) * b1W (2 ^ (p - 2)) (facA p) (facB p) z k))
        (fun k => ((2 ^ (p - 1) : ℝ) : ℂ) * z k) := by
      intro k hk
      have h2 := b1WT_b1W (facA_unit p) (facB_unit p) z (M := 2 ^ (p - 2)) (k := k) (by omega)
      have : b1WT (2 ^ (p - 2)) (facA p) (facB p)
          (fun k => ((2 ^ (p - 2) : ℝ) : ℂ) * b1W (2 ^ (p - 2)) (facA p) (facB p) z k) k =
          ((2 ^ (p - 2) : ℝ) : ℂ) * b1WT (2 ^ (p - 2)) (facA p) (facB p) (b1W (2 ^ (p - 2)) (facA p) (facB p) z) k := by
        simp only [b1WT]
        split_ifs <;> simp only [map_mul, conj_ofReal] <;> ring
      rw [this, h2, ← mul_assoc]
      congr 1
      rw [show p - 1 = p - 2 + 1 by omega, pow_succ]
      push_cast
      ring
    rw [b0T_congr hlin (by omega)]
    have : b0T (2 ^ (p - 1)) (fun k => ((2 ^ (p - 1) : ℝ) : ℂ) * z k) k = 2 ^ (p - 1) * b0T (2 ^ (p - 1)) z k := by
      simp only [b0T]
      split_ifs
      · rw [re_ofReal_mul]
      · rw [im_ofReal_mul]; ring
    rw [this, b0T_b0]

theorem countrZero64_pow {p : ℕ} : countrZero64 (2 ^ p) = p := by
  rw [countrZero64, if_neg (by positivity), padicValNat.prime_pow]

theorem levW_congr {t : ℕ} {w w' : ℕ → ℂ} {y : ℕ → ℂ} (h : ∀ c < 2 ^ t, w c = w' c) : levW t w y = levW t w' y := by
  funext i
  rw [levW, levW, h _ (Nat.mod_lt _ (by positivity))]

theorem levWT_congr {t : ℕ} {w w' : ℕ → ℂ} {y : ℕ → ℂ} (h : ∀ c < 2 ^ t, w c = w' c) : levWT t w y = levWT t w' y := by
  funext i
  rw [levWT, levWT, h _ (Nat.mod_lt _ (by positivity))]

theorem cis8 (s j : ℕ) : cis (8 * (j : ℤ)) (2 * 2 ^ (3 + s)) = cis j (2 * 2 ^ s) := by
  have := cis_cancel (j : ℤ) (n := 2 * 2 ^ s) (k := 8) (by norm_num)
  rw [← this, pow_add]
  congr 1
  · push_cast; ring
  · ring

theorem fwd_first {p : ℕ} (hp : 3 ≤ p) {tw : ℤ → ℂ} (htw : ∀ k, tw k = cis k (2 * 2 ^ p)) (y : ℕ → ℂ) (x : Span ℝ) :
    EqOn (2 ^ (p - 1)) (srfftFirst 3 (2 ^ (p - 3)) (1 <<< (p - 3)) tw y x)
      (lev (p - 3) (b1W (2 ^ (p - 2)) (facA p) (facB p) (b0 (2 ^ (p - 1)) x.getZ))) := by
  obtain ⟨s, rfl⟩ := Nat.exists_eq_add_of_le hp
  rw [show 3 + s - 3 = s by omega, show 3 + s - 2 = s + 1 by omega, show 3 + s - 1 = s + 2 by omega]
  have hm : 0 < 2 ^ s := by positivity
  intro k hk
  obtain ⟨h1, h2⟩ := strided_cell (cnt := 2 ^ s) (R := 4) (k := k) (by
    rw [show (4 : ℕ) = 2 ^ 2 by norm_num, ← pow_add]; exact hk)
  have hj := Nat.mod_lt k hm
  generalize k / 2 ^ s = i at *
  generalize k % 2 ^ s = j at *
  subst h2
  rw [srfftFirst_at 3 (2 ^ s) _ tw y x (by simpa using h1) hj, firstLevels3_eq _ _ _ _ _ h1]
  have hl := lev_stride s 0 (b1W (2 ^ (s + 1)) (facA (3 + s)) (facB (3 + s)) (b0 (2 ^ (s + 2)) x.getZ)) hj i
  rw [add_zero] at hl
  rw [add_comm j, hl]
  have hy : ∀ i', b1W 2 (b1A tw j (2 ^ s)) (b1B tw j (2 ^ s)) (b0 4 fun i => x.getZ (j + i * 2 ^ s)) i' =
      b1W (2 ^ (s + 1)) (facA (3 + s)) (facB (3 + s)) (b0 (2 ^ (s + 2)) x.getZ) (i' * 2 ^ s + j) := by
    intro i'
    have hb : ∀ i'', b0 4 (fun i => x.getZ (j + i * 2 ^ s)) i'' = b0 (2 ^ (s + 2)) x.getZ (i'' * 2 ^ s + j) := by
      intro i''
      rw [b0, b0, add_comm j, show j + (i'' + 4) * 2 ^ s = i'' * 2 ^ s + j + 2 ^ (s + 2) by rw [pow_add]; ring]
    have hA : ∀ i'', b1A tw j (2 ^ s) i'' = facA (3 + s) (i'' * 2 ^ s + j) := by
      intro i''; rw [b1A, facA, htw, add_comm j]
    have hB : ∀ i'', b1B tw j (2 ^ s) i'' = facB (3 + s) (i'' * 2 ^ s + j) := by
      intro i''; rw [b1B, facB, htw, add_comm j]
    simp only [b1W, hb, hA, hB]
    by_cases h : i' < 2
    · have : i' * 2 ^ s + j < 2 ^ (s + 1) := by
        have : (i' + 1) * 2 ^ s ≤ 2 * 2 ^ s := Nat.mul_le_mul_right _ (by omega)
        rw [Nat.add_mul, one_mul] at this
        rw [pow_succ]; omega
      rw [if_pos h, if_pos this, show (i' + 2) * 2 ^ s + j = i' * 2 ^ s + j + 2 ^ (s + 1) by rw [pow_succ]; ring]
    · have : ¬ i' * 2 ^ s + j < 2 ^ (s + 1) := by
        have : 2 * 2 ^ s ≤ i' * 2 ^ s := Nat.mul_le_mul_right _ (by omega)
        rw [pow_succ]; omega
      rw [if_neg h, if_neg this]
      have e : (i' - 2) * 2 ^ s + j = i' * 2 ^ s + j - 2 ^ (s + 1) := by
        rw [Nat.sub_mul, pow_succ]
        have : 2 * 2 ^ s ≤ i' * 2 ^ s := Nat.mul_le_mul_right _ (by omega)
        omega
      rw [e]
  have hfun : b1W 2 (b1A tw j (2 ^ s)) (b1B tw j (2 ^ s)) (b0 4 fun i => x.getZ (j + i * 2 ^ s)) =
      fun i => b1W (2 ^ (s + 1)) (facA (3 + s)) (facB (3 + s)) (b0 (2 ^ (s + 2)) x.getZ) (i * 2 ^ s + j) := funext hy
  rw [hfun]
  refine congrFun (levW_congr fun c hc => ?_) i
  have hc0 : c = 0 := by simpa using hc
  subst hc0
  rw [htw, Nat.one_shiftLeft, and_mask, Nat.mod_eq_of_lt hj, levF, zero_mul, zero_add]
  exact (cis8 s j).trans rfl

theorem levWT_first {p : ℕ} (hp : 3 ≤ p) {tw : ℤ → ℂ} (htw : ∀ k, tw k = cis k (2 * 2 ^ p)) (c : ℕ → ℂ) {k : ℕ}
    (hk : k < 2 ^ p) :
    transposeR 4 (firstLevels 3 (k % 2 ^ (p - 3)) (2 ^ (p - 3)) (1 <<< (p - 3)) tw)
        (fun i => c (k % 2 ^ (p - 3) + i * 2 ^ (p - 3))) (k / 2 ^ (p - 3)) =
      b0T (2 ^ (p - 1)) (b1WT (2 ^ (p - 2)) (facA p) (facB p) (levT (p - 3) c)) k := by
  obtain ⟨s, rfl⟩ := Nat.exists_eq_add_of_le hp
  rw [show 3 + s - 3 = s by omega, show 3 + s - 2 = s + 1 by omega, show 3 + s - 1 = s + 2 by omega]
  have hm : 0 < 2 ^ s := by positivity
  obtain ⟨h1, h2⟩ := strided_cell (cnt := 2 ^ s) (R := 8) (k := k) (by
    rw [show (8 : ℕ) = 2 ^ 3 by norm_num, ← pow_add, add_comm]; exact hk)
  have hj := Nat.mod_lt k hm
  generalize k / 2 ^ s = i at *
  generalize k % 2 ^ s = j at *
  subst h2
  rw [firstLevels3_T _ _ _ _ _ h1]
  have hA : ∀ i'', b1A tw j (2 ^ s) i'' = facA (3 + s) (i'' * 2 ^ s + j) := by
    intro i''; rw [b1A, facA, htw, add_comm j]
  have hB : ∀ i'', b1B tw j (2 ^ s) i'' = facB (3 + s) (i'' * 2 ^ s + j) := by
    intro i''; rw [b1B, facB, htw, add_comm j]
  have hw : levWT 0 (fun _ => tw ((8 : ℤ) * ((j &&& (1 <<< s - 1) : ℕ) : ℤ))) (fun i => c (j + i * 2 ^ s)) =
      fun i => levT s c (i * 2 ^ s + j) := by
    funext i'
    have hl := levT_stride s 0 c hj i'
    rw [add_zero] at hl
    rw [hl]
    simp only [add_comm j]
    refine congrFun (levWT_congr fun c hc => ?_) i'
    have hc0 : c = 0 := by simpa using hc
    subst hc0
    rw [htw, Nat.one_shiftLeft, and_mask, Nat.mod_eq_of_lt hj, levF, zero_mul, zero_add]
    exact (cis8 s j).trans rfl
  rw [hw]
  have hy : ∀ i', b1WT 2 (b1A tw j (2 ^ s)) (b1B tw j (2 ^ s)) (fun i => levT s c (i * 2 ^ s + j)) i' =
      b1WT (2 ^ (s + 1)) (facA (3 + s)) (facB (3 + s)) (levT s c) (i' * 2 ^ s + j) := by
    intro i'
    simp only [b1WT, hA, hB]
    by_cases h : i' < 2
    · have : i' * 2 ^ s + j < 2 ^ (s + 1) := by
        have : (i' + 1) * 2 ^ s ≤ 2 * 2 ^ s := Nat.mul_le_mul_right _ (by omega)
        rw [Nat.add_mul, one_mul] at this
        rw [pow_succ]; omega
      rw [if_pos h, if_pos this, show (i' + 2) * 2 ^ s + j = i' * 2 ^ s + j + 2 ^ (s + 1) by rw [pow_succ]; ring]
    · have : ¬ i' * 2 ^ s + j < 2 ^ (s + 1) := by
        have : 2 * 2 ^ s ≤ i' * 2 ^ s := Nat.mul_le_mul_right _ (by omega)
        rw [pow_succ]; omega
      rw [if_neg h, if_neg this]
      have e : (i' - 2) * 2 ^ s + j = i' * 2 ^ s + j - 2 ^ (s + 1) := by
        rw [Nat.sub_mul, pow_succ]
        have : 2 * 2 ^ s ≤ i' * 2 ^ s := Nat.mul_le_mul_right _ (by omega)
        omega
      rw [e]
  rw [b0T, b0T, hy, hy, add_comm j]
  by_cases h : i < 4
  · have : i * 2 ^ s + j < 2 ^ (s + 2) := by
      have : (i + 1) * 2 ^ s ≤ 4 * 2 ^ s := Nat.mul_le_mul_right _ (by omega)
      rw [Nat.add_mul, one_mul] at this
      rw [pow_add]; omega
    rw [if_pos h, if_pos this]
  · have h4 : 4 * 2 ^ s ≤ i * 2 ^ s := Nat.mul_le_mul_right _ (by omega)
    have : ¬ i * 2 ^ s + j < 2 ^ (s + 2) := by
      rw [pow_add]; omega
    rw [if_neg h, if_neg this]
    have e : (i - 4) * 2 ^ s + j = i * 2 ^ s + j - 2 ^ (s + 2) := by
      rw [Nat.sub_mul, pow_add]
      omega
    rw [e]

/-- `srfft_scramble` on `2^(p-1)` cells. -/
theorem srfftScramble_eq {lim : ℕ∞} {p : ℕ} (hp : 1 ≤ p) (hlim : p ≤ 2 ∨ (p : ℕ∞) < lim) (y : ℕ → ℂ) {x : Span ℝ}
    (hx : x.len ≤ 2 ^ p) :
    ∃ y', srfftScramble lim (2 ^ (p - 1)) y x = .ok y' ∧ EqOn (2 ^ (p - 1)) y' (fwd p x.getZ) := by
  have hn : 2 * 2 ^ (p - 1) = 2 ^ p := by rw [← pow_succ', Nat.sub_add_cancel hp]
  have hn0 : 2 ^ p ≠ 0 := by positivity
  by_cases h3 : 3 ≤ p
  · obtain ⟨tw, htw, htw'⟩ := bigSlice_eq (lim := lim) (s := p) (by omega) (hlim.resolve_left (by omega))
    refine ⟨srfftLoop (2 ^ p) (p - 3) (srfftFirst 3 (2 ^ p / 8) (1 <<< (p - 3)) tw y x), ?_, ?_⟩
    · simp only [srfftScramble, hn, if_neg hn0, countrZero64_pow]
      rw [slowAssert_true ⟨trivial, hx⟩, bok]
      obtain ⟨q, rfl⟩ := Nat.exists_eq_add_of_le' h3
      simp only [htw, bok, pok]
    · have h8 : 2 ^ p / 8 = 2 ^ (p - 3) := pow_div (a := 3) (by omega)
      rw [h8]
      refine (srfftLoop_eq h3 le_rfl _).trans ?_
      refine (levsDown_eqOn (pow_dvd_pow 2 (by omega)) (fwd_first h3 htw' y x)).trans ?_
      rw [fwd, if_neg (by omega), show p - 2 = p - 3 + 1 by omega]
      exact EqOn.rfl'
  · obtain rfl | rfl : p = 1 ∨ p = 2 := by omega
    · refine ⟨srfftFirst 1 1 0 (fun j => constantTwiddle j 1) y x, ?_, ?_⟩
      · simp only [srfftScramble, hn, if_neg hn0, countrZero64_pow]
        rw [slowAssert_true ⟨trivial, hx⟩]
        rfl
      · intro k hk
        have hk0 : k = 0 := by simpa using hk
        subst hk0
        have := srfftFirst_at 1 1 0 (fun j => constantTwiddle j 1) y x (i := 0) (j := 0) (by norm_num) (by norm_num)
        rw [firstLevels1_eq _ _ _ _ _ (by norm_num)] at this
        rw [fwd, if_pos rfl]
        simpa [b0] using this
    · refine ⟨srfftFirst 2 1 0 (fun j => constantTwiddle j 2) y x, ?_, ?_⟩
      · simp only [srfftScramble, hn, if_neg hn0, countrZero64_pow]
        rw [slowAssert_true ⟨trivial, hx⟩]
        rfl
      · intro k hk
        have hk2 : k < 2 := by simpa using hk
        have := srfftFirst_at 2 1 0 (fun j => constantTwiddle j 2) y x (i := k) (j := 0) (by simpa using hk2)
          (by norm_num)
        rw [firstLevels2_eq _ _ _ _ _ hk2] at this
        rw [fwd, if_neg (by norm_num)]
        simp only [zero_add, mul_one] at this
        rw [this]
        interval_cases k <;> simp [levsDown, b1W, b1A, b1B, facA, facB, constantTwiddle, b0]

/-- `isrfft_scramble` on `2^(p-1)` cells: what is in every cell of the output buffer. -/
theorem isrfftScramble_eq {lim : ℕ∞} {p : ℕ} (hp : 1 ≤ p) (hlim : p ≤ 2 ∨ (p : ℕ∞) < lim) (add : Bool) {xn : ℕ}
    (hx : xn ≤ 2 * 2 ^ p) (x : ℕ → ℝ) (y : ℕ → ℂ) :
    ∃ x', isrfftScramble lim add xn x (2 ^ (p - 1)) y = .ok x' ∧
      ∀ k, x' k = if k < 2 ^ p ∧ k < xn then (if add then x k else 0) + bwd p y k else x k := by
  have hn : 2 * 2 ^ (p - 1) = 2 ^ p := by rw [← pow_succ', Nat.sub_add_cancel hp]
  have hn0 : 2 ^ p ≠ 0 := by positivity
  by_cases h3 : 3 ≤ p
  · obtain ⟨tw, htw, htw'⟩ := bigSlice_eq (lim := lim) (s := p) (by omega) (hlim.resolve_left (by omega))
    refine ⟨isrfftLast add 3 (2 ^ p / 8) (1 <<< (p - 3)) tw (isrfftLoop (2 ^ p) p p 0 y) xn x, ?_, ?_⟩
    · simp only [isrfftScramble, hn, if_neg hn0, countrZero64_pow]
      rw [slowAssert_true ⟨trivial, hx⟩, bok]
      obtain ⟨q, rfl⟩ := Nat.exists_eq_add_of_le' h3
      simp only [htw, bok]
    · intro k
      have h8 : 2 ^ p / 8 = 2 ^ (p - 3) := pow_div (a := 3) (by omega)
      rw [h8, isrfftLast_at, ← pow_add, show p - 3 + 3 = p by omega]
      by_cases hk : k < 2 ^ p ∧ k < xn
      · rw [if_pos hk, if_pos hk]
        congr 1
        refine (levWT_first h3 htw' _ hk.1).trans ?_
        rw [bwd, if_neg (by omega)]
        refine b0T_congr ?_ (by rw [hn]; exact hk.1)
        rw [show 2 ^ (p - 1) = 2 * 2 ^ (p - 2) by rw [← pow_succ', show p - 2 + 1 = p - 1 by omega]]
        refine b1WT_eqOn ?_
        rw [show 2 * 2 ^ (p - 2) = 2 ^ (p - 1) by rw [← pow_succ', show p - 2 + 1 = p - 1 by omega]]
        have hl := isrfftLoop_eq h3 p 0 (by omega) (by omega) (Or.inl rfl) y
        have := levWT_eqOn (t := p - 3) (N := 2 ^ (p - 1)) (by
          rw [← pow_succ']; exact pow_dvd_pow 2 (by omega)) (levF (p - 3)) hl
        refine this.trans ?_
        rw [show p - 2 = p - 3 + 1 by omega, levsUpFrom, Nat.zero_add, Nat.sub_zero]
        exact EqOn.rfl'
      · rw [if_neg hk, if_neg hk]
  · obtain rfl | rfl : p = 1 ∨ p = 2 := by omega
    · refine ⟨isrfftLast add 1 1 0 (fun j => constantTwiddle j 1) y xn x, ?_, fun k => ?_⟩
      · simp only [isrfftScramble, hn, if_neg hn0, countrZero64_pow]
        rw [slowAssert_true ⟨trivial, hx⟩]
        rfl
      · rw [isrfftLast_at, one_mul]
        by_cases hk : k < 2 ^ 1 ∧ k < xn
        · rw [if_pos hk, if_pos hk]
          congr 1
          simp only [Nat.mod_one, Nat.div_one, zero_add, mul_one]
          refine (firstLevels1_T _ _ _ _ _ (by simpa using hk.1)).trans ?_
          rw [bwd, if_pos rfl]
        · rw [if_neg hk, if_neg hk]
    · refine ⟨isrfftLast add 2 1 0 (fun j => constantTwiddle j 2) y xn x, ?_, fun k => ?_⟩
      · simp only [isrfftScramble, hn, if_neg hn0, countrZero64_pow]
        rw [slowAssert_true ⟨trivial, hx⟩]
        rfl
      · rw [isrfftLast_at, one_mul]
        by_cases hk : k < 2 ^ 2 ∧ k < xn
        · rw [if_pos hk, if_pos hk]
          congr 1
          simp only [Nat.mod_one, Nat.div_one, zero_add, mul_one]
          refine (firstLevels2_T _ _ _ _ _ (by simpa using hk.1)).trans ?_
          rw [bwd, if_neg (by norm_num)]
          have hk4 : k < 4 := by simpa using hk.1
          interval_cases k <;>
            simp [levsUpFrom, b0T, b1WT, b1A, b1B, facA, facB, constantTwiddle]
        · rw [if_neg hk, if_neg hk]

end Mandelbrot.FFT
