import Verif.Series.Model
import Verif.PS.Agree

/-!
# Denotation of series and lemmas for the elementary operations
-/

set_option linter.unusedSectionVars false

namespace Mandelbrot

open PowerSeries

namespace Ser

/-- Consistency of the counts. -/
structure WF {K : Type} (x : Ser K) : Prop where
  nonneg : 0 ≤ x.nonzero
  le_known : x.nonzero ≤ x.known
  le_limit : x.nonzero ≤ x.limit

variable {K : Type} [Field K]

/-- The polynomial of the stored terms. -/
noncomputable def ps (x : Ser K) : K⟦X⟧ :=
  PowerSeries.mk fun i => if (i : ℤ) < x.nonzero then x.data i else 0

theorem coeff_ps (x : Ser K) (i : ℕ) :
    coeff i x.ps = if (i : ℤ) < x.nonzero then x.data i else 0 := by
  rw [ps, coeff_mk]

/-- `x` is a consistent series with exactly `n` known terms, which are those of `F`. -/
structure Is (x : Ser K) (n : ℕ) (F : K⟦X⟧) : Prop where
  wf : x.WF
  known : x.known = n
  agree : Agree n x.ps F

theorem Is.self {x : Ser K} (h : x.WF) (n : ℕ) (hn : x.known = n) : x.Is n x.ps :=
  ⟨h, hn, Agree.rfl'⟩

theorem Is.congr {x : Ser K} {n : ℕ} {F G : K⟦X⟧} (h : x.Is n F) (e : Agree n F G) : x.Is n G :=
  ⟨h.wf, h.known, h.agree.trans e⟩

theorem WF.known_nonneg {x : Ser K} (h : x.WF) : 0 ≤ x.known := h.nonneg.trans h.le_known

theorem setCounts_ok (x : Ser K) {k z : ℤ} (h0 : 0 ≤ z) (h1 : z ≤ k) (h2 : z ≤ x.limit) :
    x.setCounts k z = .ok { x with known := k, nonzero := z } := by
  have : toU64 z ≤ toU64 (min x.limit k) := by
    rw [toU64_of_nonneg h0, toU64_of_nonneg (le_min (by omega) (by omega))]
    exact le_min h2 h1
  simp [setCounts, slowAssert, this]

theorem setKnown_ok (x : Ser K) {k : ℤ} (h : 0 ≤ k) :
    x.setKnown k = .ok { x with known := k, nonzero := min x.nonzero k } := by
  simp [setKnown, slowAssert, h]

/-- Changing the number of known terms upwards or downwards keeps the terms below both. -/
theorem setKnown_spec {x : Ser K} (hx : x.WF) {m : ℕ} :
    ∃ y : Ser K, x.setKnown m = .ok y ∧ y.limit = x.limit ∧ y.known = m ∧
      y.nonzero = min x.nonzero m ∧ y.WF ∧ Agree m y.ps x.ps := by
  refine ⟨_, setKnown_ok x (by omega), rfl, rfl, rfl, ⟨?_, ?_, ?_⟩, ?_⟩
  · have := hx.nonneg; simp only; omega
  · simp only; omega
  · have := hx.le_limit; simp only; omega
  · intro i hi
    rw [coeff_ps, coeff_ps]
    simp only
    by_cases h : (i : ℤ) < x.nonzero
    · rw [if_pos (by omega), if_pos h]
    · rw [if_neg (by omega), if_neg h]

theorem assign_spec {x g : Ser K} (hg : g.WF) (hl : g.nonzero ≤ x.limit) :
    ∃ y : Ser K, x.assign g = .ok y ∧ y.limit = x.limit ∧ y.known = g.known ∧
      y.nonzero = g.nonzero ∧ y.WF ∧ y.ps = g.ps := by
  have e : x.assign g = .ok { x with
    known := g.known, nonzero := g.nonzero
    data := fun i => if (i : ℤ) < g.nonzero then g.data i else x.data i } := by
    simp only [assign, slowAssert, if_pos hl]; rfl
  refine ⟨_, e, rfl, rfl, rfl, ⟨hg.nonneg, hg.le_known, hl⟩, ?_⟩
  ext i
  rw [coeff_ps, coeff_ps]
  simp only
  split_ifs <;> rfl

theorem setScalar_spec (x : Ser K) (n : ℕ) (a : K) (hl : 0 ≤ x.limit)
    (h : 0 < n → 1 ≤ x.limit) :
    ∃ y : Ser K, x.setScalar n a = .ok y ∧ y.limit = x.limit ∧ y.known = n ∧
      y.nonzero = (if 0 < n then 1 else 0) ∧ y.WF ∧ y.Is n (C a) := by
  have hr : relu (n : ℤ) = n := relu_of_nonneg (by omega)
  have hc : x.limit ≥ if (n : ℤ) > 0 then 1 else 0 := by
    split_ifs with h1
    · exact h (by omega)
    · exact hl
  have e : x.setScalar n a = .ok { x with
    known := n
    nonzero := if (n : ℤ) > 0 then 1 else 0
    data := fun i => if (n : ℤ) ≠ 0 ∧ i = 0 then a else x.data i } := by
    simp only [setScalar, hr, slowAssert, if_pos hc]
    rfl
  have hwf : (⟨x.limit, n, if (n : ℤ) > 0 then 1 else 0,
      fun i => if (n : ℤ) ≠ 0 ∧ i = 0 then a else x.data i⟩ : Ser K).WF := by
    refine ⟨?_, ?_, ?_⟩
    · simp only; split_ifs <;> omega
    · simp only; split_ifs <;> omega
    · exact hc
  refine ⟨_, e, rfl, rfl, ?_, hwf, hwf, rfl, ?_⟩
  · simp only
    by_cases h : 0 < n
    · rw [if_pos h, if_pos (by omega)]
    · rw [if_neg h, if_neg (by omega)]
  · intro i hi
    rw [coeff_ps, coeff_C]
    simp only
    rw [if_pos (show (n : ℤ) > 0 by omega)]
    rcases Nat.eq_zero_or_pos i with rfl | h
    · simp; omega
    · rw [if_neg (by omega), if_neg (by omega)]

/-! ## Views -/

theorem low_known (x : Ser K) (n : ℤ) : (x.low n).known = min (relu n) x.known := rfl
theorem low_nonzero (x : Ser K) (n : ℤ) :
    (x.low n).nonzero = min (min (relu n) x.known) x.nonzero := rfl

theorem low_wf {x : Ser K} (h : x.WF) (n : ℤ) : (x.low n).WF := by
  have h1 := relu_nonneg n
  have h2 := h.nonneg
  have h3 := h.le_known
  refine ⟨?_, ?_, ?_⟩ <;> simp only [low] <;> omega

theorem low_agree (x : Ser K) (n : ℤ) {m : ℕ} (hm : (m : ℤ) ≤ (x.low n).known) :
    Agree m (x.low n).ps x.ps := by
  intro i hi
  rw [coeff_ps, coeff_ps]
  rw [low_known] at hm
  rw [low_nonzero]
  by_cases h : (i : ℤ) < x.nonzero
  · rw [if_pos (by omega), if_pos h]; rfl
  · rw [if_neg (by omega), if_neg h]

theorem low_is {x : Ser K} {n : ℕ} {F : K⟦X⟧} (h : x.Is n F) (m : ℤ) {k : ℕ}
    (hk : (k : ℤ) = min (relu m) n) : (x.low m).Is k F := by
  have hkn : (x.low m).known = k := by rw [low_known, h.known, hk]
  exact ⟨low_wf h.wf m, hkn, (low_agree x m hkn.ge).trans (h.agree.mono (by omega))⟩

theorem high_known (x : Ser K) (n : ℕ) : (x.high n).known = relu (x.known - n) := by
  simp [high, relu_of_nonneg]

theorem high_nonzero (x : Ser K) (n : ℕ) : (x.high n).nonzero = relu (x.nonzero - n) := by
  simp [high, relu_of_nonneg]

theorem high_wf {x : Ser K} (h : x.WF) (n : ℕ) : (x.high n).WF := by
  have h2 := h.nonneg
  have h3 := h.le_known
  refine ⟨?_, ?_, ?_⟩
  · rw [high_nonzero]; exact relu_nonneg _
  · rw [high_nonzero, high_known]; unfold relu; omega
  · exact le_refl _

theorem coeff_high (x : Ser K) (n i : ℕ) : coeff i (x.high n).ps = coeff (i + n) x.ps := by
  rw [coeff_ps, coeff_ps, high_nonzero]
  have e : (x.high n).data i = x.data (i + n) := by simp [high, relu_of_nonneg]
  rw [e]
  unfold relu
  by_cases h : ((i + n : ℕ) : ℤ) < x.nonzero
  · rw [if_pos h, if_pos (by push_cast at h; omega)]
  · rw [if_neg h, if_neg (by push_cast at h; omega)]

theorem high_is {x : Ser K} {n s : ℕ} {F : K⟦X⟧} (h : x.Is (n + s) (X ^ s * F)) :
    (x.high s).Is n F := by
  have hkn : (x.high s).known = n := by
    rw [high_known, h.known]; unfold relu; push_cast; omega
  refine ⟨high_wf h.wf s, hkn, fun i hi => ?_⟩
  rw [coeff_high, h.agree _ (by omega), coeff_X_pow_mul]

/-- If the low terms vanish, multiplying the high part back gives the series. -/
theorem X_pow_mul_high {x : Ser K} {s : ℕ} (h : Agree s x.ps 0) :
    X ^ s * (x.high s).ps = x.ps := by
  ext i
  rw [coeff_X_pow_mul']
  split_ifs with hs
  · rw [coeff_high, Nat.sub_add_cancel hs]
  · have := h i (by omega); rw [this]; simp

/-! ## Loops -/

theorem loopSet_counts (y : Ser K) (n : ℤ) (f : ℕ → K) :
    (y.loopSet n f).limit = y.limit ∧ (y.loopSet n f).known = y.known ∧
      (y.loopSet n f).nonzero = y.nonzero := ⟨rfl, rfl, rfl⟩

theorem addScalar_spec {x : Ser K} (hx : x.WF) (h : 1 ≤ x.nonzero) (a : K) :
    ∃ y : Ser K, x.addScalar a = .ok y ∧ y.limit = x.limit ∧ y.known = x.known ∧
      y.nonzero = x.nonzero ∧ y.WF ∧ y.ps = x.ps + C a := by
  have hne : x.nonzero ≠ 0 := by omega
  have e : x.addScalar a = .ok { x with
    data := fun i => if i = 0 then x.data 0 + a else x.data i } := by
    simp only [addScalar, slowAssert, ne_eq, hne, not_false_eq_true, if_true]; rfl
  refine ⟨_, e, rfl, rfl, rfl,
    ⟨hx.nonneg, hx.le_known, hx.le_limit⟩, ?_⟩
  ext i
  rw [coeff_ps, map_add, coeff_ps, coeff_C]
  simp only
  rcases Nat.eq_zero_or_pos i with rfl | hi
  · have : (0 : ℤ) < x.nonzero := by omega
    simp [this]
  · rw [if_neg (by omega : ¬ i = 0), if_neg (by omega : ¬ i = 0), add_zero]

theorem neg_spec {y x : Ser K} (hx : x.WF) (hl : x.nonzero ≤ y.limit) :
    ∃ y' : Ser K, neg y x = .ok y' ∧ y'.limit = y.limit ∧ y'.known = x.known ∧
      y'.nonzero = x.nonzero ∧ y'.WF ∧ y'.ps = -x.ps := by
  have e : neg y x = .ok ((⟨y.limit, x.known, x.nonzero, y.data⟩ : Ser K).loopSet x.nonzero
      fun i => -x.data i) := by
    simp only [neg, setCounts_ok y hx.nonneg hx.le_known hl]; rfl
  refine ⟨_, e, rfl, rfl, rfl,
    ⟨hx.nonneg, hx.le_known, hl⟩, ?_⟩
  ext i
  rw [coeff_ps, map_neg, coeff_ps]
  simp only [loopSet]
  split_ifs <;> simp

/-- Lawful `ldexp`: multiplication by a power of two. -/
class LawfulLdexp (K : Type) [Field K] [Ldexp K] : Prop where
  ldexp_eq : ∀ (a : K) (b : ℤ), ldexp a b = a * 2 ^ b

variable [Ldexp K] [LawfulLdexp K]

theorem ldexpSer_spec {y x : Ser K} (hx : x.WF) (hl : x.nonzero ≤ y.limit) (b : ℤ) :
    ∃ y' : Ser K, ldexpSer y x b = .ok y' ∧ y'.limit = y.limit ∧ y'.known = x.known ∧
      y'.nonzero = x.nonzero ∧ y'.WF ∧ y'.ps = C ((2 : K) ^ b) * x.ps := by
  have e : ldexpSer y x b = .ok ((⟨y.limit, x.known, x.nonzero, y.data⟩ : Ser K).loopSet x.nonzero
      fun i => ldexp (x.data i) b) := by
    simp only [ldexpSer, setCounts_ok y hx.nonneg hx.le_known hl]; rfl
  refine ⟨_, e, rfl, rfl, rfl,
    ⟨hx.nonneg, hx.le_known, hl⟩, ?_⟩
  ext i
  rw [coeff_ps, coeff_C_mul, coeff_ps]
  simp only [loopSet, LawfulLdexp.ldexp_eq]
  split_ifs <;> simp [mul_comm]

theorem highAddsubLdexp_spec {y x : Ser K} (hy : y.WF) (hx : x.WF) {sign : ℤ}
    (hs : sign = 1 ∨ sign = -1) (b : ℤ) (s : ℕ)
    (hl : min (min y.known (x.known + s)) (max y.nonzero (if x.nonzero ≠ 0 then x.nonzero + s else 0))
      ≤ y.limit) :
    ∃ y' : Ser K, y.highAddsubLdexp sign b s x = .ok y' ∧ y'.limit = y.limit ∧
      y'.known = min y.known (x.known + s) ∧
      y'.nonzero = min y'.known (max y.nonzero (if x.nonzero ≠ 0 then x.nonzero + s else 0)) ∧
      y'.WF ∧
      ∀ n : ℕ, (n : ℤ) ≤ y'.known →
        Agree n y'.ps (y.ps + X ^ s * (C ((sign : K) * 2 ^ b) * x.ps)) := by
  have hy0 := hy.nonneg
  have hx0 := hx.nonneg
  have hyk := hy.le_known
  have hxk := hx.le_known
  set nk := min y.known (x.known + s) with hnk
  set nz := min nk (max y.nonzero (if x.nonzero ≠ 0 then x.nonzero + s else 0)) with hnz
  have hnz0 : 0 ≤ nz := by rw [hnz, hnk]; split_ifs <;> omega
  have hnzk : nz ≤ nk := min_le_left _ _
  have e : y.highAddsubLdexp sign b s x = (y.loopSet nz fun i =>
      (if (i : ℤ) < y.nonzero then y.data i else 0) +
      (if sign < 0 then
        -(if b = 0 then (if 0 ≤ (i : ℤ) - s ∧ (i : ℤ) - s < x.nonzero then x.data ((i : ℤ) - s).toNat else 0)
          else ldexp (if 0 ≤ (i : ℤ) - s ∧ (i : ℤ) - s < x.nonzero then x.data ((i : ℤ) - s).toNat else 0) b)
        else
        (if b = 0 then (if 0 ≤ (i : ℤ) - s ∧ (i : ℤ) - s < x.nonzero then x.data ((i : ℤ) - s).toNat else 0)
          else ldexp (if 0 ≤ (i : ℤ) - s ∧ (i : ℤ) - s < x.nonzero then x.data ((i : ℤ) - s).toNat else 0) b))).setCounts
        nk nz := by
    simp only [highAddsubLdexp, slowAssert]
    rw [if_pos ⟨hs, hl⟩]
    rfl
  rw [setCounts_ok (loopSet _ _ _) hnz0 hnzk hl] at e
  refine ⟨_, e, rfl, rfl, rfl, ⟨hnz0, hnzk, hl⟩, ?_⟩
  intro n hn i hi
  have hn' : (n : ℤ) ≤ nk := hn
  rw [coeff_ps, map_add, coeff_ps, coeff_X_pow_mul', coeff_C_mul, coeff_ps]
  simp only [loopSet, LawfulLdexp.ldexp_eq]
  have hsg : (if sign < 0 then (-1 : K) else 1) = (sign : K) := by
    rcases hs with rfl | rfl <;> norm_num
  have hxi : (if 0 ≤ (i : ℤ) - s ∧ (i : ℤ) - s < x.nonzero then x.data ((i : ℤ) - s).toNat else 0) =
      if s ≤ i then (if ((i - s : ℕ) : ℤ) < x.nonzero then x.data (i - s) else 0) else 0 := by
    have e1 : ((i : ℤ) - s).toNat = i - s := by omega
    rw [e1]
    by_cases hsi : s ≤ i
    · rw [if_pos hsi]
      have : (0 ≤ (i : ℤ) - s ∧ (i : ℤ) - s < x.nonzero) ↔ ((i - s : ℕ) : ℤ) < x.nonzero := by omega
      rw [if_congr this rfl rfl]
    · rw [if_neg hsi, if_neg (by omega)]
  rw [hxi]
  by_cases hi' : (i : ℤ) < nz
  · rw [if_pos hi', if_pos hi']
    congr 1
    by_cases hsi : s ≤ i
    · simp only [if_pos hsi, ← hsg]
      by_cases hb : b = 0
      · subst hb; split_ifs <;> simp
      · split_ifs <;> simp [mul_comm]
    · simp only [if_neg hsi]
      split_ifs <;> simp
  · rw [if_neg hi']
    have h1 : ¬ (i : ℤ) < y.nonzero := by
      rw [hnz] at hi'; omega
    rw [if_neg h1, zero_add]
    split_ifs with h2 h3
    · exfalso
      apply hi'
      rw [hnz]
      have : x.nonzero ≠ 0 := by omega
      rw [if_pos this]
      omega
    · simp
    · rfl

end Ser

end Mandelbrot
