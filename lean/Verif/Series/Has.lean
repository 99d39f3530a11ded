import Verif.Series.Mul
import Verif.Series.NewtonRule

/-!
# The operations in terms of `Has`: `n` known terms of a power series, at least one stored when `n > 0`
-/

set_option linter.unusedSectionVars false

namespace Mandelbrot

open PowerSeries

namespace Ser

variable {K : Type} [Field K]

/-- `x` has exactly `n` known terms, which are those of `F`, and stores at least one if `n > 0`. -/
structure Has (x : Ser K) (n : ℕ) (F : K⟦X⟧) : Prop where
  is : x.Is n F
  pos : 0 < n → 1 ≤ x.nonzero

theorem Has.wf {x : Ser K} {n : ℕ} {F : K⟦X⟧} (h : x.Has n F) : x.WF := h.is.wf
theorem Has.known {x : Ser K} {n : ℕ} {F : K⟦X⟧} (h : x.Has n F) : x.known = n := h.is.known
theorem Has.agree {x : Ser K} {n : ℕ} {F : K⟦X⟧} (h : x.Has n F) : Agree n x.ps F := h.is.agree

theorem Has.congr {x : Ser K} {n : ℕ} {F G : K⟦X⟧} (h : x.Has n F) (e : Agree n F G) : x.Has n G :=
  ⟨h.is.congr e, h.pos⟩

theorem Has.nonzero_le {x : Ser K} {n : ℕ} {F : K⟦X⟧} (h : x.Has n F) : x.nonzero ≤ n := by
  have := h.wf.le_known; rw [h.known] at this; exact this

theorem Is.nonzero_le {x : Ser K} {n : ℕ} {F : K⟦X⟧} (h : x.Is n F) : x.nonzero ≤ n := by
  have := h.wf.le_known; rw [h.known] at this; exact this

theorem Has.data_zero {x : Ser K} {n : ℕ} {F : K⟦X⟧} (h : x.Has n F) (hn : 0 < n) :
    x.data 0 = constantCoeff F := by
  have h1 := h.agree 0 hn
  rw [coeff_ps, if_pos (by have := h.pos hn; omega)] at h1
  rw [h1, coeff_zero_eq_constantCoeff_apply]

theorem setUnknown_has {y : Ser K} (F : K⟦X⟧) (hl : 0 ≤ y.limit) :
    y.setUnknown.limit = y.limit ∧ y.setUnknown.Has 0 F :=
  ⟨rfl, ⟨⟨le_refl _, le_refl _, hl⟩, rfl, Agree.zero _ _⟩, by omega⟩

theorem new_limit (n : ℕ) (J : ℕ → K) : (new (n : ℤ) J).limit = n := by
  simp [new, relu_of_nonneg]

theorem low_has {x : Ser K} {n : ℕ} {F : K⟦X⟧} (h : x.Has n F) (m : ℕ) :
    (x.low m).Has (min m n) F := by
  refine ⟨low_is h.is m (by rw [relu_of_nonneg (by omega)]; push_cast; rfl), fun hm => ?_⟩
  have := h.pos (by omega)
  rw [low_nonzero, h.known, relu_of_nonneg (by omega)]
  omega

theorem setKnown_has {x : Ser K} {n m : ℕ} {F : K⟦X⟧} (h : x.Has n F) (hn : 0 < n) (hm : 0 < m) :
    ∃ y : Ser K, x.setKnown m = .ok y ∧ y.limit = x.limit ∧ y.Has m x.ps := by
  obtain ⟨y, e, h1, h2, h3, h4, h5⟩ := setKnown_spec h.wf (m := m)
  refine ⟨y, e, h1, ⟨h4, h2, h5⟩, fun _ => ?_⟩
  have := h.pos hn
  rw [h3]; omega

theorem assign_has {x g : Ser K} {n : ℕ} {F : K⟦X⟧} (hg : g.Has n F) (hl : n ≤ x.limit) :
    ∃ y : Ser K, x.assign g = .ok y ∧ y.limit = x.limit ∧ y.Has n F := by
  obtain ⟨y, e, h1, h2, h3, h4, h5⟩ := assign_spec (x := x) hg.wf (hg.nonzero_le.trans hl)
  exact ⟨y, e, h1, ⟨h4, h2.trans hg.known, by rw [h5]; exact hg.agree⟩,
    fun hn => by rw [h3]; exact hg.pos hn⟩

theorem neg_has {y x : Ser K} {n : ℕ} {F : K⟦X⟧} (hx : x.Has n F) (hl : n ≤ y.limit) :
    ∃ y' : Ser K, neg y x = .ok y' ∧ y'.limit = y.limit ∧ y'.Has n (-F) := by
  obtain ⟨y', e, h1, h2, h3, h4, h5⟩ := neg_spec (y := y) hx.wf (hx.nonzero_le.trans hl)
  exact ⟨y', e, h1, ⟨h4, h2.trans hx.known, by rw [h5]; exact hx.agree.neg⟩,
    fun hn => by rw [h3]; exact hx.pos hn⟩

theorem addScalar_has {x : Ser K} {n : ℕ} {F : K⟦X⟧} (hx : x.Has n F) (hn : 0 < n) (a : K) :
    ∃ y : Ser K, x.addScalar a = .ok y ∧ y.limit = x.limit ∧ y.Has n (F + C a) := by
  obtain ⟨y, e, h1, h2, h3, h4, h5⟩ := addScalar_spec hx.wf (hx.pos hn) a
  exact ⟨y, e, h1, ⟨h4, h2.trans hx.known, by rw [h5]; exact hx.agree.add Agree.rfl'⟩,
    fun hn => by rw [h3]; exact hx.pos hn⟩

theorem mul_has {ker : Ker K} {N : ℕ} (hker : ker.ExactMul N) {z x y : Ser K} {nx ny n : ℕ} {F G : K⟦X⟧}
    (hx : x.Has nx F) (hy : y.Has ny G) (hn : n = min nx ny) (hl : n ≤ z.limit)
    (hN : n ≤ N := by omega) :
    ∃ z' : Ser K, mul ker z x y = .ok z' ∧ z'.limit = z.limit ∧ z'.Has n (F * G) := by
  have hk : min x.known y.known = n := by rw [hx.known, hy.known, hn]; push_cast; rfl
  have hx0 := hx.wf.nonneg
  have hy0 := hy.wf.nonneg
  have hok : MulOk (min x.known y.known) x y := by
    rw [hk]
    rcases Nat.eq_zero_or_pos n with h | h
    · left; omega
    · exact MulOk.of_pos (hx.pos (by omega)) (hy.pos (by omega))
  obtain ⟨z', e, h1, h2, h3, h4, h5⟩ := mul_spec (z := z) hker hx.wf hy.wf hok
    ((min_le_left _ _).trans (by rw [hk]; exact hl)) (by omega)
  rw [hk] at h2 h3
  refine ⟨z', e, h1, ⟨h4, h2, (h5 n h2.ge).trans ?_⟩, fun hn' => ?_⟩
  · exact (hx.agree.mono (by omega)).mul (hy.agree.mono (by omega))
  · have := hx.pos (by omega)
    have := hy.pos (by omega)
    rw [h3]; unfold relu; omega

theorem mul1p_has {ker : Ker K} {N : ℕ} (hker : ker.ExactMul N) {z x y : Ser K} {nx ny n s : ℕ} {F G : K⟦X⟧}
    (hs : 0 < s) (hx : x.Has nx F) (hy : y.Has ny G) (hn : n = min nx (ny + s)) (hl : n ≤ z.limit)
    (hN : n - s ≤ N := by omega) :
    ∃ z' : Ser K, mul1p ker z x y s = .ok z' ∧ z'.limit = z.limit ∧
      z'.Has n (F * (1 + X ^ s * G)) := by
  have hk : min x.known (y.known + s) = n := by rw [hx.known, hy.known, hn]; push_cast; rfl
  have hx0 := hx.wf.nonneg
  have hy0 := hy.wf.nonneg
  have hok : MulOk (min x.known (y.known + s) - s) x y := by
    rw [hk]
    rcases Nat.lt_or_ge s n with h | h
    · exact MulOk.of_pos (hx.pos (by omega)) (hy.pos (by omega))
    · left; omega
  obtain ⟨z', e, h1, h2, h3, h4, h5⟩ := mul1p_spec (z := z) hker hx.wf hy.wf hs hok
    ((min_le_left _ _).trans (by rw [hk]; exact hl)) (by omega)
  rw [hk] at h2 h3
  refine ⟨z', e, h1, ⟨h4, h2, (h5 n h2.ge).trans ?_⟩, fun hn' => ?_⟩
  · refine (hx.agree.mono (by omega)).mul (Agree.rfl'.add ?_)
    exact (Agree.X_pow_mul s hy.agree).mono (by omega)
  · have := hx.pos (by omega)
    rw [h3]; omega

theorem sqr_has {ker : Ker K} {N : ℕ} (hker : ker.ExactMul N) {y x : Ser K} {n : ℕ} {F : K⟦X⟧}
    (hx : x.Has n F) (hl : n ≤ y.limit) (hN : n ≤ N := by omega) :
    ∃ y' : Ser K, sqr ker y x = .ok y' ∧ y'.limit = y.limit ∧ y'.Has n (F ^ 2) := by
  obtain ⟨y', e, h1, h2, h3, h4, h5⟩ := sqr_spec (y := y) hker hx.wf
    ((min_le_left _ _).trans (by rw [hx.known]; exact hl)) (by have := hx.known; omega)
  rw [hx.known] at h2 h3
  refine ⟨y', e, h1, ⟨h4, h2, (h5 n h2.ge).trans (hx.agree.pow 2)⟩, fun hn' => ?_⟩
  have := hx.pos hn'
  rw [h3]; unfold relu; omega

section
variable [Ldexp K] [LawfulLdexp K]

theorem highAddsub_has {y x : Ser K} {ny nx n s : ℕ} {F G : K⟦X⟧} (hy : y.Has ny F) (hx : x.Is nx G)
    {sign : ℤ} (hs : sign = 1 ∨ sign = -1) (b : ℤ) (hn : n = min ny (nx + s)) (hl : n ≤ y.limit) :
    ∃ y' : Ser K, y.highAddsubLdexp sign b s x = .ok y' ∧ y'.limit = y.limit ∧
      y'.Has n (F + X ^ s * (C ((sign : K) * 2 ^ b) * G)) := by
  have hk : min y.known (x.known + s) = n := by rw [hx.known, hy.known, hn]; push_cast; rfl
  obtain ⟨y', e, h1, h2, h3, h4, h5⟩ := highAddsubLdexp_spec hy.wf hx.wf hs b s
    ((min_le_left _ _).trans (by rw [hk]; exact hl))
  rw [hk] at h2
  refine ⟨y', e, h1, ⟨h4, h2, (h5 n h2.ge).trans ?_⟩, fun hn' => ?_⟩
  · refine (hy.agree.mono (by omega)).add ?_
    exact (Agree.X_pow_mul s (Agree.rfl'.mul hx.agree)).mono (by omega)
  · have := hy.pos (by omega)
    rw [h3, h2]; omega

theorem addAssign_has {y x : Ser K} {ny nx n : ℕ} {F G : K⟦X⟧} (hy : y.Has ny F) (hx : x.Is nx G)
    (hn : n = min ny nx) (hl : n ≤ y.limit) :
    ∃ y' : Ser K, y.addAssign x = .ok y' ∧ y'.limit = y.limit ∧ y'.Has n (F + G) := by
  obtain ⟨y', e, h1, h2⟩ := highAddsub_has (s := 0) hy hx (Or.inl rfl) 0 (by simpa using hn) hl
  exact ⟨y', e, h1, h2.congr (Agree.of_eq (by simp))⟩

theorem subAssign_has {y x : Ser K} {ny nx n : ℕ} {F G : K⟦X⟧} (hy : y.Has ny F) (hx : x.Is nx G)
    (hn : n = min ny nx) (hl : n ≤ y.limit) :
    ∃ y' : Ser K, y.subAssign x = .ok y' ∧ y'.limit = y.limit ∧ y'.Has n (F - G) := by
  obtain ⟨y', e, h1, h2⟩ := highAddsub_has (s := 0) hy hx (Or.inr rfl) 0 (by simpa using hn) hl
  refine ⟨y', e, h1, h2.congr (Agree.of_eq ?_)⟩
  simp [sub_eq_add_neg]

theorem highSub_has {y x : Ser K} {ny nx n s : ℕ} {F G : K⟦X⟧} (hy : y.Has ny F) (hx : x.Is nx G)
    (hn : n = min ny (nx + s)) (hl : n ≤ y.limit) :
    ∃ y' : Ser K, y.highSub s x = .ok y' ∧ y'.limit = y.limit ∧ y'.Has n (F - X ^ s * G) := by
  obtain ⟨y', e, h1, h2⟩ := highAddsub_has (s := s) hy hx (Or.inr rfl) 0 hn hl
  refine ⟨y', e, h1, h2.congr (Agree.of_eq ?_)⟩
  simp [sub_eq_add_neg]

theorem highAdd_has {y x : Ser K} {ny nx n s : ℕ} {F G : K⟦X⟧} (hy : y.Has ny F) (hx : x.Is nx G)
    (hn : n = min ny (nx + s)) (hl : n ≤ y.limit) :
    ∃ y' : Ser K, y.highAdd s x = .ok y' ∧ y'.limit = y.limit ∧ y'.Has n (F + X ^ s * G) := by
  obtain ⟨y', e, h1, h2⟩ := highAddsub_has (s := s) hy hx (Or.inl rfl) 0 hn hl
  exact ⟨y', e, h1, h2.congr (Agree.of_eq (by simp))⟩

theorem high_is' {x : Ser K} {m m0 : ℕ} {D : K⟦X⟧} (hx : x.Has m D) (hm : m0 ≤ m)
    (hD : Agree m0 D 0) : ∃ R, (x.high m0).Is (m - m0) R ∧ X ^ m0 * R = x.ps :=
  ⟨(x.high m0).ps, Is.self (high_wf hx.wf m0) _
    (by rw [high_known, hx.known]; unfold relu; omega),
    X_pow_mul_high ((hx.agree.mono hm).trans hD)⟩

/-- The update at the end of every Newton step: only the terms from `m0` on change. -/
theorem newtonSub_has {y dy : Ser K} {m0 m : ℕ} {F D : K⟦X⟧} (hy : y.Has m F) (hdy : dy.Has m D)
    (hm : m0 ≤ m) (hD : Agree m0 D 0) (hl : m ≤ y.limit) :
    ∃ y' : Ser K, y.highSub m0 (dy.high m0) = .ok y' ∧ y'.limit = y.limit ∧ y'.Has m (F - D) := by
  obtain ⟨R, h1, h2⟩ := high_is' hdy hm hD
  obtain ⟨y', e, h3, h4⟩ := highSub_has (n := m) (s := m0) hy h1 (by omega) hl
  refine ⟨y', e, h3, h4.congr ?_⟩
  rw [h2]
  exact Agree.rfl'.sub hdy.agree

theorem newtonAdd_has {y dy : Ser K} {m0 m : ℕ} {F D : K⟦X⟧} (hy : y.Has m F) (hdy : dy.Has m D)
    (hm : m0 ≤ m) (hD : Agree m0 D 0) (hl : m ≤ y.limit) :
    ∃ y' : Ser K, y.highAdd m0 (dy.high m0) = .ok y' ∧ y'.limit = y.limit ∧ y'.Has m (F + D) := by
  obtain ⟨R, h1, h2⟩ := high_is' hdy hm hD
  obtain ⟨y', e, h3, h4⟩ := highAdd_has (n := m) (s := m0) hy h1 (by omega) hl
  refine ⟨y', e, h3, h4.congr ?_⟩
  rw [h2]
  exact Agree.rfl'.add hdy.agree

theorem ldexpSer_has {y x : Ser K} {n : ℕ} {F : K⟦X⟧} (hx : x.Has n F) (hl : n ≤ y.limit) (b : ℤ) :
    ∃ y' : Ser K, ldexpSer y x b = .ok y' ∧ y'.limit = y.limit ∧ y'.Has n (C ((2 : K) ^ b) * F) := by
  obtain ⟨y', e, h1, h2, h3, h4, h5⟩ := ldexpSer_spec (y := y) hx.wf (hx.nonzero_le.trans hl) b
  exact ⟨y', e, h1, ⟨h4, h2.trans hx.known, by rw [h5]; exact Agree.rfl'.mul hx.agree⟩,
    fun hn => by rw [h3]; exact hx.pos hn⟩

end

/-! ## Counts of a successful call -/

section
variable {L : Type} [Zero L] [One L] [Add L] [Sub L] [Neg L] [Mul L] [Div L] [IntCast L] [Ldexp L]
  [DecidableEq L]

theorem bind_eq_ok {α β : Type} {a : Res α} {f : α → Res β} {b : β} (h : (a >>= f) = .ok b) :
    ∃ x, a = .ok x ∧ f x = .ok b := by
  cases a with
  | error e => cases h
  | ok x => exact ⟨x, rfl, h⟩

theorem setCounts_counts {x y : Ser L} {k z : ℤ} (h : x.setCounts k z = .ok y) :
    y.limit = x.limit ∧ y.known = k ∧ y.nonzero = z ∧ y.data = x.data := by
  obtain ⟨_, _, h2⟩ := bind_eq_ok h
  cases h2
  exact ⟨rfl, rfl, rfl, rfl⟩

theorem mul_counts {ker : Ker L} {z x y z' : Ser L} (h : mul ker z x y = .ok z') :
    z'.limit = z.limit ∧ z'.known = min x.known y.known ∧
      z'.nonzero = min (min x.known y.known) (relu (x.nonzero + y.nonzero - 1)) := by
  obtain ⟨z1, h1, h⟩ := bind_eq_ok h
  obtain ⟨r, _, h⟩ := bind_eq_ok h
  obtain ⟨a, b, c, _⟩ := setCounts_counts h1
  cases h
  exact ⟨a, b, c⟩

theorem highAddsubLdexp_counts {y x y' : Ser L} {sign b s : ℤ}
    (h : y.highAddsubLdexp sign b s x = .ok y') :
    y'.limit = y.limit ∧ y'.known = min y.known (x.known + s) ∧
      y'.nonzero = min (min y.known (x.known + s))
        (max y.nonzero (if x.nonzero ≠ 0 then x.nonzero + s else 0)) := by
  obtain ⟨_, _, h⟩ := bind_eq_ok h
  obtain ⟨a, b, c, _⟩ := setCounts_counts h
  exact ⟨a, b, c⟩

theorem addScalar_counts {x x' : Ser L} {a : L} (h : x.addScalar a = .ok x') :
    x'.limit = x.limit ∧ x'.known = x.known ∧ x'.nonzero = x.nonzero := by
  obtain ⟨_, _, h⟩ := bind_eq_ok h
  cases h
  exact ⟨rfl, rfl, rfl⟩

end

/-! ## Derivative and integral with a shift -/

/-- Multiplication of the coefficient of `z^i` by `s + i`. -/
noncomputable def dshift (s : ℕ) (F : K⟦X⟧) : K⟦X⟧ :=
  PowerSeries.mk fun i => ((s + i : ℕ) : K) * coeff i F

theorem coeff_dshift (s : ℕ) (F : K⟦X⟧) (i : ℕ) :
    coeff i (dshift s F) = ((s + i : ℕ) : K) * coeff i F := by rw [dshift, coeff_mk]

theorem derivativeShift_has {y x : Ser K} {n s : ℕ} {F : K⟦X⟧} (hx : x.Has n F) (hl : n ≤ y.limit) :
    ∃ y' : Ser K, derivativeShift y x s = .ok y' ∧ y'.limit = y.limit ∧ y'.Has n (dshift s F) := by
  obtain ⟨y', e, h1, h2, h3, h4, h5⟩ :=
    derivativeShift_spec (y := y) hx.wf (hx.nonzero_le.trans hl) s
  refine ⟨y', e, h1, ⟨h4, h2.trans hx.known, fun i hi => ?_⟩, fun hn => by rw [h3]; exact hx.pos hn⟩
  rw [h5, coeff_dshift, hx.agree i hi]
  push_cast
  rfl

/-- Integration after `derivative_shift` recovers a series, except for a constant when `s = 0`. -/
theorem integralShift_has [CharZero K] {y x : Ser K} {n s : ℕ} {F : K⟦X⟧}
    (hx : x.Has n (dshift s F)) (h0 : s = 0 → constantCoeff F = 0) (hl : n ≤ y.limit) :
    ∃ y' : Ser K, integralShift y x s = .ok y' ∧ y'.limit = y.limit ∧ y'.Has n F := by
  obtain ⟨y', e, h1, h2, h3, h4, h5⟩ := integralShift_spec (y := y) hx.wf (hx.nonzero_le.trans hl) s
  refine ⟨y', e, h1, ⟨h4, h2.trans hx.known, fun i hi => ?_⟩, fun hn => by rw [h3]; exact hx.pos hn⟩
  rw [h5, hx.agree i hi, coeff_dshift]
  by_cases h : s + i = 0
  · have hs : s = 0 := by omega
    have hi0 : i = 0 := by omega
    subst hs hi0
    simp [h0 rfl]
  · have hne : ((s + i : ℕ) : K) ≠ 0 := by exact_mod_cast h
    rw [if_pos (by exact_mod_cast h)]
    push_cast at hne ⊢
    field_simp

end Ser

end Mandelbrot
