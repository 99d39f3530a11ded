import Verif.Arb.AreaSound
import Verif.Arb.HullArb
import Verif.Arb.PointArb
import Verif.Props.Area

/-!
# C55: the interval area program of /repo/arb_area.cc

Every theorem holds for every ball arithmetic `A` with `Spec.ArbSound A mem`, as in C49; those about refinement also use that
balls are intervals (`Spec.Intervals`).  `skip = false` is the code as it is in /repo, `skip = true` the code without the final
refinements of /repo/poly.cc (constant `skip_refine`).
-/

set_option linter.unusedVariables false

namespace Mandelbrot

open PowerSeries

namespace Props

open ArbPoly Mandelbrot.Spec Mandelbrot.Props.Spec

variable {B : Type} {A : Arb B} {mem : ℝ → B → Prop}

/-! ## The contract can be met by intervals -/

/-- Intervals with exact images. -/
noncomputable abbrev exactIntervals : Arb (Set ℝ) := hullArb fun _ => {0}

theorem C55_contract_met : ArbSound exactIntervals hmem ∧ Intervals hmem :=
  ⟨hullArb_sound _ fun _ => rfl, hull_intervals⟩

/-! ## The parts -/

/-- `poly_linear_sub_si_2exp` encloses `a F - 2^l G`. -/
theorem C55_linear_sub (S : ArbSound A mem) {n : ℕ} {P Q : List B} {F G : ℝ⟦X⟧} (a l : ℤ)
    (hP : Encloses mem A.zero n P F) (hQ : Encloses mem A.zero n Q G) :
    Encloses mem A.zero n (linearSub A a P l Q) (C (a : ℝ) * F - C ((2 : ℝ) ^ l) * G) ∧
      (linearSub A a P l Q).length = max P.length Q.length :=
  ⟨linearSub_enc S a l hP hQ, by simp [linearSub]⟩

/-- `implicit` returns an enclosure of the logarithm of the normalized Mandelbrot iterate, divided by `2^k`, and of its
derivative in the direction of `dg`. -/
theorem C55_implicit (S : ArbSound A mem) {g dg : List B} {n dn : ℕ} (hdn : dn ≤ n) {G D : ℝ⟦X⟧}
    (hG : constantCoeff G = 0) (hg : Encloses mem A.zero n g G) (hdg : Encloses mem A.zero dn dg D) {k : ℕ} (hk : k ≤ 30) :
    ∃ st, implicit A true k g dg n dn = .ok st ∧ ∃ H dH : ℝ⟦X⟧, Encloses mem A.zero n st.1 H ∧
      Encloses mem A.zero dn st.2 dH ∧ ∀ f, IsExp n (seqOf G) f →
        IsExp n (fun j => 2 ^ k * seqOf H j) (mandelQ f k) ∧
        ∀ j < dn, 2 ^ k * prod (mandelQ f k) (seqOf dH) j = dmandelQ f (prod f (seqOf D)) k j := by
  obtain ⟨st, e, h1, h2⟩ := implicit_enc S (expOk_skip S) (log1pExpOk_skip S) hdn hg hdg (by omega : k < 31)
  rw [RH_eq hG] at h1
  rw [RdH_eq hG] at h2
  exact ⟨st, e, _, _, h1, h2, fun f hf => ⟨c27_agree hG Agree.rfl' f hf, c27_dagree hdn hG Agree.rfl' f hf⟩⟩

/-- From 31 iterations on the shift `1 << i` (or the subtraction after it) overflows. -/
theorem C55_implicit_overflow (S : ArbSound A mem) {g dg : List B} {n dn : ℕ} (hdn : dn ≤ n) {G D : ℝ⟦X⟧}
    (hg : Encloses mem A.zero n g G) (hdg : Encloses mem A.zero dn dg D) {k : ℕ} (hk : 31 ≤ k) :
    implicit A true k g dg n dn = .error .ub := by
  have key : ∀ m, escape A true g dg n dn (m + 31) = .error .ub := by
    intro m
    induction m with
    | zero =>
      obtain ⟨st, e, -⟩ := escape_enc S (expOk_skip S) (log1pExpOk_skip S) hdn hg hdg (by norm_num : 30 < 31)
      show escape A true g dg n dn (30 + 1) = _
      rw [escape, e, bok, escapeStep, if_pos (by norm_num)]
    | succ m ih =>
      show escape A true g dg n dn (m + 31 + 1) = _
      rw [escape, ih]; rfl
  rw [implicit, show k = k - 31 + 31 by omega, key]; rfl

/-- `area` encloses the truncated Gronwall sum. -/
theorem C55_area (S : ArbSound A mem) {f : List B} {F : ℝ⟦X⟧} (h : Encloses mem A.zero f.length f F) :
    mem (gronwall (seqOf F) f.length) (area A f) := area_enc S le_rfl h

/-! ## The program -/

theorem hasArea_iff {k : ℕ} {b : B} : HasArea mem k b ↔ ∀ g f : ℕ → ℝ, IsBottcher k g → IsExp (2 ^ k) g f →
    mem (gronwall f (2 ^ k)) b := by
  classical
  constructor
  · intro h g f hg hf
    have h0 : constantCoeff (PowerSeries.mk g) = 0 := by rw [cc_mk]; exact hg.1
    have := h (PowerSeries.mk g) h0 ((solves_iff_isBottcher h0 k).2 (by rw [seqOf_mk]; exact hg))
    have ha : Agree (2 ^ k) (PowerSeries.mk f) (E (PowerSeries.mk g)) :=
      agree_of_isExp h0 (by rw [seqOf_mk, seqOf_mk]; exact hf)
    have e : gronwall f (2 ^ k) =
        Real.pi * ∑ i ∈ Finset.range (2 ^ k), (1 - (i : ℝ)) * coeff i (E (PowerSeries.mk g)) ^ 2 := by
      rw [gronwall]
      congr 1
      refine Finset.sum_congr rfl fun i hi => ?_
      rw [← ha i (Finset.mem_range.1 hi), coeff_mk]
    rw [e]
    exact this
  · intro h G hG hs
    exact h (seqOf G) (seqOf (E G)) ((solves_iff_isBottcher hG k).1 hs) (isExp_of_agree hG Agree.rfl')

/-- Every area printed encloses the true value: the `j`-th line printed (two for every `k`, before and after refinement)
contains `π Σ_(i < 2^k) (1 - i) f_i^2`, where `f = exp(g)` and `g` is the logarithm of the Böttcher series.  This holds for
whatever table of known areas, and also for the areas printed before the program stops with an error. -/
theorem C55_areas (S : ArbSound A mem) (hI : Intervals mem) (known : ℕ → Option B) (maxK j : ℕ) (b : B)
    (hb : (arbAreas A true known maxK).1[j]? = some b) (g f : ℕ → ℝ) (hg : IsBottcher (j / 2 + 1) g)
    (hf : IsExp (2 ^ (j / 2 + 1)) g f) : mem (gronwall f (2 ^ (j / 2 + 1))) b := by
  have := (run_enc S hI (expOk_skip S) (log1pExpOk_skip S) known maxK 0 [] (good_zero S)).1 j b hb
  rw [show 0 + 1 + j / 2 = j / 2 + 1 by omega] at this
  exact hasArea_iff.1 this g f hg hf

/-- The series at the end has `2^maxK` terms at most, and they enclose the logarithm of the Böttcher series. -/
theorem C55_final (S : ArbSound A mem) (hI : Intervals mem) (known : ℕ → Option B) (maxK : ℕ) (r : List B)
    (hr : (arbAreas A true known maxK).2 = .ok r) : r.length ≤ 2 ^ maxK ∧
      ∀ g : ℕ → ℝ, IsBottcher maxK g → ∀ i < 2 ^ maxK, mem (g i) (r.getD i A.zero) := by
  classical
  obtain ⟨hl, G, hG, hs, he⟩ :=
    (run_enc S hI (expOk_skip S) (log1pExpOk_skip S) known maxK 0 [] (good_zero S)).2.1 r hr
  rw [zero_add] at hl hs he
  refine ⟨hl, fun g hg i hi => ?_⟩
  rw [C29_unique maxK g (seqOf G) hg ((solves_iff_isBottcher hG maxK).1 hs) i hi]
  exact he i hi

/-- With a table of true values and up to 30 steps the program finishes and prints two areas for every step. -/
theorem C55_finishes (S : ArbSound A mem) (hI : Intervals mem) (known : ℕ → Option B)
    (hknown : ∀ k b, known k = some b → ∀ g f : ℕ → ℝ, IsBottcher k g → IsExp (2 ^ k) g f → mem (gronwall f (2 ^ k)) b)
    (maxK : ℕ) (hk : maxK ≤ 30) : (∃ r, (arbAreas A true known maxK).2 = .ok r) ∧
      (arbAreas A true known maxK).1.length = 2 * maxK := by
  have := (run_enc S hI (expOk_skip S) (log1pExpOk_skip S) known maxK 0 [] (good_zero S)).2.2 (by norm_num)
    (fun m b h => hasArea_iff.2 (hknown m b h))
  rwa [if_pos (by omega)] at this

/-- With more steps it prints the first 60 areas and runs into undefined behaviour. -/
theorem C55_overflow (S : ArbSound A mem) (hI : Intervals mem) (known : ℕ → Option B)
    (hknown : ∀ k b, known k = some b → ∀ g f : ℕ → ℝ, IsBottcher k g → IsExp (2 ^ k) g f → mem (gronwall f (2 ^ k)) b)
    (maxK : ℕ) (hk : 31 ≤ maxK) : (arbAreas A true known maxK).2 = .error .ub ∧
      (arbAreas A true known maxK).1.length = 60 := by
  have := (run_enc S hI (expOk_skip S) (log1pExpOk_skip S) known maxK 0 [] (good_zero S)).2.2 (by norm_num)
    (fun m b h => hasArea_iff.2 (hknown m b h))
  rwa [if_neg (by omega)] at this

/-- A run that ends normally has printed two areas for every step, and every one overlaps its entry of the table.  This is
so for any arithmetic, and for the code as it is. -/
theorem C55_checked (skip : Bool) (known : ℕ → Option B) (maxK : ℕ) (r : List B)
    (hr : (arbAreas A skip known maxK).2 = .ok r) : (arbAreas A skip known maxK).1.length = 2 * maxK ∧
      ∀ j b e, (arbAreas A skip known maxK).1[j]? = some b → known (j / 2 + 1) = some e → A.overlaps b e = true := by
  obtain ⟨h1, h2⟩ := run_checked known maxK 1 [] r hr
  exact ⟨h1, fun j b e hb he => h2 j b e hb (by rw [← he]; congr 1; omega)⟩

/-- The only errors: undefined behaviour after 60 areas when there are more than 30 steps, and the assertion on the table, in
which case the last area printed does not overlap its entry. -/
theorem C55_stops (S : ArbSound A mem) (hI : Intervals mem) (known : ℕ → Option B) (maxK : ℕ) (x : Err)
    (hx : (arbAreas A true known maxK).2 = .error x) :
    (x = .ub ∧ 31 ≤ maxK ∧ (arbAreas A true known maxK).1.length = 60) ∨
    (x = .assertion ∧ ∃ j b e, (arbAreas A true known maxK).1.length = j + 1 ∧
      (arbAreas A true known maxK).1[j]? = some b ∧ known (j / 2 + 1) = some e ∧ A.overlaps b e = false) := by
  rcases run_stops S hI (expOk_skip S) (log1pExpOk_skip S) known maxK 0 [] (good_zero S) x hx with
    ⟨h1, h2, h3⟩ | ⟨h1, j, b, e, h2, h3, h4, h5⟩
  · exact Or.inl ⟨h1, by omega, h3⟩
  · exact Or.inr ⟨h1, j, b, e, h2, h3, by rw [← h4]; congr 1; omega, h5⟩

/-- For the code as it is: the areas printed enclose the true values provided `poly_exp_refine` and
`poly_log1p_exp_shift_refine` do.  Missing is that they do: C49 shows that the enclosure property of the Arb calls is not enough
for it. -/
theorem C55_areas_partial (S : ArbSound A mem) (hI : Intervals mem) (hE : ExpOk A mem false)
    (hL : Log1pExpOk A mem false) (known : ℕ → Option B) (maxK j : ℕ) (b : B)
    (hb : (arbAreas A false known maxK).1[j]? = some b) (g f : ℕ → ℝ) (hg : IsBottcher (j / 2 + 1) g)
    (hf : IsExp (2 ^ (j / 2 + 1)) g f) : mem (gronwall f (2 ^ (j / 2 + 1))) b := by
  have := (run_enc S hI hE hL known maxK 0 [] (good_zero S)).1 j b hb
  rw [show 0 + 1 + j / 2 = j / 2 + 1 by omega] at this
  exact hasArea_iff.1 this g f hg hf

/-- The same for the final series and for the end of the run. -/
theorem C55_run_partial (S : ArbSound A mem) (hI : Intervals mem) (hE : ExpOk A mem false) (hL : Log1pExpOk A mem false)
    (known : ℕ → Option B)
    (hknown : ∀ k b, known k = some b → ∀ g f : ℕ → ℝ, IsBottcher k g → IsExp (2 ^ k) g f → mem (gronwall f (2 ^ k)) b)
    (maxK : ℕ) (hk : maxK ≤ 30) : (arbAreas A false known maxK).1.length = 2 * maxK ∧
      ∃ r, (arbAreas A false known maxK).2 = .ok r ∧ r.length ≤ 2 ^ maxK ∧
        ∀ g : ℕ → ℝ, IsBottcher maxK g → ∀ i < 2 ^ maxK, mem (g i) (r.getD i A.zero) := by
  classical
  obtain ⟨-, h2, h3⟩ := run_enc S hI hE hL known maxK 0 [] (good_zero S)
  have h3 := h3 (by norm_num) (fun m b h => hasArea_iff.2 (hknown m b h))
  rw [if_pos (by omega)] at h3
  obtain ⟨⟨r, hr⟩, hl⟩ := h3
  obtain ⟨hl2, G, hG, hs, he⟩ := h2 r hr
  rw [zero_add] at hl2 hs he
  refine ⟨hl, r, hr, hl2, fun g hg i hi => ?_⟩
  rw [C29_unique maxK g (seqOf G) hg ((solves_iff_isBottcher hG maxK).1 hs) i hi]
  exact he i hi

/-- The conditions of the partial theorems can be met: with single points and the whole line as balls, the exponential
routines enclose as they are. -/
theorem C55_conditions_met : ArbSound pointArb pmem ∧ Intervals pmem ∧ ExpOk pointArb pmem false ∧
    Log1pExpOk pointArb pmem false := ⟨pointArb_sound, pmem_intervals, point_exp, point_log1pExp⟩

/-! ## Examples -/

/-- Without a table, four steps print eight areas. -/
example : (arbAreas exactIntervals true (fun _ => none) 4).1.length = 8 :=
  (C55_finishes C55_contract_met.1 C55_contract_met.2 _ (by simp) 4 (by norm_num)).2

/-- A table with the true values: the first entry is `π`. -/
example : ∃ r, (arbAreas exactIntervals true (fun k => if k = 1 then some {Real.pi} else none) 2).2 = .ok r := by
  refine (C55_finishes C55_contract_met.1 C55_contract_met.2 _ ?_ 2 (by norm_num)).1
  intro k b hk g f hg hf
  by_cases h : k = 1
  · subst h
    simp only [if_true, Option.some.injEq] at hk
    subst hk
    have h0 : f 0 = 1 := hf.1 (by norm_num)
    have : gronwall f (2 ^ 1) = Real.pi := by
      rw [gronwall, show (2 : ℕ) ^ 1 = 2 by norm_num, Finset.sum_range_succ, Finset.sum_range_one, h0]
      norm_num
    rw [this]
    exact sub_hull rfl
  · simp [h] at hk

/-- The code as it is, in the arithmetic of points. -/
example : (arbAreas pointArb false (fun _ => none) 5).1.length = 10 :=
  (C55_run_partial C55_conditions_met.1 C55_conditions_met.2.1 C55_conditions_met.2.2.1 C55_conditions_met.2.2.2 _ (by simp)
    5 (by norm_num)).1

open Classical in
/-- A table with an empty entry overlaps nothing. -/
example : (arbAreas exactIntervals true (fun k => if k = 2 then some ∅ else none) 3).2 = .error .assertion := by
  cases h : (arbAreas exactIntervals true (fun k => if k = 2 then some ∅ else none) 3).2 with
  | ok r =>
    exfalso
    obtain ⟨hl, hc⟩ := C55_checked true _ 3 r h
    have := hc 2 _ ∅ (List.getElem?_eq_getElem (by omega)) rfl
    have h2 := of_decide_eq_true this
    obtain ⟨x, -, y, hy, -⟩ := h2
    exact hy
  | error x =>
    rcases C55_stops C55_contract_met.1 C55_contract_met.2 _ 3 x h with ⟨-, h2, -⟩ | ⟨rfl, -⟩
    · omega
    · rfl

end Props

end Mandelbrot
