import Verif.MSet.Coeff
import Verif.Props.EndToEnd
import Verif.Props.ArbArea

/-!
# C65: the numbers printed and the area of the Mandelbrot set

The claims of /repo/README.md lines 7-23 about the set `M` (`Spec.mandelbrotSet`) and the series that /repo/area.cc computes.
`volume` is the Lebesgue measure of the plane.  The mathematics is in `Verif/MSet`: no fact about the Mandelbrot set is assumed.
-/

set_option linter.unusedSectionVars false

namespace Mandelbrot.Props

open Finset PowerSeries MeasureTheory Filter Topology

/-- `f` is the Böttcher series, all of it: for every `k` its first `2^k` terms are what the program is to compute
(C28 proves that it does, C29 that there is one such sequence). -/
def Spec.IsSeries (f : ℕ → ℝ) : Prop := ∀ k, ∃ g, Spec.IsBottcher k g ∧ Spec.IsExp (2 ^ k) g f

theorem series_tay {k : ℕ} {g f : ℕ → ℝ} (hg : Spec.IsBottcher k g) (hf : Spec.IsExp (2 ^ k) g f) :
    ∀ j < 2 ^ k, MSet.tay MSet.hfun j = (f j : ℂ) := by
  have h0 : constantCoeff (PowerSeries.mk f) = 1 := by
    rw [cc_mk]
    exact hf.1 (Nat.two_pow_pos k)
  have hQ : Agree (2 ^ k) (Bottcher.Q (PowerSeries.mk f) k) 1 := by
    intro j hj
    have h1 := congrFun (seqOf_Q (PowerSeries.mk f) k) j
    rw [seqOf_mk, hg.2 f hf j hj] at h1
    have h2 : coeff j (Bottcher.Q (PowerSeries.mk f) k) = Spec.one j := h1
    rw [h2, coeff_one, Spec.one]
  intro j hj
  rw [MSet.tay_eq h0 hQ j hj, coeff_mk]

theorem series_tay_all {f : ℕ → ℝ} (hf : Spec.IsSeries f) (j : ℕ) : MSet.tay MSet.hfun j = (f j : ℂ) := by
  obtain ⟨g, h1, h2⟩ := hf j
  exact series_tay h1 h2 j Nat.lt_two_pow_self

/-- The area theorem in real numbers. -/
theorem area_hasSum : volume Spec.mandelbrotSet ≠ ⊤ ∧
    HasSum (fun i : ℕ => Real.pi * (((i : ℝ) + 1) * ‖MSet.tay MSet.hfun (i + 2)‖ ^ 2))
      (Real.pi - (volume Spec.mandelbrotSet).toReal) := by
  have key := MSet.exterior.area
  have hfin : volume Spec.mandelbrotSet +
      ∑' i : ℕ, ENNReal.ofReal (Real.pi * (((i : ℝ) + 1) * ‖MSet.tay MSet.hfun (i + 2)‖ ^ 2)) ≠ ⊤ := by
    rw [key]
    exact ENNReal.ofReal_ne_top
  rw [ENNReal.add_ne_top] at hfin
  refine ⟨hfin.1, ?_⟩
  have hnn : ∀ i : ℕ, 0 ≤ Real.pi * (((i : ℝ) + 1) * ‖MSet.tay MSet.hfun (i + 2)‖ ^ 2) := by
    intro i
    have := Real.pi_pos
    positivity
  have h1 := ENNReal.hasSum_toReal hfin.2
  simp only [ENNReal.toReal_ofReal (hnn _)] at h1
  have h2 := congrArg ENNReal.toReal key
  rw [ENNReal.toReal_add hfin.1 hfin.2, ENNReal.toReal_ofReal Real.pi_pos.le, ENNReal.tsum_toReal_eq (fun i => ENNReal.ofReal_ne_top)]
    at h2
  simp only [ENNReal.toReal_ofReal (hnn _)] at h2
  have h3 : ∑' i : ℕ, Real.pi * (((i : ℝ) + 1) * ‖MSet.tay MSet.hfun (i + 2)‖ ^ 2) =
      Real.pi - (volume Spec.mandelbrotSet).toReal := by linarith
  rwa [h3] at h1

/-- The sum of Gronwall with its first two terms apart. -/
theorem gronwall_split (f : ℕ → ℝ) (h0 : f 0 = 1) (m : ℕ) :
    Spec.gronwall f (m + 1) = Real.pi - ∑ i ∈ range (m - 1), Real.pi * (((i : ℝ) + 1) * f (i + 2) ^ 2) := by
  rcases m with _ | m
  · simp [Spec.gronwall, h0]
  · have h1 : ∑ i ∈ range m, Real.pi * (((i : ℝ) + 1) * f (i + 2) ^ 2) =
        -(Real.pi * ∑ i ∈ range m, (1 - ((i + 1 + 1 : ℕ) : ℝ)) * f (i + 1 + 1) ^ 2) := by
      rw [mul_sum, ← sum_neg_distrib]
      refine sum_congr rfl fun i _ => ?_
      push_cast
      ring
    rw [Spec.gronwall, sum_range_succ', sum_range_succ', h0, Nat.add_sub_cancel, h1]
    push_cast
    ring

/-! ## The area -/

/-- C65.  README line 17: `μ(M) = π (1 - Σ n b_n^2)`, with the sum convergent; `b_n` is the coefficient of `z^(-n)` in the
Böttcher map, which is the coefficient of `z^(n+1)` in the series that the program computes. -/
theorem C65_area (f : ℕ → ℝ) (hf : Spec.IsSeries f) :
    Summable (fun n : ℕ => (n : ℝ) * f (n + 1) ^ 2) ∧
    volume Spec.mandelbrotSet = ENNReal.ofReal (Real.pi * (1 - ∑' n : ℕ, (n : ℝ) * f (n + 1) ^ 2)) := by
  obtain ⟨hfin, hs⟩ := area_hasSum
  have hpi := Real.pi_pos
  have h1 : HasSum (fun i : ℕ => ((i : ℝ) + 1) * f (i + 2) ^ 2)
      (Real.pi⁻¹ * (Real.pi - (volume Spec.mandelbrotSet).toReal)) := by
    have := hs.mul_left Real.pi⁻¹
    have he : (fun i : ℕ => ((i : ℝ) + 1) * f (i + 2) ^ 2) =
        fun i : ℕ => Real.pi⁻¹ * (Real.pi * (((i : ℝ) + 1) * ‖MSet.tay MSet.hfun (i + 2)‖ ^ 2)) := by
      funext i
      rw [series_tay_all hf, Complex.norm_real, Real.norm_eq_abs, sq_abs, inv_mul_cancel_left₀ hpi.ne']
    rwa [he]
  have h2 : HasSum (fun n : ℕ => (n : ℝ) * f (n + 1) ^ 2) (Real.pi⁻¹ * (Real.pi - (volume Spec.mandelbrotSet).toReal)) := by
    rw [← hasSum_nat_add_iff' 1]
    simp only [range_one, sum_singleton, Nat.cast_zero, zero_mul, sub_zero]
    have he : (fun n : ℕ => ((n + 1 : ℕ) : ℝ) * f (n + 1 + 1) ^ 2) = fun i : ℕ => ((i : ℝ) + 1) * f (i + 2) ^ 2 := by
      funext n
      push_cast
      rfl
    rw [he]
    exact h1
  refine ⟨h2.summable, ?_⟩
  rw [h2.tsum_eq, mul_sub, mul_inv_cancel_left₀ hpi.ne', mul_one, sub_sub_cancel, ENNReal.ofReal_toReal hfin]

theorem area_le_gronwall (f : ℕ → ℝ) (n : ℕ) (hn : 0 < n) (h : ∀ j < n, MSet.tay MSet.hfun j = (f j : ℂ)) :
    volume Spec.mandelbrotSet ≤ ENNReal.ofReal (Spec.gronwall f n) := by
  obtain ⟨hfin, hs⟩ := area_hasSum
  obtain ⟨m, rfl⟩ := Nat.exists_eq_succ_of_ne_zero hn.ne'
  have h0 : f 0 = 1 := by
    have h1 := h 0 hn
    rw [MSet.exterior.tay_zero] at h1
    exact_mod_cast h1.symm
  rw [← ENNReal.ofReal_toReal hfin]
  apply ENNReal.ofReal_le_ofReal
  rw [gronwall_split f h0]
  have h2 := sum_le_hasSum (range (m - 1)) (fun i _ => by have := Real.pi_pos; positivity) hs
  have h3 : ∑ i ∈ range (m - 1), Real.pi * (((i : ℝ) + 1) * f (i + 2) ^ 2) =
      ∑ i ∈ range (m - 1), Real.pi * (((i : ℝ) + 1) * ‖MSet.tay MSet.hfun (i + 2)‖ ^ 2) := by
    refine sum_congr rfl fun i hi => ?_
    have := mem_range.mp hi
    rw [h (i + 2) (by omega), Complex.norm_real, Real.norm_eq_abs, sq_abs]
  linarith

/-- C65.  The sum over the first `2^k` terms bounds the area of the Mandelbrot set from above. -/
theorem C65_upper (k : ℕ) (g f : ℕ → ℝ) (hg : Spec.IsBottcher k g) (hf : Spec.IsExp (2 ^ k) g f) :
    volume Spec.mandelbrotSet ≤ ENNReal.ofReal (Spec.gronwall f (2 ^ k)) :=
  area_le_gronwall f _ (Nat.two_pow_pos k) (series_tay hg hf)

/-- C65.  The bounds converge to the area. -/
theorem C65_converges (f : ℕ → ℝ) (hf : Spec.IsSeries f) :
    Tendsto (fun k => Spec.gronwall f (2 ^ k)) atTop (𝓝 (volume Spec.mandelbrotSet).toReal) := by
  obtain ⟨hfin, hs⟩ := area_hasSum
  have h0 : f 0 = 1 := by
    have h1 := series_tay_all hf 0
    rw [MSet.exterior.tay_zero] at h1
    exact_mod_cast h1.symm
  have h1 : Tendsto (fun m => Spec.gronwall f (m + 2)) atTop (𝓝 (volume Spec.mandelbrotSet).toReal) := by
    have h2 := hs.tendsto_sum_nat.const_sub Real.pi
    rw [sub_sub_cancel] at h2
    have he : (fun m => Spec.gronwall f (m + 2)) =
        fun m => Real.pi - ∑ i ∈ range m, Real.pi * (((i : ℝ) + 1) * ‖MSet.tay MSet.hfun (i + 2)‖ ^ 2) := by
      funext m
      rw [gronwall_split f h0 (m + 1), Nat.add_sub_cancel]
      congr 1
      refine sum_congr rfl fun i _ => ?_
      rw [series_tay_all hf, Complex.norm_real, Real.norm_eq_abs, sq_abs]
    rw [he]
    exact h2
  have h2 := (tendsto_add_atTop_iff_nat 2).mp h1
  exact h2.comp (tendsto_pow_atTop_atTop_of_one_lt (by norm_num))

/-! ## The Böttcher map -/

/-- C65.  README lines 9-13: for `|z| > 1` the series `φ(z) = z Σ f_i z^(-i)` converges, and `φ` maps the outside of the closed unit
disc analytically and one to one onto the outside of the Mandelbrot set. -/
theorem C65_map (f : ℕ → ℝ) (hf : Spec.IsSeries f) :
    (∀ z : ℂ, 1 < ‖z‖ → Summable fun i : ℕ => ‖(f i : ℂ) * z⁻¹ ^ i‖) ∧
    DifferentiableOn ℂ (fun z : ℂ => z * ∑' i : ℕ, (f i : ℂ) * z⁻¹ ^ i) {z | 1 < ‖z‖} ∧
    Set.BijOn (fun z : ℂ => z * ∑' i : ℕ, (f i : ℂ) * z⁻¹ ^ i) {z | 1 < ‖z‖} Spec.mandelbrotSetᶜ := by
  have hsum : ∀ z : ℂ, 1 < ‖z‖ → HasSum (fun i : ℕ => (f i : ℂ) * z⁻¹ ^ i) (MSet.hfun z⁻¹) := by
    intro z hz
    have h1 : ‖z⁻¹‖ < 1 := by
      rw [norm_inv]
      exact inv_lt_one_of_one_lt₀ hz
    have := MSet.tay_hasSum MSet.hfun_differentiableOn h1
    simpa only [series_tay_all hf] using this
  have hne : ∀ z : ℂ, 1 < ‖z‖ → z ≠ 0 := by
    intro z hz h
    rw [h, norm_zero] at hz
    linarith
  have heq : Set.EqOn (fun z : ℂ => z * ∑' i : ℕ, (f i : ℂ) * z⁻¹ ^ i) (fun z => MSet.hfun z⁻¹ / z⁻¹) {z | 1 < ‖z‖} := by
    intro z hz
    simp only
    rw [(hsum z hz).tsum_eq, div_inv_eq_mul, mul_comm]
  have hinv : ∀ z : ℂ, 1 < ‖z‖ → ‖z⁻¹‖ < 1 ∧ z⁻¹ ≠ 0 := fun z hz =>
    ⟨by rw [norm_inv]; exact inv_lt_one_of_one_lt₀ hz, inv_ne_zero (hne z hz)⟩
  refine ⟨fun z hz => (hsum z hz).summable.norm, ?_, ?_⟩
  · refine DifferentiableOn.congr (f := fun z => MSet.hfun z⁻¹ / z⁻¹) ?_ heq
    intro z hz
    have hd : DifferentiableAt ℂ (fun z : ℂ => z⁻¹) z := differentiableAt_inv (hne z hz)
    have h1 : DifferentiableAt ℂ MSet.hfun z⁻¹ := MSet.hfun_differentiableOn.differentiableAt
      (Metric.isOpen_ball.mem_nhds (mem_ball_zero_iff.mpr (hinv z hz).1))
    exact ((DifferentiableAt.comp z h1 hd).div hd (hinv z hz).2).differentiableWithinAt
  · refine Set.BijOn.congr ?_ heq.symm
    refine ⟨?_, ?_, ?_⟩
    · intro z hz
      exact (MSet.not_mem_iff _).mpr ⟨z⁻¹, (hinv z hz).1, (hinv z hz).2, rfl⟩
    · intro z hz w hw h
      exact inv_injective (MSet.ext_inj (hinv z hz).1 (hinv z hz).2 (hinv w hw).1 (hinv w hw).2 h)
    · intro c hc
      obtain ⟨u, hu, h0, he⟩ := (MSet.not_mem_iff c).mp hc
      refine ⟨u⁻¹, ?_, ?_⟩
      · change 1 < ‖u⁻¹‖
        rw [norm_inv]
        exact (one_lt_inv₀ (norm_pos_iff.mpr h0)).mpr hu
      · simp only [inv_inv]
        exact he

/-! ## The programs -/

theorem step_wf (B J B' J' : Junk ℝ) (buf buf' : ℕ → ℂ) (old old' : ℕ → ℝ) (accept accept' : ℕ → Bool → Ser ℝ → Bool) (k : ℕ)
    (hk : k + 1 ≤ 28) (g g' f : Ser ℝ) (e : Area.areas (fftHost B buf old) J accept k = .ok g)
    (e' : Area.bottcherStep (fftHost B' buf' old') J' accept' g = .ok (g', f)) : f.WF := by
  rcases C58_areas B J buf old accept k (by omega) with ⟨_, _, _, _, _, h⟩ | ⟨g1, e1, w, _, n, z, hB⟩
  · rw [e] at h
    cases h
  rw [e] at e1
  cases e1
  rcases C28_step (fftHost_exact B' buf' old') J' accept' k (by omega) g w n z hB (Nat.pow_le_pow_right (by norm_num) hk) with
    ⟨_, _, _, h⟩ | ⟨g1, f1, e1, _, wf, _⟩
  · rw [e'] at h
    cases h
  rw [e'] at e1
  cases e1
  exact wf

/-- C65.  Whenever a run of `areas` of `k` steps on exact kernels is followed by one more step, the area that `area` computes from the
series in ball arithmetic, on any number of threads in any order and at any precision, contains an upper bound of the area of the
Mandelbrot set. -/
theorem C65_program {A : Type} (ops : Area.ArbOps A) (mem : ℝ → A → Prop) (hops : ops.Encloses mem)
    (B J B' J' : Junk ℝ) (buf buf' : ℕ → ℂ) (old old' : ℕ → ℝ) (accept accept' : ℕ → Bool → Ser ℝ → Bool) (k : ℕ) (hk : k + 1 ≤ 28)
    (g g' f : Ser ℝ) (e : Area.areas (fftHost B buf old) J accept k = .ok g)
    (e' : Area.bottcherStep (fftHost B' buf' old') J' accept' g = .ok (g', f))
    (fa : ℤ → A) (hfa : ∀ i : ℕ, (i : ℤ) < f.nonzero → mem (f.data i) (fa i))
    (prec threads : ℕ) (hT : 0 < threads) (r : A) (hr : Area.AreaAt ops prec threads fa f.nonzero r) :
    ∃ x : ℝ, mem x r ∧ volume Spec.mandelbrotSet ≤ ENNReal.ofReal x := by
  obtain ⟨f₀, h1, h2⟩ := C58_area_values
  obtain ⟨m, hm⟩ := Int.eq_ofNat_of_zero_le (step_wf B J B' J' buf buf' old old' accept accept' k hk g g' f e e').1
  rw [hm] at hr hfa
  have h3 := C30_encloses ops mem hops prec threads hT f.data fa m (fun i hi => hfa i (by exact_mod_cast hi)) r hr
  obtain ⟨r', hr'⟩ := areaAt_exists Area.realOps prec 1 (fun i => f.data i.toNat) m
  have h4 := C30_exact prec 1 one_pos f.data m r' hr'
  have h5 := h2 B J B' J' buf buf' old old' accept accept' k hk g g' f e e' prec 1 r' one_pos (by rw [hm]; exact hr')
  refine ⟨_, h3, ?_⟩
  rw [← h4, h5]
  obtain ⟨g1, hg, hf⟩ := h1 (k + 1)
  exact C65_upper (k + 1) g1 f₀ hg hf

/-- C65.  Every area printed by the interval program contains an upper bound of the area of the Mandelbrot set (for the code without
final refinements, as in C55). -/
theorem C65_intervals {B : Type} {A : ArbPoly.Arb B} {mem : ℝ → B → Prop} (S : Spec.ArbSound A mem) (hI : Spec.Intervals mem)
    (known : ℕ → Option B) (maxK j : ℕ) (b : B) (hb : (ArbPoly.arbAreas A true known maxK).1[j]? = some b) :
    ∃ x : ℝ, mem x b ∧ volume Spec.mandelbrotSet ≤ ENNReal.ofReal x := by
  obtain ⟨f₀, h1, -⟩ := C58_area_values
  obtain ⟨g, hg, hf⟩ := h1 (j / 2 + 1)
  exact ⟨_, C55_areas S hI known maxK j b hb g f₀ hg hf, C65_upper _ g f₀ hg hf⟩

/-- C65.  The same for the code as it is, provided that the refinements enclose (see C55). -/
theorem C65_intervals_partial {B : Type} {A : ArbPoly.Arb B} {mem : ℝ → B → Prop} (S : Spec.ArbSound A mem) (hI : Spec.Intervals mem)
    (hE : ArbPoly.ExpOk A mem false) (hL : ArbPoly.Log1pExpOk A mem false) (known : ℕ → Option B) (maxK j : ℕ) (b : B)
    (hb : (ArbPoly.arbAreas A false known maxK).1[j]? = some b) :
    ∃ x : ℝ, mem x b ∧ volume Spec.mandelbrotSet ≤ ENNReal.ofReal x := by
  obtain ⟨f₀, h1, -⟩ := C58_area_values
  obtain ⟨g, hg, hf⟩ := h1 (j / 2 + 1)
  exact ⟨_, C55_areas_partial S hI hE hL known maxK j b hb g f₀ hg hf, C65_upper _ g f₀ hg hf⟩

/-! ## Examples -/

/-- The series exists. -/
example : ∃ f : ℕ → ℝ, Spec.IsSeries f := by
  obtain ⟨f₀, h1, -⟩ := C58_area_values
  exact ⟨f₀, h1⟩

/-- Four terms: the area of the Mandelbrot set is at most `55/64 π`. -/
example : volume Spec.mandelbrotSet ≤ ENNReal.ofReal (Real.pi * (55 / 64)) := by
  let f : ℕ → ℝ := fun j => if j = 0 then 1 else if j = 1 then -1 / 2 else if j = 2 then 1 / 8 else if j = 3 then -1 / 4 else 0
  have h0 : constantCoeff (PowerSeries.mk f) = 1 := by
    rw [cc_mk]
    rfl
  have hQ : Agree (2 ^ 2) (Bottcher.Q (PowerSeries.mk f) 2) 1 := by
    intro j hj
    have h1 := congrFun (seqOf_Q (PowerSeries.mk f) 2) j
    rw [seqOf_mk] at h1
    have h2 : coeff j (Bottcher.Q (PowerSeries.mk f) 2) = Spec.mandelQ f 2 j := h1
    rw [h2, coeff_one]
    have hj4 : j < 4 := hj
    interval_cases j <;> norm_num [f, Spec.mandelQ, Spec.prod, Spec.shift, Spec.one, Nat.antidiagonal_succ]
  have h := area_le_gronwall f 4 (by norm_num) fun j hj => by rw [MSet.tay_eq h0 hQ j hj, coeff_mk]
  have he : Spec.gronwall f 4 = Real.pi * (55 / 64) := by
    rw [Spec.gronwall]
    norm_num [sum_range_succ, f]
  rwa [he] at h

/-- A run of 5 steps followed by another one, with real numbers in place of balls: the number printed is itself an upper bound. -/
example (B J : Junk ℝ) (buf : ℕ → ℂ) (old : ℕ → ℝ) : ∃ (f : Ser ℝ) (r : ℝ), f.known = 64 ∧
    Area.AreaAt Area.realOps 200 3 (fun i => f.data i.toNat) f.nonzero r ∧ volume Spec.mandelbrotSet ≤ ENNReal.ofReal r := by
  rcases C58_areas B J buf old (fun _ _ _ => true) 5 (by norm_num) with ⟨_, _, _, _, h, _⟩ | ⟨g, e, w, _, n, z, hB⟩
  · cases h
  rcases C28_step (fftHost_exact B buf old) J (fun _ _ _ => true) 5 (by norm_num) g w n z hB (by norm_num) with
    ⟨_, _, h, _⟩ | ⟨g', f, e', _, wf, _, _, _, n', _⟩
  · cases h
  obtain ⟨m, hm⟩ := Int.eq_ofNat_of_zero_le wf.1
  obtain ⟨r, hr⟩ := areaAt_exists Area.realOps 200 3 (fun i => f.data i.toNat) m
  rw [← hm] at hr
  refine ⟨f, r, by rw [n']; norm_num, hr, ?_⟩
  obtain ⟨x, hx, hv⟩ := C65_program Area.realOps (fun x r => x = r) (by constructor <;> intros <;> simp_all [Area.realOps]) B J B J buf buf old old _ _ 5 (by norm_num) g g' f
    e e' (fun i => f.data i.toNat) (fun i _ => by simp) 200 3 (by norm_num) r hr
  rwa [← hx]

/-- The interval program on closed sets: every one of the 8 results contains an upper bound. -/
example (j : ℕ) (hj : j < 8) : ∃ b, (ArbPoly.arbAreas exactIntervals true (fun _ => none) 4).1[j]? = some b ∧
    ∃ x, ArbPoly.hmem x b ∧ volume Spec.mandelbrotSet ≤ ENNReal.ofReal x := by
  have hl : (ArbPoly.arbAreas exactIntervals true (fun _ => none) 4).1.length = 8 :=
    (C55_finishes C55_contract_met.1 C55_contract_met.2 _ (by simp) 4 (by norm_num)).2
  refine ⟨_, List.getElem?_eq_getElem (by omega), ?_⟩
  exact C65_intervals C55_contract_met.1 C55_contract_met.2 (fun _ => none) 4 j _ (List.getElem?_eq_getElem (by omega))

end Mandelbrot.Props
