import Verif.Logo.Lemmas
import Verif.Props.FFT
import Mathlib.RingTheory.RootsOfUnity.Complex

/-!
# C67: the picture of the set
-/

namespace Mandelbrot.Props

open Logo

/-! ## Colours -/

/-- A colour with all components between 0 and 1. -/
def Spec.ValidColor (c : Color) : Prop := (0 ≤ c.a ∧ c.a ≤ 1) ∧ ∀ i, 0 ≤ c.rgb i ∧ c.rgb i ≤ 1

/-- The same as far as it can be seen. -/
def Spec.Visible (c : Color) : Prop := (0 ≤ c.a ∧ c.a ≤ 1) ∧ (c.a ≠ 0 → ∀ i, 0 ≤ c.rgb i ∧ c.rgb i ≤ 1)

/-- Colours that look the same: the components do not matter if nothing is to be seen. -/
def Spec.Looks (x y : Color) : Prop := x.a = y.a ∧ (x.a ≠ 0 → x.rgb = y.rgb)

theorem looks_refl (x : Color) : Spec.Looks x x := ⟨rfl, fun _ => rfl⟩

theorem looks_trans {x y z : Color} (h1 : Spec.Looks x y) (h2 : Spec.Looks y z) : Spec.Looks x z :=
  ⟨h1.1.trans h2.1, fun h => (h1.2 h).trans (h2.2 (h1.1 ▸ h))⟩

theorem looks_symm {x y : Color} (h : Spec.Looks x y) : Spec.Looks y x := ⟨h.1.symm, fun h0 => (h.2 (h.1 ▸ h0)).symm⟩

/-- The light that a colour lets through and what it adds: `a`, and `a` times the components. -/
theorem over_weight (x y : Color) (hx : 0 ≤ x.a ∧ x.a ≤ 1) (hy : 0 ≤ y.a) (i : Fin 3) :
    (overlay x y).a * (overlay x y).rgb i = x.a * x.rgb i + (1 - x.a) * (y.a * y.rgb i) := by
  simp only [overlay]
  by_cases h : x.a + (1 - x.a) * y.a = 0
  · have h1 : 0 ≤ (1 - x.a) * y.a := mul_nonneg (by linarith [hx.2]) hy
    have h2 : x.a = 0 := by linarith [hx.1]
    have h3 : (1 - x.a) * y.a = 0 := by linarith [hx.1]
    rw [h2] at h3 ⊢
    simp only [sub_zero, one_mul] at h3
    simp [h3]
  · simp only [ne_eq, h, not_false_eq_true, if_true]
    field_simp

/-- C67.  Putting one colour over another gives a colour, with opacity `1 - (1 - a)(1 - b)`. -/
theorem C67_over (x y : Color) (hx : Spec.ValidColor x) (hy : Spec.ValidColor y) :
    Spec.ValidColor (overlay x y) ∧ 1 - (overlay x y).a = (1 - x.a) * (1 - y.a) := by
  obtain ⟨⟨a0, a1⟩, ac⟩ := hx
  obtain ⟨⟨b0, b1⟩, bc⟩ := hy
  have hs : 0 ≤ (1 - x.a) * y.a := mul_nonneg (by linarith) b0
  have hs1 : (1 - x.a) * y.a ≤ 1 - x.a := by nlinarith
  refine ⟨⟨⟨?_, ?_⟩, fun i => ?_⟩, ?_⟩
  · simp only [overlay]; linarith
  · simp only [overlay]; linarith
  · simp only [overlay]
    have n1 : 0 ≤ x.a * x.rgb i + (1 - x.a) * y.a * y.rgb i :=
      add_nonneg (mul_nonneg a0 (ac i).1) (mul_nonneg hs (bc i).1)
    have n2 : x.a * x.rgb i + (1 - x.a) * y.a * y.rgb i ≤ x.a + (1 - x.a) * y.a :=
      add_le_add (mul_le_of_le_one_right a0 (ac i).2) (mul_le_of_le_one_right hs (bc i).2)
    by_cases h : x.a + (1 - x.a) * y.a = 0
    · simp [h]
    · have hpos : 0 < x.a + (1 - x.a) * y.a := lt_of_le_of_ne (by linarith) (Ne.symm h)
      simp only [ne_eq, h, not_false_eq_true, if_true]
      rw [one_div, inv_mul_eq_div]
      exact ⟨div_nonneg n1 hpos.le, (div_le_one hpos).mpr n2⟩
  · simp only [overlay]; ring

/-- C67.  The order in which colours are put together does not matter, only which is above which. -/
theorem C67_over_assoc (x y z : Color) (hx : Spec.ValidColor x) (hy : Spec.ValidColor y) (hz : Spec.ValidColor z) :
    Spec.Looks (overlay (overlay x y) z) (overlay x (overlay y z)) := by
  have hxy := (C67_over x y hx hy)
  have hyz := (C67_over y z hy hz)
  have ha : (overlay (overlay x y) z).a = (overlay x (overlay y z)).a := by
    have e1 := (C67_over _ z hxy.1 hz).2
    have e2 := (C67_over x _ hx hyz.1).2
    rw [hxy.2] at e1
    rw [hyz.2] at e2
    linarith [mul_assoc (1 - x.a) (1 - y.a) (1 - z.a)]
  refine ⟨ha, fun h => ?_⟩
  funext i
  have w1 := over_weight (overlay x y) z hxy.1.1 hz.1.1 i
  have w2 := over_weight x (overlay y z) hx.1 hyz.1.1.1 i
  rw [over_weight x y hx.1 hy.1.1 i, hxy.2] at w1
  rw [over_weight y z hy.1 hz.1.1 i] at w2
  have : (overlay (overlay x y) z).a * (overlay (overlay x y) z).rgb i = (overlay (overlay x y) z).a * (overlay x (overlay y z)).rgb i := by
    rw [w1, ha, w2]
    ring
  exact mul_left_cancel₀ h this

/-- C67.  `clear` above or below anything changes nothing that can be seen; an opaque colour hides what is below. -/
theorem C67_over_clear (x y : Color) :
    Spec.Looks (overlay clear x) x ∧ Spec.Looks (overlay x clear) x ∧ (x.a = 1 → overlay x y = x) := by
  refine ⟨⟨by simp [overlay, clear], fun h => ?_⟩, ⟨by simp [overlay, clear], fun h => ?_⟩, fun h => ?_⟩
  · simp only [overlay, clear, sub_zero, one_mul, zero_add, ne_eq] at h ⊢
    funext i
    simp [h]
  · simp only [overlay, clear, mul_zero, add_zero, ne_eq] at h ⊢
    funext i
    simp [h]
  · obtain ⟨c, a⟩ := x
    simp only at h
    subst h
    simp [overlay]

theorem over_looks (x : Color) {y y' : Color} (h : Spec.Looks y y') : Spec.Looks (overlay x y) (overlay x y') := by
  obtain ⟨h1, h2⟩ := h
  refine ⟨by simp [overlay, h1], fun _ => ?_⟩
  funext i
  simp only [overlay, h1]
  by_cases h0 : y'.a = 0
  · simp [h0]
  · rw [h2 (by rw [h1]; exact h0)]

theorem average_sums (cs : List Color) (s : Color) :
    cs.foldl (fun (sum : Color) c => ⟨fun i => sum.rgb i + c.rgb i * c.a, sum.a + c.a⟩) s =
      ⟨fun i => s.rgb i + (cs.map fun c => c.rgb i * c.a).sum, s.a + (cs.map fun c => c.a).sum⟩ := by
  induction cs generalizing s with
  | nil => simp
  | cons c cs ih =>
    rw [List.foldl_cons, ih]
    simp [add_assoc]

theorem average_eq (cs : List Color) : average cs =
    ⟨fun i => (if (cs.map (·.a)).sum ≠ 0 then 1 / (cs.map (·.a)).sum else 0) * (cs.map fun c => c.rgb i * c.a).sum,
      (cs.map (·.a)).sum / cs.length⟩ := by
  simp only [average, average_sums, zero_add]

theorem sum_bounds (cs : List Color) (f : Color → ℝ) (g : Color → ℝ) (h : ∀ c ∈ cs, 0 ≤ f c ∧ f c ≤ g c) :
    0 ≤ (cs.map f).sum ∧ (cs.map f).sum ≤ (cs.map g).sum := by
  induction cs with
  | nil => simp
  | cons c cs ih =>
    have h1 := h c List.mem_cons_self
    have h2 := ih fun d hd => h d (List.mem_cons_of_mem _ hd)
    simp only [List.map_cons, List.sum_cons]
    constructor <;> linarith

/-- C67.  The average of colours is a colour; its opacity is the mean of the opacities, and the light it adds is the mean of the lights that
they add. -/
theorem C67_average (cs : List Color) (h : ∀ c ∈ cs, Spec.Visible c) (hne : cs ≠ []) :
    Spec.ValidColor (average cs) ∧ (average cs).a = (cs.map (·.a)).sum / cs.length ∧
    ∀ i, (average cs).a * (average cs).rgb i = (cs.map fun c => c.a * c.rgb i).sum / cs.length := by
  have hlen : (0 : ℝ) < cs.length := by exact_mod_cast List.length_pos_iff.mpr hne
  have ha := sum_bounds cs (·.a) (fun _ => 1) fun c hc => (h c hc).1
  have hone : (cs.map fun _ : Color => (1 : ℝ)).sum = cs.length := by simp
  rw [hone] at ha
  have hc : ∀ i, 0 ≤ (cs.map fun c => c.rgb i * c.a).sum ∧ (cs.map fun c => c.rgb i * c.a).sum ≤ (cs.map (·.a)).sum := fun i =>
    sum_bounds cs _ _ fun c hc => by
      by_cases h0 : c.a = 0
      · simp [h0]
      · exact ⟨mul_nonneg ((h c hc).2 h0 i).1 (h c hc).1.1, mul_le_of_le_one_left (h c hc).1.1 ((h c hc).2 h0 i).2⟩
  rw [average_eq]
  refine ⟨⟨⟨div_nonneg ha.1 hlen.le, (div_le_one hlen).mpr ha.2⟩, fun i => ?_⟩, rfl, fun i => ?_⟩
  · by_cases h0 : (cs.map (·.a)).sum = 0
    · simp [h0]
    · have hpos := lt_of_le_of_ne ha.1 (Ne.symm h0)
      simp only [ne_eq, h0, not_false_eq_true, if_true]
      rw [one_div, inv_mul_eq_div]
      exact ⟨div_nonneg (hc i).1 hpos.le, (div_le_one hpos).mpr (hc i).2⟩
  · have hcomm : (cs.map fun c => c.a * c.rgb i) = cs.map fun c => c.rgb i * c.a := by
      congr 1
      funext c
      ring
    rw [hcomm]
    by_cases h0 : (cs.map (·.a)).sum = 0
    · have : (cs.map fun c => c.rgb i * c.a).sum = 0 := le_antisymm (h0 ▸ (hc i).2) (hc i).1
      simp [h0, this]
    · simp only [ne_eq, h0, not_false_eq_true, if_true]
      field_simp

theorem average_looks (cs cs' : List Color) (h : List.Forall₂ Spec.Looks cs cs') : average cs = average cs' := by
  have h1 : cs.map (·.a) = cs'.map (·.a) := by
    induction h with
    | nil => rfl
    | cons h _ ih => simp [ih, h.1]
  have h2 : ∀ i, (cs.map fun c => c.rgb i * c.a) = cs'.map fun c => c.rgb i * c.a := by
    intro i
    induction h with
    | nil => rfl
    | @cons c d _ _ h _ ih =>
      simp only [List.map_cons]
      simp only [List.map_cons, List.cons.injEq] at h1
      rw [ih h1.2]
      congr 1
      by_cases h0 : c.a = 0
      · rw [h0, ← h.1, h0]; simp
      · rw [h.2 h0, h.1]
  rw [average_eq, average_eq, h1, h.length_eq]
  simp only [h2]

/-! ## The canvas -/

/-- A point of the pixel `(i, j)`. -/
def Spec.InPixel (c : Canvas) (i j : ℤ) (z : ℂ) : Prop :=
  (c.lo.re + c.dx * i ≤ z.re ∧ z.re < c.lo.re + c.dx * (i + 1)) ∧ c.lo.im + c.dx * j ≤ z.im ∧ z.im < c.lo.im + c.dx * (j + 1)

/-- A canvas whose samples lie in their pixels and whose sizes fit in `int`. -/
structure Spec.CanvasOk (c : Canvas) : Prop where
  dx : 0 < c.dx
  width : 0 ≤ c.width
  height : 0 ≤ c.height
  samples : 0 ≤ c.samples
  size : c.width * c.height * c.samples < 2 ^ 31
  points : ∀ t, c.Has t → Spec.InPixel c t.1 t.2.1 (c.points (c.num t))

theorem int_ok {n : ℤ} (h : -2 ^ 31 ≤ n ∧ n < 2 ^ 31) : Logo.int n = .ok n := if_pos h

theorem int_ub {n : ℤ} (h : ¬(-2 ^ 31 ≤ n ∧ n < 2 ^ 31)) : Logo.int n = .error .ub := if_neg h

theorem has_cells (c : Canvas) (t : ℤ × ℤ × ℤ) : t ∈ cells 0 c.width 0 c.height c.samples ↔ c.Has t := mem_cells

/-- The number of pixels that a side of length `x` of the box needs. -/
noncomputable def Spec.pixels (b : Box) (size : ℤ) (x : ℝ) : ℤ := ⌈size * (x / min (b.hi.re - b.lo.re) (b.hi.im - b.lo.im))⌉

/-- C67.  The canvas for a proper box.  If the sizes are too large for `int`, the behaviour is undefined.  Otherwise the shorter side has
`size` pixels and the longer one the same number per length, rounded up; the pixels cover the box and have its centre, each sample is a
point of its pixel, and no store is outside the arrays.  The colours are whatever was in the memory. -/
theorem C67_make (b : Box) (hre : b.lo.re < b.hi.re) (him : b.lo.im < b.hi.im) (size samples : ℤ) (hsize : 0 < size)
    (hsamples : 0 ≤ samples) (u : ℕ → ℝ) (hu : ∀ n, 0 ≤ u n ∧ u n < 1) (junkP : ℕ → ℂ) (junkC : ℕ → Color) :
    (2 ^ 31 ≤ Spec.pixels b size (b.hi.re - b.lo.re) * Spec.pixels b size (b.hi.im - b.lo.im) * max 1 samples →
      make b size samples u junkP junkC = .error .ub) ∧
    (Spec.pixels b size (b.hi.re - b.lo.re) * Spec.pixels b size (b.hi.im - b.lo.im) * max 1 samples < 2 ^ 31 →
      ∃ c, make b size samples u junkP junkC = .ok c ∧ Spec.CanvasOk c ∧ c.colors = junkC ∧ c.samples = samples ∧
      c.width = Spec.pixels b size (b.hi.re - b.lo.re) ∧ c.height = Spec.pixels b size (b.hi.im - b.lo.im) ∧
      min c.width c.height = size ∧ c.dx = min (b.hi.re - b.lo.re) (b.hi.im - b.lo.im) / size ∧
      (c.lo.re ≤ b.lo.re ∧ b.hi.re ≤ c.lo.re + c.dx * c.width) ∧ (c.lo.im ≤ b.lo.im ∧ b.hi.im ≤ c.lo.im + c.dx * c.height) ∧
      2 * c.lo.re + c.dx * c.width = b.lo.re + b.hi.re ∧ 2 * c.lo.im + c.dx * c.height = b.lo.im + b.hi.im) := by
  set dx : ℝ := min (b.hi.re - b.lo.re) (b.hi.im - b.lo.im) / size with hdx
  have hsz : (0 : ℝ) < size := by exact_mod_cast hsize
  have hmin : 0 < min (b.hi.re - b.lo.re) (b.hi.im - b.lo.im) := lt_min (by linarith) (by linarith)
  have hpos : 0 < dx := div_pos hmin hsz
  set w : ℤ := ⌈1 / dx * (b.hi.re - b.lo.re)⌉ with hw
  set h : ℤ := ⌈1 / dx * (b.hi.im - b.lo.im)⌉ with hh
  have hw0 : 0 ≤ w := Int.ceil_nonneg (mul_nonneg (by positivity) (by linarith))
  have hh0 : 0 ≤ h := Int.ceil_nonneg (mul_nonneg (by positivity) (by linarith))
  have hwr : b.hi.re - b.lo.re ≤ dx * w := by
    have := Int.le_ceil (1 / dx * (b.hi.re - b.lo.re))
    rw [← hw, one_div, inv_mul_eq_div, div_le_iff₀ hpos] at this
    linarith [mul_comm dx (w : ℝ)]
  have hhr : b.hi.im - b.lo.im ≤ dx * h := by
    have := Int.le_ceil (1 / dx * (b.hi.im - b.lo.im))
    rw [← hh, one_div, inv_mul_eq_div, div_le_iff₀ hpos] at this
    linarith [mul_comm dx (h : ℝ)]
  have hdiv : ∀ x : ℝ, 1 / dx * x = size * (x / min (b.hi.re - b.lo.re) (b.hi.im - b.lo.im)) := by
    intro x
    rw [hdx]
    field_simp
  have hwh : min w h = size := by
    have e : min (1 / dx * (b.hi.re - b.lo.re)) (1 / dx * (b.hi.im - b.lo.im)) = size := by
      rw [← mul_min_of_nonneg _ _ (by positivity : (0 : ℝ) ≤ 1 / dx), hdiv, div_self hmin.ne', mul_one]
    rw [hw, hh, ← Int.ceil_mono.map_min, e, Int.ceil_intCast]
  have hW : Spec.pixels b size (b.hi.re - b.lo.re) = w := by rw [Spec.pixels, ← hdiv, hw]
  have hH : Spec.pixels b size (b.hi.im - b.lo.im) = h := by rw [Spec.pixels, ← hdiv, hh]
  rw [hW, hH]
  have hw1 : size ≤ w := hwh ▸ min_le_left _ _
  have hh1 : size ≤ h := hwh ▸ min_le_right _ _
  have hwle : w ≤ w * h := by nlinarith
  have hhle : h ≤ w * h := by nlinarith
  have hw0' : 0 ≤ w * h := by nlinarith
  have hmax : max 1 samples = 1 ∨ max 1 samples = samples := by omega
  have hmax1 : w * h * 1 ≤ w * h * max 1 samples := mul_le_mul_of_nonneg_left (by omega) hw0'
  have hmax2 : w * h * samples ≤ w * h * max 1 samples := mul_le_mul_of_nonneg_left (by omega) hw0'
  have hmax3 : 0 ≤ w * h * samples := mul_nonneg hw0' hsamples
  constructor
  · intro hbig
    by_cases i1 : -2 ^ 31 ≤ w ∧ w < 2 ^ 31
    swap
    · unfold make
      simp only [Complex.sub_re, Complex.sub_im, ← hdx, ← hw, int_ub i1]
      rfl
    by_cases i2 : -2 ^ 31 ≤ h ∧ h < 2 ^ 31
    swap
    · unfold make
      simp only [Complex.sub_re, Complex.sub_im, ← hdx, ← hw, ← hh, int_ok i1, int_ub i2]
      rfl
    by_cases i3 : -2 ^ 31 ≤ w * h ∧ w * h < 2 ^ 31
    swap
    · unfold make
      simp only [Complex.sub_re, Complex.sub_im, ← hdx, ← hw, ← hh, int_ok i1, int_ok i2, int_ub i3, bind, Except.bind]
    by_cases i4 : -2 ^ 31 ≤ w * h * samples ∧ w * h * samples < 2 ^ 31
    swap
    · unfold make
      simp only [Complex.sub_re, Complex.sub_im, ← hdx, ← hw, ← hh, int_ok i1, int_ok i2, int_ok i3, int_ub i4, bind, Except.bind]
    exfalso
    rcases hmax with e | e <;> rw [e] at hbig <;> omega
  intro hsmall
  have i1 : -2 ^ 31 ≤ w ∧ w < 2 ^ 31 := by omega
  have i2 : -2 ^ 31 ≤ h ∧ h < 2 ^ 31 := by omega
  have i3 : -2 ^ 31 ≤ w * h ∧ w * h < 2 ^ 31 := by omega
  have i4 : -2 ^ 31 ≤ w * h * samples ∧ w * h * samples < 2 ^ 31 := by omega
  set lo : ℂ := (1 / 2 : ℝ) • (b.lo + b.hi) - (1 / 2 * dx) • (⟨w, h⟩ : ℂ) with hlo
  set c : Canvas := ⟨lo, dx, w, h, samples, junkP, junkC⟩ with hc
  obtain ⟨st, e, p1, p2⟩ := foldlM_store c.num (fun t => c.index t.1 t.2.1 t.2.2)
    (fun t k => (⟨(lo + dx • (⟨t.1, t.2.1⟩ : ℂ)).re + dx * u k, (lo + dx • (⟨t.1, t.2.1⟩ : ℂ)).im + dx * u (k + 1)⟩ : ℂ)) 2
    (fun t z => Spec.InPixel c t.1 t.2.1 z) (by
      intro t k
      have u1 := hu k
      have u2 := hu (k + 1)
      have a1 : dx * u k < dx * 1 := by nlinarith
      have a2 : dx * u (k + 1) < dx * 1 := by nlinarith
      have a3 : 0 ≤ dx * u k := mul_nonneg hpos.le u1.1
      have a4 : 0 ≤ dx * u (k + 1) := mul_nonneg hpos.le u2.1
      simp only [Spec.InPixel, hc, Complex.add_re, Complex.add_im, Complex.real_smul, Complex.mul_re, Complex.mul_im, Complex.ofReal_re,
        Complex.ofReal_im, zero_mul, sub_zero, add_zero]
      refine ⟨⟨?_, ?_⟩, ?_, ?_⟩ <;> nlinarith)
    (cells 0 w 0 h samples) (nodup_cells _ _ _ _ _) (fun t ht => c.index_eq ((has_cells c t).mp ht))
    (fun t ht t' ht' => c.num_inj ((has_cells c t).mp ht) ((has_cells c t').mp ht')) junkP 0
  refine ⟨{ c with points := st.1 }, ?_, ⟨hpos, hw0, hh0, hsamples, i4.2, fun t ht => p1 t ((has_cells c t).mpr ht)⟩, rfl, rfl,
    rfl, rfl, hwh, rfl, ?_⟩
  · unfold make
    simp only [Complex.sub_re, Complex.sub_im, ← hdx, ← hw, ← hh, int_ok i1, int_ok i2, int_ok i3, int_ok i4, bind, Except.bind] at e ⊢
    rw [← hlo, ← hc]
    rw [e]
    rfl
  · have r1 : lo.re = 1 / 2 * (b.lo.re + b.hi.re) - 1 / 2 * dx * w := by
      simp [hlo]
      ring
    have r2 : lo.im = 1 / 2 * (b.lo.im + b.hi.im) - 1 / 2 * dx * h := by
      simp [hlo]
      ring
    simp only [hc, r1, r2]
    refine ⟨⟨?_, ?_⟩, ⟨?_, ?_⟩, ?_, ?_⟩ <;> nlinarith

/-- Whether the bounds of the pixels that `render` visits fit in `int`. -/
def Spec.Fits (c : Canvas) (b : Box) : Prop :=
  (-2 ^ 31 ≤ ⌊(b.lo.re - c.lo.re) / c.dx⌋ ∧ ⌊(b.lo.re - c.lo.re) / c.dx⌋ < 2 ^ 31) ∧
  (-2 ^ 31 ≤ ⌊(b.lo.im - c.lo.im) / c.dx⌋ ∧ ⌊(b.lo.im - c.lo.im) / c.dx⌋ < 2 ^ 31) ∧
  (-2 ^ 31 ≤ ⌊(b.hi.re - c.lo.re) / c.dx⌋ ∧ ⌊(b.hi.re - c.lo.re) / c.dx⌋ + 1 < 2 ^ 31) ∧
  (-2 ^ 31 ≤ ⌊(b.hi.im - c.lo.im) / c.dx⌋ ∧ ⌊(b.hi.im - c.lo.im) / c.dx⌋ + 1 < 2 ^ 31)

theorem smul_floor (x : ℝ) (z w : ℂ) : ((1 / x) • (z - w)).re = (z.re - w.re) / x ∧ ((1 / x) • (z - w)).im = (z.im - w.im) / x := by
  constructor <;> simp <;> ring

/-- C67.  `render` is defined exactly if the bounds fit in `int`.  Then it never leaves the arrays, keeps everything but the colours, and
puts the shape over the colour of every sample in the pixels that meet the box, once; it leaves all other cells alone. -/
theorem C67_render (c : Canvas) (b : Box) (f : ℂ → Color) :
    (¬Spec.Fits c b → c.render b f = .error .ub) ∧
    (Spec.Fits c b → ∃ colors, c.render b f = .ok { c with colors := colors } ∧
      (∀ t, c.Has t → colors (c.num t) =
        if (⌊(b.lo.re - c.lo.re) / c.dx⌋ ≤ t.1 ∧ t.1 ≤ ⌊(b.hi.re - c.lo.re) / c.dx⌋) ∧
           (⌊(b.lo.im - c.lo.im) / c.dx⌋ ≤ t.2.1 ∧ t.2.1 ≤ ⌊(b.hi.im - c.lo.im) / c.dx⌋)
        then overlay (f (c.points (c.num t))) (c.colors (c.num t)) else c.colors (c.num t)) ∧
      ∀ n, (∀ t, c.Has t → c.num t ≠ n) → colors n = c.colors n) := by
  have s1 := smul_floor c.dx b.lo c.lo
  have s2 := smul_floor c.dx b.hi c.lo
  unfold Canvas.render
  simp only [s1.1, s1.2, s2.1, s2.2]
  set i0 := ⌊(b.lo.re - c.lo.re) / c.dx⌋ with hi0
  set j0 := ⌊(b.lo.im - c.lo.im) / c.dx⌋ with hj0
  set i1 := ⌊(b.hi.re - c.lo.re) / c.dx⌋ with hi1
  set j1 := ⌊(b.hi.im - c.lo.im) / c.dx⌋ with hj1
  constructor
  · intro h
    have hF : ¬((-2 ^ 31 ≤ i0 ∧ i0 < 2 ^ 31) ∧ (-2 ^ 31 ≤ j0 ∧ j0 < 2 ^ 31) ∧ (-2 ^ 31 ≤ i1 ∧ i1 + 1 < 2 ^ 31) ∧
      (-2 ^ 31 ≤ j1 ∧ j1 + 1 < 2 ^ 31)) := h
    by_cases a1 : -2 ^ 31 ≤ i0 ∧ i0 < 2 ^ 31
    swap
    · rw [int_ub a1]; rfl
    by_cases a2 : -2 ^ 31 ≤ j0 ∧ j0 < 2 ^ 31
    swap
    · rw [int_ok a1, int_ub a2]; rfl
    by_cases a3 : -2 ^ 31 ≤ i1 ∧ i1 < 2 ^ 31
    swap
    · rw [int_ok a1, int_ok a2, int_ub a3]; rfl
    by_cases a4 : -2 ^ 31 ≤ 1 + i1 ∧ 1 + i1 < 2 ^ 31
    swap
    · rw [int_ok a1, int_ok a2, int_ok a3]
      simp only [bind, Except.bind]
      rw [int_ub a4]
    by_cases a5 : -2 ^ 31 ≤ j1 ∧ j1 < 2 ^ 31
    swap
    · rw [int_ok a1, int_ok a2, int_ok a3, int_ub a5]
      simp only [bind, Except.bind]
      rw [int_ok a4]
    by_cases a6 : -2 ^ 31 ≤ 1 + j1 ∧ 1 + j1 < 2 ^ 31
    swap
    · rw [int_ok a1, int_ok a2, int_ok a3, int_ok a5]
      simp only [bind, Except.bind]
      rw [int_ok a4]
      simp only
      rw [int_ub a6]
    exact absurd ⟨a1, a2, ⟨a3.1, by omega⟩, a5.1, by omega⟩ hF
  · intro h
    have hF : ((-2 ^ 31 ≤ i0 ∧ i0 < 2 ^ 31) ∧ (-2 ^ 31 ≤ j0 ∧ j0 < 2 ^ 31) ∧ (-2 ^ 31 ≤ i1 ∧ i1 + 1 < 2 ^ 31) ∧
      (-2 ^ 31 ≤ j1 ∧ j1 + 1 < 2 ^ 31)) := h
    obtain ⟨a1, a2, a3, a5⟩ := hF
    have hsub : ∀ t ∈ cells (max 0 i0) (min c.width (1 + i1)) (max 0 j0) (min c.height (1 + j1)) c.samples, c.Has t := by
      intro t ht
      rw [mem_cells] at ht
      unfold Canvas.Has
      omega
    obtain ⟨m, e, p1, p2⟩ := foldlM_update c.num (fun n v => overlay (f (c.points n)) v) (fun t => c.index t.1 t.2.1 t.2.2)
      (cells (max 0 i0) (min c.width (1 + i1)) (max 0 j0) (min c.height (1 + j1)) c.samples) (nodup_cells _ _ _ _ _)
      (fun t ht => c.index_eq (hsub t ht)) (fun t ht t' ht' => c.num_inj (hsub t ht) (hsub t' ht')) c.colors
    refine ⟨m, ?_, fun t ht => ?_, fun n hn => p2 n fun t ht => hn t (hsub t ht)⟩
    · rw [int_ok a1, int_ok a2, int_ok ⟨a3.1, by omega⟩, int_ok ⟨a5.1, by omega⟩]
      simp only [bind, Except.bind]
      rw [int_ok (show -2 ^ 31 ≤ 1 + i1 ∧ 1 + i1 < 2 ^ 31 by omega)]
      simp only
      rw [int_ok (show -2 ^ 31 ≤ 1 + j1 ∧ 1 + j1 < 2 ^ 31 by omega)]
      simp only
      simp only [bind, Except.bind] at e
      rw [e]
      rfl
    · by_cases hin : t ∈ cells (max 0 i0) (min c.width (1 + i1)) (max 0 j0) (min c.height (1 + j1)) c.samples
      · rw [p1 t hin]
        rw [mem_cells] at hin
        rw [if_pos]
        omega
      · rw [p2 (c.num t) fun t' ht' he => hin (c.num_inj (hsub t' ht') ht he ▸ ht')]
        rw [mem_cells] at hin
        rw [if_neg]
        unfold Canvas.Has at ht
        omega

/-- Every sample in the box is in a pixel that `render` visits. -/
theorem canvas_window {c : Canvas} (hc : Spec.CanvasOk c) {b : Box} {t : ℤ × ℤ × ℤ} (ht : c.Has t)
    (h : (b.lo.re ≤ (c.points (c.num t)).re ∧ (c.points (c.num t)).re ≤ b.hi.re) ∧
      b.lo.im ≤ (c.points (c.num t)).im ∧ (c.points (c.num t)).im ≤ b.hi.im) :
    (⌊(b.lo.re - c.lo.re) / c.dx⌋ ≤ t.1 ∧ t.1 ≤ ⌊(b.hi.re - c.lo.re) / c.dx⌋) ∧
    (⌊(b.lo.im - c.lo.im) / c.dx⌋ ≤ t.2.1 ∧ t.2.1 ≤ ⌊(b.hi.im - c.lo.im) / c.dx⌋) := by
  obtain ⟨⟨p1, p2⟩, p3, p4⟩ := hc.points t ht
  have hd := hc.dx
  refine ⟨⟨?_, ?_⟩, ?_, ?_⟩
  · rw [← Int.lt_add_one_iff, Int.floor_lt, div_lt_iff₀ hd]
    push_cast
    linarith [mul_comm c.dx ((t.1 : ℝ) + 1), h.1.1]
  · rw [Int.le_floor, le_div_iff₀ hd]
    linarith [mul_comm c.dx (t.1 : ℝ), h.1.2]
  · rw [← Int.lt_add_one_iff, Int.floor_lt, div_lt_iff₀ hd]
    push_cast
    linarith [mul_comm c.dx ((t.2.1 : ℝ) + 1), h.2.1]
  · rw [Int.le_floor, le_div_iff₀ hd]
    linarith [mul_comm c.dx (t.2.1 : ℝ), h.2.2]

/-- The square around a point. -/
noncomputable def Spec.square (z : ℂ) (r : ℝ) : Box := ⟨⟨z.re - r, z.im - r⟩, ⟨z.re + r, z.im + r⟩⟩

theorem square_box (z : ℂ) (r : ℝ) : (⟨z - ⟨r, r⟩, z + ⟨r, r⟩⟩ : Box) = Spec.square z r := by
  rw [Spec.square]
  congr 1

theorem in_square {z w : ℂ} {r : ℝ} (hr : 0 ≤ r) (h : Complex.normSq (w - z) ≤ r ^ 2) :
    ((Spec.square z r).lo.re ≤ w.re ∧ w.re ≤ (Spec.square z r).hi.re) ∧ (Spec.square z r).lo.im ≤ w.im ∧ w.im ≤ (Spec.square z r).hi.im := by
  rw [Complex.normSq_apply] at h
  simp only [Complex.sub_re, Complex.sub_im] at h
  have h1 : |w.re - z.re| ≤ r := abs_le_of_sq_le_sq (by nlinarith [mul_self_nonneg (w.im - z.im)]) hr
  have h2 : |w.im - z.im| ≤ r := abs_le_of_sq_le_sq (by nlinarith [mul_self_nonneg (w.re - z.re)]) hr
  rw [abs_le] at h1 h2
  simp only [Spec.square]
  refine ⟨⟨?_, ?_⟩, ?_, ?_⟩ <;> linarith

/-- C67.  A circle puts its colour over every sample at most `radius` from its centre, once, and nothing else changes for the eye. -/
theorem C67_circle (c : Canvas) (hc : Spec.CanvasOk c) (center : ℂ) (radius : ℝ) (hr : 0 ≤ radius) (color : Color)
    (hfit : Spec.Fits c (Spec.square center radius)) :
    ∃ colors, c.circle center radius color = .ok { c with colors := colors } ∧
      (∀ t, c.Has t → ‖c.points (c.num t) - center‖ ≤ radius → colors (c.num t) = overlay color (c.colors (c.num t))) ∧
      (∀ t, c.Has t → radius < ‖c.points (c.num t) - center‖ → Spec.Looks (colors (c.num t)) (c.colors (c.num t))) ∧
      ∀ n, (∀ t, c.Has t → c.num t ≠ n) → colors n = c.colors n := by
  classical
  have hn : ∀ z : ℂ, Complex.normSq (z - center) ≤ radius ^ 2 ↔ ‖z - center‖ ≤ radius := by
    intro z
    rw [← Complex.sq_norm, sq_le_sq₀ (norm_nonneg _) hr]
  unfold Canvas.circle
  simp only [square_box]
  obtain ⟨colors, e, h1, h2⟩ := (C67_render c (Spec.square center radius)
    fun z => if Complex.normSq (z - center) ≤ radius ^ 2 then color else clear).2 hfit
  refine ⟨colors, ?_, fun t ht hz => ?_, fun t ht hz => ?_, h2⟩
  · rw [← e]
  · rw [h1 t ht, if_pos (canvas_window hc ht (in_square hr ((hn _).mpr hz))), if_pos ((hn _).mpr hz)]
  · rw [h1 t ht, if_neg (show ¬Complex.normSq (c.points (c.num t) - center) ≤ radius ^ 2 from fun h => hz.not_ge ((hn _).mp h))]
    split_ifs
    · exact (C67_over_clear _ (c.colors (c.num t))).1
    · exact looks_refl _

/-- C67.  A blob puts its colour, with the weight of the normal distribution, over the samples; the ones that it leaves out would get at most
`exp (-25/2)`. -/
theorem C67_gaussian (c : Canvas) (hc : Spec.CanvasOk c) (center : ℂ) (radius : ℝ) (hr : 0 < radius) (color : Color)
    (hfit : Spec.Fits c (Spec.square center (5 * radius))) :
    ∃ colors, c.gaussian center radius color = .ok { c with colors := colors } ∧
      (∀ t, c.Has t →
        colors (c.num t) =
          overlay ⟨color.rgb, Real.exp (-(‖c.points (c.num t) - center‖ ^ 2 / (2 * radius ^ 2))) * color.a⟩ (c.colors (c.num t)) ∨
        colors (c.num t) = c.colors (c.num t) ∧ 5 * radius < ‖c.points (c.num t) - center‖ ∧
          Real.exp (-(‖c.points (c.num t) - center‖ ^ 2 / (2 * radius ^ 2))) ≤ Real.exp (-(25 / 2))) ∧
      ∀ n, (∀ t, c.Has t → c.num t ≠ n) → colors n = c.colors n := by
  unfold Canvas.gaussian
  simp only [square_box]
  obtain ⟨colors, e, h1, h2⟩ := (C67_render c (Spec.square center (5 * radius)) fun z =>
    (⟨color.rgb, Real.exp (-(1 / 2) / radius ^ 2 * Complex.normSq (z - center)) * color.a⟩ : Color)).2 hfit
  refine ⟨colors, e, fun t ht => ?_, h2⟩
  have he : -(1 / 2) / radius ^ 2 * Complex.normSq (c.points (c.num t) - center) =
      -(‖c.points (c.num t) - center‖ ^ 2 / (2 * radius ^ 2)) := by
    rw [← Complex.sq_norm]
    field_simp
  have h1t := h1 t ht
  rw [he] at h1t
  rw [h1t]
  split_ifs with hw
  · exact Or.inl rfl
  · right
    have hlt : 5 * radius < ‖c.points (c.num t) - center‖ := by
      by_contra hle
      refine hw (canvas_window hc ht (in_square (by linarith) ?_))
      rw [← Complex.sq_norm]
      exact pow_le_pow_left₀ (norm_nonneg _) (not_lt.mp hle) 2
    refine ⟨rfl, hlt, Real.exp_le_exp.mpr (neg_le_neg ?_)⟩
    rw [le_div_iff₀ (by positivity)]
    nlinarith

/-- A loop that stores one value at two places for each element of a list. -/
theorem foldlM_two {α : Type} (A B : α → ℕ) (idA idB : α → Res ℕ) (v : Color) (l : List α) (hA : ∀ a ∈ l, idA a = .ok (A a))
    (hB : ∀ a ∈ l, idB a = .ok (B a)) (m : ℕ → Color) :
    ∃ m', (l.foldlM (fun (m : ℕ → Color) a => do
        let m ← (do
          let n ← idA a
          .ok (Function.update m n v))
        let n ← idB a
        .ok (Function.update m n v)) m : Res (ℕ → Color)) = .ok m' ∧
      (∀ a ∈ l, m' (A a) = v ∧ m' (B a) = v) ∧ (∀ n, m' n = v ∨ m' n = m n) ∧ ∀ n, (∀ a ∈ l, A a ≠ n ∧ B a ≠ n) → m' n = m n := by
  induction l generalizing m with
  | nil => exact ⟨m, rfl, by simp, fun _ => Or.inr rfl, fun _ _ => rfl⟩
  | cons a l ih =>
    obtain ⟨m', e, h1, h2, h3⟩ := ih (fun b hb => hA b (List.mem_cons_of_mem _ hb)) (fun b hb => hB b (List.mem_cons_of_mem _ hb))
      (Function.update (Function.update m (A a) v) (B a) v)
    have hcase : ∀ n, Function.update (Function.update m (A a) v) (B a) v n = v ∨
        Function.update (Function.update m (A a) v) (B a) v n = m n := by
      intro n
      by_cases hb : n = B a
      · subst hb; simp
      · by_cases ha : n = A a
        · subst ha; left; rw [Function.update_of_ne hb, Function.update_self]
        · right; rw [Function.update_of_ne hb, Function.update_of_ne ha]
    refine ⟨m', ?_, ?_, ?_, ?_⟩
    · rw [List.foldlM_cons, hA a List.mem_cons_self, hB a List.mem_cons_self]
      exact e
    · intro b hb
      rcases List.mem_cons.mp hb with rfl | hb'
      · constructor
        · rcases h2 (A b) with h | h
          · exact h
          · rw [h]
            by_cases hab : A b = B b
            · rw [hab, Function.update_self]
            · rw [Function.update_of_ne hab, Function.update_self]
        · rcases h2 (B b) with h | h
          · exact h
          · rw [h, Function.update_self]
      · exact h1 b hb'
    · intro n
      rcases h2 n with h | h
      · exact Or.inl h
      · rw [h]
        exact hcase n
    · intro n hn
      rw [h3 n fun b hb => hn b (List.mem_cons_of_mem _ hb), Function.update_of_ne (hn a List.mem_cons_self).2.symm,
        Function.update_of_ne (hn a List.mem_cons_self).1.symm]

/-- C67.  `border` asks for at least one pixel; then it colours the samples of the pixels on the border and no others. -/
theorem C67_border (c : Canvas) (hw : 0 ≤ c.width) (hh : 0 ≤ c.height) (color : Color) :
    (c.width = 0 ∨ c.height = 0 → c.border color = .error .assertion) ∧
    (c.width ≠ 0 ∧ c.height ≠ 0 → ∃ colors, c.border color = .ok { c with colors := colors } ∧
      (∀ t, c.Has t → colors (c.num t) =
        if t.1 = 0 ∨ t.1 = c.width - 1 ∨ t.2.1 = 0 ∨ t.2.1 = c.height - 1 then color else c.colors (c.num t)) ∧
      ∀ n, (∀ t, c.Has t → c.num t ≠ n) → colors n = c.colors n) := by
  constructor
  · intro h
    unfold Canvas.border
    rw [slowAssert, if_neg (by tauto)]
    rfl
  · intro h
    have hm1 : ∀ t : ℤ × ℤ, t ∈ ((upto 0 c.width).flatMap fun i => (upto 0 c.samples).map fun s => (i, s)) ↔
        (0 ≤ t.1 ∧ t.1 < c.width) ∧ 0 ≤ t.2 ∧ t.2 < c.samples := by
      rintro ⟨i, s⟩
      simp [mem_upto]
    have hm2 : ∀ t : ℤ × ℤ, t ∈ ((upto 0 c.height).flatMap fun i => (upto 0 c.samples).map fun s => (i, s)) ↔
        (0 ≤ t.1 ∧ t.1 < c.height) ∧ 0 ≤ t.2 ∧ t.2 < c.samples := by
      rintro ⟨i, s⟩
      simp [mem_upto]
    have q1 : ∀ a ∈ ((upto 0 c.width).flatMap fun i => (upto 0 c.samples).map fun s => (i, s)),
        c.Has (a.1, c.height - 1, a.2) ∧ c.Has (a.1, 0, a.2) := by
      intro a ha
      have := (hm1 a).mp ha
      constructor <;> simp only [Canvas.Has] <;> omega
    have q2 : ∀ a ∈ ((upto 0 c.height).flatMap fun i => (upto 0 c.samples).map fun s => (i, s)),
        c.Has (c.width - 1, a.1, a.2) ∧ c.Has (0, a.1, a.2) := by
      intro a ha
      have := (hm2 a).mp ha
      constructor <;> simp only [Canvas.Has] <;> omega
    obtain ⟨m1, e1, a1, b1, d1⟩ := foldlM_two (fun a : ℤ × ℤ => c.num (a.1, c.height - 1, a.2)) (fun a => c.num (a.1, 0, a.2))
      (fun a => c.index a.1 (c.height - 1) a.2) (fun a => c.index a.1 0 a.2) color _
      (fun a ha => c.index_eq (q1 a ha).1) (fun a ha => c.index_eq (q1 a ha).2) c.colors
    obtain ⟨m2, e2, a2, b2, d2⟩ := foldlM_two (fun a : ℤ × ℤ => c.num (c.width - 1, a.1, a.2)) (fun a => c.num (0, a.1, a.2))
      (fun a => c.index (c.width - 1) a.1 a.2) (fun a => c.index 0 a.1 a.2) color _
      (fun a ha => c.index_eq (q2 a ha).1) (fun a ha => c.index_eq (q2 a ha).2) m1
    refine ⟨m2, ?_, fun t ht => ?_, fun n hn => ?_⟩
    · unfold Canvas.border Canvas.store
      rw [slowAssert, if_pos h]
      simp only [bind, Except.bind] at e1 e2 ⊢
      rw [e1]
      simp only
      rw [e2]
      rfl
    · have ht' := ht
      unfold Canvas.Has at ht'
      split_ifs with hb
      · have hset1 : t.2.1 = 0 ∨ t.2.1 = c.height - 1 → m1 (c.num t) = color := by
          intro h
          have := a1 (t.1, t.2.2) ((hm1 _).mpr ⟨ht'.1, ht'.2.2⟩)
          rcases h with h | h
          · rw [← this.2, ← h]
          · rw [← this.1, ← h]
        have hset2 : t.1 = 0 ∨ t.1 = c.width - 1 → m2 (c.num t) = color := by
          intro h
          have := a2 (t.2.1, t.2.2) ((hm2 _).mpr ⟨ht'.2.1, ht'.2.2⟩)
          rcases h with h | h
          · rw [← this.2, ← h]
          · rw [← this.1, ← h]
        rcases b2 (c.num t) with h2 | h2
        · exact h2
        · rcases hb with h | h | h
          · exact hset2 (Or.inl h)
          · exact hset2 (Or.inr h)
          · rw [h2]; exact hset1 h
      · rw [d2 _ fun a ha => ⟨fun he => hb ?_, fun he => hb ?_⟩, d1 _ fun a ha => ⟨fun he => hb ?_, fun he => hb ?_⟩]
        · have := c.num_inj (q1 a ha).1 ht he
          rw [← this]; simp
        · have := c.num_inj (q1 a ha).2 ht he
          rw [← this]; simp
        · have := c.num_inj (q2 a ha).1 ht he
          rw [← this]; simp
        · have := c.num_inj (q2 a ha).2 ht he
          rw [← this]; simp
    · rw [d2 n fun a ha => ⟨hn _ (q2 a ha).1, hn _ (q2 a ha).2⟩, d1 n fun a ha => ⟨hn _ (q1 a ha).1, hn _ (q1 a ha).2⟩]

open Classical in
/-- What a sample at `z` that was `v` shows after the discs of a list have been painted in order. -/
noncomputable def Spec.paint (z : ℂ) (v : Color) (l : List Disc) : Color :=
  l.foldl (fun v d => if ‖z - d.center‖ ≤ d.radius then overlay d.color v else v) v

theorem paint_looks (z : ℂ) {v v' : Color} (h : Spec.Looks v v') (l : List Disc) : Spec.Looks (Spec.paint z v l) (Spec.paint z v' l) := by
  induction l generalizing v v' with
  | nil => exact h
  | cons d l ih =>
    simp only [Spec.paint, List.foldl_cons]
    refine ih ?_
    split_ifs
    · exact over_looks _ h
    · exact h

/-- C67.  Circles drawn one after the other: every sample shows the colours of the circles that contain it, in order. -/
theorem C67_draw (l : List Disc) (c : Canvas) (hc : Spec.CanvasOk c)
    (hl : ∀ d ∈ l, 0 ≤ d.radius ∧ Spec.Fits c (Spec.square d.center d.radius)) :
    ∃ colors, c.draw l = .ok { c with colors := colors } ∧
      (∀ t, c.Has t → Spec.Looks (colors (c.num t)) (Spec.paint (c.points (c.num t)) (c.colors (c.num t)) l)) ∧
      ∀ n, (∀ t, c.Has t → c.num t ≠ n) → colors n = c.colors n := by
  induction l generalizing c with
  | nil => exact ⟨c.colors, rfl, fun t _ => looks_refl _, fun _ _ => rfl⟩
  | cons d l ih =>
    have hd := hl d List.mem_cons_self
    obtain ⟨m, e, h1, h2, h3⟩ := C67_circle c hc d.center d.radius hd.1 d.color hd.2
    have hc' : Spec.CanvasOk { c with colors := m } := ⟨hc.dx, hc.width, hc.height, hc.samples, hc.size, hc.points⟩
    obtain ⟨m', e', h1', h2'⟩ := ih { c with colors := m } hc' fun d' hd' => hl d' (List.mem_cons_of_mem _ hd')
    refine ⟨m', ?_, fun t ht => ?_, fun n hn => (h2' n hn).trans (h3 n hn)⟩
    · unfold Canvas.draw at e' ⊢
      rw [List.foldlM_cons, e]
      exact e'
    · refine looks_trans (h1' t ht) ?_
      change Spec.Looks (Spec.paint (c.points (c.num t)) (m (c.num t)) l) _
      simp only [Spec.paint, List.foldl_cons]
      refine paint_looks _ ?_ l
      split_ifs with hz
      · rw [h1 t ht hz]
        exact looks_refl _
      · exact h2 t ht (not_le.mp hz)

/-- C67.  If the colours are opaque, then the last circle that contains a point is what is seen there, and where there is none, what was
there before. -/
theorem C67_paint (z : ℂ) (v : Color) (l : List Disc) (ho : ∀ d ∈ l, d.color.a = 1) :
    ((∀ d ∈ l, d.radius < ‖z - d.center‖) → Spec.paint z v l = v) ∧
    ∀ l₁ d l₂, l = l₁ ++ d :: l₂ → ‖z - d.center‖ ≤ d.radius → (∀ d' ∈ l₂, d'.radius < ‖z - d'.center‖) →
      Spec.paint z v l = d.color := by
  have hnone : ∀ (l : List Disc) (v : Color), (∀ d ∈ l, d.radius < ‖z - d.center‖) → Spec.paint z v l = v := by
    intro l
    induction l with
    | nil => exact fun _ _ => rfl
    | cons d l ih =>
      intro v h
      simp only [Spec.paint, List.foldl_cons]
      rw [if_neg (not_le.mpr (h d List.mem_cons_self))]
      exact ih v fun d' hd' => h d' (List.mem_cons_of_mem _ hd')
  refine ⟨hnone l v, ?_⟩
  rintro l₁ d l₂ rfl hz h2
  have : Spec.paint z v (l₁ ++ d :: l₂) = Spec.paint z (overlay d.color (Spec.paint z v l₁)) l₂ := by
    simp only [Spec.paint, List.foldl_append, List.foldl_cons]
    rw [if_pos hz]
  rw [this, hnone l₂ _ h2, (C67_over_clear d.color _).2.2 (ho d (by simp))]

theorem paint_valid (z : ℂ) (v : Color) (hv : Spec.ValidColor v) (l : List Disc) (hl : ∀ d ∈ l, Spec.ValidColor d.color) :
    Spec.ValidColor (Spec.paint z v l) := by
  induction l generalizing v with
  | nil => exact hv
  | cons d l ih =>
    simp only [Spec.paint, List.foldl_cons]
    refine ih _ ?_ fun d' hd' => hl d' (List.mem_cons_of_mem _ hd')
    split_ifs
    · exact (C67_over _ _ (hl d List.mem_cons_self) hv).1
    · exact hv

/-! ## The file -/

theorem rint_near (x : ℝ) : |(rint x : ℝ) - x| ≤ 1 / 2 := by
  have h1 := Int.floor_le x
  have h2 := Int.lt_floor_add_one x
  have h3 : Int.fract x = x - ⌊x⌋ := rfl
  unfold rint
  rw [abs_le]
  split_ifs with a b d <;> push_cast <;> rw [h3] at * <;> constructor <;> linarith

theorem rint_int (x : ℝ) (n : ℤ) (h1 : (n : ℝ) ≤ x) : n ≤ rint x := by
  have := Int.le_floor.mpr h1
  unfold rint
  split_ifs <;> omega

theorem rint_int' (x : ℝ) (n : ℤ) (h1 : x ≤ n) : rint x ≤ n := by
  unfold rint
  have h3 : Int.fract x = x - ⌊x⌋ := rfl
  have hle : ⌊x⌋ ≤ n := by exact_mod_cast (Int.floor_le x).trans h1
  by_cases he : ⌊x⌋ = n
  · have : Int.fract x = 0 := by
      rw [h3]
      have := Int.floor_le x
      rw [he] at this ⊢
      linarith
    rw [this]
    norm_num
    omega
  · split_ifs <;> omega

/-- C67.  A component between 0 and 1 becomes the nearest of 0, ..., 255, and ties go to the even one. -/
theorem C67_byte (x : ℝ) (hx : 0 ≤ x ∧ x ≤ 1) :
    ∃ n : ℤ, byte x = .ok n ∧ 0 ≤ n ∧ n ≤ 255 ∧ |(n : ℝ) - 255 * x| ≤ 1 / 2 ∧ (|(n : ℝ) - 255 * x| = 1 / 2 → n % 2 = 0) := by
  have h0 := rint_int (255 * x) 0 (by push_cast; linarith)
  have h1 := rint_int' (255 * x) 255 (by push_cast; linarith)
  refine ⟨rint (255 * x), ?_, h0, h1, rint_near _, fun h => ?_⟩
  · unfold byte
    rw [int_ok (by omega)]
    simp only [bind, Except.bind]
    congr 1
    omega
  · have h2 := Int.floor_le (255 * x)
    have h3 := Int.lt_floor_add_one (255 * x)
    have h4 : Int.fract (255 * x) = 255 * x - ⌊255 * x⌋ := rfl
    unfold rint at h ⊢
    split_ifs at h ⊢ with a b d
    · rw [abs_eq (by norm_num)] at h
      rw [h4] at a
      rcases h with h | h <;> linarith
    · rw [abs_eq (by norm_num)] at h
      rw [h4] at a b
      push_cast at h
      rcases h with h | h <;> linarith
    · exact d
    · omega

/-- The colours of the samples of a pixel. -/
def Spec.samplesOf (c : Canvas) (i j : ℤ) : List Color := (List.range c.samples.toNat).map fun s : ℕ => c.colors (c.num (i, j, (s : ℤ)))

theorem pixel_eq (c : Canvas) {i j : ℤ} (hi : 0 ≤ i ∧ i < c.width) (hj : 0 ≤ j ∧ j < c.height) (hs : 0 < c.samples) :
    c.pixel i j = .ok (Spec.samplesOf c i j) := by
  unfold Canvas.pixel Spec.samplesOf
  rw [c.index_eq (t := (i, j, 0)) ⟨hi, hj, le_refl _, hs⟩]
  simp only [bind, Except.bind]
  congr 1
  refine List.map_congr_left fun s _ => ?_
  congr 1
  have h1 : 0 ≤ i * c.height := mul_nonneg hi.1 (by omega)
  have h2 : 0 ≤ (i * c.height + j) * c.samples := mul_nonneg (by omega) (by omega)
  simp only [Canvas.num]
  omega

theorem mapM_ok {α β : Type} (f : α → Res β) (P : α → β → Prop) (l : List α) (h : ∀ a ∈ l, ∃ b, f a = .ok b ∧ P a b) :
    ∃ r, l.mapM f = .ok r ∧ List.Forall₂ P l r := by
  induction l with
  | nil => exact ⟨[], rfl, .nil⟩
  | cons a l ih =>
    obtain ⟨b, e, hb⟩ := h a List.mem_cons_self
    obtain ⟨r, e', hr⟩ := ih fun x hx => h x (List.mem_cons_of_mem _ hx)
    exact ⟨b :: r, by rw [List.mapM_cons, e, e']; rfl, .cons hb hr⟩

/-- The bytes of a row, four for each pixel. -/
def Spec.RowOf (c : Canvas) (j : ℤ) (row : List ℤ) : Prop :=
  (row.length : ℤ) = 4 * c.width ∧
  ∀ (i a : ℕ), (i : ℤ) < c.width → ∀ x, (average (Spec.samplesOf c i j)).comps[a]? = some x →
    ∃ n, row[4 * i + a]? = some n ∧ (0 ≤ n ∧ n ≤ 255) ∧ |(n : ℝ) - 255 * x| ≤ 1 / 2

theorem flatten_get {l : List (List ℤ)} (hl : ∀ x ∈ l, x.length = 4) {i a : ℕ} (ha : a < 4) {x : List ℤ} (hx : l[i]? = some x) :
    l.flatten[4 * i + a]? = x[a]? := by
  induction l generalizing i with
  | nil => simp at hx
  | cons y l ih =>
    have hy := hl y List.mem_cons_self
    rw [List.flatten_cons]
    cases i with
    | zero =>
      simp only [List.getElem?_cons_zero, Option.some.injEq] at hx
      subst hx
      rw [mul_zero, zero_add, List.getElem?_append_left (by omega)]
    | succ i =>
      rw [List.getElem?_append_right (by omega), hy, show 4 * (i + 1) + a - 4 = 4 * i + a by omega]
      exact ih (fun z hz => hl z (List.mem_cons_of_mem _ hz)) (by simpa using hx)

theorem flatten_len {l : List (List ℤ)} (hl : ∀ x ∈ l, x.length = 4) : l.flatten.length = 4 * l.length := by
  induction l with
  | nil => rfl
  | cons y l ih =>
    rw [List.flatten_cons, List.length_append, hl y List.mem_cons_self, ih fun z hz => hl z (List.mem_cons_of_mem _ hz), List.length_cons]
    omega

theorem upto_get (n : ℤ) (i : ℕ) (hi : (i : ℤ) < n) : (upto 0 n)[i]? = some (i : ℤ) := by
  unfold upto
  rw [List.getElem?_map, List.getElem?_range (by omega)]
  simp

theorem upto_length (n : ℤ) : (upto 0 n).length = n.toNat := by
  simp [upto]

theorem forall₂_get {α β : Type} {P : α → β → Prop} {l : List α} {r : List β} (h : List.Forall₂ P l r) {i : ℕ} {a : α}
    (ha : l[i]? = some a) : ∃ b, r[i]? = some b ∧ P a b := by
  induction h generalizing i with
  | nil => simp at ha
  | cons h _ ih =>
    cases i with
    | zero =>
      simp only [List.getElem?_cons_zero, Option.some.injEq] at ha
      subst ha
      exact ⟨_, rfl, h⟩
    | succ i => exact ih (by simpa using ha)

/-- C67.  The file has `height` rows of `width` pixels of four bytes, and each byte is the nearest one to 255 times the component of the
average of the samples of its pixel. -/
theorem C67_write (c : Canvas) (hw : 0 ≤ c.width) (hh : 0 ≤ c.height) (hs : 0 < c.samples)
    (hv : ∀ t, c.Has t → Spec.Visible (c.colors (c.num t))) :
    ∃ rows, c.write = .ok rows ∧ (rows.length : ℤ) = c.height ∧
      ∀ j : ℕ, (j : ℤ) < c.height → ∃ row, rows[j]? = some row ∧ Spec.RowOf c j row := by
  unfold Canvas.write
  obtain ⟨rows, e, h⟩ := mapM_ok (fun j => do
    let px ← (upto 0 c.width).mapM fun i => do
      let cs ← c.pixel i j
      if c.samples ≤ 0 then .error .ub else (average cs).comps.mapM byte
    .ok px.flatten) (fun j row => Spec.RowOf c j row) (upto 0 c.height) (by
      intro j hj
      rw [mem_upto] at hj
      obtain ⟨px, e, h⟩ := mapM_ok (fun i => do
          let cs ← c.pixel i j
          if c.samples ≤ 0 then .error .ub else (average cs).comps.mapM byte)
        (fun i p => List.Forall₂ (fun (x : ℝ) (n : ℤ) => (0 ≤ n ∧ n ≤ 255) ∧ |(n : ℝ) - 255 * x| ≤ 1 / 2)
          (average (Spec.samplesOf c i j)).comps p) (upto 0 c.width) (by
          intro i hi
          rw [mem_upto] at hi
          rw [pixel_eq c hi hj hs]
          simp only [bind, Except.bind]
          rw [if_neg (by omega)]
          have hval : Spec.ValidColor (average (Spec.samplesOf c i j)) := by
            refine (C67_average _ (fun x hx => ?_) ?_).1
            · simp only [Spec.samplesOf, List.mem_map, List.mem_range] at hx
              obtain ⟨s, h1, rfl⟩ := hx
              exact hv (i, j, (s : ℤ)) ⟨hi, hj, by simp, by simp; omega⟩
            · intro h0
              have := congrArg List.length h0
              simp [Spec.samplesOf] at this
              omega
          refine mapM_ok byte _ _ fun x hx => ?_
          have hx1 : 0 ≤ x ∧ x ≤ 1 := by
            simp only [Color.comps, List.mem_cons, List.not_mem_nil, or_false] at hx
            rcases hx with rfl | rfl | rfl | rfl
            · exact hval.2 0
            · exact hval.2 1
            · exact hval.2 2
            · exact hval.1
          obtain ⟨n, e, n0, n1, n2, -⟩ := C67_byte x hx1
          exact ⟨n, e, ⟨n0, n1⟩, n2⟩)
      have hlen : ∀ x ∈ px, x.length = 4 := by
        intro x hx
        obtain ⟨i, hi, hx⟩ : ∃ i, i < px.length ∧ px[i]? = some x := by
          obtain ⟨i, hi⟩ := List.mem_iff_getElem?.mp hx
          exact ⟨i, (List.getElem?_eq_some_iff.mp hi).1, hi⟩
        have hi' : i < (upto 0 c.width).length := by rw [h.length_eq]; exact hi
        rw [upto_length] at hi'
        obtain ⟨b, hb, hP⟩ := forall₂_get h (upto_get c.width i (by omega))
        rw [hx] at hb
        cases hb
        rw [← hP.length_eq]
        rfl
      refine ⟨px.flatten, ?_, ?_, ?_⟩
      · simp only [bind, Except.bind] at e ⊢
        rw [e]
      · rw [flatten_len hlen, ← h.length_eq, upto_length]
        push_cast
        omega
      · intro i a hi x hx
        obtain ⟨p, hp, hP⟩ := forall₂_get h (upto_get c.width i hi)
        obtain ⟨n, hn, hn'⟩ := forall₂_get hP hx
        have ha : a < 4 := by
          have := (List.getElem?_eq_some_iff.mp hx).1
          simpa [Color.comps] using this
        exact ⟨n, by rw [flatten_get hlen ha hp]; exact hn, hn'⟩)
  refine ⟨rows, e, ?_, fun j hj => forall₂_get h (upto_get c.height j hj)⟩
  rw [← h.length_eq, upto_length]
  omega

theorem samples_looks (c : Canvas) (colors : ℕ → Color) (h : ∀ t, c.Has t → Spec.Looks (c.colors (c.num t)) (colors (c.num t))) {i j : ℤ}
    (hi : 0 ≤ i ∧ i < c.width) (hj : 0 ≤ j ∧ j < c.height) :
    average (Spec.samplesOf c i j) = average (Spec.samplesOf { c with colors := colors } i j) := by
  refine average_looks _ _ ?_
  unfold Spec.samplesOf
  rw [List.forall₂_map_left_iff, List.forall₂_map_right_iff, List.forall₂_same]
  intro s hs
  rw [List.mem_range] at hs
  exact h (i, j, (s : ℤ)) ⟨hi, hj, by simp, by simp; omega⟩

theorem row_looks (c : Canvas) (colors : ℕ → Color) (h : ∀ t, c.Has t → Spec.Looks (c.colors (c.num t)) (colors (c.num t))) {j : ℕ}
    (hj : (j : ℤ) < c.height) {row : List ℤ} (hr : Spec.RowOf c j row) : Spec.RowOf { c with colors := colors } j row := by
  refine ⟨hr.1, fun i a hi x hx => hr.2 i a hi x ?_⟩
  rw [samples_looks c colors h ⟨by simp, hi⟩ ⟨by simp, hj⟩]
  exact hx

/-! ## The points -/

/-- The first `2 ^ k` terms of the map from the outside of the disc. -/
noncomputable def Spec.outer (f : ℕ → ℝ) (k : ℕ) (z : ℂ) : ℂ := z * ∑ n ∈ Finset.range (2 ^ k), (f n : ℂ) * z⁻¹ ^ n

theorem outer_conj (f : ℕ → ℝ) (k : ℕ) (z : ℂ) : Spec.outer f k ((starRingEnd ℂ) z) = (starRingEnd ℂ) (Spec.outer f k z) := by
  simp [Spec.outer, map_sum]

theorem turn_add (x y : ℝ) : Spec.turn (x + y) = Spec.turn x * Spec.turn y := by
  simp only [Spec.turn]
  rw [← Complex.exp_add]
  congr 1
  push_cast
  ring

theorem turn_pow (x : ℝ) (n : ℕ) : Spec.turn x ^ n = Spec.turn (n * x) := by
  simp only [Spec.turn]
  rw [← Complex.exp_nat_mul]
  congr 1
  push_cast
  ring

theorem turn_neg (x : ℝ) : Spec.turn (-x) = (Spec.turn x)⁻¹ := by
  simp only [Spec.turn]
  rw [← Complex.exp_neg]
  congr 1
  push_cast
  ring

theorem turn_conj (x : ℝ) : (starRingEnd ℂ) (Spec.turn x) = Spec.turn (-x) := by
  simp only [Spec.turn]
  rw [← Complex.exp_conj]
  congr 1
  simp [map_ofNat]

theorem turn_int (n : ℤ) : Spec.turn n = 1 := by
  simp only [Spec.turn]
  rw [Complex.exp_eq_one_iff]
  exact ⟨n, by push_cast; ring⟩

theorem turn_half : Spec.turn (1 / 2) = -1 := by
  simp only [Spec.turn]
  rw [← Complex.exp_pi_mul_I]
  congr 1
  push_cast
  ring

theorem cisTau_turn (x : ℝ) : cisTau x = Spec.turn x := by
  simp only [Spec.turn, cisTau]
  rw [show (2 * Real.pi * Complex.I * x : ℂ) = ((2 * Real.pi * x : ℝ) : ℂ) * Complex.I by push_cast; ring, Complex.exp_mul_I,
    ← Complex.ofReal_cos, ← Complex.ofReal_sin]
  apply Complex.ext <;> simp only [Complex.add_re, Complex.add_im, Complex.ofReal_re, Complex.ofReal_im, Complex.mul_re, Complex.mul_im,
    Complex.I_re, Complex.I_im] <;> ring

/-- The solutions of `z ^ N = -1` are the points in the middle between the roots of unity. -/
theorem roots_neg_one {N : ℕ} (hN : 0 < N) (z : ℂ) : z ^ N = -1 ↔ ∃ i < N, z = Spec.turn ((i + 1 / 2) / N) := by
  have hN' : (N : ℝ) ≠ 0 := by exact_mod_cast hN.ne'
  constructor
  · intro h
    have hw : Spec.turn (1 / 2 / N) ^ N = -1 := by
      rw [turn_pow, mul_div_cancel₀ _ hN', turn_half]
    have hw0 : Spec.turn (1 / 2 / N) ≠ 0 := Complex.exp_ne_zero _
    have hone : (z / Spec.turn (1 / 2 / N)) ^ N = 1 := by rw [div_pow, h, hw]; norm_num
    have hprim := Complex.isPrimitiveRoot_exp N hN.ne'
    have : NeZero N := ⟨hN.ne'⟩
    obtain ⟨i, hi, he⟩ := hprim.eq_pow_of_pow_eq_one hone
    refine ⟨i, hi, ?_⟩
    have hu : Complex.exp (2 * Real.pi * Complex.I / N) = Spec.turn (1 / N) := by
      simp only [Spec.turn]
      congr 1
      push_cast
      ring
    rw [hu, turn_pow] at he
    rw [eq_div_iff hw0] at he
    rw [← he, ← turn_add]
    congr 1
    ring
  · rintro ⟨i, -, rfl⟩
    rw [turn_pow, mul_div_cancel₀ _ hN', turn_add, show ((i : ℕ) : ℝ) = ((i : ℤ) : ℝ) by simp, turn_int, turn_half, one_mul]

/-- C67.  The circles of one pass: their centres are the values of the map, cut off after `2 ^ k` terms, at the `2 ^ k` solutions of
`z ^ (2 ^ k) = -1`. -/
theorem C67_discs (f : ℕ → ℝ) (junk : ℕ → ℂ) (k : ℕ) (hk : 2 ≤ k) (hlim : k < 30) (radius : ℝ) (color : Color) :
    ∃ l, discs f junk k radius color = .ok l ∧ l.length = 2 ^ k ∧ (∀ d ∈ l, d.radius = radius ∧ d.color = color) ∧
      ∀ w : ℂ, (∃ d ∈ l, d.center = w) ↔ ∃ z : ℂ, z ^ 2 ^ k = -1 ∧ w = Spec.outer f k z := by
  obtain ⟨y, e, hy⟩ := C22_srfft hk hlim junk (x := ⟨2 ^ k, f⟩) (le_refl _)
  have hhalf : 2 ^ k / 2 = 2 ^ (k - 1) := by
    obtain ⟨k, rfl⟩ : ∃ m, k = m + 1 := ⟨k - 1, by omega⟩
    rw [pow_succ, Nat.mul_div_cancel _ (by norm_num), Nat.add_sub_cancel]
  have hdbl : 2 * 2 ^ (k - 1) = 2 ^ k := by
    rw [← pow_succ', Nat.sub_add_cancel (by omega)]
  have hN : (0 : ℝ) < (2 ^ k : ℕ) := by exact_mod_cast Nat.two_pow_pos k
  set N : ℕ := 2 ^ k with hNdef
  have hval : ∀ i < 2 ^ (k - 1), cisTau (((i : ℕ) + 1 / 2 : ℝ) / (N : ℕ)) * y i = Spec.outer f k (Spec.turn ((i + 1 / 2) / N)) := by
    intro i hi
    rw [cisTau_turn, Spec.outer, hy i hi, Spec.polyAt]
    congr 1
    refine Finset.sum_congr rfl fun n hn => ?_
    rw [padded, if_pos (Finset.mem_range.mp hn)]
    congr 2
    rw [rootAt, ← turn_neg]
    congr 1
    push_cast
    field_simp
  unfold discs
  simp only [← hNdef]
  rw [hhalf, e]
  refine ⟨_, rfl, ?_, ?_, ?_⟩
  · simp [List.length_flatMap]
    omega
  · intro d hd
    simp only [List.mem_flatMap, List.mem_cons, List.not_mem_nil, or_false] at hd
    obtain ⟨i, -, rfl | rfl⟩ := hd <;> exact ⟨rfl, rfl⟩
  · intro w
    have hmir : ∀ i : ℕ, (starRingEnd ℂ) (Spec.turn (((i : ℝ) + 1 / 2) / N)) = Spec.turn (((N : ℝ) - 1 - i + 1 / 2) / N) := by
      intro i
      rw [turn_conj, show ((N : ℝ) - 1 - i + 1 / 2) / N = ((1 : ℤ) : ℝ) + -(((i : ℝ) + 1 / 2) / N) by field_simp; push_cast; ring, turn_add,
        turn_int, one_mul]
    constructor
    · rintro ⟨d, hd, rfl⟩
      simp only [List.mem_flatMap, List.mem_range, List.mem_cons, List.not_mem_nil, or_false] at hd
      obtain ⟨i, hi, rfl | rfl⟩ := hd
      · refine ⟨_, (roots_neg_one (Nat.two_pow_pos k) _).mpr ⟨i, by omega, rfl⟩, ?_⟩
        rw [← hval i hi, hNdef]
      · refine ⟨(starRingEnd ℂ) (Spec.turn (((i : ℝ) + 1 / 2) / N)), ?_, ?_⟩
        · rw [← map_pow, (roots_neg_one (Nat.two_pow_pos k) _).mpr ⟨i, by omega, rfl⟩]
          simp
        · rw [outer_conj, ← hval i hi, hNdef]
    · rintro ⟨z, hz, rfl⟩
      obtain ⟨i, hi, rfl⟩ := (roots_neg_one (Nat.two_pow_pos k) z).mp hz
      by_cases hi2 : i < 2 ^ (k - 1)
      · refine ⟨_, List.mem_flatMap.mpr ⟨i, List.mem_range.mpr hi2, List.mem_cons_self⟩, ?_⟩
        rw [← hval i hi2, hNdef]
      · refine ⟨_, List.mem_flatMap.mpr ⟨N - 1 - i, List.mem_range.mpr (by omega), List.mem_cons_of_mem _ List.mem_cons_self⟩, ?_⟩
        have hc : ((N - 1 - i : ℕ) : ℝ) = (N : ℝ) - 1 - i := by
          rw [Nat.cast_sub (by omega), Nat.cast_sub (by omega)]
          simp
        have h1 := hval (N - 1 - i) (by omega)
        have h2 := hmir (N - 1 - i)
        rw [hc] at h1 h2
        have h3 : Spec.turn (((i : ℝ) + 1 / 2) / N) = (starRingEnd ℂ) (Spec.turn (((N : ℝ) - 1 - i + 1 / 2) / N)) := by
          rw [h2]
          congr 1
          ring
        rw [h3, outer_conj, ← h1, ← hc, hNdef]

/-! ## The program -/

/-- The layers of the picture, from the lowest: number of points (as a power of two), radius and colour. -/
noncomputable def Spec.layers : List (ℕ × ℝ × (ℝ × ℝ × ℝ)) :=
  [(25, 1 / 1000, (0, 0, 1)), (20, 2 / 1000, (0, 0, 1)), (15, 3 / 1000, (0, 7 / 10, 2 / 10)), (10, 6 / 1000, (0, 2 / 10, 1)),
    (7, 1 / 100, (0, 1, 7 / 10)), (5, 2 / 100, (0, 9 / 10, 3 / 10))]

open Classical in
/-- What is seen at `z`, where `v` was before: the highest layer with a point that is near. -/
noncomputable def Spec.shown (f : ℕ → ℝ) (v : Color) (z : ℂ) : Color :=
  Spec.layers.foldl (fun v x =>
    if ∃ w : ℂ, w ^ 2 ^ x.1 = -1 ∧ ‖z - Spec.outer f x.1 w‖ ≤ x.2.1 then ⟨![x.2.2.1, x.2.2.2.1, x.2.2.2.2], 1⟩ else v) v

theorem outer_le (f : ℕ → ℝ) (B : ℝ) (hf : ∑ n ∈ Finset.range (2 ^ 25), |f n| ≤ B) {k : ℕ} (hk : k ≤ 25) {z : ℂ} (hz : z ^ 2 ^ k = -1) :
    ‖Spec.outer f k z‖ ≤ B := by
  have hn : ‖z‖ = 1 := by
    have h1 : ‖z‖ ^ 2 ^ k = 1 := by rw [← norm_pow, hz]; simp
    exact (pow_eq_one_iff_of_nonneg (norm_nonneg z) (Nat.two_pow_pos k).ne').mp h1
  rw [Spec.outer, norm_mul, hn, one_mul]
  refine (norm_sum_le _ _).trans (le_trans ?_ hf)
  have hsub : Finset.range (2 ^ k) ⊆ Finset.range (2 ^ 25) := Finset.range_mono (Nat.pow_le_pow_right (by norm_num) hk)
  refine le_trans ?_ (Finset.sum_le_sum_of_subset_of_nonneg hsub fun _ _ _ => abs_nonneg _)
  refine Finset.sum_le_sum fun n _ => ?_
  rw [norm_mul, Complex.norm_real, Real.norm_eq_abs, norm_pow, norm_inv, hn]
  simp

/-- One pass on the canvas of the program. -/
theorem pass_ok (f : ℕ → ℝ) (junk : ℕ → ℂ) (hf : ∑ n ∈ Finset.range (2 ^ 25), |f n| ≤ 1000) (c : Canvas) (hc : Spec.CanvasOk c)
    (hdx : c.dx = 2.28 / 256) (hre : |c.lo.re| ≤ 3) (him : |c.lo.im| ≤ 3) (k : ℕ) (hk : 2 ≤ k) (hk' : k ≤ 25) (r : ℝ) (hr : 0 ≤ r) (hr' : r ≤ 1)
    (color : Color) (ha : color.a = 1) :
    ∃ l colors, discs f junk k r color = .ok l ∧ c.draw l = .ok { c with colors := colors } ∧
      ∀ t, c.Has t → ∀ P : Prop, (P ↔ ∃ w : ℂ, w ^ 2 ^ k = -1 ∧ ‖c.points (c.num t) - Spec.outer f k w‖ ≤ r) →
        (P → Spec.Looks (colors (c.num t)) color) ∧ (¬P → Spec.Looks (colors (c.num t)) (c.colors (c.num t))) := by
  obtain ⟨l, e, -, h1, h2⟩ := C67_discs f junk k hk (by omega) r color
  have hfit : ∀ d ∈ l, 0 ≤ d.radius ∧ Spec.Fits c (Spec.square d.center d.radius) := by
    intro d hd
    rw [(h1 d hd).1]
    refine ⟨hr, ?_⟩
    obtain ⟨w, hw, he⟩ := (h2 d.center).mp ⟨d, hd, rfl⟩
    have hB := outer_le f 1000 hf hk' hw
    rw [← he] at hB
    have b1 := (Complex.abs_re_le_norm d.center).trans hB
    have b2 := (Complex.abs_im_le_norm d.center).trans hB
    rw [abs_le] at b1 b2 hre him
    have hfl : ∀ x : ℝ, |x| ≤ 1004 → -2 ^ 31 ≤ ⌊x / c.dx⌋ ∧ ⌊x / c.dx⌋ < 2 ^ 31 ∧ ⌊x / c.dx⌋ + 1 < 2 ^ 31 := by
      intro x hx
      rw [abs_le] at hx
      have hd0 := hc.dx
      have h3 : (-200000 : ℤ) ≤ ⌊x / c.dx⌋ := by
        rw [Int.le_floor, le_div_iff₀ hd0, hdx]
        push_cast
        linarith
      have h4 : ⌊x / c.dx⌋ < (200000 : ℤ) := by
        rw [Int.floor_lt, div_lt_iff₀ hd0, hdx]
        push_cast
        linarith
      omega
    unfold Spec.Fits Spec.square
    have p1 := hfl (d.center.re - r - c.lo.re) (by rw [abs_le]; constructor <;> linarith)
    have p2 := hfl (d.center.im - r - c.lo.im) (by rw [abs_le]; constructor <;> linarith)
    have p3 := hfl (d.center.re + r - c.lo.re) (by rw [abs_le]; constructor <;> linarith)
    have p4 := hfl (d.center.im + r - c.lo.im) (by rw [abs_le]; constructor <;> linarith)
    exact ⟨⟨p1.1, p1.2.1⟩, ⟨p2.1, p2.2.1⟩, ⟨p3.1, p3.2.2⟩, p4.1, p4.2.2⟩
  obtain ⟨colors, e', h3, -⟩ := C67_draw l c hc hfit
  refine ⟨l, colors, e, e', fun t ht P hP => ⟨fun h => ?_, fun h => ?_⟩⟩
  · refine looks_trans (h3 t ht) ?_
    obtain ⟨w, hw, hwr⟩ := hP.mp h
    obtain ⟨d, hd, hdc⟩ := (h2 _).mpr ⟨w, hw, rfl⟩
    have key : ∀ l : List Disc, (∀ d ∈ l, d.radius = r ∧ d.color = color) → ∀ v, (∃ d ∈ l, ‖c.points (c.num t) - d.center‖ ≤ r) ∨ v = color →
        Spec.paint (c.points (c.num t)) v l = color := by
      intro l
      induction l with
      | nil =>
        rintro - v (⟨d, hd, -⟩ | hv)
        · simp at hd
        · exact hv
      | cons d l ih =>
        intro hl v hv
        simp only [Spec.paint, List.foldl_cons]
        refine ih (fun d' hd' => hl d' (List.mem_cons_of_mem _ hd')) _ ?_
        have hdd := hl d List.mem_cons_self
        rw [hdd.1, hdd.2, (C67_over_clear color _).2.2 ha]
        by_cases hin : ‖c.points (c.num t) - d.center‖ ≤ r
        · rw [if_pos hin]; exact Or.inr rfl
        · rw [if_neg hin]
          rcases hv with ⟨d', hd', h'⟩ | hv
          · rcases List.mem_cons.mp hd' with rfl | hd'
            · exact absurd h' hin
            · exact Or.inl ⟨d', hd', h'⟩
          · exact Or.inr hv
    rw [key l h1 _ (Or.inl ⟨d, hd, by rw [hdc]; exact hwr⟩)]
    exact looks_refl _
  · refine looks_trans (h3 t ht) ?_
    rw [(C67_paint _ _ l fun d hd => by rw [(h1 d hd).2]; exact ha).1]
    · exact looks_refl _
    · intro d hd
      rw [(h1 d hd).1]
      obtain ⟨w, hw, he⟩ := (h2 d.center).mp ⟨d, hd, rfl⟩
      by_contra hle
      exact h (hP.mpr ⟨w, hw, by rw [← he]; exact not_lt.mp hle⟩)

/-- The six passes. -/
theorem passes_ok (f : ℕ → ℝ) (junkF : ℕ → ℕ → ℂ) (hf : ∑ n ∈ Finset.range (2 ^ 25), |f n| ≤ 1000)
    (l : List (ℕ × ℝ × (ℝ × ℝ × ℝ))) (hl : ∀ x ∈ l, (2 ≤ x.1 ∧ x.1 ≤ 25) ∧ 0 ≤ x.2.1 ∧ x.2.1 ≤ 1) (c : Canvas) (hc : Spec.CanvasOk c)
    (hdx : c.dx = 2.28 / 256) (hre : |c.lo.re| ≤ 3) (him : |c.lo.im| ≤ 3) :
    ∃ colors, ((l.map fun x => (x.1, x.2.1, rgba x.2.2.1 x.2.2.2.1 x.2.2.2.2 1)).foldlM (fun (c : Canvas) x => do
      let l ← discs f (junkF x.1) x.1 x.2.1 x.2.2
      c.draw l) c : Res Canvas) = .ok { c with colors := colors } ∧
      ∀ t, c.Has t → ∀ g : Color → (ℕ × ℝ × (ℝ × ℝ × ℝ)) → Color,
        (∀ v x, ((∃ w : ℂ, w ^ 2 ^ x.1 = -1 ∧ ‖c.points (c.num t) - Spec.outer f x.1 w‖ ≤ x.2.1) → g v x = ⟨![x.2.2.1, x.2.2.2.1, x.2.2.2.2], 1⟩) ∧
          (¬(∃ w : ℂ, w ^ 2 ^ x.1 = -1 ∧ ‖c.points (c.num t) - Spec.outer f x.1 w‖ ≤ x.2.1) → g v x = v)) →
        Spec.Looks (colors (c.num t)) (l.foldl g (c.colors (c.num t))) := by
  induction l generalizing c with
  | nil => exact ⟨c.colors, rfl, fun t _ _ _ => looks_refl _⟩
  | cons x l ih =>
    have hx := hl x List.mem_cons_self
    obtain ⟨ds, m, e1, e2, h⟩ := pass_ok f (junkF x.1) hf c hc hdx hre him x.1 hx.1.1 hx.1.2 x.2.1 hx.2.1 hx.2.2
      (rgba x.2.2.1 x.2.2.2.1 x.2.2.2.2 1) rfl
    have hc' : Spec.CanvasOk { c with colors := m } := ⟨hc.dx, hc.width, hc.height, hc.samples, hc.size, hc.points⟩
    obtain ⟨m', e', h'⟩ := ih (fun y hy => hl y (List.mem_cons_of_mem _ hy)) { c with colors := m } hc' hdx hre him
    refine ⟨m', ?_, fun t ht g hg => ?_⟩
    · rw [List.map_cons, List.foldlM_cons, e1]
      simp only [bind, Except.bind] at e' ⊢
      rw [e2]
      exact e'
    · refine looks_trans (h' t ht g hg) ?_
      rw [List.foldl_cons]
      have hstep : Spec.Looks (m (c.num t)) (g (c.colors (c.num t)) x) := by
        by_cases hp : ∃ w : ℂ, w ^ 2 ^ x.1 = -1 ∧ ‖c.points (c.num t) - Spec.outer f x.1 w‖ ≤ x.2.1
        · rw [(hg _ x).1 hp]
          exact (h t ht _ Iff.rfl).1 hp
        · rw [(hg _ x).2 hp]
          exact (h t ht _ Iff.rfl).2 hp
      have hfold : ∀ (l : List (ℕ × ℝ × (ℝ × ℝ × ℝ))) (v v' : Color), Spec.Looks v v' → Spec.Looks (l.foldl g v) (l.foldl g v') := by
        intro l
        induction l with
        | nil => exact fun _ _ h => h
        | cons y l ih2 =>
          intro v v' hv
          rw [List.foldl_cons, List.foldl_cons]
          refine ih2 _ _ ?_
          by_cases hp : ∃ w : ℂ, w ^ 2 ^ y.1 = -1 ∧ ‖c.points (c.num t) - Spec.outer f y.1 w‖ ≤ y.2.1
          · rw [(hg _ y).1 hp, (hg _ y).1 hp]
            exact looks_refl _
          · rw [(hg _ y).2 hp, (hg _ y).2 hp]
            exact hv
      exact hfold l _ _ hstep

theorem shown_valid (f : ℕ → ℝ) (v : Color) (hv : Spec.ValidColor v) (z : ℂ) : Spec.ValidColor (Spec.shown f v z) := by
  unfold Spec.shown
  have : ∀ (l : List (ℕ × ℝ × (ℝ × ℝ × ℝ))) (g : Color → (ℕ × ℝ × (ℝ × ℝ × ℝ)) → Color) (v : Color), Spec.ValidColor v →
      (∀ x ∈ l, ∀ v, g v x = v ∨ Spec.ValidColor (g v x)) → Spec.ValidColor (l.foldl g v) := by
    intro l g
    induction l with
    | nil => exact fun _ h _ => h
    | cons x l ih =>
      intro v hv h
      rw [List.foldl_cons]
      refine ih _ ?_ fun y hy => h y (List.mem_cons_of_mem _ hy)
      rcases h x List.mem_cons_self v with h | h
      · rw [h]; exact hv
      · exact h
  refine this _ _ _ hv fun x hx v => ?_
  split_ifs
  · right
    simp only [Spec.layers, List.mem_cons, List.not_mem_nil, or_false] at hx
    refine ⟨by norm_num, fun i => ?_⟩
    rcases hx with rfl | rfl | rfl | rfl | rfl | rfl <;> fin_cases i <;> norm_num
  · exact Or.inl rfl

theorem looks_visible {x y : Color} (h : Spec.Looks x y) (hy : Spec.ValidColor y) : Spec.Visible x :=
  ⟨by rw [h.1]; exact hy.1, fun h0 => by rw [h.2 h0]; exact hy.2⟩

theorem program_pixels : Spec.pixels ⟨⟨-2.01, -1.14⟩, ⟨0.5, 1.14⟩⟩ 256 ((0.5 : ℝ) - -2.01) = 282 ∧
    Spec.pixels ⟨⟨-2.01, -1.14⟩, ⟨0.5, 1.14⟩⟩ 256 ((1.14 : ℝ) - -1.14) = 256 := by
  unfold Spec.pixels
  simp only
  rw [min_eq_right (by norm_num)]
  constructor
  · rw [Int.ceil_eq_iff]
    constructor <;> norm_num
  · rw [div_self (by norm_num), mul_one]
    exact Int.ceil_intCast _

theorem bind_steps {X Y : Type} {a : Res X} {b : X → Res X} {w : X → Res Y} {c c' : X} (h1 : a = .ok c) (h2 : b c = .ok c') :
    (a >>= fun c => b c >>= fun c => w c) = w c' := by
  subst h1
  simp only [bind, Except.bind, h2]

/-- C67.  The program, for a series whose first `2 ^ 25` terms add up to at most 1000 in absolute value, and memory that held colours: it
writes 256 rows of 282 pixels.  The pixels cover the part of the plane from `-2.01 - 1.14 i` to `0.5 + 1.14 i`, and each byte is the nearest one
to the average, over 256 points of its pixel, of what is to be seen there: the highest layer with a point that is near, or the old content of
the memory. -/
theorem C67_logo (f : ℕ → ℝ) (hf : ∑ n ∈ Finset.range (2 ^ 25), |f n| ≤ 1000) (u : ℕ → ℝ) (hu : ∀ n, 0 ≤ u n ∧ u n < 1)
    (junkP : ℕ → ℂ) (junkC : ℕ → Color) (hj : ∀ n, Spec.ValidColor (junkC n)) (junkF : ℕ → ℕ → ℂ) :
    ∃ c rows, logo f u junkP junkC junkF = .ok rows ∧ Spec.CanvasOk c ∧ c.width = 282 ∧ c.height = 256 ∧ c.samples = 256 ∧
      (c.lo.re ≤ -2.01 ∧ 0.5 ≤ c.lo.re + c.dx * 282) ∧ (c.lo.im = -1.14 ∧ c.lo.im + c.dx * 256 = 1.14) ∧
      (∀ n, c.colors n = Spec.shown f (junkC n) (c.points n)) ∧
      rows.length = 256 ∧ ∀ j : ℕ, j < 256 → ∃ row, rows[j]? = some row ∧ Spec.RowOf c j row := by
  have hpx := program_pixels
  obtain ⟨c, e, hc, hcol, hsam, hw, hh, -, hdx, ⟨g1, g2⟩, ⟨g3, g4⟩, g5, g6⟩ := (C67_make ⟨⟨-2.01, -1.14⟩, ⟨0.5, 1.14⟩⟩ (by norm_num) (by norm_num)
    256 256 (by norm_num) (by norm_num) u hu junkP junkC).2 (by
      simp only
      rw [hpx.1, hpx.2]
      norm_num)
  simp only at hw hh hdx g1 g2 g3 g4 g5 g6
  rw [hpx.1] at hw
  rw [hpx.2] at hh
  rw [min_eq_right (by norm_num)] at hdx
  have hdx' : c.dx = 2.28 / 256 := by rw [hdx]; norm_num
  rw [hw] at g2 g5
  rw [hh] at g4 g6
  push_cast at g2 g4 g5 g6
  have him : c.lo.im = -1.14 := by rw [hdx'] at g6; linarith
  obtain ⟨m, e2, hm⟩ := passes_ok f junkF hf Spec.layers (by
      intro x hx
      simp only [Spec.layers, List.mem_cons, List.not_mem_nil, or_false] at hx
      rcases hx with rfl | rfl | rfl | rfl | rfl | rfl <;> norm_num) c hc hdx'
    (by rw [abs_le]; rw [hdx'] at g5; constructor <;> linarith) (by rw [him, abs_le]; constructor <;> norm_num)
  have hlook : ∀ t, c.Has t → Spec.Looks (m (c.num t)) (Spec.shown f (junkC (c.num t)) (c.points (c.num t))) := by
    intro t ht
    rw [← hcol]
    exact hm t ht _ fun v x => ⟨fun h => if_pos h, fun h => if_neg h⟩
  obtain ⟨rows, e3, hlen, hrows⟩ := C67_write { c with colors := m } hc.width hc.height (by rw [hsam]; norm_num)
    fun t ht => looks_visible (hlook t ht) (shown_valid f _ (hj _) _)
  have hpass : passes = Spec.layers.map fun x => (x.1, x.2.1, rgba x.2.2.1 x.2.2.2.1 x.2.2.2.2 1) := by
    simp only [passes, Spec.layers, List.map_cons, List.map_nil]
    norm_num
  refine ⟨{ c with colors := fun n => Spec.shown f (junkC n) (c.points n) }, rows, ?_,
    ⟨hc.dx, hc.width, hc.height, hc.samples, hc.size, hc.points⟩, hw, hh, hsam, ⟨g1, g2⟩, ⟨him, by rw [him, hdx']; norm_num⟩, fun _ => rfl, ?_, ?_⟩
  · rw [← hpass] at e2
    exact (bind_steps e e2).trans e3
  · have : (rows.length : ℤ) = c.height := hlen
    omega
  · intro j hj
    have hj' : (j : ℤ) < c.height := by omega
    obtain ⟨row, h1, h2⟩ := hrows j hj'
    exact ⟨row, h1, row_looks { c with colors := m } (fun n => Spec.shown f (junkC n) (c.points n)) hlook hj' h2⟩

theorem shown_far (v : Color) (z : ℂ) (hz : 1 < ‖z‖) : Spec.shown (fun _ => 0) v z = v := by
  have h0 : ∀ k w, Spec.outer (fun _ => 0) k w = 0 := by
    intro k w
    simp [Spec.outer]
  have key : ∀ (l : List (ℕ × ℝ × (ℝ × ℝ × ℝ))) (g : Color → (ℕ × ℝ × (ℝ × ℝ × ℝ)) → Color) (v : Color), (∀ x ∈ l, ∀ v, g v x = v) →
      l.foldl g v = v := by
    intro l g
    induction l with
    | nil => exact fun _ _ => rfl
    | cons x l ih =>
      intro v h
      rw [List.foldl_cons, h x List.mem_cons_self]
      exact ih v fun y hy => h y (List.mem_cons_of_mem _ hy)
  unfold Spec.shown
  refine key _ _ _ fun x hx v => if_neg ?_
  rintro ⟨w, -, hw⟩
  rw [h0, sub_zero] at hw
  simp only [Spec.layers, List.mem_cons, List.not_mem_nil, or_false] at hx
  rcases hx with rfl | rfl | rfl | rfl | rfl | rfl <;> norm_num at hw <;> linarith

theorem corner_alpha (v : Color) (hv : Spec.ValidColor v) (u : ℕ → ℝ) (hu : ∀ n, 0 ≤ u n ∧ u n < 1) (junkP : ℕ → ℂ) (junkF : ℕ → ℕ → ℂ) :
    ∃ (rows : List (List ℤ)) (row : List ℤ) (n : ℤ), logo (fun _ => 0) u junkP (fun _ => v) junkF = .ok rows ∧ rows[0]? = some row ∧ row[3]? = some n ∧
      |(n : ℝ) - 255 * v.a| ≤ 1 / 2 := by
  obtain ⟨c, rows, e, hc, hw, hh, hs, ⟨hlo, -⟩, ⟨him, hhi⟩, hcol, -, hrow⟩ := C67_logo (fun _ => 0) (by simp) u hu junkP (fun _ => v)
    (fun _ => hv) junkF
  obtain ⟨row, h1, -, h2⟩ := hrow 0 (by norm_num)
  have hsam : ∀ t, c.Has t → t.1 = 0 → c.colors (c.num t) = v := by
    intro t ht h0
    rw [hcol]
    refine shown_far v _ ?_
    have hp := (hc.points t ht).1.2
    rw [h0] at hp
    have hd : c.dx < 1 := by linarith
    have hre : (c.points (c.num t)).re < -1 := by
      push_cast at hp
      linarith
    have := Complex.abs_re_le_norm (c.points (c.num t))
    rw [abs_of_neg (by linarith)] at this
    linarith
  have havg : Spec.samplesOf c (0 : ℕ) (0 : ℕ) = List.replicate 256 v := by
    unfold Spec.samplesOf
    rw [hs, List.eq_replicate_iff]
    refine ⟨by simp, fun x hx => ?_⟩
    simp only [List.mem_map, List.mem_range] at hx
    obtain ⟨s, hlt, rfl⟩ := hx
    refine hsam _ ⟨by simp [hw], by simp [hh], by simp, ?_⟩ (by simp)
    rw [hs]
    change ((s : ℕ) : ℤ) < 256
    have : s < 256 := hlt
    exact_mod_cast this
  have ha : (average (Spec.samplesOf c (0 : ℕ) (0 : ℕ))).a = v.a := by
    have hvis : ∀ x ∈ Spec.samplesOf c (0 : ℕ) (0 : ℕ), Spec.Visible x := by
      intro x hx
      rw [havg, List.mem_replicate] at hx
      rw [hx.2]
      exact ⟨hv.1, fun _ => hv.2⟩
    have hne : Spec.samplesOf c (0 : ℕ) (0 : ℕ) ≠ [] := by
      rw [havg, ne_eq, List.replicate_eq_nil_iff]
      norm_num
    rw [(C67_average _ hvis hne).2.1, havg, List.map_replicate, List.sum_replicate, List.length_replicate, nsmul_eq_mul]
    field_simp
  obtain ⟨n, h3, -, h4⟩ := h2 0 3 (by omega) _ (show _ = some (average (Spec.samplesOf c (0 : ℕ) (0 : ℕ))).a by rfl)
  rw [ha] at h4
  exact ⟨rows, row, n, e, h1, h3, h4⟩

/-- C67.  The colours are never cleared: where no circle is, the file shows what the memory held before.  With the same series and the same
points, the program can write different pictures. -/
theorem C67_junk_witness (u : ℕ → ℝ) (hu : ∀ n, 0 ≤ u n ∧ u n < 1) (junkP : ℕ → ℂ) (junkF : ℕ → ℕ → ℂ) :
    ∃ junkC junkC' rows rows', logo (fun _ => 0) u junkP junkC junkF = .ok rows ∧ logo (fun _ => 0) u junkP junkC' junkF = .ok rows' ∧
      rows ≠ rows' := by
  obtain ⟨rows, row, n, e, h1, h2, h3⟩ := corner_alpha clear (by simp [Spec.ValidColor, clear]) u hu junkP junkF
  obtain ⟨rows', row', n', e', h1', h2', h3'⟩ := corner_alpha ⟨fun _ => 1, 1⟩ (by simp [Spec.ValidColor]) u hu junkP junkF
  refine ⟨_, _, rows, rows', e, e', fun h => ?_⟩
  subst h
  rw [h1] at h1'
  cases h1'
  rw [h2] at h2'
  cases h2'
  simp only [clear, mul_zero, sub_zero, mul_one] at h3 h3'
  rw [abs_le] at h3 h3'
  linarith [h3.2, h3'.1]

/-! ## Examples -/

/-- Half transparent red over opaque blue. -/
example : Spec.ValidColor (rgba 1 0 0 (1 / 2)) ∧ Spec.ValidColor (rgba 0 0 1 1) ∧
    overlay (rgba 1 0 0 (1 / 2)) (rgba 0 0 1 1) = rgba (1 / 2) 0 (1 / 2) 1 := by
  refine ⟨⟨by norm_num [rgba], fun i => by fin_cases i <;> norm_num [rgba]⟩, ⟨by norm_num [rgba], fun i => by fin_cases i <;> norm_num [rgba]⟩, ?_⟩
  simp only [overlay, rgba]
  norm_num
  funext i
  fin_cases i <;> norm_num

/-- A canvas of two pixels for a box twice as wide as high. -/
example : ∃ c, make ⟨0, ⟨2, 1⟩⟩ 1 1 (fun _ => 1 / 2) (fun _ => 0) (fun _ => clear) = .ok c ∧ c.width = 2 ∧ c.height = 1 := by
  have h1 : Spec.pixels ⟨0, ⟨2, 1⟩⟩ 1 (2 - 0) = 2 := by
    unfold Spec.pixels
    norm_num
  have h2 : Spec.pixels ⟨0, ⟨2, 1⟩⟩ 1 (1 - 0) = 1 := by
    unfold Spec.pixels
    norm_num
  obtain ⟨c, e, -, -, -, hw, hh, -⟩ := (C67_make ⟨0, ⟨2, 1⟩⟩ (by simp) (by simp) 1 1 (by norm_num) (by norm_num) (fun _ => 1 / 2)
    (by norm_num) (fun _ => 0) (fun _ => clear)).2 (by simp only [Complex.zero_re, Complex.zero_im]; rw [h1, h2]; norm_num)
  simp only [Complex.zero_re, Complex.zero_im] at hw hh
  exact ⟨c, e, hw.trans h1, hh.trans h2⟩

/-- A canvas of one pixel with one sample in its middle, for the examples that follow. -/
noncomputable def dot : Canvas := ⟨0, 1, 1, 1, 1, fun _ => ⟨1 / 2, 1 / 2⟩, fun _ => clear⟩

theorem dot_ok : Spec.CanvasOk dot := by
  refine ⟨by simp [dot], by simp [dot], by simp [dot], by simp [dot], by norm_num [dot], ?_⟩
  rintro ⟨i, j, s⟩ ⟨hi, hj, -⟩
  simp only [dot] at hi hj
  obtain rfl : i = 0 := by omega
  obtain rfl : j = 0 := by omega
  simp only [Spec.InPixel, dot]
  norm_num

theorem dot_has : dot.Has (0, 0, 0) := by simp [Canvas.Has, dot]

theorem dot_fits (r : ℝ) (hr : 0 ≤ r) (h : r ≤ 1000) : Spec.Fits dot (Spec.square ⟨1 / 2, 1 / 2⟩ r) := by
  have hfl : ∀ x : ℝ, |x| ≤ 1001 → -2 ^ 31 ≤ ⌊x⌋ ∧ ⌊x⌋ < 2 ^ 31 ∧ ⌊x⌋ + 1 < 2 ^ 31 := by
    intro x hx
    rw [abs_le] at hx
    have h1 : (-2000 : ℤ) ≤ ⌊x⌋ := by rw [Int.le_floor]; push_cast; linarith
    have h2 : ⌊x⌋ < (2000 : ℤ) := by rw [Int.floor_lt]; push_cast; linarith
    omega
  have p1 := hfl (1 / 2 - r) (by rw [abs_le]; constructor <;> linarith)
  have p2 := hfl (1 / 2 + r) (by rw [abs_le]; constructor <;> linarith)
  simp only [Spec.Fits, Spec.square, dot, Complex.zero_re, Complex.zero_im, sub_zero, div_one]
  exact ⟨⟨p1.1, p1.2.1⟩, ⟨p1.1, p1.2.1⟩, ⟨p2.1, p2.2.2⟩, p2.1, p2.2.2⟩

/-- A circle that meets the sample. -/
example : ∃ colors, dot.circle ⟨1 / 2, 1 / 2⟩ 1 (rgba 1 0 0 1) = .ok { dot with colors := colors } ∧ colors 0 = rgba 1 0 0 1 := by
  obtain ⟨m, e, h, -⟩ := C67_circle dot dot_ok ⟨1 / 2, 1 / 2⟩ 1 (by norm_num) (rgba 1 0 0 1) (dot_fits 1 (by norm_num) (by norm_num))
  have h0 := h (0, 0, 0) dot_has (by simp [dot])
  rw [(C67_over_clear _ _).2.2 rfl] at h0
  exact ⟨m, e, h0⟩

/-- A blob that meets the sample. -/
example : ∃ colors, dot.gaussian ⟨1 / 2, 1 / 2⟩ 1 (rgba 1 0 0 1) = .ok { dot with colors := colors } := by
  obtain ⟨m, e, -⟩ := C67_gaussian dot dot_ok ⟨1 / 2, 1 / 2⟩ 1 (by norm_num) (rgba 1 0 0 1) (dot_fits (5 * 1) (by norm_num) (by norm_num))
  exact ⟨m, e⟩

/-- The border of one pixel is the pixel. -/
example : ∃ colors, dot.border (rgba 1 0 0 1) = .ok { dot with colors := colors } ∧ colors 0 = rgba 1 0 0 1 := by
  obtain ⟨m, e, h, -⟩ := (C67_border dot (by simp [dot]) (by simp [dot]) (rgba 1 0 0 1)).2 (by simp [dot])
  have h0 := h (0, 0, 0) dot_has
  rw [if_pos (Or.inl rfl)] at h0
  exact ⟨m, e, h0⟩

/-- Two circles, of which the second hides the first, and the file. -/
example : ∃ c, dot.draw [⟨⟨1 / 2, 1 / 2⟩, 1, rgba 1 0 0 1⟩, ⟨⟨1 / 2, 1 / 2⟩, 2, rgba 0 1 0 1⟩] = .ok c ∧
    Spec.Looks (c.colors 0) (rgba 0 1 0 1) ∧ ∃ rows, c.write = .ok rows ∧ rows.length = 1 := by
  obtain ⟨m, e, h, -⟩ := C67_draw [⟨⟨1 / 2, 1 / 2⟩, 1, rgba 1 0 0 1⟩, ⟨⟨1 / 2, 1 / 2⟩, 2, rgba 0 1 0 1⟩] dot dot_ok (by
    intro d hd
    simp only [List.mem_cons, List.not_mem_nil, or_false] at hd
    rcases hd with rfl | rfl
    · exact ⟨by norm_num, dot_fits 1 (by norm_num) (by norm_num)⟩
    · exact ⟨by norm_num, dot_fits 2 (by norm_num) (by norm_num)⟩)
  have h0 := h (0, 0, 0) dot_has
  rw [(C67_paint _ _ [⟨⟨1 / 2, 1 / 2⟩, 1, rgba 1 0 0 1⟩, ⟨⟨1 / 2, 1 / 2⟩, 2, rgba 0 1 0 1⟩] (by simp [rgba])).2
    [⟨⟨1 / 2, 1 / 2⟩, 1, rgba 1 0 0 1⟩] ⟨⟨1 / 2, 1 / 2⟩, 2, rgba 0 1 0 1⟩ [] rfl (by simp [dot]) (by simp)] at h0
  have hval : Spec.ValidColor (rgba 0 1 0 1) := ⟨by norm_num [rgba], fun i => by fin_cases i <;> norm_num [rgba]⟩
  obtain ⟨rows, e', hl, -⟩ := C67_write { dot with colors := m } (by simp [dot]) (by simp [dot]) (by simp [dot]) (by
    rintro ⟨i, j, s⟩ ⟨hi, hj, hs⟩
    simp only [dot] at hi hj hs
    obtain rfl : i = 0 := by omega
    obtain rfl : j = 0 := by omega
    obtain rfl : s = 0 := by omega
    exact looks_visible h0 hval)
  refine ⟨_, e, h0, rows, e', ?_⟩
  have : (rows.length : ℤ) = 1 := hl
  exact_mod_cast this

/-- The series `1`, which draws points of the unit circle. -/
example : (∑ n ∈ Finset.range (2 ^ 25), |(if n = 0 then (1 : ℝ) else 0)| ≤ 1000) ∧
    ∀ z : ℂ, Spec.outer (fun n => if n = 0 then 1 else 0) 5 z = z := by
  constructor
  · rw [Finset.sum_eq_single 0]
    · simp
    · intro n _ hn
      simp [hn]
    · simp
  · intro z
    rw [Spec.outer, Finset.sum_eq_single 0]
    · simp
    · intro n _ hn
      simp [hn]
    · simp

end Mandelbrot.Props
