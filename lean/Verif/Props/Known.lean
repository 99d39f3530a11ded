import Verif.Known.Sums
import Verif.Known.RunB
import Verif.Props.MandelbrotArea
import Verif.Props.Check

/-!
# C68: the table of known areas is right

/repo/known.cc 28-45 is what the programs compare their results with (/repo/area.cc 20-39, /repo/arb_area.cc 131-136).  The table is a list of
constants, so whether it is right is one question with one answer; the answer is found here by the kernel, with rounding errors bounded
by a proof (`Verif/Known`), and then used for every run of either program.
-/

namespace Mandelbrot.Props

open _root_.Mandelbrot.IO Finset PowerSeries MeasureTheory Area Ser

/-- The real `x` lies in the ball that is written in the row. -/
def Spec.InRow (e : Known.Row) (x : ℝ) : Prop := |x - (e.digits : ℝ) / 10 ^ e.places| ≤ (e.radius : ℝ) / 10 ^ e.scale

/-- The ball `b` holds every number of the row for `k`: `arb_set_str` (not modelled) returns a ball that contains what the string says. -/
def Spec.Reads {A : Type} (mem : ℝ → A → Prop) (k : ℕ) (b : A) : Prop := ∀ e ∈ Known.areas, e.k = k → ∀ x, Spec.InRow e x → mem x b

theorem known_split : Known.areas = Known.areas.take 14 ++ Known.areas.drop 14 := (List.take_append_drop 14 _).symm

theorem known_small : ∀ e ∈ Known.areas.take 14, e.k ≤ 13 := by decide +kernel

theorem known_large : ∀ e ∈ Known.areas.drop 14, e.k ≤ 16 := by decide +kernel

/-- C68.  The rows are those for `k = 0, …, 16`, in this order, and there are as many as the programs ask for: row `k` is about `2^k` terms. -/
theorem C68_rows : Known.areas.map Known.Row.k = List.range knownAreas := by decide +kernel

theorem series_agree {k : ℕ} {g f : ℕ → ℝ} (hg : Spec.IsBottcher k g) (hf : Spec.IsExp (2 ^ k) g f) :
    constantCoeff (PowerSeries.mk f) = 1 ∧ Agree (2 ^ k) (Bottcher.Q (PowerSeries.mk f) k) 1 := by
  refine ⟨by rw [cc_mk]; exact hf.1 (Nat.two_pow_pos k), fun j hj => ?_⟩
  have h1 := congrFun (seqOf_Q (PowerSeries.mk f) k) j
  rw [seqOf_mk, hg.2 f hf j hj] at h1
  have h2 : coeff j (Bottcher.Q (PowerSeries.mk f) k) = Spec.one j := h1
  rw [h2, coeff_one, Spec.one]

theorem known_run {p K h : ℕ} {rows : List Known.Row} (hr : Known.run p K h rows = true) (hk : ∀ e ∈ rows, e.k ≤ K) {f : ℕ → ℝ}
    (hf : Spec.IsSeries f) : ∀ e ∈ rows, Spec.InRow e (Spec.gronwall f (2 ^ e.k)) := by
  intro e he
  unfold Known.run at hr
  generalize Known.newton p K = c at hr
  rw [Bool.and_eq_true, List.all_eq_true] at hr
  obtain ⟨g, h1, h2⟩ := hf K
  obtain ⟨h3, h4⟩ := series_agree h1 h2
  have := Known.fits_sound hr.1 (hr.2 e he) (hk e he) (PowerSeries.mk f) h3 h4
  simp only [coeff_mk] at this
  exact this

/-- C68.  Every row of the table holds the true value: Gronwall's sum over the first `2^k` terms of the Böttcher series lies in the ball that
is written there, for all seventeen rows with all of their digits. -/
theorem C68_table (f : ℕ → ℝ) (hf : Spec.IsSeries f) : ∀ e ∈ Known.areas, Spec.InRow e (Spec.gronwall f (2 ^ e.k)) := by
  intro e he
  rw [known_split, List.mem_append] at he
  rcases he with he | he
  · exact known_run Known.run_first known_small hf e he
  · exact known_run Known.run_last known_large hf e he

/-- C68.  The same from the finitely many terms that the program has at step `k`. -/
theorem C68_terms (k : ℕ) (g f : ℕ → ℝ) (hg : Spec.IsBottcher k g) (hf : Spec.IsExp (2 ^ k) g f) : ∀ e ∈ Known.areas, e.k = k →
    Spec.InRow e (Spec.gronwall f (2 ^ k)) := by
  rintro e he rfl
  obtain ⟨f₀, h0, -⟩ := C58_area_values
  have h1 := C68_table f₀ h0 e he
  have h2 : Spec.gronwall f (2 ^ e.k) = Spec.gronwall f₀ (2 ^ e.k) := by
    rw [Spec.gronwall, Spec.gronwall]
    congr 1
    refine sum_congr rfl fun i hi => ?_
    have h3 := series_tay hg hf i (mem_range.mp hi)
    rw [series_tay_all h0 i] at h3
    rw [show f i = f₀ i by exact_mod_cast h3.symm]
  rwa [h2]

theorem known_row {k : ℕ} (hk : k ≤ 16) : ∃ e ∈ Known.areas, e.k = k := by
  have h1 : k ∈ Known.areas.map Known.Row.k := by
    rw [C68_rows, List.mem_range, knownAreas]
    omega
  obtain ⟨e, h2, h3⟩ := List.mem_map.mp h1
  exact ⟨e, h2, h3⟩

/-- C68.  Two distinct numbers of one row are at most twice the radius apart, so nothing else than the true value up to the radius is let
through; the radii shrink no further than to these: each is below `4e-20`. -/
theorem C68_sharp : ∀ e ∈ Known.areas, ∀ x y : ℝ, Spec.InRow e x → Spec.InRow e y → |x - y| ≤ 8 / 10 ^ 20 := by
  have h : ∀ e ∈ Known.areas, e.radius * 10 ^ 20 ≤ 4 * 10 ^ e.scale := by decide +kernel
  intro e he x y hx hy
  have h1 : (e.radius : ℝ) / 10 ^ e.scale ≤ 4 / 10 ^ 20 := by
    rw [div_le_div_iff₀ (by positivity) (by positivity)]
    exact_mod_cast h e he
  have h2 := abs_sub_le x ((e.digits : ℝ) / 10 ^ e.places) y
  rw [abs_sub_comm ((e.digits : ℝ) / 10 ^ e.places) y] at h2
  unfold Spec.InRow at hx hy
  linarith

/-! ## What the comparison with the table means -/

section area

variable {K A : Type} {c : Check K A} {val : K → ℝ} {mem : ℝ → A → Prop} {tol : Dbl}

/-- C68.  An area that the program accepts at step `k ≤ 16` is at most the tolerance away from the true value, whatever the arithmetic. -/
theorem C68_accept (h : CheckSound c val mem) {k : ℕ} (hk : k ≤ 16) (hr : Spec.Reads mem k (c.table k)) {f : Ser K}
    (e : c.accept tol k true f = true) (f₀ : ℕ → ℝ) (hf : Spec.IsSeries f₀) :
    Spec.Within tol (val (c.area f)) (Spec.gronwall f₀ (2 ^ k)) := by
  obtain ⟨r, h1, rfl⟩ := known_row hk
  have := C60_accept h hk e (hr r h1 rfl _ (C68_table f₀ hf r h1))
  rwa [if_pos rfl] at this

variable [Zero K] [One K] [Add K] [Sub K] [Neg K] [Mul K] [Div K] [IntCast K] [Ldexp K] [DecidableEq K]

/-- C68.  Every file that a completed run of `area` writes for `k ≤ 16` carries an area that is at most the tolerance away from the true value
over `2^k` terms, whatever the arithmetic, the precision and the products are: no assumption is made on how accurately they compute. -/
theorem C68_files (B : Junk K) (mul addmul : ℕ → Span K → Span K → Res (ℕ → K)) (sqr : ℕ → Span K → Res (ℕ → K)) (h : CheckSound c val mem)
    (hr : ∀ k ≤ 16, Spec.Reads mem k (c.table k)) {J : Junk K} {env : Env K} (henv : env.accept = c.accept tol) {input : Option Str} {maxK : ℤ}
    {r : List (FileReq K) × Ser K} (e : areasMain (hostKer B mul addmul sqr) J env input true maxK = .ok r) (f₀ : ℕ → ℝ) (hf : Spec.IsSeries f₀) :
    ∀ q ∈ r.1, q.k ≤ maxK ∧ ∃ f : Ser K, q.comments.getLast? = some (kw "mu = " ++ env.muText f) ∧ (q.letter = 'f' → q.series = f) ∧
      (q.k ≤ 16 → Spec.Within tol (val (c.area f)) (Spec.gronwall f₀ (2 ^ q.k))) := by
  intro q hq
  obtain ⟨h1, f, h2, h3, h4⟩ := C60_files B mul addmul sqr h henv e q hq
  refine ⟨h1, f, h2, h3, fun hk => h4 hk _ ?_⟩
  obtain ⟨s, h5, h6⟩ := known_row hk
  have := C68_table f₀ hf s h5
  rw [h6] at this
  exact hr _ hk s h5 h6 _ this

end area

section arb

open ArbPoly Mandelbrot.Spec

variable {B : Type} {A : ArbPoly.Arb B} {mem : ℝ → B → Prop}

/-- C68.  The assertion of `arb_area` about the table never fails, and the program finishes for every number of steps up to 30. -/
theorem C68_arb (S : ArbSound A mem) (hI : Intervals mem) (known : ℕ → Option B) (hknown : ∀ k b, known k = some b → k < knownAreas ∧ Spec.Reads mem k b)
    (maxK : ℕ) (hk : maxK ≤ 30) : (∃ r, (arbAreas A true known maxK).2 = .ok r) ∧ (arbAreas A true known maxK).1.length = 2 * maxK := by
  refine C55_finishes S hI known (fun k b hb g f hg hf => ?_) maxK hk
  obtain ⟨h1, h2⟩ := hknown k b hb
  obtain ⟨e, h3, h4⟩ := known_row (k := k) (by rw [knownAreas] at h1; omega)
  exact h2 e h3 h4 _ (C68_terms k g f hg hf e h3 h4)

/-- C68.  The assertion lets every ball pass that contains the true value, so if it fails then the ball printed just before is wrong, in the code
as it is and in any version of it. -/
theorem C68_arb_accept (S : ArbSound A mem) (known : ℕ → Option B) (hknown : ∀ k b, known k = some b → k < knownAreas ∧ Spec.Reads mem k b)
    (f₀ : ℕ → ℝ) (hf : Spec.IsSeries f₀) (k : ℕ) (mu : B) (hm : mem (Spec.gronwall f₀ (2 ^ k)) mu) : accept A known k mu = true := by
  unfold accept
  cases hb : known k with
  | none => rfl
  | some b =>
    obtain ⟨h1, h2⟩ := hknown k b hb
    obtain ⟨e, h3, h4⟩ := known_row (k := k) (by rw [knownAreas] at h1; omega)
    have h5 := C68_table f₀ hf e h3
    rw [h4] at h5
    exact S.overlaps hm (h2 e h3 h4 _ h5)

/-- C68.  For the code as it is and with nothing assumed on the enclosures: if the run ends normally, every ball that it printed for `k ≤ 16`
has a point within `8e-20`, plus what `arb_set_str` adds to the balls of the table, of the true value. -/
theorem C68_arb_printed (skip : Bool) (known : ℕ → Option B) (δ : ℝ) (hov : ∀ a b, A.overlaps a b = true → ∃ x, mem x a ∧ mem x b)
    (hknown : ∀ k ≤ 16, ∃ b, known k = some b ∧ ∀ x, mem x b → ∀ e ∈ Known.areas, e.k = k → ∃ y, Spec.InRow e y ∧ |x - y| ≤ δ)
    (maxK : ℕ) (r : List B) (hr : (arbAreas A skip known maxK).2 = .ok r) (f₀ : ℕ → ℝ) (hf : Spec.IsSeries f₀) :
    (arbAreas A skip known maxK).1.length = 2 * maxK ∧ ∀ j b, (arbAreas A skip known maxK).1[j]? = some b → j / 2 + 1 ≤ 16 →
      ∃ x, mem x b ∧ |x - Spec.gronwall f₀ (2 ^ (j / 2 + 1))| ≤ 8 / 10 ^ 20 + δ := by
  obtain ⟨h1, h2⟩ := C55_checked skip known maxK r hr
  refine ⟨h1, fun j b hb hj => ?_⟩
  obtain ⟨b', h3, h4⟩ := hknown _ hj
  obtain ⟨x, h5, h6⟩ := hov _ _ (h2 j b b' hb h3)
  obtain ⟨e, h7, h8⟩ := known_row hj
  obtain ⟨y, h9, h10⟩ := h4 x h6 e h7 h8
  have h11 := C68_table f₀ hf e h7
  rw [h8] at h11
  have h12 := C68_sharp e h7 _ _ h9 h11
  exact ⟨x, h5, by linarith [abs_sub_le x y (Spec.gronwall f₀ (2 ^ (j / 2 + 1)))]⟩

end arb

/-! ## The area of the Mandelbrot set -/

/-- C68.  The last row bounds the area of the Mandelbrot set: it is at most 1.7533757723569263362. -/
theorem C68_area : volume Spec.mandelbrotSet ≤ ENNReal.ofReal 1.7533757723569263362 := by
  obtain ⟨f₀, h0, -⟩ := C58_area_values
  obtain ⟨g, h1, h2⟩ := h0 16
  refine (C65_upper 16 g f₀ h1 h2).trans (ENNReal.ofReal_le_ofReal ?_)
  have := C68_table f₀ h0 ⟨16, 2000, 17533757723569262997, 19, 364, 22⟩ (by simp [Known.areas])
  have := (abs_le.mp this).2
  norm_num at this ⊢
  linarith

/-! ## Examples -/

/-- There is such a series, and with it the row for `k = 14`. -/
example : ∃ f, Spec.IsSeries f ∧ |Spec.gronwall f (2 ^ 14) - 1.7863897165519852571| ≤ 2.07e-20 := by
  obtain ⟨f, h, -⟩ := C58_area_values
  have := C68_table f h ⟨14, 2000, 17863897165519852571, 19, 207, 22⟩ (by simp [Known.areas])
  unfold Spec.InRow at this
  norm_num at this ⊢
  exact ⟨f, h, this⟩

/-- Rows are no formality: a unit in the last digit of the row for `k = 15` upwards and the true value is outside. -/
example (f : ℕ → ℝ) (h : Spec.IsSeries f) : ¬ Spec.InRow ⟨15, 2000, 17668376741940830367, 19, 245, 22⟩ (Spec.gronwall f (2 ^ 15)) := by
  have h1 := C68_table f h ⟨15, 2000, 17668376741940830366, 19, 245, 22⟩ (by simp [Known.areas])
  intro h2
  have h1 := (abs_le.mp h1).2
  have h2 := (abs_le.mp h2).1
  norm_num at h1 h2
  linarith

/-- Intervals with the whole table: eighteen steps print 36 areas. -/
example : (ArbPoly.arbAreas exactIntervals true
    (fun k => if k < knownAreas then some {x | ∃ e ∈ Known.areas, e.k = k ∧ Spec.InRow e x} else none) 18).1.length = 36 := by
  refine (C68_arb C55_contract_met.1 C55_contract_met.2 _ (fun k b hb => ?_) 18 (by norm_num)).2
  by_cases h : k < knownAreas
  · rw [if_pos h, Option.some.injEq] at hb
    subst hb
    exact ⟨h, fun e h1 h2 x hx => ArbPoly.sub_hull ⟨e, h1, h2, hx⟩⟩
  · rw [if_neg h] at hb
    cases hb

end Mandelbrot.Props
