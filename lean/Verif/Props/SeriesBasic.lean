import Verif.Series.Bridge
import Verif.Series.CodeletLemmas
import Verif.Series.HistoryLemmas

/-!
# Properties of the basic series operations: C05-C11, C19
-/

set_option linter.unusedSectionVars false

namespace Mandelbrot

open PowerSeries Finset

/-- Rational coefficients, for the concrete cases beside the theorems. -/
instance : Ldexp ℚ := ⟨fun a b => a * 2 ^ b⟩

instance : Ser.LawfulLdexp ℚ := ⟨fun _ _ => rfl⟩

namespace Props

/-! ## C05: counts over histories -/

section C05

variable {K : Type} [Zero K] [One K] [Add K] [Sub K] [Neg K] [Mul K] [Div K] [IntCast K] [Ldexp K]
  [DecidableEq K]

/-- C05.  After any history that did not throw, every series has `0 ≤ nonzero() ≤ min(known(), limit())`,
whatever the coefficient arithmetic and the multiplication kernels do (so also for floating point). -/
theorem C05_counts (J : Junk K) (mul addmul : ℕ → Span K → Span K → Res (ℕ → K))
    (sqr : ℕ → Span K → Res (ℕ → K)) (ops : List (Junk K × SerOp K)) (hv : ∀ op ∈ ops, op.2.Valid)
    (junk : ℕ → ℕ → K) (σ : ℕ → Ser K)
    (h : Ser.run (hostKer J mul addmul sqr) (fun i => Ser.new 0 (junk i)) ops = .ok σ) (i : ℕ) :
    0 ≤ (σ i).nonzero ∧ (σ i).nonzero ≤ min (σ i).known (σ i).limit := by
  have g := Ser.run_good (Ser.hostKer_goodBases J mul addmul sqr) ops
    (fun i => Ser.new_good (by norm_num) (junk i)) hv h i
  exact ⟨g.wf.nonneg, le_min g.wf.le_known g.wf.le_limit⟩

/-- C05, one operation from any consistent state. -/
theorem C05_step (J J' : Junk K) (mul addmul : ℕ → Span K → Span K → Res (ℕ → K))
    (sqr : ℕ → Span K → Res (ℕ → K)) (σ σ' : ℕ → Ser K)
    (h0 : ∀ i, 0 ≤ (σ i).nonzero ∧ (σ i).nonzero ≤ min (σ i).known (σ i).limit ∧
      (σ i).known < 2 ^ 63 ∧ (σ i).limit < 2 ^ 63) (op : SerOp K) (hv : op.Valid)
    (h : Ser.step (hostKer J mul addmul sqr) J' σ op = .ok σ') (i : ℕ) :
    0 ≤ (σ' i).nonzero ∧ (σ' i).nonzero ≤ min (σ' i).known (σ' i).limit ∧
      (σ' i).known < 2 ^ 63 ∧ (σ' i).limit < 2 ^ 63 := by
  have g := Ser.step_good (Ser.hostKer_goodBases J mul addmul sqr)
    (fun i => (⟨⟨(h0 i).1, ((h0 i).2.1.trans (min_le_left _ _)), ((h0 i).2.1.trans (min_le_right _ _))⟩,
      (h0 i).2.2.2, (h0 i).2.2.1⟩ : (σ i).Good)) hv h i
  exact ⟨g.wf.nonneg, le_min g.wf.le_known g.wf.le_limit, g.known_lt, g.limit_lt⟩

/-- A non-trivial history: allocate, set a scalar, add a constant, lower `known`. -/
example : ∃ σ : ℕ → Ser ℚ, Ser.run (hostKer (fun _ _ => 7) naiveMul naiveMul fun n x => naiveMul n x x)
    (fun _ => Ser.new 0 fun _ => 7)
    [(fun _ _ => 7, .construct 0 4 fun _ => 9), (fun _ _ => 7, .setScalar 0 3 5),
      (fun _ _ => 7, .addScalar 0 1), (fun _ _ => 7, .setKnown 0 2)] = .ok σ ∧
    (σ 0).known = 2 ∧ (σ 0).nonzero = 1 ∧ (σ 0).limit = 4 ∧ (σ 0).data 0 = 6 :=
  ⟨_, rfl, rfl, rfl, rfl, by norm_num [Function.update, Ser.new, relu]⟩

/-- Why `set_counts` needs `known ≥ 0`: `x.set_counts(-1, 5)` on a series with two cells is accepted and
claims five stored terms. -/
theorem C05_setCounts_negative_known :
    ∃ (x y : Ser ℤ), x.limit = 2 ∧ x.setCounts (-1) 5 = .ok y ∧ y.nonzero > y.limit :=
  ⟨⟨2, 0, 0, fun _ => 0⟩, ⟨2, -1, 5, fun _ => 0⟩, rfl, rfl, by decide⟩

/-- With nonnegative arguments `set_counts` throws exactly when the counts would be inconsistent. -/
theorem C05_setCounts_throws (x : Ser K) (hl : 0 ≤ x.limit) (k z : ℤ)
    (hk : 0 ≤ k) (hz : 0 ≤ z) :
    x.setCounts k z = .error .assertion ↔ ¬ (z ≤ k ∧ z ≤ x.limit) := by
  have h1 : 0 ≤ min x.limit k := by omega
  unfold Ser.setCounts
  rw [toU64_of_nonneg hz, toU64_of_nonneg h1]
  by_cases h : z ≤ min x.limit k
  · rw [slowAssert_true h]
    constructor
    · intro e; cases e
    · intro h'; omega
  · rw [slowAssert_false h]
    constructor
    · intro _ h'; exact h (by omega)
    · intro _; rfl

end C05

variable {K : Type} [Field K]

/-! ## C06: views -/

/-- A step of taking views. -/
inductive ViewStep
  | low (n : ℤ)
  | high (n : ℕ)
  | view

/-- Take the views one after the other. -/
def takeViews (x : Ser K) : List ViewStep → Ser K
  | [] => x
  | .low n :: vs => takeViews (x.low n) vs
  | .high n :: vs => takeViews (x.high n) vs
  | .view :: vs => takeViews x.view vs

/-- The window `(offset, known)` that a sequence of truncations and shifts denotes. -/
def window : List ViewStep → ℕ × ℤ → ℕ × ℤ
  | [], w => w
  | .low n :: vs, w => window vs (w.1, min (max n 0) w.2)
  | .high n :: vs, w => window vs (w.1 + n, max (w.2 - n) 0)
  | .view :: vs, w => window vs w

/-- C06.  `low` truncates. -/
theorem C06_low (x : Ser K) (hx : x.WF) (n : ℤ) :
    (x.low n).known = min (max n 0) x.known ∧
    (∀ i : ℕ, (i : ℤ) < (x.low n).known → (x.low n).at i = x.at i) ∧
    (x.low n).nonzero = min (x.low n).known x.nonzero ∧
    ∀ i : ℕ, (i : ℤ) < (x.low n).nonzero → (i : ℤ) < x.nonzero ∧ (x.low n).data i = x.data i := by
  have h2 := hx.nonneg
  have h3 := hx.le_known
  refine ⟨rfl, fun i hi => ?_, rfl, fun i hi => ?_⟩
  · rw [← Ser.coeff_ps_at, ← Ser.coeff_ps_at]
    exact Ser.low_agree x n (m := i + 1) (by push_cast; omega) i (by omega)
  · rw [Ser.low_nonzero] at hi
    exact ⟨by omega, rfl⟩

/-- C06.  `high` shifts. -/
theorem C06_high (x : Ser K) (n : ℕ) :
    (x.high n).known = max (x.known - n) 0 ∧
    (∀ i : ℕ, (x.high n).at i = x.at (i + n)) ∧
    (x.high n).nonzero = max (x.nonzero - n) 0 ∧
    ∀ i : ℕ, (i : ℤ) < (x.high n).nonzero →
      ((i + n : ℕ) : ℤ) < x.nonzero ∧ (x.high n).data i = x.data (i + n) := by
  refine ⟨Ser.high_known x n, fun i => ?_, Ser.high_nonzero x n, fun i hi => ?_⟩
  · rw [← Ser.coeff_ps_at, ← Ser.coeff_ps_at, Ser.coeff_high]
  · rw [Ser.high_nonzero] at hi
    unfold relu at hi
    exact ⟨by push_cast; omega, by simp [Ser.high, relu_of_nonneg]⟩

/-- C06.  `high` of a nonpositive count is the whole series. -/
theorem C06_high_neg (x : Ser K) (hx : x.WF) (n : ℤ) (hn : n ≤ 0) :
    (x.high n).known = x.known ∧ (x.high n).nonzero = x.nonzero ∧ ∀ i, (x.high n).at i = x.at i := by
  have h2 := hx.nonneg
  have h3 := hx.le_known
  have e : relu n = 0 := relu_of_nonpos hn
  refine ⟨?_, ?_, fun i => ?_⟩
  · simp only [Ser.high, e]; unfold relu; omega
  · simp only [Ser.high, e]; unfold relu; omega
  · simp only [Ser.at, Ser.high, e, Int.toNat_zero, add_zero, sub_zero, relu_of_nonneg h2]

/-- C06.  Every composition of views denotes the composed window, and every cell it can read is a stored
cell of the original series. -/
theorem C06_views (vs : List ViewStep) (x : Ser K) (hx : x.WF) :
    (takeViews x vs).known = (window vs (0, x.known)).2 ∧
    (∀ i : ℕ, (i : ℤ) < (takeViews x vs).known →
      (takeViews x vs).at i = x.at (i + (window vs (0, x.known)).1)) ∧
    (∀ i : ℕ, (i : ℤ) < (takeViews x vs).nonzero →
      ((i + (window vs (0, x.known)).1 : ℕ) : ℤ) < x.nonzero ∧
      (takeViews x vs).data i = x.data (i + (window vs (0, x.known)).1)) := by
  have main : ∀ (vs : List ViewStep) (y : Ser K) (o : ℕ), y.WF →
      (∀ i : ℕ, (i : ℤ) < y.known → y.at i = x.at (i + o)) →
      (∀ i : ℕ, (i : ℤ) < y.nonzero → ((i + o : ℕ) : ℤ) < x.nonzero ∧ y.data i = x.data (i + o)) →
      (takeViews y vs).known = (window vs (o, y.known)).2 ∧
      (∀ i : ℕ, (i : ℤ) < (takeViews y vs).known →
        (takeViews y vs).at i = x.at (i + (window vs (o, y.known)).1)) ∧
      (∀ i : ℕ, (i : ℤ) < (takeViews y vs).nonzero →
        ((i + (window vs (o, y.known)).1 : ℕ) : ℤ) < x.nonzero ∧
        (takeViews y vs).data i = x.data (i + (window vs (o, y.known)).1)) := by
    intro vs
    induction vs with
    | nil => intro y o _ h1 h2; exact ⟨rfl, h1, h2⟩
    | cons v vs ih =>
      intro y o hy h1 h2
      cases v with
      | low n =>
        obtain ⟨e1, e2, e3, e4⟩ := C06_low y hy n
        have := ih (y.low n) o (Ser.low_wf hy n)
          (fun i hi => by rw [e2 i hi, h1 i (by omega)])
          (fun i hi => by
            obtain ⟨h5, h6⟩ := e4 i hi
            obtain ⟨h7, h8⟩ := h2 i h5
            exact ⟨h7, h6.trans h8⟩)
        rw [e1] at this
        exact this
      | high n =>
        obtain ⟨e1, e2, e3, e4⟩ := C06_high y n
        have := ih (y.high n) (o + n) (Ser.high_wf hy n)
          (fun i hi => by rw [e2 i, h1 (i + n) (by push_cast; omega)]; congr 1; omega)
          (fun i hi => by
            obtain ⟨h5, h6⟩ := e4 i hi
            obtain ⟨h7, h8⟩ := h2 (i + n) h5
            rw [show i + n + o = i + (o + n) by omega] at h7 h8
            exact ⟨h7, h6.trans h8⟩)
        rw [e1] at this
        exact this
      | view => exact ih y.view o ⟨hy.nonneg, hy.le_known, le_rfl⟩ h1 h2
  exact main vs x 0 hx (fun i _ => rfl) (fun i hi => ⟨by simpa using hi, rfl⟩)

example : ∃ x : Ser ℚ, x.WF ∧ (takeViews x [.high 2, .low 5, .high 1]).known = 4 ∧
    (takeViews x [.high 2, .low 5, .high 1]).at 1 = 4 := by
  refine ⟨⟨10, 10, 6, fun i => i⟩, ⟨by norm_num, by norm_num, by norm_num⟩, ?_, ?_⟩
  · have := (C06_views [.high 2, .low 5, .high 1] (⟨10, 10, 6, fun i => i⟩ : Ser ℚ)
      ⟨by norm_num, by norm_num, by norm_num⟩).1
    rw [this]; rfl
  · norm_num [takeViews, Ser.at, Ser.low, Ser.high, relu, show Int.toNat 2 = 2 from rfl]

/-! ## C07: assignment and copy -/

/-- C07.  Assignment throws exactly when the destination cannot hold the stored terms. -/
theorem C07_assign_throws (x g : Ser K) : (∃ y, x.assign g = .ok y) ↔ g.nonzero ≤ x.limit := by
  constructor
  · rintro ⟨y, h⟩
    obtain ⟨u, h1, _⟩ := Ser.bind_eq_ok h
    exact Ser.slowAssert_ok h1
  · intro h
    simp only [Ser.assign, slowAssert, ge_iff_le, if_pos h]
    exact ⟨_, rfl⟩

/-- C07.  A successful assignment reproduces the source. -/
theorem C07_assign (x g y : Ser K) (hg : g.WF) (h : x.assign g = .ok y) :
    y.limit = x.limit ∧ y.known = g.known ∧ y.nonzero = g.nonzero ∧ (∀ i, y.at i = g.at i) ∧
    ∀ i : ℕ, g.nonzero ≤ i → y.data i = x.data i := by
  have hl := (C07_assign_throws x g).mp ⟨y, h⟩
  obtain ⟨y', e, h1, h2, h3, _, h5⟩ := Ser.assign_spec hg hl
  obtain ⟨u, _, h6⟩ := Ser.bind_eq_ok h
  rw [h] at e
  cases e
  refine ⟨h1, h2, h3, fun i => by rw [← Ser.coeff_ps_at, h5, Ser.coeff_ps_at], fun i hi => ?_⟩
  cases h6
  exact if_neg (by omega)

/-- C07.  `copy` into fresh storage: throws exactly when the limit is too small, else equal. -/
theorem C07_copy (g : Ser K) (hg : g.WF) (limit : ℤ) (junk : ℕ → K) :
    ((∃ y, g.copy limit junk = .ok y) ↔ g.nonzero ≤ max limit 0) ∧
    ∀ y, g.copy limit junk = .ok y → y.limit = max limit 0 ∧ y.known = g.known ∧
      y.nonzero = g.nonzero ∧ ∀ i, y.at i = g.at i := by
  refine ⟨C07_assign_throws _ _, fun y h => ?_⟩
  obtain ⟨h1, h2, h3, h4, _⟩ := C07_assign _ _ _ hg h
  exact ⟨h1, h2, h3, h4⟩

section
variable [Ldexp K] [DecidableEq K]

/-- C07.  `swap` exchanges two series, `move` transfers one and leaves an empty one; others keep
their value. -/
theorem C07_swap_move (ker : Ker K) (J : Junk K) (σ : ℕ → Ser K) (i j : ℕ) :
    (∃ σ', Ser.step ker J σ (.swap i j) = .ok σ' ∧ σ' i = σ j ∧ σ' j = σ i ∧
      ∀ k, k ≠ i → k ≠ j → σ' k = σ k) ∧
    (i ≠ j → ∃ σ', Ser.step ker J σ (.move i j) = .ok σ' ∧ σ' i = σ j ∧ (σ' j).limit = 0 ∧
      (σ' j).known = 0 ∧ (σ' j).nonzero = 0 ∧ ∀ k, k ≠ i → k ≠ j → σ' k = σ k) := by
  refine ⟨⟨_, rfl, ?_, ?_, ?_⟩, fun hij => ⟨_, rfl, ?_, ?_, ?_, ?_, ?_⟩⟩
  · by_cases h : i = j
    · subst h; simp
    · simp [Function.update_of_ne h]
  · simp
  · intro k h1 h2; simp [Function.update_of_ne h1, Function.update_of_ne h2]
  · simp
  · simp [Function.update_of_ne (Ne.symm hij), Ser.cleared]
  · simp [Function.update_of_ne (Ne.symm hij), Ser.cleared]
  · simp [Function.update_of_ne (Ne.symm hij), Ser.cleared]
  · intro k h1 h2; simp [Function.update_of_ne h1, Function.update_of_ne h2]

end

example : ∃ y : Ser ℚ, (⟨3, 0, 0, fun _ => 9⟩ : Ser ℚ).assign ⟨2, 5, 2, fun i => i + 1⟩ = .ok y ∧
    y.at 1 = 2 ∧ y.at 2 = 0 ∧ y.data 2 = 9 := ⟨_, rfl, by norm_num [Ser.at], by norm_num [Ser.at], rfl⟩

/-! ## C08: shifted addition -/

section C08

variable [Ldexp K] [Ser.LawfulLdexp K]

/-- C08.  `y.high_addsub_ldexp(sign, b, s, x)` is `y + sign 2^b z^s x`, for every storage content past the
stored terms. -/
theorem C08_addsub (y x : Ser K) (hy : y.WF) (hx : x.WF) (sign : ℤ) (hs : sign = 1 ∨ sign = -1)
    (b : ℤ) (s : ℕ)
    (hl : min (min y.known (x.known + s)) (max y.nonzero (if x.nonzero = 0 then 0 else x.nonzero + s))
      ≤ y.limit) :
    ∃ y' : Ser K, y.highAddsubLdexp sign b s x = .ok y' ∧ y'.limit = y.limit ∧
      y'.known = min y.known (x.known + s) ∧
      y'.nonzero = min y'.known (max y.nonzero (if x.nonzero = 0 then 0 else x.nonzero + s)) ∧
      (∀ i : ℕ, (i : ℤ) < y'.known →
        y'.at i = y.at i + (sign : K) * 2 ^ b * Spec.shift s x.at i) ∧
      (∀ i : ℕ, (i : ℤ) < y'.known → i < s → y'.at i = y.at i) := by
  have e : (if x.nonzero = 0 then 0 else x.nonzero + s) = if x.nonzero ≠ 0 then x.nonzero + s else 0 := by
    split_ifs <;> simp_all
  rw [e] at hl ⊢
  obtain ⟨y', e, h1, h2, h3, _, h5⟩ := Ser.highAddsubLdexp_spec hy hx hs b s hl
  have main : ∀ i : ℕ, (i : ℤ) < y'.known →
        y'.at i = y.at i + (sign : K) * 2 ^ b * Spec.shift s x.at i := by
    intro i hi
    have := h5 (i + 1) (by push_cast; omega) i (by omega)
    rw [map_add, ← mul_assoc, mul_comm (X ^ s), mul_assoc, coeff_C_mul, Ser.coeff_ps_at, Ser.coeff_ps_at] at this
    rw [this, ← Ser.seqOf_ps x, ← seqOf_shift]
    rfl
  refine ⟨y', e, h1, h2, h3, main, fun i hi his => ?_⟩
  rw [main i hi]
  simp [Spec.shift, his]

/-- C08.  It throws exactly for a wrong sign or a destination that is too small. -/
theorem C08_throws (y x : Ser K) (hy : y.WF) (hx : x.WF) (sign b : ℤ) (s : ℕ) :
    (∃ y', y.highAddsubLdexp sign b s x = .ok y') ↔ (sign = 1 ∨ sign = -1) ∧
      min (min y.known (x.known + s)) (max y.nonzero (if x.nonzero = 0 then 0 else x.nonzero + s))
        ≤ y.limit := by
  constructor
  · rintro ⟨y', h⟩
    obtain ⟨u, h1, _⟩ := Ser.bind_eq_ok h
    have := Ser.slowAssert_ok h1
    refine ⟨this.1, ?_⟩
    have h2 := this.2
    split_ifs at h2 ⊢ <;> simp_all
  · rintro ⟨h1, h2⟩
    obtain ⟨y', e, _⟩ := C08_addsub y x hy hx sign h1 b s h2
    exact ⟨y', e⟩

/-- C08.  The operators: `y.high_add(s, x)`, `y.high_sub(s, x)`, `y.high_add_ldexp(s, b, x)`, and `+=`,
`-=` (`s = 0`). -/
theorem C08_operators (y x : Ser K) (hy : y.WF) (hx : x.WF) (s : ℕ) (b : ℤ)
    (hl : min (min y.known (x.known + s)) (max y.nonzero (if x.nonzero = 0 then 0 else x.nonzero + s))
      ≤ y.limit) :
    (∃ y' : Ser K, y.highAdd s x = .ok y' ∧ y'.known = min y.known (x.known + s) ∧
      ∀ i : ℕ, (i : ℤ) < y'.known → y'.at i = y.at i + Spec.shift s x.at i) ∧
    (∃ y' : Ser K, y.highSub s x = .ok y' ∧ y'.known = min y.known (x.known + s) ∧
      ∀ i : ℕ, (i : ℤ) < y'.known → y'.at i = y.at i - Spec.shift s x.at i) ∧
    (∃ y' : Ser K, y.highAddLdexp s b x = .ok y' ∧ y'.known = min y.known (x.known + s) ∧
      ∀ i : ℕ, (i : ℤ) < y'.known → y'.at i = y.at i + 2 ^ b * Spec.shift s x.at i) ∧
    (s = 0 → ∃ y' : Ser K, y.addAssign x = .ok y' ∧ y'.known = min y.known x.known ∧
      ∀ i : ℕ, (i : ℤ) < y'.known → y'.at i = y.at i + x.at i) ∧
    (s = 0 → ∃ y' : Ser K, y.subAssign x = .ok y' ∧ y'.known = min y.known x.known ∧
      ∀ i : ℕ, (i : ℤ) < y'.known → y'.at i = y.at i - x.at i) := by
  have h1 := C08_addsub y x hy hx 1 (Or.inl rfl) 0 s hl
  have h2 := C08_addsub y x hy hx (-1) (Or.inr rfl) 0 s hl
  have h3 := C08_addsub y x hy hx 1 (Or.inl rfl) b s hl
  obtain ⟨y1, e1, _, k1, _, a1, _⟩ := h1
  obtain ⟨y2, e2, _, k2, _, a2, _⟩ := h2
  obtain ⟨y3, e3, _, k3, _, a3, _⟩ := h3
  refine ⟨⟨y1, e1, k1, fun i hi => ?_⟩, ⟨y2, e2, k2, fun i hi => ?_⟩, ⟨y3, e3, k3, fun i hi => ?_⟩,
    ?_, ?_⟩
  · rw [a1 i hi]; push_cast; ring
  · rw [a2 i hi]; push_cast; ring
  · rw [a3 i hi]; push_cast; ring
  · rintro rfl
    refine ⟨y1, e1, by simpa using k1, fun i hi => ?_⟩
    rw [a1 i hi]; simp [Spec.shift]
  · rintro rfl
    refine ⟨y2, e2, by simpa using k2, fun i hi => ?_⟩
    rw [a2 i hi]; simp [Spec.shift, sub_eq_add_neg]

example : ∃ y' : Ser ℚ, (⟨9, 5, 2, fun i => i + 1⟩ : Ser ℚ).highAddsubLdexp (-1) 3 1
    ⟨9, 6, 2, fun i => i + 5⟩ = .ok y' ∧ y'.known = 5 ∧ y'.at 2 = -48 := by
  obtain ⟨y', e, _, h2, _, h4, _⟩ := C08_addsub (⟨9, 5, 2, fun i => i + 1⟩ : Ser ℚ)
    ⟨9, 6, 2, fun i => i + 5⟩ ⟨by norm_num, by norm_num, by norm_num⟩
    ⟨by norm_num, by norm_num, by norm_num⟩ (-1) (Or.inr rfl) 3 1 (by norm_num)
  have hk : y'.known = 5 := by rw [h2]; norm_num
  refine ⟨y', e, hk, ?_⟩
  rw [h4 2 (by rw [hk]; norm_num)]
  norm_num [Ser.at, Spec.shift]

/-- C08.  A negative shift is not rejected and can leave `known()` negative. -/
theorem C08_negative_shift :
    ∃ y' : Ser ℚ, (⟨4, 4, 0, fun _ => 0⟩ : Ser ℚ).highAddsubLdexp 1 0 (-3) ⟨0, 1, 0, fun _ => 0⟩ = .ok y' ∧
      y'.known < 0 := ⟨⟨4, -2, -2, _⟩, rfl, by norm_num⟩

end C08

/-! ## C09, C10, C11: products -/

/-- C09.  `mul` is the truncated product. -/
theorem C09_mul {ker : Ker K} {N : ℕ} (hker : ker.ExactMul N) (z x y : Ser K) (hx : x.WF) (hy : y.WF)
    (hx1 : 1 ≤ x.nonzero) (hy1 : 1 ≤ y.nonzero)
    (hl : min (min x.known y.known) (x.nonzero + y.nonzero - 1) ≤ z.limit)
    (hN : min (min x.known y.known) (x.nonzero + y.nonzero - 1) ≤ N) :
    ∃ z' : Ser K, Ser.mul ker z x y = .ok z' ∧ z'.limit = z.limit ∧
      z'.known = min x.known y.known ∧
      z'.nonzero = min (min x.known y.known) (x.nonzero + y.nonzero - 1) ∧
      ∀ k : ℕ, (k : ℤ) < z'.known → z'.at k = ∑ p ∈ antidiagonal k, x.at p.1 * y.at p.2 := by
  have e1 : relu (x.nonzero + y.nonzero - 1) = x.nonzero + y.nonzero - 1 := relu_of_nonneg (by omega)
  obtain ⟨z', e, h1, h2, h3, _, h5⟩ := Ser.mul_spec hker (z := z) hx hy (Ser.MulOk.of_pos hx1 hy1)
    (by rw [e1]; exact hl) (by rw [e1]; exact hN)
  rw [e1] at h3
  refine ⟨z', e, h1, h2, h3, fun k hk => ?_⟩
  have := h5 (k + 1) (by push_cast; omega) k (by omega)
  rw [Ser.coeff_ps_at, coeff_mul_seq, Ser.seqOf_ps, Ser.seqOf_ps] at this
  exact this

/-- C09.  Products with the symbolic zero: accepted when the other operand has at most one stored term. -/
theorem C09_mul_zero {ker : Ker K} {N : ℕ} (hker : ker.ExactMul N) (z x y : Ser K) (hx : x.WF) (hy : y.WF)
    (hz : 0 ≤ z.limit) (hok : (x.nonzero = 0 ∧ y.nonzero ≤ 1) ∨ (y.nonzero = 0 ∧ x.nonzero ≤ 1)) :
    ∃ z' : Ser K, Ser.mul ker z x y = .ok z' ∧ z'.known = min x.known y.known ∧ z'.nonzero = 0 ∧
      ∀ k : ℕ, (k : ℤ) < z'.known → z'.at k = ∑ p ∈ antidiagonal k, x.at p.1 * y.at p.2 := by
  have hx0 := hx.nonneg
  have hy0 := hy.nonneg
  have hxk := hx.le_known
  have hyk := hy.le_known
  have e1 : relu (x.nonzero + y.nonzero - 1) = 0 := relu_of_nonpos (by omega)
  obtain ⟨z', e, h1, h2, h3, _, h5⟩ := Ser.mul_spec hker (z := z) hx hy (Or.inr ⟨by omega, by omega⟩)
    (by rw [e1]; omega) (by rw [e1]; omega)
  rw [e1] at h3
  refine ⟨z', e, h2, by omega, fun k hk => ?_⟩
  have := h5 (k + 1) (by push_cast; omega) k (by omega)
  rw [Ser.coeff_ps_at, coeff_mul_seq, Ser.seqOf_ps, Ser.seqOf_ps] at this
  exact this

section
variable [CharZero K] [Ldexp K] [Ser.LawfulLdexp K] [DecidableEq K]

/-- A destination that is too small makes `mul` throw, whatever the kernels. -/
theorem C09_mul_small (ker : Ker K) (z x y : Ser K) (hx : x.WF) (hy : y.WF)
    (hl0 : 0 ≤ z.limit)
    (hl : z.limit < min (min x.known y.known) (max (x.nonzero + y.nonzero - 1) 0)) :
    Ser.mul ker z x y = .error .assertion := by
  have h1 := hx.known_nonneg
  have h2 := hy.known_nonneg
  have e : z.setCounts (min x.known y.known) (min (min x.known y.known)
      (relu (x.nonzero + y.nonzero - 1))) = .error .assertion := by
    rw [C05_setCounts_throws z hl0 _ _ (by omega) (by unfold relu; omega)]
    unfold relu
    omega
  simp only [Ser.mul, e, berr]

end

/-- C10.  `sqr` is the truncated square, for every argument. -/
theorem C10_sqr {ker : Ker K} {N : ℕ} (hker : ker.ExactMul N) (y x : Ser K) (hx : x.WF)
    (hl : min x.known (max (2 * x.nonzero - 1) 0) ≤ y.limit) (hN : min x.known (max (2 * x.nonzero - 1) 0) ≤ N) :
    ∃ y' : Ser K, Ser.sqr ker y x = .ok y' ∧ y'.limit = y.limit ∧ y'.known = x.known ∧
      y'.nonzero = min x.known (max (2 * x.nonzero - 1) 0) ∧
      ∀ k : ℕ, (k : ℤ) < y'.known → y'.at k = ∑ p ∈ antidiagonal k, x.at p.1 * x.at p.2 := by
  obtain ⟨y', e, h1, h2, h3, _, h5⟩ := Ser.sqr_spec hker (y := y) hx hl hN
  refine ⟨y', e, h1, h2, h3, fun k hk => ?_⟩
  have := h5 (k + 1) (by push_cast; omega) k (by omega)
  rw [pow_two, Ser.coeff_ps_at, coeff_mul_seq, Ser.seqOf_ps] at this
  exact this

/-- C11.  `mul1p(x, y, s)` is `x (1 + z^s y)`. -/
theorem C11_mul1p {ker : Ker K} {N : ℕ} (hker : ker.ExactMul N) (z x y : Ser K) (hx : x.WF) (hy : y.WF)
    (hx1 : 1 ≤ x.nonzero) (hy1 : 1 ≤ y.nonzero) (s : ℕ) (hs : 0 < s)
    (hl : min (min x.known (y.known + s)) (x.nonzero + y.nonzero + s - 1) ≤ z.limit)
    (hN : min (min x.known (y.known + s)) (x.nonzero + y.nonzero + s - 1) - s ≤ N) :
    ∃ z' : Ser K, Ser.mul1p ker z x y s = .ok z' ∧ z'.limit = z.limit ∧
      z'.known = min x.known (y.known + s) ∧
      z'.nonzero = min (min x.known (y.known + s)) (x.nonzero + y.nonzero + s - 1) ∧
      ∀ k : ℕ, (k : ℤ) < z'.known →
        z'.at k = ∑ p ∈ antidiagonal k, x.at p.1 * Spec.onePlus s y.at p.2 := by
  obtain ⟨z', e, h1, h2, h3, _, h5⟩ := Ser.mul1p_spec hker (z := z) hx hy hs
    (Ser.MulOk.of_pos hx1 hy1) hl hN
  refine ⟨z', e, h1, h2, h3, fun k hk => ?_⟩
  have := h5 (k + 1) (by push_cast; omega) k (by omega)
  rw [Ser.coeff_ps_at, coeff_mul_seq, Ser.seqOf_ps, seqOf_onePlus, Ser.seqOf_ps] at this
  exact this

/-- C11.  A shift below one is rejected. -/
theorem C11_shift_positive (ker : Ker K) (z x y : Ser K) (s : ℤ) (hs : s ≤ 0) :
    Ser.mul1p ker z x y s = .error .assertion := by
  simp only [Ser.mul1p, slowAssert_false (show ¬ s > 0 by omega), berr]

example : ∃ z' : Ser ℚ, Ser.mul codeletKer (Ser.new 3 fun _ => (9 : ℚ)) ⟨2, 4, 2, fun i => i + 1⟩
    ⟨3, 3, 3, fun i => 2 * i + 1⟩ = .ok z' ∧ z'.known = 3 ∧ z'.at 2 = 11 := by
  obtain ⟨z', e, _, h2, _, h4⟩ := C09_mul (codeletKer_exact (K := ℚ)).toExactMul (Ser.new 3 fun _ => 9)
    ⟨2, 4, 2, fun i => i + 1⟩ ⟨3, 3, 3, fun i => 2 * i + 1⟩ ⟨by norm_num, by norm_num, by norm_num⟩
    ⟨by norm_num, by norm_num, by norm_num⟩ (by norm_num) (by norm_num) (by norm_num [Ser.new, relu])
    (N := 3) (by norm_num)
  have hk : z'.known = 3 := by rw [h2]; norm_num
  refine ⟨z', e, hk, ?_⟩
  rw [h4 2 (by rw [hk]; norm_num), Nat.sum_antidiagonal_eq_sum_range_succ_mk]
  norm_num [Ser.at, sum_range_succ]

example : ∃ z' : Ser ℚ, Ser.mul1p codeletKer (Ser.new 4 fun _ => (9 : ℚ)) ⟨2, 4, 2, fun i => i + 1⟩
    ⟨3, 3, 3, fun i => 2 * i + 1⟩ (2 : ℕ) = .ok z' ∧ z'.known = 4 ∧ z'.at 3 = 5 := by
  obtain ⟨z', e, _, h2, _, h4⟩ := C11_mul1p (codeletKer_exact (K := ℚ)).toExactMul (Ser.new 4 fun _ => 9)
    ⟨2, 4, 2, fun i => i + 1⟩ ⟨3, 3, 3, fun i => 2 * i + 1⟩ ⟨by norm_num, by norm_num, by norm_num⟩
    ⟨by norm_num, by norm_num, by norm_num⟩ (by norm_num) (by norm_num) 2 (by norm_num)
    (by norm_num [Ser.new, relu]) (N := 2) (by norm_num)
  have hk : z'.known = 4 := by rw [h2]; norm_num
  refine ⟨z', e, hk, ?_⟩
  rw [h4 3 (by rw [hk]; norm_num), Nat.sum_antidiagonal_eq_sum_range_succ_mk]
  norm_num [Ser.at, sum_range_succ, Spec.onePlus, Spec.one, Spec.shift]

example : ∃ y' : Ser ℚ, Ser.sqr codeletKer (Ser.new 3 fun _ => (9 : ℚ)) ⟨2, 4, 2, fun i => i + 1⟩ = .ok y' ∧
    y'.known = 4 ∧ y'.at 2 = 4 := by
  obtain ⟨y', e, _, h2, _, h4⟩ := C10_sqr (codeletKer_exact (K := ℚ)).toExactMul (Ser.new 3 fun _ => 9)
    ⟨2, 4, 2, fun i => i + 1⟩ ⟨by norm_num, by norm_num, by norm_num⟩ (by norm_num [Ser.new, relu])
    (N := 3) (by norm_num)
  refine ⟨y', e, h2, ?_⟩
  rw [h4 2 (by rw [h2]; norm_num), Nat.sum_antidiagonal_eq_sum_range_succ_mk]
  norm_num [Ser.at, sum_range_succ]

/-! ## C19: derivative, integral, ldexp -/

/-- C19.  `derivative_shift(x, s)` multiplies term `i` by `s + i`, i.e. it is `z^{1-s} (z^s x)'`. -/
theorem C19_derivative (y x : Ser K) (hx : x.WF) (hl : x.nonzero ≤ y.limit) (s : ℤ) :
    ∃ y' : Ser K, Ser.derivativeShift y x s = .ok y' ∧ y'.limit = y.limit ∧ y'.known = x.known ∧
      y'.nonzero = x.nonzero ∧ ∀ i : ℕ, y'.at i = ((s : K) + i) * x.at i := by
  obtain ⟨y', e, h1, h2, h3, _, h5⟩ := Ser.derivativeShift_spec hx hl s
  refine ⟨y', e, h1, h2, h3, fun i => ?_⟩
  rw [← Ser.coeff_ps_at, ← Ser.coeff_ps_at, h5]; push_cast; rfl

/-- C19.  `integral_shift(x, s)` divides term `i` by `s + i` and gives zero where `s + i = 0`. -/
theorem C19_integral (y x : Ser K) (hx : x.WF) (hl : x.nonzero ≤ y.limit) (s : ℤ) :
    ∃ y' : Ser K, Ser.integralShift y x s = .ok y' ∧ y'.limit = y.limit ∧ y'.known = x.known ∧
      y'.nonzero = x.nonzero ∧
      ∀ i : ℕ, y'.at i = if s + (i : ℤ) = 0 then 0 else x.at i / ((s : K) + i) := by
  obtain ⟨y', e, h1, h2, h3, _, h5⟩ := Ser.integralShift_spec hx hl s
  refine ⟨y', e, h1, h2, h3, fun i => ?_⟩
  rw [← Ser.coeff_ps_at, ← Ser.coeff_ps_at, h5]
  push_cast
  split_ifs <;> simp_all

/-- C19.  Integral after derivative is the identity except for the lost constant, and in characteristic
zero derivative after integral too. -/
theorem C19_inverse [CharZero K] (y x : Ser K) (hx : x.WF) (hl : x.nonzero ≤ y.limit) (s : ℤ) :
    ∃ d i i' d' : Ser K, Ser.derivativeShift y x s = .ok d ∧ Ser.integralShift y d s = .ok i ∧
      Ser.integralShift y x s = .ok i' ∧ Ser.derivativeShift y i' s = .ok d' ∧
      ∀ k : ℕ, (i.at k = if s + (k : ℤ) = 0 then 0 else x.at k) ∧
        (d'.at k = if s + (k : ℤ) = 0 then 0 else x.at k) := by
  obtain ⟨d, e1, a1, b1, c1, w1, h1⟩ := Ser.derivativeShift_spec (y := y) hx hl s
  obtain ⟨i, e2, a2, b2, c2, w2, h2⟩ := Ser.integralShift_spec (y := y) w1 (by omega) s
  obtain ⟨i', e3, a3, b3, c3, w3, h3⟩ := Ser.integralShift_spec (y := y) hx hl s
  obtain ⟨d', e4, a4, b4, c4, w4, h4⟩ := Ser.derivativeShift_spec (y := y) w3 (by omega) s
  refine ⟨d, i, i', d', e1, e2, e3, e4, fun k => ?_⟩
  rw [← Ser.coeff_ps_at, ← Ser.coeff_ps_at, ← Ser.coeff_ps_at, h2, h1, h4, h3]
  by_cases h : s + (k : ℤ) = 0
  · simp [h]
  · have hk : (((s + (k : ℤ) : ℤ)) : K) ≠ 0 := by exact_mod_cast h
    rw [if_pos h, if_neg h, if_pos h]
    constructor <;> field_simp

/-- C19.  `ldexp(x, b)` multiplies every term by `2^b`. -/
theorem C19_ldexp [Ldexp K] [Ser.LawfulLdexp K] (y x : Ser K) (hx : x.WF) (hl : x.nonzero ≤ y.limit)
    (b : ℤ) :
    ∃ y' : Ser K, Ser.ldexpSer y x b = .ok y' ∧ y'.limit = y.limit ∧ y'.known = x.known ∧
      y'.nonzero = x.nonzero ∧ ∀ i : ℕ, y'.at i = 2 ^ b * x.at i := by
  obtain ⟨y', e, h1, h2, h3, _, h5⟩ := Ser.ldexpSer_spec hx hl b
  refine ⟨y', e, h1, h2, h3, fun i => ?_⟩
  rw [← Ser.coeff_ps_at, h5, coeff_C_mul, Ser.coeff_ps_at]

example : ∃ y' : Ser ℚ, Ser.derivativeShift (Ser.new 2 fun _ => (9 : ℚ)) ⟨2, 4, 2, fun i => i + 1⟩ 3 = .ok y' ∧
    y'.known = 4 ∧ y'.at 1 = 8 := by
  obtain ⟨y', e, _, h2, _, h4⟩ := C19_derivative (K := ℚ) (Ser.new 2 fun _ => 9)
    ⟨2, 4, 2, fun i => i + 1⟩ ⟨by norm_num, by norm_num, by norm_num⟩ (by norm_num [Ser.new, relu]) 3
  refine ⟨y', e, h2, ?_⟩
  rw [h4]
  norm_num [Ser.at]

end Props

end Mandelbrot
