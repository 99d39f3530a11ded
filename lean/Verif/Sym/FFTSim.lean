import Verif.Sym.FFTGen
import Verif.Sym.ExpansionSim
import Verif.FFT.Model

/-!
# The butterflies on expressions compute the butterflies on numbers
-/

namespace Mandelbrot.Sym

open Sig (Sg)
open Spec

section
variable {C : Cfg} {ρ : Interp ℂ} {M : List Ex} {D : List String}

/-- A computation whose lookups are among `M` gives a result with a property. -/
def Does (C : Cfg) (M : List Ex) (D : List String) {α : Type} (m : Gen CSt α) (Q : α → Prop) : Prop :=
  ∀ st r, st.Ok C → st.All (In D) → m st = .ok r → r.2.met ⊆ M → r.2.All (In D) ∧ Q r.1

theorem Does.pure {α : Type} {Q : α → Prop} {a : α} (h : Q a) : Does C M D (Pure.pure a : Gen CSt α) Q := by
  intro st r _ ha e _; cases e; exact ⟨ha, h⟩

theorem Does.bind {α β : Type} {m : Gen CSt α} {k : α → Gen CSt β} {Q : α → Prop} {Q' : β → Prop} (h : Does C M D m Q)
    (hm : Grows C m) (hg : ∀ a, Grows C (k a)) (hk : ∀ a, Q a → Does C M D (k a) Q') : Does C M D (m >>= k) Q' := by
  intro st r hs ha e hM
  obtain ⟨x, e1, e2⟩ := gen_bind e
  have hx := hm st x hs e1
  have hb := hg x.1 x.2 r hx.1 e2
  obtain ⟨w, q⟩ := h st x hs ha e1 fun a ha => hM (hb.2 ha)
  exact hk x.1 q x.2 r hx.1 w e2 hM

theorem Does.mono {α : Type} {m : Gen CSt α} {Q Q' : α → Prop} (h : Does C M D m Q) (hq : ∀ a, Q a → Q' a) : Does C M D m Q' :=
  fun st r hs ha e hM => ⟨(h st r hs ha e hM).1, hq _ (h st r hs ha e hM).2⟩

theorem Does.error {α : Type} {Q : α → Prop} {e : Err} : Does C M D (Sym.ofRes (.error e) : Gen CSt α) Q := by
  intro st r _ _ e _; cases e

theorem Does.check {p : Prop} [Decidable p] : Does C M D (Sym.ofRes (slowAssert p) : Gen CSt Unit) fun _ => p := by
  intro st r hs ha e _
  by_cases hp : p
  · simp only [slowAssert, hp, if_true, Sym.ofRes, Except.map] at e
    cases e
    exact ⟨ha, hp⟩
  · simp only [slowAssert, hp, if_false, Sym.ofRes, Except.map] at e
    cases e

/-- An expression with a real value. -/
def IsR (ρ : Interp ℂ) (D : List String) (e : Ex) (a : ℝ) : Prop := In D e ∧ e.val ρ = a

/-- An expression with an integer value. -/
def IsI (ρ : Interp ℂ) (D : List String) (e : Ex) (n : ℤ) : Prop := In D e ∧ e.val ρ = n

/-- A pair of expressions for a complex number. -/
def IsC (ρ : Interp ℂ) (D : List String) (z : CEx) (w : ℂ) : Prop := IsR ρ D z.re w.re ∧ IsR ρ D z.im w.im

theorem Does.of_step {m : Gen CSt Ex} {v : ℂ} (hc : NoClash C ρ M) (h : ∀ st r, st.Ok C → m st = .ok r → Step C ρ v st r)
    (ha : ∀ st r, st.All (In D) → m st = .ok r → r.2.All (In D) ∧ In D r.1) :
    Does C M D m fun z => In D z ∧ z.val ρ = v := by
  intro st r hs hs' e hM
  obtain ⟨h1, h2⟩ := ha st r hs' e
  exact ⟨h1, h2, (h st r hs e).val (hc.mono hM)⟩

theorem does_neg (hc : NoClash C ρ M) {x : Ex} (hx : In D x) : Does C M D (neg C x) fun z => In D z ∧ z.val ρ = -x.val ρ :=
  .of_step hc (fun _ _ hs e => neg_step ρ hs e) fun _ _ hs e => neg_all (in_closed D) hx hs e

theorem does_add (hc : NoClash C ρ M) {x y : Ex} (hx : In D x) (hy : In D y) :
    Does C M D (add C x y) fun z => In D z ∧ z.val ρ = x.val ρ + y.val ρ :=
  .of_step hc (fun _ _ hs e => add_step ρ hs e) fun _ _ hs e => add_all (in_closed D) hs hx hy e

theorem sub_all' {P : Ex → Prop} (hP : Closed P) {x y : Ex} {st : CSt} (h : st.All P) (px : P x) (py : P y) {r} (hr : sub C x y st = .ok r) :
    r.2.All P ∧ P r.1 := (addsub_all hP (x.negs + y.negs + 1) (by omega) h px py).2 r hr

theorem does_sub (hc : NoClash C ρ M) {x y : Ex} (hx : In D x) (hy : In D y) :
    Does C M D (sub C x y) fun z => In D z ∧ z.val ρ = x.val ρ - y.val ρ :=
  .of_step hc (fun _ _ hs e => sub_step ρ hs e) fun _ _ hs e => sub_all' (in_closed D) hs hx hy e

theorem does_mul (hc : NoClash C ρ M) {x y : Ex} (hx : In D x) (hy : In D y) :
    Does C M D (mul C x y) fun z => In D z ∧ z.val ρ = x.val ρ * y.val ρ :=
  .of_step hc (fun _ _ hs e => mul_step ρ hs e) fun _ _ hs e => mul_all (in_closed D) hs hx hy e

theorem does_cse (hc : NoClash C ρ M) {x : Ex} (hx : In D x) :
    Does C M D (fun st => .ok (cse C x st)) fun z => In D z ∧ z.val ρ = x.val ρ :=
  .of_step hc (fun st r hs e => by cases e; exact cse_step ρ x hs) fun st r hs e => by cases e; exact cse_all (in_closed D) C hx hs

theorem grows_cse (x : Ex) : Grows C (fun st => .ok (cse C x st)) :=
  .of_step (σ := anyInterp) (v := x.val anyInterp) fun st r hs e => by cases e; exact cse_step anyInterp x hs

/-! ## Growth -/

/-- Proves `Grows` for a sequence of operations. -/
macro "grow" : tactic => `(tactic| repeat' (first
  | assumption
  | exact Grows.pure _
  | exact Grows.ofRes _
  | exact grows_add _ _
  | exact grows_sub _ _
  | exact grows_mul _ _
  | exact grows_neg _
  | exact grows_cse _
  | (refine Grows.bind ?_ fun _ => ?_)))

theorem grows_addC (z w : CEx) : Grows C (addC C z w) := by unfold addC; grow
theorem grows_subC (z w : CEx) : Grows C (subC C z w) := by unfold subC; grow
theorem grows_mulC (z w : CEx) : Grows C (mulC C z w) := by unfold mulC; grow
theorem grows_scaleC (a : Ex) (z : CEx) : Grows C (scaleC C a z) := by unfold scaleC; grow
theorem grows_conjC (z : CEx) : Grows C (conjC C z) := by unfold conjC; grow
theorem grows_leftC (z : CEx) : Grows C (leftC C z) := by unfold leftC; grow
theorem grows_diagPosC (a : Ex) (z : CEx) : Grows C (diagPosC C a z) := by unfold diagPosC scaleC; grow
theorem grows_diagNegC (a : Ex) (z : CEx) : Grows C (diagNegC C a z) := by unfold diagNegC scaleC; grow
theorem grows_splitX (x : Ex) : Grows C (splitX C x) := by unfold splitX field; grow
theorem grows_sqrtHalfX (S : Seeds) : Grows C (sqrtHalfX C S) := by unfold sqrtHalfX other; grow
theorem grows_constantTwiddleX (S : Seeds) (j : ℤ) (s : ℕ) : Grows C (constantTwiddleX C S j s) := by
  unfold constantTwiddleX other; grow
theorem grows_baseTwiddleX (x : Ex) : Grows C (baseTwiddleX C x) := by
  unfold baseTwiddleX call1 splitX field; grow
theorem grows_firstTwiddleX (S : Seeds) (r : ℕ) (x : Ex) : Grows C (firstTwiddleX C S r x) := by
  unfold firstTwiddleX
  split_ifs
  · exact grows_baseTwiddleX x
  · cases x.unint with
    | none => exact Grows.ofRes _
    | some n => exact grows_constantTwiddleX S n r

/-- Proves `Grows` for a sequence of complex operations. -/
macro "growC" : tactic => `(tactic| repeat' (first
  | (with_reducible refine Grows.bind ?_ fun _ => ?_)
  | with_reducible exact Grows.pure _
  | with_reducible exact Grows.ofRes _
  | with_reducible exact grows_add _ _
  | with_reducible exact grows_sub _ _
  | with_reducible exact grows_mul _ _
  | with_reducible exact grows_neg _
  | with_reducible exact grows_addC _ _
  | with_reducible exact grows_subC _ _
  | with_reducible exact grows_mulC _ _
  | with_reducible exact grows_scaleC _ _
  | with_reducible exact grows_conjC _
  | with_reducible exact grows_leftC _
  | with_reducible exact grows_diagPosC _ _
  | with_reducible exact grows_diagNegC _ _
  | with_reducible exact grows_splitX _
  | with_reducible exact grows_sqrtHalfX _
  | with_reducible exact grows_baseTwiddleX _
  | with_reducible exact grows_firstTwiddleX _ _ _
  | with_reducible exact grows_cse _
  | (intros; with_reducible apply_assumption)))

theorem grows_butterfly0X (a b : Ex) : Grows C (butterfly0X C a b) := by unfold butterfly0X; growC
theorem grows_butterfly1X (S : Seeds) (j : Ex) {tw : Ex → Gen CSt CEx} (ht : ∀ x, Grows C (tw x)) (a b : CEx) :
    Grows C (butterfly1X C S j tw a b) := by unfold butterfly1X; growC
theorem grows_butterflyS1X (j : Ex) {tw : Ex → Gen CSt CEx} (ht : ∀ x, Grows C (tw x)) (a b : CEx) :
    Grows C (butterflyS1X C j tw a b) := by unfold butterflyS1X; growC
theorem grows_butterflyS2X (j : Ex) {tw : Ex → Gen CSt CEx} (ht : ∀ x, Grows C (tw x)) (y : List CEx) :
    Grows C (butterflyS2X C j tw y) := by
  unfold butterflyS2X
  split <;> growC
theorem grows_butterflyS3X (S : Seeds) (j : Ex) {tw : Ex → Gen CSt CEx} (ht : ∀ x, Grows C (tw x)) (y : List CEx) :
    Grows C (butterflyS3X C S j tw y) := by
  unfold butterflyS3X
  split <;> growC

/-! ## Complex operations -/

/-- Handles one operation of a sequence. -/
macro "step" t:term "with" h:ident : tactic => `(tactic| refine Does.bind $t (by growC) (fun _ => by growC) fun _ $h => ?_)

theorem does_negR (hc : NoClash C ρ M) {x : Ex} {a : ℝ} (hx : IsR ρ D x a) : Does C M D (neg C x) fun z => IsR ρ D z (-a) :=
  (does_neg hc hx.1).mono fun _ h => ⟨h.1, by rw [h.2, hx.2]; push_cast; rfl⟩

theorem does_addR (hc : NoClash C ρ M) {x y : Ex} {a b : ℝ} (hx : IsR ρ D x a) (hy : IsR ρ D y b) :
    Does C M D (add C x y) fun z => IsR ρ D z (a + b) :=
  (does_add hc hx.1 hy.1).mono fun _ h => ⟨h.1, by rw [h.2, hx.2, hy.2]; push_cast; rfl⟩

theorem does_subR (hc : NoClash C ρ M) {x y : Ex} {a b : ℝ} (hx : IsR ρ D x a) (hy : IsR ρ D y b) :
    Does C M D (sub C x y) fun z => IsR ρ D z (a - b) :=
  (does_sub hc hx.1 hy.1).mono fun _ h => ⟨h.1, by rw [h.2, hx.2, hy.2]; push_cast; rfl⟩

theorem does_mulR (hc : NoClash C ρ M) {x y : Ex} {a b : ℝ} (hx : IsR ρ D x a) (hy : IsR ρ D y b) :
    Does C M D (mul C x y) fun z => IsR ρ D z (a * b) :=
  (does_mul hc hx.1 hy.1).mono fun _ h => ⟨h.1, by rw [h.2, hx.2, hy.2]; push_cast; rfl⟩

theorem does_addC (hc : NoClash C ρ M) {z w : CEx} {a b : ℂ} (hz : IsC ρ D z a) (hw : IsC ρ D w b) :
    Does C M D (addC C z w) fun u => IsC ρ D u (a + b) := by
  unfold addC
  step does_addR hc hz.1 hw.1 with h1
  step does_addR hc hz.2 hw.2 with h2
  exact .pure ⟨h1, h2⟩

theorem does_subC (hc : NoClash C ρ M) {z w : CEx} {a b : ℂ} (hz : IsC ρ D z a) (hw : IsC ρ D w b) :
    Does C M D (subC C z w) fun u => IsC ρ D u (a - b) := by
  unfold subC
  step does_subR hc hz.1 hw.1 with h1
  step does_subR hc hz.2 hw.2 with h2
  exact .pure ⟨h1, h2⟩

theorem does_mulC (hc : NoClash C ρ M) {z w : CEx} {a b : ℂ} (hz : IsC ρ D z a) (hw : IsC ρ D w b) :
    Does C M D (mulC C z w) fun u => IsC ρ D u (a * b) := by
  unfold mulC
  step does_mulR hc hz.1 hw.1 with h1
  step does_mulR hc hz.2 hw.2 with h2
  step does_subR hc h1 h2 with h3
  step does_mulR hc hz.1 hw.2 with h4
  step does_mulR hc hz.2 hw.1 with h5
  step does_addR hc h4 h5 with h6
  exact .pure ⟨by rwa [Complex.mul_re], by rwa [Complex.mul_im]⟩

theorem does_scaleC (hc : NoClash C ρ M) {x : Ex} {z : CEx} {a r i : ℝ} (hx : IsR ρ D x a) (hz : IsC ρ D z ⟨r, i⟩) :
    Does C M D (scaleC C x z) fun u => IsC ρ D u ⟨a * r, a * i⟩ := by
  unfold scaleC
  step does_mulR hc hx hz.1 with h1
  step does_mulR hc hx hz.2 with h2
  exact .pure ⟨h1, h2⟩

theorem does_conjC (hc : NoClash C ρ M) {z : CEx} {a : ℂ} (hz : IsC ρ D z a) :
    Does C M D (conjC C z) fun u => IsC ρ D u (starRingEnd ℂ a) := by
  unfold conjC
  step does_negR hc hz.2 with h1
  exact .pure ⟨hz.1, h1⟩

theorem does_leftC (hc : NoClash C ρ M) {z : CEx} {a : ℂ} (hz : IsC ρ D z a) :
    Does C M D (leftC C z) fun u => IsC ρ D u (FFT.left a) := by
  unfold leftC
  step does_negR hc hz.2 with h1
  exact .pure ⟨h1, hz.1⟩

theorem does_diagPosC (hc : NoClash C ρ M) {x : Ex} {z : CEx} {a : ℝ} {w : ℂ} (hx : IsR ρ D x a) (hz : IsC ρ D z w) :
    Does C M D (diagPosC C x z) fun u => IsC ρ D u (FFT.diagPos a w) := by
  unfold diagPosC
  step does_subR hc hz.1 hz.2 with h1
  step does_addR hc hz.2 hz.1 with h2
  exact does_scaleC hc hx ⟨h1, h2⟩

theorem does_diagNegC (hc : NoClash C ρ M) {x : Ex} {z : CEx} {a : ℝ} {w : ℂ} (hx : IsR ρ D x a) (hz : IsC ρ D z w) :
    Does C M D (diagNegC C x z) fun u => IsC ρ D u (FFT.diagNeg a w) := by
  unfold diagNegC
  step does_addR hc hz.1 hz.2 with h1
  step does_subR hc hz.2 hz.1 with h2
  exact does_scaleC hc hx ⟨h1, h2⟩

namespace Spec

/-- What the functions and constants in the code stand for: `twiddle` is `tw`, the fields are the parts, and the constants are
exact. -/
structure Means (S : Seeds) (tw : ℤ → ℂ) (ρ : Interp ℂ) : Prop where
  re : ∀ z, ρ.field "r" z = (z.re : ℂ)
  im : ∀ z, ρ.field "i" z = (z.im : ℂ)
  twiddle : ∀ j : ℤ, ρ.call "twiddle" [(j : ℂ)] = tw j
  sqrtHalf : ρ.other S.sqrtHalf.1 = (FFT.sqrtHalf : ℂ)
  constRe : ∀ j s, ρ.other (S.twiddle j s).1.1 = ((FFT.constantTwiddle j s).re : ℂ)
  constIm : ∀ j s, ρ.other (S.twiddle j s).2.1 = ((FFT.constantTwiddle j s).im : ℂ)

end Spec

variable {S : Seeds} {tw : ℤ → ℂ}

theorem does_splitX (hm : Means S tw ρ) (hc : NoClash C ρ M) {x : Ex} {a : ℂ} (hx : In D x) (hv : x.val ρ = a) :
    Does C M D (splitX C x) fun u => IsC ρ D u a := by
  unfold splitX field
  step does_cse (x := .field x "r" _) hc hx with h1
  step does_cse (x := .field x "i" _) hc hx with h2
  exact .pure ⟨⟨h1.1, by rw [h1.2]; simp only [Ex.val]; rw [hm.re, hv]⟩, h2.1, by rw [h2.2]; simp only [Ex.val]; rw [hm.im, hv]⟩

theorem does_baseTwiddleX (hm : Means S tw ρ) (hc : NoClash C ρ M) {x : Ex} {j : ℤ} (hx : IsI ρ D x j) :
    Does C M D (baseTwiddleX C x) fun u => IsC ρ D u (tw j) := by
  unfold baseTwiddleX call1
  step does_cse (x := .call1 "twiddle" x _) hc hx.1 with h1
  refine does_splitX hm hc h1.1 ?_
  rw [h1.2]; simp only [Ex.val]; rw [hx.2, hm.twiddle]

theorem does_sqrtHalfX (hm : Means S tw ρ) (hc : NoClash C ρ M) : Does C M D (sqrtHalfX C S) fun u => IsR ρ D u FFT.sqrtHalf := by
  unfold sqrtHalfX other
  refine (does_cse (x := .other S.sqrtHalf.1 2 _) hc (by intro v hv; simp [Ex.vars] at hv)).mono fun z h => ⟨h.1, ?_⟩
  rw [h.2]; simp only [Ex.val]; exact hm.sqrtHalf

theorem does_constantTwiddleX (hm : Means S tw ρ) (hc : NoClash C ρ M) (j : ℤ) (s : ℕ) :
    Does C M D (constantTwiddleX C S j s) fun u => IsC ρ D u (FFT.constantTwiddle j s) := by
  unfold constantTwiddleX other
  step Does.check with h0
  step does_cse (x := .other (S.twiddle j s).1.1 2 _) hc (by intro v hv; simp [Ex.vars] at hv) with h1
  step does_cse (x := .other (S.twiddle j s).2.1 2 _) hc (by intro v hv; simp [Ex.vars] at hv) with h2
  exact .pure ⟨⟨h1.1, by rw [h1.2]; exact hm.constRe j s⟩, h2.1, by rw [h2.2]; exact hm.constIm j s⟩

theorem does_mulI (hc : NoClash C ρ M) {x : Ex} {j : ℤ} (k : ℤ) (hx : IsI ρ D x j) :
    Does C M D (mul C (.int k) x) fun z => IsI ρ D z (k * j) :=
  (does_mul hc (in_int k) hx.1).mono fun _ h => ⟨h.1, by rw [h.2, hx.2]; simp only [Ex.val]; push_cast; rfl⟩

theorem does_stepX (hc : NoClash C ρ M) {a b : Ex} {m n : ℤ} (i : ℤ) (ha : IsI ρ D a m) (hb : IsI ρ D b n) :
    Does C M D (stepX C a i b) fun z => IsI ρ D z (m + i * n) := by
  unfold stepX
  step does_mulI hc i hb with h1
  exact (does_add hc ha.1 h1.1).mono fun _ h => ⟨h.1, by rw [h.2, ha.2, h1.2]; push_cast; rfl⟩

theorem grows_stepX (a b : Ex) (i : ℤ) : Grows C (stepX C a i b) := by unfold stepX; grow

/-! ## Butterflies -/

/-- A list of pairs of expressions for complex numbers. -/
def IsL (ρ : Interp ℂ) (D : List String) : List CEx → (ℕ → ℂ) → Prop
  | [], _ => True
  | z :: l, v => IsC ρ D z (v 0) ∧ IsL ρ D l fun i => v (i + 1)

/-- A function for the factors. -/
structure TwX (C : Cfg) (ρ : Interp ℂ) (M : List Ex) (D : List String) (twx : Ex → Gen CSt CEx) (tw : ℤ → ℂ) : Prop where
  grows : ∀ x, Grows C (twx x)
  does : ∀ x j, IsI ρ D x j → Does C M D (twx x) fun u => IsC ρ D u (tw j)

theorem does_butterfly0X (hc : NoClash C ρ M) {x0 x1 : Ex} {a b : ℝ} (h0 : IsR ρ D x0 a) (h1 : IsR ρ D x1 b) :
    Does C M D (butterfly0X C x0 x1) fun u => IsC ρ D u (FFT.butterfly0 a b) := by
  unfold butterfly0X
  step does_negR hc h1 with h2
  exact .pure ⟨h0, h2⟩

theorem does_butterfly1X (hm : Means S tw ρ) (hc : NoClash C ρ M) {twx : Ex → Gen CSt CEx} {tw' : ℤ → ℂ} (ht : TwX C ρ M D twx tw')
    {x : Ex} {j : ℤ} (hx : IsI ρ D x j) {y0 y1 : CEx} {a b : ℂ} (h0 : IsC ρ D y0 a) (h1 : IsC ρ D y1 b) :
    Does C M D (butterfly1X C S x twx y0 y1) fun u => IsC ρ D u.1 (FFT.butterfly1 j tw' a b).1 ∧ IsC ρ D u.2 (FFT.butterfly1 j tw' a b).2 := by
  have hg := ht.grows
  unfold butterfly1X
  step does_sqrtHalfX hm hc with g1
  step does_diagNegC hc g1 h1 with g2
  step ht.does _ _ hx with g3
  step does_conjC hc g3 with g4
  step does_addC hc h0 g2 with g5
  step does_mulC hc g4 g5 with g6
  step does_mulI hc 3 hx with g7
  step ht.does _ _ g7 with g8
  step does_subC hc h0 g2 with g9
  step does_mulC hc g8 g9 with g10
  step does_conjC hc g10 with g11
  exact .pure ⟨g6, g11⟩

theorem does_butterflyS1X (hc : NoClash C ρ M) {twx : Ex → Gen CSt CEx} {tw' : ℤ → ℂ} (ht : TwX C ρ M D twx tw')
    {x : Ex} {j : ℤ} (hx : IsI ρ D x j) {y0 y1 : CEx} {a b : ℂ} (h0 : IsC ρ D y0 a) (h1 : IsC ρ D y1 b) :
    Does C M D (butterflyS1X C x twx y0 y1) fun u =>
      IsC ρ D u.1 (FFT.butterflyS1 j tw' a b).1 ∧ IsC ρ D u.2 (FFT.butterflyS1 j tw' a b).2 := by
  have hg := ht.grows
  unfold butterflyS1X
  step does_addC hc h0 h1 with g1
  step ht.does _ _ hx with g2
  step does_subC hc h0 h1 with g3
  step does_mulC hc g2 g3 with g4
  step does_conjC hc g4 with g5
  exact .pure ⟨g1, g5⟩

theorem does_butterflyS2X (hc : NoClash C ρ M) {twx : Ex → Gen CSt CEx} {tw' : ℤ → ℂ} (ht : TwX C ρ M D twx tw')
    {x : Ex} {j : ℤ} (hx : IsI ρ D x j) {y : List CEx} {a : ℕ → ℂ} (hy : IsL ρ D y a) :
    Does C M D (butterflyS2X C x twx y) fun u => u.length = 4 ∧ IsL ρ D u (FFT.butterflyS2 j tw' a) := by
  have hg := ht.grows
  unfold butterflyS2X
  split
  · obtain ⟨h0, h1, h2, h3, -⟩ := hy
    simp only [Nat.reduceAdd] at h0 h1 h2 h3
    step ht.does _ _ hx with w1
    step does_mulI hc 2 hx with j2
    step ht.does _ _ j2 with w2
    step does_addC hc h0 h2 with u0
    step does_addC hc h1 h3 with u1
    step does_subC hc h0 h2 with t0
    step does_subC hc h1 h3 with t1
    step does_addC hc u0 u1 with c0
    step does_subC hc u0 u1 with d1
    step does_mulC hc w2 d1 with d2
    step does_conjC hc d2 with c1
    step does_leftC hc t1 with l1
    step does_addC hc t0 l1 with d3
    step does_mulC hc w1 d3 with d4
    step does_conjC hc d4 with c2
    step does_conjC hc w1 with w
    step does_leftC hc t1 with l2
    step does_subC hc t0 l2 with d5
    step does_mulC hc w d5 with c3
    exact .pure ⟨rfl, c0, c1, c2, c3, trivial⟩
  · exact .error

theorem does_butterflyS3X (hm : Means S tw ρ) (hc : NoClash C ρ M) {twx : Ex → Gen CSt CEx} {tw' : ℤ → ℂ} (ht : TwX C ρ M D twx tw')
    {x : Ex} {j : ℤ} (hx : IsI ρ D x j) {y : List CEx} {a : ℕ → ℂ} (hy : IsL ρ D y a) :
    Does C M D (butterflyS3X C S x twx y) fun u => u.length = 8 ∧ IsL ρ D u (FFT.butterflyS3 j tw' a) := by
  have hg := ht.grows
  unfold butterflyS3X
  split
  · obtain ⟨h0, h1, h2, h3, h4, h5, h6, h7, -⟩ := hy
    simp only [Nat.reduceAdd] at h0 h1 h2 h3 h4 h5 h6 h7
    step ht.does _ _ hx with w1
    step does_mulI hc 2 hx with j2
    step ht.does _ _ j2 with w2
    step does_mulI hc 3 hx with j3
    step ht.does _ _ j3 with w3
    step does_mulI hc 4 hx with j4
    step ht.does _ _ j4 with w4
    step does_sqrtHalfX hm hc with hh
    step does_addC hc h0 h4 with u0
    step does_addC hc h1 h5 with u1
    step does_addC hc h2 h6 with u2
    step does_addC hc h3 h7 with u3
    step does_subC hc h0 h4 with t0
    step does_subC hc h1 h5 with t1
    step does_subC hc h2 h6 with t2
    step does_subC hc h3 h7 with t3
    step does_addC hc u0 u2 with b0
    step does_addC hc u1 u3 with b1
    step does_leftC hc t2 with l1
    step does_addC hc t0 l1 with b2
    step does_leftC hc t3 with l2
    step does_addC hc t1 l2 with e1
    step does_diagPosC hc hh e1 with b3
    step does_subC hc u0 u2 with c0
    step does_subC hc u1 u3 with c1
    step does_leftC hc t2 with l3
    step does_subC hc t0 l3 with c2
    step does_leftC hc t3 with l4
    step does_subC hc t1 l4 with e2
    step does_diagNegC hc hh e2 with c3
    step does_addC hc b0 b1 with d0
    step does_subC hc b0 b1 with e3
    step does_mulC hc w4 e3 with e4
    step does_conjC hc e4 with d1
    step does_leftC hc c1 with l5
    step does_addC hc c0 l5 with e5
    step does_mulC hc w2 e5 with e6
    step does_conjC hc e6 with d2
    step does_conjC hc w2 with v2
    step does_leftC hc c1 with l6
    step does_subC hc c0 l6 with e7
    step does_mulC hc v2 e7 with d3
    step does_addC hc b2 b3 with e8
    step does_mulC hc w1 e8 with e9
    step does_conjC hc e9 with d4
    step does_conjC hc w3 with v3
    step does_subC hc b2 b3 with e10
    step does_mulC hc v3 e10 with d5
    step does_conjC hc w1 with v1
    step does_addC hc c2 c3 with e11
    step does_mulC hc v1 e11 with d6
    step does_subC hc c2 c3 with e12
    step does_mulC hc w3 e12 with e13
    step does_conjC hc e13 with d7
    exact .pure ⟨rfl, d0, d1, d2, d3, d4, d5, d6, d7, trivial⟩
  · exact .error

theorem base_twx (hm : Means S tw ρ) (hc : NoClash C ρ M) : TwX C ρ M D (baseTwiddleX C) tw :=
  ⟨grows_baseTwiddleX, fun _ _ h => does_baseTwiddleX hm hc h⟩

theorem grows_levelsBodyX (r : ℕ) (x : Ex) (y : List CEx) : Grows C (levelsBodyX C S r x y) := by
  unfold levelsBodyX
  split
  · split
    · exact Grows.bind (grows_butterflyS1X x grows_baseTwiddleX _ _) fun _ => Grows.pure _
    · exact Grows.ofRes _
  · exact grows_butterflyS2X x grows_baseTwiddleX y
  · exact grows_butterflyS3X S x grows_baseTwiddleX y
  · exact Grows.ofRes _

theorem does_levelsBodyX (hm : Means S tw ρ) (hc : NoClash C ρ M) {r : ℕ} {x : Ex} {j : ℤ} (hx : IsI ρ D x j) {y : List CEx}
    {a : ℕ → ℂ} (hy : IsL ρ D y a) :
    Does C M D (levelsBodyX C S r x y) fun u => u.length = 2 ^ r ∧ IsL ρ D u (FFT.butterflyR r j tw a) := by
  unfold levelsBodyX
  split
  · split
    · obtain ⟨h0, h1, -⟩ := hy
      simp only [Nat.reduceAdd] at h0 h1
      refine Does.bind (does_butterflyS1X hc (base_twx hm hc) hx h0 h1) (grows_butterflyS1X x grows_baseTwiddleX _ _)
        (fun _ => Grows.pure _) fun u hu => ?_
      exact .pure ⟨rfl, hu.1, hu.2, trivial⟩
    · exact .error
  · exact does_butterflyS2X hc (base_twx hm hc) hx hy
  · exact does_butterflyS3X hm hc (base_twx hm hc) hx hy
  · exact .error

/-- The factors of the first levels. -/
noncomputable def firstTw (tw : ℤ → ℂ) (r : ℕ) : ℤ → ℂ := if r = 3 then tw else fun j => FFT.constantTwiddle j r

theorem first_twx (hm : Means S tw ρ) (hc : NoClash C ρ M) (r : ℕ) : TwX C ρ M D (firstTwiddleX C S r) (firstTw tw r) := by
  refine ⟨grows_firstTwiddleX S r, fun x j hx => ?_⟩
  unfold firstTwiddleX firstTw
  split_ifs
  · exact does_baseTwiddleX hm hc hx
  · cases hu : x.unint with
    | none => exact .error
    | some n =>
      have : j = n := by
        have h1 : x.val ρ = (n : ℂ) := by cases x <;> simp_all [Ex.unint, Ex.val]
        rw [hx.2] at h1
        exact_mod_cast h1
      subst this
      exact does_constantTwiddleX hm hc j r

/-- A list of expressions for real numbers. -/
def IsRL (ρ : Interp ℂ) (D : List String) : List Ex → (ℕ → ℝ) → Prop
  | [], _ => True
  | z :: l, v => IsR ρ D z (v 0) ∧ IsRL ρ D l fun i => v (i + 1)

theorem grows_firstBodyX (r : ℕ) (nr j j1 : Ex) (x : List Ex) : Grows C (firstBodyX C S r nr j j1 x) := by
  have hS := fun a b i => grows_stepX (C := C) a b i
  have h0 := fun a b => grows_butterfly0X (C := C) a b
  have h1 := fun j r a b => grows_butterfly1X (C := C) S j (tw := firstTwiddleX C S r) (grows_firstTwiddleX S r) a b
  have h8 : ∀ j, Grows C (do
      let j8 ← (mul C (.int 8) j : Gen CSt Ex)
      firstTwiddleX C S 3 j8) := fun j => Grows.bind (grows_mul _ _) fun _ => grows_firstTwiddleX S 3 _
  have h2 := fun j a b => grows_butterflyS1X (C := C) j h8 a b
  unfold firstBodyX
  split
  · exact Grows.bind (h0 _ _) fun _ => Grows.pure _
  · exact Grows.bind (h0 _ _) fun _ => Grows.bind (h0 _ _) fun _ => Grows.bind (hS _ _ _) fun _ => Grows.bind (h1 _ _ _ _) fun _ =>
      Grows.pure _
  · exact Grows.bind (h0 _ _) fun _ => Grows.bind (h0 _ _) fun _ => Grows.bind (h0 _ _) fun _ => Grows.bind (h0 _ _) fun _ =>
      Grows.bind (hS _ _ _) fun _ => Grows.bind (h1 _ _ _ _) fun _ => Grows.bind (hS _ _ _) fun _ => Grows.bind (h1 _ _ _ _) fun _ =>
      Grows.bind (hS _ _ _) fun _ => Grows.bind (h2 _ _ _) fun _ => Grows.bind (hS _ _ _) fun _ => Grows.bind (h2 _ _ _) fun _ =>
      Grows.pure _
  · exact Grows.ofRes _

theorem does_firstBodyX (hm : Means S tw ρ) (hc : NoClash C ρ M) {r : ℕ} {nr j j1 : Ex} {cnt i m : ℕ} (hn : IsI ρ D nr cnt)
    (hj : IsI ρ D j i) (h1 : r = 3 → IsI ρ D j1 ((i &&& (m - 1) : ℕ) : ℤ)) {x : List Ex} {a : ℕ → ℝ} (hx : IsRL ρ D x a) :
    Does C M D (firstBodyX C S r nr j j1 x) fun u => u.length = 2 ^ r / 2 ∧ IsL ρ D u (FFT.firstLevels r i cnt m (firstTw tw r) a) := by
  have gS := fun a b i => grows_stepX (C := C) a b i
  have g0 := fun a b => grows_butterfly0X (C := C) a b
  have g1 := fun j r a b => grows_butterfly1X (C := C) S j (tw := firstTwiddleX C S r) (grows_firstTwiddleX S r) a b
  have g8 : ∀ j, Grows C (do
      let j8 ← (mul C (.int 8) j : Gen CSt Ex)
      firstTwiddleX C S 3 j8) := fun j => Grows.bind (grows_mul _ _) fun _ => grows_firstTwiddleX S 3 _
  have g2 := fun j a b => grows_butterflyS1X (C := C) j g8 a b
  have t3 := first_twx (D := D) hm hc 3
  have t8 : TwX C ρ M D (fun j => do
      let j8 ← (mul C (.int 8) j : Gen CSt Ex)
      firstTwiddleX C S 3 j8) (fun j => firstTw tw 3 (8 * j)) :=
    ⟨g8, fun y k hy => Does.bind (does_mulI hc 8 hy) (grows_mul _ _) (fun _ => grows_firstTwiddleX S 3 _) fun z hz => t3.does z _ hz⟩
  unfold firstBodyX
  split
  · obtain ⟨x0, x1, -⟩ := hx
    simp only [Nat.reduceAdd] at x0 x1
    refine Does.bind (does_butterfly0X hc x0 x1) (g0 _ _) (fun _ => Grows.pure _) fun _ h => .pure ⟨rfl, h, trivial⟩
  · obtain ⟨x0, x1, x2, x3, -⟩ := hx
    simp only [Nat.reduceAdd] at x0 x1 x2 x3
    refine Does.bind (does_butterfly0X hc x0 x2) (g0 _ _) (fun _ => Grows.bind (g0 _ _) fun _ => Grows.bind (gS _ _ _) fun _ =>
      Grows.bind (g1 _ _ _ _) fun _ => Grows.pure _) fun _ y0 => ?_
    refine Does.bind (does_butterfly0X hc x1 x3) (g0 _ _) (fun _ => Grows.bind (gS _ _ _) fun _ =>
      Grows.bind (g1 _ _ _ _) fun _ => Grows.pure _) fun _ y1 => ?_
    refine Does.bind (does_stepX hc 0 hj hn) (gS _ _ _) (fun _ => Grows.bind (g1 _ _ _ _) fun _ => Grows.pure _) fun _ k => ?_
    rw [zero_mul, add_zero] at k
    refine Does.bind (does_butterfly1X hm hc (first_twx hm hc 2) k y0 y1) (g1 _ _ _ _) (fun _ => Grows.pure _) fun _ u =>
      .pure ⟨by simp, u.1, u.2, trivial⟩
  · obtain ⟨x0, x1, x2, x3, x4, x5, x6, x7, -⟩ := hx
    simp only [Nat.reduceAdd] at x0 x1 x2 x3 x4 x5 x6 x7
    refine Does.bind (does_butterfly0X hc x0 x4) (g0 _ _) (fun _ => Grows.bind (g0 _ _) fun _ => Grows.bind (g0 _ _) fun _ =>
      Grows.bind (g0 _ _) fun _ => Grows.bind (gS _ _ _) fun _ => Grows.bind (g1 _ _ _ _) fun _ => Grows.bind (gS _ _ _) fun _ =>
      Grows.bind (g1 _ _ _ _) fun _ => Grows.bind (gS _ _ _) fun _ => Grows.bind (g2 _ _ _) fun _ => Grows.bind (gS _ _ _) fun _ =>
      Grows.bind (g2 _ _ _) fun _ => Grows.pure _) fun _ y0 => ?_
    refine Does.bind (does_butterfly0X hc x1 x5) (g0 _ _) (fun _ => Grows.bind (g0 _ _) fun _ =>
      Grows.bind (g0 _ _) fun _ => Grows.bind (gS _ _ _) fun _ => Grows.bind (g1 _ _ _ _) fun _ => Grows.bind (gS _ _ _) fun _ =>
      Grows.bind (g1 _ _ _ _) fun _ => Grows.bind (gS _ _ _) fun _ => Grows.bind (g2 _ _ _) fun _ => Grows.bind (gS _ _ _) fun _ =>
      Grows.bind (g2 _ _ _) fun _ => Grows.pure _) fun _ y1 => ?_
    refine Does.bind (does_butterfly0X hc x2 x6) (g0 _ _) (fun _ =>
      Grows.bind (g0 _ _) fun _ => Grows.bind (gS _ _ _) fun _ => Grows.bind (g1 _ _ _ _) fun _ => Grows.bind (gS _ _ _) fun _ =>
      Grows.bind (g1 _ _ _ _) fun _ => Grows.bind (gS _ _ _) fun _ => Grows.bind (g2 _ _ _) fun _ => Grows.bind (gS _ _ _) fun _ =>
      Grows.bind (g2 _ _ _) fun _ => Grows.pure _) fun _ y2 => ?_
    refine Does.bind (does_butterfly0X hc x3 x7) (g0 _ _) (fun _ =>
      Grows.bind (gS _ _ _) fun _ => Grows.bind (g1 _ _ _ _) fun _ => Grows.bind (gS _ _ _) fun _ =>
      Grows.bind (g1 _ _ _ _) fun _ => Grows.bind (gS _ _ _) fun _ => Grows.bind (g2 _ _ _) fun _ => Grows.bind (gS _ _ _) fun _ =>
      Grows.bind (g2 _ _ _) fun _ => Grows.pure _) fun _ y3 => ?_
    refine Does.bind (does_stepX hc 0 hj hn) (gS _ _ _) (fun _ => Grows.bind (g1 _ _ _ _) fun _ => Grows.bind (gS _ _ _) fun _ =>
      Grows.bind (g1 _ _ _ _) fun _ => Grows.bind (gS _ _ _) fun _ => Grows.bind (g2 _ _ _) fun _ => Grows.bind (gS _ _ _) fun _ =>
      Grows.bind (g2 _ _ _) fun _ => Grows.pure _) fun _ k0 => ?_
    rw [zero_mul, add_zero] at k0
    refine Does.bind (does_butterfly1X hm hc t3 k0 y0 y2) (g1 _ _ _ _) (fun _ => Grows.bind (gS _ _ _) fun _ =>
      Grows.bind (g1 _ _ _ _) fun _ => Grows.bind (gS _ _ _) fun _ => Grows.bind (g2 _ _ _) fun _ => Grows.bind (gS _ _ _) fun _ =>
      Grows.bind (g2 _ _ _) fun _ => Grows.pure _) fun _ u => ?_
    refine Does.bind (does_stepX hc 1 hj hn) (gS _ _ _) (fun _ => 
      Grows.bind (g1 _ _ _ _) fun _ => Grows.bind (gS _ _ _) fun _ => Grows.bind (g2 _ _ _) fun _ => Grows.bind (gS _ _ _) fun _ =>
      Grows.bind (g2 _ _ _) fun _ => Grows.pure _) fun _ k1 => ?_
    rw [one_mul] at k1
    refine Does.bind (does_butterfly1X hm hc t3 k1 y1 y3) (g1 _ _ _ _) (fun _ =>
      Grows.bind (gS _ _ _) fun _ => Grows.bind (g2 _ _ _) fun _ => Grows.bind (gS _ _ _) fun _ =>
      Grows.bind (g2 _ _ _) fun _ => Grows.pure _) fun _ v => ?_
    refine Does.bind (does_stepX hc 0 (h1 rfl) hn) (gS _ _ _) (fun _ => Grows.bind (g2 _ _ _) fun _ => Grows.bind (gS _ _ _) fun _ =>
      Grows.bind (g2 _ _ _) fun _ => Grows.pure _) fun _ k2 => ?_
    rw [zero_mul, add_zero] at k2
    refine Does.bind (does_butterflyS1X hc t8 k2 u.1 v.1) (g2 _ _ _) (fun _ => Grows.bind (gS _ _ _) fun _ =>
      Grows.bind (g2 _ _ _) fun _ => Grows.pure _) fun _ a => ?_
    refine Does.bind (does_stepX hc 0 (h1 rfl) hn) (gS _ _ _) (fun _ => Grows.bind (g2 _ _ _) fun _ => Grows.pure _) fun _ k3 => ?_
    rw [zero_mul, add_zero] at k3
    refine Does.bind (does_butterflyS1X hc t8 k3 u.2 v.2) (g2 _ _ _) (fun _ => Grows.pure _) fun _ b => ?_
    exact .pure ⟨by simp, a.1, a.2, b.1, b.2, trivial⟩
  · exact .error

/-! ## Cells -/

/-- A list of expressions for integers. -/
def IsIL (ρ : Interp ℂ) (D : List String) : List Ex → (ℕ → ℤ) → Prop
  | [], _ => True
  | z :: l, v => IsI ρ D z (v 0) ∧ IsIL ρ D l fun i => v (i + 1)

theorem grows_locsX (j dj : Ex) : ∀ (n i0 : ℕ), Grows C (locsX C j dj i0 n) := by
  intro n
  induction n with
  | zero => intro i0; exact Grows.pure _
  | succ n ih =>
    intro i0
    unfold locsX
    exact Grows.bind (grows_stepX _ _ _) fun _ => Grows.bind (ih _) fun _ => Grows.pure _

theorem does_locsX (hc : NoClash C ρ M) {j dj : Ex} {a b : ℤ} (hj : IsI ρ D j a) (hd : IsI ρ D dj b) : ∀ (n i0 : ℕ),
    Does C M D (locsX C j dj i0 n) fun l => l.length = n ∧ IsIL ρ D l fun i => a + ((i0 + i : ℕ) : ℤ) * b := by
  intro n
  induction n with
  | zero => intro i0; exact .pure ⟨rfl, trivial⟩
  | succ n ih =>
    intro i0
    unfold locsX
    refine Does.bind (does_stepX hc i0 hj hd) (grows_stepX _ _ _) (fun _ => Grows.bind (grows_locsX _ _ _ _) fun _ => Grows.pure _) fun e he => ?_
    refine Does.bind (ih (i0 + 1)) (grows_locsX _ _ _ _) (fun _ => Grows.pure _) fun l hl => ?_
    refine .pure ⟨by simp [hl.1], he, ?_⟩
    have := hl.2
    simpa only [Nat.add_assoc, Nat.add_comm 1] using this

theorem grows_splitAll : ∀ l : List Ex, Grows C (splitAll C l) := by
  intro l
  induction l with
  | nil => exact Grows.pure _
  | cons x l ih => exact Grows.bind (grows_splitX x) fun _ => Grows.bind ih fun _ => Grows.pure _

theorem does_splitAll (hm : Means S tw ρ) (hc : NoClash C ρ M) : ∀ (l : List Ex) (a : ℕ → ℂ), (∀ x ∈ l, In D x) →
    (∀ i (h : i < l.length), (l[i]).val ρ = a i) → Does C M D (splitAll C l) fun z => z.length = l.length ∧ IsL ρ D z a := by
  intro l
  induction l with
  | nil => intro a _ _; exact .pure ⟨rfl, trivial⟩
  | cons x l ih =>
    intro a hx ha
    unfold splitAll
    refine Does.bind (does_splitX hm hc (hx x (by simp)) (ha 0 (by simp))) (grows_splitX x)
      (fun _ => Grows.bind (grows_splitAll l) fun _ => Grows.pure _) fun z hz => ?_
    refine Does.bind (ih (fun i => a (i + 1)) (fun y hy => hx y (by simp [hy])) fun i h => ha (i + 1) (by simpa using h)) (grows_splitAll l)
      (fun _ => Grows.pure _) fun zs hzs => ?_
    exact .pure ⟨by simp [hzs.1], hz, hzs.2⟩

end

end Mandelbrot.Sym
