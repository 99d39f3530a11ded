import Verif.Sym.FFTSim
import Verif.Sym.Exact

/-!
# The butterflies on expressions do not fail
-/

namespace Mandelbrot.Sym

open Sig (Sg)

namespace Spec

/-- The signatures that are drawn are in range. -/
structure _root_.Mandelbrot.Sym.Seeds.Ok (C : Cfg) (S : Seeds) : Prop where
  sig : ∀ v i, S.sig v i < C.F i
  sqrtHalf : ∀ i, S.sqrtHalf.2 i < C.F i
  constRe : ∀ j s i, (S.twiddle j s).1.2 i < C.F i
  constIm : ∀ j s i, (S.twiddle j s).2.2 i < C.F i

end Spec

open Spec

/-- The parts have integers in range and exact signatures. -/
def GoodC (C : Cfg) (z : CEx) : Prop := Good C true z.re ∧ Good C true z.im

section
variable {C : Cfg} {S : Seeds}

/-- A computation succeeds in exact mode, with a property of its result. -/
def RunsX (C : Cfg) {α : Type} (m : Gen CSt α) (Q : α → Prop) : Prop :=
  ∀ st, st.Good C → st.exact = true → ∃ r, m st = .ok r ∧ r.2.Good C ∧ r.2.exact = true ∧ Q r.1

theorem RunsX.pure {α : Type} {Q : α → Prop} {a : α} (h : Q a) : RunsX C (Pure.pure a : Gen CSt α) Q := fun st hs he => ⟨(a, st), rfl, hs, he, h⟩

theorem RunsX.bind {α β : Type} {m : Gen CSt α} {k : α → Gen CSt β} {Q : α → Prop} {Q' : β → Prop} (h : RunsX C m Q)
    (hk : ∀ a, Q a → RunsX C (k a) Q') : RunsX C (m >>= k) Q' := by
  intro st hs he
  obtain ⟨r, e, hr, hx, q⟩ := h st hs he
  obtain ⟨r', e', hr', hx', q'⟩ := hk r.1 q r.2 hr hx
  refine ⟨r', ?_, hr', hx', q'⟩
  change (m st >>= fun x => k x.1 x.2) = _
  rw [e, bok]
  exact e'

theorem RunsX.mono {α : Type} {m : Gen CSt α} {Q Q' : α → Prop} (h : RunsX C m Q) (hq : ∀ a, Q a → Q' a) : RunsX C m Q' := by
  intro st hs he
  obtain ⟨r, e, hr, hx, q⟩ := h st hs he
  exact ⟨r, e, hr, hx, hq _ q⟩

theorem RunsX.check {p : Prop} [Decidable p] (h : p) : RunsX C (Sym.ofRes (slowAssert p) : Gen CSt Unit) fun _ => True := by
  intro st hs he
  refine ⟨((), st), ?_, hs, he, trivial⟩
  rw [slowAssert_true h]
  rfl

theorem RunsX.result {α : Type} {m : Gen CSt α} {Q : α → Prop} (h : RunsX C m Q) {st : CSt} {r} (hs : st.Good C) (he : st.exact = true)
    (e : m st = .ok r) : r.2.Good C ∧ r.2.exact = true ∧ Q r.1 := by
  obtain ⟨r', e', h'⟩ := h st hs he
  rw [e] at e'
  cases e'
  exact h'

theorem RunsX.of_good {m : Gen CSt Ex} (h : ∀ st : CSt, st.Good C → st.exact = true → ∃ r v, m st = .ok r ∧ GStep C v st r) :
    RunsX C m (Good C true) := by
  intro st hs he
  obtain ⟨r, v, e, g⟩ := h st hs he
  exact ⟨r, e, g.tbl, g.exact.trans he, he ▸ g.good⟩

theorem good_int {n : ℤ} (h1 : -2 ^ 31 < n) (h2 : n < 2 ^ 31) : Good C true (.int n) := ⟨⟨h1, h2⟩, fun _ => trivial⟩

theorem good_name (hS : S.Ok C) (v : String) : Good C true (S.name v) := ⟨trivial, fun _ => hS.sig v⟩

theorem good_names (hS : S.Ok C) (l : List String) : ∀ e ∈ l.map S.name, Good C true e := by
  intro e he
  obtain ⟨v, -, rfl⟩ := List.mem_map.mp he
  exact good_name hS v

variable (hC : C.Ok)
include hC

theorem runs_neg {x : Ex} (hx : Good C true x) : RunsX C (neg C x) (Good C true) := .of_good fun st hs he => by
  obtain ⟨r, e, g⟩ := neg_good hC hs (he ▸ hx)
  exact ⟨r, _, e, g⟩

theorem runs_add {x y : Ex} (hx : Good C true x) (hy : Good C true y) : RunsX C (add C x y) (Good C true) := .of_good fun st hs he => by
  obtain ⟨r, e, g⟩ := add_good hC hs (x := x) (y := y) (he ▸ hx) (he ▸ hy)
  exact ⟨r, _, e, g⟩

theorem runs_sub {x y : Ex} (hx : Good C true x) (hy : Good C true y) : RunsX C (sub C x y) (Good C true) := .of_good fun st hs he => by
  obtain ⟨r, e, g⟩ := sub_good hC hs (x := x) (y := y) (he ▸ hx) (he ▸ hy)
  exact ⟨r, _, e, g⟩

theorem runs_mul {x y : Ex} (hx : Good C true x) (hy : Good C true y) : RunsX C (mul C x y) (Good C true) := .of_good fun st hs he => by
  obtain ⟨r, e, g⟩ := mul_good hC hs (x := x) (y := y) (he ▸ hx) (he ▸ hy)
  exact ⟨r, _, e, g⟩

theorem runs_mulI {x : Ex} {k : ℤ} (hx : Good C true x) (h1 : -2 ^ 31 < k := by norm_num) (h2 : k < 2 ^ 31 := by norm_num) :
    RunsX C (mul C (.int k) x) (Good C true) := runs_mul hC (good_int h1 h2) hx

theorem runs_cse {x : Ex} (hx : Good C true x) : RunsX C (fun st => .ok (cse C x st)) (Good C true) := .of_good fun _ hs _ =>
  ⟨_, _, rfl, cse_good hC hs hx.1 fun _ => hx.2 rfl⟩

theorem runs_addC {z w : CEx} (hz : GoodC C z) (hw : GoodC C w) : RunsX C (addC C z w) (GoodC C) :=
  .bind (runs_add hC hz.1 hw.1) fun _ h1 => .bind (runs_add hC hz.2 hw.2) fun _ h2 => .pure ⟨h1, h2⟩

theorem runs_subC {z w : CEx} (hz : GoodC C z) (hw : GoodC C w) : RunsX C (subC C z w) (GoodC C) :=
  .bind (runs_sub hC hz.1 hw.1) fun _ h1 => .bind (runs_sub hC hz.2 hw.2) fun _ h2 => .pure ⟨h1, h2⟩

theorem runs_mulC {z w : CEx} (hz : GoodC C z) (hw : GoodC C w) : RunsX C (mulC C z w) (GoodC C) :=
  .bind (runs_mul hC hz.1 hw.1) fun _ h1 => .bind (runs_mul hC hz.2 hw.2) fun _ h2 => .bind (runs_sub hC h1 h2) fun _ h3 =>
    .bind (runs_mul hC hz.1 hw.2) fun _ h4 => .bind (runs_mul hC hz.2 hw.1) fun _ h5 => .bind (runs_add hC h4 h5) fun _ h6 => .pure ⟨h3, h6⟩

theorem runs_scaleC {a : Ex} {z : CEx} (ha : Good C true a) (hz : GoodC C z) : RunsX C (scaleC C a z) (GoodC C) :=
  .bind (runs_mul hC ha hz.1) fun _ h1 => .bind (runs_mul hC ha hz.2) fun _ h2 => .pure ⟨h1, h2⟩

theorem runs_conjC {z : CEx} (hz : GoodC C z) : RunsX C (conjC C z) (GoodC C) := .bind (runs_neg hC hz.2) fun _ h1 => .pure ⟨hz.1, h1⟩

theorem runs_leftC {z : CEx} (hz : GoodC C z) : RunsX C (leftC C z) (GoodC C) := .bind (runs_neg hC hz.2) fun _ h1 => .pure ⟨h1, hz.1⟩

theorem runs_diagPosC {a : Ex} {z : CEx} (ha : Good C true a) (hz : GoodC C z) : RunsX C (diagPosC C a z) (GoodC C) :=
  .bind (runs_sub hC hz.1 hz.2) fun _ h1 => .bind (runs_add hC hz.2 hz.1) fun _ h2 => runs_scaleC hC ha ⟨h1, h2⟩

theorem runs_diagNegC {a : Ex} {z : CEx} (ha : Good C true a) (hz : GoodC C z) : RunsX C (diagNegC C a z) (GoodC C) :=
  .bind (runs_add hC hz.1 hz.2) fun _ h1 => .bind (runs_sub hC hz.2 hz.1) fun _ h2 => runs_scaleC hC ha ⟨h1, h2⟩

theorem runs_splitX {x : Ex} (hx : Good C true x) : RunsX C (splitX C x) (GoodC C) := by
  have hf : ∀ f, Good C true (.field x f (C.H (some f) [x.sig C])) := fun f => ⟨hx.1, fun _ => ⟨hx.2 rfl, fun i => hC.H _ _ i⟩⟩
  exact .bind (runs_cse hC (hf "r")) fun _ h1 => .bind (runs_cse hC (hf "i")) fun _ h2 => .pure ⟨h1, h2⟩

theorem runs_splitAll : ∀ l : List Ex, (∀ e ∈ l, Good C true e) → RunsX C (splitAll C l) fun z => z.length = l.length ∧ ∀ w ∈ z, GoodC C w
  | [], _ => .pure ⟨rfl, by simp⟩
  | x :: l, h => .bind (runs_splitX hC (h x (by simp))) fun z hz => .bind (runs_splitAll l fun e he => h e (by simp [he])) fun zs hzs =>
      .pure ⟨by simp [hzs.1], by simpa using ⟨hz, hzs.2⟩⟩

theorem runs_sqrtHalfX (hS : S.Ok C) : RunsX C (sqrtHalfX C S) (Good C true) := runs_cse hC ⟨trivial, fun _ => hS.sqrtHalf⟩

theorem runs_constantTwiddleX (hS : S.Ok C) (j : ℤ) {s : ℕ} (h : s = 1 ∨ s = 2 ∨ s = 3) : RunsX C (constantTwiddleX C S j s) (GoodC C) :=
  .bind (.check h) fun _ _ => .bind (runs_cse hC ⟨trivial, fun _ => hS.constRe j s⟩) fun _ h1 =>
    .bind (runs_cse hC ⟨trivial, fun _ => hS.constIm j s⟩) fun _ h2 => .pure ⟨h1, h2⟩

theorem runs_baseTwiddleX {j : Ex} (hj : Good C true j) : RunsX C (baseTwiddleX C j) (GoodC C) :=
  .bind (runs_cse hC (x := .call1 "twiddle" j _) ⟨hj.1, fun _ => ⟨hj.2 rfl, fun i => hC.H _ _ i⟩⟩) fun _ h => runs_splitX hC h

/-- Follows a sequence of operations on good expressions. -/
macro "runs" hC:term:max htw:term:max hS:term:max : tactic => `(tactic| repeat (first
  | refine RunsX.bind (runs_addC $hC (by assumption) (by assumption)) fun _ _ => ?_
  | refine RunsX.bind (runs_subC $hC (by assumption) (by assumption)) fun _ _ => ?_
  | refine RunsX.bind (runs_mulC $hC (by assumption) (by assumption)) fun _ _ => ?_
  | refine RunsX.bind (runs_conjC $hC (by assumption)) fun _ _ => ?_
  | refine RunsX.bind (runs_leftC $hC (by assumption)) fun _ _ => ?_
  | refine RunsX.bind (runs_diagPosC $hC (by assumption) (by assumption)) fun _ _ => ?_
  | refine RunsX.bind (runs_diagNegC $hC (by assumption) (by assumption)) fun _ _ => ?_
  | refine RunsX.bind (runs_mulI $hC (by assumption)) fun _ _ => ?_
  | refine RunsX.bind (runs_sqrtHalfX $hC $hS) fun _ _ => ?_
  | refine RunsX.bind ($htw _ (by assumption)) fun _ _ => ?_))

theorem runs_butterfly0X {x0 x1 : Ex} (h0 : Good C true x0) (h1 : Good C true x1) : RunsX C (butterfly0X C x0 x1) (GoodC C) :=
  .bind (runs_neg hC h1) fun _ h => .pure ⟨h0, h⟩

variable {twiddle : Ex → Gen CSt CEx} (htw : ∀ j, Good C true j → RunsX C (twiddle j) (GoodC C)) (hS : S.Ok C)

include htw in
theorem runs_butterflyS1X {j : Ex} (hj : Good C true j) {y0 y1 : CEx} (h0 : GoodC C y0) (h1 : GoodC C y1) :
    RunsX C (butterflyS1X C j twiddle y0 y1) fun u => GoodC C u.1 ∧ GoodC C u.2 := by
  unfold butterflyS1X
  runs hC htw hC
  exact .pure ⟨by assumption, by assumption⟩

omit htw in
include hS in
theorem runs_butterfly1X {Q : Ex → Prop} {j : Ex} (h3 : RunsX C (mul C (.int 3) j) Q) (htw : ∀ j, Q j → RunsX C (twiddle j) (GoodC C))
    (htw1 : RunsX C (twiddle j) (GoodC C)) {y0 y1 : CEx} (h0 : GoodC C y0) (h1 : GoodC C y1) :
    RunsX C (butterfly1X C S j twiddle y0 y1) fun u => GoodC C u.1 ∧ GoodC C u.2 :=
  .bind (runs_sqrtHalfX hC hS) fun _ k1 => .bind (runs_diagNegC hC k1 h1) fun _ k2 => .bind htw1 fun _ k3 => .bind (runs_conjC hC k3) fun _ k4 =>
    .bind (runs_addC hC h0 k2) fun _ k5 => .bind (runs_mulC hC k4 k5) fun _ k6 => .bind h3 fun _ k7 => .bind (htw _ k7) fun _ k8 =>
      .bind (runs_subC hC h0 k2) fun _ k9 => .bind (runs_mulC hC k8 k9) fun _ k10 => .bind (runs_conjC hC k10) fun _ k11 => .pure ⟨k6, k11⟩

include htw in
theorem runs_butterflyS2X {j : Ex} (hj : Good C true j) {y : List CEx} (hl : y.length = 4) (hy : ∀ z ∈ y, GoodC C z) :
    RunsX C (butterflyS2X C j twiddle y) fun u => u.length = 4 ∧ ∀ z ∈ u, GoodC C z := by
  match y, hl with
  | [y0, y1, y2, y3], _ =>
    simp only [List.mem_cons, List.not_mem_nil, or_false, forall_eq_or_imp, forall_eq] at hy
    obtain ⟨h0, h1, h2, h3⟩ := hy
    unfold butterflyS2X
    runs hC htw hC
    refine .pure ⟨rfl, ?_⟩
    simp only [List.mem_cons, List.not_mem_nil, or_false, forall_eq_or_imp, forall_eq]
    refine ⟨?_, ?_, ?_, ?_⟩ <;> assumption

include htw hS in
theorem runs_butterflyS3X {j : Ex} (hj : Good C true j) {y : List CEx} (hl : y.length = 8) (hy : ∀ z ∈ y, GoodC C z) :
    RunsX C (butterflyS3X C S j twiddle y) fun u => u.length = 8 ∧ ∀ z ∈ u, GoodC C z := by
  match y, hl with
  | [y0, y1, y2, y3, y4, y5, y6, y7], _ =>
    simp only [List.mem_cons, List.not_mem_nil, or_false, forall_eq_or_imp, forall_eq] at hy
    obtain ⟨h0, h1, h2, h3, h4, h5, h6, h7⟩ := hy
    unfold butterflyS3X
    runs hC htw hS
    refine .pure ⟨rfl, ?_⟩
    simp only [List.mem_cons, List.not_mem_nil, or_false, forall_eq_or_imp, forall_eq]
    refine ⟨?_, ?_, ?_, ?_, ?_, ?_, ?_, ?_⟩ <;> assumption

omit htw in
include hS in
theorem runs_levelsBodyX {r : ℕ} (hr : r = 1 ∨ r = 2 ∨ r = 3) {j : Ex} (hj : Good C true j) {y : List CEx} (hl : y.length = 2 ^ r)
    (hy : ∀ z ∈ y, GoodC C z) : RunsX C (levelsBodyX C S r j y) fun u => u.length = 2 ^ r ∧ ∀ z ∈ u, GoodC C z := by
  have htw : ∀ j, Good C true j → RunsX C (baseTwiddleX C j) (GoodC C) := fun j hj => runs_baseTwiddleX hC hj
  rcases hr with rfl | rfl | rfl
  · match y, hl with
    | [y0, y1], _ =>
      simp only [List.mem_cons, List.not_mem_nil, or_false, forall_eq_or_imp, forall_eq] at hy
      refine .bind (runs_butterflyS1X hC htw hj hy.1 hy.2) fun u hu => .pure ⟨rfl, ?_⟩
      simpa using hu
  · exact runs_butterflyS2X hC htw hj hl hy
  · exact runs_butterflyS3X hC htw hS hj hl hy

theorem runs_stepX {a b : Ex} {i : ℤ} (h1 : -2 ^ 31 < i) (h2 : i < 2 ^ 31) (ha : Good C true a) (hb : Good C true b) :
    RunsX C (stepX C a i b) (Good C true) := .bind (runs_mulI hC hb h1 h2) fun _ h => runs_add hC ha h

theorem runs_locsX {j dj : Ex} (hj : Good C true j) (hd : Good C true dj) : ∀ (n i0 : ℕ), i0 + n ≤ 2 ^ 31 →
    RunsX C (locsX C j dj i0 n) fun l => l.length = n ∧ ∀ e ∈ l, Good C true e
  | 0, _, _ => .pure ⟨rfl, by simp⟩
  | n + 1, i0, h => .bind (runs_stepX hC (by omega) (by omega) hj hd) fun _ h1 => .bind (runs_locsX hj hd n (i0 + 1) (by omega)) fun _ h2 =>
      .pure ⟨by simp [h2.1], by simpa using ⟨h1, h2.2⟩⟩

theorem runs_firstTwiddle3 {j : Ex} (hj : Good C true j) : RunsX C (firstTwiddleX C S 3 j) (GoodC C) := by
  unfold firstTwiddleX
  rw [if_pos rfl]
  exact runs_baseTwiddleX hC hj

omit htw in
include hS in
theorem runs_firstTwiddle2 : RunsX C (firstTwiddleX C S 2 (.int 0)) (GoodC C) := by
  unfold firstTwiddleX
  rw [if_neg (by decide)]
  exact runs_constantTwiddleX hC hS 0 (.inr (.inl rfl))

omit hC in
theorem runs_zero {x : Ex} : RunsX C (mul C (.int 0) x) (· = .int 0) := fun st hs he => ⟨(.int 0, st), by unfold mul; rfl, hs, he, rfl⟩

omit hC in
theorem runs_threeZero : RunsX C (mul C (.int 3) (.int 0)) (· = .int 0) := fun st hs he => ⟨(.int 0, st), by unfold mul; rfl, hs, he, rfl⟩

omit hC in
theorem runs_stepZero {x : Ex} : RunsX C (stepX C (.int 0) 0 x) (· = .int 0) :=
  .bind runs_zero fun _ h st hs he => ⟨(.int 0, st), by subst h; unfold add; rfl, hs, he, rfl⟩

omit htw in
include hS in
theorem runs_firstBodyX {r : ℕ} (hr : r = 1 ∨ r = 2 ∨ r = 3) {x : List Ex} (hl : x.length = 2 ^ r) (hx : ∀ e ∈ x, Good C true e) :
    RunsX C (firstBodyX C S r (firstLoop S r).1 (firstLoop S r).2 (S.name "j1") x) fun u => u.length = 2 ^ r / 2 ∧ ∀ z ∈ u, GoodC C z := by
  rcases hr with rfl | rfl | rfl
  · match x, hl with
    | [x0, x1], _ =>
      simp only [List.mem_cons, List.not_mem_nil, or_false, forall_eq_or_imp, forall_eq] at hx
      exact .bind (runs_butterfly0X hC hx.1 hx.2) fun _ h => .pure ⟨by simp, by simpa using h⟩
  · match x, hl with
    | [x0, x1, x2, x3], _ =>
      simp only [List.mem_cons, List.not_mem_nil, or_false, forall_eq_or_imp, forall_eq] at hx
      obtain ⟨h0, h1, h2, h3⟩ := hx
      refine .bind (runs_butterfly0X hC h0 h2) fun _ k0 => .bind (runs_butterfly0X hC h1 h3) fun _ k1 => .bind runs_stepZero fun k hk => ?_
      subst hk
      refine .bind (runs_butterfly1X hC hS runs_threeZero (fun j e => ?_) (runs_firstTwiddle2 hC hS) k0 k1) fun _ h => .pure ⟨by simp, by simpa using h⟩
      subst e
      exact runs_firstTwiddle2 hC hS
  · match x, hl with
    | [x0, x1, x2, x3, x4, x5, x6, x7], _ =>
      simp only [List.mem_cons, List.not_mem_nil, or_false, forall_eq_or_imp, forall_eq] at hx
      obtain ⟨h0, h1, h2, h3, h4, h5, h6, h7⟩ := hx
      have hn := good_name hS "n8"
      have hj := good_name hS "j"
      have hj1 := good_name hS "j1"
      have htw : ∀ j, Good C true j → RunsX C (firstTwiddleX C S 3 j) (GoodC C) := fun j h => runs_firstTwiddle3 hC h
      have htw8 : ∀ j, Good C true j → RunsX C (do
          let j8 ← (mul C (.int 8) j : Gen CSt Ex)
          firstTwiddleX C S 3 j8) (GoodC C) := fun j h => .bind (runs_mulI hC h) fun _ h => htw _ h
      refine .bind (runs_butterfly0X hC h0 h4) fun _ k0 => .bind (runs_butterfly0X hC h1 h5) fun _ k1 =>
        .bind (runs_butterfly0X hC h2 h6) fun _ k2 => .bind (runs_butterfly0X hC h3 h7) fun _ k3 =>
        .bind (runs_stepX hC (by norm_num) (by norm_num) hj hn) fun _ g0 =>
        .bind (runs_butterfly1X hC hS (runs_mulI hC g0) htw (htw _ g0) k0 k2) fun _ k4 =>
        .bind (runs_stepX hC (by norm_num) (by norm_num) hj hn) fun _ g1 =>
        .bind (runs_butterfly1X hC hS (runs_mulI hC g1) htw (htw _ g1) k1 k3) fun _ k5 =>
        .bind (runs_stepX hC (by norm_num) (by norm_num) hj1 hn) fun _ g2 =>
        .bind (runs_butterflyS1X hC htw8 g2 k4.1 k5.1) fun _ k6 =>
        .bind (runs_stepX hC (by norm_num) (by norm_num) hj1 hn) fun _ g3 =>
        .bind (runs_butterflyS1X hC htw8 g3 k4.2 k5.2) fun _ k7 => .pure ⟨by simp, ?_⟩
      simp only [List.mem_cons, List.not_mem_nil, or_false, forall_eq_or_imp, forall_eq]
      exact ⟨k6.1, k6.2, k7.1, k7.2⟩

omit hC in
theorem good_flatten {l : List CEx} (h : ∀ z ∈ l, GoodC C z) : ∀ e ∈ flatten l, Good C true e := by
  intro e he
  simp only [flatten, List.mem_flatMap, List.mem_cons, List.not_mem_nil, or_false] at he
  obtain ⟨z, hz, rfl | rfl⟩ := he
  · exact (h z hz).1
  · exact (h z hz).2

end

end Mandelbrot.Sym
