import Verif.Sym.ExpansionRun
import Verif.Sym.Exact

/-!
# The generators of the operators on expansions do not fail
-/

namespace Mandelbrot.Sym

open Sig (Sg)
open Spec

section
variable {C : Cfg}

/-- The state of the generator: integers in range, and the signatures go by structure. -/
def Ready (C : Cfg) (st : CSt) : Prop := st.Good C ∧ st.exact = false

/-- A computation succeeds, with a property of its result. -/
def Total (C : Cfg) {α : Type} (m : Gen CSt α) (Q : α → Prop) : Prop := ∀ st, Ready C st → ∃ r, m st = .ok r ∧ Ready C r.2 ∧ Q r.1

theorem Total.pure {α : Type} {Q : α → Prop} {a : α} (h : Q a) : Total C (Pure.pure a : Gen CSt α) Q := fun st hs => ⟨(a, st), rfl, hs, h⟩

theorem Total.bind {α β : Type} {m : Gen CSt α} {k : α → Gen CSt β} {Q : α → Prop} {Q' : β → Prop} (h : Total C m Q)
    (hk : ∀ a, Q a → Total C (k a) Q') : Total C (m >>= k) Q' := by
  intro st hs
  obtain ⟨r, e, hr, q⟩ := h st hs
  obtain ⟨r', e', hr', q'⟩ := hk r.1 q r.2 hr
  refine ⟨r', ?_, hr', q'⟩
  change (m st >>= fun x => k x.1 x.2) = _
  rw [e, bok]
  exact e'

theorem Total.assert {α : Type} {c : Prop} [Decidable c] {m : Gen CSt α} {Q : α → Prop} (hc : c) (h : Total C m Q) :
    Total C (ofRes (slowAssert c) >>= fun _ => m) Q := by
  refine Total.bind (Q := fun _ => True) (fun st hs => ⟨((), st), ?_, hs, trivial⟩) fun _ _ => h
  rw [slowAssert_true hc]
  rfl

theorem good_false {e : Ex} {st : CSt} (hs : st.exact = false) : Good C st.exact e ↔ e.IntsOk := by
  rw [hs]; simp [Good]

theorem Ready.of_step {st : CSt} (hs : Ready C st) {v} {r : Ex × CSt} (h : GStep C v st r) : Ready C r.2 ∧ r.1.IntsOk :=
  ⟨⟨h.tbl, h.exact.trans hs.2⟩, h.good.1⟩

variable (hC : C.Ok)
include hC

theorem neg_total {x : Ex} (hx : x.IntsOk) : Total C (neg C x) Ex.IntsOk := by
  intro st hs
  obtain ⟨r, e, h⟩ := neg_good hC hs.1 ((good_false hs.2).mpr hx)
  exact ⟨r, e, hs.of_step h⟩

theorem add_total {x y : Ex} (hx : x.IntsOk) (hy : y.IntsOk) : Total C (add C x y) Ex.IntsOk := by
  intro st hs
  obtain ⟨r, e, h⟩ := add_good hC hs.1 ((good_false hs.2).mpr hx) ((good_false hs.2).mpr hy)
  exact ⟨r, e, hs.of_step h⟩

theorem sub_total {x y : Ex} (hx : x.IntsOk) (hy : y.IntsOk) : Total C (sub C x y) Ex.IntsOk := by
  intro st hs
  obtain ⟨r, e, h⟩ := sub_good hC hs.1 ((good_false hs.2).mpr hx) ((good_false hs.2).mpr hy)
  exact ⟨r, e, hs.of_step h⟩

theorem mul_total {x y : Ex} (hx : x.IntsOk) (hy : y.IntsOk) : Total C (mul C x y) Ex.IntsOk := by
  intro st hs
  obtain ⟨r, e, h⟩ := mul_good hC hs.1 ((good_false hs.2).mpr hx) ((good_false hs.2).mpr hy)
  exact ⟨r, e, hs.of_step h⟩

theorem fma_total {x y z : Ex} (w : Sg) (hx : x.IntsOk) (hy : y.IntsOk) (hz : z.IntsOk) :
    Total C (fun st => .ok (fma C x y z w st)) Ex.IntsOk := by
  intro st hs
  exact ⟨_, rfl, hs.of_step (cse_good hC (e := .call3 "fma" x y z w) hs.1 ⟨hx, hy, hz⟩ fun h => by rw [hs.2] at h; cases h)⟩

omit hC in
theorem ints_zero : (Ex.int 0).IntsOk := ⟨by norm_num, by norm_num⟩

theorem twoSum_total {a b : Ex} (ha : a.IntsOk) (hb : b.IntsOk) : Total C (twoSumX C a b) fun r =>
    r.1.IntsOk ∧ r.2.IntsOk ∧ (b = .int 0 → r.2 = .int 0) := by
  unfold twoSumX
  split_ifs with h1 h2
  · exact .pure ⟨hb, ints_zero, fun _ => rfl⟩
  · exact .pure ⟨ha, ints_zero, fun _ => rfl⟩
  · have hb0 : b ≠ .int 0 := fun e => h2 (by rw [e]; rfl)
    refine (add_total hC ha hb).bind fun x hx => (sub_total hC hx ha).bind fun v hv => (sub_total hC hx hv).bind fun w hw =>
      (sub_total hC ha hw).bind fun p hp => (sub_total hC hb hv).bind fun q hq => (add_total hC hp hq).bind fun y hy =>
      .pure ⟨hx, hy, fun e => absurd e hb0⟩

theorem twoProd_total (w : Sg) {a b : Ex} (ha : a.IntsOk) (hb : b.IntsOk) : Total C (twoProdX C w a b) fun r => r.1.IntsOk ∧ r.2.IntsOk :=
  (mul_total hC ha hb).bind fun _ hx => (neg_total hC hx).bind fun _ hm => (fma_total hC w ha hb hm).bind fun _ hy => .pure ⟨hx, hy⟩

omit hC in
/-- Lists of expressions with integers in range. -/
def IntsOkL (l : List Ex) : Prop := ∀ e ∈ l, e.IntsOk

omit hC in
theorem intsL_cons {a : Ex} {l : List Ex} : IntsOkL (a :: l) ↔ a.IntsOk ∧ IntsOkL l := by simp [IntsOkL]

theorem pass_total : ∀ (l : List Ex) (t : Ex), t.IntsOk → IntsOkL l → Total C (passX C t l) fun r => IntsOkL r ∧ r.length = l.length + 1
  | [], t, ht, _ => .pure ⟨by simpa [IntsOkL] using ht, rfl⟩
  | s :: l, t, ht, hl => by
    rw [intsL_cons] at hl
    unfold passX
    refine (twoSum_total hC ht hl.1).bind fun r hr => (pass_total l r.2 hr.2.1 hl.2).bind fun q hq => .pure ⟨?_, ?_⟩
    · exact intsL_cons.mpr ⟨hr.1, hq.1⟩
    · simp [hq.2]

theorem sumState_total : ∀ (l state : List Ex), IntsOkL l → IntsOkL state → Total C (sumStateX C l state) fun r =>
    IntsOkL r ∧ r.length = state.length + l.length
  | [], state, _, hs => .pure ⟨hs, by simp⟩
  | t :: l, state, hl, hs => by
    rw [intsL_cons] at hl
    unfold sumStateX
    refine (pass_total hC state t hl.1 hs).bind fun q hq => ?_
    intro st h
    obtain ⟨r, e, h1, h2, h3⟩ := sumState_total l q hl.2 hq.1 st h
    exact ⟨r, e, h1, h2, by rw [h3, hq.2, List.length_cons]; omega⟩

omit hC in
theorem interleave_ints : ∀ x y : List Ex, x.length = y.length → IntsOkL x → IntsOkL y →
    IntsOkL (interleaveX x y) ∧ (interleaveX x y).length = 2 * x.length
  | [], [], _, _, _ => ⟨by simp [IntsOkL, interleaveX], rfl⟩
  | a :: x, b :: y, h, hx, hy => by
    rw [intsL_cons] at hx hy
    obtain ⟨h1, h2⟩ := interleave_ints x y (by simpa using h) hx.2 hy.2
    unfold interleaveX
    exact ⟨intsL_cons.mpr ⟨hx.1, intsL_cons.mpr ⟨hy.1, h1⟩⟩, by simp only [List.length_cons, h2]; omega⟩

theorem collangeAdd_total {x y : List Ex} (hl : x.length = y.length) (hx : IntsOkL x) (hy : IntsOkL y) :
    Total C (collangeAddX C x y) fun r => IntsOkL r ∧ r.length = x.length := by
  obtain ⟨i1, i2⟩ := interleave_ints x y hl hx hy
  unfold collangeAddX
  refine .assert hl ((sumState_total hC _ [] i1 (by simp [IntsOkL])).bind fun r hr => .assert ?_ (.pure ⟨?_, ?_⟩))
  · rw [hr.2, i2]; simp
  · exact fun e he => hr.1 e (List.mem_of_mem_take he)
  · rw [List.length_take, hr.2, i2]; simp; omega

theorem negX_total : ∀ l : List Ex, IntsOkL l → Total C (negX C l) fun r => IntsOkL r ∧ r.length = l.length
  | [], _ => .pure ⟨by simp [IntsOkL], rfl⟩
  | x :: l, h => by
    rw [intsL_cons] at h
    unfold negX
    exact (neg_total hC h.1).bind fun y hy => (negX_total l h.2).bind fun r hr =>
      .pure ⟨intsL_cons.mpr ⟨hy, hr.1⟩, by simp [hr.2]⟩

theorem collangeSub_total {x y : List Ex} (hl : x.length = y.length) (hx : IntsOkL x) (hy : IntsOkL y) :
    Total C (collangeSubX C x y) fun r => IntsOkL r ∧ r.length = x.length :=
  (negX_total hC y hy).bind fun _ hz => collangeAdd_total hC (hl.trans hz.2.symm) hx hz.1

theorem addPlaces_total : ∀ s e : List Ex, s.length = e.length → IntsOkL s → IntsOkL e → Total C (addPlacesX C s e) fun r =>
    IntsOkL r.1 ∧ IntsOkL r.2 ∧ r.1.length = s.length ∧ r.2.length = e.length ∧ ∀ i : ℕ, e[i]? = some (.int 0) → r.2[i]? = some (.int 0)
  | [], [], _, _, _ => by unfold addPlacesX; exact .pure ⟨by simp [IntsOkL], by simp [IntsOkL], rfl, rfl, by simp⟩
  | a :: s, b :: e, hl, hs, he => by
    rw [intsL_cons] at hs he
    unfold addPlacesX
    refine (twoSum_total hC hs.1 he.1).bind fun r hr => (addPlaces_total s e (by simpa using hl) hs.2 he.2).bind fun q hq => .pure ?_
    refine ⟨intsL_cons.mpr ⟨hr.1, hq.1⟩, intsL_cons.mpr ⟨hr.2.1, hq.2.1⟩, by simp [hq.2.2.1], by simp [hq.2.2.2.1], ?_⟩
    intro i hi
    cases i with
    | zero => simp only [List.getElem?_cons_zero, Option.some.injEq] at hi ⊢; exact hr.2.2 hi
    | succ i => simp only [List.getElem?_cons_succ] at hi ⊢; exact hq.2.2.2.2 i hi

/-- The passes over the errors end: after each one more place is zero. -/
theorem drain_total : ∀ (fuel : ℕ) (s e : List Ex), s.length = e.length → IntsOkL s → IntsOkL e →
    (∀ i, i + fuel < e.length → e[i]? = some (.int 0)) → Total C (drainX C fuel s e) fun r => IntsOkL r ∧ r.length = s.length := by
  intro fuel
  induction fuel with
  | zero =>
    intro s e hl hs he hz
    unfold drainX
    rw [if_neg]
    · exact .pure ⟨hs, rfl⟩
    · simp only [List.any_eq_true, not_exists, not_and]
      intro x hx
      obtain ⟨i, hi, rfl⟩ := List.getElem_of_mem hx
      have := hz i (by omega)
      rw [List.getElem?_eq_getElem hi, Option.some.injEq] at this
      rw [this]
      exact Bool.false_ne_true
  | succ fuel ih =>
    intro s e hl hs he hz
    unfold drainX
    split_ifs with h
    · refine (addPlaces_total hC s e hl hs he).bind fun r hr => ?_
      obtain ⟨h1, h2, h3, h4, h5⟩ := hr
      have hne : e ≠ [] := by rintro rfl; simp at h
      have hpos : 0 < e.length := List.length_pos_iff.mpr hne
      have hlen : (Ex.int 0 :: r.2.dropLast).length = e.length := by simp only [List.length_cons, List.length_dropLast, h4]; omega
      intro st hst
      obtain ⟨q, e1, e2, e3, e4⟩ := ih r.1 (.int 0 :: r.2.dropLast) (by rw [hlen, h3, hl]) h1
        (intsL_cons.mpr ⟨ints_zero, fun x hx => h2 x (List.mem_of_mem_dropLast hx)⟩)
        (by
          intro i hi
          rw [hlen] at hi
          cases i with
          | zero => rfl
          | succ i =>
            rw [List.getElem?_cons_succ, List.getElem?_dropLast, if_pos (by omega)]
            exact h5 i (hz i (by omega))) st hst
      exact ⟨q, e1, e2, e3, e4.trans h3⟩
    · exact .pure ⟨hs, rfl⟩

theorem prodRow_total (w : Sg) {yi : Ex} (hy : yi.IntsOk) : ∀ s x : List Ex, s.length = x.length → IntsOkL s → IntsOkL x →
    Total C (prodRowX C w yi s x) fun r => IntsOkL r.1 ∧ IntsOkL r.2.1 ∧ IntsOkL r.2.2 ∧ r.1.length = x.length ∧ r.2.1.length = x.length ∧
      r.2.2.length = x.length
  | [], [], _, _, _ => by unfold prodRowX; exact .pure ⟨by simp [IntsOkL], by simp [IntsOkL], by simp [IntsOkL], rfl, rfl, rfl⟩
  | a :: s, b :: x, hl, hs, hx => by
    rw [intsL_cons] at hs hx
    unfold prodRowX
    refine (twoProd_total hC w hx.1 hy).bind fun p hp => (twoSum_total hC hs.1 hp.1).bind fun r hr =>
      (prodRow_total w hy s x (by simpa using hl) hs.2 hx.2).bind fun q hq => .pure ?_
    obtain ⟨q1, q2, q3, q4, q5, q6⟩ := hq
    exact ⟨intsL_cons.mpr ⟨hr.1, q1⟩, intsL_cons.mpr ⟨hp.2, q2⟩, intsL_cons.mpr ⟨hr.2.1, q3⟩, by simp [q4], by simp [q5], by simp [q6]⟩

theorem mulRounds_total (w : Sg) {x : List Ex} (hx : IntsOkL x) (hne : 0 < x.length) : ∀ y s : List Ex, s.length = x.length → IntsOkL y →
    IntsOkL s → Total C (mulRoundsX C w x y s) fun r => IntsOkL r ∧ r.length = y.length
  | [], s, _, _, _ => .pure ⟨by simp [IntsOkL], rfl⟩
  | yi :: y, s, hl, hy, hs => by
    rw [intsL_cons] at hy
    unfold mulRoundsX
    refine (prodRow_total hC w hy.1 s x hl hs hx).bind fun r hr => ?_
    obtain ⟨r1, r2, r3, r4, r5, r6⟩ := hr
    have hlen : (r.1.tail ++ [Ex.int 0]).length = x.length := by
      rw [List.length_append, List.length_tail, r4]; simp only [List.length_cons, List.length_nil]; omega
    have hin : IntsOkL (r.1.tail ++ [.int 0]) := by
      intro e he
      rcases List.mem_append.mp he with he | he
      · exact r1 e (List.mem_of_mem_tail he)
      · rw [List.mem_singleton.mp he]; exact ints_zero
    refine (drain_total hC x.length _ _ (hlen.trans r5.symm) hin r2 (fun i hi => by omega)).bind fun s1 h1 =>
      (drain_total hC x.length _ _ (h1.2.trans (hlen.trans r6.symm)) h1.1 r3 (fun i hi => by omega)).bind fun s2 h2 =>
      (mulRounds_total w hx hne y s2 (h2.2.trans (h1.2.trans hlen)) hy.2 h2.1).bind fun q hq => .pure ⟨intsL_cons.mpr ⟨?_, hq.1⟩, by simp [hq.2]⟩
    cases hr1 : r.1 with
    | nil => exact ints_zero
    | cons a l => exact r1 a (by rw [hr1]; simp)

theorem collangeMul_total (w : Sg) {x y : List Ex} (hl : x.length = y.length) (hx : IntsOkL x) (hy : IntsOkL y) :
    Total C (collangeMulX C w x y) fun r => IntsOkL r ∧ r.length = x.length := by
  unfold collangeMulX
  rcases Nat.eq_zero_or_pos x.length with h0 | hpos
  · have hx0 : x = [] := List.length_eq_zero_iff.mp h0
    have hy0 : y = [] := List.length_eq_zero_iff.mp (hl ▸ h0)
    subst hx0 hy0
    exact .assert rfl ((Total.pure (Q := fun r : List Ex => r = []) rfl).bind fun r hr => by
      subst hr; exact .assert rfl (.pure ⟨by simp [IntsOkL], rfl⟩))
  · refine .assert hl ((mulRounds_total hC w hx hpos y _ (by simp) hy ?_).bind fun r hr => .assert ?_ (.pure ⟨hr.1, ?_⟩))
    · intro e he; rw [(List.mem_replicate.mp he).2]; exact ints_zero
    · rw [hr.2, hl]
    · rw [hr.2, hl]

end

end Mandelbrot.Sym
