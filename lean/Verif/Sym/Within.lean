import Verif.Sym.Lemmas

/-!
# Properties of expressions that every operation keeps

Used to see that the generated code mentions only the inputs.
-/

namespace Mandelbrot.Sym

open Sig (Sg)

/-- The property does not depend on signatures and passes to and from the operands of ring operations. -/
structure Closed (P : Ex → Prop) : Prop where
  int : ∀ n, P (.int n)
  neg : ∀ x s, P (.neg x s) ↔ P x
  add : ∀ x y s, P x → P y → P (.add x y s)
  sub : ∀ x y s, P x → P y → P (.sub x y s)
  mul : ∀ x y s, P x → P y → P (.mul x y s)
  withSig : ∀ e s, P e → P (e.withSig s)

/-- Everything in the table has the property. -/
def CSt.All (P : Ex → Prop) (st : CSt) : Prop := ∀ p ∈ st.table, P p.2

section
variable {P : Ex → Prop} (hP : Closed P)
include hP

theorem lookup_all (C : Cfg) {e : Ex} (he : P e) {st : CSt} (h : st.All P) : (lookup C e st).2.All P ∧ P (lookup C e st).1 := by
  unfold lookup
  split_ifs with hf
  · exact ⟨h, he⟩
  · have h2 : ∀ p, st.table.find? (fun p => decide (∀ i, p.1 i = e.sig C i)) = some p → P p.2 :=
      fun p hp => h p (List.mem_of_find?_eq_some hp)
    revert h2
    generalize Sig.unsmall C.F (e.sig C) = small
    generalize st.table.find? (fun p => decide (∀ i, p.1 i = e.sig C i)) = found
    intro h2
    cases small with
    | some n => exact ⟨h, hP.int n⟩
    | none =>
      cases found with
      | some p => exact ⟨h, h2 p rfl⟩
      | none =>
        refine ⟨?_, he⟩
        intro p hp
        rcases List.mem_cons.mp hp with rfl | hp
        · exact he
        · exact h p hp

theorem cse_all (C : Cfg) {e : Ex} (he : P e) {st : CSt} (h : st.All P) : (cse C e st).2.All P ∧ P (cse C e st).1 := by
  unfold cse
  split_ifs
  · exact lookup_all hP C he h
  · exact lookup_all hP C (hP.withSig _ _ he) h

theorem unneg_all {x y : Ex} (h : x.unneg = .ok (some y)) (hx : P x) : P y := by
  cases x <;> simp only [Ex.unneg] at h <;> try (simp at h; done)
  · rename_i n
    split_ifs at h with h0
    · cases hn : negInt n with
      | error e => rw [hn] at h; simp [Except.map] at h
      | ok m =>
        rw [hn] at h
        simp only [Except.map, Except.ok.injEq, Option.some.injEq] at h
        subst h
        exact hP.int _
    · simp at h
  · simp only [Except.ok.injEq, Option.some.injEq] at h
    subst h
    exact (hP.neg _ _).mp hx

theorem neg_all {C : Cfg} {e : Ex} (he : P e) {st : CSt} (h : st.All P) {r} (hr : neg C e st = .ok r) : r.2.All P ∧ P r.1 := by
  unfold neg at hr
  cases hu : e.unint with
  | some n =>
    rw [hu] at hr
    simp only at hr
    cases hn : negInt n with
    | error x => rw [hn] at hr; simp [bind, Except.bind] at hr
    | ok m =>
      rw [hn, bok, pok, Except.ok.injEq] at hr
      subst hr
      exact ⟨h, hP.int _⟩
  | none =>
    rw [hu] at hr
    simp only at hr
    cases hx : e.unneg with
    | error x => rw [hx] at hr; simp [bind, Except.bind] at hr
    | ok o =>
      rw [hx, bok] at hr
      cases o with
      | some x =>
        simp only at hr
        rw [pok, Except.ok.injEq] at hr
        subst hr
        exact ⟨h, unneg_all hP hx he⟩
      | none =>
        simp only at hr
        rw [pok, Except.ok.injEq] at hr
        subst hr
        exact cse_all hP C ((hP.neg _ _).mpr he) h

theorem addsub_all {C : Cfg} : ∀ (n : ℕ) {x y : Ex} {st : CSt}, x.negs + y.negs < n → st.All P → P x → P y →
    (∀ r, add C x y st = .ok r → r.2.All P ∧ P r.1) ∧ (∀ r, sub C x y st = .ok r → r.2.All P ∧ P r.1) := by
  intro n
  induction n with
  | zero => intro x y st hn; omega
  | succ n ih =>
    intro x y st hn h px py
    constructor
    · intro r hr
      rw [add] at hr
      split_ifs at hr with h1 h2
      · simp only [Except.ok.injEq] at hr
        subst hr
        exact ⟨h, py⟩
      · simp only [Except.ok.injEq] at hr
        subst hr
        exact ⟨h, px⟩
      · split at hr
        · simp at hr
        · rename_i nx hx
          have hneg := Ex.unneg_negs hx
          exact (ih (x := y) (y := nx) (st := st) (by omega) h py (unneg_all hP hx px)).2 r hr
        · rename_i hx
          split at hr
          · simp at hr
          · rename_i ny hy
            have hneg := Ex.unneg_negs hy
            exact (ih (x := x) (y := ny) (st := st) (by omega) h px (unneg_all hP hy py)).2 r hr
          · simp only [Except.ok.injEq] at hr
            subst hr
            exact cse_all hP C (hP.add _ _ _ px py) h
    · intro r hr
      rw [sub] at hr
      split_ifs at hr with h1 h2
      · exact neg_all hP py h hr
      · simp only [Except.ok.injEq] at hr
        subst hr
        exact ⟨h, px⟩
      · split at hr
        · simp at hr
        · rename_i nx hx
          have hneg := Ex.unneg_negs hx
          split at hr
          · simp at hr
          · rename_i z st1 hz
            have s1 := (ih (x := nx) (y := y) (st := st) (by omega) h (unneg_all hP hx px) py).1 _ hz
            exact neg_all hP s1.2 s1.1 hr
        · rename_i hx
          split at hr
          · simp at hr
          · rename_i ny hy
            have hneg := Ex.unneg_negs hy
            exact (ih (x := x) (y := ny) (st := st) (by omega) h px (unneg_all hP hy py)).1 r hr
          · simp only [Except.ok.injEq] at hr
            subst hr
            exact cse_all hP C (hP.sub _ _ _ px py) h

theorem add_all {C : Cfg} {x y : Ex} {st : CSt} (h : st.All P) (px : P x) (py : P y) {r} (hr : add C x y st = .ok r) :
    r.2.All P ∧ P r.1 := (addsub_all hP _ (Nat.lt_succ_self _) h px py).1 r hr

theorem mul_all' {C : Cfg} : ∀ (n : ℕ) {x y : Ex} {st : CSt}, x.negs + y.negs < n → st.All P → P x → P y →
    ∀ r, mul C x y st = .ok r → r.2.All P ∧ P r.1 := by
  intro n
  induction n with
  | zero => intro x y st hn; omega
  | succ n ih =>
    intro x y st hn h px py r hr
    rw [mul] at hr
    by_cases h1 : (x.isZero || y.isZero) = true
    · rw [if_pos h1] at hr
      simp only [Except.ok.injEq] at hr
      subst hr
      exact ⟨h, hP.int _⟩
    · rw [if_neg h1] at hr
      split at hr
      · simp at hr
      · rename_i nx hx
        have hneg := Ex.unneg_negs hx
        split at hr
        · simp at hr
        · rename_i z st1 hz
          have s1 := ih (x := nx) (y := y) (st := st) (by omega) h (unneg_all hP hx px) py _ hz
          exact neg_all hP s1.2 s1.1 hr
      · rename_i hx
        split at hr
        · simp at hr
        · rename_i ny hy
          have hneg := Ex.unneg_negs hy
          split at hr
          · simp at hr
          · rename_i z st1 hz
            have s1 := ih (x := x) (y := ny) (st := st) (by omega) h px (unneg_all hP hy py) _ hz
            exact neg_all hP s1.2 s1.1 hr
        · clear ih
          split_ifs at hr with h2 h3
          · simp only [Except.ok.injEq] at hr
            subst hr
            exact ⟨h, py⟩
          · simp only [Except.ok.injEq] at hr
            subst hr
            exact ⟨h, px⟩
          · simp only [Except.ok.injEq] at hr
            subst hr
            exact cse_all hP C (hP.mul _ _ _ px py) h

theorem mul_all {C : Cfg} {x y : Ex} {st : CSt} (h : st.All P) (px : P x) (py : P y) {r} (hr : mul C x y st = .ok r) :
    r.2.All P ∧ P r.1 := mul_all' hP _ (Nat.lt_succ_self _) h px py r hr

theorem sum_all {C : Cfg} : ∀ (n : ℕ) {xs : List Ex} {st : CSt}, xs.length < n → st.All P → (∀ x ∈ xs, P x) →
    ∀ r, sum C xs st = .ok r → r.2.All P ∧ P r.1 := by
  intro n
  induction n with
  | zero => intro xs st hn; omega
  | succ n ih =>
    intro xs st hn h hx r hr
    rw [sum.eq_def] at hr
    split at hr
    · simp only [Except.ok.injEq] at hr
      subst hr
      exact ⟨h, hP.int _⟩
    · simp only [Except.ok.injEq] at hr
      subst hr
      exact ⟨h, hx _ (by simp)⟩
    · rename_i u w l
      split at hr
      · simp at hr
      · rename_i a st1 ha
        split at hr
        · simp at hr
        · rename_i b st2 hb
          have s1 := ih (by simp only [List.length_take, List.length_cons] at hn ⊢; omega) h
            (fun x hxm => hx x (List.mem_of_mem_take hxm)) _ ha
          have s2 := ih (by simp only [List.length_drop, List.length_cons] at hn ⊢; omega) s1.1
            (fun x hxm => hx x (List.mem_of_mem_drop hxm)) _ hb
          exact add_all hP s2.1 s1.2 s2.2 hr

end

end Mandelbrot.Sym
