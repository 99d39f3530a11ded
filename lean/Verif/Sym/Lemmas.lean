import Verif.Sym.Model
import Verif.Props.Sig
import Mathlib.Algebra.BigOperators.Group.List.Basic

/-!
# Values of expressions, and the operators preserve them
-/

namespace Mandelbrot.Sym

open Sig (Sg)

/-- An interpretation of the variables and of the functions the code knows nothing about. -/
structure Interp (R : Type) where
  var : String → R
  field : String → R → R
  call : String → List R → R
  other : String → R
  div : R → ℤ → R

/-- Division by integers is compatible with signs and with one. -/
structure Interp.DivOk {R : Type} [CommRing R] (ρ : Interp R) : Prop where
  one : ∀ x, ρ.div x 1 = x
  neg : ∀ x a, ρ.div x (-a) = -ρ.div x a
  negl : ∀ x a, ρ.div (-x) a = -ρ.div x a

section
variable {R : Type} [IntCast R] [Neg R] [Add R] [Sub R] [Mul R]

/-- The value of an expression; the operations need not satisfy any laws. -/
def Ex.val (ρ : Interp R) : Ex → R
  | .var v _ => ρ.var v
  | .int n => n
  | .field x f _ => ρ.field f (x.val ρ)
  | .neg x _ => -x.val ρ
  | .add x y _ => x.val ρ + y.val ρ
  | .sub x y _ => x.val ρ - y.val ρ
  | .mul x y _ => x.val ρ * y.val ρ
  | .div x a _ => ρ.div (x.val ρ) a
  | .call1 f x _ => ρ.call f [x.val ρ]
  | .call2 f x y _ => ρ.call f [x.val ρ, y.val ρ]
  | .call3 f x y z _ => ρ.call f [x.val ρ, y.val ρ, z.val ρ]
  | .other t _ _ => ρ.other t

/-- No two expressions that were looked up and have different values have the same signature, nor does one have the signature of
a small integer that is not its value. -/
def NoClash (C : Cfg) (ρ : Interp R) (met : List Ex) : Prop :=
  (∀ e ∈ met, ∀ e' ∈ met, e.sig C = e'.sig C → e.val ρ = e'.val ρ) ∧
    ∀ e ∈ met, ∀ n, Sig.unsmall C.F (e.sig C) = some n → e.val ρ = n

theorem NoClash.mono {C : Cfg} {ρ : Interp R} {l m : List Ex} (h : NoClash C ρ m) (hl : l ⊆ m) : NoClash C ρ l :=
  ⟨fun e he e' he' => h.1 e (hl he) e' (hl he'), fun e he => h.2 e (hl he)⟩

/-- What the table contains was looked up. -/
def CSt.Ok (C : Cfg) (st : CSt) : Prop := ∀ p ∈ st.table, p.2 ∈ st.met ∧ p.2.sig C = p.1

/-- Result of an operation: the value is the wanted one unless there was a clash. -/
structure Step (C : Cfg) (ρ : Interp R) (v : R) (st : CSt) (r : Ex × CSt) : Prop where
  ok : r.2.Ok C
  met : st.met ⊆ r.2.met
  exact : r.2.exact = st.exact
  val : NoClash C ρ r.2.met → r.1.val ρ = v

theorem Step.refl {C : Cfg} {ρ : Interp R} {st : CSt} (h : st.Ok C) {e : Ex} {v : R} (hv : e.val ρ = v) : Step C ρ v st (e, st) :=
  ⟨h, fun _ h => h, rfl, fun _ => hv⟩

theorem Step.trans {C : Cfg} {ρ : Interp R} {st st1 : CSt} {v w : R} {r : Ex × CSt} {z : Ex} (h1 : Step C ρ v st (z, st1))
    (h2 : Step C ρ w st1 r) : Step C ρ w st r :=
  ⟨h2.ok, fun _ h => h2.met (h1.met h), h2.exact.trans h1.exact, h2.val⟩

theorem Step.val_left {C : Cfg} {ρ : Interp R} {st st1 : CSt} {v w : R} {r : Ex × CSt} {z : Ex} (h1 : Step C ρ v st (z, st1))
    (h2 : Step C ρ w st1 r) (hc : NoClash C ρ r.2.met) : z.val ρ = v := h1.val (hc.mono h2.met)

/-- Replaces the value, which may be computed under the assumption of no clash. -/
theorem Step.congr {C : Cfg} {ρ : Interp R} {st : CSt} {v w : R} {r : Ex × CSt} (h : Step C ρ v st r)
    (hv : NoClash C ρ r.2.met → v = w) : Step C ρ w st r := ⟨h.ok, h.met, h.exact, fun hc => (h.val hc).trans (hv hc)⟩

theorem withSig_val (ρ : Interp R) (e : Ex) (s : Sg) : (e.withSig s).val ρ = e.val ρ := by cases e <;> rfl

theorem lookup_step {C : Cfg} (ρ : Interp R) (e : Ex) {st : CSt} (h : st.Ok C) : Step C ρ (e.val ρ) st (lookup C e st) := by
  unfold lookup
  split_ifs with hf
  · exact Step.refl h rfl
  · have hm : st.met ⊆ e :: st.met := fun x hx => List.mem_cons_of_mem e hx
    have hok : ({ st with met := e :: st.met } : CSt).Ok C := fun p hp => ⟨hm (h p hp).1, (h p hp).2⟩
    have h1 : ∀ n, Sig.unsmall C.F (e.sig C) = some n → NoClash C ρ (e :: st.met) → e.val ρ = n :=
      fun n hs hc => hc.2 e (by simp) n hs
    have h2 : ∀ p, st.table.find? (fun p => decide (∀ i, p.1 i = e.sig C i)) = some p → NoClash C ρ (e :: st.met) →
        p.2.val ρ = e.val ρ := by
      intro p hl hc
      have hp := List.find?_some hl
      simp only [decide_eq_true_eq] at hp
      have hmem := List.mem_of_find?_eq_some hl
      exact hc.1 p.2 (hm (h p hmem).1) e (by simp) (by rw [(h p hmem).2]; exact funext hp)
    revert h1 h2
    generalize Sig.unsmall C.F (e.sig C) = small
    generalize st.table.find? (fun p => decide (∀ i, p.1 i = e.sig C i)) = found
    intro h1 h2
    cases small with
    | some n => exact ⟨hok, hm, rfl, fun hc => (h1 n rfl hc).symm⟩
    | none =>
      cases found with
      | some p => exact ⟨hok, hm, rfl, fun hc => h2 p rfl hc⟩
      | none =>
        refine ⟨?_, hm, rfl, fun _ => rfl⟩
        intro p hp
        rcases List.mem_cons.mp hp with rfl | hp
        · exact ⟨by simp [pick], rfl⟩
        · exact ⟨hm (h p hp).1, (h p hp).2⟩

theorem cse_step {C : Cfg} (ρ : Interp R) (e : Ex) {st : CSt} (h : st.Ok C) : Step C ρ (e.val ρ) st (cse C e st) := by
  unfold cse
  split_ifs
  · exact lookup_step ρ e h
  · have := lookup_step ρ (e.withSig (e.arb C)) h
    rwa [withSig_val] at this

end

section
variable {R : Type} [CommRing R]

theorem negInt_ok {n m : ℤ} (h : negInt n = .ok m) : m = -n := by
  unfold negInt at h
  split_ifs at h
  exact (Except.ok.inj h).symm

theorem unneg_val (ρ : Interp R) {x y : Ex} (h : x.unneg = .ok (some y)) : x.val ρ = -y.val ρ := by
  cases x <;> simp only [Ex.unneg] at h <;> try (simp at h; done)
  · rename_i n
    split_ifs at h with h0
    · cases hn : negInt n with
      | error e => rw [hn] at h; simp [Except.map] at h
      | ok m =>
        rw [hn] at h
        simp only [Except.map, Except.ok.injEq, Option.some.injEq] at h
        subst h
        rw [negInt_ok hn]
        simp [Ex.val]
    · simp at h
  · simp only [Except.ok.injEq, Option.some.injEq] at h
    subst h
    rfl

theorem isZero_val (ρ : Interp R) {x : Ex} (h : x.isZero = true) : x.val ρ = 0 := by
  cases x <;> simp [Ex.isZero, Ex.unint] at h
  subst h; simp [Ex.val]

theorem isOne_val (ρ : Interp R) {x : Ex} (h : x.isOne = true) : x.val ρ = 1 := by
  cases x <;> simp [Ex.isOne, Ex.unint] at h
  subst h; simp [Ex.val]

theorem neg_step {C : Cfg} (ρ : Interp R) {e : Ex} {st : CSt} (h : st.Ok C) {r} (hr : neg C e st = .ok r) :
    Step C ρ (-e.val ρ) st r := by
  unfold neg at hr
  cases hu : e.unint with
  | some n =>
    have he : e = .int n := by cases e <;> simp [Ex.unint] at hu; rw [hu]
    rw [hu] at hr
    simp only at hr
    cases hn : negInt n with
    | error x => rw [hn] at hr; simp [bind, Except.bind] at hr
    | ok m =>
      rw [hn, bok, pok, Except.ok.injEq] at hr
      subst hr
      refine Step.refl h ?_
      rw [he, negInt_ok hn]; simp [Ex.val]
  | none =>
    rw [hu] at hr
    simp only at hr
    cases hx : e.unneg with
    | error x => rw [hx] at hr; simp [bind, Except.bind] at hr
    | ok o =>
      rw [hx, bok] at hr
      cases o with
      | some x =>
        simp only at hr
        rw [pok, Except.ok.injEq] at hr
        subst hr
        refine Step.refl h ?_
        rw [unneg_val ρ hx]; simp
      | none =>
        simp only at hr
        rw [pok, Except.ok.injEq] at hr
        subst hr
        exact cse_step ρ (.neg e _) h

theorem addsub_step {C : Cfg} (ρ : Interp R) : ∀ (n : ℕ) {x y : Ex} {st : CSt}, x.negs + y.negs < n → st.Ok C →
    (∀ r, add C x y st = .ok r → Step C ρ (x.val ρ + y.val ρ) st r) ∧
      (∀ r, sub C x y st = .ok r → Step C ρ (x.val ρ - y.val ρ) st r) := by
  intro n
  induction n with
  | zero => intro x y st hn; omega
  | succ n ih =>
    intro x y st hn h
    constructor
    · intro r hr
      rw [add] at hr
      split_ifs at hr with h1 h2
      · simp only [Except.ok.injEq] at hr
        subst hr
        exact Step.refl h (by rw [isZero_val ρ h1, zero_add])
      · simp only [Except.ok.injEq] at hr
        subst hr
        exact Step.refl h (by rw [isZero_val ρ h2, add_zero])
      · split at hr
        · simp at hr
        · rename_i nx hx
          have hneg := Ex.unneg_negs hx
          refine ((ih (x := y) (y := nx) (st := st) (by omega) h).2 r hr).congr fun _ => ?_
          rw [unneg_val ρ hx]; ring
        · rename_i hx
          split at hr
          · simp at hr
          · rename_i ny hy
            have hneg := Ex.unneg_negs hy
            refine ((ih (x := x) (y := ny) (st := st) (by omega) h).2 r hr).congr fun _ => ?_
            rw [unneg_val ρ hy]; ring
          · simp only [Except.ok.injEq] at hr
            subst hr
            exact cse_step ρ (.add x y _) h
    · intro r hr
      rw [sub] at hr
      split_ifs at hr with h1 h2
      · refine (neg_step ρ h hr).congr fun _ => ?_
        rw [isZero_val ρ h1, zero_sub]
      · simp only [Except.ok.injEq] at hr
        subst hr
        exact Step.refl h (by rw [isZero_val ρ h2, sub_zero])
      · split at hr
        · simp at hr
        · rename_i nx hx
          have hneg := Ex.unneg_negs hx
          split at hr
          · simp at hr
          · rename_i z st1 hz
            have s1 := (ih (x := nx) (y := y) (st := st) (by omega) h).1 _ hz
            have s2 := neg_step ρ s1.ok hr
            refine (s1.trans s2).congr fun hc => ?_
            rw [s1.val_left s2 hc, unneg_val ρ hx]; ring
        · rename_i hx
          split at hr
          · simp at hr
          · rename_i ny hy
            have hneg := Ex.unneg_negs hy
            refine ((ih (x := x) (y := ny) (st := st) (by omega) h).1 r hr).congr fun _ => ?_
            rw [unneg_val ρ hy]; ring
          · simp only [Except.ok.injEq] at hr
            subst hr
            exact cse_step ρ (.sub x y _) h

theorem add_step {C : Cfg} (ρ : Interp R) {x y : Ex} {st : CSt} (h : st.Ok C) {r} (hr : add C x y st = .ok r) :
    Step C ρ (x.val ρ + y.val ρ) st r := (addsub_step ρ _ (Nat.lt_succ_self _) h).1 r hr

theorem sub_step {C : Cfg} (ρ : Interp R) {x y : Ex} {st : CSt} (h : st.Ok C) {r} (hr : sub C x y st = .ok r) :
    Step C ρ (x.val ρ - y.val ρ) st r := (addsub_step ρ _ (Nat.lt_succ_self _) h).2 r hr

theorem mul_step' {C : Cfg} (ρ : Interp R) : ∀ (n : ℕ) {x y : Ex} {st : CSt}, x.negs + y.negs < n → st.Ok C →
    ∀ r, mul C x y st = .ok r → Step C ρ (x.val ρ * y.val ρ) st r := by
  intro n
  induction n with
  | zero => intro x y st hn; omega
  | succ n ih =>
    intro x y st hn h r hr
    rw [mul] at hr
    by_cases h1 : (x.isZero || y.isZero) = true
    · rw [if_pos h1] at hr
      simp only [Except.ok.injEq] at hr
      subst hr
      refine Step.refl h ?_
      rcases (Bool.or_eq_true _ _).mp h1 with h1 | h1
      · rw [isZero_val ρ h1]; simp [Ex.val]
      · rw [isZero_val ρ h1]; simp [Ex.val]
    · rw [if_neg h1] at hr
      split at hr
      · simp at hr
      · rename_i nx hx
        have hneg := Ex.unneg_negs hx
        split at hr
        · simp at hr
        · rename_i z st1 hz
          have s1 := ih (x := nx) (y := y) (st := st) (by omega) h _ hz
          have s2 := neg_step ρ s1.ok hr
          refine (s1.trans s2).congr fun hc => ?_
          rw [s1.val_left s2 hc, unneg_val ρ hx]; ring
      · rename_i hx
        split at hr
        · simp at hr
        · rename_i ny hy
          have hneg := Ex.unneg_negs hy
          split at hr
          · simp at hr
          · rename_i z st1 hz
            have s1 := ih (x := x) (y := ny) (st := st) (by omega) h _ hz
            have s2 := neg_step ρ s1.ok hr
            refine (s1.trans s2).congr fun hc => ?_
            rw [s1.val_left s2 hc, unneg_val ρ hy]; ring
        · clear ih
          split_ifs at hr with h2 h3
          · simp only [Except.ok.injEq] at hr
            subst hr
            exact Step.refl h (by rw [isOne_val ρ h2, one_mul])
          · simp only [Except.ok.injEq] at hr
            subst hr
            exact Step.refl h (by rw [isOne_val ρ h3, mul_one])
          · simp only [Except.ok.injEq] at hr
            subst hr
            exact cse_step ρ (.mul x y _) h

theorem mul_step {C : Cfg} (ρ : Interp R) {x y : Ex} {st : CSt} (h : st.Ok C) {r} (hr : mul C x y st = .ok r) :
    Step C ρ (x.val ρ * y.val ρ) st r := mul_step' ρ _ (Nat.lt_succ_self _) h r hr

theorem divPos_step {C : Cfg} {ρ : Interp R} (hd : ρ.DivOk) {a : ℤ} : ∀ (n : ℕ) {x : Ex} {st : CSt}, x.negs < n → st.Ok C →
    ∀ r, divPos C x a st = .ok r → Step C ρ (ρ.div (x.val ρ) a) st r := by
  intro n
  induction n with
  | zero => intro x st hn; omega
  | succ n ih =>
    intro x st hn h r hr
    rw [divPos] at hr
    split_ifs at hr with h1
    · simp only [Except.ok.injEq] at hr
      subst hr
      exact Step.refl h (by rw [h1, hd.one])
    · split at hr
      · simp at hr
      · rename_i nx hx
        have hneg := Ex.unneg_negs hx
        split at hr
        · simp at hr
        · rename_i z st1 hz
          have s1 := ih (x := nx) (st := st) (by omega) h _ hz
          have s2 := neg_step ρ s1.ok hr
          refine (s1.trans s2).congr fun hc => ?_
          rw [s1.val_left s2 hc, unneg_val ρ hx, hd.negl]
      · split at hr
        · simp at hr
        · simp only [Except.ok.injEq] at hr
          subst hr
          exact cse_step ρ (.div x a _) h

theorem div_step {C : Cfg} {ρ : Interp R} (hd : ρ.DivOk) {x : Ex} {a : ℤ} {st : CSt} (h : st.Ok C) {r} (hr : div C x a st = .ok r) :
    Step C ρ (ρ.div (x.val ρ) a) st r := by
  unfold div at hr
  by_cases h0 : a ≠ 0
  · rw [slowAssert_true h0, bok] at hr
    split_ifs at hr with h1 h2 h3
    · rw [pok, Except.ok.injEq] at hr
      subst hr
      exact Step.refl h (by rw [h1, hd.one])
    · refine (neg_step ρ h hr).congr fun _ => ?_
      rw [h2, hd.neg, hd.one]
    · cases hn : negInt a with
      | error e => rw [hn, berr] at hr; simp at hr
      | ok b =>
        rw [hn, bok] at hr
        cases hz : divPos C x b st with
        | error e => rw [hz, berr] at hr; simp at hr
        | ok q =>
          obtain ⟨z, st1⟩ := q
          rw [hz, bok] at hr
          have s1 := divPos_step hd _ (Nat.lt_succ_self _) h _ hz
          have s2 := neg_step ρ s1.ok hr
          refine (s1.trans s2).congr fun hc => ?_
          rw [s1.val_left s2 hc, negInt_ok hn, hd.neg, neg_neg]
    · exact divPos_step hd _ (Nat.lt_succ_self _) h _ hr
  · rw [slowAssert_false h0, berr] at hr
    simp at hr

theorem sum_step {C : Cfg} (ρ : Interp R) : ∀ (n : ℕ) {xs : List Ex} {st : CSt}, xs.length < n → st.Ok C →
    ∀ r, sum C xs st = .ok r → Step C ρ ((xs.map (Ex.val ρ)).sum) st r := by
  intro n
  induction n with
  | zero => intro xs st hn; omega
  | succ n ih =>
    intro xs st hn h r hr
    rw [sum.eq_def] at hr
    split at hr
    · simp only [Except.ok.injEq] at hr
      subst hr
      exact Step.refl h (by simp [Ex.val])
    · simp only [Except.ok.injEq] at hr
      subst hr
      exact Step.refl h (by simp)
    · rename_i u w l
      split at hr
      · simp at hr
      · rename_i a st1 ha
        split at hr
        · simp at hr
        · rename_i b st2 hb
          have s1 := ih (by simp only [List.length_take, List.length_cons] at hn ⊢; omega) h _ ha
          have s2 := ih (by simp only [List.length_drop, List.length_cons] at hn ⊢; omega) s1.ok _ hb
          have s3 := add_step ρ s2.ok hr
          refine ((s1.trans s2).trans s3).congr fun hc => ?_
          rw [s2.val_left s3 hc, s1.val (hc.mono (fun x hx => s3.met (s2.met hx)))]
          rw [← List.sum_append, ← List.map_append, List.take_append_drop]

end

end Mandelbrot.Sym
