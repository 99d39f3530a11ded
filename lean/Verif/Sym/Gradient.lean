import Verif.Sym.BlockLemmas
import Verif.Sym.Exact
import Mathlib.Data.Multiset.Bind
import Mathlib.Data.Multiset.AddSub
import Mathlib.Algebra.BigOperators.Ring.Finset
import Mathlib.Algebra.BigOperators.Group.Finset.Piecewise
import Mathlib.Data.Finset.Max

/-!
# Model of `gradient` in /repo/codelets.cc: the symbolic transpose
-/

namespace Mandelbrot.Sym

open Sig (Sg)

deriving instance DecidableEq for Ex

/-- /repo/exp.cc 22-70 and 106-108 `Exp::args`. -/
def Ex.args : Ex → List Ex
  | .var _ _ => []
  | .int _ => []
  | .field x _ _ => [x]
  | .neg x _ => [x]
  | .add x y _ => [x, y]
  | .sub x y _ => [x, y]
  | .mul x y _ => [x, y]
  | .div x _ _ => [x]
  | .call1 _ x _ => [x]
  | .call2 _ x y _ => [x, y]
  | .call3 _ x y z _ => [x, y, z]
  | .other _ _ _ => []

/-- /repo/exp.cc 225-247 `Exp::grad`; `u` is the static variable `unknown`. -/
def Ex.grad (z u : Ex) : List Ex :=
  match z with
  | .var _ _ => []
  | .int _ => []
  | .field _ _ _ => [u]
  | .neg _ _ => [.int (-1)]
  | .add _ _ _ => [.int 1, .int 1]
  | .sub _ _ _ => [.int 1, .int (-1)]
  | .mul x y _ => [y, x]
  | .div _ _ _ => [u]
  | .call1 _ _ _ => [u]
  | .call2 _ _ _ _ => [u, u]
  | .call3 _ _ _ _ _ => [u, u, u]
  | .other _ _ _ => []

/-- /repo/codelets.cc 510-514: the inner loop of the first sweep.  The top of the stack `work` is the head of the list. -/
def pushArgs (C : Cfg) : List Ex → List Ex → (Sg → ℤ) → List Ex × (Sg → ℤ)
  | [], w, n => (w, n)
  | x :: l, w, n =>
    pushArgs C l (if n (x.sig C) = 0 then x :: w else w) (fun s => if s = x.sig C then n s + 1 else n s)

/-- /repo/codelets.cc 506-516: the first sweep; `none` is for too little fuel. -/
def needLoop (C : Cfg) : ℕ → List Ex → (Sg → ℤ) → Option (Sg → ℤ)
  | _, [], n => some n
  | 0, _ :: _, _ => none
  | f + 1, z :: w, n => needLoop C f (pushArgs C z.args w n).1 (pushArgs C z.args w n).2

/-- State of the second sweep: the stack, and the `need` and `terms` of the map. -/
structure GS where
  work : List Ex
  need : Sg → ℤ
  terms : Sg → List Ex

/-- /repo/codelets.cc 530-535: the inner loop of the second sweep over pairs of argument and gradient. -/
def gradArgs (C : Cfg) (dz : Ex) : List (Ex × Ex) → GS → CSt → Res (GS × CSt)
  | [], g, st => .ok (g, st)
  | (a, d) :: l, g, st =>
    match mul C d dz st with
    | .error e => .error e
    | .ok (t, st) =>
      gradArgs C dz l
        { work := if g.need (a.sig C) - 1 = 0 then a :: g.work else g.work
          need := fun s => if s = a.sig C then g.need s - 1 else g.need s
          terms := fun s => if s = a.sig C then g.terms s ++ [t] else g.terms s } st

/-- /repo/codelets.cc 522-536: one expression `z` taken from the stack. -/
def gradPop (C : Cfg) (u z : Ex) (g : GS) (st : CSt) : Res (GS × CSt) :=
  match sum C (g.terms (z.sig C)) st with
  | .error e => .error e
  | .ok (dz, st) =>
    if z.args.length = (z.grad u).length then
      gradArgs C dz (z.args.zip (z.grad u)) { g with terms := fun s => if s = z.sig C then [dz] else g.terms s } st
    else .error .assertion

/-- /repo/codelets.cc 521-537: the second sweep; `none` is for too little fuel. -/
def gradLoop (C : Cfg) (u : Ex) : ℕ → GS → CSt → Option (Res (GS × CSt))
  | 0, g, st => match g.work with
    | [] => some (.ok (g, st))
    | _ :: _ => none
  | f + 1, g, st => match g.work with
    | [] => some (.ok (g, st))
    | z :: w => match gradPop C u z { g with work := w } st with
      | .error e => some (.error e)
      | .ok (g, st) => gradLoop C u f g st

/-- /repo/codelets.cc 518-520: the differentials of the outputs. -/
def seed (C : Cfg) : List (Ex × Ex) → (Sg → List Ex) → Sg → List Ex
  | [], t => t
  | (y, d) :: l, t => seed C l (fun s => if s = y.sig C then t s ++ [d] else t s)

/-- /repo/codelets.cc 539-545: reads off the gradients of the inputs. -/
def readOff (C : Cfg) (g : GS) : List Ex → Res (List Ex)
  | [] => .ok []
  | x :: l => do
    slowAssert (g.need (x.sig C) = 0 ∧ (g.terms (x.sig C)).length = 1)
    let r ← readOff C g l
    return (g.terms (x.sig C)).headD (.int 0) :: r

/-- /repo/codelets.cc 496-546 `gradient`; `none` is for too little fuel, `u` the variable `unknown` of /repo/exp.cc 226. -/
def gradient (C : Cfg) (fuel : ℕ) (u : Ex) (xs ys dys : List Ex) (st : CSt) : Option (Res (List Ex × CSt)) :=
  if ys.length ≠ dys.length then some (.error .assertion)
  else match needLoop C fuel ys.reverse (fun _ => 0) with
    | none => none
    | some n => match gradLoop C u fuel ⟨ys.reverse, n, seed C (ys.zip dys) fun _ => []⟩ st with
      | none => none
      | some (.error e) => some (.error e)
      | some (.ok (g, st)) => match readOff C g xs with
        | .error e => some (.error e)
        | .ok r => some (.ok (r, st))

namespace Spec

/-- Expressions whose gradient the code does not know. -/
def Opaque : Ex → Prop
  | .field _ _ _ => True
  | .div _ _ _ => True
  | .call1 _ _ _ => True
  | .call2 _ _ _ _ => True
  | .call3 _ _ _ _ _ => True
  | _ => False

/-- The derivative of an expression, by the rules for sums and products: `δ` has the derivatives of the inputs, everything else
that is not a sum, difference, product or negation is constant. -/
def deriv {R : Type} [CommRing R] (C : Cfg) (ρ : Interp R) (δ : Sg → Option R) : Ex → R
  | .var _ s => (δ s).getD 0
  | .int n => (δ (Sig.ofInt C.F n)).getD 0
  | .field _ _ s => (δ s).getD 0
  | .neg x s => (δ s).getD (-deriv C ρ δ x)
  | .add x y s => (δ s).getD (deriv C ρ δ x + deriv C ρ δ y)
  | .sub x y s => (δ s).getD (deriv C ρ δ x - deriv C ρ δ y)
  | .mul x y s => (δ s).getD (deriv C ρ δ x * y.val ρ + x.val ρ * deriv C ρ δ y)
  | .div _ _ s => (δ s).getD 0
  | .call1 _ _ s => (δ s).getD 0
  | .call2 _ _ _ s => (δ s).getD 0
  | .call3 _ _ _ _ s => (δ s).getD 0
  | .other _ _ s => (δ s).getD 0

/-- The parts other than the expression itself. -/
def properSubs (e : Ex) : List Ex := e.subs.tail

end Spec

open Spec

theorem subs_eq (e : Ex) : e.subs = e :: properSubs e := by cases e <;> rfl

theorem mem_subs {e a : Ex} : a ∈ e.subs ↔ a = e ∨ a ∈ properSubs e := by rw [subs_eq]; simp

theorem proper_iff (e a : Ex) : a ∈ properSubs e ↔ ∃ b ∈ e.args, a ∈ b.subs := by
  cases e <;> simp [properSubs, Ex.subs, Ex.args]

theorem args_proper {a z : Ex} (h : a ∈ z.args) : ∀ {y : Ex}, z ∈ y.subs → a ∈ properSubs y := by
  intro y
  have step : ∀ {y : Ex}, (∀ b ∈ y.args, z ∈ b.subs → a ∈ properSubs b) → z ∈ y.subs → a ∈ properSubs y := by
    intro y ih hz
    rcases mem_subs.mp hz with rfl | hz
    · exact (proper_iff _ _).mpr ⟨a, h, Ex.self_mem_subs a⟩
    · obtain ⟨b, hb, hzb⟩ := (proper_iff _ _).mp hz
      exact (proper_iff _ _).mpr ⟨b, hb, mem_subs.mpr (Or.inr (ih b hb hzb))⟩
  induction y with
  | var v s => exact step (by simp [Ex.args])
  | int n => exact step (by simp [Ex.args])
  | other t p s => exact step (by simp [Ex.args])
  | field x f s ih => exact step (by simpa [Ex.args] using ih)
  | neg x s ih => exact step (by simpa [Ex.args] using ih)
  | div x n s ih => exact step (by simpa [Ex.args] using ih)
  | call1 f x s ih => exact step (by simpa [Ex.args] using ih)
  | add x y s ihx ihy => exact step (by simpa [Ex.args] using ⟨ihx, ihy⟩)
  | sub x y s ihx ihy => exact step (by simpa [Ex.args] using ⟨ihx, ihy⟩)
  | mul x y s ihx ihy => exact step (by simpa [Ex.args] using ⟨ihx, ihy⟩)
  | call2 f x y s ihx ihy => exact step (by simpa [Ex.args] using ⟨ihx, ihy⟩)
  | call3 f x y z s ihx ihy ihz => exact step (by simpa [Ex.args] using ⟨ihx, ihy, ihz⟩)

theorem args_sizeOf {a z : Ex} (h : a ∈ z.args) : sizeOf a < sizeOf z := by
  cases z <;> simp only [Ex.args, List.mem_cons, List.not_mem_nil, or_false] at h
  all_goals first
    | (subst h; simp; try omega)
    | (rcases h with rfl | rfl <;> simp <;> omega)
    | (rcases h with rfl | rfl | rfl <;> simp <;> omega)

/-! ## The first sweep -/

section
variable {C : Cfg} {ys : List Ex}

/-- The parts of the outputs. -/
def InU (ys : List Ex) (e : Ex) : Prop := ∃ y ∈ ys, e ∈ y.subs

theorem InU.args {a z : Ex} (hz : InU ys z) (h : a ∈ z.args) : InU ys a := by
  obtain ⟨y, hy, hzy⟩ := hz
  exact ⟨y, hy, mem_subs.mpr (Or.inr (args_proper h hzy))⟩

/-- All arguments of a collection of expressions. -/
def edges (P : Multiset Ex) : Multiset Ex := P.bind fun z => (z.args : Multiset Ex)

theorem edges_add (P Q : Multiset Ex) : edges (P + Q) = edges P + edges Q := Multiset.add_bind _ _ _
theorem edges_cons (z : Ex) (P : Multiset Ex) : edges (z ::ₘ P) = (z.args : Multiset Ex) + edges P := Multiset.cons_bind _ _ _
theorem edges_le {P Q : Multiset Ex} (h : P ≤ Q) : edges P ≤ edges Q := by
  obtain ⟨R, rfl⟩ := Multiset.le_iff_exists_add.mp h
  rw [edges_add]
  exact Multiset.le_add_right _ _
theorem mem_edges {P : Multiset Ex} {a : Ex} : a ∈ edges P ↔ ∃ z ∈ P, a ∈ z.args := by
  unfold edges; rw [Multiset.mem_bind]; rfl

theorem pushArgs_spec (hinj : ∀ e e', InU ys e → InU ys e' → e.sig C = e'.sig C → e = e') :
    ∀ (l w : List Ex) (n : Sg → ℤ) (E A : Multiset Ex), (∀ x ∈ l, InU ys x) → A.Nodup → (∀ e, e ∈ A ↔ e ∈ E) →
      (∀ e, InU ys e → n (e.sig C) = (E.count e : ℤ)) →
      ∃ new : Multiset Ex, ((pushArgs C l w n).1 : Multiset Ex) = new + w ∧ (A + new).Nodup ∧
        (∀ e, e ∈ A + new ↔ e ∈ E + l) ∧ (∀ e, InU ys e → (pushArgs C l w n).2 (e.sig C) = ((E + (l : Multiset Ex)).count e : ℤ)) ∧
        ∀ e ∈ new, e ∈ l := by
  intro l
  induction l with
  | nil => intro w n E A _ hA hAE hn; exact ⟨0, by simp [pushArgs], by simpa using hA, by simpa using hAE, by simpa [pushArgs] using hn, by simp⟩
  | cons x l ih =>
    intro w n E A hl hA hAE hn
    have hx : InU ys x := hl x (by simp)
    have hn' : ∀ e, InU ys e → (fun s => if s = x.sig C then n s + 1 else n s) (e.sig C) = ((E + {x} : Multiset Ex).count e : ℤ) := by
      intro e he
      simp only [Multiset.count_add, Multiset.count_singleton]
      by_cases h : e = x
      · subst h; rw [if_pos rfl, if_pos rfl, hn e he]; push_cast; ring
      · rw [if_neg (fun hs => h (hinj e x he hx hs)), if_neg h, hn e he]; push_cast; ring
    have hE : E + {x} + (l : Multiset Ex) = E + ((x :: l : List Ex) : Multiset Ex) := by
      rw [add_assoc]; congr 1
    simp only [pushArgs]
    by_cases h0 : n (x.sig C) = 0
    · rw [if_pos h0]
      have hxE : x ∉ E := by
        rw [hn x hx] at h0
        exact Multiset.count_eq_zero.mp (by exact_mod_cast h0)
      have hxA : x ∉ A := fun h => hxE ((hAE x).mp h)
      obtain ⟨new, h1, h2, h3, h4, h5⟩ := ih (x :: w) (fun s => if s = x.sig C then n s + 1 else n s) (E + {x}) (x ::ₘ A) (fun y hy => hl y (by simp [hy]))
        (Multiset.nodup_cons.mpr ⟨hxA, hA⟩) (fun e => by simp [hAE e, or_comm]) hn'
      refine ⟨x ::ₘ new, ?_, ?_, ?_, ?_, ?_⟩
      · rw [h1, ← Multiset.cons_coe, Multiset.add_cons, Multiset.cons_add]
      · rwa [Multiset.add_cons, ← Multiset.cons_add]
      · intro e; rw [Multiset.add_cons, ← Multiset.cons_add, h3 e, hE]
      · intro e he; rw [h4 e he, hE]
      · intro e he
        rcases Multiset.mem_cons.mp he with rfl | he
        · simp
        · exact List.mem_cons_of_mem _ (h5 e he)
    · rw [if_neg h0]
      have hxE : x ∈ E := by
        rw [hn x hx] at h0
        by_contra h
        exact h0 (by rw [Multiset.count_eq_zero.mpr h]; rfl)
      obtain ⟨new, h1, h2, h3, h4, h5⟩ := ih w (fun s => if s = x.sig C then n s + 1 else n s) (E + {x}) A (fun y hy => hl y (by simp [hy])) hA
        (fun e => by
          rw [hAE e, Multiset.mem_add, Multiset.mem_singleton]
          exact ⟨Or.inl, fun h => h.elim id fun h => h ▸ hxE⟩) hn'
      exact ⟨new, h1, h2, fun e => by rw [h3 e, hE], fun e he => by rw [h4 e he, hE], fun e he => List.mem_cons_of_mem _ (h5 e he)⟩

/-- All parts of all outputs. -/
def allParts (ys : List Ex) : Finset Ex := (ys.flatMap Ex.subs).toFinset

theorem mem_allParts {e : Ex} : e ∈ allParts ys ↔ InU ys e := by
  unfold allParts InU; simp

theorem needLoop_spec (hinj : ∀ e e', InU ys e → InU ys e' → e.sig C = e'.sig C → e = e') :
    ∀ (f : ℕ) (w : List Ex) (n : Sg → ℤ) (P A : Multiset Ex), (∀ e ∈ w, InU ys e) → (∀ e ∈ A, InU ys e) →
      P + w = ys + A → A.Nodup → (∀ e, e ∈ A ↔ e ∈ edges P) → (∀ e, InU ys e → n (e.sig C) = ((edges P).count e : ℤ)) →
      w.length + (allParts ys \ A.toFinset).card ≤ f →
      ∃ n' A', needLoop C f w n = some n' ∧ A'.Nodup ∧ (∀ e ∈ A', InU ys e) ∧ (∀ e, e ∈ A' ↔ e ∈ edges (ys + A')) ∧
        ∀ e, InU ys e → n' (e.sig C) = ((edges (ys + A')).count e : ℤ) := by
  intro f
  induction f with
  | zero =>
    intro w n P A hw hAU hPW hA hAE hn hf
    have : w = [] := by apply List.eq_nil_of_length_eq_zero; omega
    subst this
    have hP : P = ys + A := by simpa using hPW
    exact ⟨n, A, rfl, hA, hAU, by rw [← hP]; exact hAE, by rw [← hP]; exact hn⟩
  | succ f ih =>
    intro w n P A hw hAU hPW hA hAE hn hf
    cases w with
    | nil =>
      have hP : P = ys + A := by simpa using hPW
      exact ⟨n, A, rfl, hA, hAU, by rw [← hP]; exact hAE, by rw [← hP]; exact hn⟩
    | cons z w =>
      have hz : InU ys z := hw z (by simp)
      obtain ⟨new, h1, h2, h3, h4, h5⟩ := pushArgs_spec hinj z.args w n (edges P) A (fun x hx => hz.args hx) hA hAE hn
      have hnewU : ∀ e ∈ new, InU ys e := fun e he => hz.args (h5 e he)
      have hE : edges P + (z.args : Multiset Ex) = edges (z ::ₘ P) := by rw [edges_cons, add_comm]
      simp only [needLoop]
      refine ih _ _ (z ::ₘ P) (A + new) ?_ ?_ ?_ h2 (by rw [← hE]; exact h3) (by rw [← hE]; exact h4) ?_
      · intro e he
        have : e ∈ (((pushArgs C z.args w n).1 : List Ex) : Multiset Ex) := he
        rw [h1, Multiset.mem_add] at this
        rcases this with h | h
        · exact hnewU e h
        · exact hw e (by simpa using Or.inr h)
      · intro e he
        rcases Multiset.mem_add.mp he with h | h
        · exact hAU e h
        · exact hnewU e h
      · rw [h1]
        have : P + (z ::ₘ (w : Multiset Ex)) = ys + A := hPW
        rw [Multiset.add_cons] at this
        rw [Multiset.cons_add, ← add_assoc, ← add_assoc, ← this, add_comm P new, add_assoc new, Multiset.cons_add, add_comm new]
      · have hlen : (pushArgs C z.args w n).1.length = new.card + w.length := by
          have := congrArg Multiset.card h1
          simpa using this
        have hdis : ∀ e ∈ new, e ∉ A := fun e he ha => Multiset.disjoint_left.mp (Multiset.nodup_add.mp h2).2.2 ha he
        have hnn : new.Nodup := (Multiset.nodup_add.mp h2).2.1
        have hcard : (allParts ys \ (A + new).toFinset).card + new.card = (allParts ys \ A.toFinset).card := by
          have e1 : allParts ys \ (A + new).toFinset = (allParts ys \ A.toFinset) \ new.toFinset := by
            ext e; simp [not_or, and_assoc]
          have e2 : new.toFinset ⊆ allParts ys \ A.toFinset := by
            intro e he
            rw [Multiset.mem_toFinset] at he
            rw [Finset.mem_sdiff, Multiset.mem_toFinset]
            exact ⟨mem_allParts.mpr (hnewU e he), hdis e he⟩
          have e3 : new.toFinset.card = new.card := Multiset.toFinset_card_of_nodup hnn
          rw [e1, Finset.card_sdiff_of_subset e2, e3]
          have := Finset.card_le_card e2
          omega
        rw [hlen]
        simp only [List.length_cons] at hf
        omega

end

/-! ## The second sweep -/

section
variable {R : Type} [CommRing R] {C : Cfg} {ρ : Interp R} {ys : List Ex} {A : Multiset Ex} {δ : Sg → Option R} {T : R} {b : Bool}

/-- Expressions that are not differentiated further. -/
def Stop (C : Cfg) (δ : Sg → Option R) (e : Ex) : Prop := e.args = [] ∨ (δ (e.sig C)).isSome = true

/-- What the second sweep relies on; `A` are the expressions the first sweep put on the stack. -/
structure GHyp (C : Cfg) (ρ : Interp R) (ys : List Ex) (A : Multiset Ex) (δ : Sg → Option R) (b : Bool) (u : Ex) : Prop where
  inj : ∀ e e', InU ys e → InU ys e' → e.sig C = e'.sig C → e = e'
  nodup : A.Nodup
  inU : ∀ e ∈ A, InU ys e
  edge : ∀ e, e ∈ A ↔ e ∈ edges (ys + A)
  one : ∀ e, ¬Stop C δ e → (↑ys + A).count e ≤ 1
  flat : ∀ e, InU ys e → (Opaque e ∨ (δ (e.sig C)).isSome = true) → ∀ a ∈ e.args, deriv C ρ δ a = 0
  good : ∀ e, InU ys e → Good C b e
  goodu : Good C b u

open Classical in
/-- The part of the differential of the outputs that sits on expressions not yet differentiated. -/
noncomputable def weight (C : Cfg) (ρ : Interp R) (δ : Sg → Option R) (P Q : Multiset Ex) (t : Sg → List Ex) : R :=
  ∑ e ∈ P.toFinset.filter (fun e => ¬(e ∈ Q ∧ ¬Stop C δ e)), deriv C ρ δ e * ((t (e.sig C)).map (Ex.val ρ)).sum

structure GInv (C : Cfg) (ρ : Interp R) (ys : List Ex) (A : Multiset Ex) (δ : Sg → Option R) (T : R) (b : Bool)
    (Q E A2 : Multiset Ex) (g : GS) (st : CSt) (pend : R) : Prop where
  qw : Q + g.work = ys + A2
  nodup : A2.Nodup
  full : ∀ e, e ∈ A2 ↔ e ∈ edges (ys + A) ∧ E.count e = (edges (ys + A)).count e
  need : ∀ e, InU ys e → g.need (e.sig C) = ((edges (ys + A)).count e : ℤ) - (E.count e : ℤ)
  one : ∀ e ∈ Q, e ∉ g.work → E.count e = (edges (ys + A)).count e → (g.terms (e.sig C)).length = 1
  good : ∀ e, InU ys e → ∀ t ∈ g.terms (e.sig C), Good C b t
  stGood : st.Good C
  stOk : st.Ok C
  exact : st.exact = b
  val : NoClash C ρ st.met → weight C ρ δ (ys + A) Q g.terms + pend = T

variable {u : Ex}

theorem GHyp.inP (H : GHyp C ρ ys A δ b u) {e : Ex} (h : e ∈ ↑ys + A) : InU ys e := by
  rcases Multiset.mem_add.mp h with h | h
  · exact ⟨e, h, Ex.self_mem_subs e⟩
  · exact H.inU e h

theorem GInv.sub (H : GHyp C ρ ys A δ b u) {Q E A2 : Multiset Ex} {g : GS} {st : CSt} {pend : R}
    (I : GInv C ρ ys A δ T b Q E A2 g st pend) : A2 ≤ A :=
  (Multiset.le_iff_subset I.nodup).mpr fun e he => (H.edge e).mpr ((I.full e).mp he).1

theorem GInv.le (H : GHyp C ρ ys A δ b u) {Q E A2 : Multiset Ex} {g : GS} {st : CSt} {pend : R}
    (I : GInv C ρ ys A δ T b Q E A2 g st pend) : Q + g.work ≤ ys + A := by
  rw [I.qw]; exact add_le_add_right (I.sub H) _

/-- The weight after a term is added to an expression that is not yet differentiated. -/
theorem weight_push (H : GHyp C ρ ys A δ b u) {Q : Multiset Ex} {t : Sg → List Ex} {a d : Ex} (ha : a ∈ ↑ys + A)
    (hq : ¬(a ∈ Q ∧ ¬Stop C δ a)) :
    weight C ρ δ (ys + A) Q (fun s => if s = a.sig C then t s ++ [d] else t s) =
      weight C ρ δ (ys + A) Q t + deriv C ρ δ a * d.val ρ := by
  classical
  unfold weight
  have : ∀ e ∈ (↑ys + A).toFinset.filter (fun e => ¬(e ∈ Q ∧ ¬Stop C δ e)),
      deriv C ρ δ e * (((if e.sig C = a.sig C then t (e.sig C) ++ [d] else t (e.sig C))).map (Ex.val ρ)).sum =
      deriv C ρ δ e * ((t (e.sig C)).map (Ex.val ρ)).sum + (if e = a then deriv C ρ δ a * d.val ρ else 0) := by
    intro e he
    rw [Finset.mem_filter, Multiset.mem_toFinset] at he
    by_cases h : e = a
    · subst h; simp [mul_add]
    · rw [if_neg (fun hs => h (H.inj e a (H.inP he.1) (H.inP ha) hs)), if_neg h, add_zero]
  rw [Finset.sum_congr rfl this, Finset.sum_add_distrib, Finset.sum_ite_eq']
  rw [if_pos (by rw [Finset.mem_filter, Multiset.mem_toFinset]; exact ⟨ha, hq⟩)]

/-- The contributions still to be made for one expression. -/
def pending (C : Cfg) (ρ : Interp R) (δ : Sg → Option R) (dz : Ex) (l : List (Ex × Ex)) : R :=
  (l.map fun p => deriv C ρ δ p.1 * (p.2.val ρ * dz.val ρ)).sum

theorem gradArgs_spec (hC : C.Ok) (H : GHyp C ρ ys A δ b u) {dz : Ex} (hdz : Good C b dz) (Q : Multiset Ex) :
    ∀ (l : List (Ex × Ex)) (E A2 : Multiset Ex) (g : GS) (st : CSt),
      GInv C ρ ys A δ T b Q E A2 g st (pending C ρ δ dz l) → E + (l.map Prod.fst : List Ex) = edges Q →
      (∀ p ∈ l, Good C b p.2) →
      ∃ g' st' A2', gradArgs C dz l g st = .ok (g', st') ∧ GInv C ρ ys A δ T b Q (edges Q) A2' g' st' 0 ∧ st.met ⊆ st'.met := by
  intro l
  induction l with
  | nil =>
    intro E A2 g st I hE hl
    have hE' : E = edges Q := by simpa using hE
    subst hE'
    exact ⟨g, st, A2, rfl, by simpa [pending] using I, fun _ h => h⟩
  | cons p l ih =>
    obtain ⟨a, d⟩ := p
    intro E A2 g st I hE hl
    have hE1 : (E + {a}) + (l.map Prod.fst : List Ex) = edges Q := by
      rw [← hE, add_assoc]; rfl
    have hQP : Q ≤ ys + A := le_trans (Multiset.le_add_right _ _) (I.le H)
    have hle : E + {a} ≤ edges (ys + A) := le_trans (hE1 ▸ Multiset.le_add_right _ _) (edges_le hQP)
    have hlt : E.count a < (edges (ys + A)).count a := by
      have := Multiset.count_le_of_le a hle
      simp only [Multiset.count_add, Multiset.count_singleton_self] at this
      omega
    have haE : a ∈ edges (ys + A) := Multiset.count_pos.mp (by omega)
    have haA : a ∈ A := (H.edge a).mpr haE
    have haP : a ∈ ↑ys + A := Multiset.mem_add.mpr (Or.inr haA)
    have haU : InU ys a := H.inU a haA
    have haA2 : a ∉ A2 := fun h => by have := ((I.full a).mp h).2; omega
    have hq : ¬(a ∈ Q ∧ ¬Stop C δ a) := by
      rintro ⟨h1, h2⟩
      have h3 : a ∈ ↑ys + A2 := by rw [← I.qw]; exact Multiset.mem_add.mpr (Or.inl h1)
      rcases Multiset.mem_add.mp h3 with h | h
      · have h4 := H.one a h2
        have h5 : 1 ≤ (ys : Multiset Ex).count a := Multiset.one_le_count_iff_mem.mpr h
        have h6 : 1 ≤ A.count a := Multiset.one_le_count_iff_mem.mpr haA
        rw [Multiset.count_add] at h4
        omega
      · exact haA2 h
    obtain ⟨⟨t, st1⟩, ht, gt⟩ := mul_good hC I.stGood (by rw [I.exact]; exact hl (a, d) (by simp)) (by rw [I.exact]; exact hdz)
    have vt := mul_step ρ I.stOk ht
    have hgt : Good C b t := by have := gt.good; rwa [I.exact] at this
    simp only [gradArgs, ht]
    have hneed : g.need (a.sig C) - 1 = ((edges (ys + A)).count a : ℤ) - ((E + {a}).count a : ℤ) := by
      rw [I.need a haU]; simp only [Multiset.count_add, Multiset.count_singleton_self]; push_cast; ring
    have hcount : ∀ e, e ≠ a → (E + {a}).count e = E.count e := by
      intro e he; simp [Multiset.count_add, he]
    have hcounta : (E + {a}).count a = E.count a + 1 := by simp [Multiset.count_add]
    have hneed' : ∀ e, InU ys e → (fun s => if s = a.sig C then g.need s - 1 else g.need s) (e.sig C) =
        ((edges (ys + A)).count e : ℤ) - ((E + {a}).count e : ℤ) := by
      intro e he
      by_cases h : e = a
      · subst h; simp only [if_pos]; exact hneed
      · simp only
        rw [if_neg (fun hs => h (H.inj e a he haU hs)), hcount e h]; exact I.need e he
    have hgood' : ∀ e, InU ys e → ∀ t' ∈ (fun s => if s = a.sig C then g.terms s ++ [t] else g.terms s) (e.sig C), Good C b t' := by
      intro e he t' ht'
      simp only at ht'
      split_ifs at ht' with h
      · rcases List.mem_append.mp ht' with h' | h'
        · exact I.good e he t' h'
        · rw [List.mem_singleton] at h'; rw [h']; exact hgt
      · exact I.good e he t' ht'
    have hval' : NoClash C ρ st1.met → weight C ρ δ (ys + A) Q (fun s => if s = a.sig C then g.terms s ++ [t] else g.terms s) +
        pending C ρ δ dz l = T := by
      intro hc
      rw [weight_push H haP hq, vt.val hc, ← I.val (hc.mono vt.met)]
      simp only [pending, List.map_cons, List.sum_cons]
      ring
    have hone' : ∀ e, e ≠ a → e ∈ Q → e ∉ g.work → (E + {a}).count e = (edges (ys + A)).count e →
        ((fun s => if s = a.sig C then g.terms s ++ [t] else g.terms s) (e.sig C)).length = 1 := by
      intro e hea heQ hew hec
      have heU : InU ys e := H.inP (Multiset.mem_of_le hQP heQ)
      simp only
      rw [if_neg (fun hs => hea (H.inj e a heU haU hs))]
      exact I.one e heQ hew (by rw [← hcount e hea]; exact hec)
    by_cases h0 : g.need (a.sig C) - 1 = 0
    · have hfull : (E + {a}).count a = (edges (ys + A)).count a := by rw [hneed] at h0; omega
      rw [if_pos h0]
      have I' : GInv C ρ ys A δ T b Q (E + {a}) (a ::ₘ A2)
          { work := a :: g.work, need := fun s => if s = a.sig C then g.need s - 1 else g.need s,
            terms := fun s => if s = a.sig C then g.terms s ++ [t] else g.terms s } st1 (pending C ρ δ dz l) := by
        refine ⟨?_, Multiset.nodup_cons.mpr ⟨haA2, I.nodup⟩, ?_, hneed', ?_, hgood', gt.tbl, vt.ok, by rw [gt.exact, I.exact], hval'⟩
        · show Q + (a ::ₘ (g.work : Multiset Ex)) = _
          rw [Multiset.add_cons, I.qw, Multiset.add_cons]
        · intro e
          by_cases h : e = a
          · subst h; simp [haE, hfull]
          · rw [Multiset.mem_cons, hcount e h, ← I.full e]; simp [h]
        · intro e heQ hew hec
          have hea : e ≠ a := fun h => hew (by simp [h])
          exact hone' e hea heQ (fun h => hew (List.mem_cons_of_mem _ h)) hec
      obtain ⟨g', st', A2', h1, h2, h3⟩ := ih _ _ _ st1 I' hE1 (fun p hp => hl p (by simp [hp]))
      exact ⟨g', st', A2', h1, h2, fun _ h => h3 (vt.met h)⟩
    · have hnfull : (E + {a}).count a ≠ (edges (ys + A)).count a := by rw [hneed] at h0; omega
      rw [if_neg h0]
      have I' : GInv C ρ ys A δ T b Q (E + {a}) A2
          { work := g.work, need := fun s => if s = a.sig C then g.need s - 1 else g.need s,
            terms := fun s => if s = a.sig C then g.terms s ++ [t] else g.terms s } st1 (pending C ρ δ dz l) := by
        refine ⟨I.qw, I.nodup, ?_, hneed', ?_, hgood', gt.tbl, vt.ok, by rw [gt.exact, I.exact], hval'⟩
        · intro e
          by_cases h : e = a
          · subst h; exact ⟨fun h => absurd h haA2, fun h => absurd h.2 hnfull⟩
          · rw [hcount e h, ← I.full e]
        · intro e heQ hew hec
          have hea : e ≠ a := fun h => hnfull (h ▸ hec)
          exact hone' e hea heQ hew hec
      obtain ⟨g', st', A2', h1, h2, h3⟩ := ih _ _ _ st1 I' hE1 (fun p hp => hl p (by simp [hp]))
      exact ⟨g', st', A2', h1, h2, fun _ h => h3 (vt.met h)⟩

theorem grad_length (u z : Ex) : z.args.length = (z.grad u).length := by cases z <;> rfl

/-- The chain rule, for expressions that are differentiated further. -/
theorem chain (H : GHyp C ρ ys A δ b u) {z : Ex} (hz : InU ys z) (hs : ¬Stop C δ z) (dz : Ex) :
    pending C ρ δ dz (z.args.zip (z.grad u)) = deriv C ρ δ z * dz.val ρ := by
  have hn : δ (z.sig C) = none := by
    have : ¬(δ (z.sig C)).isSome = true := fun h => hs (Or.inr h)
    simpa using this
  have hf := H.flat z hz
  have hs' : z.args ≠ [] := fun h => hs (Or.inl h)
  cases z <;> simp only [Ex.sig] at hn <;> simp [Ex.args] at hs' <;>
    simp [pending, Ex.args, Ex.grad, deriv, hn, Opaque, Ex.val] at hf ⊢ <;> first | (simp [hf]) | ring

theorem pending_zero {dz : Ex} : ∀ {l m : List Ex}, (∀ a ∈ l, deriv C ρ δ a = 0) → pending C ρ δ dz (l.zip m) = 0 := by
  intro l
  induction l with
  | nil => intro m _; simp [pending]
  | cons a l ih =>
    intro m h
    cases m with
    | nil => simp [pending]
    | cons d m =>
      have := ih (m := m) fun a ha => h a (by simp [ha])
      simp only [pending, List.zip_cons_cons, List.map_cons, List.sum_cons, h a (by simp), zero_mul, zero_add] at this ⊢
      exact this

theorem grad_good (hu : Good C b u) {z : Ex} (hz : ∀ a ∈ z.args, Good C b a) : ∀ d ∈ z.grad u, Good C b d := by
  have h1 : Good C b (.int 1) := ⟨⟨by norm_num, by norm_num⟩, fun _ => trivial⟩
  have h2 : Good C b (.int (-1)) := ⟨⟨by norm_num, by norm_num⟩, fun _ => trivial⟩
  cases z <;> simp_all [Ex.grad, Ex.args]

/-- The weight when `z` is differentiated and its terms become the single term `dz`. -/
theorem weight_pop (H : GHyp C ρ ys A δ b u) {Q : Multiset Ex} {t : Sg → List Ex} {z dz : Ex} (hz : z ∈ ↑ys + A)
    (hq : ¬Stop C δ z → z ∉ Q) (hv : dz.val ρ = ((t (z.sig C)).map (Ex.val ρ)).sum) :
    weight C ρ δ (ys + A) (z ::ₘ Q) (fun s => if s = z.sig C then [dz] else t s) +
      pending C ρ δ dz (z.args.zip (z.grad u)) = weight C ρ δ (ys + A) Q t := by
  classical
  have same : ∀ e : Ex, ((if e.sig C = z.sig C then [dz] else t (e.sig C)).map (Ex.val ρ)).sum = ((t (e.sig C)).map (Ex.val ρ)).sum := by
    intro e
    split_ifs with h
    · rw [h]; simp [hv]
    · rfl
  unfold weight
  simp only [same]
  by_cases hs : Stop C δ z
  · have e1 : (↑ys + A).toFinset.filter (fun e => ¬(e ∈ z ::ₘ Q ∧ ¬Stop C δ e)) =
        (↑ys + A).toFinset.filter (fun e => ¬(e ∈ Q ∧ ¬Stop C δ e)) := by
      apply Finset.filter_congr
      intro e _
      by_cases h : e = z
      · subst h; simp [hs]
      · simp [h]
    rw [e1, pending_zero, add_zero]
    intro a ha
    rcases hs with hs | hs
    · rw [hs] at ha; simp at ha
    · exact H.flat z (H.inP hz) (Or.inr hs) a ha
  · have hzQ := hq hs
    have e1 : (↑ys + A).toFinset.filter (fun e => ¬(e ∈ Q ∧ ¬Stop C δ e)) =
        insert z ((↑ys + A).toFinset.filter (fun e => ¬(e ∈ z ::ₘ Q ∧ ¬Stop C δ e))) := by
      ext e
      rw [Finset.mem_insert, Finset.mem_filter, Finset.mem_filter, Multiset.mem_toFinset]
      by_cases h : e = z
      · subst h; simp only [true_or, iff_true]; exact ⟨hz, fun h => hzQ h.1⟩
      · simp [h]
    rw [e1, Finset.sum_insert (by simp [hs]), chain H (H.inP hz) hs, hv]
    ring

theorem gradLoop_spec (hC : C.Ok) (H : GHyp C ρ ys A δ b u) : ∀ (f : ℕ) (Q A2 : Multiset Ex) (g : GS) (st : CSt),
    GInv C ρ ys A δ T b Q (edges Q) A2 g st 0 → (↑ys + A).card ≤ f + Q.card →
    ∃ g' st' Q' A2', gradLoop C u f g st = some (.ok (g', st')) ∧ g'.work = [] ∧
      GInv C ρ ys A δ T b Q' (edges Q') A2' g' st' 0 ∧ st.met ⊆ st'.met := by
  intro f
  induction f with
  | zero =>
    intro Q A2 g st I hf
    have hw : g.work = [] := by
      have h1 := Multiset.card_le_card (I.le H)
      rw [Multiset.card_add, Multiset.coe_card] at h1
      apply List.eq_nil_of_length_eq_zero
      omega
    exact ⟨g, st, Q, A2, by simp [gradLoop, hw], hw, I, fun _ h => h⟩
  | succ f ih =>
    intro Q A2 g st I hf
    cases hw : g.work with
    | nil => exact ⟨g, st, Q, A2, by simp [gradLoop, hw], hw, I, fun _ h => h⟩
    | cons z w =>
      have hle := I.le H
      have hqw : Q + (z ::ₘ (w : Multiset Ex)) = ys + A2 := by have := I.qw; rw [hw] at this; exact this
      have hzle : z ::ₘ Q ≤ ys + A := by
        refine le_trans ?_ hle
        rw [hw, ← Multiset.cons_coe, Multiset.add_cons, ← Multiset.cons_add]
        exact Multiset.le_add_right _ _
      have hzP : z ∈ ↑ys + A := Multiset.mem_of_le hzle (Multiset.mem_cons_self _ _)
      have hzU : InU ys z := H.inP hzP
      have hzq : ¬Stop C δ z → z ∉ Q := by
        intro hs hq
        have h1 := H.one z hs
        have h2 := Multiset.count_le_of_le z hzle
        rw [Multiset.count_cons_self] at h2
        have h3 := Multiset.one_le_count_iff_mem.mpr hq
        omega
      obtain ⟨⟨dz, st1⟩, hdz, gd⟩ := sum_good hC _ (Nat.lt_succ_self _) I.stGood
        (xs := g.terms (z.sig C)) (fun t ht => by rw [I.exact]; exact I.good z hzU t ht)
      have vd := sum_step ρ _ (Nat.lt_succ_self _) I.stOk _ hdz
      have hgd : Good C b dz := by have := gd.good; rwa [I.exact] at this
      have hE : edges (z ::ₘ Q) = edges Q + (z.args : Multiset Ex) := by rw [edges_cons, add_comm]
      have hfst : (z.args.zip (z.grad u)).map Prod.fst = z.args := List.map_fst_zip (le_of_eq (grad_length u z))
      have I1 : GInv C ρ ys A δ T b (z ::ₘ Q) (edges Q) A2
          { work := w, need := g.need, terms := fun s => if s = z.sig C then [dz] else g.terms s } st1
          (pending C ρ δ dz (z.args.zip (z.grad u))) := by
        refine ⟨?_, I.nodup, I.full, I.need, ?_, ?_, gd.tbl, vd.ok, by rw [gd.exact, I.exact], ?_⟩
        · rw [← hqw, Multiset.add_cons, Multiset.cons_add]
        · intro e heQ hew hec
          have heU : InU ys e := H.inP (Multiset.mem_of_le hzle heQ)
          simp only
          by_cases h : e = z
          · rw [if_pos (by rw [h])]; rfl
          · rw [if_neg (fun hs => h (H.inj e z heU hzU hs))]
            refine I.one e ?_ ?_ hec
            · rcases Multiset.mem_cons.mp heQ with h' | h'
              · exact absurd h' h
              · exact h'
            · rw [hw]; simp only [List.mem_cons, not_or]; exact ⟨h, hew⟩
        · intro e he t ht
          simp only at ht
          split_ifs at ht with h
          · rw [List.mem_singleton] at ht; rw [ht]; exact hgd
          · exact I.good e he t ht
        · intro hc
          rw [weight_pop H hzP hzq (vd.val hc), ← I.val (hc.mono vd.met), add_zero]
      obtain ⟨g', st', A2', h1, h2, h3⟩ := gradArgs_spec hC H hgd (z ::ₘ Q) (z.args.zip (z.grad u)) (edges Q) A2 _ st1 I1
        (by rw [hfst, hE]) (fun p hp => grad_good H.goodu (fun a ha => H.good a (hzU.args ha)) p.2 (List.of_mem_zip hp).2)
      obtain ⟨g'', st'', Q', A2'', k1, k2, k3, k4⟩ := ih (z ::ₘ Q) A2' g' st' h2 (by rw [Multiset.card_cons]; omega)
      refine ⟨g'', st'', Q', A2'', ?_, k2, k3, fun _ h => k4 (h3 (vd.met h))⟩
      have hpop : gradPop C u z { g with work := w } st = .ok (g', st') := by
        unfold gradPop
        simp only [hdz, if_pos (grad_length u z)]
        exact h1
      simp only [gradLoop, hw, hpop]
      exact k1

/-- After the second sweep everything was differentiated. -/
theorem gradLoop_done (H : GHyp C ρ ys A δ b u) {Q A2 : Multiset Ex} {g : GS} {st : CSt} (I : GInv C ρ ys A δ T b Q (edges Q) A2 g st 0)
    (hw : g.work = []) : Q = ys + A := by
  classical
  have hq : Q = ys + A2 := by have := I.qw; rwa [hw, Multiset.coe_nil, add_zero] at this
  suffices h : A2 = A by rw [hq, h]
  refine le_antisymm (I.sub H) ((Multiset.le_iff_subset H.nodup).mpr ?_)
  by_contra hne
  have hne' : ∃ a, a ∈ A ∧ a ∉ A2 := by
    by_contra h
    push Not at h
    exact hne fun a ha => h a ha
  obtain ⟨a0, ha0, ha0'⟩ := hne'
  obtain ⟨a, ha, hmax⟩ := (A.toFinset.filter (· ∉ A2)).exists_max_image (fun e => sizeOf e)
    ⟨a0, by rw [Finset.mem_filter, Multiset.mem_toFinset]; exact ⟨ha0, ha0'⟩⟩
  rw [Finset.mem_filter, Multiset.mem_toFinset] at ha
  refine ha.2 ((I.full a).mpr ⟨(H.edge a).mp ha.1, ?_⟩)
  obtain ⟨D, hD⟩ := Multiset.le_iff_exists_add.mp (I.sub H)
  have : edges (ys + A) = edges Q + edges D := by rw [hq, ← edges_add, hD, add_assoc]
  rw [this, Multiset.count_add]
  have h0 : (edges D).count a = 0 := by
    rw [Multiset.count_eq_zero]
    intro h
    obtain ⟨z, hz, haz⟩ := mem_edges.mp h
    have hzA : z ∈ A := by rw [hD]; exact Multiset.mem_add.mpr (Or.inr hz)
    have hzA2 : z ∉ A2 := by
      intro h2
      have := H.nodup
      rw [hD] at this
      exact Multiset.disjoint_left.mp (Multiset.nodup_add.mp this).2.2 h2 hz
    have := hmax z (by rw [Finset.mem_filter, Multiset.mem_toFinset]; exact ⟨hzA, hzA2⟩)
    have := args_sizeOf haz
    omega
  omega

/-! ## The whole function -/

theorem seed_weight (H : GHyp C ρ ys A δ b u) : ∀ (l : List (Ex × Ex)) (t : Sg → List Ex), (∀ p ∈ l, p.1 ∈ ys) →
    weight C ρ δ (ys + A) 0 (seed C l t) = weight C ρ δ (ys + A) 0 t + (l.map fun p => deriv C ρ δ p.1 * p.2.val ρ).sum := by
  intro l
  induction l with
  | nil => intro t _; simp [seed]
  | cons p l ih =>
    obtain ⟨y, d⟩ := p
    intro t hl
    have hy : y ∈ ↑ys + A := Multiset.mem_add.mpr (Or.inl (hl (y, d) (by simp)))
    simp only [seed, List.map_cons, List.sum_cons]
    rw [ih _ fun p hp => hl p (by simp [hp]), weight_push H hy (by simp), add_assoc]

theorem seed_good : ∀ (l : List (Ex × Ex)) (t : Sg → List Ex) (s : Sg), (∀ p ∈ l, Good C b p.2) → (∀ e ∈ t s, Good C b e) →
    ∀ e ∈ seed C l t s, Good C b e := by
  intro l
  induction l with
  | nil => intro t s _ ht e he; exact ht e he
  | cons p l ih =>
    obtain ⟨y, d⟩ := p
    intro t s hl ht
    refine ih _ s (fun p hp => hl p (by simp [hp])) ?_
    intro e he
    split_ifs at he
    · rcases List.mem_append.mp he with h | h
      · exact ht e h
      · rw [List.mem_singleton] at h; rw [h]; exact hl (y, d) (by simp)
    · exact ht e he

theorem parts_mem (H : GHyp C ρ ys A δ b u) : ∀ (n : ℕ) (y e : Ex), sizeOf y < n → y ∈ ↑ys + A → e ∈ y.subs → e ∈ ↑ys + A := by
  intro n
  induction n with
  | zero => intro y e hn; omega
  | succ n ih =>
    intro y e hn hy he
    rcases mem_subs.mp he with rfl | he
    · exact hy
    · obtain ⟨c, hc, hec⟩ := (proper_iff _ _).mp he
      have hcA : c ∈ A := (H.edge c).mpr (mem_edges.mpr ⟨y, hy, hc⟩)
      exact ih c e (by have := args_sizeOf hc; omega) (Multiset.mem_add.mpr (Or.inr hcA)) hec

theorem readOff_ok {g : GS} : ∀ {xs : List Ex}, (∀ x ∈ xs, g.need (x.sig C) = 0 ∧ (g.terms (x.sig C)).length = 1) →
    ∃ outs, readOff C g xs = .ok outs ∧ outs.length = xs.length ∧
      ∀ f : Ex → R, ((xs.zip outs).map fun p => f p.1 * p.2.val ρ).sum = (xs.map fun x => f x * ((g.terms (x.sig C)).map (Ex.val ρ)).sum).sum := by
  intro xs
  induction xs with
  | nil => intro _; exact ⟨[], rfl, rfl, fun f => rfl⟩
  | cons x xs ih =>
    intro h
    obtain ⟨outs, h1, h2, h3⟩ := ih fun y hy => h y (by simp [hy])
    obtain ⟨hn, ht⟩ := h x (by simp)
    obtain ⟨d, hd⟩ := List.length_eq_one_iff.mp ht
    refine ⟨d :: outs, ?_, by simp [h2], fun f => ?_⟩
    · simp only [readOff]
      rw [slowAssert_true ⟨hn, ht⟩, h1, hd]; rfl
    · simp only [List.zip_cons_cons, List.map_cons, List.sum_cons, h3 f, hd]
      simp

theorem deriv_leaf {e : Ex} (h : e.args = []) (hd : δ (e.sig C) = none) : deriv C ρ δ e = 0 := by
  cases e <;> simp [Ex.args] at h <;> simp only [Ex.sig] at hd <;> simp [deriv, hd]

/-- The whole function, for the derivatives in any direction. -/
theorem gradient_spec (hC : C.Ok) {xs dys : List Ex} {st : CSt}
    (hinj : ∀ e e', InU ys e → InU ys e' → e.sig C = e'.sig C → e = e')
    (hone : ∀ y ∈ ys, ¬Stop C δ y → ys.count y ≤ 1 ∧ ∀ y' ∈ ys, y ∉ properSubs y')
    (hflat : ∀ e, InU ys e → (Opaque e ∨ (δ (e.sig C)).isSome = true) → ∀ a ∈ e.args, deriv C ρ δ a = 0)
    (hgood : ∀ e, InU ys e → Good C st.exact e) (hgoodu : Good C st.exact u) (hgoodd : ∀ d ∈ dys, Good C st.exact d)
    (hst : st.Good C) (hok : st.Ok C) (hxs : xs.Nodup) (hxU : ∀ x ∈ xs, InU ys x)
    (hδ : ∀ e, InU ys e → ((δ (e.sig C)).isSome = true ↔ e ∈ xs)) (hlen : ys.length = dys.length)
    {fuel : ℕ} (hfuel : ys.length + (allParts ys).card ≤ fuel) :
    ∃ outs st', gradient C fuel u xs ys dys st = some (.ok (outs, st')) ∧ outs.length = xs.length ∧ st.met ⊆ st'.met ∧
      (NoClash C ρ st'.met → ((xs.zip outs).map fun p => deriv C ρ δ p.1 * p.2.val ρ).sum =
        ((ys.zip dys).map fun p => deriv C ρ δ p.1 * p.2.val ρ).sum) := by
  classical
  obtain ⟨n, A, hneed, hA, hAU, hAE, hn⟩ := needLoop_spec hinj fuel ys.reverse (fun _ => 0) 0 0
    (fun e he => ⟨e, by simpa using he, Ex.self_mem_subs e⟩) (by simp) (by simp) (by simp) (by simp [edges])
    (by simp [edges]) (by simpa using hfuel)
  have hAp : ∀ a ∈ A, ∃ y ∈ ys, a ∈ properSubs y := by
    intro a ha
    obtain ⟨z, hz, haz⟩ := mem_edges.mp ((hAE a).mp ha)
    obtain ⟨y, hy, hzy⟩ : InU ys z := by
      rcases Multiset.mem_add.mp hz with h | h
      · exact ⟨z, h, Ex.self_mem_subs z⟩
      · exact hAU z h
    exact ⟨y, hy, args_proper haz hzy⟩
  have H : GHyp C ρ ys A δ st.exact u := by
    refine ⟨hinj, hA, hAU, hAE, ?_, hflat, hgood, hgoodu⟩
    intro e hs
    rw [Multiset.count_add, Multiset.coe_count]
    by_cases he : e ∈ ys
    · obtain ⟨h1, h2⟩ := hone e he hs
      have : A.count e = 0 := Multiset.count_eq_zero.mpr fun ha => by
        obtain ⟨y, hy, h⟩ := hAp e ha
        exact h2 y hy h
      omega
    · rw [List.count_eq_zero.mpr he]
      have := Multiset.nodup_iff_count_le_one.mp hA e
      omega
  have I0 : GInv C ρ ys A δ ((ys.zip dys).map fun p => deriv C ρ δ p.1 * p.2.val ρ).sum st.exact 0 (edges 0) 0
      ⟨ys.reverse, n, seed C (ys.zip dys) fun _ => []⟩ st 0 := by
    refine ⟨by simp, Multiset.nodup_zero, ?_, ?_, by simp, ?_, hst, hok, rfl, ?_⟩
    · intro e
      constructor
      · intro h; simp at h
      · rintro ⟨h1, h2⟩
        have := Multiset.count_pos.mpr h1
        rw [← h2] at this
        simp [edges] at this
    · intro e he
      show n (e.sig C) = _
      rw [hn e he]; simp [edges]
    · intro e _
      exact seed_good _ _ _ (fun p hp => hgoodd p.2 (List.of_mem_zip hp).2) (by simp)
    · intro _
      rw [seed_weight H _ _ fun p hp => (List.of_mem_zip hp).1]
      simp [weight]
  have hcard : (↑ys + A).card ≤ fuel + (0 : Multiset Ex).card := by
    have : A.toFinset ⊆ allParts ys := fun e he => mem_allParts.mpr (hAU e (Multiset.mem_toFinset.mp he))
    have := Finset.card_le_card this
    rw [Multiset.toFinset_card_of_nodup hA] at this
    simp only [Multiset.card_add, Multiset.coe_card, Multiset.card_zero]
    omega
  obtain ⟨g, st', Q, A2, hloop, hw, I, hmet⟩ := gradLoop_spec hC H fuel 0 0 _ st I0 hcard
  have hQ := gradLoop_done H I hw
  have hxP : ∀ x ∈ xs, x ∈ ↑ys + A := by
    intro x hx
    obtain ⟨y, hy, hxy⟩ := hxU x hx
    exact parts_mem H _ y x (Nat.lt_succ_self _) (Multiset.mem_add.mpr (Or.inl hy)) hxy
  have hx : ∀ x ∈ xs, g.need (x.sig C) = 0 ∧ (g.terms (x.sig C)).length = 1 := by
    intro x hx
    constructor
    · rw [I.need x (hxU x hx), hQ]; simp
    · exact I.one x (hQ ▸ hxP x hx) (by rw [hw]; simp) (by rw [hQ])
  obtain ⟨outs, ho, hol, hos⟩ := readOff_ok (C := C) (R := R) (ρ := ρ) hx
  refine ⟨outs, st', ?_, hol, hmet, fun hc => ?_⟩
  · unfold gradient
    rw [if_neg (by simpa using hlen)]
    simp only [hneed, hloop, ho]
  · rw [hos (deriv C ρ δ), ← I.val hc, add_zero, hQ]
    unfold weight
    rw [← List.sum_toFinset _ hxs]
    apply Finset.sum_subset
    · intro x hx
      rw [List.mem_toFinset] at hx
      rw [Finset.mem_filter, Multiset.mem_toFinset]
      exact ⟨hxP x hx, fun h => h.2 (Or.inr ((hδ x (hxU x hx)).mpr hx))⟩
    · intro e he hex
      rw [List.mem_toFinset] at hex
      rw [Finset.mem_filter, Multiset.mem_toFinset] at he
      have hd : ¬(δ (e.sig C)).isSome = true := fun h => hex ((hδ e (H.inP he.1)).mp h)
      have hs : Stop C δ e := by
        by_contra h
        exact he.2 ⟨he.1, h⟩
      rw [deriv_leaf (hs.resolve_right hd) (by simpa using hd), zero_mul]

end

end Mandelbrot.Sym
