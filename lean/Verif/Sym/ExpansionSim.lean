import Verif.Sym.ExpansionGen
import Verif.Sym.SeriesLines
import Verif.Float.Expansion

/-!
# The generated operators on expansions follow the algorithms on numbers
-/

namespace Mandelbrot.Sym

open Sig (Sg)
open Spec
open Mandelbrot.Float (Sc twoSum twoProd)

/-! ## Numbers of the machine -/

/-- Real numbers with the operations of the machine, which round; negation does not. -/
structure Fl (rn : ℝ → ℝ) where
  v : ℝ

section
variable {rn : ℝ → ℝ}

instance : IntCast (Fl rn) := ⟨fun n => ⟨n⟩⟩
instance : Neg (Fl rn) := ⟨fun a => ⟨-a.v⟩⟩
noncomputable instance : Add (Fl rn) := ⟨fun a b => ⟨rn (a.v + b.v)⟩⟩
noncomputable instance : Sub (Fl rn) := ⟨fun a b => ⟨rn (a.v - b.v)⟩⟩
noncomputable instance : Mul (Fl rn) := ⟨fun a b => ⟨rn (a.v * b.v)⟩⟩

theorem Fl.neg_v (a : Fl rn) : (-a).v = -a.v := rfl
theorem Fl.add_v (a b : Fl rn) : (a + b).v = rn (a.v + b.v) := rfl
theorem Fl.sub_v (a b : Fl rn) : (a - b).v = rn (a.v - b.v) := rfl
theorem Fl.mul_v (a b : Fl rn) : (a * b).v = rn (a.v * b.v) := rfl

theorem Fl.ext' {a b : Fl rn} (h : a.v = b.v) : a = b := by cases a; cases b; cases h; rfl

/-- Rounding is symmetric, as rounding to nearest with ties to even is. -/
def Symmetric (rn : ℝ → ℝ) : Prop := ∀ a, rn (-a) = -rn a

end

/-- The expression behind the negations at the top. -/
def Ex.core : Ex → Ex
  | .neg x _ => x.core
  | e => e

/-- It is not a number, nor a negated one. -/
def Ex.Plain (e : Ex) : Prop := e.core.unint = none

theorem Ex.Plain.zero {e : Ex} (h : e.Plain) : e.isZero = false ∧ e.isOne = false ∧ e.unint = none := by
  cases e <;> simp_all [Ex.Plain, Ex.core, Ex.isZero, Ex.isOne, Ex.unint]

theorem Ex.Plain.unneg {e : Ex} (h : e.Plain) : e.unneg = .ok none ∧ (∀ x s, e ≠ .neg x s) ∨ ∃ x s, e = .neg x s ∧ e.unneg = .ok (some x) ∧ x.Plain := by
  cases e with
  | int n => simp [Ex.Plain, Ex.core, Ex.unint] at h
  | neg x s => exact Or.inr ⟨x, s, rfl, rfl, h⟩
  | _ => exact Or.inl ⟨rfl, by intros; simp⟩

section
variable {C : Cfg} {ins M : List Ex} {D : List String} {rn : ℝ → ℝ} {ρ : Interp (Fl rn)}

/-- What expressions are made of: inputs, what was looked up, and negations of these. -/
def Part (C : Cfg) (P : List Ex) (a : Ex) : Prop := a ∈ P ∨ ∃ x ∈ P, a = .neg x (Sig.sneg C.F (x.sig C))

/-- An expression of the generator: not a number, and made of parts. -/
structure Fine (C : Cfg) (P : List Ex) (D : List String) (e : Ex) : Prop where
  plain : e.Plain
  vars : In D e
  subs : ∀ a ∈ e.subs, Part C P a

/-- The state of the generator: it goes by structure, what was looked up is in `M`, and the table contains fine expressions. -/
structure World (C : Cfg) (ins M : List Ex) (D : List String) (st : CSt) : Prop where
  ok : st.Ok C
  exact : st.exact = false
  table : ∀ p ∈ st.table, Fine C (ins ++ M) D p.2

/-- Nothing that was looked up has the signature of a small number. -/
def NoSmall (C : Cfg) (M : List Ex) : Prop := ∀ e ∈ M, Sig.unsmall C.F (e.sig C) = none

/-- A computation keeps what was looked up. -/
def Grows (C : Cfg) {α : Type} (m : Gen CSt α) : Prop := ∀ st r, st.Ok C → m st = .ok r → r.2.Ok C ∧ st.met ⊆ r.2.met

/-- A computation gives a result with a property. -/
def Gives (C : Cfg) (ins M : List Ex) (D : List String) {α : Type} (m : Gen CSt α) (Q : α → Prop) : Prop :=
  ∀ st r, World C ins M D st → m st = .ok r → r.2.met ⊆ M → World C ins M D r.2 ∧ Q r.1

theorem gen_bind {α β : Type} {m : Gen CSt α} {k : α → Gen CSt β} {st : CSt} {r} (e : (m >>= k) st = .ok r) :
    ∃ x, m st = .ok x ∧ k x.1 x.2 = .ok r := by
  change (m st >>= fun x => k x.1 x.2) = _ at e
  cases hm : m st with
  | error e' => rw [hm] at e; cases e
  | ok x => rw [hm] at e; exact ⟨x, rfl, e⟩

theorem Grows.pure {α : Type} (a : α) : Grows C (Pure.pure a : Gen CSt α) := by
  intro st r h e; cases e; exact ⟨h, fun _ h => h⟩

theorem Grows.bind {α β : Type} {m : Gen CSt α} {k : α → Gen CSt β} (h : Grows C m) (hk : ∀ a, Grows C (k a)) : Grows C (m >>= k) := by
  intro st r hs e
  obtain ⟨x, e1, e2⟩ := gen_bind e
  obtain ⟨a1, a2⟩ := h st x hs e1
  obtain ⟨b1, b2⟩ := hk x.1 x.2 r a1 e2
  exact ⟨b1, fun _ h => b2 (a2 h)⟩

theorem Grows.ofRes {α : Type} (x : Res α) : Grows C (Sym.ofRes x : Gen CSt α) := by
  intro st r h e
  cases x with
  | error _ => cases e
  | ok a => cases e; exact ⟨h, fun _ h => h⟩

theorem Grows.of_step {m : Gen CSt Ex} {v : ℤ} {σ : Interp ℤ} (h : ∀ st r, st.Ok C → m st = .ok r → Step C σ v st r) : Grows C m :=
  fun st r hs e => ⟨(h st r hs e).ok, (h st r hs e).met⟩

/-- Some interpretation. -/
def anyInterp : Interp ℤ := ⟨fun _ => 0, fun _ _ => 0, fun _ _ => 0, fun _ => 0, fun _ _ => 0⟩

theorem grows_neg (x : Ex) : Grows C (neg C x) := .of_step (σ := anyInterp) fun _ _ hs e => neg_step _ hs e
theorem grows_add (x y : Ex) : Grows C (add C x y) := .of_step (σ := anyInterp) fun _ _ hs e => add_step _ hs e
theorem grows_sub (x y : Ex) : Grows C (sub C x y) := .of_step (σ := anyInterp) fun _ _ hs e => sub_step _ hs e
theorem grows_mul (x y : Ex) : Grows C (mul C x y) := .of_step (σ := anyInterp) fun _ _ hs e => mul_step _ hs e
theorem grows_fma (x y z : Ex) (w : Sg) : Grows C (fun st => .ok (fma C x y z w st)) :=
  .of_step (σ := anyInterp) (v := 0) fun st r hs e => by cases e; exact cse_step anyInterp (.call3 "fma" x y z w) hs

theorem Gives.pure {α : Type} {Q : α → Prop} {a : α} (h : Q a) : Gives C ins M D (Pure.pure a : Gen CSt α) Q := by
  intro st r hs e _; cases e; exact ⟨hs, h⟩

theorem Gives.bind {α β : Type} {m : Gen CSt α} {k : α → Gen CSt β} {Q : α → Prop} {Q' : β → Prop} (h : Gives C ins M D m Q)
    (hg : ∀ a, Grows C (k a)) (hm : Grows C m) (hk : ∀ a, Q a → Gives C ins M D (k a) Q') : Gives C ins M D (m >>= k) Q' := by
  intro st r hs e hM
  obtain ⟨x, e1, e2⟩ := gen_bind e
  have hb := hg x.1 x.2 r (hm st x hs.ok e1).1 e2
  obtain ⟨w, q⟩ := h st x hs e1 fun a ha => hM (hb.2 ha)
  exact hk x.1 q x.2 r w e2 hM

theorem Gives.mono {α : Type} {m : Gen CSt α} {Q Q' : α → Prop} (h : Gives C ins M D m Q) (hq : ∀ a, Q a → Q' a) :
    Gives C ins M D m Q' := fun st r hs e hM => ⟨(h st r hs e hM).1, hq _ (h st r hs e hM).2⟩

/-! ## One operation -/

theorem sub_part {P : List Ex} {x y : Ex} (hx : ∀ a ∈ x.subs, Part C P a) (hy : ∀ a ∈ y.subs, Part C P a) {e : Ex}
    (he : e ∈ P) (hs : e.subs = e :: (x.subs ++ y.subs)) : ∀ a ∈ e.subs, Part C P a := by
  intro a ha
  rw [hs, List.mem_cons, List.mem_append] at ha
  rcases ha with rfl | ha | ha
  · exact Or.inl he
  · exact hx a ha
  · exact hy a ha

theorem lookup_cases (f : Ex) (st : CSt) (hf : f.fast = false) (hs : Sig.unsmall C.F (f.sig C) = none) :
    f ∈ (lookup C f st).2.met ∧ (lookup C f st).2.exact = st.exact ∧
      (((lookup C f st).2.table = st.table ∧ ∃ p ∈ st.table, (lookup C f st).1 = p.2) ∨
        (∃ s, (lookup C f st).2.table = (s, f) :: st.table) ∧ (lookup C f st).1 = f) := by
  unfold lookup
  rw [hs, if_neg (by rw [hf]; exact Bool.false_ne_true)]
  have : ∀ p, st.table.find? (fun p => decide (∀ i, p.1 i = f.sig C i)) = some p → p ∈ st.table :=
    fun p h => List.mem_of_find?_eq_some h
  revert this
  generalize st.table.find? (fun p => decide (∀ i, p.1 i = f.sig C i)) = found
  intro h
  cases found with
  | some p => exact ⟨List.mem_cons_self .., rfl, Or.inl ⟨rfl, p, h p rfl, rfl⟩⟩
  | none => exact ⟨List.mem_cons_self .., rfl, Or.inr ⟨⟨_, rfl⟩, rfl⟩⟩

theorem cse_lookup (e : Ex) {st : CSt} (h : st.exact = false) : cse C e st = lookup C (e.withSig (e.arb C)) st := by
  unfold cse
  rw [h]
  rfl

theorem in_withSig {e : Ex} (h : In D e) (s : Sg) : In D (e.withSig s) := by
  cases e <;> exact h

theorem lookup_mem (f : Ex) (st : CSt) (hf : f.fast = false) : f ∈ (lookup C f st).2.met := by
  unfold lookup
  rw [if_neg (by rw [hf]; exact Bool.false_ne_true)]
  generalize Sig.unsmall C.F (f.sig C) = small
  generalize st.table.find? (fun p => decide (∀ i, p.1 i = f.sig C i)) = found
  cases small <;> cases found <;> exact List.mem_cons_self ..

theorem lookup_gives (hsm : NoSmall C M) (hc : NoClash C ρ M) {f : Ex} (hf : f.fast = false)
    (hp : f.Plain) (hv : In D f) (hs : f ∈ M → ∀ a ∈ f.subs, Part C (ins ++ M) a) {st : CSt} (hw : World C ins M D st)
    (hM : (lookup C f st).2.met ⊆ M) :
    World C ins M D (lookup C f st).2 ∧ Fine C (ins ++ M) D (lookup C f st).1 ∧ (lookup C f st).1.val ρ = f.val ρ := by
  have hst := lookup_step ρ f hw.ok
  have hval := hst.val (hc.mono hM)
  have hmem := hM (lookup_mem f st hf)
  have hfine : Fine C (ins ++ M) D f := ⟨hp, hv, hs hmem⟩
  obtain ⟨-, l2, l3⟩ := lookup_cases (C := C) f st hf (hsm f hmem)
  have hok := hst.ok
  clear hst
  generalize lookup C f st = r at *
  rcases l3 with ⟨t, p, hp, hz⟩ | ⟨⟨s, t⟩, hz⟩
  · refine ⟨⟨hok, l2.trans hw.exact, by rw [t]; exact hw.table⟩, ?_, hval⟩
    rw [hz]; exact hw.table p hp
  · refine ⟨⟨hok, l2.trans hw.exact, ?_⟩, by rw [hz]; exact hfine, hval⟩
    rw [t]
    intro p hp
    rcases List.mem_cons.mp hp with rfl | hp
    · exact hfine
    · exact hw.table p hp

/-- What `cse` does with a new operation. -/
theorem cse_gives (hsm : NoSmall C M) (hc : NoClash C ρ M) {e : Ex} (hf : (e.withSig (e.arb C)).fast = false)
    (hp : (e.withSig (e.arb C)).Plain) (hv : In D e) (hs : e.withSig (e.arb C) ∈ M → ∀ a ∈ (e.withSig (e.arb C)).subs, Part C (ins ++ M) a) :
    Gives C ins M D (fun st => .ok (cse C e st)) fun z => Fine C (ins ++ M) D z ∧ z.val ρ = e.val ρ := by
  intro st r hw er hM
  have er : cse C e st = r := Except.ok.inj er
  rw [cse_lookup e hw.exact] at er
  subst er
  have := lookup_gives hsm hc hf hp (in_withSig hv _) hs hw hM
  rwa [withSig_val] at this

theorem neg_gives {x : Ex} (hx : Fine C (ins ++ M) D x) :
    Gives C ins M D (neg C x) fun z => Fine C (ins ++ M) D z ∧ z.val ρ = -x.val ρ := by
  intro st r hw e hM
  unfold neg at e
  rw [hx.plain.zero.2.2] at e
  simp only at e
  rcases hx.plain.unneg with ⟨h, hne⟩ | ⟨y, s, rfl, h, hy⟩
  · rw [h, bok] at e
    simp only at e
    rw [pok, Except.ok.injEq] at e
    subst e
    have hself : Part C (ins ++ M) x := hx.subs x x.self_mem_subs
    have hx' : x ∈ ins ++ M := by
      rcases hself with h | ⟨y, _, rfl⟩
      · exact h
      · exact absurd rfl (hne _ _)
    have hl : cse C (.neg x (Sig.sneg C.F (x.sig C))) st = (.neg x (Sig.sneg C.F (x.sig C)), st) := by
      unfold cse
      rw [hw.exact]
      rfl
    rw [hl]
    refine ⟨hw, ⟨hx.plain, hx.vars, fun a ha => ?_⟩, rfl⟩
    simp only [Ex.subs, List.mem_cons] at ha
    rcases ha with rfl | ha
    · exact Or.inr ⟨x, hx', rfl⟩
    · exact hx.subs a ha
  · rw [h, bok] at e
    simp only at e
    rw [pok, Except.ok.injEq] at e
    subst e
    refine ⟨hw, ⟨hy, hx.vars, fun a ha => hx.subs a (by simp [Ex.subs, ha])⟩, ?_⟩
    apply Fl.ext'
    simp only [Ex.val, Fl.neg_v, neg_neg]

theorem Fine.unneg {x : Ex} {s : Sg} {P : List Ex} (h : Fine C P D (.neg x s)) : Fine C P D x :=
  ⟨h.plain, h.vars, fun a ha => h.subs a (by simp [Ex.subs, ha])⟩

theorem in_two {x y : Ex} (hx : In D x) (hy : In D y) {e : Ex} (he : e.vars = x.vars ++ y.vars) : In D e := by
  intro v hv
  rw [he, List.mem_append] at hv
  exact hv.elim (hx v) (hy v)

theorem addsub_gives (hr : Symmetric rn) (hsm : NoSmall C M) (hc : NoClash C ρ M) : ∀ (n : ℕ) {x y : Ex}, x.negs + y.negs < n →
    Fine C (ins ++ M) D x → Fine C (ins ++ M) D y →
    Gives C ins M D (add C x y) (fun z => Fine C (ins ++ M) D z ∧ z.val ρ = x.val ρ + y.val ρ) ∧
      Gives C ins M D (sub C x y) fun z => Fine C (ins ++ M) D z ∧ z.val ρ = x.val ρ - y.val ρ := by
  intro n
  induction n with
  | zero => intro x y hn; omega
  | succ n ih =>
    intro x y hn hx hy
    have zx := hx.plain.zero.1
    have zy := hy.plain.zero.1
    have inM : ∀ {e : Ex}, e ∈ M → e ∈ ins ++ M := fun h => List.mem_append_right _ h
    rcases hx.plain.unneg with ⟨ux, -⟩ | ⟨x', sx, rfl, ux, -⟩
    · rcases hy.plain.unneg with ⟨uy, -⟩ | ⟨y', sy, rfl, uy, -⟩
      · constructor
        · intro st r hw e hM
          rw [add] at e
          simp only [zx, zy, Bool.false_eq_true, if_false] at e
          split at e
          · rename_i h; rw [ux] at h; cases h
          · rename_i h; rw [ux] at h; cases h
          split at e
          · rename_i h; rw [uy] at h; cases h
          · rename_i h; rw [uy] at h; cases h
          exact cse_gives hsm hc (e := .add x y _) rfl rfl (in_two hx.vars hy.vars rfl)
            (fun h => sub_part hx.subs hy.subs (inM h) rfl) st r hw e hM
        · intro st r hw e hM
          rw [sub] at e
          simp only [zx, zy, Bool.false_eq_true, if_false] at e
          split at e
          · rename_i h; rw [ux] at h; cases h
          · rename_i h; rw [ux] at h; cases h
          split at e
          · rename_i h; rw [uy] at h; cases h
          · rename_i h; rw [uy] at h; cases h
          exact cse_gives hsm hc (e := .sub x y _) rfl rfl (in_two hx.vars hy.vars rfl)
            (fun h => sub_part hx.subs hy.subs (inM h) rfl) st r hw e hM
      · have hn' : x.negs + y'.negs < n := by simp only [Ex.negs] at hn; omega
        obtain ⟨i1, i2⟩ := ih hn' hx hy.unneg
        constructor
        · intro st r hw e hM
          rw [add] at e
          simp only [zx, zy, Bool.false_eq_true, if_false] at e
          split at e
          · rename_i h; rw [ux] at h; cases h
          · rename_i h; rw [ux] at h; cases h
          split at e
          · rename_i h; rw [uy] at h; cases h
          · rename_i h
            rw [uy] at h; cases h
            obtain ⟨a, b, c⟩ := i2 st r hw e hM
            refine ⟨a, b, c.trans (Fl.ext' ?_)⟩
            simp only [Ex.val, Fl.add_v, Fl.sub_v, Fl.neg_v, sub_eq_add_neg]
          · rename_i h; rw [uy] at h; cases h
        · intro st r hw e hM
          rw [sub] at e
          simp only [zx, zy, Bool.false_eq_true, if_false] at e
          split at e
          · rename_i h; rw [ux] at h; cases h
          · rename_i h; rw [ux] at h; cases h
          split at e
          · rename_i h; rw [uy] at h; cases h
          · rename_i h
            rw [uy] at h; cases h
            obtain ⟨a, b, c⟩ := i1 st r hw e hM
            refine ⟨a, b, c.trans (Fl.ext' ?_)⟩
            simp only [Ex.val, Fl.add_v, Fl.sub_v, Fl.neg_v, sub_neg_eq_add]
          · rename_i h; rw [uy] at h; cases h
    · constructor
      · have hn' : y.negs + x'.negs < n := by simp only [Ex.negs] at hn; omega
        obtain ⟨i1, i2⟩ := ih hn' hy hx.unneg
        intro st r hw e hM
        rw [add] at e
        simp only [zx, zy, Bool.false_eq_true, if_false] at e
        split at e
        · rename_i h; rw [ux] at h; cases h
        · rename_i h
          rw [ux] at h; cases h
          obtain ⟨a, b, c⟩ := i2 st r hw e hM
          refine ⟨a, b, c.trans (Fl.ext' ?_)⟩
          simp only [Ex.val, Fl.add_v, Fl.sub_v, Fl.neg_v]
          congr 1; ring
        · rename_i h; rw [ux] at h; cases h
      · have hn' : x'.negs + y.negs < n := by simp only [Ex.negs] at hn; omega
        obtain ⟨i1, i2⟩ := ih hn' hx.unneg hy
        intro st r hw e hM
        rw [sub] at e
        simp only [zx, zy, Bool.false_eq_true, if_false] at e
        split at e
        · rename_i h; rw [ux] at h; cases h
        · rename_i h
          rw [ux] at h; cases h
          split at e
          · cases e
          · rename_i z st1 hz
            have g := grows_neg z st1 r (grows_add x' y st _ hw.ok hz).1 e
            obtain ⟨a, b, c⟩ := i1 st (z, st1) hw hz fun _ h => hM (g.2 h)
            obtain ⟨a', b', c'⟩ := neg_gives (ρ := ρ) b st1 r a e hM
            refine ⟨a', b', c'.trans ?_⟩
            simp only at c
            rw [c]
            apply Fl.ext'
            simp only [Ex.val, Fl.add_v, Fl.sub_v, Fl.neg_v]
            rw [← hr]
            congr 1; ring
        · rename_i h; rw [ux] at h; cases h

theorem add_gives (hr : Symmetric rn) (hsm : NoSmall C M) (hc : NoClash C ρ M) {x y : Ex} (hx : Fine C (ins ++ M) D x)
    (hy : Fine C (ins ++ M) D y) : Gives C ins M D (add C x y) fun z => Fine C (ins ++ M) D z ∧ z.val ρ = x.val ρ + y.val ρ :=
  (addsub_gives hr hsm hc _ (Nat.lt_succ_self _) hx hy).1

theorem sub_gives (hr : Symmetric rn) (hsm : NoSmall C M) (hc : NoClash C ρ M) {x y : Ex} (hx : Fine C (ins ++ M) D x)
    (hy : Fine C (ins ++ M) D y) : Gives C ins M D (sub C x y) fun z => Fine C (ins ++ M) D z ∧ z.val ρ = x.val ρ - y.val ρ :=
  (addsub_gives hr hsm hc _ (Nat.lt_succ_self _) hx hy).2

theorem mul_gives' (hr : Symmetric rn) (hsm : NoSmall C M) (hc : NoClash C ρ M) : ∀ (n : ℕ) {x y : Ex}, x.negs + y.negs < n →
    Fine C (ins ++ M) D x → Fine C (ins ++ M) D y →
    Gives C ins M D (mul C x y) fun z => Fine C (ins ++ M) D z ∧ z.val ρ = x.val ρ * y.val ρ := by
  intro n
  induction n with
  | zero => intro x y hn; omega
  | succ n ih =>
    intro x y hn hx hy st r hw e hM
    have zx := hx.plain.zero
    have zy := hy.plain.zero
    rw [mul] at e
    rw [if_neg (by simp [zx.1, zy.1])] at e
    rcases hx.plain.unneg with ⟨ux, -⟩ | ⟨x', sx, rfl, ux, -⟩
    · split at e
      · rename_i h; rw [ux] at h; cases h
      · rename_i h; rw [ux] at h; cases h
      rcases hy.plain.unneg with ⟨uy, -⟩ | ⟨y', sy, rfl, uy, -⟩
      · split at e
        · rename_i h; rw [uy] at h; cases h
        · rename_i h; rw [uy] at h; cases h
        simp only [zx.2.1, zy.2.1, Bool.false_eq_true, if_false] at e
        exact cse_gives hsm hc (e := .mul x y _) rfl rfl (in_two hx.vars hy.vars rfl)
          (fun h => sub_part hx.subs hy.subs (List.mem_append_right _ h) rfl) st r hw e hM
      · have hn' : x.negs + y'.negs < n := by simp only [Ex.negs] at hn; omega
        split at e
        · rename_i h; rw [uy] at h; cases h
        · rename_i h
          rw [uy] at h; cases h
          split at e
          · cases e
          · rename_i z st1 hz
            have g := grows_neg z st1 r (grows_mul x y' st _ hw.ok hz).1 e
            obtain ⟨a, b, c⟩ := ih hn' hx hy.unneg st (z, st1) hw hz fun _ h => hM (g.2 h)
            obtain ⟨a', b', c'⟩ := neg_gives (ρ := ρ) b st1 r a e hM
            refine ⟨a', b', c'.trans ?_⟩
            simp only at c
            rw [c]
            apply Fl.ext'
            simp only [Ex.val, Fl.mul_v, Fl.neg_v]
            rw [← hr]
            congr 1; ring
        · rename_i h; rw [uy] at h; cases h
    · have hn' : x'.negs + y.negs < n := by simp only [Ex.negs] at hn; omega
      split at e
      · rename_i h; rw [ux] at h; cases h
      · rename_i h
        rw [ux] at h; cases h
        split at e
        · cases e
        · rename_i z st1 hz
          have g := grows_neg z st1 r (grows_mul x' y st _ hw.ok hz).1 e
          obtain ⟨a, b, c⟩ := ih hn' hx.unneg hy st (z, st1) hw hz fun _ h => hM (g.2 h)
          obtain ⟨a', b', c'⟩ := neg_gives (ρ := ρ) b st1 r a e hM
          refine ⟨a', b', c'.trans ?_⟩
          simp only at c
          rw [c]
          apply Fl.ext'
          simp only [Ex.val, Fl.mul_v, Fl.neg_v]
          rw [← hr]
          congr 1; ring
      · rename_i h; rw [ux] at h; cases h

theorem mul_gives (hr : Symmetric rn) (hsm : NoSmall C M) (hc : NoClash C ρ M) {x y : Ex} (hx : Fine C (ins ++ M) D x)
    (hy : Fine C (ins ++ M) D y) : Gives C ins M D (mul C x y) fun z => Fine C (ins ++ M) D z ∧ z.val ρ = x.val ρ * y.val ρ :=
  mul_gives' hr hsm hc _ (Nat.lt_succ_self _) hx hy

theorem fma_gives (hsm : NoSmall C M) (hc : NoClash C ρ M) (w : Sg) {x y z : Ex} (hx : Fine C (ins ++ M) D x)
    (hy : Fine C (ins ++ M) D y) (hz : Fine C (ins ++ M) D z) : Gives C ins M D (fun st => .ok (fma C x y z w st))
      fun t => Fine C (ins ++ M) D t ∧ t.val ρ = ρ.call "fma" [x.val ρ, y.val ρ, z.val ρ] :=
  cse_gives hsm hc (e := .call3 "fma" x y z w) rfl rfl
    (fun v hv => by
      simp only [Ex.vars, List.mem_append] at hv
      rcases hv with (hv | hv) | hv
      exacts [hx.vars v hv, hy.vars v hv, hz.vars v hv])
    (fun h a ha => by
      simp only [Ex.withSig, Ex.subs, List.mem_cons, List.mem_append] at ha
      rcases ha with rfl | (ha | ha) | ha
      exacts [Or.inl (List.mem_append_right _ h), hx.subs a ha, hy.subs a ha, hz.subs a ha])

end

end Mandelbrot.Sym
