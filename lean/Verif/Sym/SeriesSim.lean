import Verif.Sym.SeriesGen
import Verif.Sym.History
import Verif.Sym.Within
import Verif.Series.Has

/-!
# The series functions on expressions follow those on values
-/

namespace Mandelbrot.Sym

open Sig (Sg)
open Spec

section
variable {K : Type} [Field K]

/-- The operations on numbers. -/
def numArith (K : Type) [Field K] : Arith Unit K where
  int := fun n => n
  neg := fun x => pure (-x)
  add := fun x y => pure (x + y)
  mul := fun x y => pure (x * y)
  div := fun x n => pure (x / n)
  sum := fun l => pure l.sum
  inv := fun x => pure x⁻¹

/-- The interpretation of the functions that the base cases call. -/
structure Interp.Fielded (ρ : Interp K) : Prop where
  inv : ∀ a, ρ.call "inv" [a] = a⁻¹
  div : ∀ a n, ρ.div a n = a / n

theorem Interp.Fielded.divOk {ρ : Interp K} (h : ρ.Fielded) : ρ.DivOk :=
  ⟨fun x => by rw [h.div]; simp, fun x a => by rw [h.div, h.div]; push_cast; rw [div_neg],
    fun x a => by rw [h.div, h.div, neg_div]⟩

variable {C : Cfg} {ρ : Interp K} {D : List String}

/-- The variables of an expression are among the given names. -/
def In (D : List String) (e : Ex) : Prop := ∀ v ∈ e.vars, v ∈ D

/-- A computation on expressions gives what a computation on values gives, unless there is a clash, and its results have a property
if what is in the table uses the given names only. -/
def Sim (C : Cfg) (ρ : Interp K) (D : List String) {α β : Type} (Q : α → Prop) (f : α → β) (m : Gen CSt α) (p : Gen Unit β) : Prop :=
  ∀ st r, st.Ok C → st.All (In D) → m st = .ok r →
    r.2.Ok C ∧ r.2.All (In D) ∧ Q r.1 ∧ st.met ⊆ r.2.met ∧ (NoClash C ρ r.2.met → p () = .ok (f r.1, ()))

theorem Sim.pure' {α β : Type} {Q : α → Prop} {f : α → β} {a : α} {b : β} (hq : Q a) (hb : f a = b) :
    Sim C ρ D Q f (Pure.pure a) (Pure.pure b) := by
  subst hb
  intro st r h ha e
  have : r = (a, st) := by cases e; rfl
  subst this
  exact ⟨h, ha, hq, fun _ h => h, fun _ => rfl⟩

theorem Sim.bind {α β γ δ : Type} {Q : α → Prop} {Q' : γ → Prop} {f : α → β} {g : γ → δ} {m : Gen CSt α} {p : Gen Unit β}
    {k : α → Gen CSt γ} {q : β → Gen Unit δ} (h : Sim C ρ D Q f m p) (hk : ∀ a, Q a → Sim C ρ D Q' g (k a) (q (f a))) :
    Sim C ρ D Q' g (m >>= k) (p >>= q) := by
  intro st r hs ha e
  change (m st >>= fun x => k x.1 x.2) = _ at e
  cases hm : m st with
  | error e' => rw [hm] at e; cases e
  | ok x =>
    rw [hm] at e
    change k x.1 x.2 = _ at e
    obtain ⟨h1, h2, h3, h4, h5⟩ := h st x hs ha hm
    obtain ⟨k1, k2, k3, k4, k5⟩ := hk x.1 h3 x.2 r h1 h2 e
    refine ⟨k1, k2, k3, fun _ hx => k4 (h4 hx), fun hn => ?_⟩
    show (p () >>= fun x => q x.1 x.2) = _
    rw [h5 (hn.mono k4)]
    exact k5 hn

theorem Sim.ofRes {α β : Type} {Q : α → Prop} {f : α → β} {r : Res α} {r' : Res β} (h : r' = r.map f) (hq : ∀ a, r = .ok a → Q a) :
    Sim C ρ D Q f (Sym.ofRes r) (Sym.ofRes r') := by
  subst h
  intro st x hs ha e
  unfold Sym.ofRes at e ⊢
  cases r with
  | error e' => simp [Except.map] at e
  | ok a =>
    simp only [Except.map, Except.ok.injEq] at e ⊢
    subst e
    exact ⟨hs, ha, hq a rfl, fun _ h => h, fun _ => rfl⟩

theorem Sim.ite {α β : Type} {Q : α → Prop} {f : α → β} {c : Prop} [Decidable c] {m m' : Gen CSt α} {p p' : Gen Unit β}
    (h : c → Sim C ρ D Q f m p) (h' : ¬c → Sim C ρ D Q f m' p') : Sim C ρ D Q f (if c then m else m') (if c then p else p') := by
  by_cases hc : c
  · rw [if_pos hc, if_pos hc]; exact h hc
  · rw [if_neg hc, if_neg hc]; exact h' hc

theorem in_closed (D : List String) : Closed (In D) where
  int := fun n v hv => by simp [Ex.vars] at hv
  neg := fun x s => Iff.rfl
  add := fun x y s hx hy v hv => by simp only [Ex.vars, List.mem_append] at hv; exact hv.elim (hx v) (hy v)
  sub := fun x y s hx hy v hv => by simp only [Ex.vars, List.mem_append] at hv; exact hv.elim (hx v) (hy v)
  mul := fun x y s hx hy v hv => by simp only [Ex.vars, List.mem_append] at hv; exact hv.elim (hx v) (hy v)
  withSig := fun e s h => by cases e <;> exact h

theorem in_int (n : ℤ) : In D (.int n) := (in_closed D).int n

/-! ## Operations -/

theorem Sim.of_step {m : Gen CSt Ex} {v : K} (h : ∀ st r, st.Ok C → m st = .ok r → Step C ρ v st r)
    (ha : ∀ st r, st.All (In D) → m st = .ok r → r.2.All (In D) ∧ In D r.1) : Sim C ρ D (In D) (Ex.val ρ) m (Pure.pure v) := by
  intro st r hs hs' e
  have := h st r hs e
  obtain ⟨h1, h2⟩ := ha st r hs' e
  exact ⟨this.ok, h1, h2, this.met, fun hn => by rw [this.val hn]; rfl⟩

theorem sim_neg {x : Ex} (hx : In D x) : Sim C ρ D (In D) (Ex.val ρ) ((exArith C).neg x) ((numArith K).neg (x.val ρ)) :=
  Sim.of_step (fun _ _ hs e => neg_step ρ hs e) fun _ _ hs e => neg_all (in_closed D) hx hs e

theorem sim_add {x y : Ex} (hx : In D x) (hy : In D y) :
    Sim C ρ D (In D) (Ex.val ρ) ((exArith C).add x y) ((numArith K).add (x.val ρ) (y.val ρ)) :=
  Sim.of_step (fun _ _ hs e => add_step ρ hs e) fun _ _ hs e => add_all (in_closed D) hs hx hy e

theorem sim_mul {x y : Ex} (hx : In D x) (hy : In D y) :
    Sim C ρ D (In D) (Ex.val ρ) ((exArith C).mul x y) ((numArith K).mul (x.val ρ) (y.val ρ)) :=
  Sim.of_step (fun _ _ hs e => mul_step ρ hs e) fun _ _ hs e => mul_all (in_closed D) hs hx hy e

theorem divPos_in {a : ℤ} : ∀ (n : ℕ) {x : Ex} {st : CSt}, x.negs < n → In D x → st.All (In D) → ∀ r, divPos C x a st = .ok r →
    r.2.All (In D) ∧ In D r.1 := by
  intro n
  induction n with
  | zero => intro x st hn; omega
  | succ n ih =>
    intro x st hn hx hs r e
    rw [divPos.eq_def] at e
    split_ifs at e with h1
    · cases e; exact ⟨hs, hx⟩
    · split at e
      · simp at e
      · rename_i y hy
        split at e
        · simp at e
        · rename_i z st1 hz
          have := Ex.unneg_negs hy
          obtain ⟨k1, k2⟩ := ih (by omega) (unneg_all (in_closed D) hy hx) hs _ hz
          exact neg_all (in_closed D) k2 k1 e
      · split at e
        · simp at e
        · rename_i s' _
          simp only [Except.ok.injEq] at e
          subst e
          exact cse_all (in_closed D) C (e := .div x a (Sig.smul C.F (x.sig C) s')) hx hs

theorem sim_div (hρ : ρ.Fielded) {x : Ex} (hx : In D x) (n : ℤ) :
    Sim C ρ D (In D) (Ex.val ρ) ((exArith C).div x n) ((numArith K).div (x.val ρ) n) := by
  refine Sim.of_step (fun _ _ hs e => (div_step hρ.divOk hs e).congr fun _ => hρ.div _ _) fun st r hs e => ?_
  change div C x n st = _ at e
  unfold div at e
  obtain ⟨_, _, e⟩ := Ser.bind_eq_ok e
  split_ifs at e with h1 h2 h3
  · cases e; exact ⟨hs, hx⟩
  · exact neg_all (in_closed D) hx hs e
  · obtain ⟨b, _, e⟩ := Ser.bind_eq_ok e
    obtain ⟨z, hz, e⟩ := Ser.bind_eq_ok e
    obtain ⟨k1, k2⟩ := divPos_in _ (Nat.lt_succ_self _) hx hs _ hz
    exact neg_all (in_closed D) k2 k1 e
  · exact divPos_in _ (Nat.lt_succ_self _) hx hs _ e

theorem sim_sum {l : List Ex} (hl : ∀ x ∈ l, In D x) :
    Sim C ρ D (In D) (Ex.val ρ) ((exArith C).sum l) ((numArith K).sum (l.map (Ex.val ρ))) :=
  Sim.of_step (fun _ r hs e => sum_step ρ (l.length + 1) (by omega) hs r e) fun _ r hs e =>
    sum_all (in_closed D) (l.length + 1) (by omega) hs hl r e

theorem sim_inv (hρ : ρ.Fielded) {x : Ex} (hx : In D x) :
    Sim C ρ D (In D) (Ex.val ρ) ((exArith C).inv x) ((numArith K).inv (x.val ρ)) := by
  have key : ∀ st r, (exArith C).inv x st = .ok r → ∃ s, r = cse C (.call1 "inv" x s) st := by
    intro st r e
    change (do let s ← invSig C.F (x.sig C); return call1 C "inv" x s st) = _ at e
    obtain ⟨s, _, e⟩ := Ser.bind_eq_ok e
    cases e
    exact ⟨s, rfl⟩
  refine Sim.of_step (fun st r hs e => ?_) fun st r hs e => ?_
  · obtain ⟨s, rfl⟩ := key st r e
    exact (cse_step ρ (.call1 "inv" x s) hs).congr fun _ => hρ.inv _
  · obtain ⟨s, rfl⟩ := key st r e
    exact cse_all (in_closed D) C (e := .call1 "inv" x s) hx hs

theorem val_int (n : ℤ) : ((exArith C).int n).val ρ = (numArith K).int n := rfl

/-! ## Series -/

/-- The values of a series of expressions. -/
def vals (ρ : Interp K) (x : Ser Ex) : Ser K := ⟨x.limit, x.known, x.nonzero, fun i => (x.data i).val ρ⟩

/-- The variables of a sequence of expressions are among the given names. -/
def InD (D : List String) (d : ℕ → Ex) : Prop := ∀ i, In D (d i)

/-- The variables of a series are among the given names. -/
def InS (D : List String) (x : Ser Ex) : Prop := InD D x.data

theorem vals_update (d : ℕ → Ex) (i : ℕ) (v : Ex) :
    (fun j => (Function.update d i v j).val ρ) = Function.update (fun j => (d j).val ρ) i (v.val ρ) := by
  funext j
  by_cases h : j = i
  · subst h; simp
  · simp [Function.update_of_ne h]

theorem in_update {d : ℕ → Ex} (hd : InD D d) (i : ℕ) {v : Ex} (hv : In D v) : InD D (Function.update d i v) := by
  intro j
  by_cases h : j = i
  · subst h; rw [Function.update_self]; exact hv
  · rw [Function.update_of_ne h]; exact hd j

theorem in_ite {c : Prop} [Decidable c] {a b : Ex} (ha : In D a) (hb : In D b) : In D (if c then a else b) := by
  split_ifs <;> assumption

theorem sim_loop {f : (ℕ → Ex) → ℕ → Gen CSt Ex} {g : (ℕ → K) → ℕ → Gen Unit K}
    (h : ∀ d i, InD D d → Sim C ρ D (In D) (Ex.val ρ) (f d i) (g (fun j => (d j).val ρ) i)) : ∀ (n i : ℕ) (d : ℕ → Ex), InD D d →
    Sim C ρ D (InD D) (fun d j => (d j).val ρ) (loopG f i n d) (loopG g i n fun j => (d j).val ρ) := by
  intro n
  induction n with
  | zero => intro i d hd; exact Sim.pure' hd rfl
  | succ n ih =>
    intro i d hd
    simp only [loopG]
    refine Sim.bind (h d i hd) fun v hv => ?_
    have := ih (i + 1) (Function.update d i v) (in_update hd i hv)
    rwa [vals_update] at this

theorem sim_prods : ∀ l : List (Ex × Ex), (∀ p ∈ l, In D p.1 ∧ In D p.2) →
    Sim C ρ D (fun l => ∀ x ∈ l, In D x) (List.map (Ex.val ρ)) (prodsG (exArith C) l)
      (prodsG (numArith K) (l.map fun p => (p.1.val ρ, p.2.val ρ))) := by
  intro l
  induction l with
  | nil => intro _; exact Sim.pure' (by simp) rfl
  | cons p l ih =>
    intro hl
    have hp := hl p (by simp)
    simp only [prodsG, List.map_cons]
    exact Sim.bind (sim_mul hp.1 hp.2) fun t ht => Sim.bind (ih fun q hq => hl q (by simp [hq])) fun ts hts =>
      Sim.pure' (by intro x hx; rcases List.mem_cons.mp hx with rfl | h; exacts [ht, hts x h]) rfl

theorem sim_coef (nx ny : ℕ) {x y : ℕ → Ex} (hx : InD D x) (hy : InD D y) (i : ℕ) :
    Sim C ρ D (In D) (Ex.val ρ) (coefG (exArith C) nx ny x y i)
      (coefG (numArith K) nx ny (fun j => (x j).val ρ) (fun j => (y j).val ρ) i) := by
  unfold coefG
  refine Sim.bind (f := List.map (Ex.val ρ)) (Q := fun l => ∀ x ∈ l, In D x) ?_ fun ts hts => sim_sum hts
  have := sim_prods (C := C) (ρ := ρ) (D := D)
    (((List.range (i + 1)).filter fun j => j < nx ∧ i - j < ny).map fun j => (x j, y (i - j)))
    (by intro p hp; obtain ⟨j, _, rfl⟩ := List.mem_map.mp hp; exact ⟨hx _, hy _⟩)
  rwa [List.map_map] at this

theorem sim_fftMul (al : Al) (nz nx ny : ℕ) {x y z : ℕ → Ex} (hx : InD D x) (hy : InD D y) (hz : InD D z) :
    Sim C ρ D (InD D) (fun d j => (d j).val ρ) (fftMulG (exArith C) al nz nx ny x y z)
      (fftMulG (numArith K) al nz nx ny (fun j => (x j).val ρ) (fun j => (y j).val ρ) fun j => (z j).val ρ) := by
  unfold fftMulG
  refine sim_loop (fun d i hd => ?_) nz 0 z hz
  have := sim_coef (C := C) (ρ := ρ) nx ny (x := if al = .left then d else x) (y := if al = .right then d else y)
    (by split_ifs <;> assumption) (by split_ifs <;> assumption) i
  cases al <;> simpa using this

theorem setCounts_vals (z : Ser Ex) (k n : ℤ) : (vals ρ z).setCounts k n = (z.setCounts k n).map (vals ρ) := by
  change (slowAssert (toU64 n ≤ toU64 (min z.limit k)) >>= fun _ => _) = Except.map _ (slowAssert _ >>= fun _ => _)
  cases slowAssert (toU64 n ≤ toU64 (min z.limit k)) <;> rfl

theorem setKnown_vals (z : Ser Ex) (k : ℤ) : (vals ρ z).setKnown k = (z.setKnown k).map (vals ρ) := by
  change (slowAssert (k ≥ 0) >>= fun _ => _) = Except.map _ (slowAssert _ >>= fun _ => _)
  cases slowAssert (k ≥ 0) <;> rfl

theorem setScalar_vals (z : Ser Ex) (k : ℤ) (a : Ex) : (vals ρ z).setScalar k (a.val ρ) = (z.setScalar k a).map (vals ρ) := by
  change (slowAssert (z.limit ≥ if relu k > 0 then 1 else 0) >>= fun _ => _) = Except.map _ (slowAssert _ >>= fun _ => _)
  cases slowAssert (z.limit ≥ if relu k > 0 then 1 else 0) with
  | error e => rfl
  | ok u =>
    show Except.ok (⟨_, _, _, _⟩ : Ser K) = Except.ok ⟨_, _, _, _⟩
    congr 2
    funext i
    show _ = Ex.val ρ (if relu k ≠ 0 ∧ i = 0 then a else z.data i)
    by_cases h : relu k ≠ 0 ∧ i = 0
    · rw [if_pos h, if_pos h]
    · rw [if_neg h, if_neg h]; rfl

theorem sim_setCounts {z : Ser Ex} (hz : InS D z) (k n : ℤ) :
    Sim C ρ D (InS D) (vals ρ) (ofRes (z.setCounts k n)) (ofRes ((vals ρ z).setCounts k n)) :=
  Sim.ofRes (setCounts_vals z k n) fun a e => by obtain ⟨_, _, e⟩ := Ser.bind_eq_ok e; cases e; exact hz

theorem sim_setKnown {z : Ser Ex} (hz : InS D z) (k : ℤ) :
    Sim C ρ D (InS D) (vals ρ) (ofRes (z.setKnown k)) (ofRes ((vals ρ z).setKnown k)) :=
  Sim.ofRes (setKnown_vals z k) fun a e => by obtain ⟨_, _, e⟩ := Ser.bind_eq_ok e; cases e; exact hz

theorem sim_setScalar {z : Ser Ex} (hz : InS D z) (k : ℤ) {a : Ex} (ha : In D a) :
    Sim C ρ D (InS D) (vals ρ) (ofRes (z.setScalar k a)) (ofRes ((vals ρ z).setScalar k (a.val ρ))) :=
  Sim.ofRes (setScalar_vals z k a) fun b e => by
    obtain ⟨_, _, e⟩ := Ser.bind_eq_ok e
    cases e
    intro i
    exact in_ite ha (hz i)

theorem sim_assert (c : Prop) [Decidable c] {α β : Type} {Q : α → Prop} {f : α → β} {m : Gen CSt α} {p : Gen Unit β}
    (h : c → Sim C ρ D Q f m p) : Sim C ρ D Q f (ofRes (slowAssert c) >>= fun _ => m) (ofRes (slowAssert c) >>= fun _ => p) := by
  by_cases hc : c
  · exact Sim.bind (f := id) (Q := fun _ => True) (Sim.ofRes (by cases slowAssert c <;> rfl) fun _ _ => trivial) fun _ _ => h hc
  · intro st r hs ha e
    exfalso
    have h1 : slowAssert c = .error .assertion := by unfold slowAssert; rw [if_neg hc]
    rw [h1] at e
    cases e

theorem sim_mulG (al : Al) {z x y : Ser Ex} (hz : InS D z) (hx : InS D x) (hy : InS D y) :
    Sim C ρ D (InS D) (vals ρ) (mulG (exArith C) al z x y) (mulG (numArith K) al (vals ρ z) (vals ρ x) (vals ρ y)) := by
  unfold mulG
  refine Sim.bind (f := vals ρ) (sim_setCounts hz _ _) fun z hz => ?_
  exact Sim.bind (sim_fftMul al _ _ _ hx hy hz) fun d hd => Sim.pure' hd rfl

theorem sim_addScalar {x : Ser Ex} (hx : InS D x) (n : ℤ) :
    Sim C ρ D (InS D) (vals ρ) (addScalarG (exArith C) x ((exArith C).int n)) (addScalarG (numArith K) (vals ρ x) ((numArith K).int n)) := by
  unfold addScalarG
  refine sim_assert _ fun _ => Sim.bind (sim_add (hx 0) (in_int n)) fun v hv => Sim.pure' (in_update hx 0 hv) ?_
  simp only [vals, vals_update]

theorem sim_highAddsub {y x : Ser Ex} (hy : InS D y) (sign s : ℤ) (hx : InS D x) :
    Sim C ρ D (InS D) (vals ρ) (highAddsubG (exArith C) y sign s x) (highAddsubG (numArith K) (vals ρ y) sign s (vals ρ x)) := by
  unfold highAddsubG
  refine sim_assert _ fun _ => Sim.bind (f := vals ρ) (sim_setCounts hy _ _) fun y' hy' => ?_
  refine Sim.bind (f := fun d j => (d j).val ρ) (sim_loop (fun d i hd => ?_) _ 0 y'.data hy') fun d hd => Sim.pure' hd rfl
  have e : ∀ (c : Prop) [Decidable c] (a : Ex), (if c then a.val ρ else (numArith K).int 0) =
      (if c then a else (exArith C).int 0).val ρ := by
    intro c _ a; split_ifs <;> rfl
  have e1 : (if 0 ≤ (i : ℤ) - s ∧ (i : ℤ) - s < (vals ρ x).nonzero then (vals ρ x).data ((i : ℤ) - s).toNat else (numArith K).int 0) =
      (if 0 ≤ (i : ℤ) - s ∧ (i : ℤ) - s < x.nonzero then x.data ((i : ℤ) - s).toNat else (exArith C).int 0).val ρ := e _ _
  have e2 : (if (i : ℤ) < (vals ρ y).nonzero then (d i).val ρ else (numArith K).int 0) =
      (if (i : ℤ) < y.nonzero then d i else (exArith C).int 0).val ρ := e _ _
  have p1 : In D (if 0 ≤ (i : ℤ) - s ∧ (i : ℤ) - s < x.nonzero then x.data ((i : ℤ) - s).toNat else (exArith C).int 0) :=
    in_ite (hx _) (in_int 0)
  have p2 : In D (if (i : ℤ) < y.nonzero then d i else (exArith C).int 0) := in_ite (hd _) (in_int 0)
  simp only
  rw [e1, e2]
  exact Sim.ite (fun _ => Sim.bind (sim_neg (K := K) p1) fun xi hi => sim_add p2 hi) fun _ =>
    Sim.bind (f := Ex.val ρ) (Q := In D) (Sim.pure' p1 rfl) fun xi hi => sim_add p2 hi

theorem vals_new (n : ℤ) : vals ρ (newG (exArith C) n) = newG (numArith K) n := by
  show (⟨_, _, _, _⟩ : Ser K) = ⟨_, _, _, _⟩
  congr 1

theorem in_new (n : ℤ) : InS D (newG (exArith C) n) := fun _ => in_int 0

theorem sim_newton {σ τ : Type} {Q : σ → Prop} {f : σ → τ} {step : ℤ → ℤ → Bool → σ → Gen CSt σ} {step' : ℤ → ℤ → Bool → τ → Gen Unit τ}
    (h : ∀ m0 m r s, Q s → Sim C ρ D Q f (step m0 m r s) (step' m0 m r (f s))) (n0 n : ℤ) {s : σ} (hq : Q s) :
    Sim C ρ D Q f (newtonG step n0 n s) (newtonG step' n0 n (f s)) := by
  have loop : ∀ (k : ℕ) (n0 : ℤ) (s : σ), Q s → Sim C ρ D Q f
      (fun st => newtonLoop (fun m0 m r p => step m0 m r p.1 p.2) n k n0 (s, st))
      (fun st => newtonLoop (fun m0 m r p => step' m0 m r p.1 p.2) n k n0 (f s, st)) := by
    intro k
    induction k with
    | zero =>
      intro n0 s hs
      simp only [newtonLoop]
      exact Sim.pure' hs rfl
    | succ k ih =>
      intro n0 s hs
      simp only [newtonLoop]
      exact Sim.bind (f := f) (g := f) (h n0 _ _ s hs)
        (k := fun a st => newtonLoop (fun m0 m r p => step m0 m r p.1 p.2) n k _ (a, st))
        (q := fun a st => newtonLoop (fun m0 m r p => step' m0 m r p.1 p.2) n k _ (a, st)) fun a ha => ih _ a ha
  unfold newtonG newtonIterate
  by_cases hn : n ≤ n0
  · simp only [if_pos hn]
    exact Sim.pure' hq rfl
  · simp only [if_neg hn]
    intro st r hs ha e
    obtain ⟨_, h1, e⟩ := Ser.bind_eq_ok e
    obtain ⟨k, h2, e⟩ := Ser.bind_eq_ok e
    obtain ⟨h3, h4, h5, h6, h7⟩ := loop _ n0 s hq st r hs ha e
    refine ⟨h3, h4, h5, h6, fun hc => ?_⟩
    rw [h1, h2]
    exact h7 hc

theorem sim_invBase (hρ : ρ.Fielded) {y x : Ser Ex} (hy : InS D y) (hx : InS D x) :
    Sim C ρ D (InS D) (vals ρ) (invBaseG (exArith C) y x) (invBaseG (numArith K) (vals ρ y) (vals ρ x)) := by
  unfold invBaseG
  refine Sim.bind (f := vals ρ) (sim_setCounts hy _ _) fun y' hy' => ?_
  have e : (if (vals ρ x).nonzero ≠ 0 then (vals ρ x).data 0 else (numArith K).int 0) =
      (if x.nonzero ≠ 0 then x.data 0 else (exArith C).int 0).val ρ := by
    change (if x.nonzero ≠ 0 then _ else _) = _
    split_ifs <;> rfl
  simp only [e]
  exact Sim.bind (sim_inv hρ (in_ite (hx 0) (in_int 0))) fun v hv =>
    Sim.pure' (in_update hy' 0 hv) (by simp only [vals, vals_update])

theorem sim_expBase {y : Ser Ex} (hy : InS D y) :
    Sim C ρ D (InS D) (vals ρ) (expBaseG (exArith C) y) (expBaseG (numArith K) (vals ρ y)) := by
  unfold expBaseG
  refine Sim.bind (f := vals ρ) (sim_setCounts hy _ _) fun y' hy' => Sim.pure' (in_update hy' 0 (in_int 1)) ?_
  simp only [vals, vals_update]
  rfl

theorem in_high {x : Ser Ex} (hx : InS D x) (n : ℤ) : InS D (x.high n) := fun _ => hx _
theorem in_low {x : Ser Ex} (hx : InS D x) (n : ℤ) : InS D (x.low n) := fun _ => hx _

/-- The state of a Newton iteration. -/
abbrev InP (D : List String) (p : Ser Ex × Ser Ex) : Prop := InS D p.1 ∧ InS D p.2

theorem sim_invStep {x : Ser Ex} (hx : InS D x) (m0 m : ℤ) (r : Bool) (p : Ser Ex × Ser Ex) (hp : InP D p) :
    Sim C ρ D (InP D) (Prod.map (vals ρ) (vals ρ)) (invStepG (exArith C) x m0 m r p)
      (invStepG (numArith K) (vals ρ x) m0 m r (Prod.map (vals ρ) (vals ρ) p)) := by
  obtain ⟨y, dy⟩ := p
  simp only [invStepG, Prod.map]
  refine Sim.bind (f := vals ρ) (sim_setKnown hp.1 _) fun y hy => ?_
  refine Sim.bind (sim_mulG _ hp.2 hx hy) fun dy hd => Sim.bind (sim_addScalar hd _) fun dy hd =>
    Sim.bind (sim_mulG _ hd hd hy) fun dy hd => ?_
  exact Sim.bind (sim_highAddsub hy _ _ (in_high hd _)) fun y hy => Sim.pure' ⟨hy, hd⟩ rfl

theorem sim_invG (hρ : ρ.Fielded) {y x : Ser Ex} (hy : InS D y) (hx : InS D x) :
    Sim C ρ D (InS D) (vals ρ) (invG (exArith C) y x) (invG (numArith K) (vals ρ y) (vals ρ x)) := by
  unfold invG
  refine Sim.ite (fun _ => Sim.pure' hy rfl) fun _ => ?_
  refine sim_assert _ fun _ => Sim.bind (sim_invBase hρ hy hx) fun y hy => ?_
  have := sim_newton (C := C) (ρ := ρ) (fun m0 m r s => sim_invStep hx m0 m r s) y.known x.known (s := (y, newG (exArith C) x.known))
    ⟨hy, in_new _⟩
  simp only [Prod.map, vals_new] at this
  exact Sim.bind this fun p hp => Sim.pure' hp.1 rfl

theorem sim_divG (hρ : ρ.Fielded) {y a b : Ser Ex} (hy : InS D y) (ha : InS D a) (hb : InS D b) :
    Sim C ρ D (InS D) (vals ρ) (divG (exArith C) y a b) (divG (numArith K) (vals ρ y) (vals ρ a) (vals ρ b)) := by
  unfold divG
  have h1 := sim_invG (C := C) hρ (y := newG (exArith C) (min a.known b.known)) (in_new _) (in_low hb (min a.known b.known))
  rw [vals_new] at h1
  refine Sim.bind h1 fun i hi => Sim.bind (sim_mulG _ hy ha hi) fun y hy => ?_
  have h2 := sim_mulG (C := C) (ρ := ρ) .none (z := newG (exArith C) (min a.known b.known)) (in_new _) hb hy
  rw [vals_new] at h2
  exact Sim.bind h2 fun dy hd => Sim.bind (sim_highAddsub hd _ _ ha) fun dy hd => Sim.bind (sim_mulG _ hd hd hi) fun dy hd =>
    sim_highAddsub hy _ _ hd

theorem sim_derivative {y x : Ser Ex} (hy : InS D y) (hx : InS D x) :
    Sim C ρ D (InS D) (vals ρ) (derivativeG (exArith C) y x) (derivativeG (numArith K) (vals ρ y) (vals ρ x)) := by
  unfold derivativeG
  refine Sim.bind (f := vals ρ) (sim_setCounts hy _ _) fun y' hy' => ?_
  exact Sim.bind (f := fun d j => (d j).val ρ) (sim_loop (fun d i hd => sim_mul (in_int _) (hx i)) _ 0 y'.data hy') fun d hd =>
    Sim.pure' hd rfl

theorem sim_integral (hρ : ρ.Fielded) {y : Ser Ex} (hy : InS D y) :
    Sim C ρ D (InS D) (vals ρ) (integralG (exArith C) y) (integralG (numArith K) (vals ρ y)) := by
  unfold integralG
  refine Sim.bind (f := vals ρ) (sim_setCounts hy _ _) fun y' hy' => ?_
  exact Sim.bind (f := fun d j => (d j).val ρ)
    (sim_loop (fun d i hd => Sim.ite (fun _ => sim_div hρ (hd i) _) fun _ => Sim.pure' (in_int 0) rfl) _ 0 y'.data hy') fun d hd =>
      Sim.pure' hd rfl

theorem sim_log (hρ : ρ.Fielded) {y x : Ser Ex} (hy : InS D y) (hx : InS D x) :
    Sim C ρ D (InS D) (vals ρ) (logG (exArith C) y x) (logG (numArith K) (vals ρ y) (vals ρ x)) := by
  unfold logG
  refine Sim.ite (fun _ => Sim.pure' hy rfl) fun _ => ?_
  have h1 := sim_derivative (C := C) (ρ := ρ) (y := newG (exArith C) x.known) (in_new _) hx
  rw [vals_new] at h1
  exact sim_assert _ fun _ => Sim.bind h1 fun dx hd => Sim.bind (sim_divG hρ hy hd hx) fun y hy => sim_integral hρ hy

theorem sim_expStep (hρ : ρ.Fielded) {x : Ser Ex} (hx : InS D x) (m0 m : ℤ) (r : Bool) (p : Ser Ex × Ser Ex) (hp : InP D p) :
    Sim C ρ D (InP D) (Prod.map (vals ρ) (vals ρ)) (expStepG (exArith C) x m0 m r p)
      (expStepG (numArith K) (vals ρ x) m0 m r (Prod.map (vals ρ) (vals ρ) p)) := by
  obtain ⟨y, dy⟩ := p
  simp only [expStepG, Prod.map]
  refine Sim.bind (f := vals ρ) (sim_setKnown hp.1 _) fun y hy => ?_
  refine Sim.bind (sim_log hρ hp.2 hy) fun dy hd => Sim.bind (sim_highAddsub hd _ _ hx) fun dy hd =>
    Sim.bind (sim_mulG _ hd hy hd) fun dy hd => ?_
  exact Sim.bind (sim_highAddsub hy _ _ (in_high hd _)) fun y hy => Sim.pure' ⟨hy, hd⟩ rfl

theorem sim_exp (hρ : ρ.Fielded) {y x : Ser Ex} (hy : InS D y) (hx : InS D x) :
    Sim C ρ D (InS D) (vals ρ) (expG (exArith C) y x) (expG (numArith K) (vals ρ y) (vals ρ x)) := by
  unfold expG
  refine Sim.ite (fun _ => Sim.pure' hy rfl) fun _ => ?_
  refine Sim.bind (sim_expBase hy) fun y hy => ?_
  have := sim_newton (C := C) (ρ := ρ) (fun m0 m r s => sim_expStep hρ hx m0 m r s) y.known x.known
    (s := (y, newG (exArith C) x.known)) ⟨hy, in_new _⟩
  simp only [Prod.map, vals_new] at this
  exact Sim.bind this fun p hp => Sim.pure' hp.1 rfl

theorem sim_invBody (hρ : ρ.Fielded) {y x : Ser Ex} (hy : InS D y) (hx : InS D x) :
    Sim C ρ D (InS D) (vals ρ) (invBodyG (exArith C) y x) (invBodyG (numArith K) (vals ρ y) (vals ρ x)) := by
  unfold invBodyG
  refine Sim.bind (sim_inv hρ (hx 0)) fun i0 hi0 => ?_
  have h1 := sim_setScalar (C := C) (ρ := ρ) (z := newG (exArith C) 5) (in_new _) 5 hi0
  rw [vals_new] at h1
  refine Sim.bind (f := vals ρ) h1 fun r hr => ?_
  have h2 := sim_mulG (C := C) (ρ := ρ) .none (z := newG (exArith C) 5) (in_new _) hr hx
  rw [vals_new] at h2
  refine Sim.bind h2 fun rx hrx => ?_
  have h3 := sim_invG (C := C) hρ (y := newG (exArith C) 5) (x := rx.view) (in_new _) hrx
  rw [vals_new] at h3
  exact Sim.bind h3 fun i hi => sim_mulG _ hy hr hi

end

end Mandelbrot.Sym
