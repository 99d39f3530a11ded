import Verif.Sym.Gradient
import Verif.Props.Codelets

/-!
# The symbolic transpose: C42
-/

namespace Mandelbrot.Sym

open Sig (Sg)

namespace Spec

/-- No part of the expression is an input. -/
def Const (xs : List Ex) (e : Ex) : Prop := ∀ a ∈ e.subs, a ∉ xs

/-- The expression is a linear function of the inputs, by its form. -/
inductive Linear (xs : List Ex) : Ex → Prop
  | input {x} : x ∈ xs → Linear xs x
  | neg {x} (s) : Linear xs x → Linear xs (.neg x s)
  | add {x y} (s) : Linear xs x → Linear xs y → Linear xs (.add x y s)
  | sub {x y} (s) : Linear xs x → Linear xs y → Linear xs (.sub x y s)
  | scaleLeft {x y} (s) : Const xs x → Linear xs y → Linear xs (.mul x y s)
  | scaleRight {x y} (s) : Linear xs x → Const xs y → Linear xs (.mul x y s)

/-- The directions of the inputs, by signature. -/
def dir {R : Type} (C : Cfg) (xs : List Ex) (v : Ex → R) : Sg → Option R :=
  fun s => (xs.find? fun x => decide (x.sig C = s)).map v

/-- What `gradient` needs of inputs and outputs. -/
structure Circuit (C : Cfg) (exact : Bool) (xs ys : List Ex) : Prop where
  /-- Different parts have different signatures. -/
  inj : ∀ e e', (e ∈ xs ∨ ∃ y ∈ ys, e ∈ y.subs) → (e' ∈ xs ∨ ∃ y ∈ ys, e' ∈ y.subs) → e.sig C = e'.sig C → e = e'
  /-- Literals are in range; in exact mode signatures are those of exact arithmetic. -/
  good : ∀ y ∈ ys, ∀ e ∈ y.subs, Good C exact e
  /-- The inputs are different, and are variables, fields of variables or the like. -/
  nodup : xs.Nodup
  atom : ∀ x ∈ xs, x.args = [] ∨ Opaque x
  /-- Fields, quotients and calls do not depend on the inputs. -/
  const : ∀ y ∈ ys, ∀ e ∈ y.subs, Opaque e → ∀ a ∈ e.args, Const xs a
  /-- Outputs with an operator are different, and none is part of another output. -/
  sep : ∀ y ∈ ys, y.args ≠ [] → y ∉ xs → ys.count y ≤ 1 ∧ ∀ y' ∈ ys, y ∉ properSubs y'

end Spec

open Spec

section
variable {R : Type} [CommRing R] {C : Cfg} {ρ : Interp R} {xs ys dys : List Ex} {v : Ex → R} {b : Bool}

omit [CommRing R] in
theorem dir_some (h : ∀ e e', (e ∈ xs ∨ ∃ y ∈ ys, e ∈ y.subs) → (e' ∈ xs ∨ ∃ y ∈ ys, e' ∈ y.subs) → e.sig C = e'.sig C → e = e')
    {x : Ex} (hx : x ∈ xs) : dir C xs v (x.sig C) = some (v x) := by
  unfold dir
  cases hf : xs.find? (fun x' => decide (x'.sig C = x.sig C)) with
  | none => exact absurd (List.find?_eq_none.mp hf x hx) (by simp)
  | some x' =>
    have h1 := List.find?_some hf
    simp only [decide_eq_true_eq] at h1
    rw [h x' x (Or.inl (List.mem_of_find?_eq_some hf)) (Or.inl hx) h1]; rfl

omit [CommRing R] in
theorem dir_none (h : ∀ e e', (e ∈ xs ∨ ∃ y ∈ ys, e ∈ y.subs) → (e' ∈ xs ∨ ∃ y ∈ ys, e' ∈ y.subs) → e.sig C = e'.sig C → e = e')
    {e : Ex} (he : InU ys e) (hx : e ∉ xs) : dir C xs v (e.sig C) = none := by
  unfold dir
  cases hf : xs.find? (fun x' => decide (x'.sig C = e.sig C)) with
  | none => rfl
  | some x' =>
    have h1 := List.find?_some hf
    simp only [decide_eq_true_eq] at h1
    have h2 := List.mem_of_find?_eq_some hf
    exact absurd (h x' e (Or.inl h2) (Or.inr he) h1 ▸ h2) hx

theorem deriv_some {e : Ex} {δ : Sg → Option R} {r : R} (h : δ (e.sig C) = some r) : deriv C ρ δ e = r := by
  cases e <;> simp only [Ex.sig] at h <;> simp [deriv, h]

theorem deriv_const {δ : Sg → Option R} {e : Ex} (h : ∀ a ∈ e.subs, δ (a.sig C) = none) : deriv C ρ δ e = 0 := by
  have h0 := h e (Ex.self_mem_subs e)
  induction e with
  | neg x s ih =>
    have := ih (fun a ha => h a (by simp [Ex.subs, ha])) (h x (by simp [Ex.subs, Ex.self_mem_subs]))
    simp only [Ex.sig] at h0; simp [deriv, h0, this]
  | add x y s ihx ihy =>
    have h1 := ihx (fun a ha => h a (by simp [Ex.subs, ha])) (h x (by simp [Ex.subs, Ex.self_mem_subs]))
    have h2 := ihy (fun a ha => h a (by simp [Ex.subs, ha])) (h y (by simp [Ex.subs, Ex.self_mem_subs]))
    simp only [Ex.sig] at h0; simp [deriv, h0, h1, h2]
  | sub x y s ihx ihy =>
    have h1 := ihx (fun a ha => h a (by simp [Ex.subs, ha])) (h x (by simp [Ex.subs, Ex.self_mem_subs]))
    have h2 := ihy (fun a ha => h a (by simp [Ex.subs, ha])) (h y (by simp [Ex.subs, Ex.self_mem_subs]))
    simp only [Ex.sig] at h0; simp [deriv, h0, h1, h2]
  | mul x y s ihx ihy =>
    have h1 := ihx (fun a ha => h a (by simp [Ex.subs, ha])) (h x (by simp [Ex.subs, Ex.self_mem_subs]))
    have h2 := ihy (fun a ha => h a (by simp [Ex.subs, ha])) (h y (by simp [Ex.subs, Ex.self_mem_subs]))
    simp only [Ex.sig] at h0; simp [deriv, h0, h1, h2]
  | _ => simp only [Ex.sig] at h0; simp [deriv, h0]

theorem subs_trans {a e : Ex} (ha : a ∈ e.subs) : ∀ (n : ℕ) {y : Ex}, sizeOf y < n → e ∈ y.subs → a ∈ y.subs := by
  intro n
  induction n with
  | zero => intro y hn; omega
  | succ n ih =>
    intro y hn he
    rcases mem_subs.mp he with rfl | he
    · exact ha
    · obtain ⟨c, hc, hec⟩ := (proper_iff _ _).mp he
      exact mem_subs.mpr (Or.inr ((proper_iff _ _).mpr ⟨c, hc, ih (by have := args_sizeOf hc; omega) hec⟩))

theorem InU.subs {a e : Ex} (he : InU ys e) (ha : a ∈ e.subs) : InU ys a := by
  obtain ⟨y, hy, hey⟩ := he
  exact ⟨y, hy, subs_trans ha _ (Nat.lt_succ_self _) hey⟩

theorem Spec.Circuit.deriv_const (hc : Circuit C b xs ys) {e : Ex} (he : InU ys e) (h : Const xs e) : deriv C ρ (dir C xs v) e = 0 :=
  Sym.deriv_const fun a ha => dir_none hc.inj (he.subs ha) (h a ha)

theorem Spec.Circuit.deriv_linear (hc : Circuit C b xs ys) {e : Ex} (h : Linear xs e) (he : InU ys e) :
    deriv C ρ (dir C xs (Ex.val ρ)) e = e.val ρ := by
  induction h with
  | input hx => exact deriv_some (dir_some hc.inj hx)
  | @neg x s hx ih =>
    by_cases hm : Ex.neg x s ∈ xs
    · exact deriv_some (dir_some hc.inj hm)
    · have h0 := dir_none (v := Ex.val ρ) hc.inj he hm
      simp only [Ex.sig] at h0
      simp [deriv, h0, Ex.val, ih (he.args (by simp [Ex.args]))]
  | @add x y s hx hy ihx ihy =>
    by_cases hm : Ex.add x y s ∈ xs
    · exact deriv_some (dir_some hc.inj hm)
    · have h0 := dir_none (v := Ex.val ρ) hc.inj he hm
      simp only [Ex.sig] at h0
      simp [deriv, h0, Ex.val, ihx (he.args (by simp [Ex.args])), ihy (he.args (by simp [Ex.args]))]
  | @sub x y s hx hy ihx ihy =>
    by_cases hm : Ex.sub x y s ∈ xs
    · exact deriv_some (dir_some hc.inj hm)
    · have h0 := dir_none (v := Ex.val ρ) hc.inj he hm
      simp only [Ex.sig] at h0
      simp [deriv, h0, Ex.val, ihx (he.args (by simp [Ex.args])), ihy (he.args (by simp [Ex.args]))]
  | @scaleLeft x y s hx hy ihy =>
    by_cases hm : Ex.mul x y s ∈ xs
    · exact deriv_some (dir_some hc.inj hm)
    · have h0 := dir_none (v := Ex.val ρ) hc.inj he hm
      simp only [Ex.sig] at h0
      simp [deriv, h0, Ex.val, hc.deriv_const (v := Ex.val ρ) (he.args (a := x) (by simp [Ex.args])) hx, ihy (he.args (by simp [Ex.args]))]
  | @scaleRight x y s hx hy ihx =>
    by_cases hm : Ex.mul x y s ∈ xs
    · exact deriv_some (dir_some hc.inj hm)
    · have h0 := dir_none (v := Ex.val ρ) hc.inj he hm
      simp only [Ex.sig] at h0
      simp [deriv, h0, Ex.val, hc.deriv_const (v := Ex.val ρ) (he.args (a := y) (by simp [Ex.args])) hy, ihx (he.args (by simp [Ex.args]))]

theorem gradArgs_other {dz : Ex} {s : Sg} : ∀ (l : List (Ex × Ex)) (g : GS) (st : CSt) {r : GS × CSt}, gradArgs C dz l g st = .ok r →
    (∀ p ∈ l, InU ys p.1 ∧ p.1.sig C ≠ s) → (∀ e ∈ g.work, InU ys e) → r.1.terms s = g.terms s ∧ ∀ e ∈ r.1.work, InU ys e := by
  intro l
  induction l with
  | nil => intro g st r h _ hw; simp only [gradArgs, Except.ok.injEq] at h; subst h; exact ⟨rfl, hw⟩
  | cons p l ih =>
    obtain ⟨a, d⟩ := p
    intro g st r h hl hw
    simp only [gradArgs] at h
    cases hm : mul C d dz st with
    | error e => rw [hm] at h; simp at h
    | ok q =>
      obtain ⟨t, st1⟩ := q
      rw [hm] at h
      simp only at h
      obtain ⟨h1, h2⟩ := ih _ _ h (fun p hp => hl p (by simp [hp])) (by
        intro e he
        simp only at he
        split_ifs at he
        · rcases List.mem_cons.mp he with rfl | he
          · exact (hl (e, d) (by simp)).1
          · exact hw e he
        · exact hw e he)
      refine ⟨?_, h2⟩
      rw [h1]
      simp only
      rw [if_neg fun h => (hl (a, d) (by simp)).2 h.symm]

theorem gradLoop_other {u : Ex} {s : Sg} (hs : ∀ e, InU ys e → e.sig C ≠ s) : ∀ (f : ℕ) (g : GS) (st : CSt) {r : GS × CSt},
    gradLoop C u f g st = some (.ok r) → (∀ e ∈ g.work, InU ys e) → r.1.terms s = g.terms s := by
  intro f
  induction f with
  | zero =>
    intro g st r h hw
    simp only [gradLoop] at h
    split at h
    · simp only [Option.some.injEq, Except.ok.injEq] at h; subst h; rfl
    · simp at h
  | succ f ih =>
    intro g st r h hw
    simp only [gradLoop] at h
    split at h
    · simp only [Option.some.injEq, Except.ok.injEq] at h; subst h; rfl
    · rename_i z w hzw
      have hz : InU ys z := hw z (by simp [hzw])
      cases hp : gradPop C u z { g with work := w } st with
      | error e => rw [hp] at h; simp at h
      | ok q =>
        obtain ⟨g1, st1⟩ := q
        rw [hp] at h
        simp only at h
        unfold gradPop at hp
        cases hd : sum C (g.terms (z.sig C)) st with
        | error e => simp [hd] at hp
        | ok q =>
          obtain ⟨dz, st2⟩ := q
          simp only [hd, if_pos (grad_length u z)] at hp
          obtain ⟨h1, h2⟩ := gradArgs_other (ys := ys) (s := s) _ _ _ hp (fun p hp => by
            have : InU ys p.1 := hz.args (List.of_mem_zip hp).1
            exact ⟨this, hs _ this⟩) (fun e he => hw e (by rw [hzw]; exact List.mem_cons_of_mem _ he))
          rw [ih g1 st1 h h2, h1]
          simp only
          rw [if_neg fun h => hs z hz h.symm]

theorem seed_other {s : Sg} : ∀ (l : List (Ex × Ex)) (t : Sg → List Ex), (∀ p ∈ l, p.1.sig C ≠ s) → seed C l t s = t s := by
  intro l
  induction l with
  | nil => intro t _; rfl
  | cons p l ih =>
    obtain ⟨y, d⟩ := p
    intro t h
    simp only [seed]
    rw [ih _ fun p hp => h p (by simp [hp]), if_neg fun e => h (y, d) (by simp) e.symm]

theorem readOff_fail {g : GS} : ∀ {xs : List Ex}, (∃ x ∈ xs, g.terms (x.sig C) = []) → readOff C g xs = .error .assertion := by
  intro xs
  induction xs with
  | nil => rintro ⟨x, hx, _⟩; simp at hx
  | cons x xs ih =>
    rintro ⟨x', hx', ht⟩
    simp only [readOff]
    by_cases h : g.need (x.sig C) = 0 ∧ (g.terms (x.sig C)).length = 1
    · rw [slowAssert_true h]
      have hne : x' ≠ x := by rintro rfl; rw [ht] at h; simp at h
      have : x' ∈ xs := by
        rcases List.mem_cons.mp hx' with h | h
        · exact absurd h hne
        · exact h
      rw [ih ⟨x', this, ht⟩]; rfl
    · simp only [slowAssert, h]; rfl

/-- The conditions of `gradient_spec`, for the inputs that are parts of the outputs. -/
theorem Spec.Circuit.run {u : Ex} {st : CSt} (hC : C.Ok) (hc : Circuit C st.exact xs ys)
    (hu : Good C st.exact u) (hd : ∀ d ∈ dys, Good C st.exact d) (hst : st.Good C) (hok : st.Ok C)
    (hlen : ys.length = dys.length) (ρ : Interp R) (v : Ex → R) {xs' : List Ex} (hn' : xs'.Nodup) (hx' : ∀ x, x ∈ xs' ↔ x ∈ xs ∧ InU ys x)
    {fuel : ℕ} (hfuel : ys.length + (allParts ys).card ≤ fuel) :
    ∃ outs st', gradient C fuel u xs' ys dys st = some (.ok (outs, st')) ∧ outs.length = xs'.length ∧ st.met ⊆ st'.met ∧
      (NoClash C ρ st'.met → ((xs'.zip outs).map fun p => deriv C ρ (dir C xs v) p.1 * p.2.val ρ).sum =
        ((ys.zip dys).map fun p => deriv C ρ (dir C xs v) p.1 * p.2.val ρ).sum) := by
  have hsome : ∀ e, InU ys e → ((dir C xs v (e.sig C)).isSome = true ↔ e ∈ xs) := by
    intro e he
    by_cases hx : e ∈ xs
    · simp [dir_some (v := v) hc.inj hx, hx]
    · simp [dir_none (v := v) hc.inj he hx, hx]
  refine gradient_spec hC (fun e e' he he' => hc.inj e e' (Or.inr he) (Or.inr he')) ?_ ?_ (fun e ⟨y, hy, he⟩ => hc.good y hy e he)
    hu hd hst hok hn' (fun x hx => ((hx' x).mp hx).2) ?_ hlen hfuel
  · intro y hy hs
    refine hc.sep y hy (fun h => hs (Or.inl h)) fun h => hs (Or.inr ((hsome y ⟨y, hy, Ex.self_mem_subs y⟩).mpr h))
  · intro e he hor a ha
    obtain ⟨y, hy, hey⟩ := he
    refine hc.deriv_const (InU.args ⟨y, hy, hey⟩ ha) ?_
    rcases hor with h | h
    · exact hc.const y hy e hey h a ha
    · rcases hc.atom e ((hsome e ⟨y, hy, hey⟩).mp h) with h | h
      · rw [h] at ha; simp at ha
      · exact hc.const y hy e hey h a ha
  · intro e he
    rw [hsome e he, hx' e]
    exact ⟨fun h => ⟨h, he⟩, fun h => h.1⟩

/-! ## C42 -/

/-- C42: `gradient` returns one expression per input, and for every direction `v` of the inputs the returned expressions give the
derivative of the outputs in that direction, weighted by `dys`: `Σ v(x_i) * out_i = Σ D_v(y_k) * dys_k`.  This is for every circuit,
every table of common subexpressions and every amount of fuel above the number of parts. -/
theorem C42_derivative {u : Ex} {st : CSt} (hC : C.Ok) (hc : Circuit C st.exact xs ys) (hx : ∀ x ∈ xs, ∃ y ∈ ys, x ∈ y.subs)
    (hu : Good C st.exact u) (hd : ∀ d ∈ dys, Good C st.exact d) (hst : st.Good C) (hok : st.Ok C)
    (hlen : ys.length = dys.length) {fuel : ℕ} (hfuel : ys.length + (ys.flatMap Ex.subs).length ≤ fuel) :
    ∃ outs st', gradient C fuel u xs ys dys st = some (.ok (outs, st')) ∧ outs.length = xs.length ∧
      ∀ (ρ : Interp R) (v : Ex → R), NoClash C ρ st'.met → ((xs.zip outs).map fun p => v p.1 * p.2.val ρ).sum =
        ((ys.zip dys).map fun p => deriv C ρ (dir C xs v) p.1 * p.2.val ρ).sum := by
  have hfuel' : ys.length + (allParts ys).card ≤ fuel :=
    le_trans (Nat.add_le_add_left (List.toFinset_card_le _) _) hfuel
  obtain ⟨outs, st', h1, h2, _⟩ := hc.run hC hu hd hst hok hlen (⟨fun _ => 0, fun _ _ => 0, fun _ _ => 0, fun _ => 0, fun _ _ => 0⟩ : Interp R)
    (fun _ => (0 : R)) hc.nodup (fun x => ⟨fun h => ⟨h, hx x h⟩, fun h => h.1⟩) hfuel'
  refine ⟨outs, st', h1, h2, fun ρ v hn => ?_⟩
  obtain ⟨outs', st'', k1, k2, _, k3⟩ := hc.run hC hu hd hst hok hlen ρ v hc.nodup (fun x => ⟨fun h => ⟨h, hx x h⟩, fun h => h.1⟩) hfuel'
  rw [h1] at k1
  simp only [Option.some.injEq, Except.ok.injEq, Prod.mk.injEq] at k1
  obtain ⟨rfl, rfl⟩ := k1
  rw [← k3 hn]
  congr 1
  apply List.map_congr_left
  intro p hp
  rw [deriv_some (dir_some hc.inj (List.of_mem_zip hp).1)]

/-- C42: for outputs linear in the inputs, `Σ x_i * out_i = Σ y_k * dys_k`: the returned circuit is the transpose. -/
theorem C42_transpose {u : Ex} {st : CSt} (hC : C.Ok) (hc : Circuit C st.exact xs ys) (hx : ∀ x ∈ xs, ∃ y ∈ ys, x ∈ y.subs)
    (hu : Good C st.exact u) (hd : ∀ d ∈ dys, Good C st.exact d) (hst : st.Good C) (hok : st.Ok C) (hlin : ∀ y ∈ ys, Linear xs y)
    (hlen : ys.length = dys.length) {fuel : ℕ} (hfuel : ys.length + (ys.flatMap Ex.subs).length ≤ fuel) :
    ∃ outs st', gradient C fuel u xs ys dys st = some (.ok (outs, st')) ∧ outs.length = xs.length ∧
      ∀ (ρ : Interp R), NoClash C ρ st'.met → ((xs.zip outs).map fun p => p.1.val ρ * p.2.val ρ).sum =
        ((ys.zip dys).map fun p => p.1.val ρ * p.2.val ρ).sum := by
  obtain ⟨outs, st', h1, h2, h3⟩ := C42_derivative (R := R) hC hc hx hu hd hst hok hlen hfuel
  refine ⟨outs, st', h1, h2, fun ρ hn => ?_⟩
  rw [h3 ρ (Ex.val ρ) hn]
  congr 1
  apply List.map_congr_left
  intro p hp
  have hy := (List.of_mem_zip hp).1
  rw [hc.deriv_linear (hlin _ hy) ⟨_, hy, Ex.self_mem_subs _⟩]

/-- C42: each returned expression is the sum of the partial derivatives of the outputs times `dys`. -/
theorem C42_partials {u : Ex} {st : CSt} (hC : C.Ok) (hc : Circuit C st.exact xs ys) (hx : ∀ x ∈ xs, ∃ y ∈ ys, x ∈ y.subs)
    (hu : Good C st.exact u) (hd : ∀ d ∈ dys, Good C st.exact d) (hst : st.Good C) (hok : st.Ok C)
    (hlen : ys.length = dys.length) {fuel : ℕ} (hfuel : ys.length + (ys.flatMap Ex.subs).length ≤ fuel) :
    ∃ outs st', gradient C fuel u xs ys dys st = some (.ok (outs, st')) ∧ outs.length = xs.length ∧
      ∀ (ρ : Interp R), NoClash C ρ st'.met → ∀ p ∈ xs.zip outs, p.2.val ρ =
        ((ys.zip dys).map fun q => deriv C ρ (dir C xs fun x => if x = p.1 then 1 else 0) q.1 * q.2.val ρ).sum := by
  obtain ⟨outs, st', h1, h2, h3⟩ := C42_derivative (R := R) hC hc hx hu hd hst hok hlen hfuel
  refine ⟨outs, st', h1, h2, fun ρ hn p hp => ?_⟩
  rw [← h3 ρ _ hn]
  have key : ∀ (xs outs : List Ex), xs.Nodup → p ∈ xs.zip outs →
      ((xs.zip outs).map fun q => (if q.1 = p.1 then (1 : R) else 0) * q.2.val ρ).sum = p.2.val ρ := by
    intro xs
    induction xs with
    | nil => intro outs _ h; simp at h
    | cons x xs ih =>
      intro outs hn h
      cases outs with
      | nil => simp at h
      | cons o outs =>
        rw [List.nodup_cons] at hn
        rw [List.zip_cons_cons, List.mem_cons] at h
        simp only [List.zip_cons_cons, List.map_cons, List.sum_cons]
        rcases h with rfl | h
        · have : ((xs.zip outs).map fun q => (if q.1 = x then (1 : R) else 0) * q.2.val ρ) = (xs.zip outs).map fun _ => 0 := by
            apply List.map_congr_left
            intro q hq
            rw [if_neg (by rintro rfl; exact hn.1 (List.of_mem_zip hq).1), zero_mul]
          rw [if_pos rfl, this]; simp
        · rw [if_neg (by rintro rfl; exact hn.1 (List.of_mem_zip h).1), ih outs hn.2 h]; simp
  exact (key xs outs hc.nodup hp).symm

/-- C42: an input that is no part of the outputs makes `gradient` fail with an assertion. -/
theorem C42_unreached {u : Ex} {st : CSt} (hC : C.Ok) (hc : Circuit C st.exact xs ys) (hx : ∃ x ∈ xs, ∀ y ∈ ys, x ∉ y.subs)
    (hu : Good C st.exact u) (hd : ∀ d ∈ dys, Good C st.exact d) (hst : st.Good C) (hok : st.Ok C)
    (hlen : ys.length = dys.length) {fuel : ℕ} (hfuel : ys.length + (ys.flatMap Ex.subs).length ≤ fuel) :
    gradient C fuel u xs ys dys st = some (.error .assertion) := by
  classical
  have hfuel' : ys.length + (allParts ys).card ≤ fuel :=
    le_trans (Nat.add_le_add_left (List.toFinset_card_le _) _) hfuel
  obtain ⟨outs, st', h1, _⟩ := hc.run hC hu hd hst hok hlen (⟨fun _ => 0, fun _ _ => 0, fun _ _ => 0, fun _ => 0, fun _ _ => 0⟩ : Interp ℤ)
    (fun _ => 0) (xs' := xs.filter fun x => decide (InU ys x)) (hc.nodup.filter _) (fun x => by simp) hfuel'
  obtain ⟨x, hxm, hxn⟩ := hx
  unfold gradient at h1 ⊢
  rw [if_neg (by simpa using hlen)] at h1 ⊢
  cases hn : needLoop C fuel ys.reverse (fun _ => 0) with
  | none => rw [hn] at h1; simp at h1
  | some n =>
    rw [hn] at h1
    simp only at h1 ⊢
    cases hg : gradLoop C u fuel ⟨ys.reverse, n, seed C (ys.zip dys) fun _ => []⟩ st with
    | none => rw [hg] at h1; simp at h1
    | some r =>
      cases r with
      | error e => rw [hg] at h1; simp at h1
      | ok r =>
        obtain ⟨g, st2⟩ := r
        have hs : ∀ e, InU ys e → e.sig C ≠ x.sig C := by
          rintro e ⟨y, hy, he⟩ hs
          have := hc.inj e x (Or.inr ⟨y, hy, he⟩) (Or.inl hxm) hs
          exact hxn y hy (this ▸ he)
        have ht := gradLoop_other (ys := ys) hs _ _ _ hg (fun e he => ⟨e, by simpa using he, Ex.self_mem_subs e⟩)
        simp only at ht
        rw [seed_other _ _ fun p hp => hs _ ⟨p.1, (List.of_mem_zip hp).1, Ex.self_mem_subs _⟩] at ht
        simp only [readOff_fail ⟨x, hxm, ht⟩]

/-- C42: different numbers of outputs and differentials fail with an assertion. -/
theorem C42_lengths {u : Ex} {st : CSt} {fuel : ℕ} (h : ys.length ≠ dys.length) :
    gradient C fuel u xs ys dys st = some (.error .assertion) := by
  unfold gradient; rw [if_pos h]

end

/-- The values of what `gradient` returns. -/
def gradVals (r : Option (Res (List Ex × CSt))) (ρ : Interp ℤ) : Option (List ℤ) :=
  match r with
  | some (.ok (outs, _)) => some (outs.map (Ex.val ρ))
  | _ => none

/-- All variables are one. -/
def intOnes : Interp ℤ := ⟨fun _ => 1, fun _ y => y, fun _ _ => 0, fun _ => 0, fun _ _ => 0⟩

/-- A variable for the examples, with the signature `n`. -/
def exVar (v : String) (n : ℕ) : Ex := .var v fun _ => n

/-- The product of `a` and `b` for the examples. -/
def exMul : Ex := .mul (exVar "a" 1000003) (exVar "b" 7000001) (Sig.smul Sig.Spec.moduli (fun _ => 1000003) fun _ => 7000001)

/-- C42: an output given twice is counted twice for each copy: with `ys = (a*b, a*b)`, `dys = (1, 1)` and `a = b = 1` the gradient is
`(2, 2)`, but the function returns `(4, 4)`.  So the condition on repeated outputs is needed. -/
theorem C42_repeated_witness : gradVals (gradient exampleCfg 20 (exVar "unknown" 5000011) [exVar "a" 1000003, exVar "b" 7000001]
    [exMul, exMul] [exVar "c" 3000017, exVar "d" 9000011] ⟨true, [], []⟩) intOnes = some [4, 4] := by
  decide +kernel

/-- An example for the theorems: the outputs `a + b` and `w * (a - b)` of a radix two butterfly. -/
def exOuts : List Ex :=
  let F := Sig.Spec.moduli
  let sum := Ex.add (exVar "a" 1000003) (exVar "b" 7000001) (Sig.sadd F (fun _ => 1000003) fun _ => 7000001)
  let dif := Ex.sub (exVar "a" 1000003) (exVar "b" 7000001) (Sig.ssub F (fun _ => 1000003) fun _ => 7000001)
  [sum, .mul (exVar "w" 2000029) dif (Sig.smul F (fun _ => 2000029) (Sig.ssub F (fun _ => 1000003) fun _ => 7000001))]

theorem exCircuit : Circuit exampleCfg true [exVar "a" 1000003, exVar "b" 7000001] exOuts := by
  have hc : ∀ n < 100000000, ∀ i : Fin 4, n < exampleCfg.F i := fun n hn i => by
    have h2 : 2 ^ 63 < exampleCfg.F i := (Sig.moduli_range i).1
    omega
  have ha : ∀ v, Good exampleCfg true (exVar v 1000003) := fun v => ⟨trivial, fun _ => hc _ (by norm_num)⟩
  have hb : ∀ v, Good exampleCfg true (exVar v 7000001) := fun v => ⟨trivial, fun _ => hc _ (by norm_num)⟩
  have hw : ∀ v, Good exampleCfg true (exVar v 2000029) := fun v => ⟨trivial, fun _ => hc _ (by norm_num)⟩
  refine ⟨?_, ?_, by decide, ?_, ?_, by decide +kernel⟩
  rotate_left 2
  · intro x hx
    simp only [List.mem_cons, List.not_mem_nil, or_false] at hx
    rcases hx with rfl | rfl <;> exact Or.inl rfl
  rotate_right 2
  · have key : ∀ e ∈ [exVar "a" 1000003, exVar "b" 7000001] ++ exOuts.flatMap Ex.subs,
        ∀ e' ∈ [exVar "a" 1000003, exVar "b" 7000001] ++ exOuts.flatMap Ex.subs, e.sig exampleCfg = e'.sig exampleCfg → e = e' := by
      decide +kernel
    intro e e' he he'
    refine key e ?_ e' ?_
    · rw [List.mem_append, List.mem_flatMap]; exact he
    · rw [List.mem_append, List.mem_flatMap]; exact he'
  · intro y hy e he
    simp only [exOuts, List.mem_cons, List.not_mem_nil, or_false] at hy
    rcases hy with rfl | rfl <;> simp only [exVar, Ex.subs, List.mem_cons, List.mem_append, List.not_mem_nil, or_false] at he
    · rcases he with rfl | rfl | rfl
      · exact ⟨⟨trivial, trivial⟩, fun _ => ⟨(ha "a").2 rfl, (hb "b").2 rfl, rfl⟩⟩
      · exact ha "a"
      · exact hb "b"
    · rcases he with rfl | rfl | rfl | rfl | rfl
      · exact ⟨⟨trivial, trivial, trivial⟩, fun _ => ⟨(hw "w").2 rfl, ⟨(ha "a").2 rfl, (hb "b").2 rfl, rfl⟩, rfl⟩⟩
      · exact hw "w"
      · exact ⟨⟨trivial, trivial⟩, fun _ => ⟨(ha "a").2 rfl, (hb "b").2 rfl, rfl⟩⟩
      · exact ha "a"
      · exact hb "b"
  · intro y hy e he ho
    simp only [exOuts, List.mem_cons, List.not_mem_nil, or_false] at hy
    rcases hy with rfl | rfl <;> simp only [exVar, Ex.subs, List.mem_cons, List.mem_append, List.not_mem_nil, or_false] at he
    · rcases he with rfl | rfl | rfl <;> exact ho.elim
    · rcases he with rfl | rfl | rfl | rfl | rfl <;> exact ho.elim

/-- An example for `C42_transpose`: the transposed butterfly. -/
example : ∃ outs st', gradient exampleCfg 20 (exVar "unknown" 5000011) [exVar "a" 1000003, exVar "b" 7000001] exOuts
    [exVar "c" 3000017, exVar "d" 9000011] ⟨true, [], []⟩ = some (.ok (outs, st')) ∧ outs.length = 2 := by
  have hc : ∀ v, ∀ n < 100000000, Good exampleCfg true (exVar v n) := fun v n hn => ⟨trivial, fun _ i => by
    have h2 : 2 ^ 63 < exampleCfg.F i := (Sig.moduli_range i).1
    show n < exampleCfg.F i
    omega⟩
  obtain ⟨outs, st', h1, h2, _⟩ := C42_transpose (R := ℤ) exampleCfg_ok (st := ⟨true, [], []⟩) exCircuit (by decide)
    (hc "unknown" 5000011 (by norm_num))
    (dys := [exVar "c" 3000017, exVar "d" 9000011])
    (by intro d hd; simp only [List.mem_cons, List.not_mem_nil, or_false] at hd; rcases hd with rfl | rfl <;> exact hc _ _ (by norm_num))
    (by intro p hp; simp at hp) (by intro p hp; simp at hp)
    (by
      intro y hy
      simp only [exOuts, List.mem_cons, List.not_mem_nil, or_false] at hy
      rcases hy with rfl | rfl
      · exact .add _ (.input (by simp)) (.input (by simp))
      · exact .scaleLeft _ (by unfold Const; decide) (.sub _ (.input (by simp)) (.input (by simp))))
    rfl (fuel := 20) (by decide)
  exact ⟨outs, st', h1, h2⟩

end Mandelbrot.Sym
