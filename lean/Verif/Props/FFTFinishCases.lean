import Verif.Props.FFTFinish
import Verif.Props.FFTBackCases

/-!
# Cases of C72: generators that finish
-/

namespace Mandelbrot.Sym

open Sig (Sg)
open Spec

namespace Spec

/-- Different parts have different signatures. -/
def apartB (C : Cfg) (l : List Ex) : Bool := (gather C (l.flatMap Ex.subs) []).isSome

/-- A computation gives a result with a property. -/
def thenB {α : Type} (m : Gen CSt α) (p : α → Bool) : Bool :=
  match m ⟨true, [], []⟩ with
  | .ok r => p r.1
  | .error _ => false

/-- All inputs are in use. -/
def reachedB (xs ys : List Ex) : Bool := xs.all fun x => ys.any fun y => decide (x ∈ y.subs)

end Spec

theorem apartB_spec {C : Cfg} {l : List Ex} (h : apartB C l = true) :
    ∀ a ∈ l, ∀ b ∈ l, ∀ e ∈ a.subs, ∀ e' ∈ b.subs, e.sig C = e'.sig C → e = e' := by
  obtain ⟨acc, ha⟩ := Option.isSome_iff_exists.mp h
  have hg := (gather_spec _ ha).2
  intro a ha b hb e he e' he' hs
  have := hg e (List.mem_flatMap.mpr ⟨a, ha, he⟩)
  rw [hs, hg e' (List.mem_flatMap.mpr ⟨b, hb, he'⟩)] at this
  exact (Option.some.inj this).symm

theorem reachedB_spec {xs ys : List Ex} (h : reachedB xs ys = true) : ∀ x ∈ xs, ∃ y ∈ ys, x ∈ y.subs := by
  simpa [reachedB] using h

theorem thenB_spec {α : Type} {m : Gen CSt α} {p : α → Bool} (h : thenB m p = true) {r : α × CSt} (e : m ⟨true, [], []⟩ = .ok r) : p r.1 = true := by
  unfold thenB at h
  rw [e] at h
  exact h

theorem apart_levels_one : thenB (levelsX mixCfg exampleSeeds 1 true) (fun q => apartB mixCfg (flatten q.2.1)) = true := by decide +kernel

/-- An example for `C72_levels_finishes`: one level; the circuits for three levels are made too. -/
example : (∃ W, levelsCode mixCfg exampleSeeds 1 true = .ok W) ∧ ∃ q, levelsX mixCfg exampleSeeds 3 true ⟨true, [], []⟩ = .ok q ∧ q.1.2.1.length = 8 := by
  obtain ⟨q, e, -, -, h⟩ := C72_levels_finishes mixCfg_ok exampleSeeds_ok (.inl rfl)
  obtain ⟨W, hW, -⟩ := h (apartB_spec (thenB_spec apart_levels_one e))
  obtain ⟨q', e', -, h', -⟩ := C72_levels_finishes mixCfg_ok exampleSeeds_ok (r := 3) (.inr (.inr rfl))
  exact ⟨⟨W, hW⟩, q', e', h'⟩

/-- An example for `C72_levels_only`. -/
example : ¬∃ W, levelsCode mixCfg exampleSeeds 4 true = .ok W := fun ⟨_, h⟩ => absurd (C72_levels_only h) (by decide)

theorem apart_first_two : thenB (firstX mixCfg exampleSeeds 2 true) (fun q => apartB mixCfg (flatten q.fwd)) = true := by decide +kernel

/-- An example for `C72_first_finishes`: two levels. -/
example : ∃ W, firstCode mixCfg exampleSeeds 2 = .ok W ∧ W.results.length = 4 := by
  obtain ⟨q, e, -, -, h1, h⟩ := C72_first_finishes mixCfg_ok exampleSeeds_ok (r := 2) (.inr (.inl rfl))
  obtain ⟨W, hW, h2, -⟩ := h (apartB_spec (thenB_spec apart_first_two e))
  exact ⟨W, hW, by rw [h2, flatten_length, h1]; rfl⟩

theorem fits_levels_one : thenB (circuitOf mixCfg exampleSeeds 1)
    (fun c => transposedB mixCfg 0 ⟨[], [], flatten c.1, flatten c.2, ⟨true, [], []⟩⟩ && reachedB (flatten c.1) (flatten c.2)) = true := by
  decide +kernel

theorem apart_levels_back_one : thenB (levelsX mixCfg exampleSeeds 1 false) (fun q => apartB mixCfg (flatten q.2.1)) = true := by decide +kernel

/-- An example for `C72_levels_back_finishes`: one level. -/
example : ∃ W, levelsCode mixCfg exampleSeeds 1 false = .ok W ∧ W.results.length = 4 := by
  obtain ⟨c, e, -, -, hg, h⟩ := C72_levels_back_finishes mixCfg_ok exampleSeeds_ok (r := 1) (.inl rfl)
  have hf := thenB_spec fits_levels_one e
  rw [Bool.and_eq_true] at hf
  obtain ⟨q, e1, -, h1, -, h2⟩ := h ((transposedB_spec hf.1).1.circuit hg) (reachedB_spec hf.2)
  obtain ⟨W, hW, h3, -⟩ := h2 (apartB_spec (thenB_spec apart_levels_back_one e1))
  exact ⟨W, hW, by rw [h3, flatten_length, h1]; rfl⟩

theorem fits_last_two : thenB (circuitOfFirst mixCfg exampleSeeds 2)
    (fun c => transposedB mixCfg 0 ⟨[], [], c.1, flatten c.2, ⟨true, [], []⟩⟩ && reachedB c.1 (flatten c.2)) = true := by
  decide +kernel

theorem apart_last_two : thenB (firstX mixCfg exampleSeeds 2 false) (fun q => apartB mixCfg q.bwd && q.bwd.all fun e => match e with
    | .int n => decide (0 ≤ n)
    | _ => true) = true := by decide +kernel

/-- An example for `C72_last_finishes`: two levels, with the results added. -/
example : ∃ W, firstBack mixCfg exampleSeeds 2 true = .ok W ∧ W.results.length = 4 := by
  obtain ⟨c, e, -, -, hg, h⟩ := C72_last_finishes mixCfg_ok exampleSeeds_ok (r := 2) (.inr (.inl rfl)) true
  have hf := thenB_spec fits_last_two e
  rw [Bool.and_eq_true] at hf
  obtain ⟨q, e1, -, -, h1, -, -, h2⟩ := h ((transposedB_spec hf.1).1.circuit hg) (reachedB_spec hf.2)
  have ha := thenB_spec apart_last_two e1
  rw [Bool.and_eq_true] at ha
  obtain ⟨W, hW, h3, -⟩ := h2 (apartB_spec ha.1) fun a hm n hn => by
    have := List.all_eq_true.mp ha.2 a hm
    subst hn
    simpa using this
  exact ⟨W, hW, by rw [h3, h1]; rfl⟩

end Mandelbrot.Sym
