import Verif.Props.FFTBack
import Verif.Props.FFTGenCases

/-!
# Cases of C72: transposed butterflies that are written
-/

namespace Mandelbrot.Sym

open Sig (Sg)
open Spec

namespace Spec

/-- No part is an input. -/
def constB (xs : List Ex) (e : Ex) : Bool := e.subs.all fun a => decide (a ∉ xs)

/-- Linear in the inputs. -/
def linearB (xs : List Ex) (e : Ex) : Bool :=
  if e ∈ xs then true else
  match e with
  | .neg x _ => linearB xs x
  | .add x y _ => linearB xs x && linearB xs y
  | .sub x y _ => linearB xs x && linearB xs y
  | .mul x y _ => (constB xs x && linearB xs y) || (linearB xs x && constB xs y)
  | _ => false

/-- A field, quotient or call. -/
def opaqueB : Ex → Bool
  | .field _ _ _ | .div _ _ _ | .call1 _ _ _ | .call2 _ _ _ _ | .call3 _ _ _ _ _ => true
  | _ => false

/-- The hypotheses on what was transposed. -/
def transposedB (C : Cfg) (n : ℕ) (W : FWritten) : Bool :=
  (gather C (W.xs ++ W.ys.flatMap Ex.subs) []).isSome &&
  decide W.xs.Nodup &&
  (W.xs.all fun x => x.args.isEmpty || opaqueB x) &&
  (W.ys.all fun y => y.subs.all fun e => !opaqueB e || e.args.all fun a => constB W.xs a) &&
  (W.ys.all fun y => y.args.isEmpty || decide (y ∈ W.xs) ||
    (decide (W.ys.count y ≤ 1) && W.ys.all fun y' => decide (y ∉ properSubs y'))) &&
  (W.ys.all fun e => linearB W.xs e) &&
  (W.results.all fun e => e.vars.all fun v => decide (v ≠ "unknown" ∧ v ∉ numbered "px" n)) &&
  (W.results.all fun e => match e with
    | .int n => decide (0 ≤ n)
    | _ => true)

/-- The same expression, whatever the signatures. -/
def sameB : Ex → Ex → Bool
  | .var v _, .var v' _ => decide (v = v')
  | .int n, .int n' => decide (n = n')
  | .field x f _, .field x' f' _ => decide (f = f') && sameB x x'
  | .neg x _, .neg x' _ => sameB x x'
  | .add x y _, .add x' y' _ => sameB x x' && sameB y y'
  | .sub x y _, .sub x' y' _ => sameB x x' && sameB y y'
  | .mul x y _, .mul x' y' _ => sameB x x' && sameB y y'
  | .call1 f x _, .call1 f' x' _ => decide (f = f') && sameB x x'
  | .other t _ _, .other t' _ _ => decide (t = t')
  | _, _ => false

/-- One expression for every signature, if there is only one. -/
def gatherV (C : Cfg) : List Ex → List (ℕ × Ex) → Option (List (ℕ × Ex))
  | [], acc => some acc
  | e :: l, acc =>
    match acc.lookup (e.sig C 1) with
    | some e' => if sameB e e' then gatherV C l acc else none
    | none => gatherV C l ((e.sig C 1, e) :: acc)

/-- An integer, or a constant that is one or zero. -/
def smallB (n : ℤ) : Ex → Bool
  | .int k => decide (k = n)
  | .other t _ _ => (decide (t = constText 'r' 0 2) && decide (n = 1)) || (decide (t = constText 'i' 0 2) && decide (n = 0))
  | _ => false

/-- The code is written, different parts have different signatures, and those of small integers only if they are these integers. -/
def clearV (C : Cfg) (W : FWritten) : Bool :=
  (gatherV C (W.cse.met ++ W.results.flatMap Ex.subs) []).isSome && W.cse.met.all fun e =>
    match Sig.unsmall C.F (e.sig C) with
    | none => true
    | some n => smallB n e

/-- The code is written, and everything holds. -/
def clearB (C : Cfg) (n : ℕ) (w : Res FWritten) : Bool :=
  match w with
  | .ok W => clearV C W && transposedB C n W
  | .error _ => false

end Spec

theorem constB_spec {xs : List Ex} {e : Ex} (h : constB xs e = true) : Const xs e := by
  intro a ha
  simpa using List.all_eq_true.mp h a ha

theorem linearB_spec {xs : List Ex} {e : Ex} (h : linearB xs e = true) : Linear xs e := by
  induction e with
  | neg x s ih =>
    unfold linearB at h
    split_ifs at h with hx
    · exact .input hx
    · exact .neg s (ih h)
  | add x y s ihx ihy =>
    unfold linearB at h
    split_ifs at h with hx
    · exact .input hx
    · simp only [Bool.and_eq_true] at h
      exact .add s (ihx h.1) (ihy h.2)
  | sub x y s ihx ihy =>
    unfold linearB at h
    split_ifs at h with hx
    · exact .input hx
    · simp only [Bool.and_eq_true] at h
      exact .sub s (ihx h.1) (ihy h.2)
  | mul x y s ihx ihy =>
    unfold linearB at h
    split_ifs at h with hx
    · exact .input hx
    · simp only [Bool.and_eq_true, Bool.or_eq_true] at h
      rcases h with h | h
      · exact .scaleLeft s (constB_spec h.1) (ihy h.2)
      · exact .scaleRight s (ihx h.1) (constB_spec h.2)
  | _ =>
    unfold linearB at h
    split_ifs at h with hx
    exact .input hx

theorem opaqueB_iff (e : Ex) : opaqueB e = true ↔ Opaque e := by cases e <;> simp [opaqueB, Opaque]

theorem transposedB_spec {C : Cfg} {n : ℕ} {W : FWritten} (h : transposedB C n W = true) : Transposed C n W ∧ NoNegative W := by
  unfold transposedB at h
  simp only [Bool.and_eq_true, List.all_eq_true, Bool.or_eq_true, decide_eq_true_eq, List.isEmpty_iff, Bool.not_eq_true'] at h
  obtain ⟨⟨⟨⟨⟨⟨⟨h1, h2⟩, h3⟩, h4⟩, h5⟩, h6⟩, h7⟩, h8⟩ := h
  refine ⟨⟨?_, h2, fun x hx => (h3 x hx).imp id (opaqueB_iff x).mp, fun y hy e he ho a ha => ?_, fun y hy hne hx => ?_,
    fun e he => linearB_spec (h6 e he), h7⟩, fun e he n hn => ?_⟩
  · obtain ⟨acc, ha⟩ := Option.isSome_iff_exists.mp h1
    have hg := (gather_spec _ ha).2
    have hmem : ∀ e, (e ∈ W.xs ∨ ∃ y ∈ W.ys, e ∈ y.subs) → e ∈ W.xs ++ W.ys.flatMap Ex.subs := by
      intro e he
      rcases he with he | he
      · exact List.mem_append_left _ he
      · exact List.mem_append_right _ (List.mem_flatMap.mpr he)
    intro e e' he he' hs
    have := hg e (hmem e he)
    rw [hs, hg e' (hmem e' he')] at this
    exact (Option.some.inj this).symm
  · rcases h4 y hy e he with h | h
    · rw [(opaqueB_iff e).mpr ho] at h; cases h
    · exact constB_spec (h a ha)
  · rcases h5 y hy with (h | h) | h
    · exact absurd h hne
    · exact absurd h hx
    · exact h
  · have := h8 e he
    subst hn
    simpa using this

theorem sameB_val {ρ : Interp ℂ} : ∀ {e e' : Ex}, sameB e e' = true → e.val ρ = e'.val ρ := by
  intro e
  induction e with
  | var v s =>
    intro e' h
    cases e' <;> simp only [sameB, Bool.false_eq_true] at h
    rw [of_decide_eq_true h]; rfl
  | int n =>
    intro e' h
    cases e' <;> simp only [sameB, Bool.false_eq_true] at h
    rw [of_decide_eq_true h]
  | other t p s =>
    intro e' h
    cases e' <;> simp only [sameB, Bool.false_eq_true] at h
    rw [of_decide_eq_true h]; rfl
  | field x f s ih =>
    intro e' h
    cases e' <;> simp only [sameB, Bool.false_eq_true, Bool.and_eq_true, decide_eq_true_eq] at h
    simp only [Ex.val, h.1, ih h.2]
  | call1 f x s ih =>
    intro e' h
    cases e' <;> simp only [sameB, Bool.false_eq_true, Bool.and_eq_true, decide_eq_true_eq] at h
    simp only [Ex.val, h.1, ih h.2]
  | neg x s ih =>
    intro e' h
    cases e' <;> simp only [sameB, Bool.false_eq_true] at h
    simp only [Ex.val, ih h]
  | add x y s ihx ihy | sub x y s ihx ihy | mul x y s ihx ihy =>
    intro e' h
    cases e' <;> simp only [sameB, Bool.false_eq_true, Bool.and_eq_true] at h
    simp only [Ex.val, ihx h.1, ihy h.2]
  | _ =>
    intro e' h
    cases e' <;> simp only [sameB, Bool.false_eq_true] at h

theorem gatherV_spec {C : Cfg} : ∀ (l : List Ex) {acc acc' : List (ℕ × Ex)}, gatherV C l acc = some acc' →
    (∀ k e, acc.lookup k = some e → acc'.lookup k = some e) ∧ ∀ e ∈ l, ∃ e', acc'.lookup (e.sig C 1) = some e' ∧ ∀ ρ : Interp ℂ, e.val ρ = e'.val ρ
  | [], acc, acc', h => by cases h; exact ⟨fun _ _ h => h, by simp⟩
  | e :: l, acc, acc', h => by
    unfold gatherV at h
    split at h
    · rename_i e' he
      split_ifs at h with hee
      obtain ⟨h1, h2⟩ := gatherV_spec l h
      refine ⟨h1, fun x hx => ?_⟩
      rcases List.mem_cons.mp hx with rfl | hx
      · exact ⟨e', h1 _ _ he, fun ρ => sameB_val hee⟩
      · exact h2 x hx
    · rename_i he
      obtain ⟨h1, h2⟩ := gatherV_spec l h
      have hh : ∀ k x, acc.lookup k = some x → acc'.lookup k = some x := by
        intro k x hx
        refine h1 k x ?_
        rw [List.lookup_cons]
        by_cases hk : k = e.sig C 1
        · rw [hk, he] at hx; cases hx
        · rw [beq_eq_false_iff_ne.mpr hk]; exact hx
      refine ⟨hh, fun x hx => ?_⟩
      rcases List.mem_cons.mp hx with rfl | hx
      · exact ⟨x, h1 _ _ (by simp), fun _ => rfl⟩
      · exact h2 x hx

theorem smallB_val {tw : ℤ → ℂ} {env : String → ℂ} {n : ℤ} {e : Ex} (h : smallB n e = true) : e.val (withVar (exampleMeaning tw) env) = n := by
  cases e <;> simp only [smallB, Bool.false_eq_true, Bool.and_eq_true, Bool.or_eq_true, decide_eq_true_eq] at h
  · rw [h]; rfl
  · rename_i t p s
    rcases h with ⟨rfl, rfl⟩ | ⟨rfl, rfl⟩
    · have := (exampleMeaning_means tw).constRe 0 2
      refine this.trans ?_
      simp [FFT.constantTwiddle]
    · have := (exampleMeaning_means tw).constIm 0 2
      refine this.trans ?_
      simp [FFT.constantTwiddle]

theorem clearB_spec {C : Cfg} {n : ℕ} {w : Res FWritten} (h : clearB C n w = true) :
    ∃ W, w = .ok W ∧ (∀ tw : ℤ → ℂ, SeparateF C (exampleMeaning tw) W) ∧ Transposed C n W ∧ NoNegative W := by
  unfold clearB at h
  split at h
  · rename_i W
    rw [Bool.and_eq_true] at h
    refine ⟨W, rfl, fun tw env => ?_, transposedB_spec h.2⟩
    have h := h.1
    unfold clearV at h
    rw [Bool.and_eq_true, List.all_eq_true] at h
    obtain ⟨acc, he⟩ := Option.isSome_iff_exists.mp h.1
    have hg := (gatherV_spec _ he).2
    have hq : ∀ e ∈ W.cse.met ++ W.results.flatMap Ex.subs, ∀ e' ∈ W.cse.met ++ W.results.flatMap Ex.subs, e.sig C = e'.sig C →
        e.val (withVar (exampleMeaning tw) env) = e'.val (withVar (exampleMeaning tw) env) := by
      intro e h1 e' h2 hs
      obtain ⟨a, ha, va⟩ := hg e h1
      obtain ⟨b, hb, vb⟩ := hg e' h2
      rw [hs, hb] at ha
      cases ha
      rw [va, vb]
    refine ⟨⟨fun e h1 e' h2 hs => hq e (List.mem_append_left _ h1) e' (List.mem_append_left _ h2) hs, fun e h1 n hn => ?_⟩,
      fun e h1 e' h2 hs => hq e (List.mem_append_right _ h1) e' (List.mem_append_right _ h2) hs⟩
    have := h.2 e h1
    rw [hn] at this
    exact smallB_val this
  · cases h

theorem ite_lt {n b : ℕ} (p : Prop) [Decidable p] {f : Sg} {i : Fin 4} (hb : b < n) (hf : f i < n) : (if p then fun _ => b else f : Sg) i < n := by
  split_ifs
  · exact hb
  · exact hf

theorem mixCfg_one (i : Fin 4) : 1 < mixCfg.F i := by
  rw [mixCfg_ok.F]
  have := (Sig.moduli_range i).1
  omega

theorem exampleSeeds_ok : exampleSeeds.Ok mixCfg where
  sig v i := mixCfg_ok.H (some v) [] i
  sqrtHalf i := mixCfg_ok.H (some "sqrt_half") [] i
  constRe j s i := ite_lt (j = 0) (mixCfg_one i) (mixCfg_ok.H (some (constText 'r' j s)) [] i)
  constIm j s i := ite_lt (j = 0) (lt_trans one_pos (mixCfg_one i)) (mixCfg_ok.H (some (constText 'i' j s)) [] i)

theorem clear_levels_back_one : clearB mixCfg 2 (levelsCode mixCfg exampleSeeds 1 false) = true := by decide +kernel

/-- The transposed butterfly for a single level. -/
example : ∃ W, levelsCode mixCfg exampleSeeds 1 false = .ok W ∧ Compiles (levelsParams 1) W.lines ∧ ∀ (tw : ℤ → ℂ) (m : FMem) (xn cnt s : ℕ),
    m.env "s" = s → runLoop (exampleMeaning tw) xn cnt W.lines m = { m with y := FFT.isrfftLevels 1 cnt m.y tw s } := by
  obtain ⟨W, e, h, ht, -⟩ := clearB_spec clear_levels_back_one
  exact ⟨W, e, (C72_levels_back (xn := 0) (cnt := 0) (s := 0) mixCfg_ok exampleSeeds_ok e (exampleMeaning_means fun _ => 1) (h _) ht
    ⟨fun _ => 0, fun _ => 0, fun _ => 0⟩ (by simp)).1, fun tw m xn cnt s hs =>
      (C72_levels_back mixCfg_ok exampleSeeds_ok e (exampleMeaning_means tw) (h _) ht m hs).2⟩

theorem clear_last_two : clearB mixCfg 4 (firstBack mixCfg exampleSeeds 2 true) = true := by decide +kernel

/-- The transposed function for four numbers, which adds to the cells. -/
example : ∃ W, firstBack mixCfg exampleSeeds 2 true = .ok W ∧ ∀ (tw : ℤ → ℂ) (m : FMem) (xn : ℕ),
    (runLines (exampleMeaning tw) xn W.lines m).x = FFT.isrfftLast true 2 1 0 (fun j => FFT.constantTwiddle j 2) m.y xn m.x := by
  obtain ⟨W, e, h, ht, hn⟩ := clearB_spec clear_last_two
  exact ⟨W, e, fun tw m xn => (C72_last_small (.inr rfl) mixCfg_ok exampleSeeds_ok e (exampleMeaning_means tw) (h _) ht hn m).2.2⟩

/-- The same as a loop of one iteration. -/
example : ∃ W, firstBack mixCfg exampleSeeds 2 true = .ok W ∧ Compiles (firstParams 2) W.lines ∧ ∀ (tw : ℤ → ℂ) (m : FMem) (xn : ℕ),
    runLoop (exampleMeaning tw) xn 1 W.lines m = { m with x := FFT.isrfftLast true 2 1 1 (fun j => FFT.constantTwiddle j 2) m.y xn m.x } := by
  obtain ⟨W, e, h, ht, hn⟩ := clearB_spec clear_last_two
  have hh := fun tw m xn => C72_last (xn := xn) (cnt := 1) (p := 3) mixCfg_ok exampleSeeds_ok e (exampleMeaning_means tw) (h _) ht hn m
    (fun h => absurd h (by decide)) fun _ => rfl
  exact ⟨W, e, (hh (fun _ => 1) ⟨fun _ => 0, fun _ => 0, fun _ => 0⟩ 0).1, fun tw m xn => (hh tw m xn).2⟩

end Mandelbrot.Sym
