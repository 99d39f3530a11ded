import Verif.Props.FFTGen

/-!
# Cases of C72: butterflies that are written, with signatures that tell expressions apart
-/

namespace Mandelbrot.Sym

open Sig (Sg)
open Spec

namespace Spec

/-- A mixing function of texts and signatures. -/
def mixCfg : Cfg := ⟨Sig.Spec.moduli, fun f l => fun i =>
  l.foldl (fun a s => (a + s i + 1442695040888963407) ^ 3 % Sig.Spec.moduli i)
    ((match f with | none => [7] | some t => t.toList.map Char.toNat).foldl
      (fun a c => (a + c + 6364136223846793005) ^ 3 % Sig.Spec.moduli i) 0)⟩

/-- The text of a constant: the number and the level in strokes. -/
def constText (k : Char) (j : ℤ) (s : ℕ) : String :=
  String.ofList (k :: List.replicate j.toNat 'p' ++ List.replicate (-j).toNat 'm' ++ List.replicate s 's')

/-- Signatures by name; the constants one and zero have theirs. -/
def exampleSeeds : Seeds where
  sig := fun v => mixCfg.H (some v) []
  sqrtHalf := ("h", mixCfg.H (some "sqrt_half") [])
  twiddle := fun j s => ((constText 'r' j s, if j = 0 then fun _ => 1 else mixCfg.H (some (constText 'r' j s)) []),
    (constText 'i' j s, if j = 0 then fun _ => 0 else mixCfg.H (some (constText 'i' j s)) []))

/-- Complex numbers, with the given factors. -/
noncomputable def exampleMeaning (tw : ℤ → ℂ) : Interp ℂ where
  var := fun _ => 0
  field := fun f z => if f = "r" then z.re else z.im
  call := fun _ l => tw ⌊(l.headD 0).re⌋
  other := fun t => if 'h' ∈ t.toList then FFT.sqrtHalf else
    let z := FFT.constantTwiddle ((t.toList.count 'p' : ℤ) - t.toList.count 'm') (t.toList.count 's')
    if 'r' ∈ t.toList then z.re else z.im
  div := fun z n => z / n

/-- One expression for every signature, if there is only one. -/
def gather (C : Cfg) : List Ex → List (ℕ × Ex) → Option (List (ℕ × Ex))
  | [], acc => some acc
  | e :: l, acc =>
    match acc.lookup (e.sig C 1) with
    | some e' => if e = e' then gather C l acc else none
    | none => gather C l ((e.sig C 1, e) :: acc)

/-- The code is written, different parts have different signatures, and those of small integers only if they are these integers. -/
def clearF (C : Cfg) (w : Res FWritten) : Bool :=
  match w with
  | .ok W =>
    match gather C (W.cse.met ++ W.results.flatMap Ex.subs) [] with
    | some acc => acc.all fun p =>
      match Sig.unsmall C.F (p.2.sig C) with
      | none => true
      | some n => decide (p.2 = .int n)
    | none => false
  | .error _ => false

end Spec

theorem gather_spec {C : Cfg} : ∀ (l : List Ex) {acc acc' : List (ℕ × Ex)}, gather C l acc = some acc' →
    (∀ k e, acc.lookup k = some e → acc'.lookup k = some e) ∧ ∀ e ∈ l, acc'.lookup (e.sig C 1) = some e
  | [], acc, acc', h => by cases h; exact ⟨fun _ _ h => h, by simp⟩
  | e :: l, acc, acc', h => by
    unfold gather at h
    split at h
    · rename_i e' he
      split_ifs at h with hee
      obtain ⟨h1, h2⟩ := gather_spec l h
      refine ⟨h1, fun x hx => ?_⟩
      rcases List.mem_cons.mp hx with rfl | hx
      · exact h1 _ _ (hee ▸ he)
      · exact h2 x hx
    · rename_i he
      obtain ⟨h1, h2⟩ := gather_spec l h
      have hh : ∀ k x, acc.lookup k = some x → acc'.lookup k = some x := by
        intro k x hx
        refine h1 k x ?_
        rw [List.lookup_cons]
        by_cases hk : k = e.sig C 1
        · rw [hk, he] at hx; cases hx
        · rw [beq_eq_false_iff_ne.mpr hk]; exact hx
      refine ⟨hh, fun x hx => ?_⟩
      rcases List.mem_cons.mp hx with rfl | hx
      · exact h1 _ _ (by simp)
      · exact h2 x hx

theorem lookup_mem' {α β : Type} [BEq α] [LawfulBEq α] {k : α} {b : β} : ∀ {l : List (α × β)}, l.lookup k = some b → (k, b) ∈ l
  | (a, c) :: l, h => by
    rw [List.lookup_cons] at h
    by_cases e : k == a
    · simp only [e] at h; cases h; rw [eq_of_beq e]; exact List.mem_cons_self
    · simp only [e] at h; exact List.mem_cons_of_mem _ (lookup_mem' h)

theorem foldl_lt {α : Type} (g : ℕ → α → ℕ) {q : ℕ} (hg : ∀ a c, g a c < q) (l : List α) {a : ℕ} (ha : a < q) : l.foldl g a < q := by
  induction l generalizing a with
  | nil => exact ha
  | cons c l ih => exact ih (hg a c)

theorem mixCfg_ok : mixCfg.Ok := by
  have hp : ∀ i, 0 < Sig.Spec.moduli i := fun i => by have := (Sig.moduli_range i).1; omega
  refine ⟨rfl, fun f l i => ?_⟩
  exact foldl_lt _ (fun a c => Nat.mod_lt _ (hp i)) l (foldl_lt _ (fun a c => Nat.mod_lt _ (hp i)) _ (hp i))

theorem constText_counts {k : Char} (h1 : k ≠ 'p') (h2 : k ≠ 'm') (h3 : k ≠ 's') (j : ℤ) (s : ℕ) :
    ((constText k j s).toList.count 'p' : ℤ) - (constText k j s).toList.count 'm' = j ∧ (constText k j s).toList.count 's' = s := by
  simp [constText, List.count_replicate, h1, h2, h3]

theorem exampleMeaning_means (tw : ℤ → ℂ) : Means exampleSeeds tw (exampleMeaning tw) where
  re z := by simp [exampleMeaning]
  im z := by simp [exampleMeaning]
  twiddle j := by
    show tw ⌊((j : ℂ)).re⌋ = tw j
    rw [show ((j : ℂ)).re = (j : ℝ) by simp, Int.floor_intCast]
  sqrtHalf := by simp [exampleMeaning, exampleSeeds]
  constRe j s := by
    have hh : 'h' ∉ (constText 'r' j s).toList := by simp [constText, List.mem_replicate]
    have hr : 'r' ∈ (constText 'r' j s).toList := by simp [constText]
    show (if 'h' ∈ (constText 'r' j s).toList then _ else _) = _
    rw [if_neg hh]
    refine (if_pos hr).trans ?_
    rw [show (exampleSeeds.twiddle j s).1.1 = constText 'r' j s from rfl, (constText_counts (by decide) (by decide) (by decide) j s).1,
      (constText_counts (by decide) (by decide) (by decide) j s).2]
  constIm j s := by
    have hh : 'h' ∉ (constText 'i' j s).toList := by simp [constText, List.mem_replicate]
    have hr : 'r' ∉ (constText 'i' j s).toList := by simp [constText, List.mem_replicate]
    show (if 'h' ∈ (constText 'i' j s).toList then _ else _) = _
    rw [if_neg hh]
    refine (if_neg hr).trans ?_
    rw [show (exampleSeeds.twiddle j s).2.1 = constText 'i' j s from rfl, (constText_counts (by decide) (by decide) (by decide) j s).1,
      (constText_counts (by decide) (by decide) (by decide) j s).2]

theorem clearF_spec {C : Cfg} {w : Res FWritten} (h : clearF C w = true) : ∃ W, w = .ok W ∧ ∀ ρ : Interp ℂ, SeparateF C ρ W := by
  unfold clearF at h
  split at h
  · rename_i W
    split at h
    · rename_i acc he
      refine ⟨W, rfl, fun ρ env => ?_⟩
      have hg := (gather_spec _ he).2
      have hq : ∀ e ∈ W.cse.met ++ W.results.flatMap Ex.subs, ∀ e' ∈ W.cse.met ++ W.results.flatMap Ex.subs, e.sig C = e'.sig C → e = e' := by
        intro e h1 e' h2 hs
        have := hg e h1
        rw [hs, hg e' h2] at this
        exact (Option.some.inj this).symm
      rw [List.all_eq_true] at h
      refine ⟨⟨fun e h1 e' h2 hs => by rw [hq e (List.mem_append_left _ h1) e' (List.mem_append_left _ h2) hs], fun e h1 n hn => ?_⟩,
        fun e h1 e' h2 hs => by rw [hq e (List.mem_append_right _ h1) e' (List.mem_append_right _ h2) hs]⟩
      have := h _ (lookup_mem' (hg e (List.mem_append_left _ h1)))
      simp only [hn, decide_eq_true_eq] at this
      rw [this]
      rfl
    · cases h
  · cases h

theorem clear_levels_one : clearF mixCfg (levelsCode mixCfg exampleSeeds 1 true) = true := by decide +kernel

/-- The butterfly for a single level, with the factors of the transform. -/
example : ∃ W, levelsCode mixCfg exampleSeeds 1 true = .ok W ∧ Compiles (levelsParams 1) W.lines ∧ ∀ (tw : ℤ → ℂ) (m : FMem) (xn cnt s : ℕ),
    m.env "s" = s → runLoop (exampleMeaning tw) xn cnt W.lines m = { m with y := FFT.srfftLevels 1 cnt m.y tw s } := by
  obtain ⟨W, e, h⟩ := clearF_spec clear_levels_one
  exact ⟨W, e, (C72_levels (xn := 0) (cnt := 0) (s := 0) e (exampleMeaning_means fun _ => 1) (h _) ⟨fun _ => 0, fun _ => 0, fun _ => 0⟩
    (by simp)).1, fun tw m xn cnt s hs => (C72_levels e (exampleMeaning_means tw) (h _) m hs).2⟩

theorem clear_first_one : clearF mixCfg (firstCode mixCfg exampleSeeds 1) = true := by decide +kernel

/-- The function for two numbers. -/
example : ∃ W, firstCode mixCfg exampleSeeds 1 = .ok W ∧ ∀ (tw : ℤ → ℂ) (m : FMem) (xn : ℕ),
    (runLines (exampleMeaning tw) xn W.lines m).y = FFT.srfftFirst 1 1 0 (fun j => FFT.constantTwiddle j 1) m.y ⟨xn, m.x⟩ := by
  obtain ⟨W, e, h⟩ := clearF_spec clear_first_one
  exact ⟨W, e, fun tw m xn => (C72_first_small (.inl rfl) e (exampleMeaning_means tw) (h _) m).2.2⟩

theorem clear_first_three : clearF mixCfg (firstCode mixCfg exampleSeeds 3) = true := by decide +kernel

/-- The function for the first three levels. -/
example : ∃ W, firstCode mixCfg exampleSeeds 3 = .ok W ∧ Compiles (firstParams 3) W.lines ∧ ∀ (tw : ℤ → ℂ) (m : FMem) (xn cnt p : ℕ),
    m.env "n8" = cnt → m.env "p" = p → 3 ≤ p →
    runLoop (exampleMeaning tw) xn cnt W.lines m = { m with y := FFT.srfftFirst 3 cnt (1 <<< (p - 3)) tw m.y ⟨xn, m.x⟩ } := by
  obtain ⟨W, e, h⟩ := clearF_spec clear_first_three
  exact ⟨W, e, (C72_first (xn := 0) (cnt := 3) (p := 3) e (exampleMeaning_means fun _ => 1) (h _) ⟨fun _ => 3, fun _ => 0, fun _ => 0⟩
    (by simp) (by simp) le_rfl).1, fun tw m xn cnt p hn hp h3 => (C72_first e (exampleMeaning_means tw) (h _) m hn hp h3).2⟩

end Mandelbrot.Sym
