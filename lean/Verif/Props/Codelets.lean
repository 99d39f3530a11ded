import Verif.Sym.BlockLemmas
import Verif.Props.Sym

/-!
# Generated code: C41
-/

namespace Mandelbrot.Sym

open Sig (Sg)
open Spec

/-! ## C41 -/

/-- C41: whatever a block is asked to do, if it finishes then no name of the code it wrote is declared twice, each is declared
before it is used, and the code puts out the values of the requested expressions, whatever the names held before.  This is for all
values of the inputs for which parts with equal signatures have equal values. -/
theorem C41_code {C : Cfg} {R : Type} [IntCast R] [Neg R] [Add R] [Sub R] [Mul R] {ρ : Interp R} {acts : List Act} (hk : Known [] acts)
    (hc : ∀ x ∈ requested acts, ∀ x' ∈ requested acts, ∀ e ∈ x.subs, ∀ e' ∈ x'.subs, e.sig C = e'.sig C → e.val ρ = e'.val ρ)
    {B : Blk} (hr : runActs C acts Blk.empty = .ok B) :
    Scoped [] B.code ∧ (declared B.code).Nodup ∧ ∀ env, outputs ρ B.code env = (requested acts).map (Ex.val ρ) := by
  obtain ⟨h1, more, h2, h3⟩ := runActs_step (C := C) (ρ := ρ) (U := fun e => ∃ x ∈ requested acts, e ∈ x.subs)
    (fun e e' ⟨x, hx, hxe⟩ ⟨x', hx', hxe'⟩ hs => hc x hx x' hx' e hxe e' hxe' hs) acts (B := Blk.empty)
    ⟨trivial, fun v hv => by simp [Blk.empty, declared] at hv, fun env v hv => by simp [Blk.empty, Spec.inputs] at hv,
      fun s v hv => by simp [Blk.empty] at hv⟩ (fun x hx e he => ⟨x, hx, he⟩) hk hr
  refine ⟨h1.wf, ?_, fun env => ?_⟩
  · have : ∀ (l : List Item) (D : List String), D.Nodup → Scoped D l → (D ++ declared l).Nodup := by
      intro l
      induction l with
      | nil => intro D h _; simpa [declared] using h
      | cons i l ih =>
        intro D h hs
        cases i with
        | decl v =>
          have := ih (D ++ [v]) (List.nodup_append.mpr ⟨h, by simp, by intro a ha b hb e; simp only [List.mem_singleton] at hb; subst hb; exact hs.1 (e ▸ ha)⟩) hs.2
          simpa [declared] using this
        | «def» v e =>
          have := ih (D ++ [v]) (List.nodup_append.mpr ⟨h, by simp, by intro a ha b hb e; simp only [List.mem_singleton] at hb; subst hb; exact hs.1 (e ▸ ha)⟩) hs.2.2
          simpa [declared] using this
        | out e => exact ih D h hs.2
    simpa using this B.code [] (by simp) h1.wf
  · have e : B.code = more := by rw [h2]; simp [Blk.empty]
    rw [e]
    have := h3 env
    simpa [Blk.empty, after] using this

/-- C41: the block finishes when the inputs have different names, not those of temporaries, what is requested was registered
before, and different parts have different signatures. -/
theorem C41_finishes {C : Cfg} {acts : List Act} (hu : Used [] acts) (hnd : (names acts).Nodup)
    (hn : ∀ v ∈ names acts, ∀ n, v ≠ candidate "t" n)
    (hc : ∀ x ∈ used acts, ∀ x' ∈ used acts, ∀ e ∈ x.subs, ∀ e' ∈ x'.subs, e.sig C = e'.sig C → e = e') :
    ∃ B, runActs C acts Blk.empty = .ok B :=
  runActs_ok (U := fun e => ∃ x ∈ used acts, e ∈ x.subs)
    (fun e e' ⟨x, hx, hxe⟩ ⟨x', hx', hxe'⟩ hs => hc x hx x' hx' e hxe e' hxe' hs) acts [] (by simp)
    (fun e _ h => by simp [Blk.empty] at h) (fun x hx e he => ⟨x, hx, he⟩) hu hnd
    (fun v hv => ⟨by simp [Blk.empty], hn v hv⟩)

/-- C41: temporaries get the first free of the names `t`, `t0`, `t1`, … -/
theorem C41_fresh (pre : String) (names : List String) :
    ∃ n, fresh pre names = candidate pre n ∧ candidate pre n ∉ names ∧ ∀ m < n, candidate pre m ∈ names :=
  ⟨_, rfl, Nat.find_spec (exists_fresh pre names), fun m hm => by
    have := Nat.find_min (exists_fresh pre names) hm
    simpa using this⟩

/-- Inputs `a`, `b`, `c` and the expressions `-((a - b) * c)` and `(b - a) * c`, with the signatures of exact arithmetic. -/
def refusedActs : List Act :=
  let F := Sig.Spec.moduli
  let a := Ex.var "a" fun _ => 1000
  let b := Ex.var "b" fun _ => 3000
  let c := Ex.var "c" fun _ => 77777
  let ab := Ex.sub a b (Sig.ssub F (a.sig exampleCfg) (b.sig exampleCfg))
  let ba := Ex.sub b a (Sig.ssub F (b.sig exampleCfg) (a.sig exampleCfg))
  let p := Ex.mul ab c (Sig.smul F (ab.sig exampleCfg) (c.sig exampleCfg))
  let x := Ex.neg p (Sig.sneg F (p.sig exampleCfg))
  let y := Ex.mul ba c (Sig.smul F (ba.sig exampleCfg) (c.sig exampleCfg))
  [.input "a", .input "b", .input "c", .use x, .use y, .out x, .out y]

/-- C41: a negation can have the signature of another expression, and then the block may refuse although all was registered. -/
theorem C41_refused : (∀ x ∈ requested refusedActs, x.Exact exampleCfg ∧ x.IntsOk) ∧ Used [] refusedActs ∧ Known [] refusedActs ∧
    runActs exampleCfg refusedActs Blk.empty = .error .assertion := by
  refine ⟨?_, ?_, ?_, ?_⟩
  · intro x hx
    simp only [refusedActs, requested, List.mem_cons, List.not_mem_nil, or_false] at hx
    have hc : ∀ n < 100000, ∀ i : Fin 4, n < exampleCfg.F i := fun n hn i => by
      have h2 : 2 ^ 63 < exampleCfg.F i := (Sig.moduli_range i).1
      omega
    rcases hx with rfl | rfl
    · exact ⟨⟨⟨⟨hc _ (by norm_num), hc _ (by norm_num), rfl⟩, hc _ (by norm_num), rfl⟩, rfl⟩, ⟨trivial, trivial⟩, trivial⟩
    · exact ⟨⟨⟨hc _ (by norm_num), hc _ (by norm_num), rfl⟩, hc _ (by norm_num), rfl⟩, ⟨trivial, trivial⟩, trivial⟩
  · simp [refusedActs, Used]
  · simp [refusedActs, Known, Ex.vars]
  · have key : ∀ r : Res Blk, (match r with | .error .assertion => true | _ => false) = true → r = .error .assertion := by
      intro r h
      split at h
      · rfl
      · simp at h
    exact key _ (by decide +kernel)

/-- An example for `C41_code` and `C41_finishes`: `x + y` is used twice and gets a name, the name `t` being taken. -/
example : ∃ B, runActs exampleCfg
    (let x := Ex.var "t" fun _ => 1000
     let y := Ex.var "y" fun _ => 3000
     let s := Ex.add x y fun _ => 4000
     let p := Ex.mul s s fun _ => 16000000
     [.input "t", .input "y", .use p, .out p]) Blk.empty = .ok B ∧
    (declared B.code).length = 3 ∧
    ∀ env, outputs (fieldInterp fun v => if v = "t" then (5 : ℚ) else 7) B.code env = [144] := by
  set x := Ex.var "t" fun _ => 1000
  set y := Ex.var "y" fun _ => 3000
  set s := Ex.add x y fun _ => 4000
  set p := Ex.mul s s fun _ => 16000000
  refine ⟨_, rfl, rfl, ?_⟩
  intro env
  have hs : ∀ e ∈ p.subs, ∀ e' ∈ p.subs, e.sig exampleCfg = e'.sig exampleCfg → e = e' := by
    intro e he e' he' h
    have h0 := congrFun h 0
    simp only [p, s, x, y, Ex.subs, List.mem_cons, List.mem_append, List.not_mem_nil, or_false] at he he'
    have he2 : e = p ∨ e = s ∨ e = x ∨ e = y := by tauto
    have he2' : e' = p ∨ e' = s ∨ e' = x ∨ e' = y := by tauto
    rcases he2 with rfl | rfl | rfl | rfl <;> rcases he2' with rfl | rfl | rfl | rfl <;> first | rfl | (simp [p, s, x, y, Ex.sig] at h0)
  have := (C41_code (C := exampleCfg) (ρ := fieldInterp fun v => if v = "t" then (5 : ℚ) else 7)
    (acts := [.input "t", .input "y", .use p, .out p]) (by simp [Known, p, s, x, y, Ex.vars])
    (by
      intro a ha a' ha' e he e' he' h
      simp only [requested, List.mem_singleton] at ha ha'
      subst ha ha'
      rw [hs e he e' he' h]) rfl).2.2 env
  rw [this]
  norm_num [requested, Ex.val, p, s, x, y, fieldInterp, show ¬("y" : String) = "t" by decide]

end Mandelbrot.Sym
