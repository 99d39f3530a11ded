import Verif.Runtime.WrapperLemmas

/-!
# C69: the C++ wrappers of library numbers are values and manage their memory
-/

namespace Mandelbrot.Props

open Wrap Spec

variable {V : Type} {L : Lib V}

/-- What a client sees of object `o`: nothing out of its lifetime, its value otherwise. -/
def Spec.seen (s : St V) (o : ℕ) : Option V :=
  match s.objs o with
  | none => none
  | some r => (s.read r).toOption

theorem seen_of_inv {s : St V} {env : ℕ → Option V} {n : ℕ} (h : Inv L s env n) : Spec.seen s = env := by
  funext o
  unfold Spec.seen
  cases e : env o with
  | none => rw [(h.none e).1]
  | some v =>
    obtain ⟨r, h1, -, h3⟩ := h.some e
    rw [h1]
    simp only [h3]
    rfl

/-- C69.  Programs with numbers mean what they mean with values.  If no object is used out of its lifetime, the program runs without undefined
behaviour (no block is freed twice or read after it was freed), every live object has the value that it should have, and the blocks in use are one for every
live object with a large value and one for every `<<` so far.  Using an object out of its lifetime is the only way to undefined behaviour. -/
theorem C69_values (hz : L.big L.zero = false) (ops : List (Op V)) : match valueRun L.zero (fun _ => none) ops with
    | some env => ∃ s, run L St.empty ops = .ok s ∧ Spec.seen s = env ∧ inUse s = prints ops + needed L.big env
    | none => run L St.empty ops = .error .ub := by
  have h := Inv.run hz ops (inv_empty (L := L))
  cases e : valueRun L.zero (fun _ => none) ops with
  | none => rw [e] at h; exact h
  | some env =>
    rw [e] at h
    obtain ⟨s, h1, h2⟩ := h
    rw [Nat.zero_add] at h2
    exact ⟨s, h1, seen_of_inv h2, h2.inUse⟩

/-- C69.  A program that ends the life of all of its objects leaves no block behind but those of its output. -/
theorem C69_released (hz : L.big L.zero = false) (ops : List (Op V)) (h : valueRun L.zero (fun _ => none) ops = some fun _ => none) :
    ∃ s, run L St.empty ops = .ok s ∧ inUse s = prints ops := by
  have h1 := C69_values hz ops
  rw [h] at h1
  obtain ⟨s, h2, -, h3⟩ := h1
  refine ⟨s, h2, ?_⟩
  rw [h3, needed]
  simp

/-- C69.  What is written to one object is never seen in another one, whatever happened before: objects share nothing. -/
theorem C69_apart (hz : L.big L.zero = false) (ops : List (Op V)) (s : St V) (h : run L St.empty ops = .ok s) (o : ℕ) (args : List ℕ) (f : List V → V)
    (s' : St V) (h' : run L St.empty (ops ++ [.call o args f]) = .ok s') (p : ℕ) (hp : p ≠ o) : Spec.seen s' p = Spec.seen s p := by
  have split : ∀ (ps : List (Op V)) (env : ℕ → Option V), valueRun L.zero env (ps ++ [.call o args f]) =
      (valueRun L.zero env ps).bind fun env => valueStep L.zero env (.call o args f) := by
    intro ps
    induction ps with
    | nil => intro env; simp [valueRun]
    | cons q ps ih =>
      intro env
      rw [List.cons_append, valueRun, valueRun]
      cases valueStep L.zero env q with
      | none => rfl
      | some e => exact ih e
  have h1 := C69_values hz ops
  have h2 := C69_values hz (ops ++ [.call o args f])
  rw [split] at h2
  cases e : valueRun L.zero (fun _ => none) ops with
  | none => rw [e] at h1; rw [h] at h1; cases h1
  | some env =>
    rw [e] at h1 h2
    obtain ⟨s₁, h3, h4, -⟩ := h1
    rw [h] at h3
    cases h3
    simp only [Option.bind_some] at h2
    cases e' : valueStep L.zero env (.call o args f) with
    | none => rw [e'] at h2; rw [h'] at h2; cases h2
    | some env' =>
      rw [e'] at h2
      obtain ⟨s₂, h5, h6, -⟩ := h2
      rw [h'] at h5
      cases h5
      rw [h4, h6]
      rw [valueStep] at e'
      cases e1 : valuesOf env args with
      | none => rw [e1] at e'; cases e'
      | some vs =>
        rw [e1] at e'
        cases e2 : env o with
        | none => rw [e2] at e'; cases e'
        | some v =>
          rw [e2] at e'
          simp only [Option.bind_some, Option.map_some, Option.some.injEq] at e'
          rw [← e', Function.update_of_ne hp]

/-- C69, where the code differs from what one expects: every output with `<<` leaves a block behind, as the buffer of `open_memstream` is never
freed; a loop that prints runs out of memory in the end. -/
theorem C69_print_leaks_witness (hz : L.big L.zero = false) (n : ℕ) :
    ∃ s, run L St.empty (.make 0 :: List.replicate n (.print 0) ++ [.destroy 0]) = .ok s ∧ (∀ o, s.objs o = none) ∧ inUse s = n := by
  have hv : ∀ (n : ℕ) (env : ℕ → Option V), env 0 = some L.zero →
      valueRun L.zero env (List.replicate n (.print 0) ++ [.destroy 0]) = some (Function.update env 0 none) := by
    intro n env he
    induction n with
    | zero => simp [valueRun, valueStep, he]
    | succ n ih => rw [List.replicate_succ, List.cons_append, valueRun, valueStep, he]; exact ih
  have hc : ∀ n : ℕ, prints (List.replicate n (Op.print 0 : Op V) ++ [.destroy 0]) = n := by
    intro n
    induction n with
    | zero => rfl
    | succ n ih => rw [List.replicate_succ, List.cons_append, prints, ih]
  have h1 : valueRun L.zero (fun _ => none) (.make 0 :: List.replicate n (.print 0) ++ [.destroy 0]) = some fun _ => none := by
    rw [List.cons_append, valueRun, valueStep]
    show valueRun _ _ _ = _
    rw [hv n _ (by simp)]
    congr 1
    funext o
    by_cases ho : o = 0
    · simp [ho]
    · simp [ho]
  have h2 := Inv.run hz (.make 0 :: List.replicate n (.print 0) ++ [.destroy 0]) (inv_empty (L := L))
  rw [h1] at h2
  obtain ⟨s, h3, h4⟩ := h2
  refine ⟨s, h3, fun o => (h4.none rfl).1, ?_⟩
  rw [h4.inUse, needed, List.cons_append, prints, hc]
  · simp
  · simp

/-- C69, the other one: assigning an object to itself by move loses its value. -/
theorem C69_self_move_witness (hz : L.big L.zero = false) (v : V) :
    ∃ s, run L St.empty [.make 0, .call 0 [] (fun _ => v), .moveAssign 0 0] = .ok s ∧ Spec.seen s 0 = some L.zero := by
  have h := C69_values hz [.make 0, .call 0 [] (fun _ => v), .moveAssign 0 0]
  simp only [valueRun, valueStep, valuesOf, Option.isSome_none, Bool.false_eq_true, if_false, Option.bind_some, Option.map_some,
    Function.update_self, Function.update_idem] at h
  obtain ⟨s, h1, h2, -⟩ := h
  exact ⟨s, h1, by rw [h2]; simp⟩

/-! ## Examples -/

/-- Integers, those from `2^62` on in a block. -/
def intLib : Lib ℤ := ⟨0, fun v => decide (2 ^ 62 ≤ |v|)⟩

/-- Make two numbers, give one a large value, move it into a third, add the two others into the first, move that over the second, end all. -/
def exampleOps : List (Op ℤ) :=
  [.make 0, .make 1, .call 0 [] (fun _ => 2 ^ 100), .moved 2 0, .call 1 [] (fun _ => 5), .call 0 [1, 2, 0] List.sum, .moveAssign 1 0,
    .assign 0 1, .safe 0, .destroy 2]

/-- The values before the end: `0` and `1` have the sum, `2` is gone; two blocks are in use. -/
example : ∃ s, run intLib St.empty exampleOps = .ok s ∧ Spec.seen s 0 = some (2 ^ 100 + 5) ∧ Spec.seen s 1 = some (2 ^ 100 + 5) ∧
    Spec.seen s 2 = none := by
  have h := C69_values (L := intLib) (by decide) exampleOps
  simp [exampleOps, valueRun, valueStep, valuesOf, intLib] at h
  obtain ⟨s, h1, h2, -⟩ := h
  refine ⟨s, h1, ?_, ?_, ?_⟩ <;> rw [h2] <;> simp

/-- With the destructors nothing is left. -/
example : ∃ s, run intLib St.empty (exampleOps ++ [.destroy 1, .destroy 0]) = .ok s ∧ inUse s = 0 := by
  refine C69_released (L := intLib) (by decide) _ ?_
  simp [exampleOps, valueRun, valueStep, valuesOf, intLib]
  funext o
  by_cases h0 : o = 0 <;> by_cases h1 : o = 1 <;> by_cases h2 : o = 2 <;> simp [h0, h1, h2]

/-- Destroying twice is undefined. -/
example : run intLib St.empty [.make 0, .destroy 0, .destroy 0] = .error .ub := by
  have h := C69_values (L := intLib) (by decide) [.make 0, .destroy 0, .destroy 0]
  simpa [valueRun, valueStep] using h

end Mandelbrot.Props
