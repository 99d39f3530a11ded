import Verif.Sym.Lemmas
import Mathlib.Data.Set.Finite.Basic
import Mathlib.Data.Fintype.EquivFin

/-!
# Model of `Block` in /repo/codelets.cc: straight-line code from expressions

Only the structure of the emitted code is modelled here: a line `const auto t = e;` is the pair of the name and the expression.
The text of expressions is modelled in `Verif/Sym/Text.lean`; the operation counts of the closing comment in
`Verif/Sym/Stats.lean`.
-/

namespace Mandelbrot.Sym

open Sig (Sg)

/-- What a block writes: the declaration of an input (by the callers of `input`), a temporary, and an expression that a caller
puts into the code. -/
inductive Item where
  | decl (v : String)
  | def (v : String) (e : Ex)
  | out (e : Ex)

/-- /repo/codelets.cc 111-116: the fields of a block, with the code written so far.  `unordered_map` and `unordered_set` are
functions and lists; an entry of `counts` that is absent is zero, since entries are incremented right after their creation. -/
structure Blk where
  names : List String
  counts : Sg → ℕ
  lets : Sg → Option Ex
  code : List Item

/-- A new block. -/
def Blk.empty : Blk := ⟨[], fun _ => 0, fun _ => none, []⟩

/-- /repo/codelets.cc 119-120: the candidates of `fresh`, the first for `n = -1`. -/
def candidate (pre : String) (n : ℕ) : String := if n = 0 then pre else pre ++ toString (n - 1)

theorem candidate_inj (pre : String) : Function.Injective (candidate pre) := by
  have key : ∀ a b : ℕ, toString a = toString b → a = b := by
    intro a b h
    have h1 : (toString a).toList = (toString b).toList := by rw [h]
    rw [Nat.toString_eq_repr, Nat.toString_eq_repr, Nat.toList_repr, Nat.toList_repr] at h1
    rw [← Nat.ofDigitChars_toDigits (b := 10) (n := a) (by norm_num) (by norm_num), h1,
      Nat.ofDigitChars_toDigits (by norm_num) (by norm_num)]
  have hne : ∀ a : ℕ, pre ≠ pre ++ toString a := by
    intro a h
    have h1 := congrArg (fun s => s.toList.length) h
    simp only [String.toList_append, List.length_append, Nat.toString_eq_repr, Nat.toList_repr] at h1
    have := Nat.length_toDigits_pos (b := 10) (n := a)
    omega
  intro a b h
  unfold candidate at h
  split_ifs at h with h1 h2 h2
  · omega
  · exact absurd h (hne _)
  · exact absurd h.symm (hne _)
  · have h3 : (pre ++ toString (a - 1)).toList = (pre ++ toString (b - 1)).toList := by rw [h]
    rw [String.toList_append, String.toList_append, List.append_cancel_left_eq] at h3
    have := key _ _ (String.toList_inj.mp h3)
    omega

theorem exists_fresh (pre : String) (names : List String) : ∃ n, candidate pre n ∉ names := by
  by_contra h
  push Not at h
  have : Set.Finite (Set.range (candidate pre)) := (List.finite_toSet names).subset (by rintro _ ⟨n, rfl⟩; exact h n)
  exact Set.infinite_range_of_injective (candidate_inj pre) this

/-- /repo/codelets.cc 117-123 `fresh`, without the insertion. -/
def fresh (pre : String) (names : List String) : String := candidate pre (Nat.find (exists_fresh pre names))

/-- /repo/codelets.cc 129-134 `input`; the caller writes the declaration. -/
def Blk.input (v : String) (B : Blk) : Res Blk := do
  slowAssert (v ∉ B.names)
  return { B with names := v :: B.names, code := B.code ++ [.decl v] }

/-- /repo/codelets.cc 143-148 `now`. -/
def Blk.now (C : Cfg) (pre : String) (e : Ex) (B : Blk) : Ex × Blk :=
  let v := fresh pre B.names
  (.var v (e.sig C), { B with names := v :: B.names, code := B.code ++ [.def v e] })

/-- `n++` on an entry of the map. -/
def bump (c : Sg → ℕ) (s : Sg) : Sg → ℕ := fun t => if t = s then c t + 1 else c t

/-- /repo/codelets.cc 151-157 `use`. -/
def useEx (C : Cfg) : Ex → (Sg → ℕ) → (Sg → ℕ)
  | .var _ s, c => bump c s
  | .int n, c => bump c (Sig.ofInt C.F n)
  | .field x _ s, c => bump (if c s = 0 then useEx C x c else c) s
  | .neg x s, c => bump (if c s = 0 then useEx C x c else c) s
  | .add x y s, c => bump (if c s = 0 then useEx C y (useEx C x c) else c) s
  | .sub x y s, c => bump (if c s = 0 then useEx C y (useEx C x c) else c) s
  | .mul x y s, c => bump (if c s = 0 then useEx C y (useEx C x c) else c) s
  | .div x _ s, c => bump (if c s = 0 then useEx C x c else c) s
  | .call1 _ x s, c => bump (if c s = 0 then useEx C x c else c) s
  | .call2 _ x y s, c => bump (if c s = 0 then useEx C y (useEx C x c) else c) s
  | .call3 _ x y z s, c => bump (if c s = 0 then useEx C z (useEx C y (useEx C x c)) else c) s
  | .other _ _ s, c => bump c s

/-- /repo/codelets.cc 151-157 `use`. -/
def Blk.use (C : Cfg) (x : Ex) (B : Blk) : Blk := { B with counts := useEx C x B.counts }

/-- /repo/codelets.cc 172-177: the end of `compute`. -/
def Blk.finish (C : Cfg) (x y : Ex) (B : Blk) : Ex × Blk :=
  if x.fast || B.counts (x.sig C) = 1 then (y, B)
  else
    let (v, B) := B.now C "t" y
    (v, { B with lets := fun s => if s = x.sig C then some v else B.lets s })

/-- /repo/codelets.cc 163-177: `compute` around the computation `k` of the arguments. -/
def Blk.around (C : Cfg) (x : Ex) (B : Blk) (k : Res (Ex × Blk)) : Res (Ex × Blk) :=
  match B.lets (x.sig C) with
  | some v => .ok (v, B)
  | none =>
    if B.counts (x.sig C) = 0 then .error .assertion
    else match k with
      | .error e => .error e
      | .ok (y, B) => .ok (B.finish C x y)

/-- /repo/codelets.cc 162-178 `compute`, with /repo/exp.cc 110-118 `map_args`. -/
def compute (C : Cfg) : Ex → Blk → Res (Ex × Blk)
  | .var v s, B => B.around C (.var v s) (.ok (.var v s, B))
  | .int n, B => B.around C (.int n) (.ok (.int n, B))
  | .field x f s, B => B.around C (.field x f s) (do
      let (x, B) ← compute C x B
      return (.field x f s, B))
  | .neg x s, B => B.around C (.neg x s) (do
      let (x, B) ← compute C x B
      return (.neg x s, B))
  | .add x y s, B => B.around C (.add x y s) (do
      let (x, B) ← compute C x B
      let (y, B) ← compute C y B
      return (.add x y s, B))
  | .sub x y s, B => B.around C (.sub x y s) (do
      let (x, B) ← compute C x B
      let (y, B) ← compute C y B
      return (.sub x y s, B))
  | .mul x y s, B => B.around C (.mul x y s) (do
      let (x, B) ← compute C x B
      let (y, B) ← compute C y B
      return (.mul x y s, B))
  | .div x a s, B => B.around C (.div x a s) (do
      let (x, B) ← compute C x B
      return (.div x a s, B))
  | .call1 f x s, B => B.around C (.call1 f x s) (do
      let (x, B) ← compute C x B
      return (.call1 f x s, B))
  | .call2 f x y s, B => B.around C (.call2 f x y s) (do
      let (x, B) ← compute C x B
      let (y, B) ← compute C y B
      return (.call2 f x y s, B))
  | .call3 f x y z s, B => B.around C (.call3 f x y z s) (do
      let (x, B) ← compute C x B
      let (y, B) ← compute C y B
      let (z, B) ← compute C z B
      return (.call3 f x y z s, B))
  | .other t p s, B => B.around C (.other t p s) (.ok (.other t p s, B))

/-- What callers do with a block: declare an input, register a use, put a computed expression into the code. -/
inductive Act where
  | input (v : String)
  | use (x : Ex)
  | out (x : Ex)

/-- One action. -/
def Act.exec (C : Cfg) (B : Blk) : Act → Res Blk
  | .input v => B.input v
  | .use x => .ok (B.use C x)
  | .out x => match compute C x B with
    | .error e => .error e
    | .ok (y, B) => .ok { B with code := B.code ++ [.out y] }

/-- A sequence of actions. -/
def runActs (C : Cfg) : List Act → Blk → Res Blk
  | [], B => .ok B
  | a :: l, B => match a.exec C B with
    | .error e => .error e
    | .ok B => runActs C l B

end Mandelbrot.Sym
