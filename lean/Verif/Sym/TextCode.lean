import Verif.Sym.TextLemmas
import Verif.Sym.BlockLemmas

/-!
# The lines a block writes, and what they do when read back
-/

namespace Mandelbrot.Sym

open Cpp
open Sig (Sg)

/-- A line of a block: an input declared by the caller, the text of a temporary, the text of a requested expression. -/
inductive TextLine where
  | decl (v : String)
  | def (s : List Char)
  | out (s : List Char)
deriving DecidableEq

/-- /repo/codelets.cc 143-148 `now` writes a temporary; requested expressions are printed with `%s`. -/
def Item.line (C : Cfg) : Item → TextLine
  | .decl v => .decl v
  | .def v e => .def ("const auto ".toList ++ v.toList ++ " = ".toList ++ e.text C 100 ++ [';'])
  | .out e => .out (e.text C 100)

end Mandelbrot.Sym

namespace Mandelbrot.Cpp

/-- Reads `const auto <name> = <expression>;`. -/
def pDecl (n : ℕ) (s : List Char) : Option (List Char × Tree) :=
  match lex .none s with
  | .id c :: .id a :: .id v :: .p '=' :: ts =>
    if c = "const".toList ∧ a = "auto".toList then
      match pAdd n ts with
      | some (t, [.p ';']) => some (v, t)
      | _ => none
    else none
  | _ => none

/-- Reads an expression. -/
def pText (n : ℕ) (s : List Char) : Option Tree :=
  match pAdd n (lex .none s) with
  | some (t, []) => some t
  | _ => none

section
variable {R : Type} [CommRing R]

/-- The same library with other values of the variables. -/
def Lib.withVar (L : Lib R) (env : List Char → R) : Lib R := { L with var := env }

/-- Runs lines of code: an input gets its value, a temporary the value of its text, which must be of the type of the code; the
requested values are collected. -/
def runText (L : Lib R) (n : ℕ) : List Sym.TextLine → (List Char → R) → Option (List R)
  | [], _ => some []
  | .decl v :: l, env => runText L n l (Function.update env v.toList (L.var v.toList))
  | .def s :: l, env =>
    match pDecl n s with
    | some (v, t) =>
      match eval (L.withVar env) t with
      | some (.num r) => runText L n l (Function.update env v r)
      | _ => none
    | none => none
  | .out s :: l, env =>
    match pText n s with
    | some t =>
      match eval (L.withVar env) t with
      | some v => (runText L n l env).map (v.to :: ·)
      | none => none
    | none => none

end

theorem lex_const (s : List Char) (v : List Char) (hv : IsId v) :
    lex .none ("const auto ".toList ++ v ++ " = ".toList ++ s) =
      .id "const".toList :: .id "auto".toList :: .id v :: .p '=' :: lex .none s := by
  have h1 := lx_id (s := "const".toList) ⟨'c', ['o', 'n', 's', 't'], rfl, by decide, by decide⟩
    (' ' :: "auto".toList ++ ' ' :: v ++ ' ' :: '=' :: ' ' :: s) (Or.inr (Or.inl ⟨_, _, rfl, by decide⟩))
  have h2 := lx_id (s := "auto".toList) ⟨'a', ['u', 't', 'o'], rfl, by decide, by decide⟩
    (' ' :: v ++ ' ' :: '=' :: ' ' :: s) (Or.inr (Or.inl ⟨_, _, rfl, by decide⟩))
  have h3 := lx_id hv (' ' :: '=' :: ' ' :: s) (Or.inr (Or.inl ⟨_, _, rfl, by decide⟩))
  have e : "const auto ".toList ++ v ++ " = ".toList ++ s =
      "const".toList ++ (' ' :: "auto".toList ++ ' ' :: v ++ ' ' :: '=' :: ' ' :: s) := by
    simp [show "const auto ".toList = ['c', 'o', 'n', 's', 't', ' ', 'a', 'u', 't', 'o', ' '] from rfl,
      show " = ".toList = [' ', '=', ' '] from rfl, show "const".toList = ['c', 'o', 'n', 's', 't'] from rfl,
      show "auto".toList = ['a', 'u', 't', 'o'] from rfl]
  have h0 : lex .none ('=' :: ' ' :: s) = _ := lex_before (by decide) rfl (by decide) s
  rw [e, h1]
  have e2 : ' ' :: "auto".toList ++ ' ' :: v ++ ' ' :: '=' :: ' ' :: s = ' ' :: ("auto".toList ++ (' ' :: (v ++ ' ' :: '=' :: ' ' :: s))) := by
    simp
  rw [e2, lex_space]
  have h2 : lex .none ("auto".toList ++ (' ' :: (v ++ ' ' :: '=' :: ' ' :: s))) = _ := h2
  rw [h2]
  show _ ++ (_ ++ lex .none (' ' :: (v ++ ' ' :: '=' :: ' ' :: s))) = _
  rw [lex_space, h3, lex_space, h0, lex_space]
  rfl

end Mandelbrot.Cpp

namespace Mandelbrot.Sym

open Cpp
open Sig (Sg)

/-- `y` is `x` with some parts replaced by temporaries; `T n s` says that `n` is a temporary for signature `s`. -/
inductive Shadow (C : Cfg) (T : String → Sg → Prop) : Ex → Ex → Prop
  | temp {x : Ex} {n : String} : T n (x.sig C) → Shadow C T x (.var n (x.sig C))
  | var (v : String) (s : Sg) : Shadow C T (.var v s) (.var v s)
  | int (n : ℤ) : Shadow C T (.int n) (.int n)
  | other (t : String) (p : ℕ) (s : Sg) : Shadow C T (.other t p s) (.other t p s)
  | field {x a : Ex} (f : String) (s : Sg) : Shadow C T x a → Shadow C T (.field x f s) (.field a f s)
  | neg {x a : Ex} (s : Sg) : Shadow C T x a → Shadow C T (.neg x s) (.neg a s)
  | add {x y a b : Ex} (s : Sg) : Shadow C T x a → Shadow C T y b → Shadow C T (.add x y s) (.add a b s)
  | sub {x y a b : Ex} (s : Sg) : Shadow C T x a → Shadow C T y b → Shadow C T (.sub x y s) (.sub a b s)
  | mul {x y a b : Ex} (s : Sg) : Shadow C T x a → Shadow C T y b → Shadow C T (.mul x y s) (.mul a b s)
  | div {x a : Ex} (n : ℤ) (s : Sg) : Shadow C T x a → Shadow C T (.div x n s) (.div a n s)
  | call1 {x a : Ex} (f : String) (s : Sg) : Shadow C T x a → Shadow C T (.call1 f x s) (.call1 f a s)
  | call2 {x y a b : Ex} (f : String) (s : Sg) : Shadow C T x a → Shadow C T y b → Shadow C T (.call2 f x y s) (.call2 f a b s)
  | call3 {x y z a b c : Ex} (f : String) (s : Sg) : Shadow C T x a → Shadow C T y b → Shadow C T z c →
      Shadow C T (.call3 f x y z s) (.call3 f a b c s)

section
variable {C : Cfg} {T T' : String → Sg → Prop}

theorem Shadow.mono (hT : ∀ n s, T n s → T' n s) {x y : Ex} (h : Shadow C T x y) : Shadow C T' x y := by
  induction h with
  | temp h => exact .temp (hT _ _ h)
  | var v s => exact .var v s
  | int n => exact .int n
  | other t p s => exact .other t p s
  | field f s _ ih => exact .field f s ih
  | neg s _ ih => exact .neg s ih
  | add s _ _ i1 i2 => exact .add s i1 i2
  | sub s _ _ i1 i2 => exact .sub s i1 i2
  | mul s _ _ i1 i2 => exact .mul s i1 i2
  | div n s _ ih => exact .div n s ih
  | call1 f s _ ih => exact .call1 f s ih
  | call2 f s _ _ i1 i2 => exact .call2 f s i1 i2
  | call3 f s _ _ _ i1 i2 i3 => exact .call3 f s i1 i2 i3

theorem Shadow.sig {x y : Ex} (h : Shadow C T x y) : y.sig C = x.sig C := by
  cases h <;> rfl

theorem Shadow.unint {x y : Ex} (h : Shadow C T x y) (hx : x.unint = none) : y.unint = none := by
  cases h <;> first | rfl | exact hx

theorem Shadow.plain {x y : Ex} (h : Shadow C T x y) (hx : x.plain = true) : y.plain = true := by
  cases h <;> first | rfl | exact hx

theorem Shadow.spelled {O : String → Tree} (hT : ∀ n s, T n s → Name n) {x y : Ex} (h : Shadow C T x y) (hx : x.Spelled O) :
    y.Spelled O := by
  induction h with
  | temp h => exact hT _ _ h
  | var v s => exact hx
  | int n => exact hx
  | other t p s => exact hx
  | field f s h ih => exact ⟨ih hx.1, h.unint hx.2.1, hx.2.2⟩
  | neg s h ih => exact ⟨ih hx.1, h.plain hx.2⟩
  | add s _ _ i1 i2 => exact ⟨i1 hx.1, i2 hx.2⟩
  | sub s _ _ i1 i2 => exact ⟨i1 hx.1, i2 hx.2⟩
  | mul s _ _ i1 i2 => exact ⟨i1 hx.1, i2 hx.2⟩
  | div n s _ ih => exact ⟨ih hx.1, hx.2⟩
  | call1 f s _ ih => exact ⟨hx.1, ih hx.2⟩
  | call2 f s _ _ i1 i2 => exact ⟨hx.1, i1 hx.2.1, i2 hx.2.2⟩
  | call3 f s _ _ _ i1 i2 i3 => exact ⟨hx.1, i1 hx.2.1, i2 hx.2.2.1, i3 hx.2.2.2⟩

section
variable {R : Type} [CommRing R] {ρ : Interp R} {U : Ex → Prop} {env : String → R}

/-- With the right values of inputs and temporaries the value is the same. -/
theorem Shadow.val {x y : Ex} (h : Shadow C T x y) (hU : ∀ e ∈ x.subs, U e) (hv : ∀ v ∈ x.vars, v ∈ y.vars → env v = ρ.var v)
    (hT : ∀ n s, T n s → n ∈ y.vars → ∀ e, U e → e.sig C = s → env n = e.val ρ) : y.val (Spec.withVar ρ env) = x.val ρ := by
  induction h with
  | temp h => exact hT _ _ h (by simp [Ex.vars]) _ (hU _ (Ex.self_mem_subs _)) rfl
  | var v s => exact hv v (by simp [Ex.vars]) (by simp [Ex.vars])
  | int n => rfl
  | other t p s => rfl
  | field f s h ih => simp only [Ex.val]; rw [ih (fun e he => hU e (by simp [Ex.subs, he])) hv hT]; rfl
  | neg s h ih => simp only [Ex.val]; rw [ih (fun e he => hU e (by simp [Ex.subs, he])) hv hT]
  | div n s _ ih => simp only [Ex.val]; rw [ih (fun e he => hU e (by simp [Ex.subs, he])) hv hT]; rfl
  | call1 f s _ ih => simp only [Ex.val]; rw [ih (fun e he => hU e (by simp [Ex.subs, he])) hv hT]; rfl
  | add s _ _ i1 i2 =>
    simp only [Ex.val]
    rw [i1 (fun e he => hU e (by simp [Ex.subs, he])) (fun v h1 h2 => hv v (by simp [Ex.vars, h1]) (by simp [Ex.vars, h2]))
        (fun n s h1 h2 => hT n s h1 (by simp [Ex.vars, h2])),
      i2 (fun e he => hU e (by simp [Ex.subs, he])) (fun v h1 h2 => hv v (by simp [Ex.vars, h1]) (by simp [Ex.vars, h2]))
        (fun n s h1 h2 => hT n s h1 (by simp [Ex.vars, h2]))]
  | sub s _ _ i1 i2 =>
    simp only [Ex.val]
    rw [i1 (fun e he => hU e (by simp [Ex.subs, he])) (fun v h1 h2 => hv v (by simp [Ex.vars, h1]) (by simp [Ex.vars, h2]))
        (fun n s h1 h2 => hT n s h1 (by simp [Ex.vars, h2])),
      i2 (fun e he => hU e (by simp [Ex.subs, he])) (fun v h1 h2 => hv v (by simp [Ex.vars, h1]) (by simp [Ex.vars, h2]))
        (fun n s h1 h2 => hT n s h1 (by simp [Ex.vars, h2]))]
  | mul s _ _ i1 i2 =>
    simp only [Ex.val]
    rw [i1 (fun e he => hU e (by simp [Ex.subs, he])) (fun v h1 h2 => hv v (by simp [Ex.vars, h1]) (by simp [Ex.vars, h2]))
        (fun n s h1 h2 => hT n s h1 (by simp [Ex.vars, h2])),
      i2 (fun e he => hU e (by simp [Ex.subs, he])) (fun v h1 h2 => hv v (by simp [Ex.vars, h1]) (by simp [Ex.vars, h2]))
        (fun n s h1 h2 => hT n s h1 (by simp [Ex.vars, h2]))]
  | call2 f s _ _ i1 i2 =>
    simp only [Ex.val]
    rw [i1 (fun e he => hU e (by simp [Ex.subs, he])) (fun v h1 h2 => hv v (by simp [Ex.vars, h1]) (by simp [Ex.vars, h2]))
        (fun n s h1 h2 => hT n s h1 (by simp [Ex.vars, h2])),
      i2 (fun e he => hU e (by simp [Ex.subs, he])) (fun v h1 h2 => hv v (by simp [Ex.vars, h1]) (by simp [Ex.vars, h2]))
        (fun n s h1 h2 => hT n s h1 (by simp [Ex.vars, h2]))]
    rfl
  | call3 f s _ _ _ i1 i2 i3 =>
    simp only [Ex.val]
    rw [i1 (fun e he => hU e (by simp [Ex.subs, he])) (fun v h1 h2 => hv v (by simp [Ex.vars, h1]) (by simp [Ex.vars, h2]))
        (fun n s h1 h2 => hT n s h1 (by simp [Ex.vars, h2])),
      i2 (fun e he => hU e (by simp [Ex.subs, he])) (fun v h1 h2 => hv v (by simp [Ex.vars, h1]) (by simp [Ex.vars, h2]))
        (fun n s h1 h2 => hT n s h1 (by simp [Ex.vars, h2])),
      i3 (fun e he => hU e (by simp [Ex.subs, he])) (fun v h1 h2 => hv v (by simp [Ex.vars, h1]) (by simp [Ex.vars, h2]))
        (fun n s h1 h2 => hT n s h1 (by simp [Ex.vars, h2]))]
    rfl

/-- And so is the meaning of the text. -/
theorem Shadow.meant {L : Lib R} {O : String → Tree} {envL : List Char → R} (hO : ∀ t r, eval L (O t) = some r → eval (L.withVar envL) (O t) = some r)
    {x y : Ex} (h : Shadow C T x y) (hU : ∀ e ∈ x.subs, U e) (hv : ∀ v ∈ x.vars, v ∈ y.vars → env v = ρ.var v)
    (hT : ∀ n s, T n s → n ∈ y.vars → ∀ e, U e → e.sig C = s → env n = e.val ρ) (hm : x.Meant C L ρ O) :
    y.Meant C (L.withVar envL) (Spec.withVar ρ env) O := by
  induction h with
  | temp h => trivial
  | var v s => trivial
  | int n => exact hm
  | other t p s => exact hO t _ hm
  | field f s h ih => exact ⟨ih (fun e he => hU e (by simp [Ex.subs, he])) hv hT hm.1, h.unint hm.2⟩
  | neg s h ih => exact ⟨ih (fun e he => hU e (by simp [Ex.subs, he])) hv hT hm.1, h.unint hm.2⟩
  | div n s h ih => exact ⟨ih (fun e he => hU e (by simp [Ex.subs, he])) hv hT hm.1, h.unint hm.2.1, hm.2.2⟩
  | call1 f s _ ih => exact ⟨hm.1, ih (fun e he => hU e (by simp [Ex.subs, he])) hv hT hm.2⟩
  | add s h1 h2 i1 i2 =>
    refine ⟨i1 (fun e he => hU e (by simp [Ex.subs, he])) (fun v h1 h2 => hv v (by simp [Ex.vars, h1]) (by simp [Ex.vars, h2]))
        (fun n s h1 h2 => hT n s h1 (by simp [Ex.vars, h2])) hm.1,
      i2 (fun e he => hU e (by simp [Ex.subs, he])) (fun v h1 h2 => hv v (by simp [Ex.vars, h1]) (by simp [Ex.vars, h2]))
        (fun n s h1 h2 => hT n s h1 (by simp [Ex.vars, h2])) hm.2.1, ?_⟩
    exact hm.2.2.imp h1.unint h2.unint
  | sub s h1 h2 i1 i2 =>
    refine ⟨i1 (fun e he => hU e (by simp [Ex.subs, he])) (fun v h1 h2 => hv v (by simp [Ex.vars, h1]) (by simp [Ex.vars, h2]))
        (fun n s h1 h2 => hT n s h1 (by simp [Ex.vars, h2])) hm.1,
      i2 (fun e he => hU e (by simp [Ex.subs, he])) (fun v h1 h2 => hv v (by simp [Ex.vars, h1]) (by simp [Ex.vars, h2]))
        (fun n s h1 h2 => hT n s h1 (by simp [Ex.vars, h2])) hm.2.1, ?_⟩
    exact hm.2.2.imp h1.unint h2.unint
  | mul s h1 h2 i1 i2 =>
    have v1 := h1.val (ρ := ρ) (U := U) (env := env) (fun e he => hU e (by simp [Ex.subs, he]))
      (fun v h1 h2 => hv v (by simp [Ex.vars, h1]) (by simp [Ex.vars, h2])) (fun n s h1 h2 => hT n s h1 (by simp [Ex.vars, h2]))
    have v2 := h2.val (ρ := ρ) (U := U) (env := env) (fun e he => hU e (by simp [Ex.subs, he]))
      (fun v h1 h2 => hv v (by simp [Ex.vars, h1]) (by simp [Ex.vars, h2])) (fun n s h1 h2 => hT n s h1 (by simp [Ex.vars, h2]))
    obtain ⟨m1, m2, m3⟩ := hm
    refine ⟨i1 (fun e he => hU e (by simp [Ex.subs, he])) (fun v h1 h2 => hv v (by simp [Ex.vars, h1]) (by simp [Ex.vars, h2]))
        (fun n s h1 h2 => hT n s h1 (by simp [Ex.vars, h2])) m1,
      i2 (fun e he => hU e (by simp [Ex.subs, he])) (fun v h1 h2 => hv v (by simp [Ex.vars, h1]) (by simp [Ex.vars, h2]))
        (fun n s h1 h2 => hT n s h1 (by simp [Ex.vars, h2])) m2, ?_⟩
    rw [h1.sig, h2.sig]
    split_ifs at m3 ⊢
    · exact ⟨h1.unint m3.1, by rw [v1, v2]; exact m3.2⟩
    · exact m3.imp h1.unint h2.unint
  | call2 f s _ _ i1 i2 =>
    exact ⟨hm.1, i1 (fun e he => hU e (by simp [Ex.subs, he])) (fun v h1 h2 => hv v (by simp [Ex.vars, h1]) (by simp [Ex.vars, h2]))
        (fun n s h1 h2 => hT n s h1 (by simp [Ex.vars, h2])) hm.2.1,
      i2 (fun e he => hU e (by simp [Ex.subs, he])) (fun v h1 h2 => hv v (by simp [Ex.vars, h1]) (by simp [Ex.vars, h2]))
        (fun n s h1 h2 => hT n s h1 (by simp [Ex.vars, h2])) hm.2.2⟩
  | call3 f s _ _ _ i1 i2 i3 =>
    exact ⟨hm.1, i1 (fun e he => hU e (by simp [Ex.subs, he])) (fun v h1 h2 => hv v (by simp [Ex.vars, h1]) (by simp [Ex.vars, h2]))
        (fun n s h1 h2 => hT n s h1 (by simp [Ex.vars, h2])) hm.2.1,
      i2 (fun e he => hU e (by simp [Ex.subs, he])) (fun v h1 h2 => hv v (by simp [Ex.vars, h1]) (by simp [Ex.vars, h2]))
        (fun n s h1 h2 => hT n s h1 (by simp [Ex.vars, h2])) hm.2.2.1,
      i3 (fun e he => hU e (by simp [Ex.subs, he])) (fun v h1 h2 => hv v (by simp [Ex.vars, h1]) (by simp [Ex.vars, h2]))
        (fun n s h1 h2 => hT n s h1 (by simp [Ex.vars, h2])) hm.2.2.2⟩

end

/-! ## What `compute` writes -/

/-- The temporaries of a piece of code. -/
def Temp (C : Cfg) (code : List Item) (n : String) (s : Sg) : Prop := ∃ y, Item.def n y ∈ code ∧ y.sig C = s

theorem Temp.mono {a b : List Item} (h : ∀ i ∈ a, i ∈ b) {n : String} {s : Sg} (ht : Temp C a n s) : Temp C b n s := by
  obtain ⟨y, h1, h2⟩ := ht
  exact ⟨y, h _ h1, h2⟩

/-- All lines are requested expressions or parts of them, with temporaries. -/
structure SInv (C : Cfg) (U : Ex → Prop) (B : Blk) : Prop where
  lets : ∀ s v, B.lets s = some v → ∃ n, v = .var n s ∧ Temp C B.code n s
  defs : ∀ n y, Item.def n y ∈ B.code → (∃ k, n = candidate "t" k) ∧ y.unint = none ∧ ∃ x, U x ∧ Shadow C (Temp C B.code) x y
  outs : ∀ y, Item.out y ∈ B.code → ∃ x, U x ∧ Shadow C (Temp C B.code) x y

/-- What `compute` gives. -/
structure SStep (C : Cfg) (U : Ex → Prop) (x : Ex) (B : Blk) (r : Ex × Blk) : Prop where
  inv : SInv C U r.2
  ext : Ext B r.2
  shadow : Shadow C (Temp C r.2.code) x r.1

theorem Ext.mem {B B' : Blk} (h : Ext B B') : ∀ i ∈ B.code, i ∈ B'.code := by
  obtain ⟨l, e⟩ := h
  intro i hi; rw [e]; exact List.mem_append_left _ hi

theorem fast_unint {x : Ex} (h : x.fast = false) : x.unint = none := by cases x <;> first | rfl | simp [Ex.fast] at h

theorem finish_shadow {U : Ex → Prop} {x y : Ex} (hx : U x) {B0 B : Blk} (h : SStep C U x B0 (y, B)) :
    SStep C U x B0 (B.finish C x y) := by
  unfold Blk.finish
  split_ifs with hf
  · exact h
  · simp only [Blk.now]
    have hi := h.inv
    have hs := h.shadow
    simp only at hi hs
    obtain ⟨k, hk⟩ : ∃ k, fresh "t" B.names = candidate "t" k := ⟨_, rfl⟩
    set n := fresh "t" B.names
    have hmem : ∀ i ∈ B.code, i ∈ B.code ++ [.def n y] := fun i hi => List.mem_append_left _ hi
    have hnew : Temp C (B.code ++ [.def n y]) n (x.sig C) := ⟨y, by simp, hs.sig⟩
    have hfast : x.fast = false := by
      simp only [Bool.or_eq_true, decide_eq_true_eq, not_or, Bool.not_eq_true] at hf
      exact hf.1
    refine ⟨⟨?_, ?_, ?_⟩, h.ext.trans ⟨[(n, y)], rfl⟩, ?_⟩
    · intro s v hv
      simp only at hv
      split_ifs at hv with he
      · rw [Option.some.injEq] at hv
        refine ⟨n, by rw [← hv, he, hs.sig], ?_⟩
        rw [he]; exact hnew
      · obtain ⟨m, e1, e2⟩ := hi.lets s v hv
        exact ⟨m, e1, e2.mono hmem⟩
    · intro m z hz
      rcases List.mem_append.mp hz with hz | hz
      · obtain ⟨h1, h2, x', h3, h4⟩ := hi.defs m z hz
        exact ⟨h1, h2, x', h3, h4.mono fun _ _ ht => ht.mono hmem⟩
      · simp only [List.mem_singleton, Item.def.injEq] at hz
        obtain ⟨rfl, rfl⟩ := hz
        exact ⟨⟨k, hk⟩, hs.unint (fast_unint hfast), x, hx, hs.mono fun _ _ ht => ht.mono hmem⟩
    · intro z hz
      rcases List.mem_append.mp hz with hz | hz
      · obtain ⟨x', h3, h4⟩ := hi.outs z hz
        exact ⟨x', h3, h4.mono fun _ _ ht => ht.mono hmem⟩
      · simp at hz
    · have := Shadow.temp (C := C) (T := Temp C (B.code ++ [.def n y])) (x := x) hnew
      rw [hs.sig]
      exact this

theorem around_shadow {U : Ex → Prop} {x : Ex} (hx : U x) {B : Blk} (hi : SInv C U B) {k : Res (Ex × Blk)}
    (hk : ∀ r, k = .ok r → SStep C U x B r) {r} (hr : B.around C x k = .ok r) : SStep C U x B r := by
  unfold Blk.around at hr
  cases hl : B.lets (x.sig C) with
  | some v =>
    rw [hl] at hr
    simp only [Except.ok.injEq] at hr
    subst hr
    obtain ⟨n, e1, e2⟩ := hi.lets _ v hl
    refine ⟨hi, Ext.refl B, ?_⟩
    simp only
    rw [e1]; exact .temp e2
  | none =>
    rw [hl] at hr
    simp only at hr
    by_cases hc : B.counts (x.sig C) = 0
    · rw [if_pos hc] at hr; simp at hr
    rw [if_neg hc] at hr
    cases k with
    | error e => simp at hr
    | ok p =>
      obtain ⟨y, B1⟩ := p
      simp only [Except.ok.injEq] at hr
      subst hr
      exact finish_shadow hx (hk _ rfl)

theorem compute_shadow {U : Ex → Prop} : ∀ (x : Ex) {B : Blk} {r : Ex × Blk}, SInv C U B → (∀ e ∈ x.subs, U e) →
    compute C x B = .ok r → SStep C U x B r := by
  intro x
  have one : ∀ {x x1 : Ex} (mk : Ex → Ex),
      (∀ {B : Blk} {r : Ex × Blk}, SInv C U B → (∀ e ∈ x1.subs, U e) → compute C x1 B = .ok r → SStep C U x1 B r) →
      (∀ T a, Shadow C T x1 a → Shadow C T x (mk a)) → U x → (∀ e ∈ x1.subs, U e) →
      ∀ {B : Blk} {r : Ex × Blk}, SInv C U B → B.around C x (do
        let (a, B) ← compute C x1 B
        return (mk a, B)) = .ok r → SStep C U x B r := by
    intro x x1 mk ih hmk hx hx1 B r hi hr
    refine around_shadow hx hi ?_ hr
    intro p hp
    rw [bind_pair (f := fun a B => pure (mk a, B))] at hp
    obtain ⟨⟨a, B1⟩, h1, h2⟩ := hp
    simp only [pok, Except.ok.injEq] at h2
    subst h2
    have s1 := ih hi hx1 h1
    exact ⟨s1.inv, s1.ext, hmk _ _ s1.shadow⟩
  have two : ∀ {x x1 x2 : Ex} (mk : Ex → Ex → Ex),
      (∀ {B : Blk} {r : Ex × Blk}, SInv C U B → (∀ e ∈ x1.subs, U e) → compute C x1 B = .ok r → SStep C U x1 B r) →
      (∀ {B : Blk} {r : Ex × Blk}, SInv C U B → (∀ e ∈ x2.subs, U e) → compute C x2 B = .ok r → SStep C U x2 B r) →
      (∀ T a b, Shadow C T x1 a → Shadow C T x2 b → Shadow C T x (mk a b)) → U x → (∀ e ∈ x1.subs, U e) → (∀ e ∈ x2.subs, U e) →
      ∀ {B : Blk} {r : Ex × Blk}, SInv C U B → B.around C x (do
        let (a, B) ← compute C x1 B
        let (b, B) ← compute C x2 B
        return (mk a b, B)) = .ok r → SStep C U x B r := by
    intro x x1 x2 mk ih1 ih2 hmk hx hx1 hx2 B r hi hr
    refine around_shadow hx hi ?_ hr
    intro p hp
    rw [bind_pair (f := fun a B => compute C x2 B >>= fun p => pure (mk a p.1, p.2))] at hp
    obtain ⟨⟨a, B1⟩, h1, h2⟩ := hp
    simp only at h2
    rw [bind_pair (f := fun b B => pure (mk a b, B))] at h2
    obtain ⟨⟨b, B2⟩, h2, h3⟩ := h2
    simp only [pok, Except.ok.injEq] at h3
    subst h3
    have s1 := ih1 hi hx1 h1
    have s2 := ih2 s1.inv hx2 h2
    exact ⟨s2.inv, s1.ext.trans s2.ext, hmk _ _ _ (s1.shadow.mono fun _ _ ht => ht.mono s2.ext.mem) s2.shadow⟩
  induction x with
  | var v s =>
    intro B r hi hs hr
    exact around_shadow (hs _ (Ex.self_mem_subs _)) hi (fun p hp => by cases hp; exact ⟨hi, Ext.refl B, .var v s⟩) hr
  | int n =>
    intro B r hi hs hr
    exact around_shadow (hs _ (Ex.self_mem_subs _)) hi (fun p hp => by cases hp; exact ⟨hi, Ext.refl B, .int n⟩) hr
  | other t q s =>
    intro B r hi hs hr
    exact around_shadow (hs _ (Ex.self_mem_subs _)) hi (fun p hp => by cases hp; exact ⟨hi, Ext.refl B, .other t q s⟩) hr
  | field x1 f s ih =>
    intro B r hi hs hr
    exact one (fun a => .field a f s) ih (fun _ _ h => .field f s h) (hs _ (Ex.self_mem_subs _)) (fun e he => hs e (by simp [Ex.subs, he])) hi hr
  | neg x1 s ih =>
    intro B r hi hs hr
    exact one (fun a => .neg a s) ih (fun _ _ h => .neg s h) (hs _ (Ex.self_mem_subs _)) (fun e he => hs e (by simp [Ex.subs, he])) hi hr
  | div x1 n s ih =>
    intro B r hi hs hr
    exact one (fun a => .div a n s) ih (fun _ _ h => .div n s h) (hs _ (Ex.self_mem_subs _)) (fun e he => hs e (by simp [Ex.subs, he])) hi hr
  | call1 f x1 s ih =>
    intro B r hi hs hr
    exact one (fun a => .call1 f a s) ih (fun _ _ h => .call1 f s h) (hs _ (Ex.self_mem_subs _)) (fun e he => hs e (by simp [Ex.subs, he])) hi hr
  | add x1 x2 s ih1 ih2 =>
    intro B r hi hs hr
    exact two (fun a b => .add a b s) ih1 ih2 (fun _ _ _ h h' => .add s h h') (hs _ (Ex.self_mem_subs _))
      (fun e he => hs e (by simp [Ex.subs, he])) (fun e he => hs e (by simp [Ex.subs, he])) hi hr
  | sub x1 x2 s ih1 ih2 =>
    intro B r hi hs hr
    exact two (fun a b => .sub a b s) ih1 ih2 (fun _ _ _ h h' => .sub s h h') (hs _ (Ex.self_mem_subs _))
      (fun e he => hs e (by simp [Ex.subs, he])) (fun e he => hs e (by simp [Ex.subs, he])) hi hr
  | mul x1 x2 s ih1 ih2 =>
    intro B r hi hs hr
    exact two (fun a b => .mul a b s) ih1 ih2 (fun _ _ _ h h' => .mul s h h') (hs _ (Ex.self_mem_subs _))
      (fun e he => hs e (by simp [Ex.subs, he])) (fun e he => hs e (by simp [Ex.subs, he])) hi hr
  | call2 f x1 x2 s ih1 ih2 =>
    intro B r hi hs hr
    exact two (fun a b => .call2 f a b s) ih1 ih2 (fun _ _ _ h h' => .call2 f s h h') (hs _ (Ex.self_mem_subs _))
      (fun e he => hs e (by simp [Ex.subs, he])) (fun e he => hs e (by simp [Ex.subs, he])) hi hr
  | call3 f x1 x2 x3 s ih1 ih2 ih3 =>
    intro B r hi hs hr
    refine around_shadow (hs _ (Ex.self_mem_subs _)) hi ?_ hr
    intro p hp
    rw [bind_pair (f := fun a B => compute C x2 B >>= fun p => compute C x3 p.2 >>= fun q => pure (Ex.call3 f a p.1 q.1 s, q.2))] at hp
    obtain ⟨⟨a, B1⟩, h1, h2⟩ := hp
    simp only at h2
    rw [bind_pair (f := fun b B => compute C x3 B >>= fun q => pure (Ex.call3 f a b q.1 s, q.2))] at h2
    obtain ⟨⟨b, B2⟩, h2, h3⟩ := h2
    simp only at h3
    rw [bind_pair (f := fun c B => pure (Ex.call3 f a b c s, B))] at h3
    obtain ⟨⟨c, B3⟩, h3, h4⟩ := h3
    simp only [pok, Except.ok.injEq] at h4
    subst h4
    have s1 := ih1 hi (fun e he => hs e (by simp [Ex.subs, he])) h1
    have s2 := ih2 s1.inv (fun e he => hs e (by simp [Ex.subs, he])) h2
    have s3 := ih3 s2.inv (fun e he => hs e (by simp [Ex.subs, he])) h3
    exact ⟨s3.inv, (s1.ext.trans s2.ext).trans s3.ext,
      .call3 f s (s1.shadow.mono fun _ _ ht => ht.mono (s2.ext.trans s3.ext).mem) (s2.shadow.mono fun _ _ ht => ht.mono s3.ext.mem) s3.shadow⟩

theorem runActs_shadow {U : Ex → Prop} : ∀ (l : List Act) {B B' : Blk}, SInv C U B → (∀ x ∈ Spec.requested l, ∀ e ∈ x.subs, U e) →
    runActs C l B = .ok B' → SInv C U B' := by
  intro l
  induction l with
  | nil =>
    intro B B' hi _ hr
    simp only [runActs, Except.ok.injEq] at hr
    subst hr; exact hi
  | cons a l ih =>
    intro B B' hi hq hr
    simp only [runActs] at hr
    cases a with
    | input v =>
      simp only [Act.exec, Blk.input] at hr
      by_cases hv : v ∈ B.names
      · rw [slowAssert, if_neg (by simpa using hv)] at hr
        simp [bind, Except.bind] at hr
      rw [slowAssert_true (by simpa using hv), bok, pok] at hr
      simp only at hr
      have hmem : ∀ i ∈ B.code, i ∈ B.code ++ [.decl v] := fun i hi => List.mem_append_left _ hi
      refine ih (B := { B with names := v :: B.names, code := B.code ++ [.decl v] }) ⟨?_, ?_, ?_⟩ hq hr
      · intro s w hw
        obtain ⟨n, e1, e2⟩ := hi.lets s w hw
        exact ⟨n, e1, e2.mono hmem⟩
      · intro n y hy
        have hy : Item.def n y ∈ B.code := by simpa using hy
        obtain ⟨h1, h2, x, h3, h4⟩ := hi.defs n y hy
        exact ⟨h1, h2, x, h3, h4.mono fun _ _ ht => ht.mono hmem⟩
      · intro y hy
        have hy : Item.out y ∈ B.code := by simpa using hy
        obtain ⟨x, h3, h4⟩ := hi.outs y hy
        exact ⟨x, h3, h4.mono fun _ _ ht => ht.mono hmem⟩
    | use x =>
      simp only [Act.exec] at hr
      exact ih (B := B.use C x) ⟨hi.lets, hi.defs, hi.outs⟩ hq hr
    | out x =>
      simp only [Act.exec] at hr
      cases hc : compute C x B with
      | error e => rw [hc] at hr; simp at hr
      | ok p =>
        obtain ⟨y, B1⟩ := p
        rw [hc] at hr
        simp only at hr
        have s := compute_shadow x hi (hq x (by simp [Spec.requested])) hc
        have si := s.inv
        have ss := s.shadow
        simp only at si ss
        have hmem : ∀ i ∈ B1.code, i ∈ B1.code ++ [.out y] := fun i hi => List.mem_append_left _ hi
        refine ih (B := { B1 with code := B1.code ++ [.out y] }) ⟨?_, ?_, ?_⟩ (fun x' hx' => hq x' (by simp [Spec.requested, hx'])) hr
        · intro s w hw
          obtain ⟨n, e1, e2⟩ := si.lets s w hw
          exact ⟨n, e1, e2.mono hmem⟩
        · intro n z hz
          have hz : Item.def n z ∈ B1.code := by simpa using hz
          obtain ⟨h1, h2, x, h3, h4⟩ := si.defs n z hz
          exact ⟨h1, h2, x, h3, h4.mono fun _ _ ht => ht.mono hmem⟩
        · intro z hz
          rcases List.mem_append.mp hz with hz | hz
          · obtain ⟨x, h3, h4⟩ := si.outs z hz
            exact ⟨x, h3, h4.mono fun _ _ ht => ht.mono hmem⟩
          · simp only [List.mem_singleton, Item.out.injEq] at hz
            subst hz
            exact ⟨x, hq x (by simp [Spec.requested]) x (Ex.self_mem_subs x), ss.mono fun _ _ ht => ht.mono hmem⟩

/-! ## Reading the lines -/

theorem text_alone {O : String → Tree} {e : Ex} (h : e.Spelled O) {r : List Char} (hd : Dl false r) (h1 : NoPost (lex .none r))
    (h2 : NoMul (lex .none r)) (h3 : NoAdd (lex .none r)) : Reads (e.text C 100) r (e.tree C O) := by
  obtain ⟨ts, ht⟩ := text_reads C O e h 100 (by norm_num)
  obtain ⟨N, hN⟩ := ht.ad (lex .none r) (e.tree C O, lex .none r) h1 h2 (addRest_stop h3)
  refine ⟨N, fun n hn => ?_⟩
  rw [ht.lx r hd]
  exact hN n hn

theorem name_candidate (k : ℕ) : Name (candidate "t" k) := by
  have hd : ∀ m : ℕ, ∀ d ∈ Nat.toDigits 10 m, idChar d = true := by
    intro m d hd
    have := (isNum_digits m).2 d hd
    simp [idChar, Char.isAlphanum, this]
  unfold candidate
  split_ifs with h
  · exact ⟨⟨'t', [], rfl, by decide, by simp⟩, by decide⟩
  · rw [Name, String.toList_append, Nat.toString_eq_repr, Nat.toList_repr]
    refine ⟨⟨'t', Nat.toDigits 10 (k - 1), rfl, by decide, hd _⟩, ?_⟩
    intro e
    have := congrArg List.head? e
    simp [show "t".toList = ['t'] from rfl, show "constant".toList = 'c' :: "onstant".toList from rfl] at this

theorem read_def {O : String → Tree} {v : String} (hv : Name v) {y : Ex} (h : y.Spelled O) :
    ∃ N, ∀ n ≥ N, pDecl n ("const auto ".toList ++ v.toList ++ " = ".toList ++ y.text C 100 ++ [';']) = some (v.toList, y.tree C O) := by
  have e0 : lex .none [';'] = [.p ';'] := by decide
  obtain ⟨N, hN⟩ := text_alone (C := C) h (r := [';']) (Or.inr (Or.inl ⟨_, _, rfl, by decide⟩))
    (by rw [e0]; intro c r' he; simp at he; simp [← he.1]) (by rw [e0]; intro c r' he; simp at he; simp [← he.1])
    (by rw [e0]; intro c r' he; simp at he; simp [← he.1])
  refine ⟨N, fun n hn => ?_⟩
  have h1 := hN n hn
  rw [e0] at h1
  rw [pDecl, List.append_assoc, lex_const _ _ hv.1]
  simp only [and_self, if_true, h1]

theorem read_out {O : String → Tree} {y : Ex} (h : y.Spelled O) : ∃ N, ∀ n ≥ N, pText n (y.text C 100) = some (y.tree C O) := by
  have e0 : lex .none [] = [] := by decide
  obtain ⟨N, hN⟩ := text_alone (C := C) h (r := []) (Or.inl rfl)
    (by rw [e0]; intro c r' he; simp at he) (by rw [e0]; intro c r' he; simp at he) (by rw [e0]; intro c r' he; simp at he)
  refine ⟨N, fun n hn => ?_⟩
  have h1 := hN n hn
  rw [e0, List.append_nil] at h1
  rw [pText, h1]

open Spec

theorem declared_of_def {n : String} {y : Ex} {l : List Item} (h : Item.def n y ∈ l) : n ∈ declared l := by
  induction l with
  | nil => simp at h
  | cons i l ih =>
    rcases List.mem_cons.mp h with h | h
    · subst h; simp [declared]
    · have := ih h
      cases i <;> simp [declared, this]

theorem declared_of_input {n : String} {l : List Item} (h : n ∈ inputs l) : n ∈ declared l := by
  induction l with
  | nil => simp [inputs] at h
  | cons i l ih =>
    cases i with
    | decl v =>
      simp only [inputs, List.mem_cons] at h
      rcases h with h | h
      · simp [declared, h]
      · simp [declared, ih h]
    | «def» v e => simp [declared, ih h]
    | out e => simp [declared, ih h]

theorem def_not_input {n : String} {y : Ex} {l : List Item} (hn : (declared l).Nodup) (h : Item.def n y ∈ l) (h' : n ∈ inputs l) : False := by
  induction l with
  | nil => simp at h
  | cons i l ih =>
    cases i with
    | decl v =>
      simp only [declared, List.nodup_cons] at hn
      have h : Item.def n y ∈ l := by simpa using h
      simp only [inputs, List.mem_cons] at h'
      rcases h' with h' | h'
      · exact hn.1 (h' ▸ declared_of_def h)
      · exact ih hn.2 h h'
    | «def» v e =>
      simp only [declared, List.nodup_cons] at hn
      rcases List.mem_cons.mp h with h | h
      · simp only [Item.def.injEq] at h
        exact hn.1 (h.1 ▸ declared_of_input h')
      · exact ih hn.2 h h'
    | out e => exact ih hn (by simpa using h) h'

section
variable {R : Type} [CommRing R] {ρ : Interp R} {U : Ex → Prop} {L : Lib R} {O : String → Tree}

omit [CommRing R] in
theorem agree_with (ha : Agree L ρ) {env : String → R} {envL : List Char → R} (he : ∀ v : String, envL v.toList = env v) :
    Agree (L.withVar envL) (withVar ρ env) := ⟨he, ha.field, ha.call, ha.div⟩

omit [CommRing R] in
theorem update_agree {env : String → R} {envL : List Char → R} (he : ∀ v : String, envL v.toList = env v) (n : String) (r : R) :
    ∀ v : String, Function.update envL n.toList r v.toList = Function.update env n r v := by
  intro v
  by_cases h : v = n
  · subst h; simp
  · rw [Function.update_of_ne h, Function.update_of_ne (fun e => h (String.toList_inj.mp e)), he]

theorem run_lines (ha : Agree L ρ) (hO : ∀ t, ∃ c s as, O t = .call (.tmpl c s) as)
    (hc : ∀ e e', U e → U e' → e.sig C = e'.sig C → e.val ρ = e'.val ρ) (hsub : ∀ x, U x → ∀ e ∈ x.subs, U e)
    (hs : ∀ x, U x → x.Spelled O) (hm : ∀ x, U x → x.Meant C L ρ O) {code : List Item} (hin : ∀ x, U x → ∀ v ∈ x.vars, v ∈ inputs code)
    (hnd : (declared code).Nodup)
    (hdefs : ∀ n y, Item.def n y ∈ code → (∃ k, n = candidate "t" k) ∧ y.unint = none ∧ ∃ x, U x ∧ Shadow C (Temp C code) x y)
    (houts : ∀ y, Item.out y ∈ code → ∃ x, U x ∧ Shadow C (Temp C code) x y) :
    ∀ (suf pre : List Item) (env : String → R) (envL : List Char → R), code = pre ++ suf → Scoped (declared pre) suf →
      (∀ v : String, envL v.toList = env v) → (∀ v ∈ inputs code, v ∈ declared pre → env v = ρ.var v) →
      (∀ n y, Item.def n y ∈ pre → ∀ e, U e → e.sig C = y.sig C → env n = e.val ρ) →
      ∃ N, ∀ n ≥ N, runText L n (suf.map (Item.line C)) envL = some (outputs ρ suf env) := by
  have hTn : ∀ n s, Temp C code n s → Name n := by
    rintro n s ⟨y, h1, _⟩
    obtain ⟨⟨k, hk⟩, _⟩ := hdefs n y h1
    rw [hk]; exact name_candidate k
  have hOe : ∀ (envL : List Char → R) t r, eval L (O t) = some r → eval (L.withVar envL) (O t) = some r := by
    intro envL t r h
    obtain ⟨c, s, as, e⟩ := hO t
    rw [e] at h ⊢
    rw [eval] at h ⊢
    exact h
  intro suf
  induction suf with
  | nil => intro pre env envL _ _ _ _ _; exact ⟨0, fun n _ => rfl⟩
  | cons i suf ih =>
    intro pre env envL hcode hsc he hIn hD
    have hcode' : code = (pre ++ [i]) ++ suf := by rw [hcode]; simp
    have hidx : i ∈ code := by rw [hcode]; simp
    -- a temporary of the code that a line uses is one of before
    have hbefore : ∀ y : Ex, (∀ w ∈ y.vars, w ∈ declared pre) → ∀ n s, Temp C code n s → n ∈ y.vars → ∀ e, U e → e.sig C = s → env n = e.val ρ := by
      rintro y hy n s ⟨z, h1, h2⟩ hn e hUe hse
      have hnp := hy n hn
      rw [hcode] at h1
      rcases List.mem_append.mp h1 with h1 | h1
      · exact hD n z h1 e hUe (by rw [hse, h2])
      · rw [hcode, declared_append] at hnd
        exact absurd rfl ((List.nodup_append.mp hnd).2.2 n hnp n (declared_of_def h1))
    have hinv : ∀ x, U x → ∀ y : Ex, (∀ w ∈ y.vars, w ∈ declared pre) → ∀ v ∈ x.vars, v ∈ y.vars → env v = ρ.var v :=
      fun x hx y hy v h1 h2 => hIn v (hin x hx v h1) (hy v h2)
    cases i with
    | decl v =>
      obtain ⟨hv, hsc⟩ := hsc
      obtain ⟨N, hN⟩ := ih (pre ++ [.decl v]) (Function.update env v (ρ.var v)) (Function.update envL v.toList (L.var v.toList)) hcode'
        (by rw [declared_append]; exact hsc) (by rw [ha.var]; exact update_agree he v _)
        (by
          intro w hw hwd
          by_cases e : w = v
          · subst e; simp
          · rw [Function.update_of_ne e]
            refine hIn w hw ?_
            rw [declared_append] at hwd
            simpa [declared, e] using hwd)
        (by
          intro n y hy e hUe hse
          have hy : Item.def n y ∈ pre := by simpa using hy
          rw [Function.update_of_ne (fun h : n = v => hv (h ▸ declared_of_def hy))]
          exact hD n y hy e hUe hse)
      exact ⟨N, fun n hn => hN n hn⟩
    | «def» v y =>
      obtain ⟨hv, hvars, hsc⟩ := hsc
      obtain ⟨⟨k, hk⟩, hyn, x, hx, hsh⟩ := hdefs v y hidx
      have hval := hsh.val (ρ := ρ) (U := U) (env := env) (hsub x hx) (hinv x hx y hvars) (hbefore y hvars)
      have hmy := hsh.meant (ρ := ρ) (U := U) (env := env) (envL := envL) (hOe envL) (hsub x hx) (hinv x hx y hvars) (hbefore y hvars) (hm x hx)
      have hev := (eval_tree (agree_with ha he) y hmy).num hyn
      obtain ⟨N1, hN1⟩ := read_def (C := C) (O := O) (v := v) (by rw [hk]; exact name_candidate k) (hsh.spelled hTn (hs x hx))
      obtain ⟨N, hN⟩ := ih (pre ++ [.def v y]) (Function.update env v (y.val (withVar ρ env)))
        (Function.update envL v.toList (y.val (withVar ρ env))) hcode'
        (by rw [declared_append]; exact hsc) (update_agree he v _)
        (by
          intro w hw hwd
          have e : w ≠ v := by
            rintro rfl
            exact def_not_input hnd hidx hw
          rw [Function.update_of_ne e]
          refine hIn w hw ?_
          rw [declared_append] at hwd
          simpa [declared, e] using hwd)
        (by
          intro n z hz e hUe hse
          rcases List.mem_append.mp hz with hz | hz
          · rw [Function.update_of_ne (fun h : n = v => hv (h ▸ declared_of_def hz))]
            exact hD n z hz e hUe hse
          · simp only [List.mem_singleton, Item.def.injEq] at hz
            obtain ⟨rfl, rfl⟩ := hz
            rw [Function.update_self, hval]
            exact hc x e hx hUe (by rw [hse, hsh.sig]))
      refine ⟨max N N1, fun n hn => ?_⟩
      simp only [List.map_cons, Item.line, runText, outputs]
      rw [hN1 n (le_trans (le_max_right _ _) hn)]
      simp only [hev]
      exact hN n (le_trans (le_max_left _ _) hn)
    | out y =>
      obtain ⟨hvars, hsc⟩ := hsc
      obtain ⟨x, hx, hsh⟩ := houts y hidx
      have hmy := hsh.meant (ρ := ρ) (U := U) (env := env) (envL := envL) (hOe envL) (hsub x hx) (hinv x hx y hvars) (hbefore y hvars) (hm x hx)
      obtain ⟨w, hw, hwv⟩ := (eval_tree (agree_with ha he) y hmy).some
      obtain ⟨N1, hN1⟩ := read_out (C := C) (O := O) (hsh.spelled hTn (hs x hx))
      obtain ⟨N, hN⟩ := ih (pre ++ [.out y]) env envL hcode' (by rw [declared_append]; simpa [declared] using hsc) he
        (by
          intro w hw hwd
          refine hIn w hw ?_
          rw [declared_append] at hwd
          simpa [declared] using hwd)
        (fun n z hz => hD n z (by simpa using hz))
      refine ⟨max N N1, fun n hn => ?_⟩
      simp only [List.map_cons, Item.line, runText, outputs]
      rw [hN1 n (le_trans (le_max_right _ _) hn)]
      simp only [hw]
      rw [hN n (le_trans (le_max_left _ _) hn), hwv]
      rfl

end

/-- No arithmetic on two literals, no division, negation or member of a literal, literals and divisors are `int`, and no function has
a name that `show` brings in. -/
def Ex.Typed (C : Cfg) : Ex → Prop
  | .var _ _ => True
  | .int n => -2 ^ 31 < n ∧ n < 2 ^ 31
  | .field x _ _ => x.Typed C ∧ x.unint = none
  | .neg x _ => x.Typed C ∧ x.unint = none
  | .add x y _ => x.Typed C ∧ y.Typed C ∧ (x.unint = none ∨ y.unint = none)
  | .sub x y _ => x.Typed C ∧ y.Typed C ∧ (x.unint = none ∨ y.unint = none)
  | .mul x y _ => x.Typed C ∧ y.Typed C ∧ (x.unint = none ∨ y.unint = none) ∧ (x.sig C = y.sig C → x.unint = none)
  | .div x a _ => x.Typed C ∧ x.unint = none ∧ 0 < a ∧ a < 2 ^ 31
  | .call1 f x _ => f.toList ∉ reserved ∧ x.Typed C
  | .call2 f x y _ => f.toList ∉ reserved ∧ x.Typed C ∧ y.Typed C
  | .call3 f x y z _ => f.toList ∉ reserved ∧ x.Typed C ∧ y.Typed C ∧ z.Typed C
  | .other _ _ _ => True

theorem meant_of_typed {R : Type} [CommRing R] {ρ : Interp R} {L : Lib R} {O : String → Tree} {e : Ex} (ht : e.Typed C)
    (hc : ∀ x ∈ e.subs, ∀ y ∈ e.subs, x.sig C = y.sig C → x.val ρ = y.val ρ)
    (ho : ∀ t p s, Ex.other t p s ∈ e.subs → eval L (O t) = some (.num (ρ.other t))) : e.Meant C L ρ O := by
  induction e with
  | var v s => trivial
  | int n => exact ht
  | field x f s ih =>
    exact ⟨ih ht.1 (fun a ha b hb => hc a (by simp [Ex.subs, ha]) b (by simp [Ex.subs, hb])) (fun t p s h => ho t p s (by simp [Ex.subs, h])), ht.2⟩
  | neg x s ih =>
    exact ⟨ih ht.1 (fun a ha b hb => hc a (by simp [Ex.subs, ha]) b (by simp [Ex.subs, hb])) (fun t p s h => ho t p s (by simp [Ex.subs, h])), ht.2⟩
  | div x a s ih =>
    exact ⟨ih ht.1 (fun a ha b hb => hc a (by simp [Ex.subs, ha]) b (by simp [Ex.subs, hb])) (fun t p s h => ho t p s (by simp [Ex.subs, h])), ht.2⟩
  | call1 f x s ih =>
    exact ⟨ht.1, ih ht.2 (fun a ha b hb => hc a (by simp [Ex.subs, ha]) b (by simp [Ex.subs, hb])) (fun t p s h => ho t p s (by simp [Ex.subs, h]))⟩
  | add x y s i1 i2 =>
    exact ⟨i1 ht.1 (fun a ha b hb => hc a (by simp [Ex.subs, ha]) b (by simp [Ex.subs, hb])) (fun t p s h => ho t p s (by simp [Ex.subs, h])),
      i2 ht.2.1 (fun a ha b hb => hc a (by simp [Ex.subs, ha]) b (by simp [Ex.subs, hb])) (fun t p s h => ho t p s (by simp [Ex.subs, h])), ht.2.2⟩
  | sub x y s i1 i2 =>
    exact ⟨i1 ht.1 (fun a ha b hb => hc a (by simp [Ex.subs, ha]) b (by simp [Ex.subs, hb])) (fun t p s h => ho t p s (by simp [Ex.subs, h])),
      i2 ht.2.1 (fun a ha b hb => hc a (by simp [Ex.subs, ha]) b (by simp [Ex.subs, hb])) (fun t p s h => ho t p s (by simp [Ex.subs, h])), ht.2.2⟩
  | mul x y s i1 i2 =>
    refine ⟨i1 ht.1 (fun a ha b hb => hc a (by simp [Ex.subs, ha]) b (by simp [Ex.subs, hb])) (fun t p s h => ho t p s (by simp [Ex.subs, h])),
      i2 ht.2.1 (fun a ha b hb => hc a (by simp [Ex.subs, ha]) b (by simp [Ex.subs, hb])) (fun t p s h => ho t p s (by simp [Ex.subs, h])), ?_⟩
    split_ifs with h
    · exact ⟨ht.2.2.2 (funext h), hc x (by simp [Ex.subs, Ex.self_mem_subs]) y (by simp [Ex.subs, Ex.self_mem_subs]) (funext h)⟩
    · exact ht.2.2.1
  | call2 f x y s i1 i2 =>
    exact ⟨ht.1, i1 ht.2.1 (fun a ha b hb => hc a (by simp [Ex.subs, ha]) b (by simp [Ex.subs, hb])) (fun t p s h => ho t p s (by simp [Ex.subs, h])),
      i2 ht.2.2 (fun a ha b hb => hc a (by simp [Ex.subs, ha]) b (by simp [Ex.subs, hb])) (fun t p s h => ho t p s (by simp [Ex.subs, h]))⟩
  | call3 f x y z s i1 i2 i3 =>
    exact ⟨ht.1, i1 ht.2.1 (fun a ha b hb => hc a (by simp [Ex.subs, ha]) b (by simp [Ex.subs, hb])) (fun t p s h => ho t p s (by simp [Ex.subs, h])),
      i2 ht.2.2.1 (fun a ha b hb => hc a (by simp [Ex.subs, ha]) b (by simp [Ex.subs, hb])) (fun t p s h => ho t p s (by simp [Ex.subs, h])),
      i3 ht.2.2.2 (fun a ha b hb => hc a (by simp [Ex.subs, ha]) b (by simp [Ex.subs, hb])) (fun t p s h => ho t p s (by simp [Ex.subs, h]))⟩
  | other t p s => exact ho t p s (by simp [Ex.subs])

theorem spelled_sub {O : String → Tree} : ∀ {x : Ex}, x.Spelled O → ∀ e ∈ x.subs, e.Spelled O := by
  intro x
  induction x with
  | var v s => intro h e he; simp only [Ex.subs, List.mem_singleton] at he; subst he; exact h
  | int n => intro h e he; simp only [Ex.subs, List.mem_singleton] at he; subst he; exact h
  | other t p s => intro h e he; simp only [Ex.subs, List.mem_singleton] at he; subst he; exact h
  | field x f s ih =>
    intro h e he
    simp only [Ex.subs, List.mem_cons] at he
    rcases he with rfl | he
    exacts [h, ih h.1 e he]
  | neg x s ih =>
    intro h e he
    simp only [Ex.subs, List.mem_cons] at he
    rcases he with rfl | he
    exacts [h, ih h.1 e he]
  | div x a s ih =>
    intro h e he
    simp only [Ex.subs, List.mem_cons] at he
    rcases he with rfl | he
    exacts [h, ih h.1 e he]
  | call1 f x s ih =>
    intro h e he
    simp only [Ex.subs, List.mem_cons] at he
    rcases he with rfl | he
    exacts [h, ih h.2 e he]
  | add x y s i1 i2 =>
    intro h e he
    simp only [Ex.subs, List.mem_cons, List.mem_append] at he
    rcases he with rfl | he | he
    exacts [h, i1 h.1 e he, i2 h.2 e he]
  | sub x y s i1 i2 =>
    intro h e he
    simp only [Ex.subs, List.mem_cons, List.mem_append] at he
    rcases he with rfl | he | he
    exacts [h, i1 h.1 e he, i2 h.2 e he]
  | mul x y s i1 i2 =>
    intro h e he
    simp only [Ex.subs, List.mem_cons, List.mem_append] at he
    rcases he with rfl | he | he
    exacts [h, i1 h.1 e he, i2 h.2 e he]
  | call2 f x y s i1 i2 =>
    intro h e he
    simp only [Ex.subs, List.mem_cons, List.mem_append] at he
    rcases he with rfl | he | he
    exacts [h, i1 h.2.1 e he, i2 h.2.2 e he]
  | call3 f x y z s i1 i2 i3 =>
    intro h e he
    simp only [Ex.subs, List.mem_cons, List.mem_append] at he
    rcases he with rfl | (he | he) | he
    exacts [h, i1 h.2.1 e he, i2 h.2.2.1 e he, i3 h.2.2.2 e he]

theorem typed_sub : ∀ {x : Ex}, x.Typed C → ∀ e ∈ x.subs, e.Typed C := by
  intro x
  induction x with
  | var v s => intro h e he; simp only [Ex.subs, List.mem_singleton] at he; subst he; exact h
  | int n => intro h e he; simp only [Ex.subs, List.mem_singleton] at he; subst he; exact h
  | other t p s => intro h e he; simp only [Ex.subs, List.mem_singleton] at he; subst he; exact h
  | field x f s ih =>
    intro h e he
    simp only [Ex.subs, List.mem_cons] at he
    rcases he with rfl | he
    exacts [h, ih h.1 e he]
  | neg x s ih =>
    intro h e he
    simp only [Ex.subs, List.mem_cons] at he
    rcases he with rfl | he
    exacts [h, ih h.1 e he]
  | div x a s ih =>
    intro h e he
    simp only [Ex.subs, List.mem_cons] at he
    rcases he with rfl | he
    exacts [h, ih h.1 e he]
  | call1 f x s ih =>
    intro h e he
    simp only [Ex.subs, List.mem_cons] at he
    rcases he with rfl | he
    exacts [h, ih h.2 e he]
  | add x y s i1 i2 =>
    intro h e he
    simp only [Ex.subs, List.mem_cons, List.mem_append] at he
    rcases he with rfl | he | he
    exacts [h, i1 h.1 e he, i2 h.2.1 e he]
  | sub x y s i1 i2 =>
    intro h e he
    simp only [Ex.subs, List.mem_cons, List.mem_append] at he
    rcases he with rfl | he | he
    exacts [h, i1 h.1 e he, i2 h.2.1 e he]
  | mul x y s i1 i2 =>
    intro h e he
    simp only [Ex.subs, List.mem_cons, List.mem_append] at he
    rcases he with rfl | he | he
    exacts [h, i1 h.1 e he, i2 h.2.1 e he]
  | call2 f x y s i1 i2 =>
    intro h e he
    simp only [Ex.subs, List.mem_cons, List.mem_append] at he
    rcases he with rfl | he | he
    exacts [h, i1 h.2.1 e he, i2 h.2.2 e he]
  | call3 f x y z s i1 i2 i3 =>
    intro h e he
    simp only [Ex.subs, List.mem_cons, List.mem_append] at he
    rcases he with rfl | (he | he) | he
    exacts [h, i1 h.2.1 e he, i2 h.2.2.1 e he, i3 h.2.2.2 e he]

theorem vars_sub : ∀ {x : Ex}, ∀ e ∈ x.subs, ∀ v ∈ e.vars, v ∈ x.vars := by
  intro x
  induction x with
  | var v s => intro e he; simp only [Ex.subs, List.mem_singleton] at he; subst he; exact fun _ h => h
  | int n => intro e he; simp only [Ex.subs, List.mem_singleton] at he; subst he; exact fun _ h => h
  | other t p s => intro e he; simp only [Ex.subs, List.mem_singleton] at he; subst he; exact fun _ h => h
  | field x f s ih =>
    intro e he
    simp only [Ex.subs, List.mem_cons] at he
    rcases he with rfl | he
    exacts [fun _ h => h, ih e he]
  | neg x s ih =>
    intro e he
    simp only [Ex.subs, List.mem_cons] at he
    rcases he with rfl | he
    exacts [fun _ h => h, ih e he]
  | div x a s ih =>
    intro e he
    simp only [Ex.subs, List.mem_cons] at he
    rcases he with rfl | he
    exacts [fun _ h => h, ih e he]
  | call1 f x s ih =>
    intro e he
    simp only [Ex.subs, List.mem_cons] at he
    rcases he with rfl | he
    exacts [fun _ h => h, ih e he]
  | add x y s i1 i2 =>
    intro e he
    simp only [Ex.subs, List.mem_cons, List.mem_append] at he
    rcases he with rfl | he | he
    exacts [fun _ h => h, fun v hv => by simp [Ex.vars, i1 e he v hv], fun v hv => by simp [Ex.vars, i2 e he v hv]]
  | sub x y s i1 i2 =>
    intro e he
    simp only [Ex.subs, List.mem_cons, List.mem_append] at he
    rcases he with rfl | he | he
    exacts [fun _ h => h, fun v hv => by simp [Ex.vars, i1 e he v hv], fun v hv => by simp [Ex.vars, i2 e he v hv]]
  | mul x y s i1 i2 =>
    intro e he
    simp only [Ex.subs, List.mem_cons, List.mem_append] at he
    rcases he with rfl | he | he
    exacts [fun _ h => h, fun v hv => by simp [Ex.vars, i1 e he v hv], fun v hv => by simp [Ex.vars, i2 e he v hv]]
  | call2 f x y s i1 i2 =>
    intro e he
    simp only [Ex.subs, List.mem_cons, List.mem_append] at he
    rcases he with rfl | he | he
    exacts [fun _ h => h, fun v hv => by simp [Ex.vars, i1 e he v hv], fun v hv => by simp [Ex.vars, i2 e he v hv]]
  | call3 f x y z s i1 i2 i3 =>
    intro e he
    simp only [Ex.subs, List.mem_cons, List.mem_append] at he
    rcases he with rfl | (he | he) | he
    exacts [fun _ h => h, fun v hv => by simp [Ex.vars, i1 e he v hv], fun v hv => by simp [Ex.vars, i2 e he v hv],
      fun v hv => by simp [Ex.vars, i3 e he v hv]]

theorem subs_subs : ∀ {x : Ex}, ∀ e ∈ x.subs, ∀ f ∈ e.subs, f ∈ x.subs := by
  intro x
  induction x with
  | var v s => intro e he; simp only [Ex.subs, List.mem_singleton] at he; subst he; exact fun _ h => h
  | int n => intro e he; simp only [Ex.subs, List.mem_singleton] at he; subst he; exact fun _ h => h
  | other t p s => intro e he; simp only [Ex.subs, List.mem_singleton] at he; subst he; exact fun _ h => h
  | field x f s ih =>
    intro e he
    simp only [Ex.subs, List.mem_cons] at he
    rcases he with rfl | he
    exacts [fun _ h => h, fun v hv => by simp [Ex.subs, ih e he v hv]]
  | neg x s ih =>
    intro e he
    simp only [Ex.subs, List.mem_cons] at he
    rcases he with rfl | he
    exacts [fun _ h => h, fun v hv => by simp [Ex.subs, ih e he v hv]]
  | div x a s ih =>
    intro e he
    simp only [Ex.subs, List.mem_cons] at he
    rcases he with rfl | he
    exacts [fun _ h => h, fun v hv => by simp [Ex.subs, ih e he v hv]]
  | call1 f x s ih =>
    intro e he
    simp only [Ex.subs, List.mem_cons] at he
    rcases he with rfl | he
    exacts [fun _ h => h, fun v hv => by simp [Ex.subs, ih e he v hv]]
  | add x y s i1 i2 =>
    intro e he
    simp only [Ex.subs, List.mem_cons, List.mem_append] at he
    rcases he with rfl | he | he
    exacts [fun _ h => h, fun v hv => by simp [Ex.subs, i1 e he v hv], fun v hv => by simp [Ex.subs, i2 e he v hv]]
  | sub x y s i1 i2 =>
    intro e he
    simp only [Ex.subs, List.mem_cons, List.mem_append] at he
    rcases he with rfl | he | he
    exacts [fun _ h => h, fun v hv => by simp [Ex.subs, i1 e he v hv], fun v hv => by simp [Ex.subs, i2 e he v hv]]
  | mul x y s i1 i2 =>
    intro e he
    simp only [Ex.subs, List.mem_cons, List.mem_append] at he
    rcases he with rfl | he | he
    exacts [fun _ h => h, fun v hv => by simp [Ex.subs, i1 e he v hv], fun v hv => by simp [Ex.subs, i2 e he v hv]]
  | call2 f x y s i1 i2 =>
    intro e he
    simp only [Ex.subs, List.mem_cons, List.mem_append] at he
    rcases he with rfl | he | he
    exacts [fun _ h => h, fun v hv => by simp [Ex.subs, i1 e he v hv], fun v hv => by simp [Ex.subs, i2 e he v hv]]
  | call3 f x y z s i1 i2 i3 =>
    intro e he
    simp only [Ex.subs, List.mem_cons, List.mem_append] at he
    rcases he with rfl | (he | he) | he
    exacts [fun _ h => h, fun v hv => by simp [Ex.subs, i1 e he v hv], fun v hv => by simp [Ex.subs, i2 e he v hv],
      fun v hv => by simp [Ex.subs, i3 e he v hv]]

end

end Mandelbrot.Sym
