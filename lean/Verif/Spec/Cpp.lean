import Mathlib.Algebra.Ring.Defs
import Mathlib.Data.Int.Cast.Lemmas

/-!
# How a C++ compiler reads an expression

A part of the C++ grammar, independent of the code generator: characters to tokens by the longest match, tokens to a tree by the
grammar of [expr], and the value of a tree, in which literals are of type `int`.

What is left out: comments, strings, character literals, punctuators of three characters, keywords, and the operators of lower
precedence than `+`.  The only name that is taken as a template is `constant`.
-/

namespace Mandelbrot.Cpp

/-- Identifiers, numbers (preprocessing numbers of the standard), and punctuators of one and of two characters. -/
inductive Tok where
  | id (s : List Char)
  | num (s : List Char)
  | p (c : Char)
  | op (c d : Char)
deriving DecidableEq

def idStart (c : Char) : Bool := c.isAlpha || c = '_'
def idChar (c : Char) : Bool := c.isAlphanum || c = '_'

/-- The punctuators of two characters. -/
def joins (c d : Char) : Bool :=
  (c, d) ∈ [('-', '-'), ('-', '='), ('-', '>'), ('+', '+'), ('+', '='), ('*', '='), ('/', '='), ('/', '/'), ('/', '*'), ('<', '<'),
    ('<', '='), ('>', '>'), ('>', '='), ('=', '='), ('!', '='), ('&', '&'), ('&', '='), ('|', '|'), ('|', '='), ('^', '='), ('%', '='),
    (':', ':'), ('#', '#')]

/-- What has been read of the current token. -/
inductive St where
  | none
  | word (w : List Char)
  | number (w : List Char)
  | punc (c : Char)

/-- The first character of a token. -/
def first (c : Char) : St :=
  if c = ' ' then .none else if idStart c then .word [c] else if c.isDigit then .number [c] else .punc c

/-- One more character of a number: also a sign after an exponent letter. -/
def inNumber (w : List Char) (c : Char) : Bool :=
  idChar c || c = '.' || ((c = '+' || c = '-') && (w.getLast? ∈ [some 'e', some 'E', some 'p', some 'P']))

/-- One character: the tokens completed and the new state. -/
def step : St → Char → List Tok × St
  | .none, c => ([], first c)
  | .word w, c => if idChar c then ([], .word (w ++ [c])) else ([.id w], first c)
  | .number w, c => if inNumber w c then ([], .number (w ++ [c])) else ([.num w], first c)
  | .punc c, d =>
    if joins c d then ([.op c d], .none) else if c = '.' ∧ d.isDigit then ([], .number [c, d]) else ([.p c], first d)

/-- The last token. -/
def flush : St → List Tok
  | .none => []
  | .word w => [.id w]
  | .number w => [.num w]
  | .punc c => [.p c]

/-- The tokens of a text. -/
def lex : St → List Char → List Tok
  | st, [] => flush st
  | st, c :: s => (step st c).1 ++ lex (step st c).2 s

/-- Expressions. -/
inductive Tree where
  | id (s : List Char)
  | tmpl (s t : List Char)
  | num (s : List Char)
  | neg (t : Tree)
  | bin (c : Char) (t u : Tree)
  | field (t : Tree) (f : List Char)
  | call (t : Tree) (args : List Tree)
  | index (t u : Tree)

mutual
/-- additive-expression: a multiplicative-expression and what follows. -/
def pAdd : ℕ → List Tok → Option (Tree × List Tok)
  | 0, _ => none
  | n + 1, ts => do
    let (t, r) ← pMul n ts
    pAddRest n t r

/-- The following summands, from left to right. -/
def pAddRest : ℕ → Tree → List Tok → Option (Tree × List Tok)
  | 0, _, _ => none
  | n + 1, t, ts =>
    match ts with
    | .p c :: ts' =>
      if c = '+' ∨ c = '-' then do
        let (u, r) ← pMul n ts'
        pAddRest n (.bin c t u) r
      else some (t, ts)
    | _ => some (t, ts)

/-- multiplicative-expression. -/
def pMul : ℕ → List Tok → Option (Tree × List Tok)
  | 0, _ => none
  | n + 1, ts => do
    let (t, r) ← pUnary n ts
    pMulRest n t r

/-- The following factors, from left to right. -/
def pMulRest : ℕ → Tree → List Tok → Option (Tree × List Tok)
  | 0, _, _ => none
  | n + 1, t, ts =>
    match ts with
    | .p c :: ts' =>
      if c = '*' ∨ c = '/' then do
        let (u, r) ← pUnary n ts'
        pMulRest n (.bin c t u) r
      else some (t, ts)
    | _ => some (t, ts)

/-- unary-expression. -/
def pUnary : ℕ → List Tok → Option (Tree × List Tok)
  | 0, _ => none
  | n + 1, ts =>
    match ts with
    | .p '-' :: ts' => do
      let (t, r) ← pUnary n ts'
      some (.neg t, r)
    | _ => pPost n ts

/-- postfix-expression: a primary-expression and what follows. -/
def pPost : ℕ → List Tok → Option (Tree × List Tok)
  | 0, _ => none
  | n + 1, ts => do
    let (t, r) ← pPrim n ts
    pPostRest n t r

/-- The following calls, members and subscripts. -/
def pPostRest : ℕ → Tree → List Tok → Option (Tree × List Tok)
  | 0, _, _ => none
  | n + 1, t, ts =>
    match ts with
    | .p '.' :: .id f :: r => pPostRest n (.field t f) r
    | .p '.' :: _ => none
    | .p '(' :: .p ')' :: r => pPostRest n (.call t []) r
    | .p '(' :: r => do
      let (as, r) ← pArgs n r
      match r with
      | .p ')' :: r => pPostRest n (.call t as) r
      | _ => none
    | .p '[' :: r => do
      let (u, r) ← pAdd n r
      match r with
      | .p ']' :: r => pPostRest n (.index t u) r
      | _ => none
    | _ => some (t, ts)

/-- primary-expression: names, numbers, parentheses. -/
def pPrim : ℕ → List Tok → Option (Tree × List Tok)
  | 0, _ => none
  | n + 1, ts =>
    match ts with
    | .id s :: r =>
      if s = "constant".toList then
        match r with
        | .p '<' :: .id t :: .p '>' :: r => some (.tmpl s t, r)
        | _ => none
      else some (.id s, r)
    | .num s :: r => some (.num s, r)
    | .p '(' :: r => do
      let (t, r) ← pAdd n r
      match r with
      | .p ')' :: r => some (t, r)
      | _ => none
    | _ => none

/-- expression-list. -/
def pArgs : ℕ → List Tok → Option (List Tree × List Tok)
  | 0, _ => none
  | n + 1, ts => do
    let (t, r) ← pAdd n ts
    match r with
    | .p ',' :: r => do
      let (as, r) ← pArgs n r
      some (t :: as, r)
    | _ => some ([t], r)
end

/-- The reading of a text in front of others: with enough depth of recursion, the parser takes the expression `t` and leaves
exactly the tokens of `r`. -/
def Reads (s r : List Char) (t : Tree) : Prop := ∃ N, ∀ n ≥ N, pAdd n (lex .none (s ++ r)) = some (t, lex .none r)

/-- A number from its decimal digits; other numbers are not integers. -/
def digitsVal (s : List Char) : Option ℕ :=
  if s.all Char.isDigit then some (s.foldl (fun n c => 10 * n + (c.toNat - '0'.toNat)) 0) else none

/-- An `int`, or a number of the type of the code. -/
inductive Val (R : Type) where
  | int (n : ℤ)
  | num (r : R)

/-- Conversion of `int` to the type of the code. -/
def Val.to {R : Type} [CommRing R] : Val R → R
  | .int n => n
  | .num r => r

/-- The values of names: variables, members, functions, constants, and division of a number by an `int`. -/
structure Lib (R : Type) where
  var : List Char → R
  field : List Char → R → R
  call : List Char → List R → R
  constant : Tree → R
  div : R → ℤ → R

/-- The result of an operation on `int`, unless it overflows. -/
def fits {R : Type} (n : ℤ) : Option (Val R) := if -2 ^ 31 ≤ n ∧ n < 2 ^ 31 then some (.int n) else none

section
variable {R : Type} [CommRing R]

/-- Binary operators: on two `int`, as for `int`, with division towards zero. -/
def binary (L : Lib R) (c : Char) : Val R → Val R → Option (Val R)
  | .int a, .int b =>
    if c = '+' then fits (a + b) else if c = '-' then fits (a - b) else if c = '*' then fits (a * b)
    else if c = '/' then (if b = 0 then none else fits (a.tdiv b)) else none
  | x, y =>
    if c = '+' then some (.num (x.to + y.to)) else if c = '-' then some (.num (x.to - y.to))
    else if c = '*' then some (.num (x.to * y.to))
    else if c = '/' then (match x, y with | .num x, .int b => some (.num (L.div x b)) | _, _ => none) else none

/-- Calls.  The functions of /repo/arith.h 14-25 and `ldexp`, where `sqr`, `half` and `ldexp` of an `int` are not defined
(ambiguous or of another type); arguments of other functions are converted. -/
def apply (L : Lib R) (f : List Char) (vs : List (Val R)) : Option (Val R) :=
  if f = "sqr".toList then match vs with | [.num x] => some (.num (x * x)) | _ => none
  else if f = "twice".toList then match vs with | [.num x] => some (.num (x + x)) | [.int n] => fits (2 * n) | _ => none
  else if f = "half".toList then match vs with | [.num x] => some (.num (L.div x 2)) | _ => none
  else if f = "ldexp".toList then
    match vs with
    | [.num x, .int n] => some (.num (if n < 0 then L.div x (2 ^ n.natAbs) else x * 2 ^ n.natAbs))
    | _ => none
  else some (.num (L.call f (vs.map Val.to)))

mutual
/-- The value of an expression, if it has one. -/
def eval (L : Lib R) : Tree → Option (Val R)
  | .id s => some (.num (L.var s))
  | .num s => match digitsVal s with | some n => fits n | none => none
  | .neg t => match eval L t with
    | some (.int n) => fits (-n)
    | some (.num r) => some (.num (-r))
    | none => none
  | .bin c t u => match eval L t, eval L u with
    | some x, some y => binary L c x y
    | _, _ => none
  | .field t f => match eval L t with
    | some (.num r) => some (.num (L.field f r))
    | _ => none
  | .call (.id f) as => match evalArgs L as with
    | some vs => apply L f vs
    | none => none
  | .call (.tmpl c s) as => some (.num (L.constant (.call (.tmpl c s) as)))
  | _ => none

/-- The values of arguments. -/
def evalArgs (L : Lib R) : List Tree → Option (List (Val R))
  | [] => some []
  | t :: ts => match eval L t, evalArgs L ts with
    | some v, some vs => some (v :: vs)
    | _, _ => none
end

end

end Mandelbrot.Cpp
