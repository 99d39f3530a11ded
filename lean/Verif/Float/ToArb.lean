import Verif.Float.Format
import Mathlib.Data.EReal.Basic

/-!
# Model of the numbers handed to ball arithmetic and reported: /repo/expansion.cc 34-56, /repo/poly.cc 23-38, /repo/area.cc 176-187

The Arb library appears as a record of operations; what it promises is stated with the theorems, in `Verif/Props/ToArb.lean`.
Components of expansions are finite.
-/

namespace Mandelbrot.Float.ToArb

/-- The operations of Arb that are used here. -/
structure Ops where
  /-- `arb_t` -/
  Ball : Type
  /-- `arb_init` -/
  zero : Ball
  /-- `arb_set_d`, and `arb_set_arf`: exact -/
  ofReal : ℝ → Ball
  /-- `arb_add` -/
  add : Ball → Ball → ℕ → Ball
  /-- `arb_sub` -/
  sub : Ball → Ball → ℕ → Ball
  /-- `bound`, /repo/arb_cc.cc 30-34: `arb_get_mag`, `mag_get_d` -/
  bound : Ball → EReal
  /-- `arb_get_lbound_arf` -/
  lbound : Ball → ℕ → EReal
  /-- `arb_get_ubound_arf` -/
  ubound : Ball → ℕ → EReal
  /-- `mag_get_d(arb_radref(x))` -/
  radius : Ball → EReal

variable (A : Ops)

/-- /repo/expansion.cc 34-41 `Expansion::arb`: the sum from the last component. -/
def arb (x : List ℝ) (prec : ℕ) : A.Ball := x.reverse.foldl (fun a t => A.add a (A.ofReal t) prec) A.zero

/-- /repo/expansion.cc 43-50 `exact_arf`: sums with `ARF_PREC_EXACT` are exact. -/
def exactArf (x : List ℝ) : ℝ := x.foldl (fun a t => a + t) 0

/-- /repo/expansion.cc 52-56 `exact_arb`. -/
def exactArb (x : List ℝ) : A.Ball := A.ofReal (exactArf x)

/-- What /repo/poly.cc 23-38 `Poly::stats` prints. -/
structure Stats where
  degree : ℤ
  lo : EReal
  hi : EReal
  radius : EReal

/-- /repo/poly.cc 31-35: the body of the loop, with `prec = 200` (line 24). -/
noncomputable def statsStep (s : EReal × EReal × EReal) (c : A.Ball) : EReal × EReal × EReal :=
  (min s.1 (A.lbound c 200), max s.2.1 (A.ubound c 200), max s.2.2 (A.radius c))

/-- /repo/poly.cc 23-38 `Poly::stats`, before formatting.  The degree of the zero polynomial is -1 (`arb_poly_degree`). -/
noncomputable def stats (P : List A.Ball) : Stats :=
  let s := P.foldl (statsStep A) (⊤, ⊥, ⊥)
  ⟨(P.length : ℤ) - 1, s.1, s.2.1, s.2.2⟩

/-- A line of /repo/known.cc 15-26, /repo/known.h 14-18. -/
structure Bittner where
  terms : ℕ
  value : ℝ

/-- A line printed by /repo/area.cc 184: `bittner`, `ours`, `error`. -/
structure Report where
  terms : ℕ
  value : ℝ
  ours : List ℝ
  error : EReal

/-- /repo/area.cc 176-187 for one pass of the loop of line 120 with `p = 2^k` terms; `area n` is the area from the first `n` terms (line
180), an expansion or one `double`. -/
def reports (table : List Bittner) (k : ℕ) (refine : Bool) (area : ℕ → List ℝ) : List Report :=
  if refine then
    (table.filter fun b => decide (2 ^ k / 2 ≤ b.terms) && decide (b.terms ≤ 2 ^ k)).map fun b =>
      ⟨b.terms, b.value, area b.terms, A.bound (A.sub (exactArb A (area b.terms)) (A.ofReal b.value) 1000)⟩
  else []

/-- The numbers of terms of /repo/known.cc 15-26. -/
def bittnerTerms : List ℕ := [500000, 1000000, 1500000, 2000000, 2500000, 3000000, 3500000, 4000000, 4500000, 5000000]

end Mandelbrot.Float.ToArb
