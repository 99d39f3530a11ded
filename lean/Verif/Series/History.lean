import Verif.Series.Codelet

/-!
# Histories of operations on a collection of series

The state is an unbounded family of named series; a view is treated as one more series (it holds a copy of
the cells it would refer to, see `Verif/Series/Model.lean`).
-/

namespace Mandelbrot

/-- The public operations on series (/repo/series.h 77-239 and the expression functions 263-646);
natural numbers name series, the first is the destination. -/
inductive SerOp (K : Type)
  | construct (i : ℕ) (limit : ℤ) (junk : ℕ → K)
  | constructList (i : ℕ) (limit : ℤ) (junk : ℕ → K) (cs : List K)
  | move (i j : ℕ)
  | swap (i j : ℕ)
  | clear (i : ℕ)
  | setScalar (i : ℕ) (known : ℤ) (a : K)
  | assign (i j : ℕ)
  | setUnknown (i : ℕ)
  | setCounts (i : ℕ) (known nonzero : ℤ)
  | setKnown (i : ℕ) (known : ℤ)
  | reduceKnown (i : ℕ) (known : ℤ)
  | copy (i j : ℕ) (limit : ℤ) (junk : ℕ → K)
  | view (i j : ℕ)
  | low (i j : ℕ) (n : ℤ)
  | high (i j : ℕ) (n : ℤ)
  | addScalar (i : ℕ) (a : K)
  | addsub (i : ℕ) (sign b s : ℤ) (j : ℕ)
  | neg (i j : ℕ)
  | mul (i j k : ℕ)
  | mul1p (i j k : ℕ) (s : ℤ)
  | sqr (i j : ℕ)
  | inv (i j : ℕ)
  | inv1p (i j : ℕ) (s : ℤ)
  | div (i j k : ℕ)
  | div1p (i j k : ℕ) (s : ℤ)
  | derivativeShift (i j : ℕ) (s : ℤ)
  | integralShift (i j : ℕ) (s : ℤ)
  | log (i j : ℕ)
  | log1p (i j : ℕ) (s : ℤ)
  | exp (i j : ℕ)
  | expm1 (i j : ℕ) (a s : ℤ)
  | log1pExp (i j : ℕ) (s : ℤ)
  | ldexp (i j : ℕ) (b : ℤ)

/-- The integer arguments of an operation are `int64_t`s; `set_counts` is called with `known ≥ 0`, and
shifted addition with a shift `≥ 0`. -/
def SerOp.Valid {K : Type} : SerOp K → Prop
  | .construct _ limit _ | .constructList _ limit _ _ | .copy _ _ limit _ => limit < 2 ^ 63
  | .setScalar _ known _ | .setKnown _ known => known < 2 ^ 63
  | .setCounts _ known nonzero => 0 ≤ known ∧ known < 2 ^ 63 ∧ -2 ^ 63 ≤ nonzero
  | .addsub _ _ _ s _ => 0 ≤ s
  | _ => True

namespace Ser

variable {K : Type}

/-- /repo/series.h 79-86: construction from a list of coefficients. -/
def ofList (limit : ℤ) (junk : ℕ → K) (cs : List K) : Res (Ser K) := do
  let x := new limit junk
  slowAssert ((cs.length : ℤ) ≤ x.limit)
  return { x with
    known := cs.length
    nonzero := cs.length
    data := fun i => cs.getD i (x.data i) }

/-- /repo/series.h 96 `clear`, and what is left behind by the move constructor (92-94,
/repo/array.h 45). -/
def cleared (x : Ser K) : Ser K := { x with limit := 0, known := 0, nonzero := 0 }

variable [Zero K] [One K] [Add K] [Sub K] [Neg K] [Mul K] [Div K] [IntCast K] [Ldexp K]
  [DecidableEq K]

/-- One operation; `.error` when it throws. -/
def step (ker : Ker K) (J : Junk K) (σ : ℕ → Ser K) : SerOp K → Res (ℕ → Ser K)
  | .construct i limit junk => .ok (Function.update σ i (new limit junk))
  | .constructList i limit junk cs => (ofList limit junk cs).map (Function.update σ i)
  | .move i j => .ok (Function.update (Function.update σ j (σ j).cleared) i (σ j))
  | .swap i j => .ok (Function.update (Function.update σ i (σ j)) j (σ i))
  | .clear i => .ok (Function.update σ i (σ i).cleared)
  | .setScalar i known a => ((σ i).setScalar known a).map (Function.update σ i)
  | .assign i j => ((σ i).assign (σ j)).map (Function.update σ i)
  | .setUnknown i => .ok (Function.update σ i (σ i).setUnknown)
  | .setCounts i known nonzero => ((σ i).setCounts known nonzero).map (Function.update σ i)
  | .setKnown i known => ((σ i).setKnown known).map (Function.update σ i)
  | .reduceKnown i known => ((σ i).reduceKnown known).map (Function.update σ i)
  | .copy i j limit junk => ((σ j).copy limit junk).map (Function.update σ i)
  | .view i j => .ok (Function.update σ i (σ j).view)
  | .low i j n => .ok (Function.update σ i ((σ j).low n))
  | .high i j n => .ok (Function.update σ i ((σ j).high n))
  | .addScalar i a => ((σ i).addScalar a).map (Function.update σ i)
  | .addsub i sign b s j => ((σ i).highAddsubLdexp sign b s (σ j)).map (Function.update σ i)
  | .neg i j => (Ser.neg (σ i) (σ j)).map (Function.update σ i)
  | .mul i j k => (Ser.mul ker (σ i) (σ j) (σ k)).map (Function.update σ i)
  | .mul1p i j k s => (Ser.mul1p ker (σ i) (σ j) (σ k) s).map (Function.update σ i)
  | .sqr i j => (Ser.sqr ker (σ i) (σ j)).map (Function.update σ i)
  | .inv i j => (Ser.inv ker J (σ i) (σ j)).map (Function.update σ i)
  | .inv1p i j s => (Ser.inv1p ker J (σ i) (σ j) s).map (Function.update σ i)
  | .div i j k => (Ser.div ker J (σ i) (σ j) (σ k)).map (Function.update σ i)
  | .div1p i j k s => (Ser.div1p ker J (σ i) (σ j) (σ k) s).map (Function.update σ i)
  | .derivativeShift i j s => (Ser.derivativeShift (σ i) (σ j) s).map (Function.update σ i)
  | .integralShift i j s => (Ser.integralShift (σ i) (σ j) s).map (Function.update σ i)
  | .log i j => (Ser.log ker J (σ i) (σ j)).map (Function.update σ i)
  | .log1p i j s => (Ser.log1p ker J (σ i) (σ j) s).map (Function.update σ i)
  | .exp i j => (Ser.exp ker J (σ i) (σ j)).map (Function.update σ i)
  | .expm1 i j a s => (Ser.expm1 ker J (σ i) (σ j) a s).map (Function.update σ i)
  | .log1pExp i j s => (Ser.log1pExp ker J (σ i) (σ j) s).map (Function.update σ i)
  | .ldexp i j b => (Ser.ldexpSer (σ i) (σ j) b).map (Function.update σ i)

/-- A history: each operation with its own fresh memory contents. -/
def run (ker : Ker K) (σ : ℕ → Ser K) : List (Junk K × SerOp K) → Res (ℕ → Ser K)
  | [] => .ok σ
  | (J, op) :: ops => do
    let σ ← step ker J σ op
    run ker σ ops

end Ser

end Mandelbrot
