import Verif.Arb.Model

/-!
# Model of /repo/arb_area.cc

The interval version of the area program.  Printing is reduced to the list of the areas printed; timing is left out.
-/

namespace Mandelbrot

namespace ArbPoly

variable {B : Type} (A : Arb B)

/-- /repo/arb_area.cc 16-27 `poly_linear_sub_si_2exp`: `a P - 2^l Q`. -/
def linearSub (a : ℤ) (P : List B) (l : ℤ) (Q : List B) : List B :=
  (List.range (max P.length Q.length)).map fun i =>
    A.addmulSi (A.neg (A.mul2exp (get A Q i) l)) (get A P i) a

/-- /repo/arb_area.cc 42-55, one pass of the loop of `escape` with index `i`.  The state is `(h, dh)`.  `1 << i` or
`1 - p` is undefined in `int` from `i = 31` on.  `u` is a separate variable, so the call of `poly_sub_shift_series` does not
alias. -/
def escapeStep (skip : Bool) (g dg : List B) (n dn : ℤ) (i : ℕ) (st : List B × List B) : Res (List B × List B) :=
  if i ≥ 31 then .error .ub
  else do
    let p : ℤ := 2 ^ i
    let t := linearSub A (1 - p) g i st.1
    let dt := linearSub A (1 - p) dg i st.2
    let s ← log1pExpShift A skip t (p - 1) (n - (p - 1))
    let u ← subShift A false false [] t s (p - 1) (dn - (p - 1))
    let t ← expRefine A skip u (dn - (p - 1))
    let ds := safeMullow A t dt (dn - (p - 1))
    let s := A.scalar2exp s (-i)
    let ds := A.scalar2exp ds (-i)
    let h ← addShift A true false st.1 st.1 s (p - 1) n
    let dh ← addShift A true false st.2 st.2 ds (p - 1) dn
    return (h, dh)

/-- /repo/arb_area.cc 30-57 `escape`; returns `(h, dh)`. -/
def escape (skip : Bool) (g dg : List B) (n dn : ℤ) : ℕ → Res (List B × List B)
  | 0 => return ([], [])
  | k + 1 => do
    let st ← escape skip g dg n dn k
    escapeStep A skip g dg n dn (k + 1) st

/-- /repo/arb_area.cc 60-65 `implicit`; returns `(F, dF)`. -/
def implicit (skip : Bool) (k : ℕ) (g dg : List B) (n dn : ℤ) : Res (List B × List B) := do
  let st ← escape A skip g dg n dn k
  return (A.addSeries st.1 g n.toNat, A.addSeries st.2 dg dn.toNat)

/-- /repo/arb_area.cc 67-79 `area`. -/
def area (f : List B) : B :=
  A.mul ((List.range f.length).foldl (fun mu i => A.addmulSi mu (A.sqr (get A f i)) (1 - (i : ℤ))) A.zero) A.pi

/-- /repo/arb_area.cc 96-116: the new `g` of one pass. -/
def newG (skip : Bool) (k : ℕ) (refine : Bool) (g : List B) : Res (List B) :=
  if k ≥ 31 then .error .ub
  else
    let p : ℕ := 2 ^ k
    let dp := if refine then p else p / 2
    let dg := [A.one]
    if refine then do
      let g0 := polyMid A g
      let (F, _) ← implicit A skip k g0 dg p 0
      let (_, dF) ← implicit A skip k g dg p p
      let F ← divRefine A skip F dF p
      intersectSub A g g0 F p
    else do
      let (F, dF) ← implicit A skip k g dg p dp
      assertLowZero A F dp
      let F := shiftRight F dp
      let F ← divRefine A skip F dF dp
      let F := shiftLeft A F dp
      return A.subSeries g F p

/-- /repo/arb_area.cc 94-137: one pass of the inner loop; returns the new `g` and the area. -/
def pass (skip : Bool) (k : ℕ) (refine : Bool) (g : List B) : Res (List B × B) := do
  let g ← newG A skip k refine g
  let f ← expRefine A skip g ((2 : ℤ) ^ k)
  return (g, area A f)

/-- The assertion of lines 131-136; `known k` is the entry of the table for `k`, if there is one. -/
def accept (known : ℕ → Option B) (k : ℕ) (mu : B) : Bool :=
  match known k with
  | none => true
  | some b => A.overlaps mu b

/-- /repo/arb_area.cc 91-139: what is printed, and how the run ends. -/
def arbAreasFrom (skip : Bool) (known : ℕ → Option B) : ℕ → ℕ → List B → List B × Res (List B)
  | 0, _, g => ([], .ok g)
  | c + 1, k, g =>
    match pass A skip k false g with
    | .error e => ([], .error e)
    | .ok (g1, mu1) =>
      if accept A known k mu1 = false then ([mu1], .error .assertion)
      else match pass A skip k true g1 with
        | .error e => ([mu1], .error e)
        | .ok (g2, mu2) =>
          if accept A known k mu2 = false then ([mu1, mu2], .error .assertion)
          else
            let r := arbAreasFrom skip known c (k + 1) g2
            (mu1 :: mu2 :: r.1, r.2)

/-- /repo/arb_area.cc 81-140 `arb_areas`. -/
def arbAreas (skip : Bool) (known : ℕ → Option B) (maxK : ℕ) : List B × Res (List B) :=
  arbAreasFrom A skip known maxK 1 []

end ArbPoly

end Mandelbrot
