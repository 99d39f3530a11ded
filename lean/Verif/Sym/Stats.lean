import Verif.Sym.Block

/-!
# Model of the operation counts of a block (/repo/exp.cc 249-284, /repo/codelets.cc 116-126, 162-178)
-/

namespace Mandelbrot.Sym

open Sig (Sg)

/-- /repo/exp.h 68-72 `Stats`; the counts are `int` there, here they are unbounded. -/
structure Stats where
  negs : ℕ := 0
  adds : ℕ := 0
  muls : ℕ := 0
  calls : ℕ := 0
  others : ℕ := 0
  deriving DecidableEq

/-- /repo/exp.cc 249-267 `Stats::add`. -/
def Stats.add (s : Stats) : Ex → Stats
  | .var _ _ => s
  | .int _ => s
  | .field _ _ _ => s
  | .neg _ _ => { s with negs := s.negs + 1 }
  | .add _ _ _ => { s with adds := s.adds + 1 }
  | .sub _ _ _ => { s with adds := s.adds + 1 }
  | .mul _ _ _ => { s with muls := s.muls + 1 }
  | .div _ _ _ => { s with others := s.others + 1 }
  | .call1 _ _ _ => { s with calls := s.calls + 1 }
  | .call2 _ _ _ _ => { s with calls := s.calls + 1 }
  | .call3 _ _ _ _ _ => { s with calls := s.calls + 1 }
  | .other _ _ _ => s

/-- A block with its counts (/repo/codelets.cc 116). -/
structure SBlk where
  blk : Blk
  stats : Stats

/-- /repo/codelets.cc 163-177: `compute` around the computation `k` of the arguments; line 172 counts. -/
def SBlk.around (C : Cfg) (x : Ex) (B : SBlk) (k : Res (Ex × SBlk)) : Res (Ex × SBlk) :=
  match B.blk.lets (x.sig C) with
  | some v => .ok (v, B)
  | none =>
    if B.blk.counts (x.sig C) = 0 then .error .assertion
    else match k with
      | .error e => .error e
      | .ok (y, B) =>
        let r := B.blk.finish C x y
        .ok (r.1, ⟨r.2, B.stats.add y⟩)

/-- /repo/codelets.cc 162-178 `compute`, with the counts. -/
def computeS (C : Cfg) : Ex → SBlk → Res (Ex × SBlk)
  | .var v s, B => B.around C (.var v s) (.ok (.var v s, B))
  | .int n, B => B.around C (.int n) (.ok (.int n, B))
  | .field x f s, B => B.around C (.field x f s) (do
      let (x, B) ← computeS C x B
      return (.field x f s, B))
  | .neg x s, B => B.around C (.neg x s) (do
      let (x, B) ← computeS C x B
      return (.neg x s, B))
  | .add x y s, B => B.around C (.add x y s) (do
      let (x, B) ← computeS C x B
      let (y, B) ← computeS C y B
      return (.add x y s, B))
  | .sub x y s, B => B.around C (.sub x y s) (do
      let (x, B) ← computeS C x B
      let (y, B) ← computeS C y B
      return (.sub x y s, B))
  | .mul x y s, B => B.around C (.mul x y s) (do
      let (x, B) ← computeS C x B
      let (y, B) ← computeS C y B
      return (.mul x y s, B))
  | .div x a s, B => B.around C (.div x a s) (do
      let (x, B) ← computeS C x B
      return (.div x a s, B))
  | .call1 f x s, B => B.around C (.call1 f x s) (do
      let (x, B) ← computeS C x B
      return (.call1 f x s, B))
  | .call2 f x y s, B => B.around C (.call2 f x y s) (do
      let (x, B) ← computeS C x B
      let (y, B) ← computeS C y B
      return (.call2 f x y s, B))
  | .call3 f x y z s, B => B.around C (.call3 f x y z s) (do
      let (x, B) ← computeS C x B
      let (y, B) ← computeS C y B
      let (z, B) ← computeS C z B
      return (.call3 f x y z s, B))
  | .other t p s, B => B.around C (.other t p s) (.ok (.other t p s, B))

/-- One action, with the counts. -/
def Act.execS (C : Cfg) (B : SBlk) : Act → Res SBlk
  | .input v => do
    let b ← B.blk.input v
    return ⟨b, B.stats⟩
  | .use x => .ok ⟨B.blk.use C x, B.stats⟩
  | .out x => match computeS C x B with
    | .error e => .error e
    | .ok (y, B) => .ok ⟨{ B.blk with code := B.blk.code ++ [.out y] }, B.stats⟩

/-- A sequence of actions, with the counts. -/
def runActsS (C : Cfg) : List Act → SBlk → Res SBlk
  | [], B => .ok B
  | a :: l, B => match a.execS C B with
    | .error e => .error e
    | .ok B => runActsS C l B

/-- /repo/join.h 7-15 `join`. -/
def joinText (sep : String) (ss : List String) : String :=
  ss.foldl (fun j s => (if j.length ≠ 0 then j ++ sep else j) ++ s) ""

/-- /repo/exp.cc 272-275: the term of one kind of operation. -/
def statsTerm (name : String) (n : ℕ) : List String :=
  if n ≠ 0 then [toString n ++ " " ++ name ++ (if n = 1 then "" else "s")] else []

/-- /repo/exp.cc 269-280 `Stats::show`. -/
def Stats.show (s : Stats) : String :=
  let total := s.adds + s.muls + s.negs + s.calls + s.others
  let terms := statsTerm "add" s.adds ++ statsTerm "mul" s.muls ++ statsTerm "neg" s.negs ++ statsTerm "call" s.calls ++
    statsTerm "other" s.others
  toString total ++ " op" ++ (if total = 1 then "" else "s") ++ " = " ++ joinText " + " terms

/-- /repo/codelets.cc 126: the last line of a block. -/
def SBlk.closing (B : SBlk) : String := "// " ++ B.stats.show

end Mandelbrot.Sym
