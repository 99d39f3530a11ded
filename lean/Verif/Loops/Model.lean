import Verif.Basic
import Mathlib.Logic.Function.Basic
import Mathlib.Data.List.Basic
import Mathlib.Data.Finset.Defs

/-!
# Model of /repo/loops.h and /repo/loops.cc
-/

namespace Mandelbrot

/-- The conversion `int(n)` of a 64-bit value: reduction modulo `2^32` to the range of `int`. -/
def toInt32 (n : ℤ) : ℤ := (n + 2 ^ 31) % 2 ^ 32 - 2 ^ 31

/-- /repo/loops.cc 10-17 `partition_loop`.  `unsigned(thread) < unsigned(threads)` is `0 ≤ thread < threads`
for `threads > 0`. -/
def partitionLoop (steps threads thread : ℤ) : Res (ℤ × ℤ) := do
  slowAssert (threads > 0 ∧ (0 ≤ thread ∧ thread < threads) ∧ steps ≥ 0)
  let steps_per_thread := steps / threads
  let extra_steps := steps % threads
  let start := steps_per_thread * thread + min extra_steps thread
  let «end» := start + steps_per_thread + (if thread < extra_steps then 1 else 0)
  return (start, «end»)

/-! ## Loop kernels -/

/-- /repo/loops.h 42-50: the indices the host version of a `DEF_LOOP` function visits, in order;
the 64-bit size is converted to `int`. -/
def hostLoop (n : ℤ) : List ℤ :=
  if n = 0 then [] else (List.range (toInt32 n).toNat).map (fun i : ℕ => (i : ℤ))

/-- /repo/loops.h 26-30: the `for` loop of one device thread; `fuel` bounds the iterations, `none` is
overflow of the `int` index. -/
def strideFrom (n stride : ℤ) : ℕ → ℤ → Option (List ℤ)
  | 0, _ => some []
  | fuel + 1, i =>
    if i < n then
      if i + stride < 2 ^ 31 then (strideFrom n stride fuel (i + stride)).map (i :: ·) else none
    else some []

/-- /repo/loops.h 20-35: the indices visited by device thread `t` of `blockDim * gridDim`, where
`t = blockIdx * blockDim + threadIdx`.  The number of iterations is less than the loop size, so the fuel
`n` suffices. -/
def deviceLoop (n blockDim gridDim blockIdx threadIdx : ℤ) : Option (List ℤ) :=
  if n = 0 then some [] else
    strideFrom (toInt32 n) (blockDim * gridDim) (toInt32 n).toNat (blockIdx * blockDim + threadIdx)

/-! ## map_reduce -/

/-- Where a thread of the parallel region is (/repo/loops.h 79-96). -/
inductive MRPc
  /-- before line 81 -/
  | start
  /-- line 87, holding the lock of the critical section -/
  | inCritical
  /-- line 88, about to release the lock -/
  | leaving
  /-- line 89, about to form the reference `p` -/
  | getRef
  /-- line 90, with the allocation `p` refers to and the loop index -/
  | loop (alloc : ℕ) (i : ℤ)
  | done
  deriving DecidableEq

/-- Shared state of `map_reduce`: the vector (with a number that identifies its allocation), the lock of
the critical section, and the threads' program counters. -/
structure MRState (Y : Type) where
  alloc : ℕ
  partials : List (Option Y)
  lock : Option ℕ
  pc : ℕ → MRPc

namespace MRState

variable {Y : Type}

/-- Before the parallel region (/repo/loops.h 78). -/
def init : MRState Y := ⟨0, [], none, fun _ => .start⟩

/-- `std::vector::resize(threads)`: same size does nothing, growing moves to a new allocation. -/
def resize (s : MRState Y) (threads : ℕ) : MRState Y :=
  if s.partials.length = threads then s
  else if s.partials.length < threads then
    { s with
      alloc := s.alloc + 1
      partials := s.partials ++ List.replicate (threads - s.partials.length) none }
  else { s with partials := s.partials.take threads }

/-- One step of thread `t` (/repo/loops.h 79-96).  `none`: the thread cannot move (it is done, or waits for
the lock). -/
def step (reduce : Y → Y → Y) (map : ℤ → Y) (n : ℤ) (threads : ℕ) (s : MRState Y) (t : ℕ) :
    Option (Res (MRState Y)) :=
  match partitionLoop n threads t with
  | .error e => some (.error e)
  | .ok (start, «end») =>
    match s.pc t with
    | .start =>
      if start < «end» then
        if s.lock = none then
          some (.ok { s with lock := some t, pc := Function.update s.pc t .inCritical })
        else none
      else some (.ok { s with pc := Function.update s.pc t .done })
    | .inCritical =>
      let s := s.resize threads
      some (.ok { s with pc := Function.update s.pc t .leaving })
    | .leaving => some (.ok { s with lock := none, pc := Function.update s.pc t .getRef })
    | .getRef =>
      if t < s.partials.length then
        some (.ok { s with pc := Function.update s.pc t (.loop s.alloc start) })
      else some (.error .ub)
    | .loop a i =>
      if i < «end» then
        if a = s.alloc then
          let fx := map i
          if i = start then
            some (.ok { s with
              partials := s.partials.set t (some fx)
              pc := Function.update s.pc t (.loop a (i + 1)) })
          else
            match s.partials[t]? with
            | some (some p) => some (.ok { s with
                partials := s.partials.set t (some (reduce p fx))
                pc := Function.update s.pc t (.loop a (i + 1)) })
            | _ => some (.error .ub)
        else some (.error .ub)
      else some (.ok { s with pc := Function.update s.pc t .done })
    | .done => none

/-- A schedule: the threads in the order in which they take steps. -/
inductive Steps (reduce : Y → Y → Y) (map : ℤ → Y) (n : ℤ) (threads : ℕ) :
    MRState Y → Res (MRState Y) → Prop
  | refl (s : MRState Y) : Steps reduce map n threads s (.ok s)
  | tail {s s' : MRState Y} {r : Res (MRState Y)} {t : ℕ} :
    Steps reduce map n threads s (.ok s') → t < threads → step reduce map n threads s' t = some r →
    Steps reduce map n threads s r

/-- /repo/loops.h 97-99: after the parallel region. -/
def finish (reduce : Y → Y → Y) (s : MRState Y) (y : Y) : Y :=
  s.partials.foldl (fun y t => match t with | some t => reduce y t | none => y) y

end MRState

end Mandelbrot
