import Verif.Basic
import Mathlib.Logic.Function.Basic

/-!
# Model of the storage of `Array` and `Series`: construction, moves, swaps, views, freeing

The heap is a map from addresses to live blocks.  Objects (`Array`, `Series`) and views (`span`, `SeriesView`) are
named by numbers; a name is bound while the object is within its lifetime.  Every use of a dead block, of a name out
of its lifetime, of an uninitialised or out of range element is `Err.ub`.

Simplified: one element type; element sizes and the overflow of `size_ * sizeof(T)` are left out; on the device
`cudaMallocAsync`/`cudaFreeAsync` are commands in the one stream, whose order is that of the host
(`Verif/Device/Model.lean`), so the same model reads on both sides.  An
address is never given out twice: a pointer into a freed block stays distinct from pointers into later blocks, as in
the C++ abstract machine.
-/

namespace Mandelbrot.Storage

/-- A live block: number of elements and elements (`none`: uninitialised). -/
structure Block (V : Type) where
  size : ℕ
  cells : ℕ → Option V

/-- /repo/array.h 31-32 (`size_`, `x`) and /repo/series.h 69-70 (`known_`, `nonzero_`). -/
structure Obj where
  size : ℕ
  ptr : Option ℕ
  known : ℤ
  nonzero : ℤ
  deriving DecidableEq

/-- A span: address of a block (or null), offset of the first element, length
(/repo/array.h 51, /repo/series.h 190-226). -/
structure View where
  base : Option ℕ
  off : ℕ
  len : ℕ
  deriving DecidableEq

/-- The state: live blocks, next fresh address, addresses freed so far (last first), objects and views. -/
structure St (V : Type) where
  live : ℕ → Option (Block V)
  next : ℕ
  freed : List ℕ
  objs : ℕ → Option Obj
  views : ℕ → Option View

/-- Nothing allocated, no object. -/
def St.init {V : Type} : St V := ⟨fun _ => none, 0, [], fun _ => none, fun _ => none⟩

/-- How elements are allocated (/repo/array.h 40-41): `malloc` for trivially destructible elements, which may give
null; `new T[n]` otherwise, which constructs the elements and may throw `bad_alloc`.  `cudaMallocAsync` with
`cuda_check` (line 39) behaves as the second without the construction; it is left out. -/
inductive Kind (V : Type)
  | raw
  | built (x : V)

/-- The initial elements. -/
def Kind.cells {V : Type} : Kind V → ℕ → Option V
  | .raw, _ => none
  | .built x, _ => some x

/-- What client code does.  `mem` says whether the allocator has memory. -/
inductive Op (V : Type)
  | make (v : ℕ) (limit : ℤ) (k : Kind V) (mem : Bool)
  | move (v w : ℕ)
  | swap (v w : ℕ)
  | clear (v : ℕ)
  | destroy (v : ℕ)
  | counts (v : ℕ) (known nonzero : ℤ)
  | info (v : ℕ)
  | read (v i : ℕ)
  | write (v i : ℕ) (x : V)
  | view (u v off len : ℕ)
  | readView (u i : ℕ)
  | writeView (u i : ℕ) (x : V)

/-- What the client sees of one operation. -/
inductive Out (V : Type)
  | done
  | threw
  | val (x : V)
  /-- `size()` of the array, `known()`, `nonzero()`, and whether `data()` is not null. -/
  | info (size : ℕ) (known nonzero : ℤ) (data : Bool)
  deriving DecidableEq

variable {V : Type}

/-- Lookup of a name within its lifetime; anything else is undefined behaviour. -/
def need {α : Type} : Option α → Res α
  | some a => .ok a
  | none => .error .ub

/-- /repo/array.h 25-30 `Deleter`: nothing for null, otherwise `free(p)` (`delete[]`, `cudaFreeAsync`); freeing a
block that is not live is undefined. -/
def release (st : St V) : Option ℕ → Res (St V)
  | none => .ok st
  | some a => do
    let _ ← need (st.live a)
    .ok { st with live := Function.update st.live a none, freed := a :: st.freed }

/-- `data()[i]` for reading. -/
def load (st : St V) (p : Option ℕ) (i : ℕ) : Res V := do
  let a ← need p
  let b ← need (st.live a)
  if i < b.size then need (b.cells i) else .error .ub

/-- `data()[i] = x`. -/
def store (st : St V) (p : Option ℕ) (i : ℕ) (x : V) : Res (St V) := do
  let a ← need p
  let b ← need (st.live a)
  if i < b.size then
    .ok { st with live := Function.update st.live a (some ⟨b.size, Function.update b.cells i (some x)⟩) }
  else .error .ub

/-- `p` binds name `v` to object `o`. -/
def St.set (st : St V) (v : ℕ) (o : Option Obj) : St V := { st with objs := Function.update st.objs v o }

/-- One operation of the client. -/
def exec (st : St V) : Op V → Res (St V × Out V)
  -- /repo/array.h 35-44, /repo/series.h 76-77
  | .make v limit k mem =>
    match st.objs v with
    | some _ => .error .ub
    | none =>
      let size := (relu limit).toNat
      if size = 0 then .ok (st.set v (some ⟨0, none, 0, 0⟩), .done)
      else if mem then
        .ok ({ (st.set v (some ⟨size, some st.next, 0, 0⟩)) with
          live := Function.update st.live st.next (some ⟨size, k.cells⟩), next := st.next + 1 }, .done)
      else match k with
        | .raw => .ok (st.set v (some ⟨size, none, 0, 0⟩), .done)
        | .built _ => .ok (st, .threw)
  -- /repo/array.h 45, /repo/series.h 92-94
  | .move v w =>
    match st.objs v with
    | some _ => .error .ub
    | none => do
      let g ← need (st.objs w)
      .ok ((st.set v (some g)).set w (some ⟨0, none, 0, 0⟩), .done)
  -- /repo/array.h 55, /repo/series.h 124-128
  | .swap v w => do
    let f ← need (st.objs v)
    let g ← need (st.objs w)
    .ok ((st.set v (some g)).set w (some f), .done)
  -- /repo/array.h 56, /repo/series.h 96
  | .clear v => do
    let f ← need (st.objs v)
    let st ← release st f.ptr
    .ok (st.set v (some ⟨0, none, 0, 0⟩), .done)
  -- /repo/series.h 95 `~Series() = default`: the destructor of `unique_ptr` calls the deleter
  | .destroy v => do
    let f ← need (st.objs v)
    let st ← release st f.ptr
    .ok (st.set v none, .done)
  -- /repo/series.h 166-181 `set_counts`, `set_known`, `reduce_known`; their checks are modelled in `Verif/Series/Model.lean`
  | .counts v known nonzero => do
    let f ← need (st.objs v)
    .ok (st.set v (some { f with known := known, nonzero := nonzero }), .done)
  -- /repo/array.h 47-48, /repo/series.h 135-136
  | .info v => do
    let f ← need (st.objs v)
    .ok (st, .info f.size f.known f.nonzero f.ptr.isSome)
  -- /repo/array.h 49
  | .read v i => do
    let f ← need (st.objs v)
    let x ← load st f.ptr i
    .ok (st, .val x)
  | .write v i x => do
    let f ← need (st.objs v)
    let st ← store st f.ptr i x
    .ok (st, .done)
  -- /repo/array.h 51-53, /repo/series.h 190-226: a pointer into the block and a length
  | .view u v off len => do
    let f ← need (st.objs v)
    if off + len ≤ f.size ∧ (f.ptr = none → off = 0) then
      .ok ({ st with views := Function.update st.views u (some ⟨f.ptr, off, len⟩) }, .done)
    else .error .ub
  | .readView u i => do
    let w ← need (st.views u)
    if i < w.len then do
      let x ← load st w.base (w.off + i)
      .ok (st, .val x)
    else .error .ub
  | .writeView u i x => do
    let w ← need (st.views u)
    if i < w.len then do
      let st ← store st w.base (w.off + i) x
      .ok (st, .done)
    else .error .ub

/-- A program of the client. -/
def run (st : St V) : List (Op V) → Res (St V × List (Out V))
  | [] => .ok (st, [])
  | o :: os => do
    let (st, r) ← exec st o
    let (st, rs) ← run st os
    .ok (st, r :: rs)

end Mandelbrot.Storage
