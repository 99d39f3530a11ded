import Verif.Series.Model

/-!
# Model of work on the device (/repo/cutil.h 40-83, /repo/cutil.cc 14-42, /repo/loops.h 32-35, 60, /repo/array.h 27, 39, /repo/series.h 660-680)

Kernels and some copies are only put into a queue by the call, and run later.  There are two streams: the default stream, to which the
loops go because their launch names no stream (/repo/loops.h 35) and which `cudaMemcpy` uses, and the one of `stream()`, to which serial
functions, copies on the device, allocations and releases go.  The rules of the library that are used: tasks of one stream run in the
order of issue; with the legacy default stream, which is what compilers choose unless told otherwise, a task of the default stream runs
after everything issued before it to streams made by `cudaStreamCreate`, and those run what is issued later after it; `cudaMemcpy`
returns when the copy is done.  A task is one step: with this order no two of them overlap.
-/

namespace Mandelbrot.Stream

/-- A task on the device: its stream, `0` being the default stream, and what it does to the memory of the device. -/
structure Job (μ : Type) where
  stream : ℕ
  act : μ → Res μ

/-- The stream of /repo/cutil.cc 30-38 `stream()`; `synchronous` is false. -/
def ours : ℕ := 1

/-- Whether a task issued to stream `b` waits for one issued before to stream `a`. -/
def mustFollow (legacy : Bool) (a b : ℕ) : Bool := a == b || (legacy && (a == 0 || b == 0))

/-- What the host asks for next.  The values that it hands over are those at the time of the call. -/
inductive Op (σ μ : Type)
  /-- work on the host -/
  | host (r : Res σ)
  /-- /repo/loops.h 35, 60, /repo/cutil.h 67-71, /repo/array.h 27, 39: a task is issued -/
  | launch (t : Job μ) (s : σ)
  /-- /repo/cutil.h 52-64: `cudaMemcpy` -/
  | copy (k : μ → Res (μ × σ))
  /-- /repo/cutil.cc 40-42 `cuda_sync`: waits for `stream()` -/
  | sync (s : σ)

/-- The host, the memory of the device and the tasks that are issued and have not run, in the order of issue; or a failure. -/
inductive Cfg (σ μ : Type)
  | running (s : σ) (m : μ) (pending : List (Job μ))
  | failed (e : Err)

/-- One step of host or device.  `P s` is what the host does in state `s`, nothing if it is finished. -/
inductive Step {σ μ : Type} (legacy : Bool) (P : σ → Option (Op σ μ)) : Cfg σ μ → Cfg σ μ → Prop
  | device {s m m' t pre post} : (∀ u ∈ pre, mustFollow legacy u.stream t.stream = false) → t.act m = .ok m' →
      Step legacy P (.running s m (pre ++ t :: post)) (.running s m' (pre ++ post))
  | deviceErr {s m e t pre post} : (∀ u ∈ pre, mustFollow legacy u.stream t.stream = false) → t.act m = .error e →
      Step legacy P (.running s m (pre ++ t :: post)) (.failed e)
  | host {s s' m q} : P s = some (.host (.ok s')) → Step legacy P (.running s m q) (.running s' m q)
  | hostErr {s e m q} : P s = some (.host (.error e)) → Step legacy P (.running s m q) (.failed e)
  | launch {s s' m q t} : P s = some (.launch t s') → Step legacy P (.running s m q) (.running s' m (q ++ [t]))
  | copy {s s' m m' q k} : P s = some (.copy k) → (∀ u ∈ q, mustFollow legacy u.stream 0 = false) → k m = .ok (m', s') →
      Step legacy P (.running s m q) (.running s' m' q)
  | copyErr {s e m q k} : P s = some (.copy k) → (∀ u ∈ q, mustFollow legacy u.stream 0 = false) → k m = .error e →
      Step legacy P (.running s m q) (.failed e)
  | sync {s s' m q} : P s = some (.sync s') → (∀ u ∈ q, u.stream ≠ ours) → Step legacy P (.running s m q) (.running s' m q)

/-- `n` steps. -/
inductive Steps {σ μ : Type} (legacy : Bool) (P : σ → Option (Op σ μ)) : ℕ → Cfg σ μ → Cfg σ μ → Prop
  | zero {c} : Steps legacy P 0 c c
  | succ {n a b c} : Steps legacy P n a b → Step legacy P b c → Steps legacy P (n + 1) a c

/-! ## Memory and copies -/

/-- The memory of the device: allocated blocks and their cells. -/
abbrev Mem (K : Type) := ℕ → Option (List K)

/-- A `span<Device<T>>`. -/
structure DSpan where
  block : ℕ
  off : ℕ
  len : ℕ

variable {K : Type}

/-- Reading cells on the device; undefined outside a block. -/
def Mem.read (m : Mem K) (s : DSpan) : Res (List K) :=
  if s.len = 0 then .ok []
  else match m s.block with
    | none => .error .ub
    | some l => if s.off + s.len ≤ l.length then .ok ((l.drop s.off).take s.len) else .error .ub

/-- Writing cells on the device; undefined outside a block. -/
def Mem.write (m : Mem K) (s : DSpan) (xs : List K) : Res (Mem K) :=
  if xs.length = 0 then .ok m
  else match m s.block with
    | none => .error .ub
    | some l =>
      if s.off + xs.length ≤ l.length then
        .ok (Function.update m s.block (some (l.take s.off ++ xs ++ l.drop (s.off + xs.length))))
      else .error .ub

/-- /repo/cutil.h 52-55 `host_to_device`. -/
def hostToDevice (dst : DSpan) (src : List K) (m : Mem K) : Res (Mem K) := do
  slowAssert (dst.len = src.length)
  m.write dst src

/-- /repo/cutil.h 56-59 `device_to_host`: the new cells of the destination, which has `n`. -/
def deviceToHost (n : ℕ) (src : DSpan) (m : Mem K) : Res (List K) := do
  slowAssert (n = src.len)
  m.read src

/-- /repo/cutil.h 62-64 `single_host_to_device`. -/
def singleHostToDevice (dst : DSpan) (a : K) (m : Mem K) : Res (Mem K) := m.write dst [a]

/-- /repo/cutil.h 67-71 `device_to_device`, for spans that do not overlap. -/
def deviceToDevice (dst src : DSpan) (m : Mem K) : Res (Mem K) := do
  slowAssert (dst.len = src.len)
  let xs ← m.read src
  m.write dst xs

/-- /repo/array.h 39: `cudaMallocAsync` of a block that is not in use. -/
def alloc (b : ℕ) (cells : List K) (m : Mem K) : Res (Mem K) := .ok (Function.update m b (some cells))

/-- /repo/array.h 27: `cudaFreeAsync`. -/
def release (b : ℕ) (m : Mem K) : Res (Mem K) :=
  match m b with
  | none => .error .ub
  | some _ => .ok (Function.update m b none)

/-- A `Series<Device<S>>`: counts on the host, cells in a block. -/
structure DSer where
  limit : ℤ
  known : ℤ
  nonzero : ℤ
  block : ℕ

/-- /repo/series.h 168-172 `set_counts`. -/
def DSer.setCounts (x : DSer) (known nonzero : ℤ) : Res DSer := do
  slowAssert (toU64 nonzero ≤ toU64 (min x.limit known))
  return { x with known := known, nonzero := nonzero }

/-- /repo/series.h 190 `span` of a series on the device. -/
def DSer.span (x : DSer) : DSpan := ⟨x.block, 0, x.nonzero.toNat⟩

/-- The stored terms of a series on the host, /repo/series.h 190 `span`. -/
def terms (x : Ser K) : List K := (List.range x.nonzero.toNat).map x.data

/-- /repo/series.h 661-665 `host_to_device`. -/
def seriesToDevice (y : DSer) (x : Ser K) (m : Mem K) : Res (DSer × Mem K) := do
  slowAssert (y.limit ≥ x.nonzero)
  let y ← y.setCounts x.known x.nonzero
  let m ← hostToDevice y.span (terms x) m
  return (y, m)

/-- /repo/series.h 666-670 `device_to_host`. -/
def seriesToHost (y : Ser K) (x : DSer) (m : Mem K) : Res (Ser K) := do
  slowAssert (y.limit ≥ x.nonzero)
  let y ← y.setCounts x.known x.nonzero
  let l ← deviceToHost y.nonzero.toNat x.span m
  return { y with data := fun i => l.getD i (y.data i) }

/-- /repo/series.h 671-680 `host_copy` of a series on the device; `junk` is the content of fresh memory. -/
def hostCopy (x : DSer) (junk : ℕ → K) (m : Mem K) : Res (Ser K) := seriesToHost (Ser.new x.nonzero junk) x m

end Mandelbrot.Stream
