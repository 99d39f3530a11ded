import Verif.Basic
import Mathlib.Data.List.Nodup
import Mathlib.Algebra.Order.Ring.Nat

/-!
# Model of the twiddle caches, singletons and shutdown hooks

`FullTwiddle<S>` (host) and `FullTwiddle<Device<S>>` (device) are singletons that own arrays of roots of unity.
The model has a heap of blocks, the two singletons, and the list of shutdown hooks.  What the tables contain is a
parameter: `tab s` is what `nearest_twiddles` computes for slice `s`, and `few` what the constructor stores.
Array sizes stay in the range of `int`: the table for `s = 30` is a distinct outcome (`2*m` overflows at
/repo/fft.cc 39).
-/

namespace Mandelbrot.Runtime

/-- An allocated array. -/
structure Block (V : Type) where
  size : ℕ
  val : ℕ → V

/-- The two caches. -/
inductive Side
  | host
  | device
  deriving DecidableEq

/-- /repo/fft.cc 49-50: members `twiddles` (addresses of the arrays) and `few`. -/
structure Cache where
  tw : List ℕ
  few : ℕ

/-- A function in the list of /repo/shutdown.cc 10-13: one of the two of /repo/singleton.h 21, or one given by the
user.  A user hook is known by a number; `reg` says that it calls `on_shutdown` itself. -/
inductive Hook
  | clear (d : Side)
  | user (id : ℕ) (reg : Bool)
  deriving DecidableEq

/-- State of the process. -/
structure St (V : Type) where
  /-- first address never used -/
  next : ℕ
  /-- the blocks now allocated -/
  live : ℕ → Option (Block V)
  /-- the two singletons, once constructed -/
  cache : Side → Option Cache
  /-- /repo/shutdown.cc 10-13 `list()` -/
  hooks : List Hook
  /-- hooks run so far, oldest first -/
  log : List Hook

/-- What the tables should contain. -/
structure Env (V : Type) where
  tab : ℕ → ℕ → V
  few : ℕ → V

variable {V : Type} (E : Env V)

/-- /repo/fft.cc 44. -/
def sLimit : ℕ := 30
/-- /repo/fft.cc 44 `j_limit`. -/
def jLimit : ℕ := 4

/-- Initial state: nothing constructed. -/
def St.init : St V := ⟨0, fun _ => none, fun _ => none, [], []⟩

/-- Allocation and filling of an array (/repo/array.h 34-43). -/
def St.alloc (st : St V) (b : Block V) : ℕ × St V :=
  (st.next, { st with next := st.next + 1, live := fun a => if a = st.next then some b else st.live a })

/-- Destruction of arrays. -/
def St.free (st : St V) (as : List ℕ) : St V :=
  { st with live := fun a => if a ∈ as then none else st.live a }

/-- Reading an array that is no longer allocated is undefined. -/
def St.read (st : St V) (a : ℕ) : Res (Block V) :=
  match st.live a with
  | some b => .ok b
  | none => .error .ub

def St.setCache (st : St V) (d : Side) (c : Cache) : St V :=
  { st with cache := fun d' => if d' = d then some c else st.cache d' }

/-- /repo/singleton.h 19-28 `single()` and /repo/fft.cc 69-79, host: the base constructor registers the hook, then
`few` is allocated and filled. -/
def singleHost (st : St V) : Cache × St V :=
  match st.cache .host with
  | some c => (c, st)
  | none =>
    let st := { st with hooks := st.hooks ++ [Hook.clear .host] }
    let (a, st) := st.alloc ⟨sLimit * jLimit, E.few⟩
    let c : Cache := ⟨[], a⟩
    (c, st.setCache .host c)

/-- The same for the device: `few` is copied from the host singleton. -/
def singleDevice (st : St V) : Res (Cache × St V) :=
  match st.cache .device with
  | some c => .ok (c, st)
  | none => do
    let st := { st with hooks := st.hooks ++ [Hook.clear .device] }
    let (h, st) := singleHost E st
    let b ← st.read h.few
    let (a, st) := st.alloc b
    let c : Cache := ⟨[], a⟩
    return (c, st.setCache .device c)

def single (d : Side) (st : St V) : Res (Cache × St V) :=
  match d with
  | .host => .ok (singleHost E st)
  | .device => singleDevice E st

/-- /repo/fft.cc 35-41 and 53-57 `ensure` on the host: `k` more tables.  The table for `p` asks for `2*m` with
`m = 1 << p`, which overflows `int` from `p = 30` on. -/
def growHost : ℕ → Cache → St V → Res (Cache × St V)
  | 0, c, st => .ok (c, st)
  | k + 1, c, st =>
    let p := c.tw.length
    if 30 ≤ p then .error .ub else
      let (a, st) := st.alloc ⟨2 ^ p / 4 + 1, E.tab p⟩
      let c : Cache := { c with tw := c.tw ++ [a] }
      growHost k c (st.setCache .host c)

/-- /repo/fft.cc 53-57, host. -/
def ensureHost (s : ℕ) (st : St V) : Res (Cache × St V) :=
  let (c, st) := singleHost E st
  growHost E (s + 1 - c.tw.length) c st

/-- /repo/fft.cc 54-65, device: `k` more tables, each computed on the host first. -/
def growDevice : ℕ → Cache → St V → Res (Cache × St V)
  | 0, c, st => .ok (c, st)
  | k + 1, c, st => do
    let p := c.tw.length
    let (h, st) ← ensureHost E p st
    match h.tw[p]? with
    | none => .error .ub
    | some src =>
      let b ← st.read src
      let (a, st) := st.alloc b
      let c : Cache := { c with tw := c.tw ++ [a] }
      growDevice k c (st.setCache .device c)

def ensureDevice (s : ℕ) (st : St V) : Res (Cache × St V) := do
  let (c, st) ← singleDevice E st
  growDevice E (s + 1 - c.tw.length) c st

def ensure (d : Side) (s : ℕ) (st : St V) : Res (Cache × St V) :=
  match d with
  | .host => ensureHost E s st
  | .device => ensureDevice E s st

/-- What `slice` returns (/repo/fft.cc 94-96): the pointer and `m`. -/
structure TwiddleSlice where
  ptr : ℕ
  m : ℕ

/-- What `big_slice` returns (/repo/fft.cc 115-117): the slice, and the pointer and offset of the row of `few`. -/
structure BigSlice where
  tw : TwiddleSlice
  few : ℕ
  off : ℕ

/-- /repo/fft.cc 82-85 `slice`. -/
def slice (d : Side) (s : ℕ) (st : St V) : Res (TwiddleSlice × St V) := do
  let (c, st) ← ensure E d s st
  match c.tw[s]? with
  | none => .error .ub
  | some a => return (⟨a, 2 ^ s⟩, st)

/-- /repo/fft.cc 87-90 `big_slice`.  A row past the end of `few` is a pointer past the end of the array. -/
def bigSlice (d : Side) (s : ℕ) (st : St V) : Res (BigSlice × St V) := do
  slowAssert (s ≥ 2)
  let (c, st) ← single E d st
  let (t, st) ← slice E d (s - 2) st
  if s < sLimit then return (⟨t, c.few, jLimit * s⟩, st) else .error .ub

/-- /repo/fft.cc 80 `clear` on the singleton (constructed if need be). -/
def clear (d : Side) (st : St V) : Res (St V) := do
  let (c, st) ← single E d st
  return (st.free c.tw).setCache d { c with tw := [] }

/-- /repo/shutdown.cc 15-17 `on_shutdown`. -/
def onShutdown (id : ℕ) (reg : Bool) (st : St V) : St V := { st with hooks := st.hooks ++ [Hook.user id reg] }

/-- One hook of /repo/shutdown.cc 19-22.  A hook that registers another one changes the list under iteration. -/
def runHook (h : Hook) (st : St V) : Res (St V) :=
  match h with
  | .clear d => do
    let st ← clear E d st
    return { st with log := st.log ++ [h] }
  | .user _ reg => if reg then .error .ub else .ok { st with log := st.log ++ [h] }

def runHooks : List Hook → St V → Res (St V)
  | [], st => .ok st
  | h :: l, st => do
    let st ← runHook E h st
    runHooks l st

/-- /repo/shutdown.cc 19-22 `shutdown`. -/
def shutdown (st : St V) : Res (St V) := runHooks E st.hooks st

/-- Calls of a program. -/
inductive Op
  | slice (d : Side) (s : ℕ)
  | bigSlice (d : Side) (s : ℕ)
  | clear (d : Side)
  | onShutdown (id : ℕ) (reg : Bool)
  | shutdown
  deriving DecidableEq

def step (o : Op) (st : St V) : Res (St V) :=
  match o with
  | .slice d s => do
    let (_, st) ← slice E d s st
    return st
  | .bigSlice d s => do
    let (_, st) ← bigSlice E d s st
    return st
  | .clear d => clear E d st
  | .onShutdown id reg => .ok (onShutdown id reg st)
  | .shutdown => shutdown E st

/-- A whole history. -/
def run : List Op → St V → Res (St V)
  | [], st => .ok st
  | o :: l, st => do
    let st ← step E o st
    run l st

end Mandelbrot.Runtime
