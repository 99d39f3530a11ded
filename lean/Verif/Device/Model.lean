import Verif.Loops.Model
import Mathlib.Logic.Relation
import Mathlib.Logic.Function.Basic

/-!
# Device execution: streams, kernels and threads (/repo/cutil.h, /repo/cutil.cc, /repo/loops.h)

The host hands commands to a device and goes on without waiting.  The commands are executed later, with the threads of a
kernel interleaved in any way, and commands of different streams may overlap unless the rules of CUDA order them.

Simplifications: memory accesses are interleaved one by one (no reordering inside a thread); errors that CUDA reports are left out;
allocation and release are commands like any other.
-/

namespace Mandelbrot.Device

/-- The two streams in use: `default` is the one that kernels are launched on when none is named (/repo/loops.h 35) and that
`cudaMemcpy` uses (/repo/cutil.h 58-70), `own` is the one that `stream()` creates (/repo/cutil.cc 20-39). -/
inductive Stream
  | default
  | own
  deriving DecidableEq

/-- Whether commands in two streams are executed in the order of issue.  With the default stream that the compiler assumes unless told
otherwise (`legacy`), it waits for the streams made by `cudaStreamCreate` (/repo/cutil.cc 22) and they wait for it. -/
def ordered (legacy : Bool) (s t : Stream) : Bool := legacy || s == t

/-- A kernel or another command for the device: what remains to be done by each of its threads. -/
structure Cmd (D : Type) where
  stream : Stream
  threads : List (List (D → D))

/-- A program on the host, seen through what it asks of the device. -/
inductive Host (D X : Type)
  /-- The program ends with a result. -/
  | done (x : X)
  /-- A kernel, `cudaMemcpyAsync`, `cudaMallocAsync`, `cudaFreeAsync`, or `cudaMemcpy` to the device, which returns when the
  source has been read. -/
  | launch (c : Cmd D) (k : Host D X)
  /-- /repo/cutil.h 62-65 `device_to_host`: `cudaMemcpy` to the host waits for its result. -/
  | read (k : D → Host D X)
  /-- /repo/cutil.cc 41-43 `cuda_sync`. -/
  | sync (k : Host D X)

/-- The commands that are not finished, in the order of issue, the memory of the device, and the rest of the program. -/
structure State (D X : Type) where
  pending : List (Cmd D)
  mem : D
  host : Host D X

/-- What can happen next. -/
inductive Step {D X : Type} (legacy : Bool) : State D X → State D X → Prop
  | launch {q d c k} : Step legacy ⟨q, d, .launch c k⟩ ⟨q ++ [c], d, k⟩
  | read {q d k} (h : ∀ c ∈ q, ordered legacy c.stream .default = false) : Step legacy ⟨q, d, .read k⟩ ⟨q, d, k d⟩
  | sync {q d k} (h : ∀ c ∈ q, c.stream ≠ .own) : Step legacy ⟨q, d, .sync k⟩ ⟨q, d, k⟩
  /-- A thread of a command makes one step, if no command before it has to be waited for. -/
  | exec {q q' s ts f t ts' d p} (h : ∀ c ∈ q, ordered legacy c.stream s = false) :
    Step legacy ⟨q ++ ⟨s, ts ++ (f :: t) :: ts'⟩ :: q', d, p⟩ ⟨q ++ ⟨s, ts ++ t :: ts'⟩ :: q', f d, p⟩
  /-- A command whose threads have ended is finished. -/
  | finish {q q' c d p} (h : ∀ c' ∈ q, ordered legacy c'.stream c.stream = false) (he : ∀ t ∈ c.threads, t = []) :
    Step legacy ⟨q ++ c :: q', d, p⟩ ⟨q ++ q', d, p⟩

/-- Any number of steps. -/
abbrev Steps {D X : Type} (legacy : Bool) : State D X → State D X → Prop := Relation.ReflTransGen (Step legacy)

/-- /repo/loops.h 54-64 `DEF_SERIAL` on a device: one thread, in the stream of the program. -/
def serial {D : Type} (steps : List (D → D)) : Cmd D := ⟨.own, [steps]⟩

/-- /repo/loops.h 24-51 `DEF_LOOP` on a device: a grid of `gridDim` blocks of `blockDim` threads (/repo/loops.h 35: `32*num_sms()` and 256)
in the default stream; each thread does its iterations one after the other. -/
def grid {D : Type} (n blockDim gridDim : ℕ) (body : ℕ → List (D → D)) : Res (Cmd D) := do
  let threads ← ((List.range gridDim).flatMap fun b => (List.range blockDim).map fun t => (b, t)).mapM
    fun bt : ℕ × ℕ => match deviceLoop n blockDim gridDim bt.1 bt.2 with
      | some l => (.ok (l.flatMap fun i => body i.toNat) : Res (List (D → D)))
      | none => .error .ub
  return ⟨.default, threads⟩

/-! ## Threads in steps of one memory access -/

/-- A memory access of a thread: values are loaded into registers, and a value computed from the registers is stored. -/
inductive Access (A V : Type)
  | load (r : ℕ) (a : A)
  | store (a : A) (v : (ℕ → V) → V)

/-- The memory and the registers of each iteration. -/
structure Mem (A V : Type) where
  cell : A → V
  regs : ℕ → ℕ → V

variable {A V : Type} [DecidableEq A]

/-- One access of iteration `i`. -/
def Access.step (i : ℕ) : Access A V → Mem A V → Mem A V
  | .load r a, m => { m with regs := Function.update m.regs i (Function.update (m.regs i) r (m.cell a)) }
  | .store a v, m => { m with cell := Function.update m.cell a (v (m.regs i)) }

/-- A loop whose iteration `i` makes the accesses `body i`. -/
def gridAccess (n blockDim gridDim : ℕ) (body : ℕ → List (Access A V)) : Res (Cmd (Mem A V)) :=
  grid n blockDim gridDim fun i => (body i).map (Access.step i)

end Mandelbrot.Device
