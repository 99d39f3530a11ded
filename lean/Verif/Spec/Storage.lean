import Verif.Runtime.Storage
import Mathlib.Logic.Equiv.Basic

/-!
# What a client may rely on: arrays as values, views that follow the buffer

No heap, no addresses: an object is a value (counts and, if it has storage, its elements), and a view names the object
that now holds the buffer it was taken from.  Moving or swapping objects moves the views along; clearing or destroying
an object leaves its views dangling.
-/

namespace Mandelbrot.Storage.Spec

variable {V : Type}

/-- An array or series as a value. -/
structure Val (V : Type) where
  size : ℕ
  known : ℤ
  nonzero : ℤ
  data : Option (ℕ → Option V)

/-- An empty one. -/
def Val.empty : Val V := ⟨0, 0, 0, none⟩

/-- A view: the holder of its buffer (`none`: no buffer), first element, length. -/
structure Window where
  holder : Option ℕ
  off : ℕ
  len : ℕ

/-- The values and the views. -/
structure World (V : Type) where
  objs : ℕ → Option (Val V)
  views : ℕ → Option Window

/-- Nothing yet. -/
def World.init : World V := ⟨fun _ => none, fun _ => none⟩

/-- Change the holders of all views. -/
def follow (views : ℕ → Option Window) (f : ℕ → Option ℕ) : ℕ → Option Window :=
  fun u => (views u).map fun w => { w with holder := w.holder.bind f }

/-- The element `i` of a value. -/
def Val.get (x : Val V) (i : ℕ) : Option V := if i < x.size then x.data.bind (· i) else none

/-- The value with element `i` replaced; `none` if it has no such element. -/
def Val.put (x : Val V) (i : ℕ) (a : V) : Option (Val V) :=
  if i < x.size then x.data.map fun d => { x with data := some (Function.update d i (some a)) } else none

/-- The meaning of an operation, `none` where it is not allowed. -/
def step (W : World V) : Op V → Option (World V × Out V)
  | .make v limit k mem =>
    if (W.objs v).isSome then none
    else
      let size := limit.toNat
      if size = 0 then some ({ W with objs := Function.update W.objs v (some .empty) }, .done)
      else match mem, k with
        | true, .raw => some ({ W with objs := Function.update W.objs v (some ⟨size, 0, 0, some fun _ => none⟩) }, .done)
        | true, .built x =>
          some ({ W with objs := Function.update W.objs v (some ⟨size, 0, 0, some fun _ => some x⟩) }, .done)
        | false, .raw => some ({ W with objs := Function.update W.objs v (some ⟨size, 0, 0, none⟩) }, .done)
        | false, .built _ => some (W, .threw)
  | .move v w =>
    if (W.objs v).isSome then none
    else (W.objs w).map fun x =>
      (⟨Function.update (Function.update W.objs v (some x)) w (some .empty),
        follow W.views fun o => some (if o = w then v else o)⟩, .done)
  | .swap v w =>
    (W.objs v).bind fun x => (W.objs w).map fun y =>
      (⟨Function.update (Function.update W.objs v (some y)) w (some x),
        follow W.views fun o => some (Equiv.swap v w o)⟩, .done)
  | .clear v => (W.objs v).map fun _ =>
    (⟨Function.update W.objs v (some .empty), follow W.views fun o => if o = v then none else some o⟩, .done)
  | .destroy v => (W.objs v).map fun _ =>
    (⟨Function.update W.objs v none, follow W.views fun o => if o = v then none else some o⟩, .done)
  | .counts v known nonzero => (W.objs v).map fun x =>
    ({ W with objs := Function.update W.objs v (some { x with known := known, nonzero := nonzero }) }, .done)
  | .info v => (W.objs v).map fun x => (W, .info x.size x.known x.nonzero x.data.isSome)
  | .read v i => (W.objs v).bind fun x => (x.get i).map fun a => (W, .val a)
  | .write v i a => (W.objs v).bind fun x => (x.put i a).map fun y =>
    ({ W with objs := Function.update W.objs v (some y) }, .done)
  | .view u v off len => (W.objs v).bind fun x =>
    if off + len ≤ x.size ∧ (x.data.isSome ∨ off = 0) then
      some (⟨W.objs, Function.update W.views u (some ⟨if x.data.isSome then some v else none, off, len⟩)⟩, .done)
    else none
  | .readView u i => (W.views u).bind fun w => if w.len ≤ i then none else
    w.holder.bind fun v => (W.objs v).bind fun x => (x.get (w.off + i)).map fun a => (W, .val a)
  | .writeView u i a => (W.views u).bind fun w => if w.len ≤ i then none else
    w.holder.bind fun v => (W.objs v).bind fun x => (x.put (w.off + i) a).map fun y =>
      ({ W with objs := Function.update W.objs v (some y) }, .done)

/-- The results of a program; `none` if it does something not allowed. -/
def run (W : World V) : List (Op V) → Option (List (Out V))
  | [] => some []
  | o :: os => (step W o).bind fun r => (run r.1 os).map fun rs => r.2 :: rs

end Mandelbrot.Storage.Spec
