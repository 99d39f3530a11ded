import Verif.Runtime.StorageLemmas

/-!
# C62: arrays and series own their storage, hand it over by move and swap, and free it exactly once
-/

namespace Mandelbrot.Props

open Mandelbrot.Storage

variable {V : Type}

/-- **C62.** Every program of constructions, moves, swaps, clears, destructions, reads, writes and views (run from
nothing) gives exactly the results of the value semantics, in which an object is a value and a view follows the buffer
it was taken from; and it runs into undefined behaviour exactly when that semantics does not allow it. -/
theorem C62_values (ops : List (Op V)) :
    (run St.init ops).map Prod.snd =
      match Spec.run .init ops with
      | some rs => .ok rs
      | none => .error .ub := by
  have := run_match ops (Rel.init (V := V))
  revert this
  cases run (St.init : St V) ops with
  | error e =>
    cases Spec.run (Spec.World.init : Spec.World V) ops with
    | none => intro h; rw [show e = .ub from h]; rfl
    | some r => intro h; exact h.elim
  | ok q =>
    obtain ⟨st, rs⟩ := q
    cases Spec.run (Spec.World.init : Spec.World V) ops with
    | none => intro h; exact h.elim
    | some r => rintro ⟨rfl, -⟩; rfl

/-- The invariant holds after every run. -/
theorem storage_inv_of_run {ops : List (Op V)} {st : St V} {rs : List (Out V)} (h : run St.init ops = .ok (st, rs)) :
    Inv st := by
  have := run_match ops (Rel.init (V := V))
  rw [h] at this
  revert this
  cases Spec.run (Spec.World.init : Spec.World V) ops with
  | none => intro h; exact h.elim
  | some r => rintro ⟨-, W, hW⟩; exact hW.inv

/-- **C62.** No block is freed twice, a block freed is never live again, and every block ever allocated is either
freed or held by exactly one object within its lifetime. -/
theorem C62_once {ops : List (Op V)} {st : St V} {rs : List (Out V)} (h : run St.init ops = .ok (st, rs)) :
    st.freed.Nodup ∧
      (∀ a, a < st.next → (a ∈ st.freed ∧ st.live a = none) ∨
        (a ∉ st.freed ∧ (st.live a).isSome ∧ ∃! v, ∃ o, st.objs v = some o ∧ o.ptr = some a)) ∧
      ∀ v o a, st.objs v = some o → o.ptr = some a → a < st.next ∧ a ∉ st.freed := by
  have i := storage_inv_of_run h
  refine ⟨i.once, fun a ha => ?_, fun v o a hv hp => ?_⟩
  · cases hl : st.live a with
    | none => exact Or.inl ⟨(i.freed a).2 ⟨ha, hl⟩, rfl⟩
    | some b =>
      obtain ⟨v, o, hv, hp⟩ := i.own a b hl
      refine Or.inr ⟨fun hm => ?_, rfl, v, ⟨o, hv, hp⟩, ?_⟩
      · rw [((i.freed a).1 hm).2] at hl; cases hl
      · rintro w ⟨p, hw, hq⟩
        exact i.inj w v p o a hw hv hq hp
  · obtain ⟨b, hb, -⟩ := i.has v o a hv hp
    refine ⟨i.lt hb, fun hm => ?_⟩
    rw [((i.freed a).1 hm).2] at hb
    cases hb

/-- **C62.** Nothing leaks: once every object is gone, the blocks freed are all the blocks ever allocated, each
once, and none is live. -/
theorem C62_no_leak {ops : List (Op V)} {st : St V} {rs : List (Out V)} (h : run St.init ops = .ok (st, rs))
    (hd : ∀ v, st.objs v = none) : (∀ a, st.live a = none) ∧ st.freed.Perm (List.range st.next) := by
  have i := storage_inv_of_run h
  have hl : ∀ a, st.live a = none := by
    intro a
    cases hl : st.live a with
    | none => rfl
    | some b =>
      obtain ⟨v, o, hv, -⟩ := i.own a b hl
      rw [hd v] at hv
      cases hv
  refine ⟨hl, (List.perm_ext_iff_of_nodup i.once List.nodup_range).2 fun a => ?_⟩
  rw [i.freed a, List.mem_range]
  simp [hl a]

/-- **C62.** Clearing or destroying an object within its lifetime always succeeds. -/
theorem C62_destroy {ops : List (Op V)} {st : St V} {rs : List (Out V)} (h : run St.init ops = .ok (st, rs))
    {v : ℕ} (hv : (st.objs v).isSome) :
    (∃ st', exec st (.destroy v) = .ok (st', .done) ∧ st'.objs v = none ∧ ∀ w, w ≠ v → st'.objs w = st.objs w) ∧
    ∃ st', exec st (.clear v) = .ok (st', .done) ∧ st'.objs v = some ⟨0, none, 0, 0⟩ ∧
      ∀ w, w ≠ v → st'.objs w = st.objs w := by
  have i := storage_inv_of_run h
  obtain ⟨f, hf⟩ := Option.isSome_iff_exists.1 hv
  have hr : ∃ st', release st f.ptr = .ok st' ∧ st'.objs = st.objs := by
    cases hp : f.ptr with
    | none => exact ⟨st, rfl, rfl⟩
    | some a =>
      obtain ⟨b, hb, -⟩ := i.has v f a hf hp
      exact ⟨{ st with live := Function.update st.live a none, freed := a :: st.freed },
        by simp only [release, need, hb, bok], rfl⟩
  obtain ⟨st', h1, h2⟩ := hr
  constructor
  · refine ⟨st'.set v none, ?_, by simp [St.set], fun w hw => by simp [St.set, hw, h2]⟩
    simp only [exec, hf, need, bok, h1]
  · refine ⟨st'.set v (some ⟨0, none, 0, 0⟩), ?_, by simp [St.set], fun w hw => by simp [St.set, hw, h2]⟩
    simp only [exec, hf, need, bok, h1]

/-- **C62.** What the code does not check: when `malloc` fails, the object reports its size although it has no
storage, and the first write is undefined; with constructed elements the constructor throws instead. -/
theorem C62_malloc_witness (n : ℕ) (hn : 0 < n) (x : V) :
    (run (St.init : St V) [Op.make 0 n .raw false, .info 0]).map Prod.snd = .ok [.done, .info n 0 0 false] ∧
    run St.init [Op.make 0 n .raw false, .write 0 0 x] = .error .ub ∧
    (run St.init [Op.make 0 n (.built x) false]).map Prod.snd = .ok [.threw] := by
  have hz : (n : ℤ).toNat = n := by omega
  have hn' : n ≠ 0 := by omega
  refine ⟨?_, ?_, ?_⟩
  · rw [C62_values]
    simp [Spec.run, Spec.step, Spec.World.init, hz, hn']
  · have := C62_values [Op.make 0 n .raw false, .write 0 0 x]
    simp only [Spec.run, Spec.step, Spec.World.init, hz, hn', Option.isSome_none, Bool.false_eq_true, if_false,
      Option.bind_some, Function.update_self, Spec.Val.put, hn, if_true, Option.map_none, Option.bind_none] at this
    cases h : run St.init [Op.make 0 (n : ℤ) (Kind.raw : Kind V) false, .write 0 0 x] with
    | error e => rw [h] at this; simpa [Except.map] using this
    | ok r => rw [h] at this; simp [Except.map] at this
  · rw [C62_values]
    simp [Spec.run, Spec.step, Spec.World.init, hz, hn']

/-! A program that meets the hypotheses: two series, a view that survives a move and a swap, everything freed. -/

/-- The reallocation idiom `g.copy(p).swap(g)` (/repo/area.cc 124), with a view taken before. -/
def reallocate : List (Op ℕ) :=
  [.make 0 2 .raw true, .write 0 0 7, .write 0 1 8, .counts 0 2 2,      -- g
   .view 9 0 1 1,                                                       -- a view of g[1]
   .make 1 4 .raw true, .write 1 0 7, .write 1 1 8, .counts 1 2 2,      -- g.copy(4)
   .swap 1 0, .info 0, .readView 9 0,                                   -- the view now follows the temporary
   .move 2 1, .info 1, .writeView 9 0 5, .read 2 1, .read 0 1,
   .destroy 1, .destroy 2, .destroy 0]

example : (run St.init reallocate).map Prod.snd = .ok
    [.done, .done, .done, .done, .done, .done, .done, .done, .done, .done, .info 4 2 2 true, .val 8,
     .done, .info 0 0 0 false, .done, .val 5, .val 8, .done, .done, .done] := by
  rfl

/-- The same view read after the temporary is gone. -/
example : (run St.init ((reallocate.take 10) ++ [.destroy 1, .readView 9 0])).map Prod.snd = .error .ub := by
  rfl

/-- Destroying twice, or reading a moved-from object. -/
example : (run St.init [Op.make 0 3 (.built (1 : ℕ)) true, .destroy 0, .destroy 0]).map Prod.snd = .error .ub ∧
    (run St.init [Op.make 0 3 (.built (1 : ℕ)) true, .move 1 0, .read 1 2, .read 0 0]).map Prod.snd
      = .error .ub := by
  exact ⟨rfl, rfl⟩

end Mandelbrot.Props
