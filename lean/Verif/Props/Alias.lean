import Verif.Series.Throws
import Verif.Props.SeriesBasic

/-!
# Operations in place and through overlapping views (C57), for any arithmetic
-/

set_option linter.unusedSectionVars false

namespace Mandelbrot

variable {K : Type} {N : ℕ}

/-! ## Specifications -/

/-- The contents of the series of a state: sizes, counts and the cells of each series as a copy. -/
def Spec.contents (s : Heap.State K N) (i : Fin N) : Ser K := ⟨(s.reg i).limit, (s.reg i).known, (s.reg i).nonzero, s.mem.cell (s.reg i).block⟩

/-- A state holds the given series: the same sizes, counts and stored terms. -/
def Spec.Same (s : Heap.State K N) (σ : Fin N → Ser K) : Prop := ∀ i,
  (s.reg i).limit = (σ i).limit ∧ (s.reg i).known = (σ i).known ∧ (s.reg i).nonzero = (σ i).nonzero ∧
    ∀ n : ℕ, (n : ℤ) < (σ i).nonzero → s.mem.cell (s.reg i).block n = (σ i).data n

/-- Addresses: the storage of a block `b` is `[addr b, addr b + size b)`, not at address zero; the storages of different series
do not meet. -/
structure Spec.Placed (s : Heap.State K N) (addr : ℕ → ℕ) : Prop where
  pos : ∀ i, 0 < addr (s.reg i).block
  disjoint : ∀ i j, i ≠ j → addr (s.reg i).block + (s.reg i).limit.toNat ≤ addr (s.reg j).block ∨
    addr (s.reg j).block + (s.reg j).limit.toNat ≤ addr (s.reg i).block

/-- The address of a view. -/
def Spec.address (addr : ℕ → ℕ) (v : Heap.View) : ℕ := if v.null then 0 else addr v.block + v.off

/-- /repo/array.h 36-48: the address of the storage of a series. -/
def Spec.dataAddress (addr : ℕ → ℕ) (o : Heap.Obj) : ℕ := if o.limit = 0 then 0 else addr o.block

variable [Zero K] [One K] [Add K] [Sub K] [Neg K] [Mul K] [Div K] [IntCast K] [Ldexp K] [DecidableEq K]

namespace Props

open Ser Heap

variable {mul addmul : ℕ → Span K → Span K → Res (ℕ → K)} {sqr : ℕ → Span K → Res (ℕ → K)} {sch : Sched K}

/-- An operation that C57 speaks of. -/
abbrev Fine (sch : Sched K) (op : Op K N) : Prop := op.Valid ∧ op.NoSelfCopy ∧ (sch = Sched.host ∨ op.Unshifted)

omit [Zero K] [One K] [Add K] [Sub K] [Neg K] [Mul K] [Div K] [IntCast K] [Ldexp K] [DecidableEq K] in
theorem same_of_inv {s : State K N} {σ : Fin N → Ser K} (h : Heap.Inv s σ) : Spec.Same s σ := fun i =>
  ⟨(h.holds i).sim.limit, (h.holds i).sim.known, (h.holds i).sim.nonzero, fun n hn => (h.holds i).sim.data n (by
    rw [← (h.holds i).sim.nonzero] at hn; exact hn)⟩

omit [Zero K] [One K] [Add K] [Sub K] [Neg K] [Mul K] [Div K] [IntCast K] [Ldexp K] [DecidableEq K] in
theorem inv_contents {s : State K N} {σ : Fin N → Ser K} (h : Heap.Inv s σ) : Heap.Inv s (Spec.contents s) :=
  ⟨fun i => ⟨(h.holds i).ok, ⟨(h.holds i).ok.good, (h.holds i).ok.good, rfl, rfl, fun _ _ => rfl⟩, rfl⟩, h.inj⟩

theorem inv_of_run (hloc : Local mul addmul sqr) (B : Junk K) {ops : List (Junk K × Op K N)} (hv : ∀ op ∈ ops, Fine sch op.2)
    {junk : ℕ → ℕ → K} {s : State K N} (h : Heap.run sch (hostKer B mul addmul sqr) (State.init N junk) ops = .ok s) :
    ∃ σ, Heap.Inv s σ := by
  rcases run_rel (hostKer_sim B B hloc) (hostKer_keepsLimit B mul addmul sqr) (init_inv junk (junk 0)) hv with e | e
  · rw [h] at e; cases e
  · rw [h] at e
    revert e
    cases vrun (hostKer B mul addmul sqr) (fun _ => Ser.new 0 (junk 0)) ops with
    | error e => exact False.elim
    | ok σ => exact fun e => ⟨σ, e⟩

/-- C57.  Every state that a history reaches, and every operation on it, whose operands may be views that overlap each other and the
destination in any way: when the operation is one of those that refuse and an operand is a view into the destination, it throws
an assertion; otherwise it fails or returns exactly as it does when every operand is a copy, and returns the same values. -/
theorem C57_in_place (hloc : Local mul addmul sqr) (B : Junk K) {ops : List (Junk K × Op K N)} (hv : ∀ op ∈ ops, Fine sch op.2)
    {junk : ℕ → ℕ → K} {s : State K N} (h : Heap.run sch (hostKer B mul addmul sqr) (State.init N junk) ops = .ok s)
    (J J' : Junk K) {op : Op K N} (ho : Fine sch op) :
    (op.Overlaps s.reg → Heap.step sch (hostKer B mul addmul sqr) J s op = .error .assertion) ∧
    (¬op.Overlaps s.reg → RelRes Spec.Same (Heap.step sch (hostKer B mul addmul sqr) J s op)
      (vstep (hostKer B mul addmul sqr) J' (Spec.contents s) op)) := by
  obtain ⟨σ, hσ⟩ := inv_of_run hloc B hv h
  have key := step_rel (hostKer_sim B B hloc) (hostKer_keepsLimit B mul addmul sqr) J J' (inv_contents hσ) ho.1 ho.2.1 ho.2.2
  exact ⟨key.1, fun hn => (key.2 hn).mono fun _ _ _ _ h => same_of_inv h⟩

/-- C57.  A whole history in memory throws an assertion, or fails or ends exactly as the same history on copies. -/
theorem C57_history (hloc : Local mul addmul sqr) (B : Junk K) {ops : List (Junk K × Op K N)} (hv : ∀ op ∈ ops, Fine sch op.2)
    (junk : ℕ → ℕ → K) (j : ℕ → K) :
    let ker := hostKer B mul addmul sqr
    Heap.run sch ker (State.init N junk) ops = .error .assertion ∨
      RelRes Spec.Same (Heap.run sch ker (State.init N junk) ops) (vrun ker (fun _ => Ser.new 0 j) ops) := by
  rcases run_rel (hostKer_sim B B hloc) (hostKer_keepsLimit B mul addmul sqr) (init_inv junk j) hv with e | e
  · exact .inl e
  · exact .inr (e.mono fun _ _ _ _ h => same_of_inv h)

/-- C57.  No history reads or writes outside the storage of a series, follows a null pointer or copies a range onto itself: it returns or it
throws an assertion. -/
theorem C57_memory_safe (hloc : Local mul addmul sqr) (h1 : ∀ n x y, Throws (mul n x y)) (h2 : ∀ n x y, Throws (addmul n x y))
    (h3 : ∀ n x, Throws (sqr n x)) (B : Junk K) {ops : List (Junk K × Op K N)} (hv : ∀ op ∈ ops, Fine sch op.2)
    (junk : ℕ → ℕ → K) :
    (∃ s, Heap.run sch (hostKer B mul addmul sqr) (State.init N junk) ops = .ok s) ∨
      Heap.run sch (hostKer B mul addmul sqr) (State.init N junk) ops = .error .assertion := by
  rcases C57_history hloc B hv junk (junk 0) with e | e
  · exact .inr e
  · have ht := vrun_throws (hostKer_throws B h1 h2 h3) ops fun _ => Ser.new 0 (junk 0)
    revert e ht
    cases Heap.run sch (hostKer B mul addmul sqr) (State.init N junk) ops with
    | ok s => exact fun _ _ => .inl ⟨s, rfl⟩
    | error e =>
      cases vrun (hostKer B mul addmul sqr) (fun _ => Ser.new 0 (junk 0)) ops with
      | ok s => exact fun h => h.elim
      | error e' => exact fun h ht => .inr (by rw [show e = e' from h, ht e' rfl])

/-- C57.  The comparison of addresses that the code makes tells exactly whether an operand is a view into the destination, wherever
the allocator has placed the storages. -/
theorem C57_alias_addresses (hloc : Local mul addmul sqr) (B : Junk K) {ops : List (Junk K × Op K N)}
    (hv : ∀ op ∈ ops, Fine sch op.2) {junk : ℕ → ℕ → K} {s : State K N}
    (h : Heap.run sch (hostKer B mul addmul sqr) (State.init N junk) ops = .ok s) {addr : ℕ → ℕ} (hp : Spec.Placed s addr)
    (i : Fin N) (a : Arg N) :
    (Spec.dataAddress addr (s.reg i) ≤ Spec.address addr (a.view s.reg) ∧
      Spec.address addr (a.view s.reg) < Spec.dataAddress addr (s.reg i) + (s.reg i).limit.toNat) ↔
    a.reg = i ∧ (a.view s.reg).null = false := by
  obtain ⟨σ, hσ⟩ := inv_of_run hloc B hv h
  have hl : ∀ i, (s.reg i).nonzero ≤ (s.reg i).limit ∧ 0 ≤ (s.reg i).limit := fun i =>
    ⟨(hσ.holds i).ok.good.wf.le_limit, (hσ.holds i).ok.limit_nonneg⟩
  have h1 := hp.pos i
  have h2 := (hl i).2
  by_cases hn : (a.view s.reg).null = true
  · rw [Spec.address, if_pos hn, hn, Spec.dataAddress]
    split_ifs with h0
    · simp [h0]
    · simp only [and_false, iff_false]
      omega
  · rw [Bool.not_eq_true] at hn
    have h3 := a.view_off_lt s.reg hl hn
    rw [Spec.address, hn, if_neg Bool.false_ne_true, Arg.view_block, Spec.dataAddress]
    simp only [and_true]
    constructor
    · rintro ⟨h4, h5⟩
      by_contra hne
      have h6 := hp.disjoint a.reg i hne
      split_ifs at h4 h5 <;> omega
    · rintro rfl
      split_ifs <;> omega

/-- C57.  Assigning a series, or its low terms, to itself calls `std::copy` with the destination inside the source, for which the
library promises nothing. -/
theorem C57_self_assignment (hloc : Local mul addmul sqr) (B : Junk K) {ops : List (Junk K × Op K N)}
    (hv : ∀ op ∈ ops, Fine sch op.2) {junk : ℕ → ℕ → K} {s : State K N}
    (h : Heap.run sch (hostKer B mul addmul sqr) (State.init N junk) ops = .ok s) (J : Junk K) (i : Fin N)
    (hz : (s.reg i).nonzero ≠ 0) {n : ℤ} (hn : 0 < n) :
    Heap.step sch (hostKer B mul addmul sqr) J s (.assign i ⟨i, []⟩) = .error .ub ∧
    Heap.step sch (hostKer B mul addmul sqr) J s (.assign i ⟨i, [.low n]⟩) = .error .ub := by
  obtain ⟨σ, hσ⟩ := inv_of_run hloc B hv h
  have hg := (hσ.holds i).ok.good
  have h1 := hg.wf.nonneg
  have h2 := hg.wf.le_limit
  have h3 := hg.wf.le_known
  simp only [Obj.ser] at h1 h2 h3
  have hl : (s.reg i).limit ≠ 0 := by omega
  have key : ∀ v : View, v.nonzero ≠ 0 → v.nonzero ≤ (s.reg i).limit → v.null = false → v.block = (s.reg i).block → v.off = 0 →
      Heap.assign s.mem (s.reg i) v = .error .ub := by
    intro v e1 e2 e3 e4 e5
    rw [Heap.assign, slowAssert_true e2, bok, if_pos ⟨e1, e3, e4, e5⟩]
  constructor
  · simp only [Heap.step, Arg.view, List.foldl_nil]
    rw [key _ hz h2 (by simpa [Obj.view] using hl) rfl rfl]
    rfl
  · simp only [Heap.step, Arg.view, List.foldl_cons, List.foldl_nil, Cut.view]
    have e : relu n = n := by unfold relu; omega
    rw [key]
    · rfl
    · simp only [View.low, Obj.view, e]; omega
    · simp only [View.low, Obj.view, e]; omega
    · simp only [View.low, Obj.view, e, Bool.or_eq_false_iff, beq_eq_false_iff_ne]; omega
    · rfl
    · rfl

/-- The iterations of every loop in reverse order. -/
def Sched.reversed : Sched K := ⟨fun _ n => (List.range n).reverse, fun _ _ => List.reverse_perm _⟩

/-- C57.  The condition for loops in any order is needed: with the iterations in reverse order, `y = -y.high(1)` on `a, b, c` leaves `-(-c)`
as constant term, in order it leaves `-b`. -/
theorem C57_order_witness (B J : Junk K) (junk : ℕ → ℕ → K) (j : ℕ → K) (a b c : K) :
    let ops : List (Junk K × Op K 1) := [(J, .constructList 0 3 j [a, b, c]), (J, .neg 0 ⟨0, [.high 1]⟩)]
    (∃ s, Heap.run Sched.reversed (hostKer B mul addmul sqr) (State.init 1 junk) ops = .ok s ∧
      s.mem.cell (s.reg 0).block 0 = -(-c)) ∧
    ∃ s, Heap.run Sched.host (hostKer B mul addmul sqr) (State.init 1 junk) ops = .ok s ∧
      s.mem.cell (s.reg 0).block 0 = -b := by
  refine ⟨⟨_, rfl, ?_⟩, ⟨_, rfl, ?_⟩⟩
  · rfl
  · rfl

/-- The products of the examples. -/
theorem naive_local : Local (K := K) naiveMul naiveMul fun n x => naiveMul n x x :=
  ⟨fun n _ _ _ _ hx hy => naiveMul_sim n hx hy, fun n _ _ _ _ hx hy => naiveMul_sim n hx hy, fun n _ _ hx => naiveMul_sim n hx hx⟩

/-- C57 example: a series squared in place, multiplied by its own tail, negated onto itself shifted, and divided by itself,
which throws. -/
example :
    let J : Junk ℚ := fun _ _ => 7
    let ker := hostKer J naiveMul naiveMul fun n x => naiveMul n x x
    let ops : List (Junk ℚ × Op ℚ 1) := [(J, .constructList 0 3 (J []) [1, 2, 3]), (J, .sqr 0 ⟨0, []⟩),
      (J, .mul 0 ⟨0, []⟩ ⟨0, [.high 1]⟩), (J, .neg 0 ⟨0, [.high 1]⟩)]
    (∀ op ∈ ops, Fine Sched.host op.2) ∧
    (∃ s, Heap.run Sched.host ker (State.init 1 fun _ _ => 7) ops = .ok s ∧ (s.reg 0).known = 1 ∧ s.mem.cell (s.reg 0).block 0 = -26 ∧
      (Op.div (K := ℚ) 0 ⟨0, []⟩ ⟨0, []⟩).Overlaps s.reg ∧ ¬(Op.sqr (K := ℚ) 0 ⟨0, []⟩).Overlaps s.reg) := by
  refine ⟨?_, _, rfl, rfl, ?_, .inl ⟨rfl, rfl⟩, id⟩
  · simp [Fine, Op.Valid, Op.NoSelfCopy]
  · decide +kernel

/-- C57 example: histories with overlapping operands, on a device and on the host, cannot leave the storage of the series. -/
example (B J : Junk ℚ) (junk : ℕ → ℕ → ℚ) (sch : Sched ℚ) (j : ℕ → ℚ) :
    let ker := hostKer B naiveMul naiveMul fun n x => naiveMul n x x
    let ops : List (Junk ℚ × Op ℚ 2) := [(J, .constructList 0 9 j [1, 2, 3]), (J, .construct 1 4 j), (J, .inv 1 ⟨0, [.low 2]⟩),
      (J, .mul 1 ⟨1, [.high 1]⟩ ⟨0, [.high 1, .low 1]⟩), (J, .assign 0 ⟨0, [.high 1]⟩), (J, .addsub 0 1 0 0 ⟨1, []⟩)]
    (∃ s, Heap.run sch ker (State.init 2 junk) ops = .ok s) ∨ Heap.run sch ker (State.init 2 junk) ops = .error .assertion := by
  refine C57_memory_safe naive_local (fun _ _ _ => .ok _) (fun _ _ _ => .ok _) (fun _ _ => .ok _) B ?_ junk
  simp [Fine, Op.Valid, Op.NoSelfCopy, Op.Unshifted, Arg.shift, Cut.shift]

/-- C57 example: a series with storage but without stored terms is refused as its own operand, although nothing overlaps; its low
terms are not. -/
example : ∃ s, Heap.run Sched.host (hostKer (fun _ _ => 7 : Junk ℚ) naiveMul naiveMul fun n x => naiveMul n x x)
      (State.init 1 fun _ _ => 7) [(fun _ _ => 7, .construct 0 5 fun _ => 7), (fun _ _ => 7, .setKnown 0 3)] = .ok s ∧
    (Op.exp (K := ℚ) 0 ⟨0, []⟩).Overlaps s.reg ∧ ¬(Op.exp (K := ℚ) 0 ⟨0, [.low 3]⟩).Overlaps s.reg := by
  refine ⟨_, rfl, ⟨⟨rfl, rfl⟩, by decide⟩, fun h => ?_⟩
  have := h.1.2
  revert this
  decide

/-- C57 example: two storages at addresses 11 and 21. -/
example : ∃ s, Heap.run Sched.host (hostKer (fun _ _ => 7 : Junk ℚ) naiveMul naiveMul fun n x => naiveMul n x x)
      (State.init 2 fun _ _ => 7) [(fun _ _ => 7, .construct 0 10 fun _ => 7), (fun _ _ => 7, .construct 1 4 fun _ => 7)] = .ok s ∧ Spec.Placed s fun b => 10 * b - 9 := by
  refine ⟨_, rfl, ⟨?_, ?_⟩⟩ <;> decide

end Props

end Mandelbrot
