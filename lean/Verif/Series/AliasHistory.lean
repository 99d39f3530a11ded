import Verif.Series.AliasFns

/-!
# Histories of operations on series in memory

A history over a fixed number of series, each in its own storage; every operand is a view of one of them, cut down by any
number of `low` and `high`, so that operands overlap each other and the destination in every way the interface allows.
-/

set_option linter.unusedSectionVars false

namespace Mandelbrot.Heap

open Ser (Good Sim SimL Dst)

variable {K : Type} {N : ℕ}

/-- /repo/series.h 204-226: one cut of a view. -/
inductive Cut
  | low (n : ℤ)
  | high (n : ℤ)

/-- An operand: a series, cut down from left to right. -/
structure Arg (N : ℕ) where
  reg : Fin N
  cuts : List Cut

/-- /repo/series.h 204-226: a cut of a view. -/
def Cut.view (v : View) : Cut → View
  | .low n => v.low n
  | .high n => v.high n

/-- The cut of a series that is its own copy. -/
def Cut.ser (x : Ser K) : Cut → Ser K
  | .low n => x.low n
  | .high n => x.high n

/-- The view that an operand denotes. -/
def Arg.view (ρ : Fin N → Obj) (a : Arg N) : View := a.cuts.foldl Cut.view (ρ a.reg).view

/-- The series that an operand denotes when every operand is a copy. -/
def Arg.ser (σ : Fin N → Ser K) (a : Arg N) : Ser K := a.cuts.foldl Cut.ser (σ a.reg).view

/-- How far a cut moves the pointer. -/
def Cut.shift : Cut → ℕ
  | .low _ => 0
  | .high n => n.toNat

/-- How far into its series an operand begins. -/
def Arg.shift (a : Arg N) : ℕ := (a.cuts.map Cut.shift).sum

/-- The operations (/repo/series.h 77-239, 263-646); the first argument is the destination.  `set_counts`, which may declare
cells as terms that were never written, is left out. -/
inductive Op (K : Type) (N : ℕ)
  | construct (i : Fin N) (limit : ℤ) (junk : ℕ → K)
  | constructList (i : Fin N) (limit : ℤ) (junk : ℕ → K) (cs : List K)
  | move (i j : Fin N) (junk : ℕ → K)
  | swap (i j : Fin N)
  | clear (i : Fin N) (junk : ℕ → K)
  | copy (i : Fin N) (a : Arg N) (limit : ℤ) (junk : ℕ → K)
  | setScalar (i : Fin N) (known : ℤ) (c : K)
  | setUnknown (i : Fin N)
  | setKnown (i : Fin N) (known : ℤ)
  | reduceKnown (i : Fin N) (known : ℤ)
  | addScalar (i : Fin N) (c : K)
  | assign (i : Fin N) (a : Arg N)
  | addsub (i : Fin N) (sign b s : ℤ) (a : Arg N)
  | neg (i : Fin N) (a : Arg N)
  | mul (i : Fin N) (a b : Arg N)
  | mul1p (i : Fin N) (a b : Arg N) (s : ℤ)
  | sqr (i : Fin N) (a : Arg N)
  | inv (i : Fin N) (a : Arg N)
  | inv1p (i : Fin N) (a : Arg N) (s : ℤ)
  | div (i : Fin N) (a b : Arg N)
  | div1p (i : Fin N) (a b : Arg N) (s : ℤ)
  | derivativeShift (i : Fin N) (a : Arg N) (s : ℤ)
  | integralShift (i : Fin N) (a : Arg N) (s : ℤ)
  | log (i : Fin N) (a : Arg N)
  | log1p (i : Fin N) (a : Arg N) (s : ℤ)
  | exp (i : Fin N) (a : Arg N)
  | expm1 (i : Fin N) (a : Arg N) (sign s : ℤ)
  | log1pExp (i : Fin N) (a : Arg N) (s : ℤ)
  | ldexp (i : Fin N) (a : Arg N) (b : ℤ)

/-- The integer arguments are `int64_t`s, and shifted addition is called with a shift `≥ 0`. -/
def Op.Valid : Op K N → Prop
  | .construct _ limit _ | .constructList _ limit _ _ | .copy _ _ limit _ => limit < 2 ^ 63
  | .setScalar _ known _ | .setKnown _ known => known < 2 ^ 63
  | .addsub _ _ _ s _ => 0 ≤ s
  | _ => True

/-- No assignment `y = y.low(n)`, for which `std::copy` promises nothing. -/
def Op.NoSelfCopy : Op K N → Prop
  | .assign i a => a.reg = i → 0 < a.shift
  | _ => True

/-- Where the iterations of a loop may take place in any order: an elementwise operation from the destination to itself
does not shift. -/
def Op.Unshifted : Op K N → Prop
  | .neg i a | .derivativeShift i a _ | .integralShift i a _ | .ldexp i a _ | .mul1p i a _ _ => a.reg = i → a.shift = 0
  | _ => True

/-- The operand is a view of series `i` that has a pointer. -/
def Arg.Into (ρ : Fin N → Obj) (i : Fin N) (a : Arg N) : Prop := a.reg = i ∧ (a.view ρ).null = false

/-- The operations that refuse to work in place, on operands for which they do: addition, and every function that iterates,
except that those which check for an operand without known terms first let it pass. -/
def Op.Overlaps (ρ : Fin N → Obj) : Op K N → Prop
  | .addsub i _ _ _ a | .expm1 i a _ _ => a.Into ρ i
  | .inv i a | .inv1p i a _ | .log i a | .log1p i a _ | .exp i a | .log1pExp i a _ => a.Into ρ i ∧ (a.view ρ).known ≠ 0
  | .div i a b | .div1p i a b _ => a.Into ρ i ∨ b.Into ρ i
  | _ => False

/-- What a history runs on. -/
structure State (K : Type) (N : ℕ) where
  mem : Mem K
  reg : Fin N → Obj

/-- The result of an operation on register `i`. -/
def State.put (s : State K N) (i : Fin N) (r : Mem K × Obj) : State K N := ⟨r.1, Function.update s.reg i r.2⟩

/-- `N` series without storage. -/
def State.init (N : ℕ) (junk : ℕ → ℕ → K) : State K N := ⟨⟨N, fun _ => 0, junk⟩, fun i => ⟨i, 0, 0, 0⟩⟩

variable [Zero K] [One K] [Add K] [Sub K] [Neg K] [Mul K] [Div K] [IntCast K] [Ldexp K] [DecidableEq K]

/-- One operation in memory.  A series without storage is a block of size zero; `move` and `clear` leave a new one behind. -/
def step (sch : Sched K) (ker : Ker K) (J : Junk K) (s : State K N) : Op K N → Res (State K N)
  | .construct i limit junk => .ok (s.put i (alloc s.mem limit junk))
  | .constructList i limit junk cs => (Heap.ofList s.mem limit junk cs).map (s.put i)
  | .move i j junk =>
    .ok ⟨(alloc s.mem 0 junk).1, Function.update (Function.update s.reg j (alloc s.mem 0 junk).2) i (s.reg j)⟩
  | .swap i j => .ok ⟨s.mem, Function.update (Function.update s.reg i (s.reg j)) j (s.reg i)⟩
  | .clear i junk => .ok (s.put i (alloc s.mem 0 junk))
  | .copy i a limit junk =>
    (Heap.assign (alloc s.mem limit junk).1 (alloc s.mem limit junk).2 (a.view s.reg)).map (s.put i)
  | .setScalar i known c => (Heap.setScalar s.mem (s.reg i) known c).map (s.put i)
  | .setUnknown i => .ok (s.put i (s.mem, (s.reg i).setUnknown))
  | .setKnown i known => ((s.reg i).setKnown known).map fun o => s.put i (s.mem, o)
  | .reduceKnown i known => ((s.reg i).reduceKnown known).map fun o => s.put i (s.mem, o)
  | .addScalar i c => (Heap.addScalar s.mem (s.reg i) c).map (s.put i)
  | .assign i a => (Heap.assign s.mem (s.reg i) (a.view s.reg)).map (s.put i)
  | .addsub i sign b n a => (Heap.addsub sch s.mem (s.reg i) sign b n (a.view s.reg)).map (s.put i)
  | .neg i a => (Heap.neg sch s.mem (s.reg i) (a.view s.reg)).map (s.put i)
  | .mul i a b => (Heap.mul sch ker s.mem (s.reg i) (a.view s.reg) (b.view s.reg)).map (s.put i)
  | .mul1p i a b n => (Heap.mul1p sch ker s.mem (s.reg i) (a.view s.reg) (b.view s.reg) n).map (s.put i)
  | .sqr i a => (Heap.sqr sch ker s.mem (s.reg i) (a.view s.reg)).map (s.put i)
  | .inv i a => (Heap.inv sch ker J s.mem (s.reg i) (a.view s.reg)).map (s.put i)
  | .inv1p i a n => (Heap.inv1p sch ker J s.mem (s.reg i) (a.view s.reg) n).map (s.put i)
  | .div i a b => (Heap.div sch ker J s.mem (s.reg i) (a.view s.reg) (b.view s.reg)).map (s.put i)
  | .div1p i a b n => (Heap.div1p sch ker J s.mem (s.reg i) (a.view s.reg) (b.view s.reg) n).map (s.put i)
  | .derivativeShift i a n => (Heap.derivativeShift sch s.mem (s.reg i) (a.view s.reg) n).map (s.put i)
  | .integralShift i a n => (Heap.integralShift sch s.mem (s.reg i) (a.view s.reg) n).map (s.put i)
  | .log i a => (Heap.log sch ker J s.mem (s.reg i) (a.view s.reg)).map (s.put i)
  | .log1p i a n => (Heap.log1p sch ker J s.mem (s.reg i) (a.view s.reg) n).map (s.put i)
  | .exp i a => (Heap.exp sch ker J s.mem (s.reg i) (a.view s.reg)).map (s.put i)
  | .expm1 i a sign n => (Heap.expm1 sch ker J s.mem (s.reg i) (a.view s.reg) sign n).map (s.put i)
  | .log1pExp i a n => (Heap.log1pExp sch ker J s.mem (s.reg i) (a.view s.reg) n).map (s.put i)
  | .ldexp i a b => (Heap.ldexpSer sch s.mem (s.reg i) (a.view s.reg) b).map (s.put i)

/-- The same operation when every operand is a copy of its own, so that nothing overlaps (`Verif/Series/Model.lean`). -/
def vstep (ker : Ker K) (J : Junk K) (σ : Fin N → Ser K) : Op K N → Res (Fin N → Ser K)
  | .construct i limit junk => .ok (Function.update σ i (Ser.new limit junk))
  | .constructList i limit junk cs => (Ser.ofList limit junk cs).map (Function.update σ i)
  | .move i j _ => .ok (Function.update (Function.update σ j (σ j).cleared) i (σ j))
  | .swap i j => .ok (Function.update (Function.update σ i (σ j)) j (σ i))
  | .clear i _ => .ok (Function.update σ i (σ i).cleared)
  | .copy i a limit junk => ((a.ser σ).copy limit junk).map (Function.update σ i)
  | .setScalar i known c => ((σ i).setScalar known c).map (Function.update σ i)
  | .setUnknown i => .ok (Function.update σ i (σ i).setUnknown)
  | .setKnown i known => ((σ i).setKnown known).map (Function.update σ i)
  | .reduceKnown i known => ((σ i).reduceKnown known).map (Function.update σ i)
  | .addScalar i c => ((σ i).addScalar c).map (Function.update σ i)
  | .assign i a => ((σ i).assign (a.ser σ)).map (Function.update σ i)
  | .addsub i sign b n a => ((σ i).highAddsubLdexp sign b n (a.ser σ)).map (Function.update σ i)
  | .neg i a => (Ser.neg (σ i) (a.ser σ)).map (Function.update σ i)
  | .mul i a b => (Ser.mul ker (σ i) (a.ser σ) (b.ser σ)).map (Function.update σ i)
  | .mul1p i a b n => (Ser.mul1p ker (σ i) (a.ser σ) (b.ser σ) n).map (Function.update σ i)
  | .sqr i a => (Ser.sqr ker (σ i) (a.ser σ)).map (Function.update σ i)
  | .inv i a => (Ser.inv ker J (σ i) (a.ser σ)).map (Function.update σ i)
  | .inv1p i a n => (Ser.inv1p ker J (σ i) (a.ser σ) n).map (Function.update σ i)
  | .div i a b => (Ser.div ker J (σ i) (a.ser σ) (b.ser σ)).map (Function.update σ i)
  | .div1p i a b n => (Ser.div1p ker J (σ i) (a.ser σ) (b.ser σ) n).map (Function.update σ i)
  | .derivativeShift i a n => (Ser.derivativeShift (σ i) (a.ser σ) n).map (Function.update σ i)
  | .integralShift i a n => (Ser.integralShift (σ i) (a.ser σ) n).map (Function.update σ i)
  | .log i a => (Ser.log ker J (σ i) (a.ser σ)).map (Function.update σ i)
  | .log1p i a n => (Ser.log1p ker J (σ i) (a.ser σ) n).map (Function.update σ i)
  | .exp i a => (Ser.exp ker J (σ i) (a.ser σ)).map (Function.update σ i)
  | .expm1 i a sign n => (Ser.expm1 ker J (σ i) (a.ser σ) sign n).map (Function.update σ i)
  | .log1pExp i a n => (Ser.log1pExp ker J (σ i) (a.ser σ) n).map (Function.update σ i)
  | .ldexp i a b => (Ser.ldexpSer (σ i) (a.ser σ) b).map (Function.update σ i)

/-- A history in memory. -/
def run (sch : Sched K) (ker : Ker K) (s : State K N) : List (Junk K × Op K N) → Res (State K N)
  | [] => .ok s
  | (J, op) :: ops => do
    let s ← step sch ker J s op
    run sch ker s ops

/-- A history of copies. -/
def vrun (ker : Ker K) (σ : Fin N → Ser K) : List (Junk K × Op K N) → Res (Fin N → Ser K)
  | [] => .ok σ
  | (J, op) :: ops => do
    let σ ← vstep ker J σ op
    vrun ker σ ops

/-- The registers hold the series, each in a block of its own. -/
structure Inv (s : State K N) (σ : Fin N → Ser K) : Prop where
  holds : ∀ i, Holds s.mem (s.reg i) (σ i)
  inj : ∀ i j, (s.reg i).block = (s.reg j).block → i = j

omit [Zero K] [One K] [Add K] [Sub K] [Neg K] [Mul K] [Div K] [IntCast K] [Ldexp K] [DecidableEq K]

theorem init_inv (junk : ℕ → ℕ → K) (j : ℕ → K) : Inv (State.init N junk) fun _ => Ser.new 0 j := by
  have g : ∀ d : ℕ → K, (⟨0, 0, 0, d⟩ : Ser K).Good := fun d => ⟨⟨le_rfl, le_rfl, le_rfl⟩, by norm_num, by norm_num⟩
  refine ⟨fun i => ⟨⟨i.2, rfl, g _⟩, ⟨g _, Ser.new_good (by norm_num) _, rfl, rfl, fun k hk => ?_⟩, rfl⟩, fun i j h => Fin.ext h⟩
  simp only [Obj.ser, State.init] at hk
  omega

theorem Inv.put {s : State K N} {σ : Fin N → Ser K} (h : Inv s σ) {i : Fin N} {r : Mem K × Obj} {x : Ser K}
    (hr : Post s.mem (s.reg i).block r x) : Inv (s.put i r) (Function.update σ i x) := by
  refine ⟨fun j => ?_, fun j k e => ?_⟩
  · rcases eq_or_ne j i with rfl | hj
    · simp only [State.put, Function.update_self]; exact hr.2.2
    · simp only [State.put, Function.update_of_ne hj]
      exact (h.holds j).frame hr.1 fun e => hj (h.inj _ _ e)
  · have hb : ∀ l, ((s.put i r).reg l).block = (s.reg l).block := by
      intro l
      rcases eq_or_ne l i with rfl | hl
      · simp only [State.put, Function.update_self]; exact hr.2.1
      · simp only [State.put, Function.update_of_ne hl]
    rw [hb, hb] at e
    exact h.inj _ _ e

/-- A new series in register `i`. -/
theorem Inv.putNew {s : State K N} {σ : Fin N → Ser K} (h : Inv s σ) {i : Fin N} {r : Mem K × Obj} {x : Ser K}
    (hf : Frame s.mem r.1 s.mem.next) (hb : r.2.block = s.mem.next) (hr : Holds r.1 r.2 x) :
    Inv (s.put i r) (Function.update σ i x) := by
  refine ⟨fun j => ?_, fun j k e => ?_⟩
  · rcases eq_or_ne j i with rfl | hj
    · simp only [State.put, Function.update_self]; exact hr
    · simp only [State.put, Function.update_of_ne hj]
      exact (h.holds j).frame hf (h.holds j).ok.lt.ne
  · have h1 := (h.holds j).ok.lt
    have h2 := (h.holds k).ok.lt
    by_cases hj : j = i <;> by_cases hk : k = i
    · rw [hj, hk]
    · subst hj; simp only [State.put, Function.update_self, Function.update_of_ne hk] at e; omega
    · subst hk; simp only [State.put, Function.update_self, Function.update_of_ne hj] at e; omega
    · simp only [State.put, Function.update_of_ne hj, Function.update_of_ne hk] at e
      exact h.inj _ _ e

theorem Arg.view_block (ρ : Fin N → Obj) (a : Arg N) : (a.view ρ).block = (ρ a.reg).block := by
  obtain ⟨r, cuts⟩ := a
  suffices h : ∀ v : View, (cuts.foldl Cut.view v).block = v.block from h _
  induction cuts with
  | nil => exact fun _ => rfl
  | cons c cs ih => intro v; rw [List.foldl_cons, ih]; cases c <;> rfl

theorem Arg.view_off (ρ : Fin N → Obj) (a : Arg N) : (a.view ρ).off = a.shift := by
  obtain ⟨r, cuts⟩ := a
  suffices h : ∀ v : View, (cuts.foldl Cut.view v).off = v.off + (cuts.map Cut.shift).sum by
    simpa [Arg.view, Arg.shift, Obj.view] using h (ρ r).view
  induction cuts with
  | nil => exact fun _ => rfl
  | cons c cs ih =>
    intro v
    rw [List.foldl_cons, ih, List.map_cons, List.sum_cons, ← Nat.add_assoc]
    cases c with
    | low n => rfl
    | high n => simp only [Cut.view, View.high, Cut.shift, relu]; omega

/-- A view with a pointer points to a cell of its series. -/
theorem Arg.view_off_lt (ρ : Fin N → Obj) (a : Arg N) (hl : ∀ i, (ρ i).nonzero ≤ (ρ i).limit ∧ 0 ≤ (ρ i).limit)
    (h : (a.view ρ).null = false) : ((a.view ρ).off : ℤ) < (ρ a.reg).limit := by
  obtain ⟨r, cuts⟩ := a
  suffices h : ∀ v : View, (0 < v.nonzero → v.off + v.nonzero ≤ (ρ r).limit) → (v.null = false → (v.off : ℤ) < (ρ r).limit) →
      ((cuts.foldl Cut.view v).null = false → ((cuts.foldl Cut.view v).off : ℤ) < (ρ r).limit) by
    refine h _ ?_ ?_ (by assumption)
    · have := (hl r).1; simp only [Obj.view]; omega
    · have := (hl r).2
      intro h0
      simp only [Obj.view, beq_eq_false_iff_ne, ne_eq] at h0 ⊢
      omega
  clear h
  induction cuts with
  | nil => exact fun _ _ h => h
  | cons c cs ih =>
    intro v h1 h2
    rw [List.foldl_cons]
    apply ih
    · cases c with
      | low n => simp only [Cut.view, View.low]; omega
      | high n => simp only [Cut.view, View.high, relu]; omega
    · cases c with
      | low n =>
        intro h0
        simp only [Cut.view, View.low, Bool.or_eq_false_iff] at h0 ⊢
        exact h2 h0.1
      | high n =>
        intro h0
        simp only [Cut.view, View.high, Bool.or_eq_false_iff, beq_eq_false_iff_ne, ne_eq, relu] at h0 ⊢
        omega

theorem Inv.shows {s : State K N} {σ : Fin N → Ser K} (h : Inv s σ) (a : Arg N) : Shows s.mem (a.view s.reg) (a.ser σ) := by
  obtain ⟨r, cuts⟩ := a
  suffices g : ∀ (v : View) (x : Ser K), Shows s.mem v x → Shows s.mem (cuts.foldl Cut.view v) (cuts.foldl Cut.ser x) by
    have h0 := (h.holds r).shows
    exact g _ _ ⟨h0.ok, h0.sim.left, Ser.view_good h0.sim.right, h0.sim.known, h0.sim.nonzero, h0.sim.data⟩
  induction cuts with
  | nil => exact fun _ _ h => h
  | cons c cs ih =>
    intro v x hv
    rw [List.foldl_cons, List.foldl_cons]
    apply ih
    cases c with
    | low n => exact hv.low n
    | high n => exact hv.high n

theorem Inv.alias_iff {s : State K N} {σ : Fin N → Ser K} (h : Inv s σ) (i : Fin N) (a : Arg N) :
    (s.reg i).alias (a.view s.reg) = true ↔ a.Into s.reg i := by
  simp only [Obj.alias, Bool.and_eq_true, Bool.not_eq_true', beq_iff_eq, decide_eq_true_eq, Arg.view_block, Arg.Into]
  constructor
  · rintro ⟨⟨h1, h2⟩, -⟩
    exact ⟨h.inj _ _ h2, h1⟩
  · rintro ⟨rfl, h1⟩
    exact ⟨⟨h1, rfl⟩, a.view_off_lt s.reg (fun i => ⟨(h.holds i).ok.good.wf.le_limit, (h.holds i).ok.limit_nonneg⟩) h1⟩

/-- How a step in memory compares to the step on copies: when operands overlap it throws an assertion, else both do the same. -/
def Guarded (P : Prop) {A B : Type} (R : A → B → Prop) (x : Res A) (y : Res B) : Prop :=
  (P → x = .error .assertion) ∧ (¬P → RelRes R x y)

theorem Guarded.rel {A B : Type} {R : A → B → Prop} {x : Res A} {y : Res B} (h : RelRes R x y) : Guarded False R x y :=
  ⟨False.elim, fun _ => h⟩

theorem Guarded.iff {P Q : Prop} (e : P ↔ Q) {A B : Type} {R : A → B → Prop} {x : Res A} {y : Res B} (h : Guarded P R x y) :
    Guarded Q R x y := ⟨fun q => h.1 (e.mpr q), fun q => h.2 fun p => q (e.mp p)⟩

variable [Zero K] [One K] [Add K] [Sub K] [Neg K] [Mul K] [Div K] [IntCast K] [Ldexp K] [DecidableEq K]

section
variable {sch : Sched K} {ker : Ker K} {J : Junk K} {m : Mem K} {y : Obj} {x x' : View}

/-! ## What happens when the destination overlaps an operand -/

theorem alias_throws {P : Prop} [Decidable P] {A : Type} {k : Unit → Res A} (ha : y.alias x = true) :
    (slowAssert (y.alias x = false ∧ P) >>= k) = .error .assertion := by
  rw [slowAssert_false (fun h => by rw [h.1] at ha; cases ha)]; rfl

theorem addsub_alias (ha : y.alias x = true) (sign b s : ℤ) : addsub sch m y sign b s x = .error .assertion := by
  rw [addsub, slowAssert_false (fun h => by rw [h.2.1] at ha; cases ha)]; rfl

theorem inv_alias (ha : y.alias x = true) :
    inv sch ker J m y x = if x.known = 0 then .ok (m, y.setUnknown) else .error .assertion := by
  rw [inv]; split_ifs
  · rfl
  · exact alias_throws ha

theorem inv1p_alias (ha : y.alias x = true) (s : ℤ) :
    inv1p sch ker J m y x s = if x.known = 0 then .ok (m, y.setUnknown) else .error .assertion := by
  rw [inv1p]; split_ifs
  · rfl
  · exact alias_throws ha

theorem div_alias (ha : y.alias x = true ∨ y.alias x' = true) : div sch ker J m y x x' = .error .assertion := by
  rw [div, slowAssert_false (fun h => by rw [h.1, h.2] at ha; cases ha <;> contradiction)]; rfl

theorem div1p_alias (ha : y.alias x = true ∨ y.alias x' = true) (s : ℤ) : div1p sch ker J m y x x' s = .error .assertion := by
  rw [div1p, slowAssert_false (fun h => by rw [h.1, h.2.1] at ha; cases ha <;> contradiction)]; rfl

theorem log_alias (ha : y.alias x = true) :
    log sch ker J m y x = if x.known = 0 then .ok (m, y.setUnknown) else .error .assertion := by
  rw [log]; split_ifs
  · rfl
  · exact alias_throws ha
  · exact alias_throws ha

theorem log1p_alias (ha : y.alias x = true) (s : ℤ) :
    log1p sch ker J m y x s = if x.known = 0 then .ok (m, y.setUnknown) else .error .assertion := by
  rw [log1p]; split_ifs
  · rfl
  · exact alias_throws ha

theorem exp_alias (ha : y.alias x = true) :
    exp sch ker J m y x = if x.known = 0 then .ok (m, y.setUnknown) else .error .assertion := by
  rw [exp]; split_ifs
  · rfl
  all_goals rw [slowAssert_false (fun h => by rw [h] at ha; cases ha)]; rfl

theorem expm1_alias (ha : y.alias x = true) (a s : ℤ) : expm1 sch ker J m y x a s = .error .assertion := by
  rw [expm1]
  exact alias_throws ha

theorem log1pExp_alias (ha : y.alias x = true) (s : ℤ) :
    log1pExp sch ker J m y x s = if x.known = 0 then .ok (m, y.setUnknown) else .error .assertion := by
  rw [log1pExp]; split_ifs
  · rfl
  · exact alias_throws ha

end

theorem Guarded.put {P : Prop} {s : State K N} {σ : Fin N → Ser K} (h : Inv s σ) {i : Fin N} {r : Res (Mem K × Obj)}
    {t : Res (Ser K)} (hr : Guarded P (Post s.mem (s.reg i).block) r t) :
    Guarded P Inv (r.map (s.put i)) (t.map (Function.update σ i)) := by
  refine ⟨fun p => by rw [hr.1 p]; rfl, fun p => ?_⟩
  replace hr := hr.2 p
  cases r <;> cases t <;> simp only [RelRes] at hr
  · exact hr
  · exact h.put hr

section
variable {s : State K N} {σ : Fin N → Ser K} (h : Inv s σ) {i : Fin N} {r : Res (Mem K × Obj)} {t : Res (Ser K)} {a b : Arg N}
include h

/-- A function that asserts that its operand does not overlap the destination, unless the operand is known to no term. -/
theorem guarded_of (h1 : (s.reg i).alias (a.view s.reg) = true →
      r = if (a.view s.reg).known = 0 then .ok (s.mem, (s.reg i).setUnknown) else .error .assertion)
    (ht : (a.ser σ).known = 0 → t = .ok (σ i).setUnknown)
    (h2 : (s.reg i).alias (a.view s.reg) = false → RelRes (Post s.mem (s.reg i).block) r t) :
    Guarded (a.Into s.reg i ∧ (a.view s.reg).known ≠ 0) Inv (r.map (s.put i)) (t.map (Function.update σ i)) := by
  refine .put h ⟨fun p => ?_, fun p => ?_⟩
  · rw [h1 ((h.alias_iff i a).mpr p.1), if_neg p.2]
  · by_cases ha : (s.reg i).alias (a.view s.reg) = true
    · have h0 : (a.view s.reg).known = 0 := by
        by_contra hc
        exact p ⟨(h.alias_iff i a).mp ha, hc⟩
      rw [h1 ha, if_pos h0, ht ((h.shows a).sim.known.symm.trans h0)]
      exact setUnknown_post (h.holds i).room
    · exact h2 (by simpa using ha)

theorem guarded_of' (h1 : (s.reg i).alias (a.view s.reg) = true → r = .error .assertion)
    (h2 : (s.reg i).alias (a.view s.reg) = false → RelRes (Post s.mem (s.reg i).block) r t) :
    Guarded (a.Into s.reg i) Inv (r.map (s.put i)) (t.map (Function.update σ i)) := by
  refine .iff (h.alias_iff i a) (.put h ⟨h1, fun p => h2 (by simpa using p)⟩)

theorem guarded_of2 (h1 : (s.reg i).alias (a.view s.reg) = true ∨ (s.reg i).alias (b.view s.reg) = true → r = .error .assertion)
    (h2 : (s.reg i).alias (a.view s.reg) = false → (s.reg i).alias (b.view s.reg) = false →
      RelRes (Post s.mem (s.reg i).block) r t) :
    Guarded (a.Into s.reg i ∨ b.Into s.reg i) Inv (r.map (s.put i)) (t.map (Function.update σ i)) := by
  refine .iff (or_congr (h.alias_iff i a) (h.alias_iff i b)) (.put h ⟨h1, fun p => ?_⟩)
  rw [not_or] at p
  exact h2 (by simpa using p.1) (by simpa using p.2)

end

variable {sch : Sched K} {ker ker' : Ker K}

theorem Inv.fits {s : State K N} {σ : Fin N → Ser K} (h : Inv s σ) {i : Fin N} {a : Arg N}
    (hf : sch = Sched.host ∨ (a.reg = i → a.shift = 0)) : Fits sch (a.view s.reg) (s.reg i).block := by
  rcases hf with hf | hf
  · exact .inr (.inr (.inr hf))
  · by_cases hb : (s.reg a.reg).block = (s.reg i).block
    · exact .inr (.inr (.inl (by rw [Arg.view_off]; exact hf (h.inj _ _ hb))))
    · exact .inr (.inl (by rwa [Arg.view_block]))

theorem step_rel (hker : ker.Sim ker') (hk : ker.KeepsLimit) (J J' : Junk K) {s : State K N} {σ : Fin N → Ser K} (h : Inv s σ)
    {op : Op K N} (hv : op.Valid) (hc : op.NoSelfCopy) (hu : sch = Sched.host ∨ op.Unshifted) :
    Guarded (op.Overlaps s.reg) Inv (step sch ker J s op) (vstep ker' J' σ op) := by
  have R := fun i => (h.holds i).room
  have S := fun a => h.shows a
  have key : ∀ i (r : Res Obj) (t : Res (Ser K)), RelRes (fun o x => o.block = (s.reg i).block ∧ Holds s.mem o x) r t →
      RelRes Inv (r.map fun o => s.put i (s.mem, o)) (t.map (Function.update σ i)) := by
    intro i r t hr
    cases r <;> cases t <;> simp only [RelRes] at hr
    · exact hr
    · exact h.put ⟨Frame.refl _ _, hr⟩
  cases op with
  | construct i limit junk =>
    exact .rel (h.putNew (alloc_frame _ _ _ _) rfl (alloc_holds s.mem hv junk junk))
  | constructList i limit junk cs =>
    have hr := ofList_rel (m := s.mem) hv junk junk cs
    refine .rel ?_
    simp only [step, vstep]
    revert hr
    generalize Heap.ofList s.mem limit junk cs = r
    generalize Ser.ofList limit junk cs = t
    intro hr
    cases r <;> cases t <;> simp only [RelRes] at hr
    · exact hr
    · exact h.putNew (hr.new _) hr.2.1 hr.2.2
  | move i j junk =>
    refine .rel ?_
    have hf := alloc_frame s.mem 0 junk s.mem.next
    have h0 : Holds (alloc s.mem 0 junk).1 (alloc s.mem 0 junk).2 (σ j).cleared := alloc_holds s.mem (by norm_num) junk _
    have hb : (alloc s.mem 0 junk).2.block = s.mem.next := rfl
    have hlt := fun l => (h.holds l).ok.lt
    refine ⟨fun l => ?_, fun l k e => ?_⟩
    · simp only [Function.update_apply]
      split_ifs
      · exact (h.holds j).frame hf (hlt j).ne
      · exact h0
      · exact (h.holds l).frame hf (hlt l).ne
    · have e1 := hlt j
      have e2 := hlt k
      have e3 := hlt l
      simp only [Function.update_apply] at e
      split_ifs at e with c1 c2 c3 c4 c5 c6 c7 c8
      · rw [c1, c2]
      · omega
      · exact absurd (h.inj _ _ e).symm c3
      · omega
      · rw [c4, c6]
      · omega
      · exact absurd (h.inj _ _ e) c4
      · omega
      · exact h.inj _ _ e
  | swap i j =>
    refine .rel ?_
    refine ⟨fun l => ?_, fun l k e => ?_⟩
    · simp only [Function.update_apply]
      split_ifs
      · exact h.holds i
      · exact h.holds j
      · exact h.holds l
    · simp only [Function.update_apply] at e
      split_ifs at e with c1 c2 c3 c4 c5 c6 c7 c8
      all_goals
        have e' := h.inj _ _ e
        first
        | exact e'
        | (subst_vars; first | rfl | contradiction)
  | clear i junk =>
    exact .rel (h.putNew (x := (σ i).cleared) (alloc_frame _ _ _ _) rfl (alloc_holds s.mem (by norm_num) junk _))
  | copy i a limit junk =>
    have h0 := alloc_holds s.mem hv junk junk
    have hs := (S a).frame (alloc_frame s.mem limit junk s.mem.next) (apart_new (S a) le_rfl)
    have hr := assign_rel h0.room hs (by
      rcases apart_new (S a) (le_refl s.mem.next) with h | h
      · exact .inl h
      · exact .inr (.inl h))
    refine .rel ?_
    simp only [step, vstep, Ser.copy]
    revert hr
    generalize Heap.assign (alloc s.mem limit junk).1 (alloc s.mem limit junk).2 (a.view s.reg) = r
    generalize (Ser.new limit junk).assign (a.ser σ) = t
    intro hr
    cases r <;> cases t <;> simp only [RelRes] at hr
    · exact hr
    · exact h.putNew (hr.new _) hr.2.1 hr.2.2
  | setScalar i known c => exact .put h (.rel (setScalar_rel (R i) hv c))
  | setUnknown i => exact .rel (h.put (setUnknown_post (R i)))
  | setKnown i known => exact .rel (key i _ _ (setKnown_rel (h.holds i) hv))
  | reduceKnown i known =>
    have e : (σ i).known = (s.reg i).known := (h.holds i).sim.known.symm
    have hlt : (s.reg i).known < 2 ^ 63 := (h.holds i).ok.good.known_lt
    refine .rel (key i _ _ ?_)
    rw [Obj.reduceKnown, Ser.reduceKnown, e]
    exact setKnown_rel (h.holds i) (by omega)
  | addScalar i c => exact .put h (.rel (addScalar_rel (h.holds i) c))
  | assign i a =>
    refine .put h (.rel (assign_rel (R i) (S a) ?_))
    by_cases hb : (s.reg a.reg).block = (s.reg i).block
    · exact .inr (.inr (by rw [Arg.view_off]; exact (hc (h.inj _ _ hb)).ne'))
    · exact .inr (.inl (by rwa [Arg.view_block]))
  | addsub i sign b n a => exact guarded_of' h (addsub_alias · _ _ _) (addsub_rel (h.holds i) (S a) · _ _ hv)
  | neg i a => exact .put h (.rel (neg_rel (R i) (S a) (h.fits hu)))
  | mul i a b => exact .put h (.rel (mul_rel hker (R i) (S a) (S b)))
  | mul1p i a b n => exact .put h (.rel (mul1p_rel hker (R i) (S a) (S b) (h.fits hu) n))
  | sqr i a => exact .put h (.rel (sqr_rel hker (R i) (S a)))
  | inv i a =>
    refine guarded_of h inv_alias (fun h0 => ?_) (inv_rel hker hk (R i) (S a))
    simp only [Ser.inv, h0]; rfl
  | inv1p i a n =>
    refine guarded_of h (inv1p_alias · n) (fun h0 => ?_) (inv1p_rel hker (R i) (S a) · n)
    simp only [Ser.inv1p, h0]; rfl
  | div i a b => exact guarded_of2 h div_alias (div_rel hker hk (R i) (S a) (S b))
  | div1p i a b n => exact guarded_of2 h (div1p_alias · n) (div1p_rel hker (R i) (S a) (S b) · · n)
  | derivativeShift i a n => exact .put h (.rel (derivativeShift_rel (R i) (S a) (h.fits hu) n))
  | integralShift i a n => exact .put h (.rel (integralShift_rel (R i) (S a) (h.fits hu) n))
  | log i a =>
    refine guarded_of h log_alias (fun h0 => ?_) (log_rel hker hk (R i) (S a))
    simp only [Ser.log, h0]; rfl
  | log1p i a n =>
    refine guarded_of h (log1p_alias · n) (fun h0 => ?_) (log1p_rel hker (R i) (S a) · n)
    simp only [Ser.log1p, h0]; rfl
  | exp i a =>
    refine guarded_of h exp_alias (fun h0 => ?_) (exp_rel hker hk (R i) (S a))
    simp only [Ser.exp, h0]; rfl
  | expm1 i a sign n => exact guarded_of' h (expm1_alias · sign n) (expm1_rel hker (R i) (S a) · sign n)
  | log1pExp i a n =>
    refine guarded_of h (log1pExp_alias · n) (fun h0 => ?_) (log1pExp_rel hker hk (R i) (S a) · n)
    simp only [Ser.log1pExp, h0]; rfl
  | ldexp i a b => exact .put h (.rel (ldexpSer_rel (R i) (S a) (h.fits hu) b))

theorem run_rel (hker : ker.Sim ker') (hk : ker.KeepsLimit) {ops : List (Junk K × Op K N)} : ∀ {s : State K N} {σ : Fin N → Ser K},
    Inv s σ → (∀ op ∈ ops, op.2.Valid ∧ op.2.NoSelfCopy ∧ (sch = Sched.host ∨ op.2.Unshifted)) →
    run sch ker s ops = .error .assertion ∨ RelRes Inv (run sch ker s ops) (vrun ker' σ ops) := by
  induction ops with
  | nil => intro s σ h _; exact .inr h
  | cons o ops ih =>
    intro s σ h hv
    obtain ⟨J, op⟩ := o
    obtain ⟨h1, h2, h3⟩ := hv _ List.mem_cons_self
    rw [run, vrun]
    have hg := step_rel hker hk J J h h1 h2 h3
    by_cases he : op.Overlaps s.reg
    · rw [hg.1 he]; exact .inl rfl
    · have hr := hg.2 he
      revert hr
      cases step sch ker J s op <;> cases vstep ker' J σ op <;> intro hr <;> simp only [RelRes] at hr
      · exact .inr hr
      · exact ih hr fun o ho => hv o (List.mem_cons_of_mem _ ho)

end Mandelbrot.Heap
