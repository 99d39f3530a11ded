import Verif.Series.Alias
import Verif.Series.Junk

/-!
# The functions over a memory do what the functions on values do
-/

set_option linter.unusedSectionVars false

namespace Mandelbrot.Heap

open Ser (Good Sim SimL Dst)

variable {K : Type}

/-! ## Loops -/

/-- The memory after the iterations `l` of a loop that stores `g`. -/
def filled (m : Mem K) (b base : ℕ) (l : List ℕ) (g : ℕ → K) : Mem K :=
  { m with cell := Function.update m.cell b fun a => if base ≤ a ∧ a - base ∈ l then g (a - base) else m.cell b a }

theorem filled_nil (m : Mem K) (b base : ℕ) (g : ℕ → K) : filled m b base [] g = m := by
  simp [filled]

theorem filled_other (m : Mem K) {b c : ℕ} (base : ℕ) (l : List ℕ) (g : ℕ → K) (h : c ≠ b) :
    (filled m b base l g).cell c = m.cell c := by
  simp only [filled, Function.update_of_ne h]

theorem filled_self (m : Mem K) (b base : ℕ) (l : List ℕ) (g : ℕ → K) (a : ℕ) :
    (filled m b base l g).cell b a = if base ≤ a ∧ a - base ∈ l then g (a - base) else m.cell b a := by
  simp only [filled, Function.update_self]

theorem filled_snoc (m : Mem K) (b base : ℕ) (l : List ℕ) (g : ℕ → K) (i : ℕ) (h : base + i < m.size b) :
    wr (filled m b base l g) b (base + i) (g i) = .ok (filled m b base (l ++ [i]) g) := by
  have hs : (filled m b base l g).size = m.size := rfl
  rw [wr, hs, if_pos h]
  congr 1
  simp only [filled, Function.update_self, Function.update_idem, Mem.mk.injEq, true_and]
  congr 1
  funext a
  by_cases ha : a = base + i
  · subst ha
    simp
  · rw [Function.update_of_ne ha]
    have : (a - base = i ∧ base ≤ a) ↔ False := ⟨fun h => ha (by omega), False.elim⟩
    by_cases hb : base ≤ a ∧ a - base ∈ l
    · rw [if_pos hb, if_pos ⟨hb.1, List.mem_append_left _ hb.2⟩]
    · rw [if_neg hb, if_neg]
      rintro ⟨h1, h2⟩
      rcases List.mem_append.mp h2 with h2 | h2
      · exact hb ⟨h1, h2⟩
      · exact ha (by have := List.mem_singleton.mp h2; omega)

theorem foldl_filled (m : Mem K) (b base : ℕ) (g : ℕ → K) (body : Mem K → ℕ → Res K) (order : List ℕ)
    (hsize : ∀ i ∈ order, base + i < m.size b)
    (hbody : ∀ done i rest, order = done ++ i :: rest → body (filled m b base done g) i = .ok (g i)) :
    ∀ (l done : List ℕ), order = done ++ l →
      l.foldlM (fun m i => do
        let a ← body m i
        wr m b (base + i) a) (filled m b base done g) = (.ok (filled m b base order g) : Res (Mem K)) := by
  intro l
  induction l with
  | nil => intro done h; rw [List.append_nil] at h; subst h; rfl
  | cons i l ih =>
    intro done h
    rw [List.foldlM_cons, hbody done i l h, bok,
      filled_snoc _ _ _ _ _ _ (hsize i (by rw [h]; simp)), bok]
    exact ih _ (by rw [h]; simp)

/-- A loop whose body returns `g i` when it is reached stores `g`. -/
theorem loop_ok {sch : Sched K} {m : Mem K} {b base : ℕ} {n : ℤ} {body : Mem K → ℕ → Res K} (g : ℕ → K)
    (hsize : 0 < n → base + n.toNat ≤ m.size b)
    (hbody : ∀ done i rest, sch.order m n.toNat = done ++ i :: rest → i < n.toNat → i ∉ done →
      body (filled m b base done g) i = .ok (g i)) :
    loop sch m b base n body = .ok (filled m b base (List.range n.toNat) g) := by
  have hp := sch.perm m n.toNat
  have hm : ∀ i, i ∈ sch.order m n.toNat ↔ i < n.toNat := fun i => hp.mem_iff.trans List.mem_range
  have hd : (sch.order m n.toNat).Nodup := hp.nodup_iff.mpr List.nodup_range
  have h := foldl_filled m b base g body (sch.order m n.toNat)
    (fun i hi => by have := (hm i).mp hi; have := hsize (by omega); omega)
    (fun done i rest e => hbody done i rest e ((hm i).mp (by rw [e]; simp)) (by
      rw [e, List.nodup_append] at hd
      intro hi
      exact hd.2.2 i hi i List.mem_cons_self rfl))
    (sch.order m n.toNat) [] rfl
  rw [filled_nil] at h
  rw [loop, h]
  congr 1
  simp only [filled, hm, List.mem_range]

theorem filled_range (m : Mem K) (b : ℕ) (n : ℕ) (g : ℕ → K) (a : ℕ) :
    (filled m b 0 (List.range n) g).cell b a = if a < n then g a else m.cell b a := by
  rw [filled_self]
  simp

/-! ## What is known of the memory -/

/-- A series whose storage is allocated. -/
structure Obj.Ok (m : Mem K) (o : Obj) : Prop where
  lt : o.block < m.next
  size : m.size o.block = o.limit.toNat
  good : (o.ser m).Good

/-- A view with a null pointer, or one that points to a block that is allocated and whose cells are in the block. -/
structure View.Ok (m : Mem K) (v : View) : Prop where
  good : (v.ser m).Good
  ptr : 0 < v.nonzero → v.null = false ∧ v.block < m.next ∧ v.off + v.nonzero.toNat ≤ m.size v.block
  live : v.null = false → v.block < m.next

/-- The series `o` holds `x`. -/
structure Holds (m : Mem K) (o : Obj) (x : Ser K) : Prop where
  ok : o.Ok m
  sim : SimL (o.ser m) x

/-- The view `v` shows `x`. -/
structure Shows (m : Mem K) (v : View) (x : Ser K) : Prop where
  ok : v.Ok m
  sim : Sim (v.ser m) x

/-- The series `o` has the storage that `x` has. -/
structure Room (m : Mem K) (o : Obj) (x : Ser K) : Prop where
  ok : o.Ok m
  dst : Dst (o.ser m) x

theorem Holds.room {m : Mem K} {o : Obj} {x : Ser K} (h : Holds m o x) : Room m o x := ⟨h.ok, h.sim.dst⟩

/-- Nothing but block `b` and new blocks changed. -/
structure Frame (m m' : Mem K) (b : ℕ) : Prop where
  next : m.next ≤ m'.next
  size : ∀ c < m.next, m'.size c = m.size c
  cell : ∀ c < m.next, c ≠ b → m'.cell c = m.cell c

theorem Frame.refl (m : Mem K) (b : ℕ) : Frame m m b := ⟨le_rfl, fun _ _ => rfl, fun _ _ _ => rfl⟩

theorem Frame.trans {m m' m'' : Mem K} {b c : ℕ} (h : Frame m m' b) (h' : Frame m' m'' c) (hc : c = b ∨ m.next ≤ c) :
    Frame m m'' b :=
  ⟨h.next.trans h'.next, fun d hd => (h'.size d (hd.trans_le h.next)).trans (h.size d hd), fun d hd hb =>
    (h'.cell d (hd.trans_le h.next) (by omega)).trans (h.cell d hd hb)⟩

theorem alloc_frame (m : Mem K) (limit : ℤ) (junk : ℕ → K) (b : ℕ) : Frame m (alloc m limit junk).1 b :=
  ⟨Nat.le_succ _, fun c hc => Function.update_of_ne (by omega) _ _, fun c hc _ => Function.update_of_ne (by omega) _ _⟩

theorem filled_frame (m : Mem K) (b base : ℕ) (l : List ℕ) (g : ℕ → K) : Frame m (filled m b base l g) b :=
  ⟨le_rfl, fun _ _ => rfl, fun _ _ h => filled_other m base l g h⟩

theorem alloc_holds (m : Mem K) {limit : ℤ} (h : limit < 2 ^ 63) (junk junk' : ℕ → K) :
    Holds (alloc m limit junk).1 (alloc m limit junk).2 (Ser.new limit junk') := by
  refine ⟨⟨Nat.lt_succ_self _, Function.update_self _ _ _, ?_⟩, ?_⟩
  · exact ⟨⟨le_rfl, le_rfl, relu_nonneg _⟩, by simp only [Obj.ser, alloc, relu]; omega, by norm_num [Obj.ser, alloc]⟩
  · exact ⟨⟨⟨⟨le_rfl, le_rfl, relu_nonneg _⟩, by simp only [Obj.ser, alloc, relu]; omega, by norm_num [Obj.ser, alloc]⟩,
      Ser.new_good h _, rfl, rfl, fun i hi => by simp only [Obj.ser, alloc] at hi; omega⟩, rfl⟩

theorem Holds.frame {m m' : Mem K} {b : ℕ} {o : Obj} {x : Ser K} (h : Holds m o x) (hf : Frame m m' b) (hb : o.block ≠ b) :
    Holds m' o x := by
  have hc := hf.cell _ h.ok.lt hb
  have e : o.ser m' = o.ser m := by simp only [Obj.ser, hc]
  exact ⟨⟨h.ok.lt.trans_le hf.next, (hf.size _ h.ok.lt).trans h.ok.size, e ▸ h.ok.good⟩, e ▸ h.sim⟩

theorem Room.frame {m m' : Mem K} {b : ℕ} {o : Obj} {x : Ser K} (h : Room m o x) (hf : Frame m m' b) : Room m' o x :=
  have g : (o.ser m').Good := ⟨⟨h.ok.good.wf.nonneg, h.ok.good.wf.le_known, h.ok.good.wf.le_limit⟩, h.ok.good.limit_lt,
    h.ok.good.known_lt⟩
  ⟨⟨h.ok.lt.trans_le hf.next, (hf.size _ h.ok.lt).trans h.ok.size, g⟩, ⟨g, h.dst.right, h.dst.limit⟩⟩

/-- The view is empty or shows cells of another block. -/
def Apart (v : View) (b : ℕ) : Prop := v.nonzero = 0 ∨ v.block ≠ b

theorem Shows.frame {m m' : Mem K} {b : ℕ} {v : View} {x : Ser K} (h : Shows m v x) (hf : Frame m m' b) (hb : Apart v b) :
    Shows m' v x := by
  have g : (v.ser m').Good := ⟨⟨h.ok.good.wf.nonneg, h.ok.good.wf.le_known, h.ok.good.wf.le_limit⟩, h.ok.good.limit_lt,
    h.ok.good.known_lt⟩
  refine ⟨⟨g, fun hz => ?_, ?_⟩, ⟨g, h.sim.right, h.sim.known, h.sim.nonzero, fun i hi => ?_⟩⟩
  · obtain ⟨h1, h2, h3⟩ := h.ok.ptr hz
    exact ⟨h1, h2.trans_le hf.next, h3.trans_eq (hf.size _ h2).symm⟩
  · exact fun hn => (h.ok.live hn).trans_le hf.next
  · have hz : 0 < v.nonzero := by simp only [View.ser] at hi; omega
    have hc := hf.cell _ (h.ok.ptr hz).2.1 (by rcases hb with hb | hb <;> omega)
    rw [← h.sim.data i hi]
    simp only [View.ser, hc]

theorem Holds.shows {m : Mem K} {o : Obj} {x : Ser K} (h : Holds m o x) : Shows m o.view x := by
  have hg := h.ok.good
  have hn := hg.wf.nonneg
  have hl := hg.wf.le_limit
  simp only [Obj.ser] at hn hl
  have g : (o.view.ser m).Good := ⟨⟨hn, hg.wf.le_known, le_rfl⟩, hl.trans_lt hg.limit_lt, hg.known_lt⟩
  refine ⟨⟨g, fun hz => ⟨?_, h.ok.lt, ?_⟩, fun _ => h.ok.lt⟩, ⟨g, h.sim.right, h.sim.known, h.sim.nonzero, fun i hi => ?_⟩⟩
  · simp only [Obj.view] at hz ⊢
    rw [beq_eq_false_iff_ne]; omega
  · simp only [Obj.view]
    rw [h.ok.size]; omega
  · rw [← h.sim.data i hi]
    simp only [View.ser, Obj.view, Obj.ser, Nat.zero_add]

theorem Shows.low {m : Mem K} {v : View} {x : Ser K} (h : Shows m v x) (n : ℤ) : Shows m (v.low n) (x.low n) := by
  have hg := h.ok.good
  have h1 := relu_nonneg n
  have h2 := hg.wf.nonneg
  have h3 := hg.wf.le_known
  have h4 := hg.known_lt
  have h5 := h.sim.known
  have h6 := h.sim.nonzero
  simp only [View.ser] at h2 h3 h4 h5 h6
  have g : ((v.low n).ser m).Good := by
    refine ⟨⟨?_, ?_, ?_⟩, ?_, ?_⟩ <;> simp only [View.ser, View.low] <;> omega
  refine ⟨⟨g, fun hz => ?_, fun hn => h.ok.live (Bool.or_eq_false_iff.mp hn).1⟩, ⟨g, Ser.low_good h.sim.right n, ?_, ?_, fun i hi => ?_⟩⟩
  · simp only [View.low] at hz ⊢
    obtain ⟨e1, e2, e3⟩ := h.ok.ptr (by omega)
    exact ⟨by rw [e1, Bool.false_or, beq_eq_false_iff_ne]; omega, e2, by omega⟩
  · simp only [View.ser, View.low, Ser.low, h5]
  · simp only [View.ser, View.low, Ser.low, h5, h6]
  · exact h.sim.data i (by simp only [View.ser, View.low] at hi ⊢; omega)

theorem Shows.high {m : Mem K} {v : View} {x : Ser K} (h : Shows m v x) (n : ℤ) : Shows m (v.high n) (x.high n) := by
  have hg := h.ok.good
  have h1 := relu_nonneg n
  have h2 := hg.wf.nonneg
  have h3 := hg.wf.le_known
  have h4 := hg.known_lt
  have h5 := h.sim.known
  have h6 := h.sim.nonzero
  simp only [View.ser] at h2 h3 h4 h5 h6
  have g : ((v.high n).ser m).Good := by
    refine ⟨⟨?_, ?_, ?_⟩, ?_, ?_⟩ <;> simp only [View.ser, View.high, relu] <;> omega
  refine ⟨⟨g, fun hz => ?_, fun hn => h.ok.live (Bool.or_eq_false_iff.mp hn).1⟩, ⟨g, Ser.high_good h.sim.right n, ?_, ?_, fun i hi => ?_⟩⟩
  · simp only [View.high] at hz ⊢
    obtain ⟨e1, e2, e3⟩ := h.ok.ptr (by simp only [relu] at hz; omega)
    exact ⟨by rw [e1, Bool.false_or, beq_eq_false_iff_ne]; omega, e2, by simp only [relu] at hz ⊢; omega⟩
  · simp only [View.ser, View.high, Ser.high, h5]
  · simp only [View.ser, View.high, Ser.high, h6]
  · have := h.sim.data (i + (relu n).toNat) (by simp only [View.ser, View.high, relu] at hi ⊢; push_cast; omega)
    simp only [Ser.high]
    rw [← this]
    simp only [View.ser, View.high]
    congr 1
    omega

theorem Apart.low {v : View} {b : ℕ} (h : Apart v b) (hk : v.nonzero ≤ v.known) (n : ℤ) : Apart (v.low n) b := by
  rcases h with h | h
  · left; simp only [View.low, relu]; omega
  · exact .inr h

theorem Shows.apart_low {m : Mem K} {v : View} {x : Ser K} (hs : Shows m v x) {b : ℕ} (h : Apart v b) (n : ℤ) :
    Apart (v.low n) b := h.low hs.ok.good.wf.le_known n

/-- A view that does not alias the destination is apart from it. -/
theorem apart_of_alias {m : Mem K} {y : Obj} {v : View} (hy : y.Ok m) (hv : v.Ok m) (h : y.alias v = false) :
    Apart v y.block := by
  by_contra hc
  simp only [Apart, not_or, ne_eq, not_not] at hc
  have hz := hv.good.wf.nonneg
  simp only [View.ser] at hz
  obtain ⟨h1, h2, h3⟩ := hv.ptr (by omega)
  have hs := hy.size
  simp only [Obj.alias, h1, hc.2, Bool.not_false, beq_self_eq_true, Bool.true_and, decide_eq_false_iff_not] at h
  rw [hc.2, hs] at h3
  omega

theorem not_alias {y : Obj} {v : View} (h : v.block ≠ y.block) : y.alias v = false := by
  simp [Obj.alias, h]

/-! ## Reading -/

theorem Shows.rd {m : Mem K} {v : View} {x : Ser K} (h : Shows m v x) {i : ℕ} (hi : (i : ℤ) < v.nonzero) :
    v.rd m i = .ok (x.data i) := by
  obtain ⟨h1, h2, h3⟩ := h.ok.ptr (by omega)
  rw [View.rd, h1, if_neg Bool.false_ne_true, Heap.rd, if_pos (by omega), ← h.sim.data i hi]
  rfl

theorem Holds.rd {m : Mem K} {o : Obj} {x : Ser K} (h : Holds m o x) {i : ℕ} (hi : (i : ℤ) < o.nonzero) :
    Heap.rd m o.block i = .ok (x.data i) := by
  have hl := h.ok.good.wf.le_limit
  simp only [Obj.ser] at hl
  rw [Heap.rd, if_pos (by rw [h.ok.size]; omega), ← h.sim.data i hi]
  rfl

theorem Shows.span {m : Mem K} {v : View} {x : Ser K} (h : Shows m v x) {n : ℕ} (hn : (n : ℤ) ≤ v.nonzero) :
    ∃ s, v.span m n = .ok s ∧ s.Sim ⟨n, x.data⟩ := by
  refine ⟨⟨n, fun i => m.cell v.block (v.off + i)⟩, ?_, rfl, fun i hi => h.sim.data i (by simp only [View.ser] at hi ⊢; omega)⟩
  rw [View.span, if_pos]
  by_cases h0 : n = 0
  · exact .inl h0
  · obtain ⟨h1, h2, h3⟩ := h.ok.ptr (by omega)
    exact .inr ⟨h1, by omega⟩

/-- The loop may run with `v` overlapping the destination `b`: `v` is empty, elsewhere, or begins where the destination begins, or
the iterations are in order. -/
def Fits (sch : Sched K) (v : View) (b : ℕ) : Prop := v.nonzero = 0 ∨ v.block ≠ b ∨ v.off = 0 ∨ sch = Sched.host

theorem Apart.fits {sch : Sched K} {v : View} {b : ℕ} (h : Apart v b) : Fits sch v b := by
  rcases h with h | h
  · exact .inl h
  · exact .inr (.inl h)

theorem self_fits (sch : Sched K) (o : Obj) : Fits sch o.view o.block := .inr (.inr (.inl rfl))

theorem range_split {n i : ℕ} {done rest : List ℕ} (h : List.range n = done ++ i :: rest) : ∀ j ∈ done, j < i := by
  have hs : (List.range n).Pairwise (· < ·) := List.pairwise_lt_range
  rw [h, List.pairwise_append] at hs
  exact fun j hj => hs.2.2 j hj i List.mem_cons_self

/-- Reading a view during a loop over a destination it may overlap. -/
theorem Shows.rd_loop {m : Mem K} {v : View} {x : Ser K} (h : Shows m v x) {sch : Sched K} {b : ℕ} (hf : Fits sch v b)
    {n i : ℕ} {done rest : List ℕ} (e : sch.order m n = done ++ i :: rest) (hd : i ∉ done) (g : ℕ → K)
    (hi : (i : ℤ) < v.nonzero) : v.rd (filled m b 0 done g) i = .ok (x.data i) := by
  have key : (filled m b 0 done g).cell v.block (v.off + i) = m.cell v.block (v.off + i) := by
    by_cases hb : v.block = b
    · rw [hb, filled_self, if_neg]
      rintro ⟨-, h2⟩
      rcases hf with hf | hf | hf | hf
      · omega
      · exact hf hb
      · rw [hf] at h2; simp only [Nat.zero_add, Nat.sub_zero] at h2; exact hd h2
      · subst hf
        have := range_split e _ h2
        omega
    · rw [filled_other _ _ _ _ hb]
  rw [← h.rd hi, View.rd, View.rd, Heap.rd, Heap.rd, key]
  rfl

/-! ## Results -/

/-- The outcome of an operation on a series with block `b`, started in memory `m`. -/
def Post (m : Mem K) (b : ℕ) (p : Mem K × Obj) (s : Ser K) : Prop := Frame m p.1 b ∧ p.2.block = b ∧ Holds p.1 p.2 s

/-- `Post` before it is known that the counts are consistent. -/
def Weak (m : Mem K) (y : Obj) (p : Mem K × Obj) (s : Ser K) : Prop :=
  Frame m p.1 y.block ∧ p.2 = ⟨y.block, y.limit, s.known, s.nonzero⟩ ∧ s.limit = y.limit ∧
    ∀ i : ℕ, (i : ℤ) < s.nonzero → p.1.cell y.block i = s.data i

theorem Weak.mk' {m m' : Mem K} {y o : Obj} {s : Ser K} (h1 : Frame m m' y.block)
    (h2 : o = ⟨y.block, y.limit, s.known, s.nonzero⟩) (h3 : s.limit = y.limit)
    (h4 : ∀ i : ℕ, (i : ℤ) < s.nonzero → m'.cell y.block i = s.data i) : Weak m y (m', o) s := ⟨h1, h2, h3, h4⟩

theorem Weak.post {m : Mem K} {y : Obj} {y0 : Ser K} (hy : Room m y y0) {p : Mem K × Obj} {s : Ser K} (h : Weak m y p s)
    (hg : s.Good) : Post m y.block p s := by
  obtain ⟨m', y'⟩ := p
  obtain ⟨h1, h2, h3, h4⟩ := h
  simp only at h1 h2 h4
  subst h2
  have g : (Obj.ser m' ⟨y.block, y.limit, s.known, s.nonzero⟩).Good :=
    ⟨⟨hg.wf.nonneg, hg.wf.le_known, hg.wf.le_limit.trans_eq h3⟩, h3 ▸ hg.limit_lt, hg.known_lt⟩
  exact ⟨h1, rfl, ⟨⟨hy.ok.lt.trans_le h1.next, (h1.size _ hy.ok.lt).trans hy.ok.size, g⟩,
    ⟨⟨g, hg, rfl, rfl, fun i hi => h4 i hi⟩, h3.symm⟩⟩⟩

/-- Setting counts. -/
theorem setCounts_rel {m : Mem K} {y : Obj} {y0 : Ser K} (hy : Room m y y0) (k z : ℤ) :
    RelRes (fun o s => o = ⟨y.block, y.limit, k, z⟩ ∧ s = { y0 with known := k, nonzero := z } ∧ y0.limit = y.limit ∧
      toU64 z ≤ toU64 (min y.limit k)) (y.setCounts k z) (y0.setCounts k z) := by
  have hl := hy.dst.limit
  simp only [Obj.ser] at hl
  exact RelRes.bind (RelRes.assert (by rw [hl])) fun _ _ h => RelRes.pure ⟨rfl, rfl, hl.symm, h.1⟩

theorem counts_le {k z l : ℤ} (h : toU64 z ≤ toU64 (min l k)) (hl : 0 ≤ l) (hl' : l < 2 ^ 63) (hk : 0 ≤ k) (hz : -2 ^ 63 ≤ z) :
    0 ≤ z ∧ z ≤ l := by
  rw [toU64_of_nonneg (show 0 ≤ min l k by omega)] at h
  unfold toU64 at h
  split_ifs at h <;> omega

theorem Obj.Ok.limit_nonneg {m : Mem K} {y : Obj} (h : y.Ok m) : 0 ≤ y.limit := h.good.limit_nonneg
theorem Obj.Ok.limit_lt {m : Mem K} {y : Obj} (h : y.Ok m) : y.limit < 2 ^ 63 := h.good.limit_lt

theorem setUnknown_post {m : Mem K} {y : Obj} {y0 : Ser K} (hy : Room m y y0) :
    Post m y.block (m, y.setUnknown) y0.setUnknown :=
  Weak.post hy (p := (m, y.setUnknown)) ⟨Frame.refl _ _, rfl, hy.dst.limit.symm, fun i hi => by simp only [Ser.setUnknown] at hi; omega⟩
    (Ser.setUnknown_good hy.dst.right)

theorem setKnown_rel {m : Mem K} {y : Obj} {y0 : Ser K} (hy : Holds m y y0) {k : ℤ} (hk : k < 2 ^ 63) :
    RelRes (fun o s => o.block = y.block ∧ Holds m o s) (y.setKnown k) (y0.setKnown k) := by
  have hl := hy.sim.limit
  have hz := hy.sim.nonzero
  simp only [Obj.ser] at hl hz
  have key : RelRes (fun o s => o = ⟨y.block, y.limit, k, min y.nonzero k⟩ ∧ s = { y0 with known := k, nonzero := min y0.nonzero k })
      (y.setKnown k) (y0.setKnown k) := RelRes.bind (RelRes.assert Iff.rfl) fun _ _ _ => RelRes.pure ⟨rfl, rfl⟩
  refine key.mono fun o s _ e h => ?_
  have hg := Ser.setKnown_good hy.sim.right hk e
  obtain ⟨rfl, rfl⟩ := h
  have := Weak.post hy.room (p := (m, ⟨y.block, y.limit, k, min y.nonzero k⟩)) (s := { y0 with known := k, nonzero := min y0.nonzero k })
    ⟨Frame.refl _ _, by simp only [hz], hl.symm, fun i hi => hy.sim.data i (by simp only [Obj.ser] at hi ⊢; omega)⟩ hg
  exact ⟨rfl, this.2.2⟩

variable [Zero K] [One K] [Add K] [Sub K] [Neg K] [Mul K] [Div K] [IntCast K] [Ldexp K] [DecidableEq K]

theorem ofList_rel {m : Mem K} {limit : ℤ} (h : limit < 2 ^ 63) (junk junk' : ℕ → K) (cs : List K) :
    RelRes (Post (alloc m limit junk).1 m.next) (ofList m limit junk cs) (Ser.ofList limit junk' cs) := by
  have h0 := alloc_holds m h junk junk'
  have key : RelRes (Weak (alloc m limit junk).1 (alloc m limit junk).2) (ofList m limit junk cs) (Ser.ofList limit junk' cs) := by
    refine RelRes.bind (RelRes.assert Iff.rfl) fun _ _ ha => ?_
    have hl := ha.1
    rw [loop_ok (fun i => cs.getD i (junk' i)), bok]
    · refine Weak.mk' (filled_frame _ _ _ _ _) rfl rfl fun i hi => ?_
      simp only [Nat.cast_lt] at hi
      refine (filled_range _ _ _ _ i).trans ?_
      rw [Int.toNat_natCast, if_pos hi]
      rfl
    · intro _
      refine le_trans ?_ h0.ok.size.ge
      have : (cs.length : ℤ) ≤ (alloc m limit junk).2.limit := hl
      omega
    · intro done i rest e hi hd
      simp only [Int.toNat_natCast] at hi
      rw [List.getD_eq_getElem _ _ hi, List.getD_eq_getElem _ _ hi]
      rfl
  refine key.mono fun p s _ e hw => ?_
  exact Weak.post h0.room hw (Ser.ofList_good h e)

theorem setScalar_rel {m : Mem K} {y : Obj} {y0 : Ser K} (hy : Room m y y0) {k : ℤ} (hk : k < 2 ^ 63) (a : K) :
    RelRes (Post m y.block) (setScalar m y k a) (y0.setScalar k a) := by
  have hl := hy.dst.limit
  simp only [Obj.ser] at hl
  have key : RelRes (Weak m y) (setScalar m y k a) (y0.setScalar k a) := by
    refine RelRes.bind (RelRes.assert (by rw [hl])) fun _ _ ha => ?_
    by_cases h0 : relu k ≠ 0
    · have hp : relu k > 0 := by have := relu_nonneg k; omega
      have h1 : y.limit ≥ 1 := by have := ha.1; rw [if_pos hp] at this; exact this
      rw [if_pos h0]
      have hw := filled_snoc m y.block 0 [] (fun _ => a) 0 (by rw [hy.ok.size]; omega)
      rw [filled_nil] at hw
      rw [show wr m y.block 0 a = _ from hw, bok]
      refine RelRes.pure (Weak.mk' (filled_frame m y.block 0 _ _) rfl hl.symm fun i hi => ?_)
      simp only [if_pos hp] at hi
      have : i = 0 := by omega
      subst this
      simp only [filled_self]
      simp [h0]
    · rw [if_neg h0]
      refine RelRes.pure ⟨Frame.refl _ _, rfl, hl.symm, fun i hi => ?_⟩
      simp only [if_neg (show ¬relu k > 0 by omega)] at hi
      omega
  exact key.mono fun _ _ _ e h => h.post hy (Ser.setScalar_good hy.dst.right hk e)

theorem addScalar_rel {m : Mem K} {y : Obj} {y0 : Ser K} (hy : Holds m y y0) (a : K) :
    RelRes (Post m y.block) (addScalar m y a) (y0.addScalar a) := by
  have hl := hy.sim.limit
  have hz := hy.sim.nonzero
  have hk := hy.sim.known
  simp only [Obj.ser] at hl hz hk
  have hn := hy.ok.good.wf.nonneg
  have hle := hy.ok.good.wf.le_limit
  simp only [Obj.ser] at hn hle
  have key : RelRes (Weak m y) (addScalar m y a) (y0.addScalar a) := by
    refine RelRes.bind (RelRes.assert (by rw [hz])) fun _ _ ha => ?_
    have hw := filled_snoc m y.block 0 [] (fun _ => y0.data 0 + a) 0 (by rw [hy.ok.size]; omega)
    rw [filled_nil] at hw
    rw [hy.rd (i := 0) (by omega), bok, show wr m y.block 0 (y0.data 0 + a) = _ from hw, bok]
    refine RelRes.pure (Weak.mk' (filled_frame m y.block 0 _ _) (by simp only [← hz, ← hk]) hl.symm fun i hi => ?_)
    simp only [filled_self]
    by_cases h : i = 0
    · simp [h]
    · simp only [if_neg h]
      rw [if_neg (by simp [h])]
      exact hy.sim.data i (by simp only [Obj.ser] at hi ⊢; omega)
  exact key.mono fun _ _ _ e h => h.post hy.room (Ser.addScalar_good hy.sim.right e)

theorem cwise_rel {sch : Sched K} {m : Mem K} {y : Obj} {x : View} {y0 x0 : Ser K} (hy : Room m y y0) (hx : Shows m x x0)
    (hf : Fits sch x y.block) (f : ℕ → K → K) :
    RelRes (Post m y.block) (cwise sch m y x f)
      (y0.setCounts x0.known x0.nonzero >>= fun y0 => pure (y0.loopSet x0.nonzero fun i => f i (x0.data i))) := by
  have hz := hx.sim.nonzero
  have hk := hx.sim.known
  have hg := hx.ok.good
  simp only [View.ser] at hz hk
  have hn : 0 ≤ x.nonzero := hg.wf.nonneg
  have hkn : 0 ≤ x.known := hg.wf.known_nonneg'
  have key : RelRes (Weak m y) (cwise sch m y x f)
      (y0.setCounts x0.known x0.nonzero >>= fun y0 => pure (y0.loopSet x0.nonzero fun i => f i (x0.data i))) := by
    rw [← hz, ← hk]
    refine RelRes.bind (setCounts_rel hy _ _) fun o s h => ?_
    obtain ⟨rfl, rfl, hl, hu⟩ := h
    have hle := counts_le hu hy.ok.limit_nonneg hy.ok.limit_lt hkn (by omega)
    rw [loop_ok (fun i => f i (x0.data i)) (fun _ => by simp only; rw [hy.ok.size]; omega) fun done i rest e hi hd => by
      rw [hx.rd_loop hf e hd _ (by omega)]; rfl, bok]
    refine RelRes.pure (Weak.mk' (filled_frame m y.block 0 _ _) rfl hl fun i hi => ?_)
    simp only [Ser.loopSet] at hi ⊢
    rw [filled_range, if_pos (by omega), if_pos hi]
  refine key.mono fun _ _ _ e h => h.post hy ?_
  obtain ⟨y1, h1, h2⟩ := Ser.bind_eq_ok e
  cases h2
  exact Ser.loopSet_good (Ser.setCounts_good hy.dst.right (hk ▸ hkn) (hk ▸ hg.known_lt) (by omega) h1) _ _

theorem neg_rel {sch : Sched K} {m : Mem K} {y : Obj} {x : View} {y0 x0 : Ser K} (hy : Room m y y0) (hx : Shows m x x0)
    (hf : Fits sch x y.block) : RelRes (Post m y.block) (neg sch m y x) (Ser.neg y0 x0) := cwise_rel hy hx hf _

theorem derivativeShift_rel {sch : Sched K} {m : Mem K} {y : Obj} {x : View} {y0 x0 : Ser K} (hy : Room m y y0)
    (hx : Shows m x x0) (hf : Fits sch x y.block) (s : ℤ) :
    RelRes (Post m y.block) (derivativeShift sch m y x s) (Ser.derivativeShift y0 x0 s) := cwise_rel hy hx hf _

theorem integralShift_rel {sch : Sched K} {m : Mem K} {y : Obj} {x : View} {y0 x0 : Ser K} (hy : Room m y y0)
    (hx : Shows m x x0) (hf : Fits sch x y.block) (s : ℤ) :
    RelRes (Post m y.block) (integralShift sch m y x s) (Ser.integralShift y0 x0 s) := cwise_rel hy hx hf _

theorem ldexpSer_rel {sch : Sched K} {m : Mem K} {y : Obj} {x : View} {y0 x0 : Ser K} (hy : Room m y y0)
    (hx : Shows m x x0) (hf : Fits sch x y.block) (k : ℤ) :
    RelRes (Post m y.block) (ldexpSer sch m y x k) (Ser.ldexpSer y0 x0 k) := cwise_rel hy hx hf _

/-- The source of an assignment does not begin where the destination begins. -/
theorem assign_rel {m : Mem K} {y : Obj} {x : View} {y0 x0 : Ser K} (hy : Room m y y0) (hx : Shows m x x0)
    (hf : x.nonzero = 0 ∨ x.block ≠ y.block ∨ x.off ≠ 0) : RelRes (Post m y.block) (assign m y x) (y0.assign x0) := by
  have hz := hx.sim.nonzero
  have hk := hx.sim.known
  have hl := hy.dst.limit
  simp only [View.ser, Obj.ser] at hz hk hl
  have hn : 0 ≤ x.nonzero := hx.ok.good.wf.nonneg
  have key : RelRes (Weak m y) (assign m y x) (y0.assign x0) := by
    refine RelRes.bind (RelRes.assert (by rw [hl, hz])) fun _ _ ha => ?_
    rw [if_neg (by rintro ⟨h1, -, h2, h3⟩; rcases hf with hf | hf | hf <;> contradiction)]
    rw [loop_ok x0.data (fun _ => by rw [hy.ok.size]; have := ha.1; omega) fun done i rest e hi hd =>
      hx.rd_loop (.inr (.inr (.inr rfl))) e hd _ (by omega), bok]
    refine RelRes.pure (Weak.mk' (filled_frame m y.block 0 _ _) (by simp only [hz, hk]) hl.symm fun i hi => ?_)
    simp only at hi ⊢
    rw [filled_range, if_pos (by omega), if_pos hi]
  exact key.mono fun _ _ _ e h => h.post hy (Ser.assign_good hy.dst.right hx.sim.right e)

theorem Holds.rd_loop {m : Mem K} {y : Obj} {y0 : Ser K} (hy : Holds m y y0) {done : List ℕ} {i : ℕ} (hd : i ∉ done)
    (g : ℕ → K) : (if (i : ℤ) < y.nonzero then Heap.rd (filled m y.block 0 done g) y.block i else pure 0) =
      (.ok (if (i : ℤ) < y.nonzero then y0.data i else 0) : Res K) := by
  by_cases h : (i : ℤ) < y.nonzero
  · rw [if_pos h, if_pos h, ← hy.rd h, Heap.rd, Heap.rd, filled_self, if_neg (show ¬(0 ≤ i ∧ i - 0 ∈ done) by simpa using hd)]
    rfl
  · rw [if_neg h, if_neg h]; rfl

theorem Shows.rd_shift {m : Mem K} {x : View} {x0 : Ser K} (hx : Shows m x x0) {b : ℕ} (hb : Apart x b) (done : List ℕ)
    (g : ℕ → K) {i : ℕ} {s : ℤ} : (if 0 ≤ (i : ℤ) - s ∧ (i : ℤ) - s < x.nonzero then
      x.rd (filled m b 0 done g) ((i : ℤ) - s).toNat else pure 0) =
      (.ok (if 0 ≤ (i : ℤ) - s ∧ (i : ℤ) - s < x.nonzero then x0.data ((i : ℤ) - s).toNat else 0) : Res K) := by
  by_cases h : 0 ≤ (i : ℤ) - s ∧ (i : ℤ) - s < x.nonzero
  · rw [if_pos h, if_pos h]
    exact (hx.frame (filled_frame m b 0 done _) hb).rd (by omega)
  · rw [if_neg h, if_neg h]; rfl

theorem addsub_rel {sch : Sched K} {m : Mem K} {y : Obj} {x : View} {y0 x0 : Ser K} (hy : Holds m y y0) (hx : Shows m x x0)
    (ha : y.alias x = false) (sign b : ℤ) {s : ℤ} (hs : 0 ≤ s) :
    RelRes (Post m y.block) (addsub sch m y sign b s x) (y0.highAddsubLdexp sign b s x0) := by
  have hap := apart_of_alias hy.ok hx.ok ha
  have hyl := hy.sim.limit
  have hyz := hy.sim.nonzero
  have hyk := hy.sim.known
  have hxz := hx.sim.nonzero
  have hxk := hx.sim.known
  simp only [View.ser, Obj.ser] at hyl hyz hyk hxz hxk
  have key : RelRes (Weak m y) (addsub sch m y sign b s x) (y0.highAddsubLdexp sign b s x0) := by
    simp only [addsub, Ser.highAddsubLdexp, ← hyz, ← hyk, ← hxz, ← hxk, ← hyl, ha, true_and]
    refine RelRes.bind (RelRes.assert Iff.rfl) fun _ _ hl => ?_
    rw [loop_ok (fun i =>
      (if (i : ℤ) < y.nonzero then y0.data i else 0) +
        (if sign < 0 then -(if b = 0 then (if 0 ≤ (i : ℤ) - s ∧ (i : ℤ) - s < x.nonzero then x0.data ((i : ℤ) - s).toNat else 0)
          else ldexp (if 0 ≤ (i : ℤ) - s ∧ (i : ℤ) - s < x.nonzero then x0.data ((i : ℤ) - s).toNat else 0) b)
        else (if b = 0 then (if 0 ≤ (i : ℤ) - s ∧ (i : ℤ) - s < x.nonzero then x0.data ((i : ℤ) - s).toNat else 0)
          else ldexp (if 0 ≤ (i : ℤ) - s ∧ (i : ℤ) - s < x.nonzero then x0.data ((i : ℤ) - s).toNat else 0) b)))
      (fun _ => by rw [hy.ok.size]; have := hl.1.2; omega) fun done i rest e hi hd => by
        rw [hy.rd_loop hd _, bok, hx.rd_shift hap done _, bok]; rfl, bok]
    rw [← bind_pure (Ser.setCounts _ _ _)]
    refine RelRes.bind (setCounts_rel (m := m) (y := y) ⟨hy.ok, hy.ok.good, Ser.loopSet_good hy.sim.right _ _, hyl⟩ _ _)
      fun o t h => ?_
    obtain ⟨rfl, rfl, hl, hu⟩ := h
    refine RelRes.pure (Weak.mk' (filled_frame m y.block 0 _ _) rfl hl fun i hi => ?_)
    simp only [Ser.loopSet] at hi ⊢
    rw [filled_range, if_pos (by omega), if_pos hi]
  exact key.mono fun _ _ _ e h => h.post hy.room (Ser.addsub_good hy.sim.right hx.sim.right hs e)

/-! ## Kernels -/

variable {ker ker' : Ker K}

theorem mul_rel {sch : Sched K} (hker : ker.Sim ker') {m : Mem K} {z : Obj} {x y : View} {z0 x0 y0 : Ser K} (hz : Room m z z0)
    (hx : Shows m x x0) (hy : Shows m y y0) : RelRes (Post m z.block) (mul sch ker m z x y) (Ser.mul ker' z0 x0 y0) := by
  have hxz := hx.sim.nonzero
  have hxk := hx.sim.known
  have hyz := hy.sim.nonzero
  have hyk := hy.sim.known
  simp only [View.ser] at hxz hxk hyz hyk
  have hn : 0 ≤ x.nonzero := hx.ok.good.wf.nonneg
  have hn' : 0 ≤ y.nonzero := hy.ok.good.wf.nonneg
  have hkn : 0 ≤ x.known := hx.ok.good.wf.known_nonneg'
  have hkn' : 0 ≤ y.known := hy.ok.good.wf.known_nonneg'
  have key : RelRes (Weak m z) (mul sch ker m z x y) (Ser.mul ker' z0 x0 y0) := by
    simp only [mul, Ser.mul, ← hxz, ← hxk, ← hyz, ← hyk]
    generalize hnz : min (min x.known y.known) (relu (x.nonzero + y.nonzero - 1)) = nz
    have hr := relu_nonneg (x.nonzero + y.nonzero - 1)
    refine RelRes.bind (setCounts_rel hz _ _) fun o s h => ?_
    obtain ⟨rfl, rfl, hl, hu⟩ := h
    have hle := counts_le hu hz.ok.limit_nonneg hz.ok.limit_lt (by omega) (by omega)
    obtain ⟨xs, ex, sx⟩ := hx.span (n := (min (relu nz) x.nonzero).toNat) (by have := relu_nonneg nz; omega)
    obtain ⟨ys, ey, sy⟩ := hy.span (n := (min (relu nz) y.nonzero).toNat) (by have := relu_nonneg nz; omega)
    rw [ex, bok, ey, bok]
    simp only [Ser.lowSpan, Ser.span, ← hxz, ← hyz]
    refine RelRes.bind (hker.mul _ sx sy) fun r r' hr => ?_
    rw [loop_ok r (fun _ => by rw [hz.ok.size]; omega) fun _ _ _ _ _ _ => rfl, bok]
    refine RelRes.pure (Weak.mk' (filled_frame m z.block 0 _ _) rfl hl fun i hi => ?_)
    simp only [Ser.loopSet] at hi ⊢
    rw [filled_range, if_pos (by omega), if_pos hi]
    exact hr i (by omega)
  exact key.mono fun _ _ _ e h => h.post hz (Ser.mul_good hz.dst.right hx.sim.right hy.sim.right e)

theorem sqr_rel {sch : Sched K} (hker : ker.Sim ker') {m : Mem K} {y : Obj} {x : View} {y0 x0 : Ser K} (hy : Room m y y0)
    (hx : Shows m x x0) : RelRes (Post m y.block) (sqr sch ker m y x) (Ser.sqr ker' y0 x0) := by
  have hxz := hx.sim.nonzero
  have hxk := hx.sim.known
  simp only [View.ser] at hxz hxk
  have hn : 0 ≤ x.nonzero := hx.ok.good.wf.nonneg
  have hkn : 0 ≤ x.known := hx.ok.good.wf.known_nonneg'
  have key : RelRes (Weak m y) (sqr sch ker m y x) (Ser.sqr ker' y0 x0) := by
    simp only [sqr, Ser.sqr, ← hxz, ← hxk]
    generalize hnz : min x.known (relu (2 * x.nonzero - 1)) = nz
    have hr := relu_nonneg (2 * x.nonzero - 1)
    refine RelRes.bind (setCounts_rel hy _ _) fun o s h => ?_
    obtain ⟨rfl, rfl, hl, hu⟩ := h
    have hle := counts_le hu hy.ok.limit_nonneg hy.ok.limit_lt (by omega) (by omega)
    obtain ⟨xs, ex, sx⟩ := hx.span (n := x.nonzero.toNat) (by omega)
    rw [ex, bok]
    simp only [Ser.span, ← hxz]
    refine RelRes.bind (hker.sqr _ sx) fun r r' hr => ?_
    rw [loop_ok r (fun _ => by rw [hy.ok.size]; omega) fun _ _ _ _ _ _ => rfl, bok]
    refine RelRes.pure (Weak.mk' (filled_frame m y.block 0 _ _) rfl hl fun i hi => ?_)
    simp only [Ser.loopSet] at hi ⊢
    rw [filled_range, if_pos (by omega), if_pos hi]
    exact hr i (by omega)
  exact key.mono fun _ _ _ e h => h.post hy (Ser.sqr_good hy.dst.right hx.sim.right e)

theorem mul1p_rel {sch : Sched K} (hker : ker.Sim ker') {m : Mem K} {z : Obj} {x y : View} {z0 x0 y0 : Ser K} (hz : Room m z z0)
    (hx : Shows m x x0) (hy : Shows m y y0) (hf : Fits sch x z.block) (s : ℤ) :
    RelRes (Post m z.block) (mul1p sch ker m z x y s) (Ser.mul1p ker' z0 x0 y0 s) := by
  have hxz := hx.sim.nonzero
  have hxk := hx.sim.known
  have hyz := hy.sim.nonzero
  have hyk := hy.sim.known
  simp only [View.ser] at hxz hxk hyz hyk
  have hn : 0 ≤ x.nonzero := hx.ok.good.wf.nonneg
  have hn' : 0 ≤ y.nonzero := hy.ok.good.wf.nonneg
  have hkn : 0 ≤ x.known := hx.ok.good.wf.known_nonneg'
  have hkn' : 0 ≤ y.known := hy.ok.good.wf.known_nonneg'
  have key : RelRes (Weak m z) (mul1p sch ker m z x y s) (Ser.mul1p ker' z0 x0 y0 s) := by
    simp only [mul1p, Ser.mul1p, ← hxz, ← hxk, ← hyz, ← hyk]
    generalize hnz : min (min x.known (y.known + s)) (x.nonzero + y.nonzero + s - 1) = nz
    refine RelRes.bind (RelRes.assert Iff.rfl) fun _ _ hs => ?_
    refine RelRes.bind (setCounts_rel hz _ _) fun o t h => ?_
    obtain ⟨rfl, rfl, hl, hu⟩ := h
    have hle := counts_le hu hz.ok.limit_nonneg hz.ok.limit_lt (by omega) (by omega)
    obtain ⟨xs, ex, sx⟩ := hx.span (n := (min (relu (nz - s)) x.nonzero).toNat) (by have := relu_nonneg (nz - s); omega)
    obtain ⟨ys, ey, sy⟩ := hy.span (n := (min (relu (nz - s)) y.nonzero).toNat) (by have := relu_nonneg (nz - s); omega)
    rw [ex, bok, ey, bok]
    simp only [Ser.lowSpan, Ser.highSpan, ← hxz, ← hyz]
    refine RelRes.bind (hker.addmul _ sx sy) fun r r' hr => ?_
    rw [loop_ok (fun i => if (i : ℤ) < x.nonzero then x0.data i else 0) (fun _ => by rw [hz.ok.size]; omega)
      fun done i rest e hi hd => by
        by_cases h : (i : ℤ) < x.nonzero
        · rw [if_pos h, if_pos h]; exact hx.rd_loop hf e hd _ h
        · rw [if_neg h, if_neg h]; rfl, bok]
    generalize hm1 : filled m z.block 0 (List.range nz.toNat) (fun i => if (i : ℤ) < x.nonzero then x0.data i else 0) = m1
    have hsz : m1.size = m.size := by rw [← hm1]; rfl
    have hfr : Frame m m1 z.block := by rw [← hm1]; exact filled_frame _ _ _ _ _
    have hcell : ∀ i : ℕ, (i : ℤ) < nz → m1.cell z.block i = if (i : ℤ) < x.nonzero then x0.data i else 0 := fun i hi => by
      rw [← hm1, filled_range, if_pos (by omega)]
    rw [loop_ok (fun i => (if ((s.toNat + i : ℕ) : ℤ) < x.nonzero then x0.data (s.toNat + i) else 0) + r i)
      (fun h => by simp only [relu] at h ⊢; rw [hsz, hz.ok.size]; omega)
      fun done i rest e hi hd => by
        have hsz' : ∀ g, (filled m1 z.block s.toNat done g).size = m.size := fun g => hsz
        have hi' : s.toNat + i < nz.toNat := by simp only [relu] at hi; omega
        rw [Heap.rd, hsz', if_pos (by rw [hz.ok.size]; omega), bok, filled_self, if_neg (by
          rintro ⟨-, h2⟩
          rw [Nat.add_sub_cancel_left] at h2
          exact hd h2), hcell _ (by omega)]
        rfl, bok]
    refine RelRes.pure (Weak.mk' (hfr.trans (filled_frame m1 z.block s.toNat _ _) (.inl rfl)) rfl hl fun i hi => ?_)
    simp only [Ser.loopSet] at hi ⊢
    rw [filled_self, if_pos hi]
    by_cases h : s ≤ (i : ℤ)
    · have e1 : s.toNat + (i - s.toNat) = i := by omega
      have e2 : ((i : ℤ) - s).toNat = i - s.toNat := by omega
      rw [if_pos ⟨by omega, List.mem_range.mpr (by simp only [relu]; omega)⟩, if_pos h, if_pos hi, e1, e2]
      rw [hr _ (by simp only [relu]; omega)]
    · rw [if_neg (by rintro ⟨h1, -⟩; omega), if_neg h, if_pos hi, hcell i hi]
  exact key.mono fun _ _ _ e h => h.post hz (Ser.mul1p_good hz.dst.right hx.sim.right hy.sim.right e)

/-- The base cases keep the storage of their destination. -/
structure _root_.Mandelbrot.Ker.KeepsLimit (ker : Ker K) : Prop where
  invBase : ∀ {y x r : Ser K}, ker.invBase y x = .ok r → r.limit = y.limit
  expBase : ∀ {y x r : Ser K}, ker.expBase y x = .ok r → r.limit = y.limit

theorem base_rel {sch : Sched K} {f f' : Ser K → Ser K → Res (Ser K)}
    (hsim : ∀ {y y' x x' : Ser K}, Dst y y' → Sim x x' → RelRes SimL (f y x) (f' y' x'))
    (hlim : ∀ {y x r : Ser K}, f y x = .ok r → r.limit = y.limit) {m : Mem K} {y : Obj} {x : View} {y0 x0 : Ser K}
    (hy : Room m y y0) (hx : Shows m x x0) : RelRes (Post m y.block) (base sch f m y x) (f' y0 x0) := by
  rw [← bind_pure (f' y0 x0)]
  refine RelRes.bind_eq (hsim hy.dst hx.sim) fun r s e1 e2 h => ?_
  have hl : r.limit = y.limit := hlim e1
  have hle := h.left.wf.le_limit
  rw [loop_ok r.data (fun _ => by rw [hy.ok.size]; omega) fun _ _ _ _ _ _ => rfl, bok]
  refine RelRes.pure (Weak.post hy (Weak.mk' (filled_frame m y.block 0 _ _) (by rw [h.known, h.nonzero])
    (h.limit.symm.trans hl) fun i hi => ?_) h.right)
  have hi' : (i : ℤ) < r.nonzero := h.nonzero ▸ hi
  rw [filled_range, if_pos (by omega)]
  exact h.data i hi'

end Mandelbrot.Heap
