import Verif.Series.AliasLemmas

/-!
# The Newton iterations over a memory
-/

set_option linter.unusedSectionVars false

namespace Mandelbrot.Heap

open Ser (Good Sim SimL Dst)

variable {K : Type}

/-- Two series in a memory that differs from `m` in block `b` and in new blocks. -/
structure Two (m : Mem K) (b d : ℕ) (p : Mem K × Obj × Obj) (s : Ser K × Ser K) : Prop where
  frame : Frame m p.1 b
  yb : p.2.1.block = b
  db : p.2.2.block = d
  y : Holds p.1 p.2.1 s.1
  dy : Holds p.1 p.2.2 s.2

variable {m : Mem K} {b d e : ℕ}

theorem Two.setDy {m1 : Mem K} {y dy : Obj} {ys ds : Ser K} (h : Two m b d (m1, y, dy) (ys, ds)) (hb : b < m.next) (hd : m.next ≤ d)
    {m2 : Mem K} {dy2 : Obj} {ds2 : Ser K} (hp : Post m1 dy.block (m2, dy2) ds2) : Two m b d (m2, y, dy2) (ys, ds2) := by
  have h1 := h.yb
  have h2 := h.db
  simp only at h1 h2
  exact ⟨h.frame.trans hp.1 (.inr (by omega)), h1, hp.2.1.trans h2, h.y.frame hp.1 (by simp only; omega), hp.2.2⟩

theorem Two.setY {m1 : Mem K} {y dy : Obj} {ys ds : Ser K} (h : Two m b d (m1, y, dy) (ys, ds)) (hb : b < m.next) (hd : m.next ≤ d)
    {m2 : Mem K} {y2 : Obj} {ys2 : Ser K} (hp : Post m1 y.block (m2, y2) ys2) : Two m b d (m2, y2, dy) (ys2, ds) := by
  have h1 := h.yb
  have h2 := h.db
  simp only at h1 h2
  exact ⟨h.frame.trans hp.1 (.inl h1), hp.2.1.trans h1, h2, hp.2.2, h.dy.frame hp.1 (by simp only; omega)⟩

theorem Two.setY' {m1 : Mem K} {y dy : Obj} {ys ds : Ser K} (h : Two m b d (m1, y, dy) (ys, ds))
    {y2 : Obj} {ys2 : Ser K} (hp : y2.block = y.block ∧ Holds m1 y2 ys2) : Two m b d (m1, y2, dy) (ys2, ds) :=
  ⟨h.frame, hp.1.trans h.yb, h.db, hp.2, h.dy⟩

theorem Two.noalias {m1 : Mem K} {y dy : Obj} {ys ds : Ser K} (h : Two m b d (m1, y, dy) (ys, ds)) (hb : b < m.next) (hd : m.next ≤ d)
    : dy.alias y.view = false ∧ y.alias dy.view = false ∧ ∀ n, y.alias (dy.view.high n) = false := by
  have h1 := h.yb
  have h2 := h.db
  simp only at h1 h2
  refine ⟨not_alias ?_, not_alias ?_, fun n => not_alias ?_⟩ <;> simp only [Obj.view, View.high] <;> omega

/-- A new block is not aliased by an older view. -/
theorem noalias_new {y : Obj} {v : View} {x : Ser K} (hs : Shows m v x) (h : m.next ≤ y.block) : y.alias v = false := by
  by_contra hc
  rw [Bool.not_eq_false] at hc
  simp only [Obj.alias, Bool.and_eq_true, Bool.not_eq_true', beq_iff_eq, decide_eq_true_eq] at hc
  have := hs.ok.live hc.1.1
  omega

theorem apart_new {v : View} {x : Ser K} (hs : Shows m v x) (h : m.next ≤ d) : Apart v d := by
  by_cases hz : v.nonzero = 0
  · exact .inl hz
  · have h0 := hs.ok.good.wf.nonneg
    simp only [View.ser] at h0
    have := (hs.ok.ptr (by omega)).2.1
    exact .inr (by omega)

theorem alias_low {y : Obj} {v : View} (h : y.alias v = false) (n : ℤ) : y.alias (v.low n) = false := by
  by_contra hc
  rw [Bool.not_eq_false] at hc
  have h1 : y.alias v = true := by
    simp only [Obj.alias, View.low, Bool.and_eq_true, Bool.not_eq_true', Bool.or_eq_false_iff] at hc ⊢
    exact ⟨⟨hc.1.1.1, hc.1.2⟩, hc.2⟩
  rw [h] at h1
  cases h1

variable [Zero K] [One K] [Add K] [Sub K] [Neg K] [Mul K] [Div K] [IntCast K] [Ldexp K] [DecidableEq K] {ker ker' : Ker K}
  {sch : Sched K}

/-- The frame of the functions that start from a base case and refine it by Newton's method. -/
theorem newton_rel {step : ℤ → ℤ → Bool → Mem K × Obj × Obj → Res (Mem K × Obj × Obj)}
    {step' : ℤ → ℤ → Bool → Ser K × Ser K → Res (Ser K × Ser K)} {N : ℤ} (hN : N < 2 ^ 63)
    (hstep : ∀ d, m.next ≤ d → ∀ m0 n r p t, 0 ≤ m0 → n ≤ N → Two m b d p t →
      RelRes (Two m b d) (step m0 n r p) (step' m0 n r t)) {m1 : Mem K} {y : Obj} {ys : Ser K} (h : Post m b (m1, y) ys)
    (j j' : ℕ → K) :
    RelRes (Post m b)
      (newtonIterate step y.known N ((alloc m1 N j).1, y, (alloc m1 N j).2) >>= fun st => pure (st.1, st.2.1))
      (newtonIterate step' ys.known N (ys, Ser.new N j') >>= fun st => pure st.1) := by
  obtain ⟨h1, h2, h3⟩ := h
  simp only at h2 h3
  rw [show y.known = ys.known from h3.sim.known]
  have h4 : Two m b m1.next ((alloc m1 N j).1, y, (alloc m1 N j).2) (ys, Ser.new N j') :=
    ⟨h1.trans (alloc_frame m1 N j b) (.inl rfl), h2, rfl, h3.frame (alloc_frame m1 N j m1.next) h3.ok.lt.ne,
      alloc_holds m1 hN j j'⟩
  refine RelRes.bind (Ser.newtonIterate_rel (Two m b m1.next) (hstep _ h1.next) _ h4) fun p t h => ?_
  exact RelRes.pure ⟨h.frame, h.yb, h.y⟩

theorem inv_rel (hker : ker.Sim ker') (hk : ker.KeepsLimit) {J J' : Junk K} {y : Obj} {x : View} {y0 x0 : Ser K} (hy : Room m y y0)
    (hx : Shows m x x0) (ha : y.alias x = false) :
    RelRes (Post m y.block) (inv sch ker J m y x) (Ser.inv ker' J' y0 x0) := by
  have hap := apart_of_alias hy.ok hx.ok ha
  have hxz := hx.sim.nonzero
  have hxk := hx.sim.known
  simp only [View.ser] at hxz hxk
  have hN : x.known < 2 ^ 63 := hx.ok.good.known_lt
  have hb := hy.ok.lt
  simp only [inv, Ser.inv, ← hxz, ← hxk, ha, true_and]
  split_ifs with h0
  · exact setUnknown_post hy
  refine RelRes.bind (RelRes.assert Iff.rfl) fun _ _ _ => ?_
  refine RelRes.bind (base_rel hker.invBase hk.invBase hy hx) fun p s hp => ?_
  obtain ⟨m1, y1⟩ := p
  refine newton_rel hN ?_ hp _ _
  rintro d hd m0 n r ⟨m2, y, dy⟩ ⟨ys, ds⟩ h0 hn h
  simp only [invStep, Ser.invStep]
  refine RelRes.bind (setKnown_rel h.y (hn.trans_lt hN)) fun y ys hy => ?_
  replace h := h.setY' hy
  refine RelRes.bind (mul_rel hker h.dy.room (hx.frame h.frame hap) h.y.shows) fun p ds hp => ?_
  obtain ⟨m3, dy⟩ := p
  replace h := h.setDy hb hd hp
  refine RelRes.bind (addScalar_rel h.dy _) fun p ds hp => ?_
  obtain ⟨m4, dy⟩ := p
  replace h := h.setDy hb hd hp
  refine RelRes.bind (mul_rel hker h.dy.room h.dy.shows h.y.shows) fun p ds hp => ?_
  obtain ⟨m5, dy⟩ := p
  replace h := h.setDy hb hd hp
  refine RelRes.bind (addsub_rel h.y (h.dy.shows.high m0) ((h.noalias hb hd).2.2 m0) _ _ h0) fun p ys hp => ?_
  obtain ⟨m6, y⟩ := p
  exact RelRes.pure (h.setY hb hd hp)

theorem inv1p_rel (hker : ker.Sim ker') {J J' : Junk K} {y : Obj} {x : View} {y0 x0 : Ser K} (hy : Room m y y0)
    (hx : Shows m x x0) (ha : y.alias x = false) (s : ℤ) :
    RelRes (Post m y.block) (inv1p sch ker J m y x s) (Ser.inv1p ker' J' y0 x0 s) := by
  have hap := apart_of_alias hy.ok hx.ok ha
  have hxk := hx.sim.known
  simp only [View.ser] at hxk
  have hN : x.known < 2 ^ 63 := hx.ok.good.known_lt
  have hb := hy.ok.lt
  simp only [inv1p, Ser.inv1p, ← hxk, ha, true_and]
  split_ifs with h0
  · exact setUnknown_post hy
  refine RelRes.bind (RelRes.assert Iff.rfl) fun _ _ _ => ?_
  refine RelRes.bind (neg_rel hy (hx.low s) (hx.apart_low hap s).fits) fun p t hp => ?_
  obtain ⟨m1, y1⟩ := p
  refine newton_rel hN ?_ hp _ _
  rintro d hd m0 n r ⟨m2, y, dy⟩ ⟨ys, ds⟩ h0 hn h
  simp only [inv1pStep, Ser.inv1pStep]
  refine RelRes.bind (setKnown_rel h.y (hn.trans_lt hN)) fun y ys hy => ?_
  replace h := h.setY' hy
  refine RelRes.bind (mul1p_rel hker h.dy.room (hx.frame h.frame hap) h.y.shows (h.db ▸ (apart_new hx hd).fits) s) fun p ds hp => ?_
  obtain ⟨m3, dy⟩ := p
  replace h := h.setDy hb hd hp
  refine RelRes.bind (addsub_rel h.dy h.y.shows (h.noalias hb hd).1 _ _ le_rfl) fun p ds hp => ?_
  obtain ⟨m4, dy⟩ := p
  replace h := h.setDy hb hd hp
  refine RelRes.bind (mul1p_rel hker h.dy.room h.dy.shows h.y.shows (self_fits sch dy) s) fun p ds hp => ?_
  obtain ⟨m5, dy⟩ := p
  replace h := h.setDy hb hd hp
  refine RelRes.bind (addsub_rel h.y (h.dy.shows.high m0) ((h.noalias hb hd).2.2 m0) _ _ h0) fun p ys hp => ?_
  obtain ⟨m6, y⟩ := p
  exact RelRes.pure (h.setY hb hd hp)

/-- A result together with a new block. -/
theorem two_alloc {m1 : Mem K} {y : Obj} {ys : Ser K} (h : Post m b (m1, y) ys) {N : ℤ} (hN : N < 2 ^ 63) (j j' : ℕ → K) :
    Two m b m1.next ((alloc m1 N j).1, y, (alloc m1 N j).2) (ys, Ser.new N j') :=
  ⟨h.1.trans (alloc_frame m1 N j b) (.inl rfl), h.2.1, rfl, h.2.2.frame (alloc_frame m1 N j m1.next) h.2.2.ok.lt.ne,
    alloc_holds m1 hN j j'⟩

theorem Two.post {p : Mem K × Obj × Obj} {s : Ser K × Ser K} (h : Two m b d p s) : Post m b (p.1, p.2.1) s.1 :=
  ⟨h.frame, h.yb, h.y⟩

/-- An operation on a new block, seen from before the block was allocated. -/
theorem Post.new {N : ℤ} {j : ℕ → K} {p : Mem K × Obj} {s : Ser K} (h : Post (alloc m N j).1 m.next p s) (b : ℕ) : Frame m p.1 b :=
  (alloc_frame m N j b).trans h.1 (.inr le_rfl)

theorem div_rel (hker : ker.Sim ker') (hk : ker.KeepsLimit) {J J' : Junk K} {y : Obj} {u v : View} {y0 u0 v0 : Ser K}
    (hy : Room m y y0) (hu : Shows m u u0) (hv : Shows m v v0) (hau : y.alias u = false) (hav : y.alias v = false) :
    RelRes (Post m y.block) (div sch ker J m y u v) (Ser.div ker' J' y0 u0 v0) := by
  have hpu := apart_of_alias hy.ok hu.ok hau
  have hpv := apart_of_alias hy.ok hv.ok hav
  have huk := hu.sim.known
  have hvk := hv.sim.known
  simp only [View.ser] at huk hvk
  have hN : min u.known v.known < 2 ^ 63 := by have := hu.ok.good.known_lt; simp only [View.ser] at this; omega
  have hb := hy.ok.lt
  simp only [div, Ser.div, ← huk, ← hvk, hau, hav, true_and]
  rw [slowAssert_true trivial, bok]
  have hi := alloc_holds m hN (J [0]) (J' [0])
  have hvn := hv.frame (alloc_frame m (min u.known v.known) (J [0]) y.block) hpv
  refine RelRes.bind (inv_rel hker hk hi.room (hvn.low _)
    (alias_low (noalias_new hv (le_refl m.next)) _)) fun p is hp => ?_
  obtain ⟨m1, ib⟩ := p
  have hf := hp.new y.block
  have hib : ib.block = m.next := hp.2.1
  have hih : Holds m1 ib is := hp.2.2
  refine RelRes.bind (mul_rel hker (hy.frame hf) (hu.frame hf hpu) hih.shows) fun p ys hp => ?_
  obtain ⟨m2, y1⟩ := p
  have hp' : Post m y.block (m2, y1) ys := ⟨hf.trans hp.1 (.inl rfl), hp.2⟩
  replace hih := hih.frame hp.1 (by omega)
  have h := two_alloc hp' hN (J [2]) (J' [2])
  have hd : m.next ≤ m2.next := hp'.1.next
  have hlt : ib.block < m2.next := hih.ok.lt
  replace hih := hih.frame (alloc_frame m2 (min u.known v.known) (J [2]) m2.next) (by omega)
  refine RelRes.bind (mul_rel hker h.dy.room (hv.frame h.frame hpv) h.y.shows) fun p ds hp => ?_
  obtain ⟨m3, dy⟩ := p
  have e1 := h.db
  replace h := h.setDy hb hd hp
  replace hih := hih.frame hp.1 (hlt.trans_eq e1.symm).ne
  refine RelRes.bind (addsub_rel h.dy (hu.frame h.frame hpu) (noalias_new hu (by rw [h.db]; exact hd)) _ _ le_rfl)
    fun p ds hp => ?_
  obtain ⟨m4, dy⟩ := p
  have e1 := h.db
  replace h := h.setDy hb hd hp
  replace hih := hih.frame hp.1 (hlt.trans_eq e1.symm).ne
  refine RelRes.bind (mul_rel hker h.dy.room h.dy.shows hih.shows) fun p ds hp => ?_
  obtain ⟨m5, dy⟩ := p
  replace h := h.setDy hb hd hp
  refine (addsub_rel h.y h.dy.shows (h.noalias hb hd).2.1 _ _ le_rfl).mono fun p ys _ _ hp => ?_
  exact (h.setY hb hd hp).post

theorem div1p_rel (hker : ker.Sim ker') {J J' : Junk K} {y : Obj} {u v : View} {y0 u0 v0 : Ser K}
    (hy : Room m y y0) (hu : Shows m u u0) (hv : Shows m v v0) (hau : y.alias u = false) (hav : y.alias v = false) (s : ℤ) :
    RelRes (Post m y.block) (div1p sch ker J m y u v s) (Ser.div1p ker' J' y0 u0 v0 s) := by
  have hpu := apart_of_alias hy.ok hu.ok hau
  have hpv := apart_of_alias hy.ok hv.ok hav
  have huk := hu.sim.known
  have hvk := hv.sim.known
  simp only [View.ser] at huk hvk
  have hb := hy.ok.lt
  simp only [div1p, Ser.div1p, ← huk, ← hvk, hau, hav, true_and]
  refine RelRes.bind (RelRes.assert Iff.rfl) fun _ _ hs => ?_
  have hN : min u.known (v.known + s) < 2 ^ 63 := by have := hu.ok.good.known_lt; simp only [View.ser] at this; omega
  have hN' : min u.known (v.known + s) - s < 2 ^ 63 := by omega
  have hi := alloc_holds m hN' (J [0]) (J' [0])
  have hvn := hv.frame (alloc_frame m (min u.known (v.known + s) - s) (J [0]) y.block) hpv
  refine RelRes.bind (inv1p_rel hker hi.room (hvn.low _)
    (alias_low (noalias_new hv (le_refl m.next)) _) s) fun p is hp => ?_
  obtain ⟨m1, ib⟩ := p
  have hf := hp.new y.block
  have hib : ib.block = m.next := hp.2.1
  have hih : Holds m1 ib is := hp.2.2
  refine RelRes.bind (mul1p_rel hker (hy.frame hf) (hu.frame hf hpu) hih.shows hpu.fits s) fun p ys hp => ?_
  obtain ⟨m2, y1⟩ := p
  have hp' : Post m y.block (m2, y1) ys := ⟨hf.trans hp.1 (.inl rfl), hp.2⟩
  replace hih := hih.frame hp.1 (by omega)
  have h := two_alloc hp' hN (J [2]) (J' [2])
  have hd : m.next ≤ m2.next := hp'.1.next
  have hlt : ib.block < m2.next := hih.ok.lt
  replace hih := hih.frame (alloc_frame m2 (min u.known (v.known + s)) (J [2]) m2.next) (by omega)
  have hyd : y1.view.block ≠ (alloc m2 (min u.known (v.known + s)) (J [2])).2.block := by
    have := hp'.2.2.ok.lt
    exact this.ne
  refine RelRes.bind (mul1p_rel hker h.dy.room h.y.shows (hv.frame h.frame hpv) (.inr (.inl hyd)) s) fun p ds hp => ?_
  obtain ⟨m3, dy⟩ := p
  have e1 := h.db
  replace h := h.setDy hb hd hp
  replace hih := hih.frame hp.1 (hlt.trans_eq e1.symm).ne
  refine RelRes.bind (addsub_rel h.dy (hu.frame h.frame hpu) (noalias_new hu (by rw [h.db]; exact hd)) _ _ le_rfl)
    fun p ds hp => ?_
  obtain ⟨m4, dy⟩ := p
  have e1 := h.db
  replace h := h.setDy hb hd hp
  replace hih := hih.frame hp.1 (hlt.trans_eq e1.symm).ne
  refine RelRes.bind (mul1p_rel hker h.dy.room h.dy.shows hih.shows (self_fits sch dy) s) fun p ds hp => ?_
  obtain ⟨m5, dy⟩ := p
  replace h := h.setDy hb hd hp
  refine (addsub_rel h.y h.dy.shows (h.noalias hb hd).2.1 _ _ le_rfl).mono fun p ys _ _ hp => ?_
  exact (h.setY hb hd hp).post

theorem log_rel (hker : ker.Sim ker') (hk : ker.KeepsLimit) {J J' : Junk K} {y : Obj} {x : View} {y0 x0 : Ser K} (hy : Room m y y0)
    (hx : Shows m x x0) (ha : y.alias x = false) :
    RelRes (Post m y.block) (log sch ker J m y x) (Ser.log ker' J' y0 x0) := by
  have hap := apart_of_alias hy.ok hx.ok ha
  have hxz := hx.sim.nonzero
  have hxk := hx.sim.known
  have hn := hx.ok.good.wf.nonneg
  simp only [View.ser] at hxz hxk hn
  have hN : x.known < 2 ^ 63 := hx.ok.good.known_lt
  have hb := hy.ok.lt
  have main : RelRes (Post m y.block)
      (derivativeShift sch (alloc m x.known (J [0])).1 (alloc m x.known (J [0])).2 x 0 >>= fun p =>
        div sch ker (J.sub 1) p.1 y p.2.view x >>= fun p => integralShift sch p.1 p.2 p.2.view 0)
      (Ser.derivativeShift (Ser.new x.known (J' [0])) x0 0 >>= fun dx =>
        Ser.div ker' (J'.sub 1) y0 dx x0 >>= fun y => Ser.integralShift y y 0) := by
    have hd := alloc_holds m hN (J [0]) (J' [0])
    have hxn := hx.frame (alloc_frame m x.known (J [0]) y.block) hap
    refine RelRes.bind (derivativeShift_rel hd.room hxn (apart_new hx le_rfl).fits 0) fun p ds hp => ?_
    obtain ⟨m1, dx⟩ := p
    have hf := hp.new y.block
    have e : dx.block = m.next := hp.2.1
    refine RelRes.bind (div_rel hker hk (hy.frame hf) hp.2.2.shows (hx.frame hf hap)
      (not_alias (by simp only [Obj.view]; omega)) ha) fun p ys hp => ?_
    obtain ⟨m2, y1⟩ := p
    refine (integralShift_rel hp.2.2.room hp.2.2.shows (self_fits sch y1) 0).mono fun p ys _ _ hq => ?_
    have e1 : y1.block = y.block := hp.2.1
    exact ⟨(hf.trans hp.1 (.inl rfl)).trans hq.1 (.inl e1), hq.2.1.trans e1, hq.2.2⟩
  simp only [log, Ser.log, ← hxz, ← hxk, ha, true_and, ← hker.check]
  split_ifs with h0 hc
  · exact setUnknown_post hy
  · refine RelRes.bind (RelRes.assert Iff.rfl) fun _ _ h1 => ?_
    rw [hx.rd (i := 0) (by have := h1.1; omega), bok]
    refine RelRes.bind (RelRes.assert Iff.rfl) fun _ _ _ => main
  · exact RelRes.bind (RelRes.assert Iff.rfl) fun _ _ _ => main

theorem log1p_rel (hker : ker.Sim ker') {J J' : Junk K} {y : Obj} {x : View} {y0 x0 : Ser K} (hy : Room m y y0)
    (hx : Shows m x x0) (ha : y.alias x = false) (s : ℤ) :
    RelRes (Post m y.block) (log1p sch ker J m y x s) (Ser.log1p ker' J' y0 x0 s) := by
  have hap := apart_of_alias hy.ok hx.ok ha
  have hxk := hx.sim.known
  simp only [View.ser] at hxk
  have hN : x.known < 2 ^ 63 := hx.ok.good.known_lt
  have hb := hy.ok.lt
  simp only [log1p, Ser.log1p, ← hxk, ha, true_and]
  split_ifs with h0
  · exact setUnknown_post hy
  refine RelRes.bind (RelRes.assert Iff.rfl) fun _ _ h1 => ?_
  have hd := alloc_holds m hN (J [0]) (J' [0])
  have hxn := hx.frame (alloc_frame m x.known (J [0]) y.block) hap
  refine RelRes.bind (derivativeShift_rel hd.room hxn (apart_new hx le_rfl).fits s) fun p ds hp => ?_
  obtain ⟨m1, dx⟩ := p
  have hf := hp.new y.block
  have e : dx.block = m.next := hp.2.1
  refine RelRes.bind (div1p_rel hker (hy.frame hf) hp.2.2.shows (hx.frame hf hap)
    (not_alias (by simp only [Obj.view]; omega)) ha s) fun p ys hp => ?_
  obtain ⟨m2, y1⟩ := p
  refine (integralShift_rel hp.2.2.room hp.2.2.shows (self_fits sch y1) s).mono fun p ys _ _ hq => ?_
  have e1 : y1.block = y.block := hp.2.1
  exact ⟨(hf.trans hp.1 (.inl rfl)).trans hq.1 (.inl e1), hq.2.1.trans e1, hq.2.2⟩

theorem exp_rel (hker : ker.Sim ker') (hk : ker.KeepsLimit) {J J' : Junk K} {y : Obj} {x : View} {y0 x0 : Ser K} (hy : Room m y y0)
    (hx : Shows m x x0) (ha : y.alias x = false) :
    RelRes (Post m y.block) (exp sch ker J m y x) (Ser.exp ker' J' y0 x0) := by
  have hap := apart_of_alias hy.ok hx.ok ha
  have hxz := hx.sim.nonzero
  have hxk := hx.sim.known
  have hn := hx.ok.good.wf.nonneg
  simp only [View.ser] at hxz hxk hn
  have hN : x.known < 2 ^ 63 := hx.ok.good.known_lt
  have hb := hy.ok.lt
  have main : RelRes (Post m y.block)
      (base sch ker.expBase m y x >>= fun p =>
        newtonIterate (expStep sch ker (J.sub 1) x) p.2.known x.known
          ((alloc p.1 x.known (J [0])).1, p.2, (alloc p.1 x.known (J [0])).2) >>= fun st => pure (st.1, st.2.1))
      (ker'.expBase y0 x0 >>= fun y => newtonIterate (Ser.expStep ker' (J'.sub 1) x0) y.known x.known (y, Ser.new x.known (J' [0]))
        >>= fun st => pure st.1) := by
    refine RelRes.bind (base_rel hker.expBase hk.expBase hy hx) fun p s hp => ?_
    obtain ⟨m1, y1⟩ := p
    refine newton_rel hN ?_ hp _ _
    rintro d hd m0 n r ⟨m2, y, dy⟩ ⟨ys, ds⟩ h0 hn h
    simp only [expStep, Ser.expStep]
    refine RelRes.bind (setKnown_rel h.y (hn.trans_lt hN)) fun y ys hy => ?_
    replace h := h.setY' hy
    refine RelRes.bind (log_rel hker hk h.dy.room h.y.shows (h.noalias hb hd).1) fun p ds hp => ?_
    obtain ⟨m3, dy⟩ := p
    replace h := h.setDy hb hd hp
    refine RelRes.bind (addsub_rel h.dy (hx.frame h.frame hap) (noalias_new hx (by rw [h.db]; exact hd)) _ _ le_rfl)
      fun p ds hp => ?_
    obtain ⟨m4, dy⟩ := p
    replace h := h.setDy hb hd hp
    refine RelRes.bind (mul_rel hker h.dy.room h.y.shows h.dy.shows) fun p ds hp => ?_
    obtain ⟨m5, dy⟩ := p
    replace h := h.setDy hb hd hp
    refine RelRes.bind (addsub_rel h.y (h.dy.shows.high m0) ((h.noalias hb hd).2.2 m0) _ _ h0) fun p ys hp => ?_
    obtain ⟨m6, y⟩ := p
    exact RelRes.pure (h.setY hb hd hp)
  simp only [exp, Ser.exp, ← hxz, ← hxk, ha, ← hker.check]
  split_ifs with h0 hc hz
  · exact setUnknown_post hy
  · rw [slowAssert_true trivial, bok, hx.rd (i := 0) (by omega), bok]
    refine RelRes.bind (RelRes.assert ?_) fun _ _ _ => main
    simp only [hz, false_or]
  · rw [slowAssert_true trivial, bok, slowAssert_true (.inl (not_not.mp hz)), bok]
    exact main
  · rw [slowAssert_true trivial, bok]
    exact main

theorem expm1_rel (hker : ker.Sim ker') {J J' : Junk K} {y2 : Obj} {x : View} {y0 x0 : Ser K} (hy : Room m y2 y0)
    (hx : Shows m x x0) (ha : y2.alias x = false) (a s : ℤ) :
    RelRes (Post m y2.block) (expm1 sch ker J m y2 x a s) (Ser.expm1 ker' J' y0 x0 a s) := by
  have hap := apart_of_alias hy.ok hx.ok ha
  have hxk := hx.sim.known
  simp only [View.ser] at hxk
  have hN : x.known < 2 ^ 63 := hx.ok.good.known_lt
  have hb := hy.ok.lt
  simp only [expm1, Ser.expm1, ← hxk, ha, true_and]
  refine RelRes.bind (RelRes.assert Iff.rfl) fun _ _ h1 => ?_
  have main : ∀ (p : Mem K × Obj) (t : Ser K), Post m y2.block p t → RelRes (Post m y2.block)
      (newtonIterate (expm1Step sch ker (J.sub 1) x a s) p.2.known x.known
          ((alloc p.1 x.known (J [0])).1, p.2, (alloc p.1 x.known (J [0])).2) >>= fun st => pure (st.1, st.2.1))
      (newtonIterate (Ser.expm1Step ker' (J'.sub 1) x0 a s) t.known x.known (t, Ser.new x.known (J' [0]))
        >>= fun st => pure st.1) := by
    rintro ⟨m1, y1⟩ t hp
    refine newton_rel hN ?_ hp _ _
    rintro d hd m0 n r ⟨m2, y, dy⟩ ⟨ys, ds⟩ h0 hn h
    simp only [expm1Step, Ser.expm1Step]
    refine RelRes.bind (setKnown_rel h.y (hn.trans_lt hN)) fun y ys hy => ?_
    replace h := h.setY' hy
    refine RelRes.bind (log1p_rel hker h.dy.room h.y.shows (h.noalias hb hd).1 s) fun p ds hp => ?_
    obtain ⟨m3, dy⟩ := p
    replace h := h.setDy hb hd hp
    have tail : ∀ (p : Mem K × Obj) (ds : Ser K), Post m3 dy.block p ds → RelRes (Two m y2.block d)
        (mul1p sch ker p.1 p.2 p.2.view y.view s >>= fun p =>
          addsub sch p.1 y (-1) 0 m0 (p.2.view.high m0) >>= fun q => pure (q.1, q.2, p.2))
        (Ser.mul1p ker' ds ds ys s >>= fun dy => ys.highSub m0 (dy.high m0) >>= fun y => pure (y, dy)) := by
      rintro ⟨m4, dy⟩ ds hp
      replace h := h.setDy hb hd hp
      refine RelRes.bind (mul1p_rel hker h.dy.room h.dy.shows h.y.shows (self_fits sch dy) s) fun p ds hp => ?_
      obtain ⟨m5, dy⟩ := p
      replace h := h.setDy hb hd hp
      refine RelRes.bind (addsub_rel h.y (h.dy.shows.high m0) ((h.noalias hb hd).2.2 m0) _ _ h0) fun p ys hp => ?_
      obtain ⟨m6, y⟩ := p
      exact RelRes.pure (h.setY hb hd hp)
    have hxa : dy.alias x = false := noalias_new hx (by rw [h.db]; exact hd)
    split_ifs
    · exact RelRes.bind (addsub_rel h.dy (hx.frame h.frame hap) hxa _ _ le_rfl) tail
    · exact RelRes.bind (addsub_rel h.dy (hx.frame h.frame hap) hxa _ _ le_rfl) tail
  have hpl := hx.apart_low hap s
  split_ifs
  · refine RelRes.bind (assign_rel hy (hx.low s) ?_) main
    rcases hpl with h | h
    · exact .inl h
    · exact .inr (.inl h)
  · exact RelRes.bind (neg_rel hy (hx.low s) hpl.fits) main

/-- Three series in a memory that differs from `m` in block `b` and in new blocks. -/
structure Three (m : Mem K) (b d e : ℕ) (p : Mem K × Obj × Obj × Obj) (s : Ser K × Ser K × Ser K) : Prop where
  frame : Frame m p.1 b
  yb : p.2.1.block = b
  db : p.2.2.1.block = d
  eb : p.2.2.2.block = e
  y : Holds p.1 p.2.1 s.1
  dy : Holds p.1 p.2.2.1 s.2.1
  t : Holds p.1 p.2.2.2 s.2.2

theorem Three.setY {m1 m2 : Mem K} {y dy t y2 : Obj} {ys ds ts ys2 : Ser K} (h : Three m b d e (m1, y, dy, t) (ys, ds, ts))
    (hb : b < m.next) (hd : m.next ≤ d) (he : m.next ≤ e) (hp : Post m1 y.block (m2, y2) ys2) :
    Three m b d e (m2, y2, dy, t) (ys2, ds, ts) := by
  have h1 := h.yb
  have h2 := h.db
  have h3 := h.eb
  simp only at h1 h2 h3
  exact ⟨h.frame.trans hp.1 (.inl h1), hp.2.1.trans h1, h2, h3, hp.2.2, h.dy.frame hp.1 (by simp only; omega),
    h.t.frame hp.1 (by simp only; omega)⟩

theorem Three.setY' {m1 : Mem K} {y dy t y2 : Obj} {ys ds ts ys2 : Ser K} (h : Three m b d e (m1, y, dy, t) (ys, ds, ts))
    (hp : y2.block = y.block ∧ Holds m1 y2 ys2) : Three m b d e (m1, y2, dy, t) (ys2, ds, ts) :=
  ⟨h.frame, hp.1.trans h.yb, h.db, h.eb, hp.2, h.dy, h.t⟩

theorem Three.setDy {m1 m2 : Mem K} {y dy t dy2 : Obj} {ys ds ts ds2 : Ser K} (h : Three m b d e (m1, y, dy, t) (ys, ds, ts))
    (hb : b < m.next) (hd : m.next ≤ d) (hde : d < e) (hp : Post m1 dy.block (m2, dy2) ds2) :
    Three m b d e (m2, y, dy2, t) (ys, ds2, ts) := by
  have h1 := h.yb
  have h2 := h.db
  have h3 := h.eb
  simp only at h1 h2 h3
  exact ⟨h.frame.trans hp.1 (.inr (by omega)), h1, hp.2.1.trans h2, h3, h.y.frame hp.1 (by simp only; omega), hp.2.2,
    h.t.frame hp.1 (by simp only; omega)⟩

theorem Three.setT {m1 m2 : Mem K} {y dy t t2 : Obj} {ys ds ts ts2 : Ser K} (h : Three m b d e (m1, y, dy, t) (ys, ds, ts))
    (hb : b < m.next) (hd : m.next ≤ d) (hde : d < e) (hp : Post m1 t.block (m2, t2) ts2) :
    Three m b d e (m2, y, dy, t2) (ys, ds, ts2) := by
  have h1 := h.yb
  have h2 := h.db
  have h3 := h.eb
  simp only at h1 h2 h3
  exact ⟨h.frame.trans hp.1 (.inr (by omega)), h1, h2, hp.2.1.trans h3, h.y.frame hp.1 (by simp only; omega),
    h.dy.frame hp.1 (by simp only; omega), hp.2.2⟩

theorem log1pExp_rel (hker : ker.Sim ker') (hk : ker.KeepsLimit) {J J' : Junk K} {y : Obj} {x : View} {y0 x0 : Ser K}
    (hy : Room m y y0) (hx : Shows m x x0) (ha : y.alias x = false) (s : ℤ) :
    RelRes (Post m y.block) (log1pExp sch ker J m y x s) (Ser.log1pExp ker' J' y0 x0 s) := by
  have hap := apart_of_alias hy.ok hx.ok ha
  have hxk := hx.sim.known
  simp only [View.ser] at hxk
  have hN : x.known < 2 ^ 63 := hx.ok.good.known_lt
  have hb := hy.ok.lt
  simp only [log1pExp, Ser.log1pExp, ← hxk, ha, true_and]
  split_ifs with h0
  · exact setUnknown_post hy
  refine RelRes.bind (RelRes.assert Iff.rfl) fun _ _ hs => ?_
  refine RelRes.bind (exp_rel hker hk hy (hx.low s) (alias_low ha s)) fun p ys hp => ?_
  obtain ⟨m1, y1⟩ := p
  have h2 := two_alloc hp hN (J [1]) (J' [1])
  have hd : m.next ≤ m1.next := hp.1.next
  have hf := alloc_frame (alloc m1 x.known (J [1])).1 x.known (J [2])
  have hn1 : (alloc m1 x.known (J [1])).1.next = m1.next + 1 := rfl
  have h4 : Three m y.block m1.next (m1.next + 1)
      ((alloc (alloc m1 x.known (J [1])).1 x.known (J [2])).1, y1, (alloc m1 x.known (J [1])).2,
        (alloc (alloc m1 x.known (J [1])).1 x.known (J [2])).2)
      (ys, Ser.new x.known (J' [1]), Ser.new x.known (J' [2])) :=
    ⟨h2.frame.trans (hf y.block) (.inl rfl), h2.yb, rfl, rfl, h2.y.frame (hf (m1.next + 1)) (h2.y.ok.lt.ne),
      h2.dy.frame (hf (m1.next + 1)) (h2.dy.ok.lt.ne), alloc_holds _ hN _ _⟩
  have hk1 : y1.known = ys.known := hp.2.2.sim.known
  rw [hk1]
  refine RelRes.bind (Ser.newtonIterate_rel (Three m y.block m1.next (m1.next + 1)) ?_ _ h4) fun p t h =>
    RelRes.pure ⟨h.frame, h.yb, h.y⟩
  rintro m0 n r ⟨m2, y2, dy, t⟩ ⟨ys, ds, ts⟩ h0 hn h
  simp only [log1pExpStep, Ser.log1pExpStep]
  have hde : m1.next < m1.next + 1 := by omega
  have he : m.next ≤ m1.next + 1 := by omega
  refine RelRes.bind (setKnown_rel h.y (hn.trans_lt hN)) fun y2 ys hy => ?_
  replace h := h.setY' hy
  have hxt : x.nonzero = 0 ∨ x.block ≠ m1.next + 1 := apart_new hx he
  have ht : t.block = m1.next + 1 := h.eb
  have hxl := hx.apart_low hxt n
  refine RelRes.bind (assign_rel h.t.room ((hx.frame h.frame hap).low n) (by
    rcases hxl with h | h
    · exact .inl h
    · exact .inr (.inl (by rw [ht]; exact h)))) fun p ts hp => ?_
  obtain ⟨m3, t⟩ := p
  replace h := h.setT hb hd hde hp
  have e1 := h.yb
  have e3 := h.eb
  simp only at e1 e3
  refine RelRes.bind (addsub_rel h.t h.y.shows (not_alias (by simp only [Obj.view]; omega)) _ _ (by omega)) fun p ts hp => ?_
  obtain ⟨m4, t⟩ := p
  replace h := h.setT hb hd hde hp
  have e3 := h.eb
  have e2 := h.db
  simp only at e2 e3
  refine RelRes.bind (exp_rel hker hk h.dy.room h.t.shows (not_alias (by simp only [Obj.view]; omega))) fun p ds hp => ?_
  obtain ⟨m5, dy⟩ := p
  replace h := h.setDy hb hd hde hp
  refine RelRes.bind (expm1_rel hker h.t.room h.y.shows (not_alias (by simp only [Obj.view]; omega)) (-1) s) fun p ts hp => ?_
  obtain ⟨m6, t⟩ := p
  replace h := h.setT hb hd hde hp
  have e3 := h.eb
  have e2 := h.db
  simp only at e2 e3
  refine RelRes.bind (addsub_rel h.dy h.t.shows (not_alias (by simp only [Obj.view]; omega)) _ _ le_rfl) fun p ds hp => ?_
  obtain ⟨m7, dy⟩ := p
  replace h := h.setDy hb hd hde hp
  have e2 := h.db
  simp only at e2
  refine RelRes.bind (addsub_rel h.y (h.dy.shows.high m0) (not_alias (by simp only [Obj.view, View.high]; omega)) _ _ h0)
    fun p ys hp => ?_
  obtain ⟨m8, y2⟩ := p
  exact RelRes.pure (h.setY hb hd he hp)

end Mandelbrot.Heap
