import Verif.Props.FFTBack
import Verif.Props.ExpansionGen

/-!
# The generators of the butterflies finish: C72
-/

namespace Mandelbrot.Sym

open Sig (Sg)
open Spec

section
variable {C : Cfg} {S : Seeds} {r : ℕ}

theorem storesC_ok : ∀ (l : List (Ex × CEx)) (B : Blk), (∀ p ∈ l, ∀ e ∈ p.2.re.subs ++ p.2.im.subs, B.counts (e.sig C) ≠ 0) →
    ∃ w, storesC C l B = .ok w := by
  intro l
  induction l with
  | nil => intro B _; exact ⟨_, rfl⟩
  | cons p l ih =>
    intro B h
    have hp := h p List.mem_cons_self
    obtain ⟨a, e1, c1⟩ := compute_ok C p.2.re fun x hx => hp x (List.mem_append_left _ hx)
    obtain ⟨b, e2, c2⟩ := compute_ok C p.2.im (B := a.2) fun x hx => by rw [c1]; exact hp x (List.mem_append_right _ hx)
    obtain ⟨q, e3⟩ := ih b.2 fun y hy x hx => by rw [c2, c1]; exact h y (List.mem_cons_of_mem _ hy) x hx
    refine ⟨(newLines B b.2 ++ .store p.1 a.1 b.1 :: q.1, q.2), ?_⟩
    rw [storesC, e1, bok, e2, bok, e3, bok]
    rfl

theorem stores_parts {ks : List Ex} {zs : List CEx} {B : Blk} (h : ∀ x ∈ flatten zs, ∀ e ∈ x.subs, B.counts (e.sig C) ≠ 0) :
    ∀ p ∈ ks.zip zs, ∀ e ∈ p.2.re.subs ++ p.2.im.subs, B.counts (e.sig C) ≠ 0 := by
  intro p hp e he
  have hz := (List.of_mem_zip (a := p.1) (b := p.2) hp).2
  have hf : ∀ x, x = p.2.re ∨ x = p.2.im → x ∈ flatten zs := fun x hx => by
    simp only [flatten, List.mem_flatMap, List.mem_cons, List.not_mem_nil, or_false]
    exact ⟨p.2, hz, hx⟩
  rcases List.mem_append.mp he with he | he
  · exact h _ (hf _ (.inl rfl)) e he
  · exact h _ (hf _ (.inr rfl)) e he

theorem levels_names (hr : r = 1 ∨ r = 2 ∨ r = 3) : (levelsNames r ++ (numbered "px" (2 ^ r) ++ numbered "y" (2 ^ r))).Nodup := by
  rcases hr with rfl | rfl | rfl <;> decide +kernel

theorem first_names (hr : r = 1 ∨ r = 2 ∨ r = 3) : (firstNames r ++ numbered "x" (2 ^ r) ++ firstInner r).Nodup := by
  rcases hr with rfl | rfl | rfl <;> decide +kernel

theorem last_names (hr : r = 1 ∨ r = 2 ∨ r = 3) :
    (firstNames r ++ (numbered "px" (2 ^ r) ++ (firstInner r ++ numbered "y" (2 ^ r / 2)))).Nodup := by
  rcases hr with rfl | rfl | rfl <;> decide +kernel

theorem inputs_fine (l : List String) (B : Blk) (hn : l.Nodup) (hv : ∀ v ∈ l, v ∉ B.names) :
    ∃ B', runActs C (l.map .input) B = .ok B' ∧ B'.counts = B.counts ∧ ∀ v, v ∈ B'.names ↔ v ∈ l ∨ v ∈ B.names := by
  induction l generalizing B with
  | nil => exact ⟨B, rfl, rfl, by simp⟩
  | cons v l ih =>
    rw [List.nodup_cons] at hn
    obtain ⟨B', e, h, hm⟩ := ih { B with names := v :: B.names, code := B.code ++ [.decl v] } hn.2 fun u hu => by
      simp only [List.mem_cons, not_or]
      exact ⟨fun e => hn.1 (e ▸ hu), hv u (List.mem_cons_of_mem _ hu)⟩
    refine ⟨B', ?_, h, fun u => by rw [hm]; simp only [List.mem_cons]; tauto⟩
    simp only [List.map_cons, runActs, Act.exec, Blk.input]
    rw [slowAssert_true (hv v List.mem_cons_self), bok, pok]
    exact e

theorem reserve_fine (l : List String) (B : Blk) (hn : l.Nodup) (hv : ∀ v ∈ l, v ∉ B.names) :
    ∃ B', Blk.reserveAll l B = .ok B' ∧ B'.counts = B.counts ∧ ∀ v, v ∈ B'.names ↔ v ∈ l ∨ v ∈ B.names := by
  induction l generalizing B with
  | nil => exact ⟨B, rfl, rfl, by simp⟩
  | cons v l ih =>
    rw [List.nodup_cons] at hn
    obtain ⟨B', e, h, hm⟩ := ih { B with names := v :: B.names } hn.2 fun u hu => by
      simp only [List.mem_cons, not_or]
      exact ⟨fun e => hn.1 (e ▸ hu), hv u (List.mem_cons_of_mem _ hu)⟩
    refine ⟨B', ?_, h, fun u => by rw [hm]; simp only [List.mem_cons]; tauto⟩
    rw [Blk.reserveAll, Blk.reserve, slowAssert_true (hv v List.mem_cons_self), bok, pok, bok]
    exact e

theorem names_disjoint {l l' : List String} {B : Blk} (h : (l ++ l').Nodup) (hm : ∀ v, v ∈ B.names ↔ v ∈ l ∨ v ∈ Blk.empty.names) :
    ∀ v ∈ l', v ∉ B.names := by
  intro v hv hb
  rcases (hm v).mp hb with hb | hb
  · exact (List.nodup_append.mp h).2.2 v hb v hv rfl
  · simp [Blk.empty] at hb

/-- The uses of results whose parts are told apart by their signatures, and the counts afterwards. -/
theorem uses_fine {l : List Ex} {B : Blk} (hc : B.counts = Blk.empty.counts)
    (hd : ∀ a ∈ l, ∀ b ∈ l, ∀ e ∈ a.subs, ∀ e' ∈ b.subs, e.sig C = e'.sig C → e = e') :
    ∃ B', runActs C (l.map .use) B = .ok B' ∧ ∀ x ∈ l, ∀ e ∈ x.subs, B'.counts (e.sig C) ≠ 0 := by
  obtain ⟨B1, e1, -, c1⟩ := uses_ok (C := C) (U := fun e => ∃ x ∈ l, e ∈ x.subs)
    (fun e e' ⟨x, hx, he⟩ ⟨x', hx', he'⟩ h => hd x hx x' hx' e he e' he' h) l B (fun x hx e he => ⟨x, hx, he⟩)
    (by rw [hc]; intro x _ h; exact absurd rfl h)
  exact ⟨B1, e1, c1⟩

theorem runs_levelsX (hC : C.Ok) (hS : S.Ok C) (hr : r = 1 ∨ r = 2 ∨ r = 3) :
    RunsX C (levelsX C S r true) fun q => q.1.length = 2 ^ r ∧ q.2.1.length = 2 ^ r := by
  have h31 : 0 + 2 ^ r ≤ 2 ^ 31 := by rcases hr with rfl | rfl | rfl <;> norm_num
  have hl : ((numbered "y" (2 ^ r)).map S.name).length = 2 ^ r := by simp [numbered]
  refine .bind (runs_add hC (good_name hS _) (good_name hS _)) fun j hj => .bind (runs_locsX hC hj (good_name hS _) _ _ h31) fun ks hk => ?_
  rw [if_pos rfl]
  refine .bind (runs_splitAll hC _ (good_names hS _)) fun y hy => .bind (runs_levelsBodyX hC hS hr (good_name hS _) (hy.1.trans hl) hy.2)
    fun z hz => .bind (.check (by rw [hz.1, hk.1])) fun _ _ => .pure ⟨hk.1, hz.1⟩

/-- **C72.** The generator of a remaining butterfly finishes: no assertion fails for one, two or three levels, and there are `2^r`
complex results.  If the parts of the results are told apart by their signatures, lines are written. -/
theorem C72_levels_finishes (hC : C.Ok) (hS : S.Ok C) (hr : r = 1 ∨ r = 2 ∨ r = 3) :
    ∃ q, levelsX C S r true ⟨true, [], []⟩ = .ok q ∧ q.1.1.length = 2 ^ r ∧ q.1.2.1.length = 2 ^ r ∧
      ((∀ a ∈ flatten q.1.2.1, ∀ b ∈ flatten q.1.2.1, ∀ e ∈ a.subs, ∀ e' ∈ b.subs, e.sig C = e'.sig C → e = e') →
        ∃ W, levelsCode C S r true = .ok W ∧ W.results = flatten q.1.2.1 ∧ W.cse = q.2) := by
  obtain ⟨q, e, -, -, h1, h2⟩ := runs_levelsX hC hS hr ⟨true, [], []⟩ (fun p hp => by simp at hp) rfl
  refine ⟨q, e, h1, h2, fun hd => ?_⟩
  have hn := levels_names hr
  have hn : (levelsNames r ++ numbered "y" (2 ^ r)).Nodup :=
    hn.sublist (List.Sublist.append_left (List.sublist_append_right _ _) _)
  obtain ⟨B0, e0, c0, m0⟩ := inputs_fine (C := C) (levelsNames r) Blk.empty (List.nodup_append.mp hn).1 (by simp [Blk.empty])
  obtain ⟨B1, e1, c1, -⟩ := inputs_fine (C := C) (numbered "y" (2 ^ r)) B0 (List.nodup_append.mp hn).2.1 (names_disjoint hn m0)
  obtain ⟨B2, e2, c2⟩ := uses_fine (C := C) (c1.trans c0) hd
  obtain ⟨w, e3⟩ := storesC_ok _ B2 (stores_parts (ks := q.1.1) c2)
  refine ⟨⟨levelsHead S r ++ (((numbered "y" (2 ^ r)).zip q.1.1).map fun p => FLine.load p.1 p.2) ++ w.1, flatten q.1.2.1, q.1.2.2.1,
    q.1.2.2.2, q.2⟩, ?_, rfl, rfl⟩
  unfold levelsCode
  rw [e0, bok, if_pos rfl, bok]
  simp only
  rw [e1, bok, e, bok, e2, bok, e3, bok]
  rfl

/-- **C72.** There is a remaining butterfly for no other number of levels. -/
theorem C72_levels_only {fwd : Bool} {W : FWritten} (h : levelsCode C S r fwd = .ok W) : r = 1 ∨ r = 2 ∨ r = 3 := by
  have key : ∀ {q}, levelsX C S r fwd ⟨true, [], []⟩ = .ok q → r = 1 ∨ r = 2 ∨ r = 3 := by
    intro q h
    unfold levelsX at h
    obtain ⟨jx, e1, h⟩ := gen_bind h
    obtain ⟨ks, e2, h⟩ := gen_bind h
    cases fwd <;> (obtain ⟨px, e3, h⟩ := gen_bind h; obtain ⟨py, e4, h⟩ := gen_bind h; exact levelsBody_r e4)
  unfold levelsCode at h
  obtain ⟨B0, e0, h⟩ := Ser.bind_eq_ok h
  cases fwd <;> (obtain ⟨B1, e1, h⟩ := Ser.bind_eq_ok h; obtain ⟨B2, e2, h⟩ := Ser.bind_eq_ok h; obtain ⟨q, h, -⟩ := Ser.bind_eq_ok h; exact key h)

theorem runs_firstX (hC : C.Ok) (hS : S.Ok C) (hr : r = 1 ∨ r = 2 ∨ r = 3) :
    RunsX C (firstX C S r true) fun q => q.kx.length = 2 ^ r ∧ q.ky.length = 2 ^ r / 2 ∧ q.fwd.length = 2 ^ r / 2 := by
  have h31 : 0 + 2 ^ r ≤ 2 ^ 31 := by rcases hr with rfl | rfl | rfl <;> norm_num
  have hl : ((numbered "x" (2 ^ r)).map S.name).length = 2 ^ r := by simp [numbered]
  have hj : Good C true (firstLoop S r).1 ∧ Good C true (firstLoop S r).2 := by
    unfold firstLoop
    split
    · exact ⟨good_name hS _, good_name hS _⟩
    · exact ⟨good_int (by norm_num) (by norm_num), good_int (by norm_num) (by norm_num)⟩
  refine .bind (Q := fun _ => True) ?_ fun p _ => .bind (runs_locsX hC hj.2 hj.1 _ _ h31) fun kx hx =>
    .bind (runs_locsX hC hj.2 hj.1 (2 ^ r / 2) 0 (by omega)) fun ky hy => ?_
  · split
    · exact (runs_sub hC (good_name hS _) (good_int (by norm_num) (by norm_num))).mono fun _ _ => trivial
    · exact .pure trivial
  · rw [if_pos rfl]
    exact .bind (runs_firstBodyX hC hS hr hl (good_names hS _)) fun z hz => .bind (.check (by rw [hz.1, hy.1])) fun _ _ =>
      .pure ⟨hx.1, hy.1, hz.1⟩

/-- **C72.** The generator of a first butterfly finishes: no assertion fails for one, two or three levels, and there are half as many
complex results as real cells.  If the parts of the results are told apart by their signatures, lines are written. -/
theorem C72_first_finishes (hC : C.Ok) (hS : S.Ok C) (hr : r = 1 ∨ r = 2 ∨ r = 3) :
    ∃ q, firstX C S r true ⟨true, [], []⟩ = .ok q ∧ q.1.kx.length = 2 ^ r ∧ q.1.ky.length = 2 ^ r / 2 ∧ q.1.fwd.length = 2 ^ r / 2 ∧
      ((∀ a ∈ flatten q.1.fwd, ∀ b ∈ flatten q.1.fwd, ∀ e ∈ a.subs, ∀ e' ∈ b.subs, e.sig C = e'.sig C → e = e') →
        ∃ W, firstCode C S r = .ok W ∧ W.results = flatten q.1.fwd ∧ W.cse = q.2) := by
  obtain ⟨q, e, -, -, h1, h2, h3⟩ := runs_firstX hC hS hr ⟨true, [], []⟩ (fun p hp => by simp at hp) rfl
  refine ⟨q, e, h1, h2, h3, fun hd => ?_⟩
  obtain ⟨B1, e1, c1, -⟩ := inputs_fine (C := C) _ Blk.empty (first_names hr) (by simp [Blk.empty])
  obtain ⟨B2, e2, c2⟩ := uses_fine (C := C) c1 hd
  obtain ⟨w, e3⟩ := storesC_ok _ B2 (stores_parts (ks := q.1.ky) c2)
  refine ⟨⟨firstHead r q.1.p ++ (((numbered "x" (2 ^ r)).zip q.1.kx).map fun p => FLine.loadX p.1 p.2) ++ firstInnerLines S r ++ w.1,
    flatten q.1.fwd, [], [], q.2⟩, ?_, rfl, rfl⟩
  unfold firstCode
  rw [e1, bok, e, bok, e2, bok, e3, bok]
  rfl

/-! ## Transposed -/

theorem gen_step {α β : Type} {m : Gen CSt α} {k : α → Gen CSt β} {st : CSt} {r : α × CSt} (h : m st = .ok r) : (m >>= k) st = k r.1 r.2 := by
  show (m st >>= fun p => k p.1 p.2) = _
  rw [h]
  rfl

theorem gen_ofRes {α : Type} {a : Res α} {b : α} (h : a = .ok b) (st : CSt) : (ofRes a : Gen CSt α) st = .ok (b, st) := by rw [h]; rfl

theorem thicken_even : ∀ (n : ℕ) (l : List Ex), l.length = 2 * n → ∃ z, thicken l = .ok z ∧ z.length = n
  | 0, [], _ => ⟨[], rfl, rfl⟩
  | n + 1, a :: b :: l, h => by
    obtain ⟨z, e, hz⟩ := thicken_even n l (by simp only [List.length_cons] at h; omega)
    exact ⟨⟨a, b⟩ :: z, by rw [thicken, e]; rfl, by simp [hz]⟩

theorem gradientX_ok (hC : C.Ok) (hS : S.Ok C) {xs : List Ex} {py y : List CEx} {st : CSt} (hc : Circuit C true xs (flatten py))
    (hx : ∀ x ∈ xs, ∃ y ∈ flatten py, x ∈ y.subs) (hst : st.Good C) (hex : st.exact = true) (hok : st.Ok C) (hd : ∀ z ∈ y, GoodC C z)
    (hlen : py.length = y.length) : ∃ g, gradientX C S xs (flatten py) (flatten y) st = .ok g ∧ g.1.length = xs.length := by
  have hu : Good C st.exact (S.name "unknown") := hex ▸ good_name hS _
  have hdy : ∀ d ∈ flatten y, Good C st.exact d := hex ▸ good_flatten hd
  rw [← hex] at hc
  obtain ⟨outs, st', h1, h2, -⟩ := hc.run hC hu hdy hst hok (by rw [flatten_length, flatten_length, hlen]) (anyInterp : Interp ℤ)
    (fun _ => (0 : ℤ)) hc.nodup (fun x => ⟨fun h => ⟨h, hx x h⟩, fun h => h.1⟩)
    (fuel := (flatten py).length + ((flatten py).flatMap Ex.subs).length) (Nat.add_le_add_left (List.toFinset_card_le _) _)
  exact ⟨(outs, st'), by unfold gradientX; rw [h1], h2⟩

namespace Spec

/-- The circuit of a remaining butterfly, on the inputs `px0`, `px1`, …. -/
def circuitOf (C : Cfg) (S : Seeds) (r : ℕ) : Gen CSt (List CEx × List CEx) := do
  let j ← (Sym.add C (S.name "j0") (S.name "j1") : Gen CSt Ex)
  let _ ← locsX C j (S.name "m") 0 (2 ^ r)
  let px ← splitAll C ((numbered "px" (2 ^ r)).map S.name)
  let py ← levelsBodyX C S r (S.name "j1") px
  return (px, py)

end Spec

/-- **C72.** The generator of a transposed remaining butterfly: the circuit is made, with literals in range and exact signatures,
and if it is one that `gradient` takes, with all
inputs in use, the transposed one is made; if its parts are told apart by their signatures, lines are written. -/
theorem C72_levels_back_finishes (hC : C.Ok) (hS : S.Ok C) (hr : r = 1 ∨ r = 2 ∨ r = 3) :
    ∃ c, circuitOf C S r ⟨true, [], []⟩ = .ok c ∧ c.1.1.length = 2 ^ r ∧ c.1.2.length = 2 ^ r ∧
      (∀ y ∈ flatten c.1.2, ∀ e ∈ y.subs, Good C true e) ∧
      (Circuit C true (flatten c.1.1) (flatten c.1.2) → (∀ x ∈ flatten c.1.1, ∃ y ∈ flatten c.1.2, x ∈ y.subs) →
        ∃ q, levelsX C S r false ⟨true, [], []⟩ = .ok q ∧ q.1.1.length = 2 ^ r ∧ q.1.2.1.length = 2 ^ r ∧ q.1.2.2 = (flatten c.1.1, flatten c.1.2) ∧
          ((∀ a ∈ flatten q.1.2.1, ∀ b ∈ flatten q.1.2.1, ∀ e ∈ a.subs, ∀ e' ∈ b.subs, e.sig C = e'.sig C → e = e') →
            ∃ W, levelsCode C S r false = .ok W ∧ W.results = flatten q.1.2.1 ∧ W.xs = flatten c.1.1 ∧ W.ys = flatten c.1.2 ∧ W.cse = q.2)) := by
  have h31 : 0 + 2 ^ r ≤ 2 ^ 31 := by rcases hr with rfl | rfl | rfl <;> norm_num
  obtain ⟨j, e1, s1, x1, b1⟩ := runs_add hC (good_name hS "j0") (good_name hS "j1") ⟨true, [], []⟩ (fun p hp => by simp at hp) rfl
  obtain ⟨ks, e2, s2, x2, b2⟩ := runs_locsX hC b1 (good_name hS "m") _ 0 h31 _ s1 x1
  obtain ⟨px, e3, s3, x3, b3⟩ := runs_splitAll hC _ (good_names hS (numbered "px" (2 ^ r))) _ s2 x2
  have lpx : px.1.length = 2 ^ r := by rw [b3.1]; simp [numbered]
  obtain ⟨py, e4, s4, x4, b4⟩ := runs_levelsBodyX hC hS hr (good_name hS "j1") lpx b3.2 _ s3 x3
  obtain ⟨y, e5, s5, x5, b5⟩ := runs_splitAll hC _ (good_names hS (numbered "y" (2 ^ r))) _ s4 x4
  have ly : y.1.length = 2 ^ r := by rw [b5.1]; simp [numbered]
  refine ⟨((px.1, py.1), py.2), ?_, lpx, b4.1, fun y hy => good_subs (good_flatten b4.2 y hy), fun hc hx => ?_⟩
  · unfold circuitOf
    rw [gen_step e1, gen_step e2, gen_step e3, gen_step e4]
    rfl
  have g1 := grows_add (C := C) (S.name "j0") (S.name "j1") _ _ empty_ok e1
  have g2 := grows_locsX (C := C) j.1 (S.name "m") _ _ _ _ g1.1 e2
  have g3 := grows_splitAll (C := C) _ _ _ g2.1 e3
  have g4 := grows_levelsBodyX (C := C) _ _ _ _ _ g3.1 e4
  have g5 := grows_splitAll (C := C) _ _ _ g4.1 e5
  obtain ⟨g, e6, lg⟩ := gradientX_ok hC hS hc hx s5 x5 g5.1 b5.2 (b4.1.trans ly.symm)
  obtain ⟨z, e7, lz⟩ := thicken_even (2 ^ r) g.1 (by rw [lg, flatten_length, lpx])
  have e : levelsX C S r false ⟨true, [], []⟩ = .ok ((ks.1, z, flatten px.1, flatten py.1), g.2) := by
    unfold levelsX
    rw [gen_step e1, gen_step e2, if_neg (by decide), gen_step e3, gen_step e4, gen_step e5, gen_step e6, gen_step (gen_ofRes e7 _),
      gen_step (gen_ofRes (slowAssert_true (by rw [lz, b2.1])) _)]
    rfl
  refine ⟨_, e, b2.1, lz, rfl, fun hd => ?_⟩
  have hn := levels_names hr
  have hn2 := (List.nodup_append.mp hn).2.1
  obtain ⟨B0, f0, c0, m0⟩ := inputs_fine (C := C) (levelsNames r) Blk.empty (List.nodup_append.mp hn).1 (by simp [Blk.empty])
  have hd0 := names_disjoint hn m0
  obtain ⟨B1, f1, c1, m1⟩ := reserve_fine (numbered "px" (2 ^ r)) B0 (List.nodup_append.mp hn2).1
    fun v hv => hd0 v (List.mem_append_left _ hv)
  obtain ⟨B2, f2, c2, -⟩ := inputs_fine (C := C) (numbered "y" (2 ^ r)) B1 (List.nodup_append.mp hn2).2.1 fun v hv hb => by
    rcases (m1 v).mp hb with hb | hb
    · exact (List.nodup_append.mp hn2).2.2 v hb v hv rfl
    · exact hd0 v (List.mem_append_right _ hv) hb
  obtain ⟨B3, f3, c3⟩ := uses_fine (C := C) (c2.trans (c1.trans c0)) hd
  obtain ⟨w, f4⟩ := storesC_ok _ B3 (stores_parts (ks := ks.1) c3)
  refine ⟨⟨levelsHead S r ++ (((numbered "y" (2 ^ r)).zip ks.1).map fun p => FLine.load p.1 p.2) ++ w.1, flatten z, flatten px.1,
    flatten py.1, g.2⟩, ?_, rfl, rfl, rfl, rfl⟩
  unfold levelsCode
  rw [f0, bok, if_neg (by decide)]
  simp only
  rw [f1, bok, f2, bok, e, bok, f3, bok, f4, bok]
  rfl

theorem storesX_ok {add : Bool} : ∀ (l : List (Ex × Ex)) (B : Blk), (∀ p ∈ l, ∀ e ∈ p.2.subs, B.counts (e.sig C) ≠ 0) →
    (∀ p ∈ l, ∀ n : ℤ, p.2 = .int n → 0 ≤ n) → ∃ w, storesX C add l B = .ok w := by
  intro l
  induction l with
  | nil => intro B _ _; exact ⟨_, rfl⟩
  | cons p l ih =>
    intro B h hn
    obtain ⟨o, e0, ho⟩ : ∃ o, putOf add p.2 = .ok o ∧ ∀ e ∈ o.2.subs, e ∈ p.2.subs := by
      unfold putOf
      cases add
      · exact ⟨_, rfl, fun _ h => h⟩
      · rw [if_pos rfl]
        cases hp : p.2 with
        | int n =>
          have := hn p List.mem_cons_self n hp
          rw [Ex.unneg, if_neg (by omega), bok]
          exact ⟨_, rfl, fun _ h => h⟩
        | neg x s =>
          rw [Ex.unneg, bok]
          exact ⟨_, rfl, fun e he => by simp only [Ex.subs, List.mem_cons]; exact .inr he⟩
        | _ => exact ⟨(.add, _), rfl, fun _ h => h⟩
    obtain ⟨a, e1, c1⟩ := compute_ok C o.2 fun x hx => h p List.mem_cons_self x (ho x hx)
    obtain ⟨q, e3⟩ := ih a.2 (fun y hy x hx => by rw [c1]; exact h y (List.mem_cons_of_mem _ hy) x hx)
      fun y hy => hn y (List.mem_cons_of_mem _ hy)
    refine ⟨(newLines B a.2 ++ .storeX p.1 o.1 a.1 :: q.1, q.2), ?_⟩
    rw [storesX, e0, bok, e1, bok, e3, bok]
    rfl

namespace Spec

/-- The circuit of a first butterfly, on the inputs `px0`, `px1`, …. -/
def circuitOfFirst (C : Cfg) (S : Seeds) (r : ℕ) : Gen CSt (List Ex × List CEx) := do
  let _ ← (if r = 3 then Sym.sub C (S.name "p") (.int 3) else pure (Ex.int 0) : Gen CSt Ex)
  let _ ← locsX C (firstLoop S r).2 (firstLoop S r).1 0 (2 ^ r)
  let _ ← locsX C (firstLoop S r).2 (firstLoop S r).1 0 (2 ^ r / 2)
  let py ← firstBodyX C S r (firstLoop S r).1 (firstLoop S r).2 (S.name "j1") ((numbered "px" (2 ^ r)).map S.name)
  return ((numbered "px" (2 ^ r)).map S.name, py)

end Spec

/-- **C72.** The generator of a transposed first butterfly: the circuit is made, with literals in range and exact signatures, and
if it is one that `gradient` takes, with all
inputs in use, the transposed one is made; if its parts are told apart by their signatures and no result is a negative literal, lines
are written. -/
theorem C72_last_finishes (hC : C.Ok) (hS : S.Ok C) (hr : r = 1 ∨ r = 2 ∨ r = 3) (add : Bool) :
    ∃ c, circuitOfFirst C S r ⟨true, [], []⟩ = .ok c ∧ c.1.1.length = 2 ^ r ∧ c.1.2.length = 2 ^ r / 2 ∧
      (∀ y ∈ flatten c.1.2, ∀ e ∈ y.subs, Good C true e) ∧
      (Circuit C true c.1.1 (flatten c.1.2) → (∀ x ∈ c.1.1, ∃ y ∈ flatten c.1.2, x ∈ y.subs) →
        ∃ q, firstX C S r false ⟨true, [], []⟩ = .ok q ∧ q.1.kx.length = 2 ^ r ∧ q.1.ky.length = 2 ^ r / 2 ∧ q.1.bwd.length = 2 ^ r ∧
          q.1.xs = c.1.1 ∧ q.1.ys = flatten c.1.2 ∧
          ((∀ a ∈ q.1.bwd, ∀ b ∈ q.1.bwd, ∀ e ∈ a.subs, ∀ e' ∈ b.subs, e.sig C = e'.sig C → e = e') →
            (∀ a ∈ q.1.bwd, ∀ n : ℤ, a = .int n → 0 ≤ n) →
            ∃ W, firstBack C S r add = .ok W ∧ W.results = q.1.bwd ∧ W.xs = c.1.1 ∧ W.ys = flatten c.1.2 ∧ W.cse = q.2)) := by
  have h31 : 0 + 2 ^ r ≤ 2 ^ 31 := by rcases hr with rfl | rfl | rfl <;> norm_num
  have hj : Good C true (firstLoop S r).1 ∧ Good C true (firstLoop S r).2 := by
    unfold firstLoop
    split
    · exact ⟨good_name hS _, good_name hS _⟩
    · exact ⟨good_int (by norm_num) (by norm_num), good_int (by norm_num) (by norm_num)⟩
  have rp : RunsX C (if r = 3 then sub C (S.name "p") (.int 3) else pure (Ex.int 0) : Gen CSt Ex) fun _ => True := by
    split
    · exact (runs_sub hC (good_name hS _) (good_int (by norm_num) (by norm_num))).mono fun _ _ => trivial
    · exact .pure trivial
  obtain ⟨p, e1, s1, x1, -⟩ := rp ⟨true, [], []⟩ (fun p hp => by simp at hp) rfl
  obtain ⟨kx, e2, s2, x2, b2⟩ := runs_locsX hC hj.2 hj.1 _ 0 h31 _ s1 x1
  obtain ⟨ky, e3, s3, x3, b3⟩ := runs_locsX hC hj.2 hj.1 (2 ^ r / 2) 0 (by omega) _ s2 x2
  have lpx : ((numbered "px" (2 ^ r)).map S.name).length = 2 ^ r := by simp [numbered]
  obtain ⟨py, e4, s4, x4, b4⟩ := runs_firstBodyX hC hS hr lpx (good_names hS _) _ s3 x3
  obtain ⟨y, e5, s5, x5, b5⟩ := runs_splitAll hC _ (good_names hS (numbered "y" (2 ^ r / 2))) _ s4 x4
  have ly : y.1.length = 2 ^ r / 2 := by rw [b5.1]; simp [numbered]
  refine ⟨(((numbered "px" (2 ^ r)).map S.name, py.1), py.2), ?_, lpx, b4.1, fun y hy => good_subs (good_flatten b4.2 y hy), fun hc hx => ?_⟩
  · unfold circuitOfFirst
    rw [gen_step e1, gen_step e2, gen_step e3, gen_step e4]
    rfl
  have g1 : p.2.Ok C := by
    by_cases h3 : r = 3
    · rw [if_pos h3] at e1
      exact (grows_sub (C := C) (S.name "p") (.int 3) _ _ empty_ok e1).1
    · rw [if_neg h3] at e1
      cases e1
      exact empty_ok
  have g2 := grows_locsX (C := C) _ _ _ _ _ _ g1 e2
  have g3 := grows_locsX (C := C) _ _ _ _ _ _ g2.1 e3
  have g4 := grows_firstBodyX (C := C) _ _ _ _ _ _ _ g3.1 e4
  have g5 := grows_splitAll (C := C) _ _ _ g4.1 e5
  obtain ⟨g, e6, lg⟩ := gradientX_ok hC hS hc hx s5 x5 g5.1 b5.2 (b4.1.trans ly.symm)
  have e : firstX C S r false ⟨true, [], []⟩ = .ok (⟨p.1, kx.1, ky.1, [], g.1, (numbered "px" (2 ^ r)).map S.name, flatten py.1⟩, g.2) := by
    unfold firstX
    rw [gen_step e1]
    simp only
    rw [gen_step e2, gen_step e3, if_neg (by decide), gen_step e4, gen_step e5, gen_step e6,
      gen_step (gen_ofRes (slowAssert_true (by rw [lg, lpx, b2.1])) _)]
    rfl
  refine ⟨_, e, b2.1, b3.1, lg.trans lpx, rfl, rfl, fun hd hneg => ?_⟩
  have hn := last_names hr
  have hn2 := (List.nodup_append.mp hn).2.1
  obtain ⟨B0, f0, c0, m0⟩ := inputs_fine (C := C) (firstNames r) Blk.empty (List.nodup_append.mp hn).1 (by simp [Blk.empty])
  have hd0 := names_disjoint hn m0
  obtain ⟨B1, f1, c1, m1⟩ := reserve_fine (numbered "px" (2 ^ r)) B0 (List.nodup_append.mp hn2).1
    fun v hv => hd0 v (List.mem_append_left _ hv)
  obtain ⟨B2, f2, c2, -⟩ := inputs_fine (C := C) (firstInner r ++ numbered "y" (2 ^ r / 2)) B1 (List.nodup_append.mp hn2).2.1 fun v hv hb => by
    rcases (m1 v).mp hb with hb | hb
    · exact (List.nodup_append.mp hn2).2.2 v hb v hv rfl
    · exact hd0 v (List.mem_append_right _ hv) hb
  obtain ⟨B3, f3, c3⟩ := uses_fine (C := C) (c2.trans (c1.trans c0)) hd
  obtain ⟨w, f4⟩ := storesX_ok (add := add) (kx.1.zip g.1) B3 (fun a ha => c3 _ (List.of_mem_zip (a := a.1) (b := a.2) ha).2)
    fun a ha => hneg _ (List.of_mem_zip (a := a.1) (b := a.2) ha).2
  refine ⟨⟨firstHead r p.1 ++ firstInnerLines S r ++ (((numbered "y" (2 ^ r / 2)).zip ky.1).map fun p => FLine.load p.1 p.2) ++ w.1, g.1,
    (numbered "px" (2 ^ r)).map S.name, flatten py.1, g.2⟩, ?_, rfl, rfl, rfl, rfl⟩
  unfold firstBack
  rw [f0, bok, f1, bok, f2, bok, e, bok, f3, bok, f4, bok]
  rfl

end

end Mandelbrot.Sym
