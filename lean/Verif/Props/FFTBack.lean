import Verif.Sym.FFTBack

/-!
# The generated transposed butterflies: C72
-/

namespace Mandelbrot.Sym

open Sig (Sg)
open Spec

namespace Spec

/-- What was transposed is a linear circuit without two parts of one signature, and no result mentions its `n` inputs, which the
written code does not declare, or the placeholder for a derivative that is not known. -/
structure Transposed (C : Cfg) (n : ℕ) (W : FWritten) : Prop where
  /-- Different parts have different signatures. -/
  inj : ∀ e e', (e ∈ W.xs ∨ ∃ y ∈ W.ys, e ∈ y.subs) → (e' ∈ W.xs ∨ ∃ y ∈ W.ys, e' ∈ y.subs) → e.sig C = e'.sig C → e = e'
  /-- The inputs are different, and are variables or fields of variables. -/
  nodup : W.xs.Nodup
  atom : ∀ x ∈ W.xs, x.args = [] ∨ Opaque x
  /-- Fields and calls do not depend on the inputs. -/
  const : ∀ y ∈ W.ys, ∀ e ∈ y.subs, Opaque e → ∀ a ∈ e.args, Const W.xs a
  /-- Outputs with an operator are different, and none is part of another output. -/
  sep : ∀ y ∈ W.ys, y.args ≠ [] → y ∉ W.xs → W.ys.count y ≤ 1 ∧ ∀ y' ∈ W.ys, y ∉ properSubs y'
  linear : ∀ e ∈ W.ys, Linear W.xs e
  free : ∀ e ∈ W.results, ∀ v ∈ e.vars, v ≠ "unknown" ∧ v ∉ numbered "px" n

/-- No result is a negative literal. -/
def NoNegative (W : FWritten) : Prop := ∀ e ∈ W.results, ∀ n : ℤ, e = .int n → 0 ≤ n

end Spec

section
variable {C : Cfg} {S : Seeds} {ρ : Interp ℂ} {xn r : ℕ} {tw : ℤ → ℂ} {W : FWritten}

theorem _root_.Mandelbrot.Sym.Spec.Transposed.circuit {n : ℕ} (h : Transposed C n W) (hg : ∀ y ∈ W.ys, ∀ e ∈ y.subs, Good C true e) :
    Circuit C true W.xs W.ys := ⟨h.inj, hg, h.nodup, h.atom, h.const, h.sep⟩

/-- **C72.** One iteration of the written code of a transposed remaining butterfly: it compiles, leaves the real cells alone, and
writes the `2^r` results of the transposed butterfly to the cells they came from. -/
theorem C72_levels_back_iteration (hC : C.Ok) (hS : S.Ok C) (h : levelsCode C S r false = .ok W) (hm : Means S tw ρ) (hs : SeparateF C ρ W)
    (ht : Transposed C (2 ^ r) W) (m : FMem) {j s : ℕ} (hj : m.env "j" = j) (hs' : m.env "s" = s) :
    let mm := 2 ^ s
    let j1 := j % mm
    let j0 := (j - j1) * 2 ^ r
    Compiles (levelsParams r) W.lines ∧ (runLines ρ xn W.lines m).x = m.x ∧
      (runLines ρ xn W.lines m).y = FFT.scatter (j0 + j1) mm (FFT.transposeC (2 ^ r) (FFT.butterflyR r j1 tw) fun i => m.y (j0 + j1 + i * mm))
        (2 ^ r) m.y := by
  unfold levelsCode at h
  obtain ⟨B0, e0, h⟩ := Ser.bind_eq_ok h
  obtain ⟨B1, e1, h⟩ := Ser.bind_eq_ok h
  obtain ⟨B2, e2, h⟩ := Ser.bind_eq_ok h
  obtain ⟨q, e3, h⟩ := Ser.bind_eq_ok h
  obtain ⟨B3, e4, h⟩ := Ser.bind_eq_ok h
  obtain ⟨w, e5, h⟩ := Ser.bind_eq_ok h
  cases h
  have e1 : Blk.reserveAll (numbered "px" (2 ^ r)) B0 = .ok B1 := e1
  have hU : ∀ env e e', e ∈ (flatten q.1.2.1).flatMap Ex.subs → e' ∈ (flatten q.1.2.1).flatMap Ex.subs → e.sig C = e'.sig C →
      e.val (withVar ρ env) = e'.val (withVar ρ env) := fun env e e' h1 h2 => (hs env).2 e h1 e' h2
  have hB : ∀ env, Inv C (withVar ρ env) (· ∈ (flatten q.1.2.1).flatMap Ex.subs) B3 ∧
      B3.code = (levelsNames r ++ numbered "y" (2 ^ r)).map .decl := by
    intro env
    obtain ⟨i0, c0⟩ := inv_inputs (hU env) inv_empty e0
    obtain ⟨i0', c0'⟩ := inv_reserve _ i0 e1
    obtain ⟨i1, c1⟩ := inv_inputs (hU env) i0' e2
    obtain ⟨i2, c2⟩ := inv_uses i1 e4
    refine ⟨i2, ?_⟩
    rw [c2, c1, c0', c0]
    simp [Blk.empty]
  have hp := fun env {a b c : ℕ} ha hb hcc {ys : ℕ → ℂ} hy =>
    levels_back_parts (r := r) (a := a) (b := b) (c := c) (ys := ys) hC hS e3 hm (fun env => (hs env).1) ht.circuit ht.linear ht.free
      (env := env) ha hb hcc hy
  obtain ⟨lk, lz, -, -⟩ := hp (fun _ => 0) (a := 0) (b := 0) (c := 0) (ys := fun _ => 0) (by simp) (by simp) (by simp) (by simp)
  have := levels_core (S := S) (xn := xn) (f := fun b ys => FFT.transposeC (2 ^ r) (FFT.butterflyR r b tw) ys) hU (fun env => (hB env).1)
    (hB m.env).2 (fun e he e' he' => List.mem_flatMap.mpr ⟨e, he, he'⟩)
    (fun env a b c ha hb hcc => (hp env ha hb hcc (ys := fun i => env ("y" ++ toString i)) fun _ _ => rfl).2.2.1)
    (fun env a b c ys ha hb hcc hy => (hp env ha hb hcc hy).2.2.2) lk lz e5 m hj hs'
  simp only [Nat.shiftLeft_eq, one_mul, Nat.and_two_pow_sub_one_eq_mod] at this ⊢
  exact this

/-- **C72.** The written loop of a transposed remaining butterfly is the transposed butterfly on numbers, for every count, step and
content of the cells. -/
theorem C72_levels_back (hC : C.Ok) (hS : S.Ok C) (h : levelsCode C S r false = .ok W) (hm : Means S tw ρ) (hs : SeparateF C ρ W)
    (ht : Transposed C (2 ^ r) W) (m : FMem) {cnt s : ℕ} (hs' : m.env "s" = s) :
    Compiles (levelsParams r) W.lines ∧ runLoop ρ xn cnt W.lines m = { m with y := FFT.isrfftLevels r cnt m.y tw s } := by
  refine ⟨(C72_levels_back_iteration (xn := 0) hC hS h hm hs ht ⟨fun _ => 0, m.y, m.x⟩ (j := 0) (s := 0) (by simp) (by simp)).1, ?_⟩
  refine runLoop_y fun j m' he hx => ?_
  have := (C72_levels_back_iteration (xn := xn) hC hS h hm hs ht m' (j := j) (s := s) (by simp [he]) (by simp [he, hs'])).2
  simp only [Nat.shiftLeft_eq, one_mul, Nat.and_two_pow_sub_one_eq_mod]
  exact this

/-- **C72.** One iteration of the written code of a transposed first butterfly: it compiles, leaves the complex cells alone, and sets
the real cells to the `2^r` results, or adds the results to them; cells past the end of the real span are not touched. -/
theorem C72_last_iteration {add : Bool} (hC : C.Ok) (hS : S.Ok C) (h : firstBack C S r add = .ok W) (hm : Means S tw ρ) (hs : SeparateF C ρ W)
    (ht : Transposed C (2 ^ r) W) (hneg : NoNegative W) (m : FMem) {cnt j p : ℕ} (hv : FirstEnv r m.env cnt j p) :
    Compiles (firstParams r) W.lines ∧ (runLines ρ xn W.lines m).y = m.y ∧
      (runLines ρ xn W.lines m).x = FFT.scatterX add xn j cnt (FFT.transposeR (2 ^ r / 2) (FFT.firstLevels r j cnt (2 ^ (p - 3)) (firstTw tw r))
        fun i => m.y (j + i * cnt)) (2 ^ r) m.x := by
  unfold firstBack at h
  obtain ⟨B0, e0, h⟩ := Ser.bind_eq_ok h
  obtain ⟨B1, e1, h⟩ := Ser.bind_eq_ok h
  obtain ⟨B2, e2, h⟩ := Ser.bind_eq_ok h
  obtain ⟨q, e3, h⟩ := Ser.bind_eq_ok h
  obtain ⟨B3, e4, h⟩ := Ser.bind_eq_ok h
  obtain ⟨w, e5, h⟩ := Ser.bind_eq_ok h
  cases h
  have hU : ∀ env e e', e ∈ q.1.bwd.flatMap Ex.subs → e' ∈ q.1.bwd.flatMap Ex.subs → e.sig C = e'.sig C →
      e.val (withVar ρ env) = e'.val (withVar ρ env) := fun env e e' h1 h2 => (hs env).2 e h1 e' h2
  have hB : ∀ env, Inv C (withVar ρ env) (· ∈ q.1.bwd.flatMap Ex.subs) B3 ∧ B3.code = (lastAll r).map .decl := by
    intro env
    obtain ⟨i0, c0⟩ := inv_inputs (hU env) inv_empty e0
    obtain ⟨i0', c0'⟩ := inv_reserve _ i0 e1
    obtain ⟨i1, c1⟩ := inv_inputs (hU env) i0' e2
    obtain ⟨i2, c2⟩ := inv_uses i1 e4
    refine ⟨i2, ?_⟩
    rw [c2, c1, c0', c0]
    simp [Blk.empty, lastAll]
  have hN : (lastAll r).Nodup := scoped_nodup ((hB m.env).2 ▸ (hB m.env).1.wf)
  obtain ⟨hN4, hN1, hN3⟩ := List.nodup_append.mp hN
  obtain ⟨hN2, hN5, hN6⟩ := List.nodup_append.mp hN1
  have hidx : ∀ v ∈ firstIdx r, v ∈ firstNames r ∧ v ≠ "m" ∧ v ∉ numbered "y" (2 ^ r / 2) ∧ v ∉ firstInner r := by
    intro v hv'
    have h1 : v ∈ firstNames r ∧ v ≠ "m" := by
      unfold firstIdx at hv'
      split_ifs at hv' with hr
      · simp only [List.mem_cons, List.not_mem_nil, or_false] at hv'
        rcases hv' with rfl | rfl | rfl <;> exact ⟨by simp [firstNames, hr], by decide⟩
      · simp at hv'
    exact ⟨h1.1, h1.2, fun hx => hN3 v h1.1 v (List.mem_append_right _ hx) rfl, fun hx => hN3 v h1.1 v (List.mem_append_left _ hx) rfl⟩
  have hp := fun env {cnt j p mm : ℕ} hv {ys : ℕ → ℂ} hy h1 =>
    first_back_parts (r := r) (cnt := cnt) (j := j) (p := p) (mm := mm) (ys := ys) hC hS e3 hm (fun env => (hs env).1) ht.circuit ht.linear ht.free
      (env := env) hv hy h1
  -- facts that do not depend on the values of other names
  have base : ∀ env, FirstEnv r env cnt j p → (r = 3 → In (firstIdx r) q.1.p ∧ q.1.p.val (withVar ρ env) = ((p - 3 : ℕ) : ℂ)) ∧
      q.1.kx.length = 2 ^ r ∧ q.1.ky.length = 2 ^ r / 2 ∧ q.1.bwd.length = 2 ^ r ∧
      (IsIL (withVar ρ env) (firstIdx r) q.1.kx fun i => (j : ℤ) + (i : ℕ) * (cnt : ℤ)) ∧
      IsIL (withVar ρ env) (firstIdx r) q.1.ky fun i => (j : ℤ) + (i : ℕ) * (cnt : ℤ) := by
    intro env he
    have hj0 : r = 3 → "j1" ∉ firstIdx r := fun hr hx => (hidx _ hx).2.2.2 (by simp [firstInner, hr])
    have hagree : ∀ v ∈ firstIdx r, (fun v => if v ∈ firstIdx r then env v else 0) v = env v := fun v hv => if_pos hv
    obtain ⟨f1, f2, f3, f4, f5, f6, -⟩ := hp (fun v => if v ∈ firstIdx r then env v else 0) (mm := 1) (firstEnv_congr he hagree)
      (ys := fun i => (fun v => if v ∈ firstIdx r then env v else 0) ("y" ++ toString i)) (fun i hi => rfl) (fun hr => by simp [hj0 hr])
    exact ⟨fun hr => ⟨(f1 hr).1, by rw [← (f1 hr).2]; exact val_congr ρ _ fun v hv => (hagree v ((f1 hr).1 v hv)).symm⟩, f2, f3, f4,
      isIL_congr hagree _ _ f5, isIL_congr hagree _ _ f6⟩
  obtain ⟨b1, lk, ly, lz, -, -⟩ := base m.env hv
  -- the first line
  obtain ⟨y1, x1, v1, w1⟩ := first_head_run (xn := xn) (r := r) (ρ := ρ) m (e := q.1.p) (k := p - 3) (fun hr => (b1 hr).2)
  obtain ⟨m1, hm1⟩ : ∃ m1, m1 = runLines ρ xn (firstHead r q.1.p) m := ⟨_, rfl⟩
  rw [← hm1] at y1 x1 v1 w1
  have hv1 : FirstEnv r m1.env cnt j p := firstEnv_congr hv fun v hv => v1 v (hidx v hv).2.1
  -- the inner lines
  obtain ⟨y2, x2, v2, w2⟩ := first_inner_run (xn := xn) (r := r) (ρ := ρ) (S := S) m1 (j := j) (k := p - 3) hv1.iter w1
  obtain ⟨m2, hm2⟩ : ∃ m2, m2 = runLines ρ xn (firstInnerLines S r) m1 := ⟨_, rfl⟩
  rw [← hm2] at y2 x2 v2 w2
  have hv2 : FirstEnv r m2.env cnt j p := firstEnv_congr hv1 fun v hv => v2 v (hidx v hv).2.2.2
  -- the loads
  have k2 := (base m2.env hv2).2.2.2.2.2
  have hvars : ∀ e ∈ q.1.ky, In (firstIdx r) e := by
    intro e he
    obtain ⟨i, h, rfl⟩ := List.getElem_of_mem he
    exact (isIL_get _ _ k2 i h).1
  obtain ⟨y3, x3, v3, w3⟩ := loads_run (ρ := ρ) (xn := xn) FLine.load (fun m k => m.y k) (fun _ _ _ => rfl)
    (fun _ _ _ _ => rfl) (numbered "y" (2 ^ r / 2)) q.1.ky (fun i => j + i * cnt) m2 hN5 (by rw [numbered_length, ly])
    (fun e he v hv => (hidx v (hvars e he v hv)).2.2.1) (fun i h => by
      rw [(isIL_get _ _ k2 i h).2, show (((j : ℤ) + (i : ℕ) * (cnt : ℤ) : ℤ) : ℂ) = ((j + i * cnt : ℕ) : ℂ) by push_cast; rfl, index_nat])
  obtain ⟨m3, hm3⟩ : ∃ m3, m3 = runLines ρ xn (((numbered "y" (2 ^ r / 2)).zip q.1.ky).map fun p => FLine.load p.1 p.2) m2 := ⟨_, rfl⟩
  rw [← hm3] at y3 x3 v3 w3
  have hv3 : FirstEnv r m3.env cnt j p := firstEnv_congr hv2 fun v hv => v3 v (hidx v hv).2.2.1
  have hj1 : r = 3 → m3.env "j1" = ((j &&& (2 ^ (p - 3) - 1) : ℕ) : ℂ) := fun hr => by
    rw [v3 _ fun hx => hN6 "j1" (by simp [firstInner, hr]) "j1" hx rfl, w2 hr]
  have hy3 : ∀ i < 2 ^ r / 2, m3.env ("y" ++ toString i) = m.y (j + i * cnt) := by
    intro i hi
    have := w3 i (by rw [numbered_length]; exact hi)
    rw [numbered_get] at this
    rw [this, y2, y1]
  -- the stores
  obtain ⟨c, sy, sx⟩ := storesX_run (xn := xn) (M := m3) (hU m3.env) (hB m3.env).1 (hB m3.env).2
    (fun e he e' he' => List.mem_flatMap.mpr ⟨e, he, he'⟩) hneg (base m3.env hv3).2.2.2.2.1 (lastIdx_sub r)
    (hp m3.env hv3 hy3 hj1).2.2.2.2.2.2 lk lz e5
  have hrun : runLines ρ xn (firstHead r q.1.p ++ firstInnerLines S r ++ (((numbered "y" (2 ^ r / 2)).zip q.1.ky).map fun p => FLine.load p.1 p.2) ++ w.1) m =
      runLines ρ xn w.1 m3 := by
    rw [runLines_append, runLines_append, runLines_append, ← hm1, ← hm2, ← hm3]
  obtain ⟨ch, dh⟩ := first_head_compiles (fun hr => (b1 hr).1) hN4
  obtain ⟨ci, di⟩ := first_inner_compiles (S := S) (r := r) (D := firstNames r) (fun v hv => hv)
    hN2 (fun v hv hv' => hN3 v hv' v (List.mem_append_left _ hv) rfl)
  obtain ⟨cl, dl⟩ := loads_compile FLine.load (fun _ _ => rfl) (fun _ _ => rfl) (numbered "y" (2 ^ r / 2)) q.1.ky (firstNames r ++ firstInner r) hN5
    (fun v hv hv' => by
      rcases List.mem_append.mp hv' with hv' | hv'
      · exact hN3 v hv' v (List.mem_append_right _ hv) rfl
      · exact hN6 v hv' v hv rfl) (by rw [numbered_length, ly]) (fun e he v hv => List.mem_append_left _ (hidx v (hvars e he v hv)).1)
  refine ⟨?_, by rw [hrun, sy, y3, y2, y1], by rw [hrun, sx, x3, x2, x1]⟩
  have hd2 : firstParams r ++ declaredF (firstHead r q.1.p ++ firstInnerLines S r) = firstNames r ++ firstInner r := by
    rw [declaredF, List.flatMap_append, ← declaredF, ← declaredF, di, ← List.append_assoc, dh]
  have hd3 : firstParams r ++ declaredF (firstHead r q.1.p ++ firstInnerLines S r ++
      (((numbered "y" (2 ^ r / 2)).zip q.1.ky).map fun p => FLine.load p.1 p.2)) = lastAll r := by
    rw [declaredF, List.flatMap_append, ← declaredF, ← declaredF, dl, ← List.append_assoc, hd2, List.append_assoc]
    rfl
  rw [compiles_append, compiles_append, compiles_append, dh, hd2, hd3]
  exact ⟨⟨⟨ch, ci⟩, cl⟩, c⟩

theorem foldl_x (m : FMem) (F : ℕ → (ℕ → ℝ) → (ℕ → ℝ)) (G : FMem → ℕ → FMem) :
    ∀ (l : List ℕ) (x : ℕ → ℝ), (∀ j ∈ l, ∀ m', m'.env = m.env → m'.y = m.y → G m' j = { m with x := F j m'.x }) →
      l.foldl G { m with x := x } = { m with x := l.foldl (fun x j => F j x) x } := by
  intro l
  induction l with
  | nil => intro x _; rfl
  | cons j l ih =>
    intro x hG
    rw [List.foldl_cons, hG j (by simp) { m with x := x } rfl rfl, ih _ fun i hi => hG i (by simp [hi])]
    rfl

theorem runLoop_x {l : List FLine} {cnt : ℕ} {F : ℕ → (ℕ → ℝ) → (ℕ → ℝ)} {m : FMem}
    (h : ∀ j < cnt, ∀ m' : FMem, m'.env = Function.update m.env "j" (j : ℂ) → m'.y = m.y →
      (runLines ρ xn l m').y = m'.y ∧ (runLines ρ xn l m').x = F j m'.x) :
    runLoop ρ xn cnt l m = { m with x := FFT.forLoop cnt F m.x } := by
  refine foldl_x m F _ _ _ fun j hj m' _ hy => ?_
  obtain ⟨a, b⟩ := h j (List.mem_range.mp hj) { m' with env := Function.update m.env "j" (j : ℂ) } rfl hy
  show FMem.mk _ _ _ = FMem.mk _ _ _
  rw [a, b]
  simp only [hy]

/-- **C72.** The written loop of the transposed first levels is the function on numbers: for every count, size of the real span and
content of the cells.  With fewer than three levels there is one iteration. -/
theorem C72_last {add : Bool} (hC : C.Ok) (hS : S.Ok C) (h : firstBack C S r add = .ok W) (hm : Means S tw ρ) (hs : SeparateF C ρ W)
    (ht : Transposed C (2 ^ r) W) (hneg : NoNegative W) (m : FMem) {cnt p : ℕ} (h3 : r = 3 → m.env "n8" = cnt ∧ m.env "p" = p ∧ 3 ≤ p)
    (h1 : r ≠ 3 → cnt = 1) :
    Compiles (firstParams r) W.lines ∧ runLoop ρ xn cnt W.lines m =
      { m with x := FFT.isrfftLast add r cnt (1 <<< (p - 3)) (firstTw tw r) m.y xn m.x } := by
  have hv : ∀ (j : ℕ) (env : String → ℂ), (r ≠ 3 → j = 0) → env = Function.update m.env "j" (j : ℂ) → FirstEnv r env cnt j p := fun j env hj he =>
    ⟨fun hr => by simp [he, (h3 hr).1], fun _ => by simp [he], fun hr => ⟨by simp [he, (h3 hr).2.1], (h3 hr).2.2⟩, fun hr => ⟨h1 hr, hj hr⟩⟩
  refine ⟨(C72_last_iteration (xn := 0) hC hS h hm hs ht hneg ⟨_, m.y, m.x⟩ (hv 0 _ (fun _ => rfl) rfl)).1, ?_⟩
  refine runLoop_x fun j hj m' he hy => ?_
  have := (C72_last_iteration (xn := xn) hC hS h hm hs ht hneg m' (hv j _ (fun hr => by have := h1 hr; omega) he)).2
  rw [Nat.one_shiftLeft, ← hy]
  exact this

/-- **C72.** The written transposed functions for sizes two and four, which have no loop. -/
theorem C72_last_small {add : Bool} (hr : r = 1 ∨ r = 2) (hC : C.Ok) (hS : S.Ok C) (h : firstBack C S r add = .ok W) (hm : Means S tw ρ)
    (hs : SeparateF C ρ W) (ht : Transposed C (2 ^ r) W) (hneg : NoNegative W) (m : FMem) :
    Compiles (firstParams r) W.lines ∧ (runLines ρ xn W.lines m).y = m.y ∧
      (runLines ρ xn W.lines m).x = FFT.isrfftLast add r 1 0 (fun j => FFT.constantTwiddle j r) m.y xn m.x := by
  have h3 : r ≠ 3 := by omega
  obtain ⟨a, b, c⟩ := C72_last_iteration (xn := xn) hC hS h hm hs ht hneg m (cnt := 1) (j := 0) (p := 0)
    ⟨fun e => absurd e h3, fun e => absurd e h3, fun e => absurd e h3, fun _ => ⟨rfl, rfl⟩⟩
  refine ⟨a, b, ?_⟩
  rw [c, show firstTw tw r = fun j => FFT.constantTwiddle j r from if_neg h3]
  rcases hr with rfl | rfl <;> rfl

end

end Mandelbrot.Sym
