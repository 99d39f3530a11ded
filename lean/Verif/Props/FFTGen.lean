import Verif.Sym.FFTRun

/-!
# The generated butterflies: C72
-/

namespace Mandelbrot.Sym

open Sig (Sg)
open Spec

namespace Spec

/-- Equal signatures mean equal values, whatever the values of the names, for what was looked up and for the parts of what is
written. -/
def SeparateF (C : Cfg) (ρ : Interp ℂ) (W : FWritten) : Prop :=
  ∀ env, NoClash C (withVar ρ env) W.cse.met ∧ ∀ e ∈ W.results.flatMap Ex.subs, ∀ e' ∈ W.results.flatMap Ex.subs,
    e.sig C = e'.sig C → e.val (withVar ρ env) = e'.val (withVar ρ env)

/-- The parameters of the functions for the remaining levels, and the number of the iteration. -/
def levelsParams (r : ℕ) : List String := ["x", "xn", "y", "n" ++ toString (2 ^ (r + 1)), "j", "s"]

/-- The parameters of the functions for the first levels, and the number of the iteration. -/
def firstParams (r : ℕ) : List String := ["x", "xn", "y"] ++ if r = 3 then ["n8", "j", "p"] else ["p"]

/-- A loop: the parameters keep their values, and the locals of an iteration are gone after it. -/
noncomputable def runLoop (ρ : Interp ℂ) (xn cnt : ℕ) (l : List FLine) (m : FMem) : FMem :=
  FFT.forLoop cnt (fun j m' => { runLines ρ xn l { m' with env := Function.update m.env "j" (j : ℂ) } with env := m.env }) m

end Spec

section
variable {C : Cfg} {S : Seeds} {ρ : Interp ℂ} {xn r : ℕ} {tw : ℤ → ℂ} {W : FWritten}

theorem _root_.Mandelbrot.Sym.Spec.Means.withVar (h : Means S tw ρ) (env : String → ℂ) : Means S tw (withVar ρ env) :=
  ⟨h.re, h.im, h.twiddle, h.sqrtHalf, h.constRe, h.constIm⟩

theorem numbered_get (pre : String) (n i : ℕ) (h : i < (numbered pre n).length) : (numbered pre n)[i] = pre ++ toString i := by
  simp [numbered]

theorem numbered_length (pre : String) (n : ℕ) : (numbered pre n).length = n := by simp [numbered]

theorem scoped_nodup {l : List String} (h : Scoped [] (l.map Item.decl)) : l.Nodup := (scoped_decls l [] h).1

/-- The lines of the remaining levels, given what the expressions stand for. -/
theorem levels_core {U : Ex → Prop} {B : Blk} {ks : List Ex} {zs : List CEx} {w : List FLine × Blk} {f : ℕ → (ℕ → ℂ) → ℕ → ℂ}
    (hU : ∀ env e e', U e → U e' → e.sig C = e'.sig C → e.val (withVar ρ env) = e'.val (withVar ρ env))
    (hI : ∀ env, Inv C (withVar ρ env) U B) (hB : B.code = (levelsNames r ++ numbered "y" (2 ^ r)).map .decl)
    (hs : ∀ e ∈ flatten zs, ∀ e' ∈ e.subs, U e')
    (hk : ∀ (env : String → ℂ) (a b c : ℕ), env "j0" = a → env "j1" = b → env "m" = c →
      IsIL (withVar ρ env) ["j0", "j1", "m"] ks fun i => ((a + b : ℕ) : ℤ) + (i : ℕ) * (c : ℤ))
    (hz : ∀ (env : String → ℂ) (a b c : ℕ) (ys : ℕ → ℂ), env "j0" = a → env "j1" = b → env "m" = c →
      (∀ i < 2 ^ r, env ("y" ++ toString i) = ys i) → IsL (withVar ρ env) (levelsNames r ++ numbered "y" (2 ^ r)) zs (f b ys))
    (lk : ks.length = 2 ^ r) (lz : zs.length = 2 ^ r) (e : storesC C (ks.zip zs) B = .ok w) (m : FMem) {j s : ℕ}
    (hj : m.env "j" = j) (hs' : m.env "s" = s) :
    let L := levelsHead S r ++ (((numbered "y" (2 ^ r)).zip ks).map fun p => FLine.load p.1 p.2) ++ w.1
    let mm := 1 <<< s
    let j1 := j &&& (mm - 1)
    let j0 := (j - j1) <<< r
    Compiles (levelsParams r) L ∧ (runLines ρ xn L m).x = m.x ∧
      (runLines ρ xn L m).y = FFT.scatter (j0 + j1) mm (f j1 fun i => m.y (j0 + j1 + i * mm)) (2 ^ r) m.y := by
  intro L mm j1 j0
  have hN : (levelsNames r ++ numbered "y" (2 ^ r)).Nodup := scoped_nodup (hB ▸ (hI m.env).wf)
  obtain ⟨hN1, hN2, hN3⟩ := List.nodup_append.mp hN
  have hnot : ∀ v ∈ (["j0", "j1", "m"] : List String), v ∉ numbered "y" (2 ^ r) := fun v hv hv' => by
    refine hN3 v ?_ v hv' rfl
    simp only [List.mem_cons, List.not_mem_nil, or_false] at hv
    rcases hv with rfl | rfl | rfl <;> simp [levelsNames]
  -- the first lines
  obtain ⟨m1, hm1⟩ : ∃ m1, m1 = ((m.let "m" (mm : ℂ)).let "j1" (j1 : ℂ)).let "j0" (j0 : ℂ) := ⟨_, rfl⟩
  have hhead : runLines ρ xn (levelsHead S r) m = m1 := by
    have e1 : FLine.exec ρ xn m (.pow2 "m" (S.name "s")) = m.let "m" (mm : ℂ) := by
      show m.let "m" ((1 <<< index (m.env "s") : ℕ) : ℂ) = _
      rw [hs', index_nat]
    have e2 : FLine.exec ρ xn (m.let "m" (mm : ℂ)) (.low "j1" (S.name "j") (S.name "m")) = (m.let "m" (mm : ℂ)).let "j1" (j1 : ℂ) := by
      show FMem.let _ "j1" ((index (Function.update m.env "m" (mm : ℂ) "j") &&& (index (Function.update m.env "m" (mm : ℂ) "m") - 1) : ℕ) : ℂ) = _
      rw [Function.update_self, Function.update_of_ne (by decide), hj, index_nat, index_nat]
    have e3 : FLine.exec ρ xn ((m.let "m" (mm : ℂ)).let "j1" (j1 : ℂ)) (.high "j0" (S.name "j") (S.name "j1") r) = m1 := by
      show FMem.let _ "j0" (((index (Function.update (Function.update m.env "m" (mm : ℂ)) "j1" (j1 : ℂ) "j") -
        index (Function.update (Function.update m.env "m" (mm : ℂ)) "j1" (j1 : ℂ) "j1")) <<< r : ℕ) : ℂ) = _
      rw [Function.update_self, Function.update_of_ne (by decide), Function.update_of_ne (by decide), hj, index_nat, index_nat, hm1]
    show FLine.exec ρ xn (FLine.exec ρ xn (FLine.exec ρ xn m (.pow2 "m" (S.name "s"))) (.low "j1" (S.name "j") (S.name "m")))
      (.high "j0" (S.name "j") (S.name "j1") r) = _
    rw [e1, e2, e3]
  have v0 : m1.env "j0" = (j0 : ℂ) := by rw [hm1, let_self]
  have v1 : m1.env "j1" = (j1 : ℂ) := by rw [hm1, let_ne _ _ (by decide), let_self]
  have v2 : m1.env "m" = (mm : ℂ) := by rw [hm1, let_ne _ _ (by decide), let_ne _ _ (by decide), let_self]
  -- the loads
  have hks := hk m1.env j0 j1 mm v0 v1 v2
  have hvars : ∀ e ∈ ks, In ["j0", "j1", "m"] e := by
    intro e he
    obtain ⟨i, h, rfl⟩ := List.getElem_of_mem he
    exact (isIL_get ks _ hks i h).1
  obtain ⟨ly, lx, le, lv⟩ := loads_run (ρ := ρ) (xn := xn) FLine.load (fun m k => m.y k) (fun _ _ _ => rfl) (fun _ _ _ _ => rfl)
    (numbered "y" (2 ^ r)) ks (fun i => j0 + j1 + i * mm) m1 hN2 (by rw [numbered_length, lk])
    (fun e he v hv => hnot v (hvars e he v hv)) (fun i h => by
      rw [(isIL_get ks _ hks i h).2, show ((((j0 + j1 : ℕ) : ℤ) + (i : ℕ) * (mm : ℤ) : ℤ) : ℂ) = ((j0 + j1 + i * mm : ℕ) : ℂ) by push_cast; rfl,
        index_nat])
  set m2 := runLines ρ xn (((numbered "y" (2 ^ r)).zip ks).map fun p => FLine.load p.1 p.2) m1 with hm2
  have w0 : m2.env "j0" = (j0 : ℂ) := by rw [le _ (hnot _ (by simp)), v0]
  have w1 : m2.env "j1" = (j1 : ℂ) := by rw [le _ (hnot _ (by simp)), v1]
  have w2 : m2.env "m" = (mm : ℂ) := by rw [le _ (hnot _ (by simp)), v2]
  have wy : ∀ i < 2 ^ r, m2.env ("y" ++ toString i) = m1.y (j0 + j1 + i * mm) := by
    intro i hi
    have := lv i (by rw [numbered_length]; exact hi)
    rwa [numbered_get] at this
  obtain ⟨c, sx, sy⟩ := stores_run (xn := xn) (M := m2) (hU m2.env) (hI m2.env) hB hs (hk m2.env j0 j1 mm w0 w1 w2)
    (fun v hv => List.mem_append_left _ (by
      simp only [List.mem_cons, List.not_mem_nil, or_false] at hv
      rcases hv with rfl | rfl | rfl <;> simp [levelsNames])) (hz m2.env j0 j1 mm _ w0 w1 w2 wy) lk lz e
  have hrun : runLines ρ xn L m = runLines ρ xn w.1 m2 := by
    rw [show L = (levelsHead S r ++ (((numbered "y" (2 ^ r)).zip ks).map fun p => FLine.load p.1 p.2)) ++ w.1 from rfl, runLines_append,
      runLines_append, hhead]
  refine ⟨?_, by rw [hrun, sx, lx, hm1]; rfl, by rw [hrun, sy, ly, hm1]; rfl⟩
  have hparams : levelsNames r = levelsParams r ++ ["m", "j1", "j0"] := rfl
  obtain ⟨ld, lde⟩ := loads_compile FLine.load (fun _ _ => rfl) (fun _ _ => rfl) (numbered "y" (2 ^ r)) ks (levelsNames r) hN2
    (fun v hv hv' => hN3 v hv' v hv rfl) (by rw [numbered_length, lk]) (fun e he v hv => by
      have := hvars e he v hv
      simp only [List.mem_cons, List.not_mem_nil, or_false] at this
      rcases this with rfl | rfl | rfl <;> simp [levelsNames])
  rw [show L = (levelsHead S r ++ (((numbered "y" (2 ^ r)).zip ks).map fun p => FLine.load p.1 p.2)) ++ w.1 from rfl, compiles_append,
    compiles_append]
  have hd : levelsParams r ++ declaredF (levelsHead S r) = levelsNames r := by rw [hparams]; rfl
  refine ⟨⟨?_, by rw [hd]; exact ld⟩, ?_⟩
  · rw [hparams] at hN1
    have hp : ∀ v ∈ (["m", "j1", "j0"] : List String), v ∉ levelsParams r := fun v hv hv' =>
      (List.nodup_append.mp hN1).2.2 v hv' v hv rfl
    have a0 := hp "m" (by simp)
    have a1 := hp "j1" (by simp)
    have a2 := hp "j0" (by simp)
    have p1 : "j" ∈ levelsParams r := by simp [levelsParams]
    have p2 : "s" ∈ levelsParams r := by simp [levelsParams]
    simp only [levelsHead, Compiles, FLine.uses, FLine.decl, Seeds.name, Ex.vars, forall_eq, List.mem_append,
      List.cons_append, List.nil_append, List.mem_cons, List.not_mem_nil, or_false, and_true]
    refine ⟨p2, a0, ?_, ?_, ?_, ?_⟩
    · rintro v (rfl | rfl) <;> simp [p1]
    · rintro (h | h)
      · exact a1 h
      · revert h; decide
    · rintro v (rfl | rfl) <;> simp [p1]
    · rintro ((h | h) | h)
      · exact a2 h
      · revert h; decide
      · revert h; decide
  · have : levelsParams r ++ declaredF (levelsHead S r ++ (((numbered "y" (2 ^ r)).zip ks).map fun p => FLine.load p.1 p.2)) =
        levelsNames r ++ numbered "y" (2 ^ r) := by
      rw [declaredF, List.flatMap_append, ← declaredF, ← declaredF, lde, ← List.append_assoc, hd]
    rw [this]
    exact c

theorem in_name {D : List String} {v : String} (h : v ∈ D) : In D (S.name v) := by
  intro u hu
  rw [show u = v by simpa [Seeds.name, Ex.vars] using hu]
  exact h

theorem isI_name {D : List String} {v : String} (env : String → ℂ) {n : ℕ} (h : v ∈ D) (e : env v = n) :
    IsI (withVar ρ env) D (S.name v) n := ⟨in_name h, by
      show env v = _
      rw [e]; push_cast; rfl⟩

theorem does_addI {M : List Ex} {D : List String} (hc : NoClash C ρ M) {a b : Ex} {m n : ℤ} (ha : IsI ρ D a m) (hb : IsI ρ D b n) :
    Does C M D (add C a b) fun z => IsI ρ D z (m + n) :=
  (does_add hc ha.1 hb.1).mono fun _ h => ⟨h.1, by rw [h.2, ha.2, hb.2]; push_cast; rfl⟩

theorem all_mono {D D' : List String} {st : CSt} (h : st.All (In D)) (hD : ∀ v ∈ D, v ∈ D') : st.All (In D') :=
  fun p hp v hv => hD v (h p hp v hv)

theorem empty_ok : CSt.Ok C ⟨true, [], []⟩ := fun p hp => by simp at hp
theorem empty_all (P : Ex → Prop) : CSt.All P ⟨true, [], []⟩ := fun p hp => by simp at hp

/-- The cells of a remaining butterfly. -/
theorem levels_cells {M : List Ex} {env : String → ℂ} (hc : NoClash C (withVar ρ env) M) {a b c : ℕ} (ha : env "j0" = a) (hb : env "j1" = b)
    (hcc : env "m" = c) {jx : Ex × CSt} {ks : List Ex × CSt} (e1 : add C (S.name "j0") (S.name "j1") ⟨true, [], []⟩ = .ok jx)
    (e2 : locsX C jx.1 (S.name "m") 0 (2 ^ r) jx.2 = .ok ks) (hM : ks.2.met ⊆ M) :
    ks.2.All (In ["j0", "j1", "m"]) ∧ ks.1.length = 2 ^ r ∧
      IsIL (withVar ρ env) ["j0", "j1", "m"] ks.1 fun i => ((a + b : ℕ) : ℤ) + (i : ℕ) * (c : ℤ) := by
  have g1 := grows_add (C := C) (S.name "j0") (S.name "j1") _ _ empty_ok e1
  have g2 := grows_locsX (C := C) jx.1 (S.name "m") _ _ _ _ g1.1 e2
  obtain ⟨a1, q1⟩ := does_addI (M := M) (D := ["j0", "j1", "m"]) hc (isI_name (S := S) env (by simp) ha) (isI_name (S := S) env (by simp) hb)
    _ _ empty_ok (empty_all _) e1 fun x hx => hM (g2.2 hx)
  obtain ⟨a2, l2, q2⟩ := does_locsX (M := M) hc q1 (isI_name (S := S) env (by simp) hcc) (2 ^ r) 0 _ _ g1.1 a1 e2 hM
  refine ⟨a2, l2, ?_⟩
  simpa using q2

theorem names_sub (r : ℕ) : ∀ v ∈ (["j0", "j1", "m"] : List String), v ∈ levelsNames r ++ numbered "y" (2 ^ r) := by
  intro v hv
  refine List.mem_append_left _ ?_
  simp only [List.mem_cons, List.not_mem_nil, or_false] at hv
  rcases hv with rfl | rfl | rfl <;> simp [levelsNames]

theorem split_names {M : List Ex} {D : List String} {env : String → ℂ} {pre : String} {n : ℕ} {ys : ℕ → ℂ} (hm : Means S tw ρ)
    (hc : NoClash C (withVar ρ env) M) (hy : ∀ i < n, env (pre ++ toString i) = ys i) (hD : ∀ v ∈ numbered pre n, v ∈ D) :
    Does C M D (splitAll C ((numbered pre n).map S.name)) fun z => z.length = n ∧ IsL (withVar ρ env) D z ys := by
  refine (does_splitAll (hm.withVar env) hc ((numbered pre n).map S.name) ys ?_ ?_).mono fun z h => ⟨by rw [h.1]; simp [numbered], h.2⟩
  · intro x hx
    obtain ⟨v, hv, rfl⟩ := List.mem_map.mp hx
    exact in_name (hD v hv)
  · intro i h
    have hi : i < n := by simpa [numbered] using h
    rw [List.getElem_map, numbered_get]
    exact hy i hi

/-- What the expressions of a remaining butterfly stand for. -/
theorem levels_forward_parts {q : (List Ex × List CEx × List Ex × List Ex) × CSt} (h : levelsX C S r true ⟨true, [], []⟩ = .ok q)
    (hm : Means S tw ρ) {env : String → ℂ} (hc : NoClash C (withVar ρ env) q.2.met) {a b c : ℕ} (ha : env "j0" = a) (hb : env "j1" = b)
    (hcc : env "m" = c) {ys : ℕ → ℂ} (hy : ∀ i < 2 ^ r, env ("y" ++ toString i) = ys i) :
    q.1.1.length = 2 ^ r ∧ q.1.2.1.length = 2 ^ r ∧
      (IsIL (withVar ρ env) ["j0", "j1", "m"] q.1.1 fun i => ((a + b : ℕ) : ℤ) + (i : ℕ) * (c : ℤ)) ∧
      IsL (withVar ρ env) (levelsNames r ++ numbered "y" (2 ^ r)) q.1.2.1 (FFT.butterflyR r b tw ys) := by
  unfold levelsX at h
  obtain ⟨jx, e1, h⟩ := gen_bind h
  obtain ⟨ks, e2, h⟩ := gen_bind h
  have g1 := grows_add (C := C) (S.name "j0") (S.name "j1") _ _ empty_ok e1
  have g2 := grows_locsX (C := C) jx.1 (S.name "m") _ _ _ _ g1.1 e2
  obtain ⟨rest, hrest⟩ : ∃ rest : Gen CSt (List Ex × List CEx × List Ex × List Ex), rest = (do
    let y ← splitAll C ((numbered "y" (2 ^ r)).map S.name)
    let z ← levelsBodyX C S r (S.name "j1") y
    ofRes (slowAssert (z.length = ks.1.length))
    return (ks.1, z, [], [])) := ⟨_, rfl⟩
  have h' : rest ks.2 = .ok q := by rw [hrest]; exact h
  have hg : Grows C rest := by
    rw [hrest]
    exact Grows.bind (grows_splitAll _) fun _ => Grows.bind (grows_levelsBodyX _ _ _) fun _ => Grows.bind (Grows.ofRes _) fun _ => Grows.pure _
  obtain ⟨a2, l2, q2⟩ := levels_cells hc ha hb hcc e1 e2 (hg _ _ g2.1 h').2
  have hd : Does C q.2.met (levelsNames r ++ numbered "y" (2 ^ r)) rest fun x => x.1 = ks.1 ∧ x.2.1.length = 2 ^ r ∧
      IsL (withVar ρ env) (levelsNames r ++ numbered "y" (2 ^ r)) x.2.1 (FFT.butterflyR r b tw ys) := by
    rw [hrest]
    refine Does.bind (split_names hm hc hy fun v hv => List.mem_append_right _ hv) (grows_splitAll _) (fun _ =>
      Grows.bind (grows_levelsBodyX _ _ _) fun _ => Grows.bind (Grows.ofRes _) fun _ => Grows.pure _) fun y hy' => ?_
    refine Does.bind (does_levelsBodyX (hm.withVar env) hc (isI_name env (names_sub r _ (by simp)) hb) hy'.2) (grows_levelsBodyX _ _ _) (fun _ =>
      Grows.bind (Grows.ofRes _) fun _ => Grows.pure _) fun z hz => ?_
    exact Does.bind Does.check (Grows.ofRes _) (fun _ => Grows.pure _) fun _ _ => .pure ⟨rfl, hz⟩
  obtain ⟨-, e3, e4, e5⟩ := hd _ _ g2.1 (all_mono a2 (names_sub r)) h' (fun _ h => h)
  rw [e3]
  exact ⟨l2, e4, q2, e5⟩

/-- **C72.** One iteration of the written code of a remaining butterfly: it compiles, leaves the real cells alone, and writes the
`2^r` results of the butterfly to the cells they came from. -/
theorem C72_levels_iteration (h : levelsCode C S r true = .ok W) (hm : Means S tw ρ) (hs : SeparateF C ρ W) (m : FMem) {j s : ℕ}
    (hj : m.env "j" = j) (hs' : m.env "s" = s) :
    let mm := 2 ^ s
    let j1 := j % mm
    let j0 := (j - j1) * 2 ^ r
    Compiles (levelsParams r) W.lines ∧ (runLines ρ xn W.lines m).x = m.x ∧
      (runLines ρ xn W.lines m).y = FFT.scatter (j0 + j1) mm (FFT.butterflyR r j1 tw fun i => m.y (j0 + j1 + i * mm)) (2 ^ r) m.y := by
  unfold levelsCode at h
  obtain ⟨B0, e0, h⟩ := Ser.bind_eq_ok h
  obtain ⟨B1, e1, h⟩ := Ser.bind_eq_ok h
  obtain ⟨B2, e2, h⟩ := Ser.bind_eq_ok h
  obtain ⟨q, e3, h⟩ := Ser.bind_eq_ok h
  obtain ⟨B3, e4, h⟩ := Ser.bind_eq_ok h
  obtain ⟨w, e5, h⟩ := Ser.bind_eq_ok h
  cases h
  cases (show (Except.ok B0 : Res Blk) = .ok B1 from e1)
  have hU : ∀ env e e', e ∈ (flatten q.1.2.1).flatMap Ex.subs → e' ∈ (flatten q.1.2.1).flatMap Ex.subs → e.sig C = e'.sig C →
      e.val (withVar ρ env) = e'.val (withVar ρ env) := fun env e e' h1 h2 => (hs env).2 e h1 e' h2
  have hB : ∀ env, Inv C (withVar ρ env) (· ∈ (flatten q.1.2.1).flatMap Ex.subs) B3 ∧
      B3.code = (levelsNames r ++ numbered "y" (2 ^ r)).map .decl := by
    intro env
    obtain ⟨i0, c0⟩ := inv_inputs (hU env) inv_empty e0
    obtain ⟨i1, c1⟩ := inv_inputs (hU env) i0 e2
    obtain ⟨i2, c2⟩ := inv_uses i1 e4
    refine ⟨i2, ?_⟩
    rw [c2, c1, c0]
    simp [Blk.empty]
  have hp := fun env {a b c : ℕ} ha hb hcc {ys : ℕ → ℂ} hy =>
    levels_forward_parts (r := r) (a := a) (b := b) (c := c) (ys := ys) e3 hm (env := env) (hs env).1 ha hb hcc hy
  obtain ⟨lk, lz, -, -⟩ := hp (fun _ => 0) (a := 0) (b := 0) (c := 0) (ys := fun _ => 0) (by simp) (by simp) (by simp) (by simp)
  have := levels_core (S := S) (xn := xn) (f := fun b ys => FFT.butterflyR r b tw ys) hU (fun env => (hB env).1) (hB m.env).2
    (fun e he e' he' => List.mem_flatMap.mpr ⟨e, he, he'⟩)
    (fun env a b c ha hb hcc => (hp env ha hb hcc (ys := fun i => env ("y" ++ toString i)) fun _ _ => rfl).2.2.1)
    (fun env a b c ys ha hb hcc hy => (hp env ha hb hcc hy).2.2.2) lk lz e5 m hj hs'
  simp only [Nat.shiftLeft_eq, one_mul, Nat.and_two_pow_sub_one_eq_mod] at this ⊢
  exact this

theorem foldl_y (m : FMem) (F : ℕ → (ℕ → ℂ) → (ℕ → ℂ)) (G : FMem → ℕ → FMem)
    (hG : ∀ j m', m'.env = m.env → m'.x = m.x → G m' j = { m with y := F j m'.y }) :
    ∀ (l : List ℕ) (y : ℕ → ℂ), l.foldl G { m with y := y } = { m with y := l.foldl (fun y j => F j y) y } := by
  intro l
  induction l with
  | nil => intro y; rfl
  | cons j l ih =>
    intro y
    rw [List.foldl_cons, hG j { m with y := y } rfl rfl, ih]
    rfl

theorem runLoop_y {l : List FLine} {cnt : ℕ} {F : ℕ → (ℕ → ℂ) → (ℕ → ℂ)} {m : FMem}
    (h : ∀ (j : ℕ) (m' : FMem), m'.env = Function.update m.env "j" (j : ℂ) → m'.x = m.x →
      (runLines ρ xn l m').x = m'.x ∧ (runLines ρ xn l m').y = F j m'.y) :
    runLoop ρ xn cnt l m = { m with y := FFT.forLoop cnt F m.y } := by
  refine foldl_y m F _ (fun j m' _ hx => ?_) _ _
  obtain ⟨a, b⟩ := h j { m' with env := Function.update m.env "j" (j : ℂ) } rfl hx
  show FMem.mk _ _ _ = FMem.mk _ _ _
  rw [a, b]
  simp only [hx]

/-- **C72.** The written loop of a remaining butterfly is the butterfly on numbers, for every count, step and content of the cells. -/
theorem C72_levels (h : levelsCode C S r true = .ok W) (hm : Means S tw ρ) (hs : SeparateF C ρ W) (m : FMem) {cnt s : ℕ}
    (hs' : m.env "s" = s) :
    Compiles (levelsParams r) W.lines ∧ runLoop ρ xn cnt W.lines m = { m with y := FFT.srfftLevels r cnt m.y tw s } := by
  refine ⟨(C72_levels_iteration (xn := 0) h hm hs ⟨fun _ => 0, m.y, m.x⟩ (j := 0) (s := 0) (by simp) (by simp)).1, ?_⟩
  refine runLoop_y fun j m' he hx => ?_
  have := (C72_levels_iteration (xn := xn) h hm hs m' (j := j) (s := s) (by simp [he]) (by simp [he, hs'])).2
  simp only [Nat.shiftLeft_eq, one_mul, Nat.and_two_pow_sub_one_eq_mod]
  exact this

/-! ## First levels -/

/-- The names that the numbers of the cells depend on. -/
def firstIdx (r : ℕ) : List String := if r = 3 then ["n8", "j", "p"] else []

/-- All names of a first butterfly. -/
def firstAll (r : ℕ) : List String := firstNames r ++ numbered "x" (2 ^ r) ++ firstInner r

theorem does_subI {M : List Ex} {D : List String} (hc : NoClash C ρ M) {a b : Ex} {m n : ℤ} (ha : IsI ρ D a m) (hb : IsI ρ D b n) :
    Does C M D (sub C a b) fun z => IsI ρ D z (m - n) :=
  (does_sub hc ha.1 hb.1).mono fun _ h => ⟨h.1, by rw [h.2, ha.2, hb.2]; push_cast; rfl⟩

theorem isI_int {D : List String} (n : ℤ) : IsI ρ D (.int n) n := ⟨in_int n, rfl⟩

/-- The values of the names in an iteration. -/
structure FirstEnv (r : ℕ) (env : String → ℂ) (cnt j p : ℕ) : Prop where
  count : r = 3 → env "n8" = cnt
  iter : r = 3 → env "j" = j
  pow : r = 3 → env "p" = p ∧ 3 ≤ p
  one : r ≠ 3 → cnt = 1 ∧ j = 0

theorem first_loop_vals {D : List String} {env : String → ℂ} {cnt j p : ℕ} (h : FirstEnv r env cnt j p) (hD : ∀ v ∈ firstIdx r, v ∈ D) :
    IsI (withVar ρ env) D (firstLoop S r).1 cnt ∧ IsI (withVar ρ env) D (firstLoop S r).2 j := by
  unfold firstLoop
  by_cases hr : r = 3
  · simp only [hr, if_true]
    exact ⟨isI_name env (hD _ (by simp [firstIdx, hr])) (h.count hr), isI_name env (hD _ (by simp [firstIdx, hr])) (h.iter hr)⟩
  · simp only [hr, if_false]
    rw [(h.one hr).1, (h.one hr).2]
    exact ⟨isI_int 1, isI_int 0⟩

/-- The exponent in the first line. -/
def firstPow (C : Cfg) (S : Seeds) (r : ℕ) : Gen CSt Ex := if r = 3 then sub C (S.name "p") (.int 3) else pure (Ex.int 0)

theorem grows_firstPow : Grows C (firstPow C S r) := by
  unfold firstPow
  split_ifs
  · exact grows_sub _ _
  · exact Grows.pure _

theorem does_firstPow {M : List Ex} {env : String → ℂ} {cnt j p : ℕ} (hc : NoClash C (withVar ρ env) M) (h : FirstEnv r env cnt j p) :
    Does C M (firstIdx r) (firstPow C S r) fun z => r = 3 → In (firstIdx r) z ∧ z.val (withVar ρ env) = ((p - 3 : ℕ) : ℂ) := by
  unfold firstPow
  split_ifs with hr
  · refine (does_subI hc (isI_name (S := S) env (by simp [firstIdx, hr]) (h.pow hr).1) (isI_int 3)).mono fun z hz _ => ⟨hz.1, ?_⟩
    rw [hz.2]
    have := (h.pow hr).2
    push_cast [this]
    rfl
  · exact .pure fun e => absurd e hr

theorem isRL_names {D : List String} {env : String → ℂ} {pre : String} : ∀ (n i0 : ℕ) {xs : ℕ → ℝ},
    (∀ i < n, env (pre ++ toString (i0 + i)) = xs i) → (∀ i < n, pre ++ toString (i0 + i) ∈ D) →
    IsRL (withVar ρ env) D ((List.range' i0 n).map fun i => S.name (pre ++ toString i)) xs := by
  intro n
  induction n with
  | zero => intro i0 xs _ _; trivial
  | succ n ih =>
    intro i0 xs hx hD
    rw [List.range'_succ, List.map_cons]
    refine ⟨⟨in_name (hD 0 (by omega)), hx 0 (by omega)⟩, ih (i0 + 1) (fun i hi => ?_) fun i hi => ?_⟩
    · rw [Nat.add_assoc, Nat.add_comm 1]; exact hx (i + 1) (by omega)
    · rw [Nat.add_assoc, Nat.add_comm 1]; exact hD (i + 1) (by omega)

theorem isRL_numbered {D : List String} {env : String → ℂ} {pre : String} {n : ℕ} {xs : ℕ → ℝ} (hx : ∀ i < n, env (pre ++ toString i) = xs i)
    (hD : ∀ v ∈ numbered pre n, v ∈ D) : IsRL (withVar ρ env) D ((numbered pre n).map S.name) xs := by
  have := isRL_names (ρ := ρ) (S := S) (D := D) (env := env) (pre := pre) n 0 (xs := xs) (by simpa using hx)
    (fun i hi => hD _ (by simp only [numbered, List.mem_map, List.mem_range]; exact ⟨i, hi, by simp⟩))
  rw [← List.range_eq_range'] at this
  simpa [numbered, List.map_map, Function.comp_def] using this

theorem firstIdx_sub (r : ℕ) : ∀ v ∈ firstIdx r, v ∈ firstAll r := by
  intro v hv
  unfold firstIdx at hv
  split_ifs at hv with hr
  · refine List.mem_append_left _ (List.mem_append_left _ ?_)
    simp only [List.mem_cons, List.not_mem_nil, or_false] at hv
    rcases hv with rfl | rfl | rfl <;> simp [firstNames, hr]
  · simp at hv

/-- What the expressions of a first butterfly stand for. -/
theorem first_forward_parts {q : First × CSt} (h : firstX C S r true ⟨true, [], []⟩ = .ok q) (hm : Means S tw ρ) {env : String → ℂ}
    (hc : NoClash C (withVar ρ env) q.2.met) {cnt j p mm : ℕ} (hv : FirstEnv r env cnt j p) {xs : ℕ → ℝ}
    (hx : ∀ i < 2 ^ r, env ("x" ++ toString i) = xs i) (h1 : r = 3 → env "j1" = ((j &&& (mm - 1) : ℕ) : ℂ)) :
    (r = 3 → In (firstIdx r) q.1.p ∧ q.1.p.val (withVar ρ env) = ((p - 3 : ℕ) : ℂ)) ∧
    q.1.kx.length = 2 ^ r ∧ q.1.ky.length = 2 ^ r / 2 ∧ q.1.fwd.length = 2 ^ r / 2 ∧
      (IsIL (withVar ρ env) (firstIdx r) q.1.kx fun i => (j : ℤ) + (i : ℕ) * (cnt : ℤ)) ∧
      (IsIL (withVar ρ env) (firstIdx r) q.1.ky fun i => (j : ℤ) + (i : ℕ) * (cnt : ℤ)) ∧
      IsL (withVar ρ env) (firstAll r) q.1.fwd (FFT.firstLevels r j cnt mm (firstTw tw r) xs) := by
  unfold firstX at h
  obtain ⟨px, e1, h⟩ := gen_bind h
  obtain ⟨kx, e2, h⟩ := gen_bind h
  obtain ⟨ky, e3, h⟩ := gen_bind h
  simp only [if_true] at h
  obtain ⟨z, e4, h⟩ := gen_bind h
  obtain ⟨u, e5, h⟩ := gen_bind h
  have g1 := grows_firstPow _ _ empty_ok (show firstPow C S r _ = _ from e1)
  have g2 := grows_locsX (C := C) _ _ _ _ _ _ g1.1 e2
  have g3 := grows_locsX (C := C) _ _ _ _ _ _ g2.1 e3
  have g4 := grows_firstBodyX (C := C) _ _ _ _ _ _ _ g3.1 e4
  have g5 := Grows.ofRes (C := C) _ _ _ g4.1 e5
  cases h
  have s4 : z.2.met ⊆ u.2.met := g5.2
  have s3 : ky.2.met ⊆ u.2.met := fun x hx => s4 (g4.2 hx)
  have s2 : kx.2.met ⊆ u.2.met := fun x hx => s3 (g3.2 hx)
  have s1 : px.2.met ⊆ u.2.met := fun x hx => s2 (g2.2 hx)
  obtain ⟨a1, q1⟩ := does_firstPow (S := S) hc hv _ _ empty_ok (empty_all _) e1 s1
  obtain ⟨n1, n2⟩ := first_loop_vals (ρ := ρ) (S := S) hv (D := firstIdx r) fun _ h => h
  obtain ⟨a2, l2, q2⟩ := does_locsX hc n2 n1 (2 ^ r) 0 _ _ g1.1 a1 e2 s2
  obtain ⟨a3, l3, q3⟩ := does_locsX hc n2 n1 (2 ^ r / 2) 0 _ _ g2.1 a2 e3 s3
  obtain ⟨n3, n4⟩ := first_loop_vals (ρ := ρ) (S := S) hv (firstIdx_sub r)
  obtain ⟨a4, l4, q4⟩ := does_firstBodyX (S := S) (j1 := S.name "j1") (m := mm) (hm.withVar env) hc n3 n4
    (fun hr => isI_name env (by simp [firstAll, firstInner, hr]) (h1 hr))
    (isRL_numbered (S := S) hx fun v hv => List.mem_append_left _ (List.mem_append_right _ hv)) _ _ g3.1 (all_mono a3 (firstIdx_sub r)) e4 s4
  refine ⟨q1, l2, l3, l4, ?_, ?_, q4⟩
  · simpa using q2
  · simpa using q3

theorem firstEnv_congr {env env' : String → ℂ} {cnt j p : ℕ} (h : FirstEnv r env cnt j p) (he : ∀ v ∈ firstIdx r, env' v = env v) :
    FirstEnv r env' cnt j p :=
  ⟨fun hr => by rw [he _ (by simp [firstIdx, hr]), h.count hr], fun hr => by rw [he _ (by simp [firstIdx, hr]), h.iter hr],
    fun hr => ⟨by rw [he _ (by simp [firstIdx, hr]), (h.pow hr).1], (h.pow hr).2⟩, h.one⟩

theorem isIL_congr {D : List String} {env env' : String → ℂ} (h : ∀ v ∈ D, env v = env' v) : ∀ (l : List Ex) (v : ℕ → ℤ),
    IsIL (withVar ρ env) D l v → IsIL (withVar ρ env') D l v := by
  intro l
  induction l with
  | nil => intro v _; trivial
  | cons e l ih =>
    intro v hl
    refine ⟨⟨hl.1.1, ?_⟩, ih _ hl.2⟩
    rw [← hl.1.2]
    exact val_congr ρ _ fun u hu => (h u (hl.1.1 u hu)).symm

theorem first_head_run (m : FMem) {e : Ex} {k : ℕ} (he : r = 3 → e.val (withVar ρ m.env) = (k : ℂ)) :
    let m' := runLines ρ xn (firstHead r e) m
    m'.y = m.y ∧ m'.x = m.x ∧ (∀ v, v ≠ "m" → m'.env v = m.env v) ∧ (r = 3 → m'.env "m" = ((2 ^ k : ℕ) : ℂ)) := by
  unfold firstHead
  by_cases hr : r = 3
  · simp only [hr, if_true]
    have e1 : FLine.exec ρ xn m (.pow2 "m" e) = m.let "m" ((2 ^ k : ℕ) : ℂ) := by
      show m.let "m" ((1 <<< index (e.val (withVar ρ m.env)) : ℕ) : ℂ) = _
      rw [he hr, index_nat, Nat.one_shiftLeft]
    show (FLine.exec ρ xn m (.pow2 "m" e)).y = _ ∧ (FLine.exec ρ xn m (.pow2 "m" e)).x = _ ∧ (∀ v, v ≠ "m" →
      (FLine.exec ρ xn m (.pow2 "m" e)).env v = _) ∧ (_ → (FLine.exec ρ xn m (.pow2 "m" e)).env "m" = _)
    rw [e1]
    exact ⟨rfl, rfl, fun v hv => let_ne _ _ hv, fun _ => let_self _ _ _⟩
  · simp only [hr, if_false]
    exact ⟨rfl, rfl, fun _ _ => rfl, fun h => absurd h id⟩

theorem first_inner_run (m : FMem) {j k : ℕ} (hj : r = 3 → m.env "j" = j) (hk : r = 3 → m.env "m" = ((2 ^ k : ℕ) : ℂ)) :
    let m' := runLines ρ xn (firstInnerLines S r) m
    m'.y = m.y ∧ m'.x = m.x ∧ (∀ v, v ∉ firstInner r → m'.env v = m.env v) ∧
      (r = 3 → m'.env "j1" = ((j &&& (2 ^ k - 1) : ℕ) : ℂ)) := by
  unfold firstInnerLines firstInner
  by_cases hr : r = 3
  · simp only [hr, if_true]
    have e1 : FLine.exec ρ xn m (.shl "m3" (S.name "m") 0) = m.let "m3" ((2 ^ k : ℕ) : ℂ) := by
      show m.let "m3" ((index (m.env "m") <<< 0 : ℕ) : ℂ) = _
      rw [hk hr, index_nat, Nat.shiftLeft_zero]
    have e2 : FLine.exec ρ xn (m.let "m3" ((2 ^ k : ℕ) : ℂ)) (.low "j1" (S.name "j") (.var "m3" (S.sig "m"))) =
        (m.let "m3" ((2 ^ k : ℕ) : ℂ)).let "j1" ((j &&& (2 ^ k - 1) : ℕ) : ℂ) := by
      show FMem.let _ "j1" ((index ((m.let "m3" ((2 ^ k : ℕ) : ℂ)).env "j") &&& (index ((m.let "m3" ((2 ^ k : ℕ) : ℂ)).env "m3") - 1) : ℕ) : ℂ) = _
      rw [let_self, let_ne _ _ (by decide), hj hr, index_nat, index_nat]
    have e3 : runLines ρ xn [.shl "m3" (S.name "m") 0, .low "j1" (S.name "j") (.var "m3" (S.sig "m"))] m =
        (m.let "m3" ((2 ^ k : ℕ) : ℂ)).let "j1" ((j &&& (2 ^ k - 1) : ℕ) : ℂ) := by
      rw [← e2, ← e1]; rfl
    rw [e3]
    refine ⟨rfl, rfl, fun v hv => ?_, fun _ => let_self _ _ _⟩
    simp only [List.mem_cons, List.not_mem_nil, or_false, not_or] at hv
    rw [let_ne _ _ hv.2, let_ne _ _ hv.1]
  · simp only [hr, if_false]
    exact ⟨rfl, rfl, fun _ _ => rfl, fun h => absurd h id⟩

theorem first_head_compiles {e : Ex} (he : r = 3 → In (firstIdx r) e) (hN : (firstNames r).Nodup) :
    Compiles (firstParams r) (firstHead r e) ∧ firstParams r ++ declaredF (firstHead r e) = firstNames r := by
  unfold firstHead
  by_cases hr : r = 3
  · subst hr
    refine ⟨⟨?_, ?_, trivial⟩, rfl⟩
    · intro v hv
      have := he rfl v hv
      simp only [firstIdx, if_true, List.mem_cons, List.not_mem_nil, or_false] at this
      rcases this with rfl | rfl | rfl <;> simp [firstParams]
    · intro v hv
      rw [show v = "m" by simpa [FLine.decl] using hv]
      simp only [firstParams, if_true]
      decide
  · simp only [hr, if_false]
    exact ⟨trivial, by simp [firstParams, firstNames, hr, declaredF]⟩

theorem first_inner_compiles {D : List String} (hD : ∀ v ∈ firstNames r, v ∈ D) (hN : (firstInner r).Nodup) (hd : ∀ v ∈ firstInner r, v ∉ D) :
    Compiles D (firstInnerLines S r) ∧ declaredF (firstInnerLines S r) = firstInner r := by
  unfold firstInnerLines
  by_cases hr : r = 3
  · subst hr
    have p1 : "j" ∈ D := hD _ (by simp [firstNames])
    have p2 : "m" ∈ D := hD _ (by simp [firstNames])
    have a0 := hd "m3" (by simp [firstInner])
    have a1 := hd "j1" (by simp [firstInner])
    refine ⟨?_, rfl⟩
    simp only [if_true, Compiles, FLine.uses, FLine.decl, Seeds.name, Ex.vars, forall_eq, List.mem_append,
      List.cons_append, List.nil_append, List.mem_cons, List.not_mem_nil, or_false, and_true]
    refine ⟨p2, a0, ?_, ?_⟩
    · rintro v (rfl | rfl) <;> simp [p1]
    · rintro (h | h)
      · exact a1 h
      · revert h; decide
  · simp only [hr, if_false]
    exact ⟨trivial, by simp [firstInner, hr, declaredF]⟩

/-- **C72.** One iteration of the written code of a first butterfly: it compiles, leaves the real cells alone, and writes the `2^r/2`
results; cells past the end of the real span count as zero. -/
theorem C72_first_iteration (h : firstCode C S r = .ok W) (hm : Means S tw ρ) (hs : SeparateF C ρ W) (m : FMem) {cnt j p : ℕ}
    (hv : FirstEnv r m.env cnt j p) :
    Compiles (firstParams r) W.lines ∧ (runLines ρ xn W.lines m).x = m.x ∧
      (runLines ρ xn W.lines m).y = FFT.scatter j cnt (FFT.firstLevels r j cnt (2 ^ (p - 3)) (firstTw tw r) fun i =>
        if j + i * cnt < xn then m.x (j + i * cnt) else 0) (2 ^ r / 2) m.y := by
  unfold firstCode at h
  obtain ⟨B0, e0, h⟩ := Ser.bind_eq_ok h
  obtain ⟨q, e3, h⟩ := Ser.bind_eq_ok h
  obtain ⟨B3, e4, h⟩ := Ser.bind_eq_ok h
  obtain ⟨w, e5, h⟩ := Ser.bind_eq_ok h
  cases h
  have hU : ∀ env e e', e ∈ (flatten q.1.fwd).flatMap Ex.subs → e' ∈ (flatten q.1.fwd).flatMap Ex.subs → e.sig C = e'.sig C →
      e.val (withVar ρ env) = e'.val (withVar ρ env) := fun env e e' h1 h2 => (hs env).2 e h1 e' h2
  have hB : ∀ env, Inv C (withVar ρ env) (· ∈ (flatten q.1.fwd).flatMap Ex.subs) B3 ∧ B3.code = (firstAll r).map .decl := by
    intro env
    obtain ⟨i0, c0⟩ := inv_inputs (hU env) inv_empty e0
    obtain ⟨i2, c2⟩ := inv_uses i0 e4
    refine ⟨i2, ?_⟩
    rw [c2, c0]
    simp [Blk.empty, firstAll]
  have hN : (firstAll r).Nodup := scoped_nodup ((hB m.env).2 ▸ (hB m.env).1.wf)
  obtain ⟨hN1, hN2, hN3⟩ := List.nodup_append.mp hN
  obtain ⟨hN4, hN5, hN6⟩ := List.nodup_append.mp hN1
  have hidx : ∀ v ∈ firstIdx r, v ∈ firstNames r ∧ v ≠ "m" ∧ v ∉ numbered "x" (2 ^ r) ∧ v ∉ firstInner r := by
    intro v hv'
    have h1 : v ∈ firstNames r ∧ v ≠ "m" := by
      unfold firstIdx at hv'
      split_ifs at hv' with hr
      · simp only [List.mem_cons, List.not_mem_nil, or_false] at hv'
        rcases hv' with rfl | rfl | rfl <;> exact ⟨by simp [firstNames, hr], by decide⟩
      · simp at hv'
    exact ⟨h1.1, h1.2, fun hx => hN6 v h1.1 v hx rfl, fun hx => hN3 v (List.mem_append_left _ h1.1) v hx rfl⟩
  have hp := fun env {cnt j p mm : ℕ} hv {xs : ℕ → ℝ} hx h1 =>
    first_forward_parts (r := r) (cnt := cnt) (j := j) (p := p) (mm := mm) (xs := xs) e3 hm (env := env) (hs env).1 hv hx h1
  -- facts that do not depend on the values of other names
  have base : ∀ env, FirstEnv r env cnt j p → (r = 3 → In (firstIdx r) q.1.p ∧ q.1.p.val (withVar ρ env) = ((p - 3 : ℕ) : ℂ)) ∧
      q.1.kx.length = 2 ^ r ∧ q.1.ky.length = 2 ^ r / 2 ∧ q.1.fwd.length = 2 ^ r / 2 ∧
      (IsIL (withVar ρ env) (firstIdx r) q.1.kx fun i => (j : ℤ) + (i : ℕ) * (cnt : ℤ)) ∧
      IsIL (withVar ρ env) (firstIdx r) q.1.ky fun i => (j : ℤ) + (i : ℕ) * (cnt : ℤ) := by
    intro env he
    have hx0 : ∀ i < 2 ^ r, ("x" ++ toString i) ∉ firstIdx r := fun i hi hx => (hidx _ hx).2.2.1
      (by simp only [numbered, List.mem_map, List.mem_range]; exact ⟨i, hi, rfl⟩)
    have hj0 : r = 3 → "j1" ∉ firstIdx r := fun hr hx => (hidx _ hx).2.2.2 (by simp [firstInner, hr])
    have hagree : ∀ v ∈ firstIdx r, (fun v => if v ∈ firstIdx r then env v else 0) v = env v := fun v hv => if_pos hv
    obtain ⟨f1, f2, f3, f4, f5, f6, -⟩ := hp (fun v => if v ∈ firstIdx r then env v else 0) (mm := 1) (firstEnv_congr he hagree)
      (xs := fun _ => 0) (fun i hi => by rw [if_neg (hx0 i hi)]; simp) (fun hr => by simp [hj0 hr])
    exact ⟨fun hr => ⟨(f1 hr).1, by rw [← (f1 hr).2]; exact val_congr ρ _ fun v hv => (hagree v ((f1 hr).1 v hv)).symm⟩, f2, f3, f4,
      isIL_congr hagree _ _ f5, isIL_congr hagree _ _ f6⟩
  obtain ⟨b1, lk, ly, lz, -, -⟩ := base m.env hv
  -- the first line
  obtain ⟨y1, x1, v1, w1⟩ := first_head_run (xn := xn) (r := r) (ρ := ρ) m (e := q.1.p) (k := p - 3) (fun hr => (b1 hr).2)
  obtain ⟨m1, hm1⟩ : ∃ m1, m1 = runLines ρ xn (firstHead r q.1.p) m := ⟨_, rfl⟩
  rw [← hm1] at y1 x1 v1 w1
  have hv1 : FirstEnv r m1.env cnt j p := firstEnv_congr hv fun v hv => v1 v (hidx v hv).2.1
  -- the loads
  have k1 := (base m1.env hv1).2.2.2.2.1
  have hvars : ∀ e ∈ q.1.kx, In (firstIdx r) e := by
    intro e he
    obtain ⟨i, h, rfl⟩ := List.getElem_of_mem he
    exact (isIL_get _ _ k1 i h).1
  obtain ⟨y2, x2, v2, w2⟩ := loads_run (ρ := ρ) (xn := xn) FLine.loadX (fun m k => ((if k < xn then m.x k else 0 : ℝ) : ℂ)) (fun _ _ _ => rfl)
    (fun _ _ _ _ => rfl) (numbered "x" (2 ^ r)) q.1.kx (fun i => j + i * cnt) m1 hN5 (by rw [numbered_length, lk])
    (fun e he v hv => (hidx v (hvars e he v hv)).2.2.1) (fun i h => by
      rw [(isIL_get _ _ k1 i h).2, show (((j : ℤ) + (i : ℕ) * (cnt : ℤ) : ℤ) : ℂ) = ((j + i * cnt : ℕ) : ℂ) by push_cast; rfl, index_nat])
  obtain ⟨m2, hm2⟩ : ∃ m2, m2 = runLines ρ xn (((numbered "x" (2 ^ r)).zip q.1.kx).map fun p => FLine.loadX p.1 p.2) m1 := ⟨_, rfl⟩
  rw [← hm2] at y2 x2 v2 w2
  have hv2 : FirstEnv r m2.env cnt j p := firstEnv_congr hv1 fun v hv => v2 v (hidx v hv).2.2.1
  have hmx : r = 3 → "m" ∉ numbered "x" (2 ^ r) := fun hr hx => hN6 "m" (by simp [firstNames, hr]) "m" hx rfl
  -- the inner lines
  obtain ⟨y3, x3, v3, w3⟩ := first_inner_run (xn := xn) (r := r) (ρ := ρ) (S := S) m2 (j := j) (k := p - 3) hv2.iter
    (fun hr => by rw [v2 _ (hmx hr), w1 hr])
  obtain ⟨m3, hm3⟩ : ∃ m3, m3 = runLines ρ xn (firstInnerLines S r) m2 := ⟨_, rfl⟩
  rw [← hm3] at y3 x3 v3 w3
  have hv3 : FirstEnv r m3.env cnt j p := firstEnv_congr hv2 fun v hv => v3 v (hidx v hv).2.2.2
  have hx3 : ∀ i < 2 ^ r, m3.env ("x" ++ toString i) = ((if j + i * cnt < xn then m.x (j + i * cnt) else 0 : ℝ) : ℂ) := by
    intro i hi
    have hmem : "x" ++ toString i ∈ numbered "x" (2 ^ r) := by
      simp only [numbered, List.mem_map, List.mem_range]; exact ⟨i, hi, rfl⟩
    rw [v3 _ fun hx => hN3 _ (List.mem_append_right _ hmem) _ hx rfl]
    have := w2 i (by rw [numbered_length]; exact hi)
    rw [numbered_get] at this
    rw [this, x1]
  -- the stores
  obtain ⟨c, sx, sy⟩ := stores_run (xn := xn) (M := m3) (hU m3.env) (hB m3.env).1 (hB m3.env).2
    (fun e he e' he' => List.mem_flatMap.mpr ⟨e, he, he'⟩) (base m3.env hv3).2.2.2.2.2 (firstIdx_sub r)
    (hp m3.env hv3 hx3 w3).2.2.2.2.2.2 ly lz e5
  have hrun : runLines ρ xn (firstHead r q.1.p ++ (((numbered "x" (2 ^ r)).zip q.1.kx).map fun p => FLine.loadX p.1 p.2) ++ firstInnerLines S r ++ w.1) m =
      runLines ρ xn w.1 m3 := by
    rw [runLines_append, runLines_append, runLines_append, ← hm1, ← hm2, ← hm3]
  obtain ⟨ch, dh⟩ := first_head_compiles (fun hr => (b1 hr).1) hN4
  obtain ⟨cl, dl⟩ := loads_compile FLine.loadX (fun _ _ => rfl) (fun _ _ => rfl) (numbered "x" (2 ^ r)) q.1.kx (firstNames r) hN5
    (fun v hv hv' => hN6 v hv' v hv rfl) (by rw [numbered_length, lk]) (fun e he v hv => (hidx v (hvars e he v hv)).1)
  obtain ⟨ci, di⟩ := first_inner_compiles (S := S) (r := r) (D := firstNames r ++ numbered "x" (2 ^ r)) (fun v hv => List.mem_append_left _ hv)
    hN2 (fun v hv hv' => hN3 v hv' v hv rfl)
  refine ⟨?_, by rw [hrun, sx, x3, x2, x1], by rw [hrun, sy, y3, y2, y1]⟩
  have hd2 : firstParams r ++ declaredF (firstHead r q.1.p ++ (((numbered "x" (2 ^ r)).zip q.1.kx).map fun p => FLine.loadX p.1 p.2)) =
      firstNames r ++ numbered "x" (2 ^ r) := by
    rw [declaredF, List.flatMap_append, ← declaredF, ← declaredF, dl, ← List.append_assoc, dh]
  have hd3 : firstParams r ++ declaredF (firstHead r q.1.p ++ (((numbered "x" (2 ^ r)).zip q.1.kx).map fun p => FLine.loadX p.1 p.2) ++
      firstInnerLines S r) = firstAll r := by
    rw [declaredF, List.flatMap_append, ← declaredF, ← declaredF, di, ← List.append_assoc, hd2]
    rfl
  rw [compiles_append, compiles_append, compiles_append, dh, hd2, hd3]
  exact ⟨⟨⟨ch, cl⟩, ci⟩, c⟩

/-- **C72.** The written loop of the first three levels is the function on numbers: for every count, size of the real span and content
of the cells. -/
theorem C72_first (h : firstCode C S 3 = .ok W) (hm : Means S tw ρ) (hs : SeparateF C ρ W) (m : FMem) {cnt p : ℕ}
    (hn : m.env "n8" = cnt) (hp : m.env "p" = p) (h3 : 3 ≤ p) :
    Compiles (firstParams 3) W.lines ∧ runLoop ρ xn cnt W.lines m =
      { m with y := FFT.srfftFirst 3 cnt (1 <<< (p - 3)) tw m.y ⟨xn, m.x⟩ } := by
  have hv : ∀ (j : ℕ) (env : String → ℂ), env = Function.update m.env "j" (j : ℂ) → FirstEnv 3 env cnt j p := fun j env he =>
    ⟨fun _ => by simp [he, hn], fun _ => by simp [he], fun _ => ⟨by simp [he, hp], h3⟩, fun h => absurd rfl h⟩
  refine ⟨(C72_first_iteration (xn := 0) h hm hs ⟨_, m.y, m.x⟩ (hv 0 _ rfl)).1, ?_⟩
  refine runLoop_y fun j m' he hx => ?_
  have := (C72_first_iteration (xn := xn) h hm hs m' (hv j _ he)).2
  rw [Nat.one_shiftLeft]
  rw [show firstTw tw 3 = tw from if_pos rfl, hx] at this
  rw [hx]
  exact this

/-- **C72.** The written functions for sizes two and four, which have no loop. -/
theorem C72_first_small (hr : r = 1 ∨ r = 2) (h : firstCode C S r = .ok W) (hm : Means S tw ρ) (hs : SeparateF C ρ W) (m : FMem) :
    Compiles (firstParams r) W.lines ∧ (runLines ρ xn W.lines m).x = m.x ∧
      (runLines ρ xn W.lines m).y = FFT.srfftFirst r 1 0 (fun j => FFT.constantTwiddle j r) m.y ⟨xn, m.x⟩ := by
  have h3 : r ≠ 3 := by omega
  obtain ⟨a, b, c⟩ := C72_first_iteration (xn := xn) h hm hs m (cnt := 1) (j := 0) (p := 0)
    ⟨fun e => absurd e h3, fun e => absurd e h3, fun e => absurd e h3, fun _ => ⟨rfl, rfl⟩⟩
  refine ⟨a, b, ?_⟩
  rw [c, show firstTw tw r = fun j => FFT.constantTwiddle j r from if_neg h3]
  rcases hr with rfl | rfl <;> rfl

end

end Mandelbrot.Sym
