import Verif.Sym.FFTSim
import Verif.Props.ExpansionGen

/-!
# Running the lines of a butterfly
-/

namespace Mandelbrot.Sym

open Sig (Sg)
open Spec

namespace Spec

/-- What a butterfly works on: the values of the names, the complex cells and the real cells. -/
structure FMem where
  env : String → ℂ
  y : ℕ → ℂ
  x : ℕ → ℝ

/-- The number of a cell. -/
noncomputable def index (z : ℂ) : ℕ := ⌊z.re⌋₊

/-- A declaration. -/
def FMem.let (m : FMem) (v : String) (z : ℂ) : FMem := { m with env := Function.update m.env v z }

/-- One line, for `xn` real cells.  Integers are in range, so shifts and masks are those of natural numbers. -/
noncomputable def _root_.Mandelbrot.Sym.FLine.exec (ρ : Interp ℂ) (xn : ℕ) (m : FMem) (l : FLine) : FMem :=
  let val := fun e : Ex => e.val (withVar ρ m.env)
  match l with
  | .pow2 v e => m.let v ((1 <<< index (val e) : ℕ) : ℂ)
  | .shl v w k => m.let v ((index (val w) <<< k : ℕ) : ℂ)
  | .low v e w => m.let v ((index (val e) &&& (index (val w) - 1) : ℕ) : ℂ)
  | .high v e w k => m.let v (((index (val e) - index (val w)) <<< k : ℕ) : ℂ)
  | .load v e => m.let v (m.y (index (val e)))
  | .loadX v e => m.let v ((if index (val e) < xn then m.x (index (val e)) else 0 : ℝ) : ℂ)
  | .def v e => m.let v (val e)
  | .store e a b => { m with y := Function.update m.y (index (val e)) ⟨(val a).re, (val b).re⟩ }
  | .storeX e op a =>
    let k := index (val e)
    let z := (val a).re
    if k < xn then
      { m with x := Function.update m.x k (match op with | .set => z | .add => m.x k + z | .sub => m.x k - z) }
    else m

/-- All lines. -/
noncomputable def runLines (ρ : Interp ℂ) (xn : ℕ) (l : List FLine) (m : FMem) : FMem := l.foldl (FLine.exec ρ xn) m

/-- The name a line declares. -/
def _root_.Mandelbrot.Sym.FLine.decl : FLine → List String
  | .pow2 v _ | .shl v _ _ | .low v _ _ | .high v _ _ _ | .load v _ | .loadX v _ | .def v _ => [v]
  | .store _ _ _ | .storeX _ _ _ => []

/-- The names a line uses. -/
def _root_.Mandelbrot.Sym.FLine.uses : FLine → List String
  | .pow2 _ e | .shl _ e _ | .load _ e | .loadX _ e | .def _ e => e.vars
  | .low _ e w | .high _ e w _ => e.vars ++ w.vars
  | .store e a b => e.vars ++ a.vars ++ b.vars
  | .storeX e _ a => e.vars ++ a.vars

/-- No name is declared twice, and each is declared before it is used; `D` are the names of before. -/
def Compiles : List String → List FLine → Prop
  | _, [] => True
  | D, l :: ls => (∀ v ∈ l.uses, v ∈ D) ∧ (∀ v ∈ l.decl, v ∉ D) ∧ Compiles (D ++ l.decl) ls

/-- The names that lines declare. -/
def declaredF (l : List FLine) : List String := l.flatMap FLine.decl

end Spec

variable {C : Cfg} {ρ : Interp ℂ} {xn : ℕ}

theorem runLines_append (l l' : List FLine) (m : FMem) : runLines ρ xn (l ++ l') m = runLines ρ xn l' (runLines ρ xn l m) :=
  List.foldl_append ..

theorem compiles_append : ∀ (l l' : List FLine) (D : List String),
    Compiles D (l ++ l') ↔ Compiles D l ∧ Compiles (D ++ declaredF l) l' := by
  intro l
  induction l with
  | nil => intro l' D; simp [Compiles, declaredF]
  | cons a l ih =>
    intro l' D
    simp only [List.cons_append, Compiles, ih, declaredF, List.flatMap_cons, List.append_assoc, and_assoc]

theorem index_nat (n : ℕ) : index (n : ℂ) = n := by simp [index]

theorem let_self (m : FMem) (v : String) (z : ℂ) : (m.let v z).env v = z := Function.update_self ..

theorem let_ne (m : FMem) {v u : String} (z : ℂ) (h : u ≠ v) : (m.let v z).env u = m.env u := Function.update_of_ne h ..

/-! ## Temporaries -/

theorem newLines_ext {B B' : Blk} {l : List (String × Ex)} (h : B'.code = B.code ++ l.map fun p => .def p.1 p.2) :
    newLines B B' = l.map fun p => FLine.def p.1 p.2 := by
  unfold newLines
  rw [h, List.drop_left]
  induction l with
  | nil => rfl
  | cons p l ih => simp_all

theorem runLines_defs : ∀ (l : List (String × Ex)) (m : FMem),
    runLines ρ xn (l.map fun p => FLine.def p.1 p.2) m = { m with env := after ρ (l.map fun p => Item.def p.1 p.2) m.env } := by
  intro l
  induction l with
  | nil => intro m; rfl
  | cons p l ih => intro m; exact ih _

theorem compiles_defs : ∀ (l : List (String × Ex)) (D : List String), Scoped D (l.map fun p => Item.def p.1 p.2) →
    Compiles D (l.map fun p => FLine.def p.1 p.2) := by
  intro l
  induction l with
  | nil => intro D _; trivial
  | cons p l ih =>
    intro D h
    obtain ⟨h1, h2, h3⟩ := h
    exact ⟨h2, by simpa [FLine.decl] using h1, ih _ h3⟩

theorem declaredF_defs (l : List (String × Ex)) : declaredF (l.map fun p => FLine.def p.1 p.2) = declared (l.map fun p => Item.def p.1 p.2) := by
  induction l with
  | nil => rfl
  | cons p l ih => simpa [declaredF, FLine.decl, declared] using ih

/-! ## Writes -/

/-- Writes to the complex cells. -/
def putsC : List (ℕ × ℂ) → (ℕ → ℂ) → (ℕ → ℂ)
  | [], y => y
  | p :: l, y => putsC l (Function.update y p.1 p.2)

/-- What `storesC` writes stores the values of the expressions. -/
theorem storesC_step {U : Ex → Prop} (hU : ∀ e e', U e → U e' → e.sig C = e'.sig C → e.val ρ = e'.val ρ) :
    ∀ (l : List (Ex × CEx)) {B : Blk} {r : List FLine × Blk}, Inv C ρ U B →
      (∀ p ∈ l, (∀ e ∈ p.2.re.subs, U e) ∧ ∀ e ∈ p.2.im.subs, U e) →
      (∀ p ∈ l, (∀ v ∈ p.1.vars, v ∈ inputs B.code) ∧ (∀ v ∈ p.2.re.vars, v ∈ inputs B.code) ∧ ∀ v ∈ p.2.im.vars, v ∈ inputs B.code) →
      storesC C l B = .ok r →
      Compiles (declared B.code) r.1 ∧ ∀ env m, m.env = after ρ B.code env →
        (runLines ρ xn r.1 m).x = m.x ∧ (runLines ρ xn r.1 m).y =
          putsC (l.map fun p => (index (p.1.val ρ), ⟨(p.2.re.val ρ).re, (p.2.im.val ρ).re⟩)) m.y := by
  intro l
  induction l with
  | nil =>
    intro B r hi _ _ e
    cases e
    exact ⟨trivial, fun _ _ _ => ⟨rfl, rfl⟩⟩
  | cons p l ih =>
    intro B r hi hs hv e
    unfold storesC at e
    obtain ⟨a, ha, e⟩ := Ser.bind_eq_ok e
    obtain ⟨b, hb, e⟩ := Ser.bind_eq_ok e
    obtain ⟨q, hq, e⟩ := Ser.bind_eq_ok e
    cases e
    obtain ⟨s1, s2⟩ := hs p (by simp)
    obtain ⟨v0, v1, v2⟩ := hv p (by simp)
    have h1 := compute_step hU p.2.re hi s1 v1 ha
    have h2 := compute_step hU p.2.im h1.inv s2 (by rw [h1.ext.inputs]; exact v2) hb
    obtain ⟨l1, l2⟩ := h1.later h2.ext h2.inv
    have hext := h1.ext.trans h2.ext
    obtain ⟨defs, hd⟩ := hext
    obtain ⟨c1, c2⟩ := ih h2.inv (fun z hz => hs z (by simp [hz])) (fun z hz => by
      have hin : Spec.inputs b.2.code = Spec.inputs B.code := (h1.ext.trans h2.ext).inputs
      rw [hin]; exact hv z (by simp [hz])) hq
    have hsc := h2.inv.wf
    rw [hd, scoped_append, List.nil_append] at hsc
    have hdec : declared b.2.code = declared B.code ++ declared (defs.map fun p => Item.def p.1 p.2) := by rw [hd, declared_append]
    constructor
    · rw [newLines_ext hd, compiles_append, declaredF_defs, ← hdec]
      refine ⟨compiles_defs _ _ hsc.2, ?_, by simp [FLine.decl], by simpa [FLine.decl] using c1⟩
      intro v hv'
      simp only [FLine.uses, List.mem_append] at hv'
      rcases hv' with (hv' | hv') | hv'
      · rw [hdec]
        exact List.mem_append_left _ (inputs_sub _ v (v0 v hv'))
      · exact l1 v hv'
      · exact h2.vars v hv'
    · intro env m hm
      rw [newLines_ext hd, runLines_append, runLines_defs]
      have henv : after ρ (defs.map fun p => Item.def p.1 p.2) m.env = after ρ b.2.code env := by
        rw [hm, hd, after_append]
      obtain ⟨k1, k2⟩ := c2 env (FLine.exec ρ xn { m with env := after ρ (defs.map fun p => Item.def p.1 p.2) m.env }
        (.store p.1 a.1 b.1)) henv
      refine ⟨k1, ?_⟩
      show (runLines ρ xn q.1 (FLine.exec ρ xn _ (.store p.1 a.1 b.1))).y = _
      rw [k2]
      simp only [List.map_cons, putsC, FLine.exec]
      congr 1
      rw [henv, l2 env, h2.val env]
      have hp : p.1.val (withVar ρ (after ρ b.2.code env)) = p.1.val ρ := by
        rw [show p.1.val ρ = p.1.val (withVar ρ ρ.var) from rfl]
        refine val_congr ρ _ fun w hw => ?_
        refine h2.inv.inputs env w ?_
        rw [(h1.ext.trans h2.ext).inputs]
        exact v0 w hw
      rw [hp]


/-! ## Reads -/

/-- `names` are loaded from the cells `ks`. -/
theorem loads_run (load : String → Ex → FLine) (get : FMem → ℕ → ℂ)
    (hl : ∀ v e m, FLine.exec ρ xn m (load v e) = m.let v (get m (index (e.val (withVar ρ m.env)))))
    (hg : ∀ m v z k, get (m.let v z) k = get m k) : ∀ (names : List String) (ks : List Ex) (idx : ℕ → ℕ) (m : FMem),
    names.Nodup → names.length = ks.length → (∀ e ∈ ks, ∀ v ∈ e.vars, v ∉ names) →
    (∀ i (h : i < ks.length), index ((ks[i]).val (withVar ρ m.env)) = idx i) →
    let m' := runLines ρ xn ((names.zip ks).map fun p => load p.1 p.2) m
    m'.y = m.y ∧ m'.x = m.x ∧ (∀ v, v ∉ names → m'.env v = m.env v) ∧ ∀ i (h : i < names.length), m'.env names[i] = get m (idx i) := by
  intro names
  induction names with
  | nil => intro ks idx m _ _ _ _; exact ⟨rfl, rfl, fun _ _ => rfl, fun i h => absurd h (by simp)⟩
  | cons v names ih =>
    intro ks idx m hn hlen hv hi
    cases ks with
    | nil => simp at hlen
    | cons e ks =>
      rw [List.nodup_cons] at hn
      have h0 : index (e.val (withVar ρ m.env)) = idx 0 := hi 0 (by simp)
      have hm1 : FLine.exec ρ xn m (load v e) = m.let v (get m (idx 0)) := by rw [hl, h0]
      obtain ⟨a, b, c, d⟩ := ih ks (fun i => idx (i + 1)) (m.let v (get m (idx 0))) hn.2 (by simpa using hlen)
        (fun e' he' u hu hun => hv e' (by simp [he']) u hu (by simp [hun])) (fun i h => by
          rw [← hi (i + 1) (by simpa using h)]
          simp only [List.getElem_cons_succ]
          congr 1
          refine val_congr ρ _ fun u hu => ?_
          exact Function.update_of_ne (fun e' => hv ks[i] (by simp) u hu (by simp [e'])) _ _)
      simp only [List.zip_cons_cons, List.map_cons]
      rw [show ∀ l, runLines ρ xn (load v e :: l) m = runLines ρ xn l (FLine.exec ρ xn m (load v e)) from fun _ => rfl, hm1]
      refine ⟨a, b, fun u hu => ?_, fun i h => ?_⟩
      · simp only [List.mem_cons, not_or] at hu
        rw [c u hu.2]
        exact Function.update_of_ne hu.1 _ _
      · cases i with
        | zero =>
          simp only [List.getElem_cons_zero]
          rw [c v hn.1]
          exact Function.update_self ..
        | succ i =>
          simp only [List.getElem_cons_succ]
          rw [d i (by simpa using h), hg]

theorem loads_compile (load : String → Ex → FLine) (hd : ∀ v e, (load v e).decl = [v]) (hu : ∀ v e, (load v e).uses = e.vars) :
    ∀ (names : List String) (ks : List Ex) (D : List String), names.Nodup → (∀ v ∈ names, v ∉ D) → names.length = ks.length →
      (∀ e ∈ ks, ∀ v ∈ e.vars, v ∈ D) → Compiles D ((names.zip ks).map fun p => load p.1 p.2) ∧
        declaredF ((names.zip ks).map fun p => load p.1 p.2) = names := by
  intro names
  induction names with
  | nil => intro ks D _ _ _ _; exact ⟨trivial, rfl⟩
  | cons v names ih =>
    intro ks D hn hD hlen hk
    cases ks with
    | nil => simp at hlen
    | cons e ks =>
      rw [List.nodup_cons] at hn
      obtain ⟨a, b⟩ := ih ks (D ++ [v]) hn.2 (fun u hu h => by
        rcases List.mem_append.mp h with h | h
        · exact hD u (by simp [hu]) h
        · rw [List.mem_singleton.mp h] at hu; exact hn.1 hu) (by simpa using hlen) fun e' he' u hu' =>
          List.mem_append_left _ (hk e' (by simp [he']) u hu')
      refine ⟨⟨?_, ?_, ?_⟩, ?_⟩
      · rw [hu]; exact hk e (by simp)
      · rw [hd]; intro u hu'; rw [List.mem_singleton.mp hu']; exact hD v (by simp)
      · rw [hd]; exact a
      · simp only [List.zip_cons_cons, List.map_cons, declaredF, List.flatMap_cons, hd] at b ⊢
        rw [b]; rfl

/-! ## Blocks -/

theorem inv_empty {U : Ex → Prop} : Inv C ρ U Blk.empty :=
  ⟨trivial, fun v hv => by simp [Blk.empty, declared] at hv, fun env v hv => by simp [Blk.empty, Spec.inputs] at hv,
    fun s v hv => by simp [Blk.empty] at hv⟩

theorem inv_inputs {U : Ex → Prop} (hU : ∀ e e', U e → U e' → e.sig C = e'.sig C → e.val ρ = e'.val ρ) {B B' : Blk} {l : List String}
    (h : Inv C ρ U B) (e : runActs C (l.map .input) B = .ok B') : Inv C ρ U B' ∧ B'.code = B.code ++ l.map .decl :=
  ⟨(runActs_step hU (l.map .input) h (by rw [requested_inputs]; simp) (known_inputs _ _) e).1, runActs_inputs C _ _ _ e⟩

theorem inv_uses {U : Ex → Prop} {B B' : Blk} {l : List Ex} (h : Inv C ρ U B) (e : runActs C (l.map .use) B = .ok B') :
    Inv C ρ U B' ∧ B'.code = B.code := by
  obtain ⟨u1, u2, u3⟩ := uses_code C l B B' e
  exact ⟨⟨u1 ▸ h.wf, by rw [u1, u2]; exact h.names, by rw [u1]; exact h.inputs, by rw [u1, u3]; exact h.lets⟩, u1⟩

theorem inv_reserve {U : Ex → Prop} : ∀ (l : List String) {B B' : Blk}, Inv C ρ U B → Blk.reserveAll l B = .ok B' →
    Inv C ρ U B' ∧ B'.code = B.code := by
  intro l
  induction l with
  | nil => intro B B' h e; cases e; exact ⟨h, rfl⟩
  | cons v l ih =>
    intro B B' h e
    unfold Blk.reserveAll at e
    obtain ⟨B1, e1, e⟩ := Ser.bind_eq_ok e
    unfold Blk.reserve at e1
    obtain ⟨-, -, e1⟩ := Ser.bind_eq_ok e1
    cases e1
    obtain ⟨a, b⟩ := ih (B := { B with names := v :: B.names }) ⟨h.wf, fun u hu => by simp [h.names u hu], h.inputs, h.lets⟩ e
    exact ⟨a, b⟩

theorem scoped_decls : ∀ (l D : List String), Scoped D (l.map .decl) → l.Nodup ∧ ∀ v ∈ l, v ∉ D := by
  intro l
  induction l with
  | nil => intro D _; simp
  | cons v l ih =>
    intro D h
    obtain ⟨h1, h2⟩ := h
    obtain ⟨a, b⟩ := ih _ h2
    refine ⟨List.nodup_cons.mpr ⟨fun hv => b v hv (by simp), a⟩, ?_⟩
    intro u hu
    rcases List.mem_cons.mp hu with rfl | hu
    · exact h1
    · exact fun hd => b u hu (by simp [hd])

theorem declared_decls (l : List String) : declared (l.map Item.decl) = l := by
  induction l with
  | nil => rfl
  | cons v l ih => simpa [declared] using ih

theorem after_decls_id (env : String → ℂ) : ∀ l : List String, after (withVar ρ env) (l.map Item.decl) env = env := by
  intro l
  induction l with
  | nil => rfl
  | cons v l ih =>
    show after _ _ (Function.update env v (env v)) = env
    rw [Function.update_eq_self]
    exact ih

theorem runLines_withVar (env : String → ℂ) : runLines (withVar ρ env) xn = runLines ρ xn := rfl

/-! ## Lists of values -/

theorem isL_get {D : List String} : ∀ (l : List CEx) (v : ℕ → ℂ), IsL ρ D l v → ∀ i (h : i < l.length), IsC ρ D l[i] (v i) := by
  intro l
  induction l with
  | nil => intro v _ i h; simp at h
  | cons z l ih =>
    intro v hz i h
    cases i with
    | zero => exact hz.1
    | succ i => exact ih _ hz.2 i (by simpa using h)

theorem isIL_get {D : List String} : ∀ (l : List Ex) (v : ℕ → ℤ), IsIL ρ D l v → ∀ i (h : i < l.length), IsI ρ D l[i] (v i) := by
  intro l
  induction l with
  | nil => intro v _ i h; simp at h
  | cons z l ih =>
    intro v hz i h
    cases i with
    | zero => exact hz.1
    | succ i => exact ih _ hz.2 i (by simpa using h)

theorem putsC_append (l l' : List (ℕ × ℂ)) (y : ℕ → ℂ) : putsC (l ++ l') y = putsC l' (putsC l y) := by
  induction l generalizing y with
  | nil => rfl
  | cons p l ih => exact ih _

theorem putsC_scatter (a dj : ℕ) (v : ℕ → ℂ) (R : ℕ) (y : ℕ → ℂ) :
    putsC ((List.range R).map fun i => (a + i * dj, v i)) y = FFT.scatter a dj v R y := by
  induction R with
  | zero => rfl
  | succ R ih => rw [List.range_succ, List.map_append, putsC_append, ih]; rfl

theorem stores_scatter {D D' : List String} {ks : List Ex} {zs : List CEx} {a dj R : ℕ} {v : ℕ → ℂ} (hk : IsIL ρ D ks fun i => (a : ℤ) + (i : ℕ) * (dj : ℤ))
    (hz : IsL ρ D' zs v) (lk : ks.length = R) (lz : zs.length = R) (y : ℕ → ℂ) :
    putsC ((ks.zip zs).map fun p => (index (p.1.val ρ), ⟨(p.2.re.val ρ).re, (p.2.im.val ρ).re⟩)) y = FFT.scatter a dj v R y := by
  rw [← putsC_scatter]
  congr 1
  refine List.ext_getElem (by simp [lk, lz]) fun i h1 h2 => ?_
  have hi : i < R := by simpa using h2
  simp only [List.getElem_map, List.getElem_zip, List.getElem_range]
  have k := (isIL_get ks _ hk i (by omega)).2
  have z := isL_get zs _ hz i (by omega)
  rw [z.1.2, z.2.2, k]
  have hc : (((a : ℤ) + (i : ℕ) * (dj : ℤ) : ℤ) : ℂ) = ((a + i * dj : ℕ) : ℂ) := by push_cast; rfl
  rw [hc, index_nat]
  simp

/-- The last lines of a butterfly: what is stored, for the values of the names after the loads. -/
theorem stores_run {M : FMem} {N D : List String} {U : Ex → Prop} {B : Blk} {ks : List Ex} {zs : List CEx} {w : List FLine × Blk} {a dj R : ℕ}
    {v : ℕ → ℂ} (hU : ∀ e e', U e → U e' → e.sig C = e'.sig C → e.val (withVar ρ M.env) = e'.val (withVar ρ M.env))
    (hi : Inv C (withVar ρ M.env) U B) (hB : B.code = N.map .decl) (hs : ∀ e ∈ flatten zs, ∀ e' ∈ e.subs, U e')
    (hk : IsIL (withVar ρ M.env) D ks fun i => (a : ℤ) + (i : ℕ) * (dj : ℤ)) (hD : ∀ v ∈ D, v ∈ N)
    (hz : IsL (withVar ρ M.env) N zs v) (lk : ks.length = R) (lz : zs.length = R) (e : storesC C (ks.zip zs) B = .ok w) :
    Compiles N w.1 ∧ (runLines ρ xn w.1 M).x = M.x ∧ (runLines ρ xn w.1 M).y = FFT.scatter a dj v R M.y := by
  have hin : Spec.inputs B.code = N := by rw [hB, inputs_decls]
  have hmem : ∀ p ∈ ks.zip zs, p.1 ∈ ks ∧ p.2 ∈ zs := fun p hp => ⟨(List.of_mem_zip hp).1, (List.of_mem_zip hp).2⟩
  have hfl : ∀ z ∈ zs, z.re ∈ flatten zs ∧ z.im ∈ flatten zs := fun z hz =>
    ⟨List.mem_flatMap.mpr ⟨z, hz, by simp⟩, List.mem_flatMap.mpr ⟨z, hz, by simp⟩⟩
  have hC : ∀ z ∈ zs, In N z.re ∧ In N z.im := by
    intro z hz'
    obtain ⟨i, h, rfl⟩ := List.getElem_of_mem hz'
    have := isL_get zs v hz i h
    exact ⟨this.1.1, this.2.1⟩
  have hK : ∀ e ∈ ks, In N e := by
    intro e he
    obtain ⟨i, h, rfl⟩ := List.getElem_of_mem he
    exact fun u hu => hD u ((isIL_get ks _ hk i h).1 u hu)
  obtain ⟨c, r⟩ := storesC_step (xn := xn) hU (ks.zip zs) hi
    (fun p hp => ⟨hs _ (hfl _ (hmem p hp).2).1, hs _ (hfl _ (hmem p hp).2).2⟩)
    (fun p hp => by rw [hin]; exact ⟨hK _ (hmem p hp).1, (hC _ (hmem p hp).2).1, (hC _ (hmem p hp).2).2⟩) e
  rw [hB, declared_decls] at c
  obtain ⟨rx, ry⟩ := r M.env M (by rw [hB, after_decls_id])
  rw [runLines_withVar] at rx ry
  exact ⟨c, rx, by rw [ry, stores_scatter hk hz lk lz]⟩

end Mandelbrot.Sym
