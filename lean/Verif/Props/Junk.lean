import Verif.Area.Resume
import Verif.Props.SeriesBasic

/-!
# Independence of uninitialised memory (C52) and the numbers of known terms (C53), for any arithmetic
-/

set_option linter.unusedSectionVars false

namespace Mandelbrot

open _root_.Mandelbrot.IO

variable {K : Type}

/-! ## Specifications -/

/-- What the known counts of all series become under one operation that returns. -/
def Spec.knownAfter (known : ℕ → ℤ) : SerOp K → ℕ → ℤ
  | .construct i _ _ | .clear i | .setUnknown i => Function.update known i 0
  | .constructList i _ _ cs => Function.update known i cs.length
  | .move i j => Function.update (Function.update known j 0) i (known j)
  | .swap i j => Function.update (Function.update known i (known j)) j (known i)
  | .setScalar i n _ => Function.update known i (max n 0)
  | .setCounts i n _ | .setKnown i n => Function.update known i n
  | .reduceKnown i n => Function.update known i (min (known i) (max n 0))
  | .low i j n => Function.update known i (min (max n 0) (known j))
  | .high i j n => Function.update known i (max (known j - max n 0) 0)
  | .addScalar i _ => Function.update known i (known i)
  | .addsub i _ _ s j => Function.update known i (min (known i) (known j + s))
  | .mul i j k | .div i j k => Function.update known i (min (known j) (known k))
  | .mul1p i j k s | .div1p i j k s => Function.update known i (min (known j) (known k + s))
  | .copy i j _ _ | .view i j | .assign i j | .neg i j | .sqr i j | .inv i j | .inv1p i j _ | .derivativeShift i j _
  | .integralShift i j _ | .log i j | .log1p i j _ | .exp i j | .expm1 i j _ _ | .log1pExp i j _ | .ldexp i j _ =>
    Function.update known i (known j)

/-- The same over a history. -/
def Spec.knownAfterAll (known : ℕ → ℤ) (ops : List (SerOp K)) : ℕ → ℤ := ops.foldl Spec.knownAfter known

variable [Zero K] [One K] [Add K] [Sub K] [Neg K] [Mul K] [Div K] [IntCast K] [Ldexp K] [DecidableEq K]

namespace Props

open Ser

variable {mul addmul : ℕ → Span K → Span K → Res (ℕ → K)} {sqr : ℕ → Span K → Res (ℕ → K)}

/-! ## C52 -/

/-- C52.  Two histories of the same calls, starting from series with the same counts, stored terms and sizes, fail alike or end
with the same counts, stored terms and sizes.  What fresh memory contains, what lies in the cells beyond `nonzero()`, and what
the base cases leave in their scratch memory does not matter. -/
theorem C52_history (hloc : Local mul addmul sqr) (B B' : Junk K) {ops ops' : List (Junk K × SerOp K)}
    (hs : List.Forall₂ (fun a b => a.2.SameCall b.2) ops ops') (hv : ∀ op ∈ ops, op.2.Valid) {σ τ : ℕ → Ser K}
    (h : ∀ i, SimL (σ i) (τ i)) :
    RelRes (fun σ τ => ∀ i, (σ i).known = (τ i).known ∧ (σ i).nonzero = (τ i).nonzero ∧ (σ i).limit = (τ i).limit ∧
        ∀ n : ℕ, (n : ℤ) < (σ i).nonzero → (σ i).data n = (τ i).data n)
      (run (hostKer B mul addmul sqr) σ ops) (run (hostKer B' mul addmul sqr) τ ops') :=
  (run_sim (hostKer_sim B B' hloc) hs h hv).mono fun _ _ _ _ h i => ⟨(h i).known, (h i).nonzero, (h i).limit, (h i).data⟩

/-- C52.  What a function does depends only on the counts and stored terms of its operands and on the size of the destination:
operands of different sizes, with the same counts and terms, give the same result, and what the destination held before does not
matter. -/
theorem C52_operands (hloc : Local mul addmul sqr) (B B' J J' : Junk K) {y y' a a' b b' : Ser K} (hy : Dst y y') (ha : Ser.Sim a a')
    (hb : Ser.Sim b b') (s e : ℤ) :
    let ker := hostKer B mul addmul sqr
    let ker' := hostKer B' mul addmul sqr
    RelRes SimL (y.assign a) (y'.assign a') ∧ RelRes SimL (neg y a) (neg y' a') ∧
    RelRes SimL (Ser.mul ker y a b) (Ser.mul ker' y' a' b') ∧ RelRes SimL (mul1p ker y a b s) (mul1p ker' y' a' b' s) ∧
    RelRes SimL (Ser.sqr ker y a) (Ser.sqr ker' y' a') ∧ RelRes SimL (inv ker J y a) (inv ker' J' y' a') ∧
    RelRes SimL (inv1p ker J y a s) (inv1p ker' J' y' a' s) ∧ RelRes SimL (div ker J y a b) (div ker' J' y' a' b') ∧
    RelRes SimL (div1p ker J y a b s) (div1p ker' J' y' a' b' s) ∧
    RelRes SimL (derivativeShift y a s) (derivativeShift y' a' s) ∧ RelRes SimL (integralShift y a s) (integralShift y' a' s) ∧
    RelRes SimL (log ker J y a) (log ker' J' y' a') ∧ RelRes SimL (log1p ker J y a s) (log1p ker' J' y' a' s) ∧
    RelRes SimL (exp ker J y a) (exp ker' J' y' a') ∧ RelRes SimL (expm1 ker J y a e s) (expm1 ker' J' y' a' e s) ∧
    RelRes SimL (log1pExp ker J y a s) (log1pExp ker' J' y' a' s) ∧ RelRes SimL (ldexpSer y a s) (ldexpSer y' a' s) := by
  have hk := hostKer_sim B B' hloc
  exact ⟨assign_sim hy ha, neg_sim hy ha, mul_sim hk hy ha hb, mul1p_sim hk hy ha hb s, sqr_sim hk hy ha, inv_sim hk hy ha,
    inv1p_sim hk hy ha s, div_sim hk hy ha hb, div1p_sim hk hy ha hb s, derivativeShift_sim hy ha s, integralShift_sim hy ha s,
    log_sim hk hy ha, log1p_sim hk hy ha s, exp_sim hk hy ha, expm1_sim hk hy ha e s, log1pExp_sim hk hy ha s, ldexpSer_sim hy ha s⟩

/-! Reading a file. -/

/-- Two readers in the same state. -/
structure RdSim (u v : Rd K) : Prop where
  known : u.known = v.known
  nonzero : u.nonzero = v.nonzero
  terms : u.terms = v.terms
  comments : u.comments = v.comments
  xknown : u.x.known = v.x.known
  xnonzero : u.x.nonzero = v.x.nonzero
  xlimit : u.x.limit = v.x.limit
  data : ∀ i : ℕ, (i : ℤ) < u.terms → u.x.data i = v.x.data i
  cover : u.x.nonzero ≤ max u.nonzero 0

theorem readLine_sim {parse : Str → Res K} {J J' : Junk K} {u v : Rd K} (h : RdSim u v) (line : Str) :
    RelRes RdSim (readLine parse J u line) (readLine parse J' v line) := by
  unfold readLine
  cases trim line with
  | nil => exact h
  | cons c l =>
    simp only
    split_ifs with hc
    · rw [← h.known, ← h.nonzero, ← h.comments, ← h.terms]
      cases ec : readCounts (trim l) u.known u.nonzero with
      | error e => exact rfl
      | ok p =>
        rw [bok, bok]
        split_ifs with hp
        · refine RelRes.bind (RelRes.assert Iff.rfl) fun _ _ hkn => ?_
          obtain ⟨hkn, -⟩ := hkn
          have hl : ∀ j : ℕ → K, (Ser.new p.2 j).limit = p.2 := fun j => new_limit' hp.2 j
          rw [setCounts_ok' _ hp.2 hkn (by rw [hl]), setCounts_ok' _ hp.2 hkn (by rw [hl]), bok, bok]
          refine RelRes.pure ⟨rfl, rfl, rfl, rfl, rfl, rfl, ?_, fun i hi => ?_, ?_⟩
          · simp only [hl]
          · simp only at hi; omega
          · simp only; omega
        · refine RelRes.pure ⟨rfl, rfl, rfl, rfl, h.xknown, h.xnonzero, h.xlimit, h.data, ?_⟩
          have hcov := h.cover
          have : u.nonzero ≤ p.2 ∨ u.nonzero < 0 := by
            rw [readCounts] at ec
            split_ifs at ec
            · obtain ⟨_, _, ec⟩ := bind_eq_ok ec; obtain ⟨_, _, ec⟩ := bind_eq_ok ec; cases ec; left; exact le_rfl
            · obtain ⟨_, ea, ec⟩ := bind_eq_ok ec; obtain ⟨_, _, ec⟩ := bind_eq_ok ec; cases ec
              right; exact slowAssert_ok ea
            · obtain ⟨_, ea, ec⟩ := bind_eq_ok ec; obtain ⟨_, _, ec⟩ := bind_eq_ok ec; cases ec
              right; exact (slowAssert_ok ea).2
            · cases ec; left; exact le_rfl
          simp only
          omega
    · rw [← h.terms, ← h.nonzero]
      refine RelRes.bind (RelRes.assert Iff.rfl) fun _ _ ht => ?_
      cases parse (c :: l) with
      | error e => exact rfl
      | ok a =>
        refine ⟨h.known, rfl, rfl, h.comments, h.xknown, h.xnonzero, h.xlimit, fun i hi => ?_, h.cover⟩
        simp only at hi ⊢
        by_cases e : i = u.terms.toNat
        · subst e; rw [Function.update_self, Function.update_self]
        · rw [Function.update_of_ne e, Function.update_of_ne e]
          exact h.data i (by omega)

/-- C52.  What is read from a file does not depend on what the memory held before. -/
theorem C52_read {parse : Str → Res K} (J J' : Junk K) (file : Str) :
    RelRes (fun a b => a.1 = b.1 ∧ a.2.known = b.2.known ∧ a.2.nonzero = b.2.nonzero ∧ a.2.limit = b.2.limit ∧
      ∀ i : ℕ, (i : ℤ) < a.2.nonzero → a.2.data i = b.2.data i) (readSeries parse J file) (readSeries parse J' file) := by
  have key : ∀ (ls : List Str) {u v : Rd K}, RdSim u v → RelRes RdSim (readLines parse J ls u) (readLines parse J' ls v) := by
    intro ls
    induction ls with
    | nil => intro u v h; exact h
    | cons l ls ih => intro u v h; exact RelRes.bind (readLine_sim h l) fun _ _ h => ih h
  have h0 : RdSim (Rd.init (J [])) (Rd.init (J' [])) :=
    ⟨rfl, rfl, rfl, rfl, rfl, rfl, rfl, fun i hi => by simp only [Rd.init] at hi; omega, by simp [Rd.init, Ser.new]⟩
  refine RelRes.bind (key _ h0) fun u v h => ?_
  refine RelRes.bind (RelRes.assert (by rw [h.terms, h.nonzero])) fun _ _ ht => RelRes.pure ⟨h.comments, h.xknown, h.xnonzero, h.xlimit,
    fun i hi => h.data i ?_⟩
  have := h.cover
  simp only at hi
  omega

theorem number_lt {v : Str} {i : ℤ} (h : number v = .ok i) : i < 2 ^ 63 := by
  unfold number at h
  split at h
  · rename_i j e
    split_ifs at h
    cases h
    unfold stol at e
    simp only at e
    split at e
    · cases e
    · split_ifs at e <;> cases e <;> omega
  · cases h

theorem readCounts_lt {v : Str} {k n : ℤ} {p : ℤ × ℤ} (h : readCounts v k n = .ok p) (hk : k < 2 ^ 63) (hn : n < 2 ^ 63) :
    p.1 < 2 ^ 63 ∧ p.2 < 2 ^ 63 := by
  rw [readCounts] at h
  split_ifs at h
  · obtain ⟨_, _, h⟩ := bind_eq_ok h; obtain ⟨_, e, h⟩ := bind_eq_ok h; cases h; exact ⟨number_lt e, hn⟩
  · obtain ⟨_, _, h⟩ := bind_eq_ok h; obtain ⟨_, e, h⟩ := bind_eq_ok h; cases h; exact ⟨hk, number_lt e⟩
  · obtain ⟨_, _, h⟩ := bind_eq_ok h; obtain ⟨_, e, h⟩ := bind_eq_ok h; cases h; exact ⟨number_lt e, number_lt e⟩
  · cases h; exact ⟨hk, hn⟩

/-- C52, C05.  A series that was read from a file satisfies the invariant of the counts, whatever the file contains. -/
theorem C52_read_good {parse : Str → Res K} {J : Junk K} {file : Str} {r : List Str × Ser K}
    (h : readSeries parse J file = .ok r) : r.2.Good := by
  have key : ∀ (ls : List Str) {u v : Rd K}, (u.known < 2 ^ 63 ∧ u.nonzero < 2 ^ 63 ∧ u.x.Good) →
      readLines parse J ls u = .ok v → v.x.Good := by
    intro ls
    induction ls with
    | nil => intro u v h e; cases e; exact h.2.2
    | cons l ls ih =>
      intro u v h e
      obtain ⟨w, e1, e⟩ := bind_eq_ok e
      refine ih ?_ e
      unfold readLine at e1
      cases hl : trim l with
      | nil => rw [hl] at e1; cases e1; exact h
      | cons c l =>
        rw [hl] at e1
        simp only at e1
        split_ifs at e1 with hc
        · obtain ⟨p, ec, e1⟩ := bind_eq_ok e1
          have hp := readCounts_lt ec h.1 h.2.1
          split_ifs at e1 with h0
          · obtain ⟨_, ea, e1⟩ := bind_eq_ok e1
            obtain ⟨y, ey, e1⟩ := bind_eq_ok e1
            cases e1
            exact ⟨hp.1, hp.2, setCounts_good (new_good hp.2 _) h0.1 hp.1 (by omega) ey⟩
          · cases e1; exact ⟨hp.1, hp.2, h.2.2⟩
        · obtain ⟨_, ea, e1⟩ := bind_eq_ok e1
          obtain ⟨a, ep, e1⟩ := bind_eq_ok e1
          cases e1
          exact ⟨h.1, h.2.1, ⟨⟨h.2.2.wf.nonneg, h.2.2.wf.le_known, h.2.2.wf.le_limit⟩, h.2.2.limit_lt, h.2.2.known_lt⟩⟩
  obtain ⟨u, e, h⟩ := bind_eq_ok h
  obtain ⟨_, _, h⟩ := bind_eq_ok h
  cases h
  exact key _ ⟨by simp [Rd.init], by simp [Rd.init], new_good (by norm_num) _⟩ e

theorem readBottcher_sim {env : Area.Env K} (J J' : Junk K) (file : Str) :
    RelRes SimL (Area.readBottcher env J file) (Area.readBottcher env J' file) := by
  have key : RelRes (fun a b => a.known = b.known ∧ a.nonzero = b.nonzero ∧ a.limit = b.limit ∧
      ∀ i : ℕ, (i : ℤ) < a.nonzero → a.data i = b.data i) (Area.readBottcher env J file) (Area.readBottcher env J' file) := by
    refine RelRes.bind (C52_read J J' file) fun u v h => ?_
    exact RelRes.bind (RelRes.assert (by rw [h.1])) fun _ _ _ => RelRes.pure h.2
  refine key.mono fun u v e1 _ h => ?_
  have hu : u.Good := by
    obtain ⟨r, er, e1⟩ := bind_eq_ok e1
    obtain ⟨_, _, e1⟩ := bind_eq_ok e1
    cases e1
    exact C52_read_good er
  refine ⟨⟨hu, ⟨⟨?_, ?_, ?_⟩, ?_, ?_⟩, h.1, h.2.1, h.2.2.2⟩, h.2.2.1⟩
  · rw [← h.2.1]; exact hu.wf.nonneg
  · rw [← h.2.1, ← h.1]; exact hu.wf.le_known
  · rw [← h.2.1, ← h.2.2.1]; exact hu.wf.le_limit
  · rw [← h.2.2.1]; exact hu.limit_lt
  · rw [← h.1]; exact hu.known_lt

/-- C52.  The whole program, started from nothing or from a file: what it writes and the series it ends with do not depend on
the contents of memory. -/
theorem C52_program (hloc : Local mul addmul sqr) {env : Area.Env K} (henv : env.Local) (B B' J J' : Junk K) (input : Option Str)
    (output : Bool) (k : ℤ) :
    RelRes (fun a b => List.Forall₂ (fun f f' => f.letter = f'.letter ∧ f.k = f'.k ∧ f.comments = f'.comments ∧
          f.series.known = f'.series.known ∧ f.series.nonzero = f'.series.nonzero ∧
          ∀ i : ℕ, (i : ℤ) < f.series.nonzero → f.series.data i = f'.series.data i) a.1 b.1 ∧
        a.2.known = b.2.known ∧ a.2.nonzero = b.2.nonzero ∧ ∀ i : ℕ, (i : ℤ) < a.2.nonzero → a.2.data i = b.2.data i)
      (Area.areasMain (hostKer B mul addmul sqr) J env input output k)
      (Area.areasMain (hostKer B' mul addmul sqr) J' env input output k) := by
  have hin : RelRes SimL (match input with
      | some file => Area.readBottcher env (J.sub 0) file
      | none => Area.bottcherBase (J.sub 0)) (match input with
      | some file => Area.readBottcher env (J'.sub 0) file
      | none => Area.bottcherBase (J'.sub 0)) := by
    cases input with
    | none => exact Area.bottcherBase_sim _ _
    | some file => exact readBottcher_sim _ _ file
  have key : RelRes Area.SameRun (Area.areasMain (hostKer B mul addmul sqr) J env input output k)
      (Area.areasMain (hostKer B' mul addmul sqr) J' env input output k) := by
    have main : ∀ {r r' : Res (Ser K)}, RelRes SimL r r' → RelRes Area.SameRun
        (r >>= fun g => Area.knownToK g.known >>= fun k0 =>
          Area.areasLoop (hostKer B mul addmul sqr) J env output (k - k0).toNat k0 g)
        (r' >>= fun g => Area.knownToK g.known >>= fun k0 =>
          Area.areasLoop (hostKer B' mul addmul sqr) J' env output (k - k0).toNat k0 g) := by
      intro r r' hr
      refine RelRes.bind hr fun g g' hg => ?_
      rw [← hg.known]
      cases Area.knownToK g.known with
      | error e => exact rfl
      | ok k0 => exact Area.areasLoop_sim (hostKer_sim B B' hloc) henv hg.toSim
    cases input with
    | none => exact main hin
    | some file => exact main hin
  refine key.mono fun a b _ _ h => ⟨h.1.imp fun f f' h => ?_, h.2.known, h.2.nonzero, h.2.data⟩
  exact ⟨h.letter, h.k, h.comments, h.series.known, h.series.nonzero, h.series.data⟩

/-- C52.  `set_counts` has to be left out: after it, a coefficient can be whatever was in memory. -/
theorem C52_setCounts_witness (a b : K) : ∃ x y : Ser K, (Ser.new 1 fun _ => a).setCounts 1 1 = .ok x ∧
    (Ser.new 1 fun _ => b).setCounts 1 1 = .ok y ∧ x.nonzero = 1 ∧ x.data 0 = a ∧ y.data 0 = b := by
  have h : ∀ c : K, (Ser.new 1 fun _ => c).setCounts 1 1 = .ok ⟨1, 1, 1, fun _ => c⟩ := by
    intro c
    rw [setCounts_ok' _ (by norm_num) le_rfl (by simp [Ser.new, relu])]
    simp [Ser.new, relu]
  exact ⟨_, _, h a, h b, rfl, rfl, rfl⟩

/-- C52 example: fill a fresh series from a list, add it to another, multiply into fresh memory, take the exponential. -/
example (J J' : Junk ℚ) : RelRes (fun σ τ => ∀ i, (σ i).known = (τ i).known ∧ (σ i).nonzero = (τ i).nonzero ∧
      (σ i).limit = (τ i).limit ∧ ∀ n : ℕ, (n : ℤ) < (σ i).nonzero → (σ i).data n = (τ i).data n)
    (run (hostKer J naiveMul naiveMul fun n x => naiveMul n x x) (fun _ => Ser.new 0 (J []))
      [(J, .constructList 0 8 (J [1]) [0, 1, 2]), (J, .construct 1 8 (J [2])), (J, .mul 1 0 0), (J, .construct 2 8 (J [3])),
        (J, .exp 2 1)])
    (run (hostKer J' naiveMul naiveMul fun n x => naiveMul n x x) (fun _ => Ser.new 0 (J' []))
      [(J', .constructList 0 8 (J' [1]) [0, 1, 2]), (J', .construct 1 8 (J' [2])), (J', .mul 1 0 0), (J', .construct 2 8 (J' [3])),
        (J', .exp 2 1)]) := by
  refine C52_history (K := ℚ) ⟨fun n _ _ _ _ hx hy => naiveMul_sim n hx hy, fun n _ _ _ _ hx hy => naiveMul_sim n hx hy,
    fun n _ _ hx => naiveMul_sim n hx hx⟩ J J' ?_ ?_ fun _ => new_sim (by norm_num) _ _
  · simp [SerOp.SameCall]
  · simp [SerOp.Valid]

/-! ## C53 -/

/-- C53.  Whatever the arithmetic does, an operation that returns leaves exactly the promised numbers of known terms. -/
theorem C53_step {B J : Junk K} {σ τ : ℕ → Ser K} {op : SerOp K} (hσ : ∀ i, (σ i).Good)
    (h : step (hostKer B mul addmul sqr) J σ op = .ok τ) :
    (fun i => (τ i).known) = Spec.knownAfter (fun i => (σ i).known) op := by
  have hkb := hostKer_knownBases B mul addmul sqr
  have h0 : ∀ i, 0 ≤ (σ i).known := fun i => (hσ i).wf.known_nonneg'
  have upd : ∀ (σ : ℕ → Ser K) (i : ℕ) (x : Ser K), (fun n => (Function.update σ i x n).known) =
      Function.update (fun n => (σ n).known) i x.known := by
    intro σ i x
    funext n
    rcases eq_or_ne n i with rfl | hn
    · rw [Function.update_self, Function.update_self]
    · rw [Function.update_of_ne hn, Function.update_of_ne hn]
  have viaMap : ∀ {i : ℕ} {r : Res (Ser K)} {k : ℤ}, r.map (Function.update σ i) = .ok τ → (∀ x, r = .ok x → x.known = k) →
      (fun n => (τ n).known) = Function.update (fun n => (σ n).known) i k := by
    intro i r k e hk
    cases r with
    | error e' => cases e
    | ok x =>
      cases e
      rw [upd, hk x rfl]
  cases op with
  | construct i limit junk => cases h; exact upd _ _ _
  | constructList i limit junk cs =>
    refine viaMap h fun x e => ?_
    obtain ⟨_, _, e⟩ := bind_eq_ok e
    cases e; rfl
  | copy i j limit junk => exact viaMap h fun x e => assign_known e
  | setCounts i known nonzero => exact viaMap h fun x e => setCounts_known e
  | move i j => cases h; rw [upd, upd]; rfl
  | swap i j => cases h; rw [upd, upd]; rfl
  | clear i => cases h; exact upd _ _ _
  | setScalar i known a => exact viaMap h fun x e => by rw [setScalar_known e, relu]
  | assign i j => exact viaMap h fun x e => assign_known e
  | setUnknown i => cases h; exact upd _ _ _
  | setKnown i known => exact viaMap h fun x e => (setKnown_known e).1
  | reduceKnown i known => exact viaMap h fun x e => by rw [reduceKnown_known e, relu, max_comm known]
  | view i j => cases h; exact upd _ _ _
  | low i j n => cases h; rw [upd, known_low, relu]; simp only [Spec.knownAfter, max_comm n]
  | high i j n => cases h; rw [upd, known_high, relu, relu]; simp only [Spec.knownAfter, max_comm n, max_comm _ (0 : ℤ)]
  | addScalar i a => exact viaMap h fun x e => addScalar_known e
  | addsub i sign b s j => exact viaMap h fun x e => addsub_known e
  | neg i j => exact viaMap h fun x e => neg_known e
  | mul i j k => exact viaMap h fun x e => mul_known e
  | mul1p i j k s => exact viaMap h fun x e => (mul1p_known e).1
  | sqr i j => exact viaMap h fun x e => sqr_known e
  | inv i j => exact viaMap h fun x e => inv_known hkb (h0 j) e
  | inv1p i j s => exact viaMap h fun x e => inv1p_known (h0 j) e
  | div i j k => exact viaMap h fun x e => div_known hkb (h0 j) (h0 k) e
  | div1p i j k s => exact viaMap h fun x e => div1p_known (h0 k) e
  | derivativeShift i j s => exact viaMap h fun x e => derivativeShift_known e
  | integralShift i j s => exact viaMap h fun x e => integralShift_known e
  | log i j => exact viaMap h fun x e => log_known hkb (h0 j) e
  | log1p i j s => exact viaMap h fun x e => log1p_known (h0 j) e
  | exp i j => exact viaMap h fun x e => exp_known hkb (h0 j) e
  | expm1 i j a s => exact viaMap h fun x e => expm1_known (h0 j) e
  | log1pExp i j s => exact viaMap h fun x e => log1pExp_known hkb (h0 j) e
  | ldexp i j b => exact viaMap h fun x e => ldexpSer_known e

/-- C53.  Over any history. -/
theorem C53_history {B : Junk K} {ops : List (Junk K × SerOp K)} : ∀ {σ τ : ℕ → Ser K}, (∀ i, (σ i).Good) →
    (∀ op ∈ ops, op.2.Valid) → run (hostKer B mul addmul sqr) σ ops = .ok τ →
    (fun i => (τ i).known) = Spec.knownAfterAll (fun i => (σ i).known) (ops.map (·.2)) := by
  induction ops with
  | nil => intro σ τ _ _ h; cases h; rfl
  | cons op ops ih =>
    intro σ τ hσ hv h
    obtain ⟨ρ, e, h⟩ := bind_eq_ok h
    have h1 := C53_step hσ e
    have := ih (σ := ρ) ?_ (fun o ho => hv o (List.mem_cons_of_mem _ ho)) h
    · rw [this, h1]; rfl
    · exact fun i => step_good (hostKer_goodBases B mul addmul sqr) hσ (hv _ List.mem_cons_self) e i

/-- C53 example: the history of the example above; `exp` of the square of a three-term series has three known terms. -/
example (J : Junk ℚ) (τ : ℕ → Ser ℚ) (h : run (hostKer J naiveMul naiveMul fun n x => naiveMul n x x) (fun _ => Ser.new 0 (J []))
      [(J, .constructList 0 8 (J [1]) [0, 1, 2]), (J, .construct 1 8 (J [2])), (J, .mul 1 0 0), (J, .construct 2 8 (J [3])),
        (J, .exp 2 1)] = .ok τ) : (τ 2).known = 3 := by
  have := congrFun (C53_history (fun _ => new_good (by norm_num) _) (by simp [SerOp.Valid]) h) 2
  simpa [Spec.knownAfterAll, Spec.knownAfter] using this

/-- C53.  A step from `2^k` terms that returns leaves `2^(k+1)` terms in `g` and in `f`, and `k ≤ 29`. -/
theorem C53_bottcher_step {B J : Junk K} {accept : ℕ → Bool → Ser K → Bool} {g : Ser K} {k : ℕ} (hk : k ≤ 62) (hg : g.known = 2 ^ k)
    {r : Ser K × Ser K} (e : Area.bottcherStep (hostKer B mul addmul sqr) J accept g = .ok r) :
    k ≤ 29 ∧ r.1.known = 2 ^ (k + 1) ∧ r.2.known = 2 ^ (k + 1) :=
  Area.bottcherStep_known (hostKer_knownBases B mul addmul sqr) hk hg e

end Props

end Mandelbrot
