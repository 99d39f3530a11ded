import Verif.Sym.History
import Mathlib.Algebra.MvPolynomial.SchwartzZippel

/-!
# Symbolic expressions: C39, C40, C54
-/

namespace Mandelbrot.Sym

open Sig (Sg)

namespace Spec

/-- Division in a field: a `DivOk` division. -/
def fieldInterp {K : Type} [Field K] (x : String → K) : Interp K where
  var := x
  field := fun _ y => y
  call := fun _ l => l.sum
  other := fun _ => 0
  div := fun y a => y / a

/-- Different expressions that were looked up have different signatures, none of a small integer. -/
def Distinct (C : Cfg) (met : List Ex) : Prop :=
  (∀ e ∈ met, ∀ e' ∈ met, e.sig C = e'.sig C → e = e') ∧ ∀ e ∈ met, Sig.unsmall C.F (e.sig C) = none

end Spec

open Spec

theorem fieldInterp_divOk {K : Type} [Field K] (x : String → K) : (fieldInterp x).DivOk :=
  ⟨fun y => by simp [fieldInterp], fun y a => by simp [fieldInterp, div_neg], fun y a => by simp [fieldInterp, neg_div]⟩

/-! ## C40 -/

/-- C40: for every history, in both modes and for every meaning of the variables, calls and divisions in a commutative ring, the
results have the requested values, unless two of the expressions met have the same signature and different values. -/
theorem C40_histories {C : Cfg} {exact : Bool} {R : Type} [CommRing R] {ρ : Interp R} (hd : ρ.DivOk) (ops : List Op)
    {rs : List Ex} {st : CSt} (hr : run C exact ops = .ok (rs, st)) (hc : NoClash C ρ st.met) :
    rs.map (Ex.val ρ) = values ρ ops [] :=
  runFrom_val hd ops (fun p hp => by simp at hp) hr hc

/-- C40: with exact arithmetic every history of requests in the domain succeeds, and the signature of each result and of each
expression in the table is its value at the random point, in each of the four fields. -/
theorem C40_signatures {C : Cfg} (hC : C.Ok) (ops : List Op) (ho : ∀ op ∈ ops, InRange C.F op) :
    ∃ rs st, run C true ops = .ok (rs, st) ∧ rs.length = ops.length ∧
      (∀ e ∈ rs, ∀ i, e.sig C i < C.F i ∧ (e.sig C i : ZMod (C.F i)) = e.point C i) ∧
      (∀ p ∈ st.table, p.2.sig C = p.1 ∧ ∀ i, p.1 i < C.F i ∧ (p.1 i : ZMod (C.F i)) = p.2.point C i) := by
  obtain ⟨rs, st, e, h1, h2, h3⟩ := runFrom_good hC ops (rs := []) (st := ⟨true, [], []⟩) (fun p hp => by simp at hp)
    (fun p hp => by simp at hp) ho
  refine ⟨rs, st, e, ?_, fun x hx => exact_point hC x ((h3 x hx).2 rfl) (h3 x hx).1, ?_⟩
  · have hl : ∀ (ops : List Op) {rs rs' : List Ex} {st st' : CSt}, runFrom C ops rs st = .ok (rs', st') →
        rs'.length = rs.length + ops.length := by
      intro ops
      induction ops with
      | nil =>
        intro rs rs' st st' hr
        simp only [runFrom, Except.ok.injEq, Prod.mk.injEq] at hr
        rw [hr.1]; simp
      | cons op ops ih =>
        intro rs rs' st st' hr
        simp only [runFrom] at hr
        cases ho : op.exec C rs st with
        | error e => rw [ho] at hr; simp at hr
        | ok r =>
          rw [ho] at hr
          rw [ih hr]
          simp only [List.length_append, List.length_cons, List.length_nil]
          omega
    simpa using hl ops e
  · intro p hp
    have h := h1 p hp
    refine ⟨h.2, ?_⟩
    rw [← h.2]
    exact exact_point hC p.2 (h.1.2 (by rw [h2])) h.1.1

/-- C40: with exact arithmetic the value at the random point of `x + y`, `x - y`, `x * y`, `-x` and `x / a` is that of the
request, without any condition: an expression found in the table or replaced by a small integer agrees with it there. -/
theorem C40_point {C : Cfg} (hC : C.Ok) {st : CSt} (h : st.Good C) (he : st.exact = true) {x y : Ex} (hx : Good C true x)
    (hy : Good C true y) {a : ℤ} (ha0 : a ≠ 0) (ha1 : -2 ^ 31 < a) (ha2 : a < 2 ^ 31) :
    (∃ r, add C x y st = .ok r ∧ ∀ i, (r.1.sig C i : ZMod (C.F i)) = x.sig C i + y.sig C i) ∧
    (∃ r, sub C x y st = .ok r ∧ ∀ i, (r.1.sig C i : ZMod (C.F i)) = x.sig C i - y.sig C i) ∧
    (∃ r, mul C x y st = .ok r ∧ ∀ i, (r.1.sig C i : ZMod (C.F i)) = x.sig C i * y.sig C i) ∧
    (∃ r, neg C x st = .ok r ∧ ∀ i, (r.1.sig C i : ZMod (C.F i)) = -x.sig C i) ∧
    (∃ r, div C x a st = .ok r ∧ ∀ i, (r.1.sig C i : ZMod (C.F i)) * a = x.sig C i) := by
  have px := exact_point hC x (hx.2 rfl) hx.1
  have py := exact_point hC y (hy.2 rfl) hy.1
  have hx' : Good C st.exact x := by rw [he]; exact hx
  have hy' : Good C st.exact y := by rw [he]; exact hy
  have key : ∀ {v : (i : Fin 4) → ZMod (C.F i)} {r : Ex × CSt}, GStep C v st r → ∀ i, (r.1.sig C i : ZMod (C.F i)) = v i := by
    intro v r hs i
    rw [(exact_point hC r.1 (hs.good.2 he) hs.good.1 i).2, hs.point he i]
  refine ⟨?_, ?_, ?_, ?_, ?_⟩
  · obtain ⟨r, e, hs⟩ := add_good hC h hx' hy'
    exact ⟨r, e, fun i => by rw [key hs i, (px i).2, (py i).2]⟩
  · obtain ⟨r, e, hs⟩ := sub_good hC h hx' hy'
    exact ⟨r, e, fun i => by rw [key hs i, (px i).2, (py i).2]⟩
  · obtain ⟨r, e, hs⟩ := mul_good hC h hx' hy'
    exact ⟨r, e, fun i => by rw [key hs i, (px i).2, (py i).2]⟩
  · obtain ⟨r, e, hs⟩ := neg_good hC h hx'
    exact ⟨r, e, fun i => by rw [key hs i, (px i).2]⟩
  · obtain ⟨r, e, hs⟩ := div_good hC ha0 ha1 ha2 h hx'
    refine ⟨r, e, fun i => ?_⟩
    have hfact : Fact (C.F i).Prime := ⟨Fprime hC i⟩
    rw [key hs i, (px i).2]
    have hne : (a : ZMod (C.F i)) ≠ 0 := by
      rw [Ne, ZMod.intCast_zmod_eq_zero_iff_dvd]
      intro hdvd
      have := F31 hC i
      rcases lt_or_gt_of_ne ha0 with h0 | h0
      · have := Int.le_of_dvd (by omega) ((dvd_neg).mpr hdvd); omega
      · have := Int.le_of_dvd h0 hdvd; omega
    field_simp

/-- A hash for the examples. -/
def exampleCfg : Cfg := ⟨Sig.Spec.moduli, fun _ l => fun i => (l.map fun s => s i + 12345).sum % Sig.Spec.moduli i⟩

theorem exampleCfg_ok : exampleCfg.Ok :=
  ⟨rfl, fun _ _ i => Nat.mod_lt _ (by have := Sig.moduli_range i; omega)⟩

/-- `(x + y) * (x + y)` divided by three, then the same negated. -/
def exampleOps : List Op :=
  [.var "x" ![1001, 1002, 1003, 1004], .var "y" ![2001, 2002, 2003, 2004], .add 0 1, .add 0 1, .mul 2 3, .div 4 3, .neg 5, .sub 2 6]

example : ∃ rs st, run exampleCfg true exampleOps = .ok (rs, st) ∧ rs.length = 8 := by
  obtain ⟨rs, st, h, hl, _⟩ := C40_signatures exampleCfg_ok exampleOps (by
    intro op hop
    simp only [exampleOps, List.mem_cons, List.not_mem_nil, or_false] at hop
    rcases hop with rfl | rfl | rfl | rfl | rfl | rfl | rfl | rfl <;> simp only [InRange] <;> decide +kernel)
  exact ⟨rs, st, h, hl⟩

theorem lookup_slow {C : Cfg} {e : Ex} (h : e.fast = false) (st : CSt) : lookup C e st =
    pick C e { st with met := e :: st.met } (Sig.unsmall C.F (e.sig C)) (st.table.find? (fun p => ∀ i, p.1 i = e.sig C i)) := by
  unfold lookup; rw [h, if_neg (by simp)]

theorem cse_inexact {C : Cfg} {e : Ex} {st : CSt} (h : st.exact = false) : cse C e st = lookup C (e.withSig (e.arb C)) st := by
  unfold cse; rw [h, if_neg (by simp)]

theorem add_slow {C : Cfg} {x y : Ex} (hx : x.isZero = false) (hy : y.isZero = false) (hux : x.unneg = .ok none)
    (huy : y.unneg = .ok none) (st : CSt) : add C x y st = .ok (cse C (.add x y (Sig.sadd C.F (x.sig C) (y.sig C))) st) := by
  rw [add, hx, if_neg (by simp), hy, if_neg (by simp)]
  split
  · rename_i e he; rw [hux] at he; simp at he
  · rename_i e he; rw [hux] at he; simp at he
  · split
    · rename_i e he; rw [huy] at he; simp at he
    · rename_i e he; rw [huy] at he; simp at he
    · rfl

theorem sub_slow {C : Cfg} {x y : Ex} (hx : x.isZero = false) (hy : y.isZero = false) (hux : x.unneg = .ok none)
    (huy : y.unneg = .ok none) (st : CSt) : sub C x y st = .ok (cse C (.sub x y (Sig.ssub C.F (x.sig C) (y.sig C))) st) := by
  rw [sub, hx, if_neg (by simp), hy, if_neg (by simp)]
  split
  · rename_i e he; rw [hux] at he; simp at he
  · rename_i e he; rw [hux] at he; simp at he
  · split
    · rename_i e he; rw [huy] at he; simp at he
    · rename_i e he; rw [huy] at he; simp at he
    · rfl

theorem runFrom_cons {C : Cfg} {op : Op} {ops : List Op} {rs : List Ex} {st : CSt} {r : Ex × CSt} (h : op.exec C rs st = .ok r) :
    runFrom C (op :: ops) rs st = runFrom C ops (rs ++ [r.1]) r.2 := by
  rw [runFrom, h]

theorem run_two {C : Cfg} {s t : Sg} {r2 r3 : Ex × CSt} (h2 : add C (.var "x" s) (.var "y" t) ⟨false, [], []⟩ = .ok r2)
    (h3 : sub C (.var "x" s) (.var "y" t) r2.2 = .ok r3) :
    run C false [.var "x" s, .var "y" t, .add 0 1, .sub 0 1] = .ok ([.var "x" s, .var "y" t, r2.1, r3.1], r3.2) := by
  have e2 := runFrom_cons (op := .add 0 1) (ops := [.sub 0 1]) (rs := [.var "x" s, .var "y" t]) (st := ⟨false, [], []⟩) (r := r2) h2
  have e3 := runFrom_cons (op := .sub 0 1) (ops := []) (rs := [.var "x" s, .var "y" t, r2.1]) (st := r2.2) (r := r3) h3
  unfold run
  rw [runFrom_cons (r := (.var "x" s, ⟨false, [], []⟩)) rfl, runFrom_cons (r := (.var "y" t, ⟨false, [], []⟩)) rfl]
  exact e2.trans e3

/-- C40: without exact arithmetic the sum and the difference of the same operands are confused: whatever the hash, after `x + y`
the request `x - y` returns something with another value. -/
theorem C40_inexact_confused (C : Cfg) (s t : Sg) :
    ∃ rs st, run C false [.var "x" s, .var "y" t, .add 0 1, .sub 0 1] = .ok (rs, st) ∧
      ∃ ρ : Interp ℤ, ρ.DivOk ∧ rs.map (Ex.val ρ) ≠ values ρ [.var "x" s, .var "y" t, .add 0 1, .sub 0 1] [] := by
  have hu : ∀ u, (Ex.var "x" u).unneg = .ok none := fun _ => rfl
  have hz : ∀ (v : String) (u : Sg), (Ex.var v u).isZero = false := fun _ _ => by simp [Ex.isZero, Ex.unint]
  have hadd : ∀ st : CSt, add C (.var "x" s) (.var "y" t) st = .ok (cse C (.add (.var "x" s) (.var "y" t) (Sig.sadd C.F s t)) st) := by
    intro st; exact add_slow (hz _ _) (hz _ _) rfl rfl st
  have hsub : ∀ st : CSt, sub C (.var "x" s) (.var "y" t) st = .ok (cse C (.sub (.var "x" s) (.var "y" t) (Sig.ssub C.F s t)) st) := by
    intro st; exact sub_slow (hz _ _) (hz _ _) rfl rfl st
  set h : Sg := C.H none [s, t] with hh
  let mk (a b : ℤ) : Interp ℤ := ⟨fun v => if v = "x" then a else b, fun _ x => x, fun _ _ => 0, fun _ => 0, fun x n => x * n⟩
  have hmk : ∀ a b, (mk a b).DivOk := fun a b => ⟨fun x => by simp [mk], fun x n => by simp [mk], fun x n => by simp [mk]⟩
  have hc1 : cse C (.add (.var "x" s) (.var "y" t) (Sig.sadd C.F s t)) ⟨false, [], []⟩ =
      pick C (.add (.var "x" s) (.var "y" t) h) ⟨false, [], [.add (.var "x" s) (.var "y" t) h]⟩ (Sig.unsmall C.F h) none := by
    rw [cse_inexact rfl, lookup_slow rfl]
    simp only [Ex.withSig, Ex.arb, Ex.sig, ← hh, List.find?_nil]
  have hc2 : ∀ st : CSt, st.exact = false → cse C (.sub (.var "x" s) (.var "y" t) (Sig.ssub C.F s t)) st =
      pick C (.sub (.var "x" s) (.var "y" t) h) { st with met := .sub (.var "x" s) (.var "y" t) h :: st.met } (Sig.unsmall C.F h)
        (st.table.find? fun p => decide (∀ i, p.1 i = h i)) := by
    intro st he
    rw [cse_inexact he, lookup_slow rfl]
    simp only [Ex.withSig, Ex.arb, Ex.sig, ← hh]
  obtain ⟨r2, hr2⟩ : ∃ r2, r2 = cse C (.add (.var "x" s) (.var "y" t) (Sig.sadd C.F s t)) ⟨false, [], []⟩ := ⟨_, rfl⟩
  obtain ⟨r3, hr3⟩ : ∃ r3, r3 = cse C (.sub (.var "x" s) (.var "y" t) (Sig.ssub C.F s t)) r2.2 := ⟨_, rfl⟩
  have hrun := run_two (C := C) (s := s) (t := t) ((hadd _).trans (congrArg _ hr2.symm)) ((hsub _).trans (congrArg _ hr3.symm))
  rw [hc1] at hr2
  revert hr2 hc2
  generalize Sig.unsmall C.F h = small
  intro hc2 hr2
  cases small with
  | some n =>
    refine ⟨_, _, hrun, mk 0 (n + 1), hmk _ _, ?_⟩
    rw [hc2 r2.2 (by rw [hr2]; rfl)] at hr3
    rw [hr3, hr2]
    simp [pick, values, want, Ex.val, mk]
  | none =>
    refine ⟨_, _, hrun, mk 0 1, hmk _ _, ?_⟩
    rw [hc2 r2.2 (by rw [hr2]; rfl)] at hr3
    rw [hr3, hr2]
    simp [pick, values, want, Ex.val, mk, Ex.sig]

/-! ## C39 -/

/-- C39: apart from confusions of signatures the simplifications are exact: the results of a history have the requested values
in every commutative ring, for all values of the variables and all meanings of the calls. -/
theorem C39_simplify {C : Cfg} {exact : Bool} (ops : List Op) {rs : List Ex} {st : CSt} (hr : run C exact ops = .ok (rs, st))
    (hc : Distinct C st.met) (R : Type) [CommRing R] (ρ : Interp R) (hd : ρ.DivOk) : rs.map (Ex.val ρ) = values ρ ops [] :=
  C40_histories hd ops hr ⟨fun e he e' he' hs => by rw [hc.1 e he e' he' hs], fun e he n hn => by rw [hc.2 e he] at hn; simp at hn⟩

/-- C39: no request in the domain fails, in either mode. -/
theorem C39_total {C : Cfg} (hC : C.Ok) (exact : Bool) (ops : List Op) (ho : ∀ op ∈ ops, InRange C.F op) :
    ∃ rs st, run C exact ops = .ok (rs, st) := by
  obtain ⟨rs, st, e, _⟩ := runFrom_good hC ops (rs := []) (st := ⟨exact, [], []⟩) (fun p hp => by simp at hp)
    (fun p hp => by simp at hp) ho
  exact ⟨rs, st, e⟩

/-- C39: division by zero is refused. -/
theorem C39_div_zero (C : Cfg) (x : Ex) (st : CSt) : div C x 0 st = .error .assertion := by
  unfold div
  simp only [slowAssert, ne_eq, not_true_eq_false, if_false, berr]

/-- C39: the smallest `int` cannot be negated, and so not subtracted from zero or added to another expression. -/
theorem C39_int_min (C : Cfg) (y : Ex) (hy : y.isZero = false) (st : CSt) :
    neg C (.int (-2 ^ 31)) st = .error .ub ∧ sub C (.int 0) (.int (-2 ^ 31)) st = .error .ub ∧
      add C (.int (-2 ^ 31)) y st = .error .ub := by
  have h1 : neg C (.int (-2 ^ 31)) st = .error .ub := by
    unfold neg; simp only [Ex.unint, negInt, if_true, berr]
  refine ⟨h1, ?_, ?_⟩
  · rw [sub, if_pos (by simp [Ex.isZero, Ex.unint]), h1]
  · rw [add, if_neg (by simp [Ex.isZero, Ex.unint]), if_neg (by rw [hy]; simp)]
    split
    · rename_i e he
      simp [Ex.unneg, negInt, Except.map] at he
      rw [he]
    · rename_i nx he; simp [Ex.unneg, negInt, Except.map] at he
    · rename_i he; simp [Ex.unneg, negInt, Except.map] at he

/-- C39: zero, one and double negations disappear, and nothing is entered into the table for them. -/
theorem C39_units (C : Cfg) (x : Ex) (st : CSt) :
    add C (.int 0) x st = .ok (x, st) ∧ add C x (.int 0) st = .ok (x, st) ∧ sub C x (.int 0) st = .ok (if x.isZero then .int 0 else x, st) ∧
    mul C (.int 0) x st = .ok (.int 0, st) ∧ mul C x (.int 0) st = .ok (.int 0, st) ∧ div C x 1 st = .ok (x, st) ∧
    (∀ s, neg C (.neg x s) st = .ok (x, st)) := by
  have hz : (Ex.int 0).isZero = true := by simp [Ex.isZero, Ex.unint]
  refine ⟨by rw [add, if_pos hz], ?_, ?_, by rw [mul, if_pos (by simp [hz])], by rw [mul, if_pos (by simp [hz])], ?_, ?_⟩
  · rw [add]
    by_cases h : x.isZero = true
    · rw [if_pos h, isZero_eq h]
    · rw [if_neg h, if_pos hz]
  · rw [sub]
    by_cases h : x.isZero = true
    · rw [if_pos h, if_pos h]; simp [neg, Ex.unint, negInt, bok, pok]
    · rw [if_neg h, if_pos hz, if_neg h]
  · unfold div; rw [slowAssert_true (by norm_num), bok, if_pos rfl, pok]
  · intro s; simp [neg, Ex.unint, Ex.unneg, bok, pok]

/-- C39: one times something that is not a negation. -/
theorem C39_one (C : Cfg) (x : Ex) (hx : x.unneg = .ok none) (st : CSt) :
    mul C (.int 1) x st = .ok (x, st) ∧ mul C x (.int 1) st = .ok (x, st) := by
  have h1 : (Ex.int 1).unneg = .ok none := by simp [Ex.unneg]
  have ho : (Ex.int 1).isOne = true := by simp [Ex.isOne, Ex.unint]
  have hz : (Ex.int 1).isZero = false := by simp [Ex.isZero, Ex.unint]
  constructor
  · rw [mul]
    by_cases h : x.isZero = true
    · rw [if_pos (by simp [h]), isZero_eq h]
    rw [if_neg (by simp [h, hz])]
    split
    · rename_i e he; rw [h1] at he; simp at he
    · rename_i e he; rw [h1] at he; simp at he
    · split
      · rename_i e he; rw [hx] at he; simp at he
      · rename_i e he; rw [hx] at he; simp at he
      · rw [if_pos ho]
  · rw [mul]
    by_cases h : x.isZero = true
    · rw [if_pos (by simp [h]), isZero_eq h]
    rw [if_neg (by simp [h, hz])]
    split
    · rename_i e he; rw [hx] at he; simp at he
    · rename_i e he; rw [hx] at he; simp at he
    · split
      · rename_i e he; rw [h1] at he; simp at he
      · rename_i e he; rw [h1] at he; simp at he
      · by_cases h2 : x.isOne = true
        · rw [if_pos h2, isOne_eq h2]
        · rw [if_neg h2, if_pos ho]

/-- An example for the two theorems on histories: `x + y` requested twice is met twice and found the second time. -/
example : ∃ rs st, run exampleCfg true [.var "x" ![1001, 1002, 1003, 1004], .var "y" ![2001, 2002, 2003, 2004], .add 0 1, .add 0 1] =
    .ok (rs, st) ∧ Distinct exampleCfg st.met ∧ st.met.length = 2 ∧ st.table.length = 1 ∧
      rs.map (Ex.val (fieldInterp fun v => if v = "x" then (5 : ℚ) else 7)) = [5, 7, 12, 12] := by
  set s : Sg := ![1001, 1002, 1003, 1004]
  set t : Sg := ![2001, 2002, 2003, 2004]
  have hz : ∀ (v : String) (u : Sg), (Ex.var v u).isZero = false := fun _ _ => by simp [Ex.isZero, Ex.unint]
  obtain ⟨e, he⟩ : ∃ e, e = Ex.add (.var "x" s) (.var "y" t) (Sig.sadd exampleCfg.F s t) := ⟨_, rfl⟩
  have hs : e.sig exampleCfg = Sig.sadd exampleCfg.F s t := by rw [he]; rfl
  have hu : Sig.unsmall exampleCfg.F (e.sig exampleCfg) = none := by rw [hs]; decide +kernel
  have hf : e.fast = false := by rw [he]; rfl
  have h1 : ∀ st, add exampleCfg (.var "x" s) (.var "y" t) st = .ok (cse exampleCfg e st) := by
    intro st; rw [he]; exact add_slow (hz _ _) (hz _ _) rfl rfl st
  have c1 : cse exampleCfg e ⟨true, [], []⟩ = (e, ⟨true, [(e.sig exampleCfg, e)], [e]⟩) := by
    unfold cse; rw [if_pos rfl, lookup_slow hf, hu]; rfl
  have c2 : cse exampleCfg e ⟨true, [(e.sig exampleCfg, e)], [e]⟩ = (e, ⟨true, [(e.sig exampleCfg, e)], [e, e]⟩) := by
    unfold cse; rw [if_pos rfl, lookup_slow hf, hu]; simp [pick]
  have e2 := runFrom_cons (C := exampleCfg) (op := .add 0 1) (ops := [.add 0 1]) (rs := [.var "x" s, .var "y" t])
    (st := ⟨true, [], []⟩) (r := (e, ⟨true, [(e.sig exampleCfg, e)], [e]⟩)) ((h1 _).trans (congrArg _ c1))
  have e3 := runFrom_cons (C := exampleCfg) (op := .add 0 1) (ops := []) (rs := [.var "x" s, .var "y" t, e])
    (st := ⟨true, [(e.sig exampleCfg, e)], [e]⟩) (r := (e, ⟨true, [(e.sig exampleCfg, e)], [e, e]⟩)) ((h1 _).trans (congrArg _ c2))
  have hr : run exampleCfg true [.var "x" s, .var "y" t, .add 0 1, .add 0 1] =
      .ok ([.var "x" s, .var "y" t, e, e], ⟨true, [(e.sig exampleCfg, e)], [e, e]⟩) := by
    unfold run
    rw [runFrom_cons (r := (.var "x" s, ⟨true, [], []⟩)) rfl, runFrom_cons (r := (.var "y" t, ⟨true, [], []⟩)) rfl]
    exact e2.trans e3
  have hd : Distinct exampleCfg [e, e] := by
    constructor
    · intro a ha b hb _
      simp only [List.mem_cons, List.not_mem_nil, or_false, or_self] at ha hb
      rw [ha, hb]
    · intro a ha
      simp only [List.mem_cons, List.not_mem_nil, or_false, or_self] at ha
      rw [ha]; exact hu
  refine ⟨_, _, hr, hd, rfl, rfl, ?_⟩
  rw [C39_simplify _ hr hd ℚ _ (fieldInterp_divOk _)]
  norm_num [values, want, fieldInterp, show ¬("y" : String) = "x" by decide]

/-! ## C54 -/

namespace Spec

open Sig.Spec (Term)

/-- Degree bound of an expression. -/
def degree : Term → ℕ
  | .lit _ => 0
  | .var _ => 1
  | .neg a => degree a
  | .add a b => max (degree a) (degree b)
  | .sub a b => max (degree a) (degree b)
  | .mul a b => degree a + degree b

/-- The expression as a polynomial modulo `p` in the variables below `n`; other variables are zero. -/
noncomputable def poly (n p : ℕ) (t : Term) : MvPolynomial (Fin n) (ZMod p) :=
  t.val fun k => if h : k < n then MvPolynomial.X ⟨k, h⟩ else 0

/-- The signatures of the variables, from a choice of residues. -/
def choice {n : ℕ} {F : Sg} (x : (i : Fin 4) → Fin n → Fin (F i)) (k : ℕ) : Sg :=
  fun i => if h : k < n then (x i ⟨k, h⟩ : ℕ) else 0

end Spec

open Sig.Spec (Term)

theorem poly_degree (n p : ℕ) (t : Term) : (poly n p t).totalDegree ≤ degree t := by
  unfold poly
  induction t with
  | lit a =>
    rw [Term.val, show ((a : ℤ) : MvPolynomial (Fin n) (ZMod p)) = MvPolynomial.C (a : ZMod p) by simp, MvPolynomial.totalDegree_C]
    exact Nat.zero_le _
  | var k =>
    rw [Term.val]
    split_ifs with h
    · rcases subsingleton_or_nontrivial (ZMod p) with _ | _
      · rw [Subsingleton.elim (MvPolynomial.X _ : MvPolynomial (Fin n) (ZMod p)) 0]; simp
      · rw [MvPolynomial.totalDegree_X]; rfl
    · simp
  | neg a ih => rw [Term.val, MvPolynomial.totalDegree_neg]; exact ih
  | add a b iha ihb => exact (MvPolynomial.totalDegree_add _ _).trans (max_le_max iha ihb)
  | sub a b iha ihb => exact (MvPolynomial.totalDegree_sub _ _).trans (max_le_max iha ihb)
  | mul a b iha ihb => exact (MvPolynomial.totalDegree_mul _ _).trans (add_le_add iha ihb)

theorem poly_eval {n p : ℕ} (t : Term) (x : Fin n → ZMod p) :
    MvPolynomial.eval x (poly n p t) = t.val fun k => if h : k < n then x ⟨k, h⟩ else 0 := by
  unfold poly
  induction t with
  | lit a => simp [Term.val]
  | var k => rw [Term.val, Term.val]; split_ifs <;> simp
  | neg a ih => rw [Term.val, Term.val, map_neg, ih]
  | add a b iha ihb => rw [Term.val, Term.val, map_add, iha, ihb]
  | sub a b iha ihb => rw [Term.val, Term.val, map_sub, iha, ihb]
  | mul a b iha ihb => rw [Term.val, Term.val, map_mul, iha, ihb]

/-- C54: two expressions in `n` variables that differ modulo each of the four primes get the same signature for at most the
product of the `degree / p` of all choices of the signatures of the variables. -/
theorem C54_collisions {n : ℕ} {t u : Term} (ht : t.Int32) (hu : u.Int32)
    (hne : ∀ i, poly n (Sig.Spec.moduli i) t ≠ poly n (Sig.Spec.moduli i) u) :
    (Fintype.card {x : (i : Fin 4) → Fin n → Fin (Sig.Spec.moduli i) //
      t.sig Sig.Spec.moduli (choice x) = u.sig Sig.Spec.moduli (choice x)} : ℚ≥0) /
      Fintype.card ((i : Fin 4) → Fin n → Fin (Sig.Spec.moduli i)) ≤
    ∏ i, ((max (degree t) (degree u) : ℕ) : ℚ≥0) / (Sig.Spec.moduli i : ℕ) := by
  have hp : ∀ i, 0 < Sig.Spec.moduli i := fun i => (Sig.moduli_prime i).pos
  have inst : ∀ i, NeZero (Sig.Spec.moduli i) := fun i => ⟨(hp i).ne'⟩
  have instp : ∀ i, Fact (Sig.Spec.moduli i).Prime := fun i => ⟨Sig.moduli_prime i⟩
  have h31 : ∀ i, 2 ^ 31 ≤ Sig.Spec.moduli i := fun i => by have := Sig.moduli_range i; omega
  have h64 : ∀ i, Sig.Spec.moduli i < 2 ^ 64 := fun i => (Sig.moduli_range i).2
  let A (i : Fin 4) : Finset (Fin n → ZMod (Sig.Spec.moduli i)) :=
    {f ∈ Fintype.piFinset fun _ => Finset.univ | MvPolynomial.eval f (poly n (Sig.Spec.moduli i) t - poly n (Sig.Spec.moduli i) u) = 0}
  have hA : ∀ i, ((A i).card : ℚ≥0) / (Sig.Spec.moduli i : ℚ≥0) ^ n ≤
      ((max (degree t) (degree u) : ℕ) : ℚ≥0) / (Sig.Spec.moduli i : ℕ) := by
    intro i
    have := MvPolynomial.schwartz_zippel_totalDegree (sub_ne_zero.mpr (hne i)) (Finset.univ : Finset (ZMod (Sig.Spec.moduli i)))
    rw [Finset.card_univ, ZMod.card] at this
    refine this.trans ?_
    gcongr
    exact (MvPolynomial.totalDegree_sub _ _).trans (max_le_max (poly_degree _ _ _) (poly_degree _ _ _))
  have hx : ∀ (x : (i : Fin 4) → Fin n → Fin (Sig.Spec.moduli i)) k i, choice x k i < Sig.Spec.moduli i := by
    intro x k i
    unfold choice
    split_ifs
    · exact (x i _).2
    · exact hp i
  have hev : ∀ (x : (i : Fin 4) → Fin n → Fin (Sig.Spec.moduli i)) (e : Term), e.Int32 → ∀ i,
      (e.sig Sig.Spec.moduli (choice x) i : ZMod (Sig.Spec.moduli i)) =
        MvPolynomial.eval (fun k => ((x i k : ℕ) : ZMod (Sig.Spec.moduli i))) (poly n (Sig.Spec.moduli i) e) := by
    intro x e he i
    rw [(Sig.C36_expressions h31 h64 (hx x) e he i).2, poly_eval]
    congr 1
    funext k
    unfold choice
    split_ifs <;> simp
  have hcard : Fintype.card {x : (i : Fin 4) → Fin n → Fin (Sig.Spec.moduli i) //
      t.sig Sig.Spec.moduli (choice x) = u.sig Sig.Spec.moduli (choice x)} ≤ ∏ i, (A i).card := by
    have := Fintype.card_le_of_injective
      (fun (x : {x : (i : Fin 4) → Fin n → Fin (Sig.Spec.moduli i) //
        t.sig Sig.Spec.moduli (choice x) = u.sig Sig.Spec.moduli (choice x)}) (i : Fin 4) =>
        (⟨fun k => ((x.1 i k : ℕ) : ZMod (Sig.Spec.moduli i)), by
          simp only [A, Finset.mem_filter, Fintype.mem_piFinset, Finset.mem_univ, implies_true, true_and]
          rw [map_sub, ← hev x.1 t ht i, ← hev x.1 u hu i, x.2, sub_self]⟩ : A i)) (by
        intro x y h
        apply Subtype.ext
        funext i k
        have h1 := congrArg Subtype.val (congrFun h i)
        have h2 := congrFun h1 k
        simp only at h2
        rw [ZMod.natCast_eq_natCast_iff', Nat.mod_eq_of_lt (x.1 i k).2, Nat.mod_eq_of_lt (y.1 i k).2] at h2
        exact Fin.ext h2)
    rw [Fintype.card_pi] at this
    simpa only [Fintype.card_coe] using this
  have htot : Fintype.card ((i : Fin 4) → Fin n → Fin (Sig.Spec.moduli i)) = ∏ i, Sig.Spec.moduli i ^ n := by
    rw [Fintype.card_pi]
    simp only [Fintype.card_fun, Fintype.card_fin]
  rw [htot]
  calc (Fintype.card {x : (i : Fin 4) → Fin n → Fin (Sig.Spec.moduli i) //
        t.sig Sig.Spec.moduli (choice x) = u.sig Sig.Spec.moduli (choice x)} : ℚ≥0) / ((∏ i, Sig.Spec.moduli i ^ n : ℕ) : ℚ≥0)
      ≤ ((∏ i, (A i).card : ℕ) : ℚ≥0) / ((∏ i, Sig.Spec.moduli i ^ n : ℕ) : ℚ≥0) := by gcongr
    _ = ∏ i, ((A i).card : ℚ≥0) / (Sig.Spec.moduli i : ℚ≥0) ^ n := by push_cast; rw [Finset.prod_div_distrib]
    _ ≤ _ := Finset.prod_le_prod (fun _ _ => zero_le) (fun i _ => hA i)

/-- C54: for expressions of degree up to 8192 that is at most one in `2^200`. -/
theorem C54_rare {n : ℕ} {t u : Term} (ht : t.Int32) (hu : u.Int32) (hdt : degree t ≤ 2 ^ 13) (hdu : degree u ≤ 2 ^ 13)
    (hne : ∀ i, poly n (Sig.Spec.moduli i) t ≠ poly n (Sig.Spec.moduli i) u) :
    (Fintype.card {x : (i : Fin 4) → Fin n → Fin (Sig.Spec.moduli i) //
      t.sig Sig.Spec.moduli (choice x) = u.sig Sig.Spec.moduli (choice x)} : ℚ≥0) /
      Fintype.card ((i : Fin 4) → Fin n → Fin (Sig.Spec.moduli i)) ≤ 1 / 2 ^ 200 := by
  refine (C54_collisions ht hu hne).trans ?_
  calc ∏ i, ((max (degree t) (degree u) : ℕ) : ℚ≥0) / (Sig.Spec.moduli i : ℕ)
      ≤ ∏ _i : Fin 4, (1 / 2 ^ 50 : ℚ≥0) := by
        refine Finset.prod_le_prod (fun _ _ => zero_le) fun i _ => ?_
        have h1 : ((max (degree t) (degree u) : ℕ) : ℚ≥0) ≤ (2 ^ 13 : ℕ) := Nat.cast_le.mpr (max_le hdt hdu)
        have h2 : ((2 ^ 63 : ℕ) : ℚ≥0) ≤ (Sig.Spec.moduli i : ℕ) :=
          Nat.cast_le.mpr (by have := Sig.moduli_range i; omega)
        calc ((max (degree t) (degree u) : ℕ) : ℚ≥0) / (Sig.Spec.moduli i : ℕ) ≤ (2 ^ 13 : ℕ) / (2 ^ 63 : ℕ) := by gcongr
          _ = 1 / 2 ^ 50 := by norm_num
    _ = 1 / 2 ^ 200 := by rw [Finset.prod_const, Finset.card_univ, Fintype.card_fin]; norm_num

example (i : Fin 4) : poly 2 (Sig.Spec.moduli i) (.mul (.var 0) (.var 1)) ≠ poly 2 (Sig.Spec.moduli i) (.sub (.var 0) (.lit 3)) := by
  have hf : Fact (Sig.Spec.moduli i).Prime := ⟨Sig.moduli_prime i⟩
  intro h
  have h1 := congrArg (MvPolynomial.eval ![(4 : ZMod (Sig.Spec.moduli i)), 0]) h
  rw [poly_eval, poly_eval] at h1
  norm_num [Term.val] at h1

end Mandelbrot.Sym
