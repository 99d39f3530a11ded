import Verif.Sym.BlockLemmas
import Verif.Sym.Exact
import Verif.Sym.Within
import Mathlib.Algebra.BigOperators.Intervals

/-!
# Model of `mul_bases` in /repo/codelets.cc: the generated base cases of multiplication and squaring

The generator runs on expressions and a block, and writes lines of code.  The lines are run on one memory, so that the operands
may overlap the result in any way.
-/

namespace Mandelbrot.Sym

open Sig (Sg)
open Spec

/-- A line of the generated function. -/
inductive Line where
  /-- /repo/codelets.cc 322: `if (nz <= i) return;` -/
  | exit (i : ℕ)
  /-- /repo/codelets.cc 317: `const auto v = i < nx ? x[i] : S(0);`, or the same with `y` -/
  | load (v : String) (second : Bool) (i : ℕ)
  /-- /repo/codelets.cc 146: `const auto v = e;` -/
  | temp (v : String) (e : Ex)
  /-- /repo/codelets.cc 342, 366: `z[i] = e;` -/
  | store (i : ℕ) (e : Ex)

/-- /repo/codelets.cc 327, 349: the arguments of the generated functions, with pointers as addresses. -/
structure BaseArgs where
  z : ℕ
  nz : ℤ
  x : ℕ
  nx : ℤ
  y : ℕ
  ny : ℤ

/-- Runs lines; `env` are the values of the local names. -/
def execLines {R : Type} [CommRing R] (ρ : Interp R) (a : BaseArgs) : List Line → (String → R) → (ℕ → R) → (ℕ → R)
  | [], _, mem => mem
  | .exit i :: l, env, mem => if a.nz ≤ i then mem else execLines ρ a l env mem
  | .load v second i :: l, env, mem =>
    execLines ρ a l (Function.update env v
      (if second then (if (i : ℤ) < a.ny then mem (a.y + i) else 0) else (if (i : ℤ) < a.nx then mem (a.x + i) else 0))) mem
  | .temp v e :: l, env, mem => execLines ρ a l (Function.update env v (e.val (withVar ρ env))) mem
  | .store i e :: l, env, mem => execLines ρ a l env (Function.update mem (a.z + i) (e.val (withVar ρ env)))

/-- /repo/codelets.cc 315-319: the name of an input. -/
def inName (second : Bool) (i : ℕ) : String := (if second then "y" else "x") ++ toString i

/-- The lines for what a block wrote: the first `n` declarations load `x`, the others `y`; `/repo/codelets.cc` 337 writes an
early exit at the start of every round but the first, which is after the store of the round before. -/
def toLines (n : ℕ) : ℕ → ℕ → List Item → List Line
  | _, _, [] => []
  | d, k, .decl v :: l => .load v (decide (n ≤ d)) (if n ≤ d then d - n else d) :: toLines n (d + 1) k l
  | d, k, .def v e :: l => .temp v e :: toLines n d k l
  | d, k, .out e :: l => .store k e :: (if k + 1 < n then [Line.exit (k + 1)] else []) ++ toLines n d (k + 1) l

/-- /repo/codelets.cc 338-340: the products for one coefficient. -/
def products (C : Cfg) (p : List (Ex × Ex)) (st : CSt) : Res (List Ex × CSt) :=
  match p with
  | [] => .ok ([], st)
  | (a, b) :: l =>
    match mul C a b st with
    | .error e => .error e
    | .ok (t, st) => match products C l st with
      | .error e => .error e
      | .ok (ts, st) => .ok (t :: ts, st)

/-- /repo/codelets.cc 338-341: one coefficient of the product. -/
def mulCoef (C : Cfg) (x y : ℕ → Ex) (i : ℕ) (st : CSt) : Res (Ex × CSt) :=
  match products C ((List.range (i + 1)).map fun j => (x j, y (i - j))) st with
  | .error e => .error e
  | .ok (ts, st) => sum C ts st

/-- /repo/codelets.cc 359-364: one coefficient of the square. -/
def sqrCoef (C : Cfg) (x : ℕ → Ex) (i : ℕ) (st : CSt) : Res (Ex × CSt) :=
  match products C (((List.range (i + 1)).filter fun j => j < i - j).map fun j => (x j, x (i - j))) st with
  | .error e => .error e
  | .ok (ts, st) => match sum C ts st with
    | .error e => .error e
    | .ok (s, st) => match mul C (.int 2) s st with
      | .error e => .error e
      | .ok (t, st) =>
        if i % 2 = 0 then
          match mul C (x (i / 2)) (x (i / 2)) st with
          | .error e => .error e
          | .ok (q, st) => add C t q st
        else .ok (t, st)

/-- /repo/codelets.cc 336-343, 357-367: the coefficients `i` to `i + m - 1`.  The block does not change the table of common
subexpressions, so they are all built first here. -/
def coefs (coef : ℕ → CSt → Res (Ex × CSt)) : ℕ → ℕ → CSt → Res (List Ex × CSt)
  | _, 0, st => .ok ([], st)
  | i, m + 1, st =>
    match coef i st with
    | .error e => .error e
    | .ok (t, st) => match coefs coef (i + 1) m st with
      | .error e => .error e
      | .ok (ts, st) => .ok (t :: ts, st)

/-- What the block is asked to do: the inputs, then every coefficient is used and put out. -/
def baseActs (ins : List String) (ts : List Ex) : List Act := ins.map .input ++ ts.flatMap fun t => [.use t, .out t]

/-- /repo/codelets.cc 325-345: the generated `mul_base` for `n` coefficients; `s` are the random signatures of the inputs. -/
def mulBaseCode (C : Cfg) (n : ℕ) (s : Bool → ℕ → Sg) : Res (List Line × List Ex × CSt) :=
  match coefs (mulCoef C (fun j => .var (inName false j) (s false j)) fun j => .var (inName true j) (s true j)) 0 n ⟨true, [], []⟩ with
  | .error e => .error e
  | .ok (ts, st) =>
    match runActs C (baseActs ((List.range n).map (inName false) ++ (List.range n).map (inName true)) ts) Blk.empty with
    | .error e => .error e
    | .ok B => .ok (.exit 0 :: toLines n 0 0 B.code, ts, st)

/-- /repo/codelets.cc 347-369: the generated `sqr_base` for `n` coefficients. -/
def sqrBaseCode (C : Cfg) (n : ℕ) (s : ℕ → Sg) : Res (List Line × List Ex × CSt) :=
  match coefs (sqrCoef C fun j => .var (inName false j) (s j)) 0 n ⟨true, [], []⟩ with
  | .error e => .error e
  | .ok (ts, st) =>
    match runActs C (baseActs ((List.range n).map (inName false)) ts) Blk.empty with
    | .error e => .error e
    | .ok B => .ok (.exit 0 :: toLines n 0 0 B.code, ts, st)

/-! ## Names -/

theorem toString_inj {a b : ℕ} (h : toString a = toString b) : a = b := by
  have h1 : (toString a).toList = (toString b).toList := by rw [h]
  rw [Nat.toString_eq_repr, Nat.toString_eq_repr, Nat.toList_repr, Nat.toList_repr] at h1
  rw [← Nat.ofDigitChars_toDigits (b := 10) (n := a) (by norm_num) (by norm_num), h1,
    Nat.ofDigitChars_toDigits (by norm_num) (by norm_num)]

theorem inName_inj {p q : Bool} {i j : ℕ} (h : inName p i = inName q j) : p = q ∧ i = j := by
  have h1 : (inName p i).toList = (inName q j).toList := by rw [h]
  have hx : ("x" : String).toList = ['x'] := by decide
  have hy : ("y" : String).toList = ['y'] := by decide
  cases p <;> cases q <;> simp only [inName, String.toList_append, if_true, if_false, hx, hy, Bool.false_eq_true, List.cons_append,
    List.nil_append, List.cons.injEq] at h1
  · exact ⟨rfl, toString_inj (String.toList_inj.mp h1.2)⟩
  · exact absurd h1.1 (by decide)
  · exact absurd h1.1 (by decide)
  · exact ⟨rfl, toString_inj (String.toList_inj.mp h1.2)⟩

theorem inName_fresh (p : Bool) (i n : ℕ) : inName p i ≠ candidate "t" n := by
  intro h
  have h1 : (inName p i).toList = (candidate "t" n).toList := by rw [h]
  have hx : ("x" : String).toList = ['x'] := by decide
  have hy : ("y" : String).toList = ['y'] := by decide
  have ht : ("t" : String).toList = ['t'] := by decide
  have h2 := congrArg List.head? h1
  unfold candidate at h2
  cases p <;> by_cases hn : n = 0 <;> simp [inName, hn, String.toList_append, hx, hy, ht] at h2

/-! ## Running the lines -/

section
variable {R : Type} [CommRing R]

/-- Stores the values `os` from index `k` on, below `nz`. -/
def storeFrom (z : ℕ) (nz : ℤ) : ℕ → List R → (ℕ → R) → (ℕ → R)
  | _, [], mem => mem
  | k, o :: os, mem => if nz ≤ k then mem else storeFrom z nz (k + 1) os (Function.update mem (z + k) o)

omit [CommRing R] in
theorem storeFrom_stop {z : ℕ} {nz : ℤ} {k : ℕ} (h : nz ≤ k) (os : List R) (mem : ℕ → R) : storeFrom z nz k os mem = mem := by
  cases os with
  | nil => rfl
  | cons o os => rw [storeFrom, if_pos h]

theorem storeFrom_apply (z : ℕ) (nz : ℤ) : ∀ (os : List R) (k : ℕ) (mem : ℕ → R) (a : ℕ),
    storeFrom z nz k os mem a = if z + k ≤ a ∧ a < z + k + os.length ∧ (a : ℤ) < z + nz then os.getD (a - (z + k)) 0 else mem a := by
  intro os
  induction os with
  | nil => intro k mem a; simp only [storeFrom, List.length_nil]; rw [if_neg (by omega)]
  | cons o os ih =>
    intro k mem a
    simp only [storeFrom, List.length_cons]
    by_cases h : nz ≤ k
    · rw [if_pos h, if_neg (by omega)]
    · rw [if_neg h, ih]
      by_cases ha : a = z + k
      · subst ha
        rw [if_neg (by omega), if_pos (by omega), Function.update_self]; simp
      · rw [Function.update_of_ne ha]
        by_cases h2 : z + (k + 1) ≤ a ∧ a < z + (k + 1) + os.length ∧ (a : ℤ) < z + nz
        · rw [if_pos h2, if_pos (by omega)]
          have : a - (z + k) = (a - (z + (k + 1))) + 1 := by omega
          rw [this]; rfl
        · rw [if_neg h2, if_neg (by omega)]

/-- The number of expressions a piece of code puts out. -/
def outCount : List Item → ℕ
  | [] => 0
  | .out _ :: l => outCount l + 1
  | _ :: l => outCount l

theorem exec_rest (ρ : Interp R) (a : BaseArgs) (n d : ℕ) : ∀ (l : List Item) (k : ℕ) (env : String → R) (mem : ℕ → R),
    inputs l = [] → k + outCount l ≤ n → ((k : ℤ) < a.nz ∨ outCount l = 0) →
    execLines ρ a (toLines n d k l) env mem = storeFrom a.z a.nz k (outputs ρ l env) mem := by
  intro l
  induction l with
  | nil => intro k env mem _ _ _; rfl
  | cons i l ih =>
    intro k env mem hi hk hn
    cases i with
    | decl v => simp [inputs] at hi
    | «def» v e =>
      simp only [toLines, execLines, outputs]
      exact ih k _ mem hi hk hn
    | out e =>
      simp only [outCount] at hk hn
      have hn : (k : ℤ) < a.nz := hn.resolve_right (by omega)
      have hn' : ¬a.nz ≤ (k : ℤ) := by omega
      simp only [toLines, execLines, outputs, storeFrom, List.cons_append, if_neg hn']
      by_cases h1 : k + 1 < n
      · rw [if_pos h1]
        simp only [List.cons_append, List.nil_append, execLines]
        by_cases h2 : a.nz ≤ ((k + 1 : ℕ) : ℤ)
        · rw [if_pos h2, storeFrom_stop h2]
        · rw [if_neg h2]
          exact ih (k + 1) env _ hi (by omega) (Or.inl (by omega))
      · rw [if_neg h1, List.nil_append]
        exact ih (k + 1) env _ hi (by omega) (Or.inr (by omega))

/-- What the load number `d` reads. -/
def loadVal (a : BaseArgs) (mem : ℕ → R) (n d : ℕ) : R :=
  if n ≤ d then (if ((d - n : ℕ) : ℤ) < a.ny then mem (a.y + (d - n)) else 0) else (if (d : ℤ) < a.nx then mem (a.x + d) else 0)

/-- The names after the loads. -/
def loadEnv (a : BaseArgs) (mem : ℕ → R) (n : ℕ) : ℕ → List String → (String → R) → (String → R)
  | _, [], env => env
  | d, v :: l, env => loadEnv a mem n (d + 1) l (Function.update env v (loadVal a mem n d))

theorem exec_loads (ρ : Interp R) (a : BaseArgs) (n k : ℕ) : ∀ (ins : List String) (d : ℕ) (l : List Item) (env : String → R) (mem : ℕ → R),
    execLines ρ a (toLines n d k (ins.map .decl ++ l)) env mem =
      execLines ρ a (toLines n (d + ins.length) k l) (loadEnv a mem n d ins env) mem := by
  intro ins
  induction ins with
  | nil => intro d l env mem; rfl
  | cons v ins ih =>
    intro d l env mem
    simp only [List.map_cons, List.cons_append, toLines, execLines, loadEnv, List.length_cons]
    rw [ih, show d + 1 + ins.length = d + (ins.length + 1) by omega]
    congr 3
    unfold loadVal
    by_cases h : n ≤ d <;> simp [h]

theorem loadEnv_not_mem (a : BaseArgs) (mem : ℕ → R) (n : ℕ) : ∀ (ins : List String) (d : ℕ) (env : String → R) (v : String), v ∉ ins →
    loadEnv a mem n d ins env v = env v := by
  intro ins
  induction ins with
  | nil => intro d env v _; rfl
  | cons w ins ih =>
    intro d env v h
    rw [List.mem_cons, not_or] at h
    simp only [loadEnv]
    rw [ih _ _ v h.2, Function.update_of_ne h.1]

theorem loadEnv_get (a : BaseArgs) (mem : ℕ → R) (n : ℕ) : ∀ (ins : List String) (d : ℕ) (env : String → R), ins.Nodup →
    ∀ (i : ℕ) (h : i < ins.length), loadEnv a mem n d ins env ins[i] = loadVal a mem n (d + i) := by
  intro ins
  induction ins with
  | nil => intro d env _ i h; simp at h
  | cons w ins ih =>
    intro d env hn i h
    rw [List.nodup_cons] at hn
    simp only [loadEnv]
    cases i with
    | zero =>
      simp only [List.getElem_cons_zero, Nat.add_zero]
      rw [loadEnv_not_mem _ _ _ _ _ _ _ hn.1, Function.update_self]
    | succ i =>
      simp only [List.getElem_cons_succ]
      rw [ih (d + 1) _ hn.2 i (by simpa using h), show d + 1 + i = d + (i + 1) by omega]

/-- Declarations read the values of the interpretation; if that is what was loaded, nothing else changes. -/
theorem after_decls {ρ : Interp R} : ∀ (ins : List String) (env : String → R), (∀ v, v ∉ ins → env v = ρ.var v) →
    after ρ (ins.map .decl) env = ρ.var := by
  intro ins
  induction ins with
  | nil => intro env h; funext v; exact h v (by simp)
  | cons w ins ih =>
    intro env h
    simp only [List.map_cons, after]
    refine ih _ fun v hv => ?_
    by_cases hw : v = w
    · subst hw; rw [Function.update_self]
    · rw [Function.update_of_ne hw]; exact h v (by simp [hw, hv])

end

/-! ## The shape of the code -/

theorem outCount_append (a b : List Item) : outCount (a ++ b) = outCount a + outCount b := by
  induction a with
  | nil => simp [outCount]
  | cons i a ih => cases i <;> simp only [List.cons_append, outCount, ih]; omega

theorem outCount_outputs {R : Type} [CommRing R] (ρ : Interp R) : ∀ (l : List Item) env, (outputs ρ l env).length = outCount l := by
  intro l
  induction l with
  | nil => intro env; rfl
  | cons i l ih => intro env; cases i <;> simp [outputs, outCount, ih]

theorem runActs_append (C : Cfg) : ∀ (l m : List Act) (B : Blk), runActs C (l ++ m) B = runActs C l B >>= runActs C m := by
  intro l
  induction l with
  | nil => intro m B; rfl
  | cons a l ih =>
    intro m B
    simp only [List.cons_append, runActs]
    cases a.exec C B with
    | error e => rfl
    | ok B => exact ih m B

/-- Inputs write declarations only. -/
theorem runActs_inputs (C : Cfg) : ∀ (ins : List String) (B B' : Blk), runActs C (ins.map .input) B = .ok B' →
    B'.code = B.code ++ ins.map .decl := by
  intro ins
  induction ins with
  | nil => intro B B' h; simp only [List.map_nil, runActs, Except.ok.injEq] at h; subst h; simp
  | cons v ins ih =>
    intro B B' h
    simp only [List.map_cons, runActs, Act.exec, Blk.input] at h
    by_cases hv : v ∉ B.names
    · rw [slowAssert_true hv] at h
      have := ih _ _ h
      rw [this]; simp
    · rw [show slowAssert (v ∉ B.names) = .error .assertion by simp only [slowAssert, hv]; rfl] at h
      simp [bind, Except.bind] at h

theorem outCount_defs (l : List (String × Ex)) : outCount (l.map fun p => .def p.1 p.2) = 0 := by
  induction l with
  | nil => rfl
  | cons p l ih => simpa [outCount] using ih

/-- Without further inputs the code grows by temporaries and requested expressions. -/
theorem runActs_shape {R : Type} [CommRing R] {C : Cfg} {ρ : Interp R} {U : Ex → Prop}
    (hU : ∀ e e', U e → U e' → e.sig C = e'.sig C → e.val ρ = e'.val ρ) :
    ∀ (ts : List Ex) {B B' : Blk}, Inv C ρ U B → (∀ x ∈ ts, ∀ e ∈ x.subs, U e) → (∀ x ∈ ts, ∀ v ∈ x.vars, v ∈ inputs B.code) →
      runActs C (ts.flatMap fun t => [.use t, .out t]) B = .ok B' →
      ∃ more, B'.code = B.code ++ more ∧ inputs more = [] ∧ outCount more = ts.length := by
  intro ts
  induction ts with
  | nil => intro B B' _ _ _ hr; simp only [List.flatMap_nil, runActs, Except.ok.injEq] at hr; subst hr; exact ⟨[], by simp, rfl, rfl⟩
  | cons t ts ih =>
    intro B B' hi hs hv hr
    simp only [List.flatMap_cons, List.cons_append, List.nil_append, runActs, Act.exec] at hr
    have hi1 : Inv C ρ U (B.use C t) := ⟨hi.wf, hi.names, hi.inputs, hi.lets⟩
    cases hc : compute C t (B.use C t) with
    | error e => rw [hc] at hr; simp at hr
    | ok r =>
      obtain ⟨y, B1⟩ := r
      rw [hc] at hr
      simp only at hr
      have hst := compute_step hU t hi1 (hs t (by simp)) (hv t (by simp)) hc
      obtain ⟨l, hl⟩ := hst.ext
      have hl' : B1.code = B.code ++ l.map fun p => .def p.1 p.2 := hl
      have hi2 := (runActs_step hU [.out t] (B := B.use C t) (B' := { B1 with code := B1.code ++ [.out y] }) hi1
        (by simpa [requested] using hs t (by simp)) ⟨hv t (by simp), trivial⟩ (by simp [runActs, Act.exec, hc])).1
      obtain ⟨more, h1, h2, h3⟩ := ih hi2 (fun x hx => hs x (by simp [hx])) (fun x hx v hxv => by
        have := hv x (by simp [hx]) v hxv
        simp only [hl', inputs_append]
        exact List.mem_append_left _ (List.mem_append_left _ this)) hr
      refine ⟨(l.map fun p => .def p.1 p.2) ++ .out y :: more, ?_, ?_, ?_⟩
      · rw [h1]; simp [hl']
      · rw [inputs_append, inputs_defs]; simpa [inputs] using h2
      · rw [outCount_append, outCount_defs]; simp [outCount, h3]

section
variable {R : Type} [CommRing R]

/-- The generated lines store the values of the expressions at the loaded inputs. -/
theorem lines_spec {C : Cfg} {ρ : Interp R} {ins : List String} {ts : List Ex} {B : Blk} (a : BaseArgs) (n : ℕ) (mem : ℕ → R)
    (env : String → R) (hρ : ρ.var = loadEnv a mem n 0 ins env) (hv : ∀ t ∈ ts, ∀ v ∈ t.vars, v ∈ ins) (hlen : ts.length = n)
    (hc : ∀ x ∈ ts, ∀ x' ∈ ts, ∀ e ∈ x.subs, ∀ e' ∈ x'.subs, e.sig C = e'.sig C → e.val ρ = e'.val ρ)
    (hr : runActs C (baseActs ins ts) Blk.empty = .ok B) :
    execLines ρ a (.exit 0 :: toLines n 0 0 B.code) env mem = storeFrom a.z a.nz 0 (ts.map (Ex.val ρ)) mem := by
  have hU : ∀ e e', (∃ x ∈ ts, e ∈ x.subs) → (∃ x ∈ ts, e' ∈ x.subs) → e.sig C = e'.sig C → e.val ρ = e'.val ρ :=
    fun e e' ⟨x, hx, hxe⟩ ⟨x', hx', hxe'⟩ hs => hc x hx x' hx' e hxe e' hxe' hs
  have hI0 : Inv C ρ (fun e => ∃ x ∈ ts, e ∈ x.subs) Blk.empty :=
    ⟨trivial, fun v hv => by simp [Blk.empty, declared] at hv, fun env v hv => by simp [Blk.empty, Spec.inputs] at hv,
      fun s v hv => by simp [Blk.empty] at hv⟩
  have known_in : ∀ (l : List String) (D : List String), Known D (l.map Act.input) := by
    intro l
    induction l with
    | nil => intro D; trivial
    | cons v l ih => intro D; exact ih _
  have req_in : ∀ l : List String, requested (l.map Act.input) = [] := by
    intro l
    induction l with
    | nil => rfl
    | cons v l ih => exact ih
  have req_out : ∀ l : List Ex, requested (l.flatMap fun t => [Act.use t, Act.out t]) = l := by
    intro l
    induction l with
    | nil => rfl
    | cons v l ih => simp [requested, ih]
  have in_decls : ∀ l : List String, inputs (l.map Item.decl) = l := by
    intro l
    induction l with
    | nil => rfl
    | cons v l ih => simp [inputs, ih]
  have known_out : ∀ (l : List Ex) (D : List String), (∀ t ∈ l, ∀ v ∈ t.vars, v ∈ D) →
      Known D (l.flatMap fun t => [Act.use t, Act.out t]) := by
    intro l
    induction l with
    | nil => intro D _; trivial
    | cons t l ih =>
      intro D h
      simp only [List.flatMap_cons, List.cons_append, List.nil_append, Known]
      exact ⟨h t (by simp), ih D fun t' ht => h t' (by simp [ht])⟩
  unfold baseActs at hr
  rw [runActs_append] at hr
  cases h0 : runActs C (ins.map .input) Blk.empty with
  | error e => rw [h0] at hr; simp [bind, Except.bind] at hr
  | ok B0 =>
    rw [h0, bok] at hr
    have hcode0 := runActs_inputs C ins _ _ h0
    have hcode0' : B0.code = ins.map .decl := by rw [hcode0]; simp [Blk.empty]
    have hI1 := (runActs_step hU (ins.map .input) hI0 (by rw [req_in]; simp) (known_in ins _) h0).1
    have hvs : ∀ t ∈ ts, ∀ v ∈ t.vars, v ∈ inputs B0.code := by rw [hcode0', in_decls]; exact hv
    obtain ⟨more, h1, h2, h3⟩ := runActs_shape hU ts hI1 (fun x hx e he => ⟨x, hx, he⟩) hvs hr
    obtain ⟨_, more', h1', h4⟩ := runActs_step hU _ hI1 (by rw [req_out]; exact fun x hx e he => ⟨x, hx, he⟩) (known_out ts _ hvs) hr
    have hm : more' = more := List.append_cancel_left (h1'.symm.trans h1)
    subst hm
    have ho : outputs ρ more' ρ.var = ts.map (Ex.val ρ) := by
      have := h4 env
      rw [req_out, hcode0', after_decls ins env (fun v hv => by rw [hρ, loadEnv_not_mem _ _ _ _ _ _ _ hv])] at this
      exact this
    simp only [execLines]
    by_cases hz : a.nz ≤ ((0 : ℕ) : ℤ)
    · rw [if_pos hz, storeFrom_stop hz]
    · rw [if_neg hz, h1, hcode0', exec_loads, ← hρ, exec_rest _ _ _ _ _ _ _ _ h2 (by omega) (Or.inl (by omega)), ho]

/-! ## The expressions -/

theorem products_step {C : Cfg} (ρ : Interp R) : ∀ (p : List (Ex × Ex)) {st : CSt} {r : List Ex × CSt}, st.Ok C → products C p st = .ok r →
    r.2.Ok C ∧ st.met ⊆ r.2.met ∧ r.2.exact = st.exact ∧
      (NoClash C ρ r.2.met → r.1.map (Ex.val ρ) = p.map fun q => q.1.val ρ * q.2.val ρ) := by
  intro p
  induction p with
  | nil => intro st r h hr; simp only [products, Except.ok.injEq] at hr; subst hr; exact ⟨h, fun _ h => h, rfl, fun _ => rfl⟩
  | cons q p ih =>
    obtain ⟨a, b⟩ := q
    intro st r h hr
    simp only [products] at hr
    cases hm : mul C a b st with
    | error e => rw [hm] at hr; simp at hr
    | ok u =>
      obtain ⟨t, st1⟩ := u
      rw [hm] at hr
      simp only at hr
      have s1 := mul_step ρ h hm
      cases hp : products C p st1 with
      | error e => rw [hp] at hr; simp at hr
      | ok u =>
        obtain ⟨ts, st2⟩ := u
        rw [hp] at hr
        simp only [Except.ok.injEq] at hr
        subst hr
        obtain ⟨h1, h2, h3, h4⟩ := ih s1.ok hp
        refine ⟨h1, fun _ h => h2 (s1.met h), h3.trans s1.exact, fun hc => ?_⟩
        simp only [List.map_cons, h4 hc, s1.val (hc.mono h2)]

theorem sum_range_list (f : ℕ → R) (n : ℕ) : ((List.range n).map f).sum = ∑ j ∈ Finset.range n, f j := by
  induction n with
  | zero => simp
  | succ n ih => rw [List.range_succ, List.map_append, List.sum_append, ih, Finset.sum_range_succ]; simp

theorem mulCoef_step {C : Cfg} (ρ : Interp R) (x y : ℕ → Ex) (i : ℕ) {st : CSt} {r : Ex × CSt} (h : st.Ok C) (hr : mulCoef C x y i st = .ok r) :
    Step C ρ (∑ j ∈ Finset.range (i + 1), (x j).val ρ * (y (i - j)).val ρ) st r := by
  unfold mulCoef at hr
  cases hp : products C ((List.range (i + 1)).map fun j => (x j, y (i - j))) st with
  | error e => rw [hp] at hr; simp at hr
  | ok u =>
    obtain ⟨ts, st1⟩ := u
    rw [hp] at hr
    simp only at hr
    obtain ⟨h1, h2, h3, h4⟩ := products_step ρ _ h hp
    have s2 := sum_step ρ _ (Nat.lt_succ_self _) h1 _ hr
    refine ⟨s2.ok, fun _ h => s2.met (h2 h), s2.exact.trans h3, fun hc => ?_⟩
    rw [s2.val hc, h4 (hc.mono s2.met), List.map_map]
    exact sum_range_list (fun j => (x j).val ρ * (y (i - j)).val ρ) _

/-- Pairs `j < i - j` twice and the middle once give the whole sum. -/
theorem sqr_sum (f : ℕ → R) (i : ℕ) :
    ∑ j ∈ Finset.range (i + 1), f j * f (i - j) =
      2 * (∑ j ∈ (Finset.range (i + 1)).filter (fun j => j < i - j), f j * f (i - j)) + (if i % 2 = 0 then f (i / 2) * f (i / 2) else 0) := by
  have hsplit : Finset.range (i + 1) = (Finset.range (i + 1)).filter (fun j => j < i - j) ∪
      ((Finset.range (i + 1)).filter (fun j => i - j < j) ∪ (Finset.range (i + 1)).filter (fun j => j = i - j)) := by
    ext j; simp only [Finset.mem_union, Finset.mem_filter, Finset.mem_range]; omega
  have hd1 : Disjoint ((Finset.range (i + 1)).filter (fun j => j < i - j))
      ((Finset.range (i + 1)).filter (fun j => i - j < j) ∪ (Finset.range (i + 1)).filter (fun j => j = i - j)) := by
    rw [Finset.disjoint_left]; intro j; simp only [Finset.mem_union, Finset.mem_filter, Finset.mem_range]; omega
  have hd2 : Disjoint ((Finset.range (i + 1)).filter (fun j => i - j < j)) ((Finset.range (i + 1)).filter (fun j => j = i - j)) := by
    rw [Finset.disjoint_left]; intro j; simp only [Finset.mem_filter, Finset.mem_range]; omega
  have hrefl : ∑ j ∈ (Finset.range (i + 1)).filter (fun j => i - j < j), f j * f (i - j) =
      ∑ j ∈ (Finset.range (i + 1)).filter (fun j => j < i - j), f j * f (i - j) := by
    refine Finset.sum_bij' (fun j _ => i - j) (fun j _ => i - j) ?_ ?_ ?_ ?_ ?_
    · intro j; simp only [Finset.mem_filter, Finset.mem_range]; omega
    · intro j; simp only [Finset.mem_filter, Finset.mem_range]; omega
    · intro j; simp only [Finset.mem_filter, Finset.mem_range]; omega
    · intro j; simp only [Finset.mem_filter, Finset.mem_range]; omega
    · intro j hj
      simp only [Finset.mem_filter, Finset.mem_range] at hj
      rw [show i - (i - j) = j by omega, mul_comm]
  have hmid : ∑ j ∈ (Finset.range (i + 1)).filter (fun j => j = i - j), f j * f (i - j) = if i % 2 = 0 then f (i / 2) * f (i / 2) else 0 := by
    split_ifs with hi
    · have : (Finset.range (i + 1)).filter (fun j => j = i - j) = {i / 2} := by
        ext j; simp only [Finset.mem_filter, Finset.mem_range, Finset.mem_singleton]; omega
      rw [this, Finset.sum_singleton, show i - i / 2 = i / 2 by omega]
    · have : (Finset.range (i + 1)).filter (fun j => j = i - j) = ∅ := by
        ext j; simp only [Finset.mem_filter, Finset.mem_range, Finset.notMem_empty, iff_false]; omega
      rw [this, Finset.sum_empty]
  conv_lhs => rw [hsplit]
  rw [Finset.sum_union hd1, Finset.sum_union hd2, hrefl, hmid]
  ring

theorem sqrCoef_step {C : Cfg} (ρ : Interp R) (x : ℕ → Ex) (i : ℕ) {st : CSt} {r : Ex × CSt} (h : st.Ok C) (hr : sqrCoef C x i st = .ok r) :
    Step C ρ (∑ j ∈ Finset.range (i + 1), (x j).val ρ * (x (i - j)).val ρ) st r := by
  unfold sqrCoef at hr
  cases hp : products C (((List.range (i + 1)).filter fun j => j < i - j).map fun j => (x j, x (i - j))) st with
  | error e => rw [hp] at hr; simp at hr
  | ok u =>
    obtain ⟨ts, st1⟩ := u
    rw [hp] at hr
    simp only at hr
    obtain ⟨h1, h2, h3, h4⟩ := products_step ρ _ h hp
    cases hs : sum C ts st1 with
    | error e => rw [hs] at hr; simp at hr
    | ok u =>
      obtain ⟨s, st2⟩ := u
      rw [hs] at hr
      simp only at hr
      have s2 := sum_step ρ _ (Nat.lt_succ_self _) h1 _ hs
      have hlist : ((((List.range (i + 1)).filter fun j => j < i - j).map fun j => (x j, x (i - j))).map
          fun q => q.1.val ρ * q.2.val ρ).sum = ∑ j ∈ (Finset.range (i + 1)).filter (fun j => j < i - j), (x j).val ρ * (x (i - j)).val ρ := by
        rw [List.map_map, Finset.sum_filter, ← sum_range_list]
        generalize List.range (i + 1) = l
        induction l with
        | nil => rfl
        | cons a l ih =>
          by_cases ha : a < i - a
          · simp only [List.filter_cons, ha, decide_true, if_true, List.map_cons, List.sum_cons, ih, Function.comp_apply]
          · simp only [List.filter_cons, ha, decide_false, Bool.false_eq_true, if_false, List.map_cons, List.sum_cons, ih, zero_add]
      cases hm : mul C (.int 2) s st2 with
      | error e => rw [hm] at hr; simp at hr
      | ok u =>
        obtain ⟨t, st3⟩ := u
        rw [hm] at hr
        simp only at hr
        have s3 := mul_step ρ s2.ok hm
        have hval : NoClash C ρ st3.met → t.val ρ =
            2 * ∑ j ∈ (Finset.range (i + 1)).filter (fun j => j < i - j), (x j).val ρ * (x (i - j)).val ρ := by
          intro hc
          rw [s3.val hc, s2.val (hc.mono s3.met), h4 (hc.mono fun _ h => s3.met (s2.met h)), hlist]
          simp [Ex.val]
        rw [sqr_sum (fun j => (x j).val ρ) i]
        by_cases he : i % 2 = 0
        · rw [if_pos he] at hr ⊢
          cases hq : mul C (x (i / 2)) (x (i / 2)) st3 with
          | error e => rw [hq] at hr; simp at hr
          | ok u =>
            obtain ⟨q, st4⟩ := u
            rw [hq] at hr
            simp only at hr
            have s4 := mul_step ρ s3.ok hq
            have s5 := add_step ρ s4.ok hr
            refine ⟨s5.ok, fun _ h => s5.met (s4.met (s3.met (s2.met (h2 h)))),
              s5.exact.trans (s4.exact.trans (s3.exact.trans (s2.exact.trans h3))), fun hc => ?_⟩
            rw [s5.val hc, s4.val (hc.mono s5.met), hval (hc.mono fun _ h => s5.met (s4.met h))]
        · rw [if_neg he] at hr ⊢
          simp only [Except.ok.injEq] at hr
          subst hr
          exact ⟨s3.ok, fun _ h => s3.met (s2.met (h2 h)), s3.exact.trans (s2.exact.trans h3), fun hc => by rw [hval hc, add_zero]⟩

theorem coefs_step {C : Cfg} (ρ : Interp R) {coef : ℕ → CSt → Res (Ex × CSt)} {v : ℕ → R}
    (hcoef : ∀ i (st : CSt) r, st.Ok C → coef i st = .ok r → Step C ρ (v i) st r) :
    ∀ (m i : ℕ) {st : CSt} {r : List Ex × CSt}, st.Ok C → coefs coef i m st = .ok r →
      r.2.Ok C ∧ st.met ⊆ r.2.met ∧ r.1.length = m ∧ (NoClash C ρ r.2.met → r.1.map (Ex.val ρ) = (List.range' i m).map v) := by
  intro m
  induction m with
  | zero => intro i st r h hr; simp only [coefs, Except.ok.injEq] at hr; subst hr; exact ⟨h, fun _ h => h, rfl, fun _ => rfl⟩
  | succ m ih =>
    intro i st r h hr
    simp only [coefs] at hr
    cases hm : coef i st with
    | error e => rw [hm] at hr; simp at hr
    | ok u =>
      obtain ⟨t, st1⟩ := u
      rw [hm] at hr
      simp only at hr
      have s1 := hcoef _ _ _ h hm
      cases hp : coefs coef (i + 1) m st1 with
      | error e => rw [hp] at hr; simp at hr
      | ok u =>
        obtain ⟨ts, st2⟩ := u
        rw [hp] at hr
        simp only [Except.ok.injEq] at hr
        subst hr
        obtain ⟨h1, h2, h3, h4⟩ := ih _ s1.ok hp
        refine ⟨h1, fun _ h => h2 (s1.met h), by simp [h3], fun hc => ?_⟩
        simp only [List.map_cons, h4 hc, s1.val (hc.mono h2), List.range'_succ]

end

/-! ## Only the inputs are mentioned -/

section
variable {P : Ex → Prop} (hP : Closed P)
include hP

theorem products_all {C : Cfg} : ∀ (p : List (Ex × Ex)) {st : CSt} {r : List Ex × CSt}, st.All P → (∀ q ∈ p, P q.1 ∧ P q.2) →
    products C p st = .ok r → r.2.All P ∧ ∀ e ∈ r.1, P e := by
  intro p
  induction p with
  | nil => intro st r h _ hr; simp only [products, Except.ok.injEq] at hr; subst hr; exact ⟨h, by simp⟩
  | cons q p ih =>
    obtain ⟨a, b⟩ := q
    intro st r h hq hr
    simp only [products] at hr
    cases hm : mul C a b st with
    | error e => rw [hm] at hr; simp at hr
    | ok u =>
      obtain ⟨t, st1⟩ := u
      rw [hm] at hr
      simp only at hr
      have s1 := mul_all hP h (hq (a, b) (by simp)).1 (hq (a, b) (by simp)).2 hm
      cases hp : products C p st1 with
      | error e => rw [hp] at hr; simp at hr
      | ok u =>
        obtain ⟨ts, st2⟩ := u
        rw [hp] at hr
        simp only [Except.ok.injEq] at hr
        subst hr
        obtain ⟨h1, h2⟩ := ih s1.1 (fun q hq' => hq q (by simp [hq'])) hp
        exact ⟨h1, by simpa using ⟨s1.2, h2⟩⟩

theorem mulCoef_all {C : Cfg} {x y : ℕ → Ex} {i : ℕ} (hx : ∀ j ≤ i, P (x j)) (hy : ∀ j ≤ i, P (y j)) {st : CSt} {r : Ex × CSt} (h : st.All P)
    (hr : mulCoef C x y i st = .ok r) : r.2.All P ∧ P r.1 := by
  unfold mulCoef at hr
  cases hp : products C ((List.range (i + 1)).map fun j => (x j, y (i - j))) st with
  | error e => rw [hp] at hr; simp at hr
  | ok u =>
    obtain ⟨ts, st1⟩ := u
    rw [hp] at hr
    simp only at hr
    obtain ⟨h1, h2⟩ := products_all hP _ h (by
      intro q hq
      obtain ⟨j, hj, rfl⟩ := List.mem_map.mp hq
      have := List.mem_range.mp hj
      exact ⟨hx _ (by omega), hy _ (by omega)⟩) hp
    exact sum_all hP _ (Nat.lt_succ_self _) h1 h2 _ hr

theorem sqrCoef_all {C : Cfg} {x : ℕ → Ex} {i : ℕ} (hx : ∀ j ≤ i, P (x j)) {st : CSt} {r : Ex × CSt} (h : st.All P)
    (hr : sqrCoef C x i st = .ok r) : r.2.All P ∧ P r.1 := by
  unfold sqrCoef at hr
  cases hp : products C (((List.range (i + 1)).filter fun j => j < i - j).map fun j => (x j, x (i - j))) st with
  | error e => rw [hp] at hr; simp at hr
  | ok u =>
    obtain ⟨ts, st1⟩ := u
    rw [hp] at hr
    simp only at hr
    obtain ⟨h1, h2⟩ := products_all hP _ h (by
      intro q hq
      obtain ⟨j, hj, rfl⟩ := List.mem_map.mp hq
      have := List.mem_range.mp (List.mem_filter.mp hj).1
      exact ⟨hx _ (by omega), hx _ (by omega)⟩) hp
    cases hs : sum C ts st1 with
    | error e => rw [hs] at hr; simp at hr
    | ok u =>
      obtain ⟨s, st2⟩ := u
      rw [hs] at hr
      simp only at hr
      have s2 := sum_all hP _ (Nat.lt_succ_self _) h1 h2 _ hs
      cases hm : mul C (.int 2) s st2 with
      | error e => rw [hm] at hr; simp at hr
      | ok u =>
        obtain ⟨t, st3⟩ := u
        rw [hm] at hr
        simp only at hr
        have s3 := mul_all hP s2.1 (hP.int 2) s2.2 hm
        by_cases he : i % 2 = 0
        · rw [if_pos he] at hr
          cases hq : mul C (x (i / 2)) (x (i / 2)) st3 with
          | error e => rw [hq] at hr; simp at hr
          | ok u =>
            obtain ⟨q, st4⟩ := u
            rw [hq] at hr
            simp only at hr
            have s4 := mul_all hP s3.1 (hx _ (by omega)) (hx _ (by omega)) hq
            exact add_all hP s4.1 s3.2 s4.2 hr
        · rw [if_neg he] at hr
          simp only [Except.ok.injEq] at hr
          subst hr
          exact s3

omit hP in
theorem coefs_all {coef : ℕ → CSt → Res (Ex × CSt)} {n : ℕ}
    (hcoef : ∀ i < n, ∀ (st : CSt) r, st.All P → coef i st = .ok r → r.2.All P ∧ P r.1) :
    ∀ (m i : ℕ) {st : CSt} {r : List Ex × CSt}, i + m ≤ n → st.All P → coefs coef i m st = .ok r → ∀ e ∈ r.1, P e := by
  intro m
  induction m with
  | zero => intro i st r _ h hr; simp only [coefs, Except.ok.injEq] at hr; subst hr; simp
  | succ m ih =>
    intro i st r hn h hr
    simp only [coefs] at hr
    cases hm : coef i st with
    | error e => rw [hm] at hr; simp at hr
    | ok u =>
      obtain ⟨t, st1⟩ := u
      rw [hm] at hr
      simp only at hr
      have s1 := hcoef i (by omega) _ _ h hm
      cases hp : coefs coef (i + 1) m st1 with
      | error e => rw [hp] at hr; simp at hr
      | ok u =>
        obtain ⟨ts, st2⟩ := u
        rw [hp] at hr
        simp only [Except.ok.injEq] at hr
        subst hr
        have := ih (i + 1) (by omega) s1.1 hp
        simpa using ⟨s1.2, this⟩

end

/-! ## Building the expressions always succeeds -/

section
variable {C : Cfg} (hC : C.Ok)
include hC

theorem products_good : ∀ (p : List (Ex × Ex)) {st : CSt}, st.Good C → (∀ q ∈ p, Good C st.exact q.1 ∧ Good C st.exact q.2) →
    ∃ r, products C p st = .ok r ∧ r.2.Good C ∧ r.2.exact = st.exact ∧ ∀ e ∈ r.1, Good C st.exact e := by
  intro p
  induction p with
  | nil => intro st h _; exact ⟨_, rfl, h, rfl, by simp⟩
  | cons q p ih =>
    obtain ⟨a, b⟩ := q
    intro st h hq
    obtain ⟨⟨t, st1⟩, e1, g1⟩ := mul_good hC h (hq (a, b) (by simp)).1 (hq (a, b) (by simp)).2
    have x1 : st1.exact = st.exact := g1.exact
    obtain ⟨⟨ts, st2⟩, e2, h1, h2, h3⟩ := ih g1.tbl (fun q hq' => by simp only [x1]; exact hq q (by simp [hq']))
    refine ⟨(t :: ts, st2), by simp [products, e1, e2], h1, h2.trans x1, ?_⟩
    simp only [x1] at h3
    simpa using ⟨g1.good, h3⟩

theorem mulCoef_good {x y : ℕ → Ex} {i : ℕ} {st : CSt} (h : st.Good C) (hx : ∀ j ≤ i, Good C st.exact (x j))
    (hy : ∀ j ≤ i, Good C st.exact (y j)) : ∃ r, mulCoef C x y i st = .ok r ∧ r.2.Good C ∧ r.2.exact = st.exact := by
  obtain ⟨⟨ts, st1⟩, e1, h1, h2, h3⟩ := products_good hC ((List.range (i + 1)).map fun j => (x j, y (i - j))) h (by
    intro q hq
    obtain ⟨j, hj, rfl⟩ := List.mem_map.mp hq
    have := List.mem_range.mp hj
    exact ⟨hx _ (by omega), hy _ (by omega)⟩)
  have h2' : st1.exact = st.exact := h2
  obtain ⟨r, e2, g2⟩ := sum_good hC _ (Nat.lt_succ_self _) h1 (by simp only [h2']; exact h3)
  exact ⟨r, by simp only [mulCoef, e1, e2], g2.tbl, g2.exact.trans h2'⟩

theorem sqrCoef_good {x : ℕ → Ex} {i : ℕ} {st : CSt} (h : st.Good C) (hx : ∀ j ≤ i, Good C st.exact (x j)) :
    ∃ r, sqrCoef C x i st = .ok r ∧ r.2.Good C ∧ r.2.exact = st.exact := by
  obtain ⟨⟨ts, st1⟩, e1, h1, h2, h3⟩ := products_good hC (((List.range (i + 1)).filter fun j => j < i - j).map fun j => (x j, x (i - j))) h (by
    intro q hq
    obtain ⟨j, hj, rfl⟩ := List.mem_map.mp hq
    have := List.mem_range.mp (List.mem_filter.mp hj).1
    exact ⟨hx _ (by omega), hx _ (by omega)⟩)
  have h2' : st1.exact = st.exact := h2
  obtain ⟨⟨s, st2⟩, e2, g2⟩ := sum_good hC _ (Nat.lt_succ_self _) h1 (by simp only [h2']; exact h3)
  have x2 : st2.exact = st.exact := g2.exact.trans h2'
  have gs : Good C st2.exact s := by have := g2.good; simp only [h2'] at this; rw [x2]; exact this
  have g2i : Good C st2.exact (.int 2) := ⟨⟨by norm_num, by norm_num⟩, fun _ => trivial⟩
  obtain ⟨⟨t, st3⟩, e3, g3⟩ := mul_good hC g2.tbl g2i gs
  have x3 : st3.exact = st.exact := g3.exact.trans x2
  by_cases he : i % 2 = 0
  · have hh : Good C st3.exact (x (i / 2)) := by rw [x3]; exact hx _ (by omega)
    obtain ⟨⟨q, st4⟩, e4, g4⟩ := mul_good hC g3.tbl hh hh
    have x4 : st4.exact = st3.exact := g4.exact
    have gt : Good C st4.exact t := by rw [x4, x3, ← x2]; exact g3.good
    obtain ⟨r, e5, g5⟩ := add_good hC g4.tbl gt (by rw [x4]; exact g4.good)
    exact ⟨r, by simp only [sqrCoef, e1, e2, e3, if_pos he, e4, e5], g5.tbl, g5.exact.trans (x4.trans x3)⟩
  · exact ⟨(t, st3), by simp only [sqrCoef, e1, e2, e3, if_neg he], g3.tbl, x3⟩

omit hC in
theorem coefs_good {coef : ℕ → CSt → Res (Ex × CSt)} {b : Bool} {n : ℕ}
    (hcoef : ∀ i < n, ∀ st : CSt, st.Good C → st.exact = b → ∃ r, coef i st = .ok r ∧ r.2.Good C ∧ r.2.exact = st.exact) :
    ∀ (m i : ℕ) {st : CSt}, i + m ≤ n → st.Good C → st.exact = b → ∃ r, coefs coef i m st = .ok r := by
  intro m
  induction m with
  | zero => intro i st _ _ _; exact ⟨_, rfl⟩
  | succ m ih =>
    intro i st hn h hb
    obtain ⟨⟨t, st1⟩, e1, g1, x1⟩ := hcoef i (by omega) st h hb
    obtain ⟨⟨ts, st2⟩, e2⟩ := ih (i + 1) (by omega) g1 (x1.trans hb)
    exact ⟨(t :: ts, st2), by simp only [coefs, e1, e2]⟩

end

end Mandelbrot.Sym
