import Verif.Sym.TextCode
import Verif.Sym.Kept
import Verif.Props.Codelets

/-!
# The text of generated code: C56
-/

namespace Mandelbrot.Sym

open Sig (Sg)
open Spec
open Cpp (Tree Lib Reads eval Val Tok lex runText IsId)

/-! ## Expressions -/

/-- C56: the text of an expression, in front of the end, a semicolon, a comma or a closing bracket, is read as the expression it was
made from: parentheses are put wherever the grammar needs them, and nothing runs together. -/
theorem C56_parse {C : Cfg} {O : String → Tree} {e : Ex} (h : e.Spelled O) {r : List Char}
    (hr : r = [] ∨ ∃ c r', r = c :: r' ∧ c ∈ [';', ',', ')', ']']) : Reads (e.text C 100) r (e.tree C O) := by
  rcases hr with rfl | ⟨c, r', rfl, hc⟩
  · have e0 : lex .none [] = [] := by decide
    exact text_alone h (Or.inl rfl) (by rw [e0]; intro c r' he; simp at he) (by rw [e0]; intro c r' he; simp at he)
      (by rw [e0]; intro c r' he; simp at he)
  · have hl : lex .none (c :: r') = .p c :: lex .none r' := by
      simp only [List.mem_cons, List.not_mem_nil, or_false] at hc
      rcases hc with rfl | rfl | rfl | rfl <;> exact Cpp.lex_punc (by decide) rfl _
    refine text_alone h (Or.inr (Or.inl ⟨c, r', rfl, ?_⟩)) ?_ ?_ ?_
    · simp only [List.mem_cons, List.not_mem_nil, or_false] at hc
      rcases hc with rfl | rfl | rfl | rfl <;> decide
    all_goals
      rw [hl]
      intro d r'' he
      simp only [List.cons.injEq, Tok.p.injEq] at he
      simp only [List.mem_cons, List.not_mem_nil, or_false] at hc
      rcases hc with rfl | rfl | rfl | rfl <;> simp [← he.1]

/-- C56: the text of an expression has its value when evaluated with the types C++ gives to literals, if it does no arithmetic on two
literals and divides none. -/
theorem C56_value {C : Cfg} {O : String → Tree} {e : Ex} (h : e.Spelled O) (ht : e.Typed C) {R : Type} [CommRing R] {L : Lib R}
    {ρ : Interp R} (ha : Agree L ρ) (hc : ∀ x ∈ e.subs, ∀ y ∈ e.subs, x.sig C = y.sig C → x.val ρ = y.val ρ)
    (ho : ∀ t p s, Ex.other t p s ∈ e.subs → eval L (O t) = some (.num (ρ.other t))) {r : List Char}
    (hr : r = [] ∨ ∃ c r', r = c :: r' ∧ c ∈ [';', ',', ')', ']']) :
    ∃ t v, Reads (e.text C 100) r t ∧ eval L t = some v ∧ v.to = e.val ρ := by
  obtain ⟨v, h1, h2⟩ := (eval_tree ha e (meant_of_typed ht hc ho)).some
  exact ⟨_, v, C56_parse h hr, h1, h2⟩

/-! ## What the operators build -/

namespace Spec

/-- Names of variables, functions and members are identifiers, and other texts are postfix-expressions of precedence 2. -/
def Named (O : String → Tree) : Op → Prop
  | .var v _ => Name v
  | .field _ f => IsId f.toList
  | .call1 f _ _ => Name f
  | .call2 f _ _ _ => Name f
  | .call3 f _ _ _ _ => Name f
  | .other t p _ => p = 2 ∧ TextOf t.toList (O t)
  | _ => True

end Spec

theorem spelled_closed (O : String → Tree) : Kept (Ex.Spelled O) where
  int _ := trivial
  unneg := by
    intro x y s e h
    subst e
    exact h.1
  neg := by
    intro x s h hu hn
    refine ⟨h, ?_⟩
    cases x <;> simp [Ex.unint, Ex.unneg] at hu hn <;> rfl
  add _ h h' := ⟨h, h'⟩
  sub _ h h' := ⟨h, h'⟩
  mul _ h h' := ⟨h, h'⟩
  div _ h h' := ⟨h, by omega⟩

theorem runFrom_spelled {C : Cfg} {O : String → Tree} : ∀ (ops : List Op) {rs rs' : List Ex} {st st' : CSt},
    (∀ op ∈ ops, Named O op) → (∀ e ∈ rs, e.Spelled O) → st.Holds (Ex.Spelled O) →
    (∀ l i f l', ops = l ++ .field i f :: l' → ∀ rs1 st1, runFrom C l rs st = .ok (rs1, st1) → (arg rs1 i).unint = none) →
    runFrom C ops rs st = .ok (rs', st') → ∀ e ∈ rs', e.Spelled O := by
  intro ops
  induction ops with
  | nil =>
    intro rs rs' st st' _ hrs _ _ hr
    simp only [runFrom, Except.ok.injEq, Prod.mk.injEq] at hr
    rw [← hr.1]; exact hrs
  | cons op ops ih =>
    intro rs rs' st st' hn hrs hst hf hr
    have ha : ∀ i, (arg rs i).Spelled O := by
      intro i
      unfold arg
      rw [List.getD_eq_getElem?_getD]
      cases hi : rs[i]? with
      | none => trivial
      | some e => exact hrs e (List.mem_of_getElem? hi)
    have hop := hn op (by simp)
    simp only [runFrom] at hr
    cases ho : op.exec C rs st with
    | error e => rw [ho] at hr; simp at hr
    | ok r =>
      rw [ho] at hr
      simp only at hr
      have k := exec_keeps (C := C) (spelled_closed O) hrs hst (op := op) (r := r)
        (by rintro v s rfl; exact hop)
        (by rintro i f rfl s; exact ⟨ha i, hf [] i f ops rfl rs st rfl, hop⟩)
        (by rintro f i _ rfl s; exact ⟨hop, ha i⟩)
        (by rintro f i j _ rfl s; exact ⟨hop, ha i, ha j⟩)
        (by rintro f i j k _ rfl s; exact ⟨hop, ha i, ha j, ha k⟩)
        (by rintro t p _ rfl s; exact hop) ho
      refine ih (rs := rs ++ [r.1]) (st := r.2) (fun o h => hn o (by simp [h])) ?_ k.2 ?_ hr
      · intro e he
        rcases List.mem_append.mp he with he | he
        · exact hrs e he
        · rw [List.mem_singleton.mp he]; exact k.1
      · intro l i f l' e rs1 st1 h1
        refine hf (op :: l) i f l' (by rw [e]; rfl) rs1 st1 ?_
        simp only [runFrom, ho]
        exact h1

/-- C56: whatever the operators build from names that are identifiers can be read back, in both modes: no negation of a negation or of
a literal is ever made and all divisors are positive.  Members must not be taken of literals. -/
theorem C56_built {C : Cfg} {O : String → Tree} {exact : Bool} {ops : List Op} (hn : ∀ op ∈ ops, Named O op)
    (hf : ∀ l i f l', ops = l ++ .field i f :: l' → ∀ rs st, run C exact l = .ok (rs, st) → (arg rs i).unint = none)
    {rs : List Ex} {st : CSt} (hr : run C exact ops = .ok (rs, st)) :
    ∀ e ∈ rs, e.Spelled O ∧ Reads (e.text C 100) [';'] (e.tree C O) := by
  intro e he
  have h := runFrom_spelled ops hn (rs := []) (st := ⟨exact, [], []⟩) (by simp) (fun p hp => by simp at hp) hf hr e he
  exact ⟨h, C56_parse h (Or.inr ⟨';', [], rfl, by decide⟩)⟩

/-! ## Code -/

theorem compute_inputs {C : Cfg} {U : Ex → Prop} {x : Ex} {B : Blk} {r : Ex × Blk} (h : SStep C U x B r) : inputs r.2.code = inputs B.code := by
  obtain ⟨l, e⟩ := h.ext
  rw [e, inputs_append]
  have : ∀ l : List (String × Ex), inputs (l.map fun p => Item.def p.1 p.2) = [] := by
    intro l
    induction l with
    | nil => rfl
    | cons a l ih => simpa [inputs] using ih
  rw [this, List.append_nil]

theorem runActs_known {C : Cfg} {U : Ex → Prop} : ∀ (l : List Act) {B B' : Blk}, SInv C U B → (∀ x ∈ requested l, ∀ e ∈ x.subs, U e) →
    runActs C l B = .ok B' → (∀ v ∈ inputs B.code, v ∈ inputs B'.code) ∧
      ∀ D, (∀ v ∈ D, v ∈ inputs B.code) → Known D l → ∀ x ∈ requested l, ∀ v ∈ x.vars, v ∈ inputs B'.code := by
  intro l
  induction l with
  | nil =>
    intro B B' hi _ hr
    simp only [runActs, Except.ok.injEq] at hr
    subst hr; exact ⟨fun _ h => h, fun D _ _ x hx => by simp [requested] at hx⟩
  | cons a l ih =>
    intro B B' hi hq hr
    have hr0 := hr
    simp only [runActs] at hr
    cases a with
    | input v =>
      have h1 := runActs_shadow (C := C) (U := U) [.input v] (B := B) (B' := { B with names := v :: B.names, code := B.code ++ [.decl v] }) hi
        (by simp [requested])
      simp only [Act.exec, Blk.input] at hr
      by_cases hv : v ∈ B.names
      · rw [slowAssert, if_neg (by simpa using hv)] at hr
        simp [bind, Except.bind] at hr
      rw [slowAssert_true (by simpa using hv), bok, pok] at hr
      simp only at hr
      have hi' : SInv C U { B with names := v :: B.names, code := B.code ++ [.decl v] } := by
        refine h1 ?_
        simp only [runActs, Act.exec, Blk.input]
        rw [slowAssert_true (by simpa using hv), bok, pok]
      obtain ⟨k1, k2⟩ := ih (B := { B with names := v :: B.names, code := B.code ++ [.decl v] }) hi' hq hr
      simp only [inputs_append] at k1 k2
      refine ⟨fun w hw => k1 w (List.mem_append_left _ hw), fun D hD hk x hx => ?_⟩
      refine k2 (v :: D) ?_ hk x hx
      intro w hw
      rcases List.mem_cons.mp hw with rfl | hw
      · simp [inputs]
      · exact List.mem_append_left _ (hD w hw)
    | use x =>
      simp only [Act.exec] at hr
      exact ih (B := B.use C x) ⟨hi.lets, hi.defs, hi.outs⟩ hq hr
    | out x =>
      simp only [Act.exec] at hr
      cases hc : compute C x B with
      | error e => rw [hc] at hr; simp at hr
      | ok p =>
        obtain ⟨y, B1⟩ := p
        have h1 := runActs_shadow (C := C) (U := U) [.out x] (B := B) (B' := { B1 with code := B1.code ++ [.out y] }) hi
          (fun x' hx' => hq x' (by simp [requested] at hx' ⊢; exact Or.inl hx')) (by simp only [runActs, Act.exec, hc])
        rw [hc] at hr
        simp only at hr
        have s := compute_shadow x hi (hq x (by simp [requested])) hc
        have e : inputs (B1.code ++ [.out y]) = inputs B.code := by
          rw [inputs_append, show inputs B1.code = inputs B.code from compute_inputs s]; simp [inputs]
        obtain ⟨k1, k2⟩ := ih (B := { B1 with code := B1.code ++ [.out y] }) h1 (fun x' hx' => hq x' (by simp [requested, hx'])) hr
        simp only [e] at k1 k2
        refine ⟨k1, fun D hD hk x' hx' => ?_⟩
        simp only [requested, List.mem_cons] at hx'
        rcases hx' with rfl | hx'
        · exact fun v hv => k1 v (hD v (hk.1 v hv))
        · exact k2 D hD hk.2 x' hx'

/-- C56: the code a block writes, taken as text and read by the grammar of C++, puts out the values of the requested expressions: every
line is a declaration with an initializer of the type of the code, or a requested expression, and the values are as requested.
This is for all requests with names that are identifiers, as the operators build them (`C56_built`), with no arithmetic on two
literals, and all values of the inputs for which parts with equal signatures have equal values. -/
theorem C56_code {C : Cfg} {O : String → Tree} {R : Type} [CommRing R] {L : Lib R} {ρ : Interp R} (ha : Agree L ρ)
    (hO : ∀ t, ∃ c s as, O t = .call (.tmpl c s) as) {acts : List Act} (hk : Known [] acts)
    (hs : ∀ x ∈ requested acts, x.Spelled O) (ht : ∀ x ∈ requested acts, x.Typed C)
    (ho : ∀ x ∈ requested acts, ∀ t p s, Ex.other t p s ∈ x.subs → eval L (O t) = some (.num (ρ.other t)))
    (hc : ∀ x ∈ requested acts, ∀ x' ∈ requested acts, ∀ e ∈ x.subs, ∀ e' ∈ x'.subs, e.sig C = e'.sig C → e.val ρ = e'.val ρ)
    {B : Blk} (hr : runActs C acts Blk.empty = .ok B) (env : List Char → R) :
    ∃ N, ∀ n ≥ N, runText L n (B.code.map (Item.line C)) env = some ((requested acts).map (Ex.val ρ)) := by
  let U : Ex → Prop := fun e => ∃ x ∈ requested acts, e ∈ x.subs
  have h0 : SInv C U Blk.empty := ⟨fun s v h => by simp [Blk.empty] at h, fun n y h => by simp [Blk.empty] at h,
    fun y h => by simp [Blk.empty] at h⟩
  have hq : ∀ x ∈ requested acts, ∀ e ∈ x.subs, U e := fun x hx e he => ⟨x, hx, he⟩
  have hi := runActs_shadow acts h0 hq hr
  obtain ⟨-, hin⟩ := runActs_known acts h0 hq hr
  obtain ⟨h1, h2, h3⟩ := C41_code hk hc hr
  obtain ⟨N, hN⟩ := run_lines (C := C) (U := U) (O := O) ha hO
    (fun e e' ⟨x, hx, hxe⟩ ⟨x', hx', hxe'⟩ h => hc x hx x' hx' e hxe e' hxe' h)
    (fun x ⟨z, hz, hxz⟩ e he => ⟨z, hz, subs_subs x hxz e he⟩)
    (fun x ⟨z, hz, hxz⟩ => spelled_sub (hs z hz) x hxz)
    (fun x ⟨z, hz, hxz⟩ => meant_of_typed (typed_sub (ht z hz) x hxz)
      (fun a ha b hb h => hc z hz z hz a (subs_subs x hxz a ha) b (subs_subs x hxz b hb) h)
      (fun t p s h => ho z hz t p s (subs_subs x hxz _ h)))
    (fun x ⟨z, hz, hxz⟩ v hv => hin [] (by simp) hk z hz v (vars_sub x hxz v hv)) h2 hi.defs hi.outs B.code [] (fun v => env v.toList) env rfl h1
    (fun _ => rfl) (fun v _ hv => by simp [declared] at hv) (fun n y h => by simp at h)
  refine ⟨N, fun n hn => ?_⟩
  rw [hN n hn, h3]

/-! ## What must be left out, and examples -/

/-- C56: the negation of a negation, which the operators never build, could not be read: its text starts with the operator `--`. -/
theorem C56_double_negative (C : Cfg) (s t u : Sg) (n : ℕ) :
    (Ex.neg (.neg (.var "x" s) t) u).text C 100 = "--x".toList ∧ Cpp.pText n ((Ex.neg (.neg (.var "x" s) t) u).text C 100) = none := by
  have e : (Ex.neg (.neg (.var "x" s) t) u).text C 100 = "--x".toList := rfl
  refine ⟨e, ?_⟩
  rw [e, Cpp.pText, show lex .none "--x".toList = [.op '-' '-', .id ['x']] from by decide]
  have : ∀ n, Cpp.pAdd n [.op '-' '-', .id ['x']] = none := by
    intro n
    match n with
    | 0 => rfl
    | 1 => rfl
    | 2 => rfl
    | 3 => rfl
    | 4 => rfl
    | n + 5 => rfl
  rw [this]

/-- C56: a member of a literal, which codelets never take, could not be read: `3.r` is one number. -/
theorem C56_member_of_literal (C : Cfg) (s : Sg) (n : ℕ) :
    (Ex.field (.int 3) "r" s).text C 100 = "3.r".toList ∧ lex .none "3.r".toList = [.num "3.r".toList] ∧
      ∀ t, Cpp.pText n "3.r".toList = some t → ∀ (R : Type) [CommRing R] (L : Lib R), eval L t = none := by
  refine ⟨rfl, by decide, ?_⟩
  have : ∀ n r, Cpp.pAdd n [.num "3.r".toList] = some r → r = (.num "3.r".toList, []) := by
    intro n r h
    match n, h with
    | 0, h => simp [Cpp.pAdd] at h
    | 1, h => simp [Cpp.pAdd, Cpp.pMul] at h
    | 2, h => simp [Cpp.pAdd, Cpp.pMul, Cpp.pUnary] at h
    | 3, h => simp [Cpp.pAdd, Cpp.pMul, Cpp.pUnary, Cpp.pPost] at h
    | 4, h => simp [Cpp.pAdd, Cpp.pMul, Cpp.pUnary, Cpp.pPost, Cpp.pPrim] at h
    | n + 5, h =>
      have : Cpp.pAdd (n + 5) [.num "3.r".toList] = some (.num "3.r".toList, []) := rfl
      rw [this] at h
      simpa using h.symm
  intro t ht R _ L
  rw [Cpp.pText, show lex .none "3.r".toList = [.num "3.r".toList] from by decide] at ht
  cases hp : Cpp.pAdd n [.num "3.r".toList] with
  | none => rw [hp] at ht; simp at ht
  | some r =>
    rw [this n r hp] at hp
    rw [hp] at ht
    simp only [Option.some.injEq] at ht
    subst ht
    rw [eval, show Cpp.digitsVal "3.r".toList = none from by decide]

/-- The history `Exp(1) / 3`. -/
def third : List Op := [.int 1, .div 0 3]

/-- C56: dividing a literal is different: for `Exp(1) / 3` the operators build an expression whose text `1 / 3` is read as asked, but
for the compiler both are `int` and the value is zero. -/
theorem C56_literal_division : ∃ e st, run exampleCfg true third = .ok ([.int 1, e], st) ∧
    e.text exampleCfg 100 = "1 / 3".toList ∧ (∀ K [Field K], e.val (fieldInterp (K := K) fun _ => 0) = 1 / 3) ∧
    ∃ t, Reads (e.text exampleCfg 100) [';'] t ∧ ∀ (R : Type) [CommRing R] (L : Lib R), eval L t = some (.int 0) := by
  obtain ⟨s, st, h⟩ : ∃ s st, run exampleCfg true third = .ok ([.int 1, .div (.int 1) 3 s], st) := by
    have key : ∀ r : Res (List Ex × CSt), (match r with | .ok ([.int n, .div (.int m) k _], _) => n = 1 ∧ m = 1 ∧ k = 3 | _ => False) →
        ∃ s st, r = .ok ([.int 1, .div (.int 1) 3 s], st) := by
      intro r h
      split at h
      · obtain ⟨rfl, rfl, rfl⟩ := h
        exact ⟨_, _, rfl⟩
      · exact h.elim
    have : (match run exampleCfg true third with | .ok ([.int n, .div (.int m) k _], _) => decide (n = 1 ∧ m = 1 ∧ k = 3) | _ => false) = true := by
      decide +kernel
    refine key _ ?_
    split at this
    · simpa using this
    · simp at this
  have ht : (Ex.div (.int 1) 3 s).text exampleCfg 100 = "1 / 3".toList := by
    have h3 : singleBit 3 = false := by decide
    simp [Ex.text, h3, parensIf, showInt]
    rfl
  refine ⟨_, st, h, ht, fun K _ => by simp [Ex.val, fieldInterp], .bin '/' (.num ['1']) (.num ['3']), ?_, fun R _ L => ?_⟩
  · have h1 := C56_parse (C := exampleCfg) (O := fun _ => .num []) (e := .div (.int 1) 3 s) ⟨trivial, by norm_num⟩ (r := [';'])
      (Or.inr ⟨';', [], rfl, by decide⟩)
    have h3 : singleBit 3 = false := by decide
    have : (Ex.div (.int 1) 3 s).tree exampleCfg (fun _ => .num []) = .bin '/' (.num ['1']) (.num ['3']) := by
      simp [Ex.tree, h3, intTree]
      decide
    rw [this] at h1
    exact h1
  · have e1 : eval L (.num ['1']) = some (.int 1) := eval_num L 1
    have e3 : eval L (.num ['3']) = some (.int 3) := eval_num L 3
    rw [eval, e1, e3]
    rfl

/-- The text of a constant as /repo/codelets.cc 566-569 writes it, here the square root of one half. -/
def sqrtHalfText : List Char := "constant<S>(0.70710678118654757, -4.8336466567264567e-17)".toList

def sqrtHalfTree : Tree :=
  .call (.tmpl "constant".toList "S".toList) [.num "0.70710678118654757".toList, .neg (.num "4.8336466567264567e-17".toList)]

/-- Texts of constants meet what is asked of other texts. -/
theorem sqrtHalf_text : TextOf sqrtHalfText sqrtHalfTree := by
  refine ⟨[.id "constant".toList, .p '<', .id "S".toList, .p '>', .p '(', .num "0.70710678118654757".toList, .p ',', .p '-',
    .num "4.8336466567264567e-17".toList, .p ')'], ?_, ?_, op_cons (by decide), ⟨'c', _, rfl, by decide⟩⟩
  · intro r _
    have h : lex .none (sqrtHalfText ++ r) = [.id "constant".toList, .p '<', .id "S".toList, .p '>', .p '(', .num "0.70710678118654757".toList,
      .p ',', .p '-', .num "4.8336466567264567e-17".toList] ++ lex .none (')' :: r) := rfl
    rw [h, Cpp.lex_close]; rfl
  · refine ⟨by simp, by simp, ?_⟩
    intro r x h
    obtain ⟨N, hN⟩ := h
    refine ⟨N + 20, fun n hn => ?_⟩
    obtain ⟨m, rfl⟩ : ∃ m, n = m + N + 20 := ⟨n - N - 20, by omega⟩
    have := hN (m + N + 18) (by omega)
    rw [← this]
    rfl

/-- An example for `C56_code`: the squared sum of the example of C41 and a multiple of a constant; the code reads

    const auto t = x + y;
    sqr(t)
    -3 * constant<S>(0.70710678118654757, -4.8336466567264567e-17) -/
example :
    let x := Ex.var "x" fun _ => 1000
    let y := Ex.var "y" fun _ => 3000
    let s := Ex.add x y fun _ => 4000
    let p := Ex.mul s s fun _ => 16000000
    let c := Ex.other (String.ofList sqrtHalfText) 2 fun _ => 777
    let q := Ex.mul (.int (-3)) c fun _ => 5555
    let acts : List Act := [.input "x", .input "y", .use p, .use q, .out p, .out q]
    ∃ B, runActs exampleCfg acts Blk.empty = .ok B ∧
      B.code.map (Item.line exampleCfg) = [.decl "x", .decl "y", .def "const auto t = x + y;".toList, .out "sqr(t)".toList,
        .out ("-3 * ".toList ++ sqrtHalfText)] ∧
      ∀ env, ∃ N, ∀ n ≥ N, runText (R := ℚ) ⟨fun v => if v = "x".toList then 5 else 7, fun _ y => y, fun _ l => l.sum, fun _ => 2 / 3, fun y a => y / a⟩
        n (B.code.map (Item.line exampleCfg)) env = some [144, -2] := by
  intro x y s p c q acts
  have hf : fresh "t" ["y", "x"] = "t" := by
    unfold fresh
    rw [(Nat.find_eq_zero _).mpr (by decide)]
    rfl
  refine ⟨_, rfl, ?_, fun env => ?_⟩
  · show ([.decl "x", .decl "y", .def (fresh "t" ["y", "x"]) s, .out (.mul (.var (fresh "t" ["y", "x"]) (s.sig exampleCfg))
      (.var (fresh "t" ["y", "x"]) (s.sig exampleCfg)) fun _ => 16000000), .out q] : List Item).map (Item.line exampleCfg) = _
    rw [hf]
    rfl
  let ρ : Interp ℚ := ⟨fun v => if v = "x" then 5 else 7, fun _ y => y, fun _ l => l.sum, fun _ => 2 / 3, fun y a => y / a⟩
  have ha : Agree (R := ℚ) ⟨fun v => if v = "x".toList then 5 else 7, fun _ y => y, fun _ l => l.sum, fun _ => 2 / 3, fun y a => y / a⟩ ρ := by
    refine ⟨fun v => ?_, fun _ _ => rfl, fun _ _ => rfl, fun _ _ => rfl⟩
    by_cases h : v = "x"
    · subst h; rfl
    · exact (if_neg fun e => h (String.toList_inj.mp e)).trans (if_neg h).symm
  have hl : ∀ e, (∃ z ∈ requested acts, e ∈ z.subs) → e = p ∨ e = s ∨ e = x ∨ e = y ∨ e = q ∨ e = .int (-3) ∨ e = c := by
    rintro e ⟨z, hz, he⟩
    simp only [acts, requested, List.mem_cons, List.not_mem_nil, or_false] at hz
    rcases hz with rfl | rfl
    · simp only [p, s, x, y, Ex.subs, List.mem_cons, List.mem_append, List.not_mem_nil, or_false] at he ⊢
      tauto
    · simp only [q, c, Ex.subs, List.mem_cons, List.mem_append, List.not_mem_nil, or_false] at he ⊢
      tauto
  have hs : ∀ e e', (∃ z ∈ requested acts, e ∈ z.subs) → (∃ z ∈ requested acts, e' ∈ z.subs) → e.sig exampleCfg = e'.sig exampleCfg → e = e' := by
    intro e e' he he' h
    have h0 := congrFun h 0
    have h3 : Sig.ofInt exampleCfg.F (-3) 0 > 20000000 := by decide +kernel
    rcases hl e he with rfl | rfl | rfl | rfl | rfl | rfl | rfl <;> rcases hl e' he' with rfl | rfl | rfl | rfl | rfl | rfl | rfl <;>
      first | rfl | (simp [p, s, x, y, q, c, Ex.sig] at h0; done) | (exfalso; simp only [p, s, x, y, q, c, Ex.sig] at h0; omega)
  have := C56_code (C := exampleCfg) (O := fun _ => sqrtHalfTree) ha (fun _ => ⟨_, _, _, rfl⟩) (acts := acts)
    (by simp [Known, acts, p, s, x, y, q, c, Ex.vars])
    (by
      intro z hz
      simp only [acts, requested, List.mem_cons, List.not_mem_nil, or_false] at hz
      have n1 : Name "x" := ⟨⟨'x', [], rfl, by decide, by simp⟩, by decide⟩
      have n2 : Name "y" := ⟨⟨'y', [], rfl, by decide, by simp⟩, by decide⟩
      rcases hz with rfl | rfl
      · exact ⟨⟨n1, n2⟩, n1, n2⟩
      · exact ⟨trivial, rfl, by rw [String.toList_ofList]; exact sqrtHalf_text⟩)
    (by
      intro z hz
      simp only [acts, requested, List.mem_cons, List.not_mem_nil, or_false] at hz
      rcases hz with rfl | rfl
      · exact ⟨⟨trivial, trivial, Or.inl rfl⟩, ⟨trivial, trivial, Or.inl rfl⟩, Or.inl rfl, fun _ => rfl⟩
      · refine ⟨by constructor <;> norm_num, trivial, Or.inr rfl, fun h => ?_⟩
        have h3 : Sig.ofInt exampleCfg.F (-3) 0 > 20000000 := by decide +kernel
        have := congrFun h 0
        simp only [c, Ex.sig] at this
        omega)
    (by
      intro z hz t p s h
      simp only [sqrtHalfTree, eval]
      rfl)
    (fun z hz z' hz' e he e' he' h => by rw [hs e e' ⟨z, hz, he⟩ ⟨z', hz', he'⟩ h]) rfl env
  obtain ⟨N, hN⟩ := this
  refine ⟨N, fun n hn => ?_⟩
  rw [hN n hn]
  norm_num [acts, requested, Ex.val, p, s, x, y, q, c, ρ, show ¬("y" : String) = "x" by decide]

/-- An example for `C56_value`: `(x - (y - -2)) * -x / 12`, with a member of a variable. -/
example : (Ex.div (.mul (.sub (.var "x" fun _ => 1) (.sub (.var "y" fun _ => 2) (.int (-2)) fun _ => 3) fun _ => 4)
    (.neg (.field (.var "x" fun _ => 1) "r" fun _ => 5) fun _ => 6) fun _ => 7) 12 fun _ => 8).text exampleCfg 100 =
    "(x - (y - -2)) * -x.r / 12".toList := by
  have h : singleBit 12 = false := by decide
  have h2 : ¬ ((2 : ℕ) = 8) := by decide
  simp [Ex.text, h, parensIf, showInt, Ex.sig, Ex.isTwo, Ex.unint]
  decide

end Mandelbrot.Sym
