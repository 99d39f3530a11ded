import Verif.Sym.ExpansionTotal
import Verif.Props.Float
import Verif.Props.MulBase

/-!
# The generated operators on expansions: C71
-/

namespace Mandelbrot.Sym

open Sig (Sg)
open Spec
open Mandelbrot.Float (Sc double)

namespace Spec

/-- What an operator is to compute, on numbers. -/
noncomputable def wanted (rn : ℝ → ℝ) : Oper → List ℝ → List ℝ → Res (List ℝ)
  | .add => Float.collangeAdd rn
  | .sub => Float.collangeSub rn
  | .mul => Float.collangeMul rn

/-- The values that the generated function returns: the lines are run, then the `return` statement. -/
noncomputable def returned {rn : ℝ → ℝ} (ρ : Interp (Fl rn)) (W : Written) (env : String → Fl rn) : List ℝ :=
  W.ret.map fun e => (e.val (withVar ρ (after ρ W.code env))).v

/-- The components of an operand: the values of the names `x0`, `x1`, … or `y0`, `y1`, …. -/
def given {rn : ℝ → ℝ} (ρ : Interp (Fl rn)) (n : ℕ) (second : Bool) : List ℝ :=
  (List.range n).map fun j => (ρ.var (inName second j)).v

/-- A machine: `fma` rounds once. -/
noncomputable def machine (rn : ℝ → ℝ) (var : String → ℝ) : Interp (Fl rn) where
  var := fun v => ⟨var v⟩
  field := fun _ a => a
  call := fun f l => match f, l with
    | "fma", [a, b, c] => ⟨rn (a.v * b.v + c.v)⟩
    | _, _ => ⟨0⟩
  other := fun _ => ⟨0⟩
  div := fun a _ => a

/-- Everything the written expressions are made of: the components of the operands and what was looked up, their negations,
and zero. -/
def parts (C : Cfg) (n : ℕ) (s : Bool → ℕ → Sg) (W : Written) : List Ex :=
  let l := (operand n s false ++ operand n s true) ++ W.cse.met
  .int 0 :: l ++ l.map fun x => .neg x (Sig.sneg C.F (x.sig C))

/-- Equal signatures mean equal values, and no expression looked up has the signature of a small number. -/
def Separate (C : Cfg) {rn : ℝ → ℝ} (ρ : Interp (Fl rn)) (n : ℕ) (s : Bool → ℕ → Sg) (W : Written) : Prop :=
  (∀ a ∈ parts C n s W, ∀ b ∈ parts C n s W, a.sig C = b.sig C → a.val ρ = b.val ρ) ∧
    ∀ e ∈ W.cse.met, Sig.unsmall C.F (e.sig C) = none

end Spec

section
variable {C : Cfg} {w : Sg} {n : ℕ} {s : Bool → ℕ → Sg} {o : Oper} {W : Written} {rn : ℝ → ℝ} {ρ : Interp (Fl rn)}

theorem machine_fused (var : String → ℝ) : Fused (machine rn var) := fun _ _ _ => rfl

theorem nums_operand (b : Bool) : nums ρ (operand n s b) = given ρ n b := by
  simp only [nums, operand, given, List.map_map]; rfl

theorem operand_fine (b : Bool) {M : List Ex} : ∀ e ∈ operand n s b,
    Fine C ((operand n s false ++ operand n s true) ++ M) (operandNames n) e := by
  intro e he
  have hin : e ∈ (operand n s false ++ operand n s true) ++ M := by
    refine List.mem_append_left _ ?_
    cases b
    · exact List.mem_append_left _ he
    · exact List.mem_append_right _ he
  obtain ⟨j, hj, rfl⟩ := List.mem_map.mp he
  refine ⟨rfl, ?_, ?_⟩
  · intro v hv
    rw [show v = inName b j by simpa [Ex.vars] using hv]
    simp only [operandNames, List.mem_append, List.mem_map]
    cases b
    · exact Or.inr (Or.inl ⟨j, hj, rfl⟩)
    · exact Or.inr (Or.inr ⟨j, hj, rfl⟩)
  · intro a ha
    rw [show a = .var (inName b j) (s b j) by simpa [Ex.subs] using ha]
    exact Or.inl hin

theorem uses_code (C : Cfg) : ∀ (l : List Ex) (B B' : Blk), runActs C (l.map .use) B = .ok B' →
    B'.code = B.code ∧ B'.names = B.names ∧ B'.lets = B.lets := by
  intro l
  induction l with
  | nil => intro B B' e; cases e; exact ⟨rfl, rfl, rfl⟩
  | cons x l ih => intro B B' e; exact ih (B.use C x) B' e

theorem body_gives {M : List Ex} (hr : Symmetric rn) (hf : Fused ρ) (hsm : NoSmall C M) (hc : NoClash C ρ M) :
    Gives C (operand n s false ++ operand n s true) M (operandNames n) (o.body C w (operand n s false) (operand n s true)) fun r =>
      Elems C ((operand n s false ++ operand n s true) ++ M) (operandNames n) r ∧
        wanted rn o (nums ρ (operand n s false)) (nums ρ (operand n s true)) = .ok (nums ρ r) := by
  cases o
  · exact collangeAdd_gives hr hsm hc (operand_fine false) (operand_fine true)
  · exact collangeSub_gives hr hsm hc (operand_fine false) (operand_fine true)
  · exact collangeMul_gives hr hf hsm hc w (operand_fine false) (operand_fine true)

theorem known_inputs : ∀ (l : List String) (D : List String), Known D (l.map Act.input) := by
  intro l
  induction l with
  | nil => intro D; trivial
  | cons v l ih => intro D; exact ih (v :: D)

theorem requested_inputs : ∀ l : List String, requested (l.map Act.input) = [] := by
  intro l
  induction l with
  | nil => rfl
  | cons v l ih => exact ih

theorem inputs_decls : ∀ l : List String, inputs (l.map Item.decl) = l := by
  intro l
  induction l with
  | nil => rfl
  | cons v l ih => simpa [Spec.inputs] using ih

theorem part_parts {a : Ex} {code : List Item} {ret zs : List Ex} {st : CSt}
    (h : Part C ((operand n s false ++ operand n s true) ++ st.met) a) : a ∈ parts C n s ⟨code, ret, zs, st⟩ := by
  rcases h with h | ⟨x, hx, rfl⟩
  · exact List.mem_append_left _ (List.mem_cons_of_mem _ h)
  · exact List.mem_append_right _ (List.mem_map_of_mem hx)

/-- **C71.** The lines written for `+`, `-` or `*` compile: every name is declared once and before its use.  Whatever the variables
contained before, the values returned are those of the algorithm on numbers, operation by operation. -/
theorem C71_operator (h : operatorCode C w n s o = .ok W) (hr : Symmetric rn) (hf : Fused ρ) (hs : Separate C ρ n s W) :
    Scoped [] W.code ∧ (∀ e ∈ W.ret, ∀ v ∈ e.vars, v ∈ declared W.code) ∧ (∃ more : List (String × Ex),
      W.code = (operandNames n).map .decl ++ more.map fun p => .def p.1 p.2) ∧ ∀ env,
      wanted rn o (given ρ n false) (given ρ n true) = .ok (returned ρ W env) := by
  unfold operatorCode at h
  obtain ⟨B0, e0, h⟩ := Ser.bind_eq_ok h
  obtain ⟨⟨zs, st⟩, e1, h⟩ := Ser.bind_eq_ok h
  obtain ⟨B1, e2, h⟩ := Ser.bind_eq_ok h
  obtain ⟨⟨ret, B2⟩, e3, h⟩ := Ser.bind_eq_ok h
  cases h
  obtain ⟨hs1, hs2⟩ := hs
  have hin : ∀ e ∈ st.met, e ∈ parts C n s ⟨B2.code, ret, zs, st⟩ := fun e he =>
    part_parts (Or.inl (List.mem_append_right _ he))
  have hc : NoClash C ρ st.met := ⟨fun a ha b hb => hs1 a (hin a ha) b (hin b hb), fun e he m hm => by
    rw [hs2 e he] at hm; cases hm⟩
  obtain ⟨-, hz, hw⟩ := body_gives (w := w) (o := o) (s := s) (n := n) hr hf (M := st.met) hs2 hc ⟨false, [], []⟩ (zs, st)
    ⟨fun p hp => by simp at hp, rfl, fun p hp => by simp at hp⟩ e1 (fun _ h => h)
  simp only at hz hw
  have hI0 : Inv C ρ (· ∈ parts C n s ⟨B2.code, ret, zs, st⟩) Blk.empty :=
    ⟨trivial, fun v hv => by simp [Blk.empty, declared] at hv, fun env v hv => by simp [Blk.empty, Spec.inputs] at hv,
      fun s v hv => by simp [Blk.empty] at hv⟩
  have hI1 := (runActs_step (fun a b ha hb => hs1 a ha b hb) ((operandNames n).map .input) hI0 (by rw [requested_inputs]; simp) (known_inputs _ _) e0).1
  have hcode : B0.code = (operandNames n).map .decl := by
    rw [runActs_inputs C _ _ _ e0]; simp [Blk.empty]
  obtain ⟨u1, u2, u3⟩ := uses_code C zs B0 B1 e2
  have hI2 : Inv C ρ (· ∈ parts C n s ⟨B2.code, ret, zs, st⟩) B1 :=
    ⟨u1 ▸ hI1.wf, by rw [u1, u2]; exact hI1.names, by rw [u1]; exact hI1.inputs, by rw [u1, u3]; exact hI1.lets⟩
  obtain ⟨hI3, ⟨more, hmore⟩, hd, hv⟩ := computeAll_step (fun a b ha hb => hs1 a ha b hb) zs hI2
    (fun x hx e he => by
      rcases hz x hx with rfl | hx
      · rw [show e = .int 0 by simpa [Ex.subs] using he]
        exact List.mem_append_left _ List.mem_cons_self
      · exact part_parts (hx.subs e he))
    (fun x hx v hv => by
      rw [u1, hcode, inputs_decls]
      rcases hz x hx with rfl | hx
      · simp [Ex.vars] at hv
      · exact hx.vars v hv) e3
  refine ⟨hI3.wf, hd, ⟨more, by rw [hmore, u1, hcode]⟩, fun env => ?_⟩
  rw [← nums_operand (s := s), ← nums_operand (s := s), hw]
  congr 1
  have := hv env
  simp only [returned, nums]
  rw [show (fun e : Ex => (e.val ρ).v) = Fl.v ∘ Ex.val ρ from rfl, ← List.map_map, ← this, List.map_map]
  rfl

/-! ## It finishes -/

theorem operand_ints (b : Bool) : IntsOkL (operand n s b) := by
  intro e he
  obtain ⟨j, -, rfl⟩ := List.mem_map.mp he
  trivial

theorem body_total (hC : C.Ok) : Total C (o.body C w (operand n s false) (operand n s true)) fun r => r.length = n := by
  have hl : (operand n s false).length = (operand n s true).length := by simp [operand]
  have hn : (operand n s false).length = n := by simp [operand]
  intro st hs
  cases o
  · obtain ⟨r, e, h1, -, h2⟩ := collangeAdd_total hC hl (operand_ints false) (operand_ints true) st hs
    exact ⟨r, e, h1, h2.trans hn⟩
  · obtain ⟨r, e, h1, -, h2⟩ := collangeSub_total hC hl (operand_ints false) (operand_ints true) st hs
    exact ⟨r, e, h1, h2.trans hn⟩
  · obtain ⟨r, e, h1, -, h2⟩ := collangeMul_total hC w hl (operand_ints false) (operand_ints true) st hs
    exact ⟨r, e, h1, h2.trans hn⟩

theorem operandNames_nodup (n : ℕ) : (operandNames n).Nodup := by
  have hne : ∀ (b : Bool) (i : ℕ), inName b i ≠ "x" ∧ inName b i ≠ "y" := by
    intro b i
    have hl : 2 ≤ (inName b i).toList.length := by
      have := Nat.length_toDigits_pos (b := 10) (n := i)
      simp only [inName, String.toList_append, List.length_append, Nat.toString_eq_repr, Nat.toList_repr]
      cases b
      · have : ("x" : String).toList.length = 1 := by decide
        simp only [Bool.false_eq_true, if_false]; omega
      · have : ("y" : String).toList.length = 1 := by decide
        simp only [if_true]; omega
    constructor <;> intro e <;> rw [e] at hl <;> revert hl <;> decide
  unfold operandNames
  refine List.nodup_append.mpr ⟨by decide, List.nodup_append.mpr ⟨?_, ?_, ?_⟩, ?_⟩
  · exact List.nodup_range.map fun i j h => (inName_inj h).2
  · exact List.nodup_range.map fun i j h => (inName_inj h).2
  · intro a ha b hb e
    obtain ⟨i, -, rfl⟩ := List.mem_map.mp ha
    obtain ⟨j, -, rfl⟩ := List.mem_map.mp hb
    exact absurd (inName_inj e).1 (by decide)
  · intro a ha b hb e
    rw [List.mem_append] at hb
    have : ∃ c i, b = inName c i := by
      rcases hb with hb | hb
      · obtain ⟨i, -, rfl⟩ := List.mem_map.mp hb; exact ⟨false, i, rfl⟩
      · obtain ⟨i, -, rfl⟩ := List.mem_map.mp hb; exact ⟨true, i, rfl⟩
    obtain ⟨c, i, rfl⟩ := this
    subst e
    simp only [List.mem_cons, List.not_mem_nil, or_false] at ha
    rcases ha with ha | ha
    · exact (hne c i).1 ha
    · exact (hne c i).2 ha

theorem inputs_ok (C : Cfg) : ∀ (l : List String) (B : Blk), l.Nodup → (∀ v ∈ l, v ∉ B.names) →
    ∃ B', runActs C (l.map .input) B = .ok B' ∧ B'.counts = B.counts := by
  intro l
  induction l with
  | nil => intro B _ _; exact ⟨B, rfl, rfl⟩
  | cons v l ih =>
    intro B hn hv
    rw [List.nodup_cons] at hn
    obtain ⟨B', e, h⟩ := ih { B with names := v :: B.names, code := B.code ++ [.decl v] } hn.2 fun u hu => by
      simp only [List.mem_cons, not_or]
      exact ⟨fun e => hn.1 (e ▸ hu), hv u (List.mem_cons_of_mem _ hu)⟩
    refine ⟨B', ?_, h⟩
    simp only [List.map_cons, runActs, Act.exec, Blk.input]
    rw [slowAssert_true (hv v List.mem_cons_self), bok, pok]
    exact e

theorem uses_ok {U : Ex → Prop} (hU : ∀ e e', U e → U e' → e.sig C = e'.sig C → e = e') : ∀ (l : List Ex) (B : Blk),
    (∀ x ∈ l, ∀ e ∈ x.subs, U e) → CClosed C U B.counts → ∃ B', runActs C (l.map .use) B = .ok B' ∧
      (∀ t, B.counts t ≠ 0 → B'.counts t ≠ 0) ∧ ∀ x ∈ l, ∀ e ∈ x.subs, B'.counts (e.sig C) ≠ 0 := by
  intro l
  induction l with
  | nil => intro B _ _; exact ⟨B, rfl, fun _ h => h, by simp⟩
  | cons x l ih =>
    intro B hl hc
    have h1 := useEx_closed hU x (hl x List.mem_cons_self) hc
    obtain ⟨B', e, h2, h3⟩ := ih (B.use C x) (fun y hy => hl y (List.mem_cons_of_mem _ hy)) h1.1
    refine ⟨B', e, fun t ht => h2 t (useEx_mono _ _ _ _ ht), fun y hy => ?_⟩
    rcases List.mem_cons.mp hy with rfl | hy
    · exact fun a ha => h2 _ (h1.2 a ha)
    · exact h3 y hy

theorem computeAll_ok : ∀ (l : List Ex) (B : Blk), (∀ x ∈ l, ∀ e ∈ x.subs, B.counts (e.sig C) ≠ 0) →
    ∃ r, computeAll C l B = .ok r ∧ r.1.length = l.length := by
  intro l
  induction l with
  | nil => intro B _; exact ⟨_, rfl, rfl⟩
  | cons x l ih =>
    intro B h
    obtain ⟨r, e, hc⟩ := compute_ok C x (h x List.mem_cons_self)
    obtain ⟨q, f, hq⟩ := ih r.2 fun y hy a ha => by rw [hc]; exact h y (List.mem_cons_of_mem _ hy) a ha
    refine ⟨(r.1 :: q.1, q.2), ?_, by simp [hq]⟩
    unfold computeAll
    rw [e, bok, f, bok]
    rfl

/-- **C71.** The generators finish for every number of components: no assertion fails, and the passes over the errors end.  If the
parts of the results are told apart by their signatures, lines are written, with one value in the `return` statement for each component. -/
theorem C71_finishes (hC : C.Ok) (w : Sg) (n : ℕ) (s : Bool → ℕ → Sg) (o : Oper) :
    ∃ zs st, o.body C w (operand n s false) (operand n s true) ⟨false, [], []⟩ = .ok (zs, st) ∧ zs.length = n ∧
      ((∀ a ∈ zs, ∀ b ∈ zs, ∀ e ∈ a.subs, ∀ e' ∈ b.subs, e.sig C = e'.sig C → e = e') →
        ∃ W, operatorCode C w n s o = .ok W ∧ W.results = zs ∧ W.cse = st ∧ W.ret.length = n) := by
  obtain ⟨⟨zs, st⟩, e, -, hl⟩ := body_total (w := w) (n := n) (s := s) (o := o) hC ⟨false, [], []⟩ ⟨fun p hp => by simp at hp, rfl⟩
  refine ⟨zs, st, e, hl, fun hd => ?_⟩
  obtain ⟨B0, e0, c0⟩ := inputs_ok C (operandNames n) Blk.empty (operandNames_nodup n) (by simp [Blk.empty])
  obtain ⟨B1, e1, -, c1⟩ := uses_ok (C := C) (U := fun e => ∃ x ∈ zs, e ∈ x.subs)
    (fun e e' ⟨x, hx, he⟩ ⟨x', hx', he'⟩ h => hd x hx x' hx' e he e' he' h) zs B0 (fun x hx e he => ⟨x, hx, he⟩)
    (by rw [c0]; intro x _ h; exact absurd rfl h)
  obtain ⟨r, e2, l2⟩ := computeAll_ok zs B1 c1
  refine ⟨⟨r.2.code, r.1, zs, st⟩, ?_, rfl, rfl, l2.trans hl⟩
  unfold operatorCode
  rw [e0, bok, e, bok]
  simp only
  rw [e1, bok, e2, bok]
  rfl

theorem wanted_ok {env : String → Fl rn} (h : operatorCode C w n s o = .ok W) (hr : Symmetric rn) (hf : Fused ρ) (hs : Separate C ρ n s W) :
    wanted rn o (given ρ n false) (given ρ n true) = .ok (returned ρ W env) := (C71_operator h hr hf hs).2.2.2 env

theorem given_length (b : Bool) : (given ρ n b).length = n := by simp [given]

/-- **C71.** The generated sum on components of `double`: its error. -/
theorem C71_add_accuracy (h : operatorCode C w n s .add = .ok W) (hr : Symmetric rn) (hf : Fused ρ) (hs : Separate C ρ n s W)
    (hd : double.Rounds rn) (hn : n ≤ 4) {M : ℝ} (hx : ∀ a ∈ given ρ n false, double.Rep a) (hy : ∀ a ∈ given ρ n true, double.Rep a)
    (hM : ∀ a ∈ given ρ n false ++ given ρ n true, |a| ≤ M) (hM0 : 0 ≤ M) (env : String → Fl rn) :
    |(given ρ n false).sum + (given ρ n true).sum - (returned ρ W env).sum| ≤ 2 ^ 18 / (2 ^ 53) ^ n * M := by
  have := Float.C45_add_error_double hd (by rw [given_length, given_length]) (by rw [given_length]; exact hn) hx hy
    (wanted_ok (env := env) h hr hf hs) hM hM0
  rwa [given_length] at this

/-- **C71.** The generated difference on components of `double`: its error. -/
theorem C71_sub_accuracy (h : operatorCode C w n s .sub = .ok W) (hr : Symmetric rn) (hf : Fused ρ) (hs : Separate C ρ n s W)
    (hd : double.Rounds rn) (hn : n ≤ 4) {M : ℝ} (hx : ∀ a ∈ given ρ n false, double.Rep a) (hy : ∀ a ∈ given ρ n true, double.Rep a)
    (hM : ∀ a ∈ given ρ n false ++ given ρ n true, |a| ≤ M) (hM0 : 0 ≤ M) (env : String → Fl rn) :
    |(given ρ n false).sum - (given ρ n true).sum - (returned ρ W env).sum| ≤ 2 ^ 18 / (2 ^ 53) ^ n * M := by
  have := Float.C45_sub_error_double hd (by rw [given_length, given_length]) (by rw [given_length]; exact hn) hx hy
    (wanted_ok (env := env) h hr hf hs) hM hM0
  rwa [given_length] at this

/-- **C71.** The generated product on components of `double`: its error. -/
theorem C71_mul_accuracy (h : operatorCode C w n s .mul = .ok W) (hr : Symmetric rn) (hf : Fused ρ) (hs : Separate C ρ n s W)
    (hd : double.Rounds rn) (hn : n ≤ 4) {X Y : ℝ}
    (hu : ∀ b ∈ given ρ n true, ∀ a ∈ given ρ n false, Float.NoUnderflow double a b) (hX : 0 ≤ X) (hY : 0 ≤ Y)
    (hx : ∀ i < n, |(ρ.var (inName false i)).v| ≤ X * (1 / 2 ^ 52) ^ i)
    (hy : ∀ i < n, |(ρ.var (inName true i)).v| ≤ Y * (1 / 2 ^ 52) ^ i) (env : String → Fl rn) :
    |(given ρ n false).sum * (given ρ n true).sum - (returned ρ W env).sum| ≤ 2 ^ 29 / (2 ^ 53) ^ n * (X * Y) := by
  have := Float.C45_mul_error_double hd (by rw [given_length, given_length]) (by rw [given_length]; exact hn) hu
    (wanted_ok (env := env) h hr hf hs) hX hY
    (fun i hi => by
      have hi' : i < n := by rwa [given_length] at hi
      simpa [given] using hx i hi')
    (fun i hi => by
      have hi' : i < n := by rwa [given_length] at hi
      simpa [given] using hy i hi')
  rwa [given_length] at this

end

/-! ## Rounding to nearest even is symmetric -/

theorem roundEven_neg (x : ℝ) : Float.roundEven (-x) = -Float.roundEven x := by
  by_cases hx : ∃ m : ℤ, x = m
  · obtain ⟨m, rfl⟩ := hx
    have : (-(m : ℝ)) = ((-m : ℤ) : ℝ) := by push_cast; rfl
    rw [this]
    unfold Float.roundEven
    rw [Int.floor_intCast, Int.floor_intCast]
    norm_num
  · have hfl : ⌊-x⌋ = -⌊x⌋ - 1 := by
      have h1 := Int.floor_le x
      have h2 := Int.lt_floor_add_one x
      rw [Int.floor_eq_iff]
      push_cast
      refine ⟨by linarith, ?_⟩
      have : (⌊x⌋ : ℝ) ≠ x := fun e => hx ⟨⌊x⌋, e.symm⟩
      have := lt_of_le_of_ne h1 this
      linarith
    unfold Float.roundEven
    rw [hfl]
    push_cast
    split_ifs <;> first | omega | (exfalso; linarith)

theorem rne_symmetric (F : Float.Fmt) : Symmetric F.rne := by
  intro a
  have : F.lastPlace (-a) = F.lastPlace a := by unfold Float.Fmt.lastPlace; rw [abs_neg]
  unfold Float.Fmt.rne
  rw [this, neg_div, roundEven_neg]
  push_cast
  ring

/-! ## Cases -/

namespace Spec

/-- The operators are written, no two of the parts share a signature, and none has the signature of a small number. -/
def clear (C : Cfg) (n : ℕ) (s : Bool → ℕ → Sg) (o : Oper) : Bool :=
  match operatorCode C (fun _ => 0) n s o with
  | .ok W => decide ((parts C n s W).map fun e => e.sig C 1).Nodup && W.cse.met.all fun e => (Sig.unsmall C.F (e.sig C)).isNone
  | .error _ => false

end Spec

theorem clear_spec {C : Cfg} {n : ℕ} {s : Bool → ℕ → Sg} {o : Oper} (h : clear C n s o = true) :
    ∃ W, operatorCode C (fun _ => 0) n s o = .ok W ∧ ∀ (rn : ℝ → ℝ) (ρ : Interp (Fl rn)), Separate C ρ n s W := by
  unfold clear at h
  split at h
  · rename_i W e
    rw [Bool.and_eq_true, decide_eq_true_eq, List.all_eq_true] at h
    refine ⟨W, e, fun rn ρ => ⟨fun a ha b hb hab => ?_, fun e he => Option.isNone_iff_eq_none.mp (h.2 e he)⟩⟩
    rw [List.inj_on_of_nodup_map h.1 ha hb (congrFun hab 1)]
  · cases h

/-- A hash function for the examples. -/
def hashCfg : Cfg := ⟨Sig.Spec.moduli, fun f l => fun i =>
  (l.foldl (fun a s => a * 6364136223846793005 + s i + 1442695040888963407) (match f with | none => 7 | some _ => 11)) % Sig.Spec.moduli i⟩

theorem hashCfg_ok : hashCfg.Ok :=
  ⟨rfl, fun _ _ i => Nat.mod_lt _ (by have := (Sig.moduli_range i).1; show 0 < Sig.Spec.moduli i; omega)⟩

/-- Products of seven components each, in the code only up to four are used: the generator ends. -/
example : ∃ zs st, Oper.body hashCfg (fun _ => 0) .mul (operand 7 exampleSig false) (operand 7 exampleSig true) ⟨false, [], []⟩ = .ok (zs, st) ∧
    zs.length = 7 := by
  obtain ⟨zs, st, e, h, -⟩ := C71_finishes hashCfg_ok (fun _ => 0) 7 exampleSig .mul
  exact ⟨zs, st, e, h⟩

/-- With one component each the second part of `C71_finishes` can be seen directly. -/
example : ∃ W, operatorCode hashCfg (fun _ => 0) 1 exampleSig .add = .ok W ∧ W.ret.length = 1 := by
  obtain ⟨zs, st, e, h, f⟩ := C71_finishes hashCfg_ok (fun _ => 0) 1 exampleSig .add
  have hz : (match Oper.body hashCfg (fun _ => 0) .add (operand 1 exampleSig false) (operand 1 exampleSig true) ⟨false, [], []⟩ with
      | .ok r => decide ((r.1.flatMap Ex.subs).map fun e => e.sig hashCfg 1).Nodup
      | .error _ => false) = true := by decide +kernel
  rw [e] at hz
  replace hz := of_decide_eq_true hz
  obtain ⟨W, hW, -, -, hl⟩ := f fun a ha b hb x hx y hy hxy =>
    List.inj_on_of_nodup_map hz (List.mem_flatMap.mpr ⟨a, ha, hx⟩) (List.mem_flatMap.mpr ⟨b, hb, hy⟩) (congrFun hxy 1)
  exact ⟨W, hW, hl⟩

theorem clear_add_two : clear hashCfg 2 exampleSig .add = true := by decide +kernel

theorem clear_sub_two : clear hashCfg 2 exampleSig .sub = true := by decide +kernel
theorem clear_mul_two : clear hashCfg 2 exampleSig .mul = true := by decide +kernel
theorem clear_add_three : clear hashCfg 3 exampleSig .add = true := by decide +kernel

/-- The sum of three components each: it is written, and on any numbers the lines do what the algorithm does. -/
example : ∃ W, operatorCode hashCfg (fun _ => 0) 3 exampleSig .add = .ok W ∧ Scoped [] W.code ∧ ∀ (var : String → ℝ) env,
    Float.collangeAdd double.rne [var "x0", var "x1", var "x2"] [var "y0", var "y1", var "y2"] =
      .ok (returned (machine double.rne var) W env) := by
  obtain ⟨W, e, h⟩ := clear_spec clear_add_three
  exact ⟨W, e, (C71_operator e (rne_symmetric double) (machine_fused fun _ => 0) (h _ _)).1, fun var env =>
    (C71_operator e (rne_symmetric double) (machine_fused var) (h _ _)).2.2.2 env⟩

/-- The difference of two components each. -/
example : ∃ W, operatorCode hashCfg (fun _ => 0) 2 exampleSig .sub = .ok W ∧ ∀ (var : String → ℝ) env,
    Float.collangeSub double.rne [var "x0", var "x1"] [var "y0", var "y1"] = .ok (returned (machine double.rne var) W env) := by
  obtain ⟨W, e, h⟩ := clear_spec clear_sub_two
  exact ⟨W, e, fun var env => (C71_operator e (rne_symmetric double) (machine_fused var) (h _ _)).2.2.2 env⟩

/-- The product of two components each, and its error on `1 + 2^-60` and `2^-3 + 2^-70`. -/
example : ∃ W, operatorCode hashCfg (fun _ => 0) 2 exampleSig .mul = .ok W ∧
    (∀ (var : String → ℝ) env,
      Float.collangeMul double.rne [var "x0", var "x1"] [var "y0", var "y1"] = .ok (returned (machine double.rne var) W env)) ∧
    ∀ (var : String → ℝ) env, var "x0" = (2 : ℝ) ^ (0 : ℤ) → var "x1" = (2 : ℝ) ^ (-60 : ℤ) → var "y0" = (2 : ℝ) ^ (-3 : ℤ) →
      var "y1" = (2 : ℝ) ^ (-70 : ℤ) →
      |((2 : ℝ) ^ (0 : ℤ) + (2 : ℝ) ^ (-60 : ℤ)) * ((2 : ℝ) ^ (-3 : ℤ) + (2 : ℝ) ^ (-70 : ℤ)) -
        (returned (machine double.rne var) W env).sum| ≤ 2 ^ 29 / (2 ^ 53) ^ 2 * (1 * 1) := by
  obtain ⟨W, e, h⟩ := clear_spec clear_mul_two
  refine ⟨W, e, fun var env => (C71_operator e (rne_symmetric double) (machine_fused var) (h _ _)).2.2.2 env,
    fun var env h0 h1 h2 h3 => ?_⟩
  have g0 : given (machine double.rne var) 2 false = [(2 : ℝ) ^ (0 : ℤ), (2 : ℝ) ^ (-60 : ℤ)] := by
    rw [← h0, ← h1]; rfl
  have g1 : given (machine double.rne var) 2 true = [(2 : ℝ) ^ (-3 : ℤ), (2 : ℝ) ^ (-70 : ℤ)] := by
    rw [← h2, ← h3]; rfl
  have key : ∀ j k : ℤ, -1074 ≤ j + k → Float.NoUnderflow double ((2 : ℝ) ^ j) ((2 : ℝ) ^ k) := fun j k hjk =>
    ⟨1, 1, j, k, by simp, by simp, by norm_num [double], by norm_num [double], hjk⟩
  have := C71_mul_accuracy e (rne_symmetric double) (machine_fused var) (h _ _) Float.double_rounds (by norm_num) (X := 1) (Y := 1)
    (by rw [g0, g1]; intro b hb a ha; fin_cases hb <;> fin_cases ha <;> exact key _ _ (by norm_num)) (by norm_num) (by norm_num)
    (by
      intro i hi
      interval_cases i
      · show |var "x0"| ≤ _
        rw [h0]; norm_num
      · show |var "x1"| ≤ _
        rw [h1]; norm_num)
    (by
      intro i hi
      interval_cases i
      · show |var "y0"| ≤ _
        rw [h2]; norm_num
      · show |var "y1"| ≤ _
        rw [h3]; norm_num) env
  rw [g0, g1] at this
  simpa using this

/-- Sums and differences of `1 + 2^-60` and `2^-120 + 2^-180` are right to `2^-88`. -/
example : ∃ W V, operatorCode hashCfg (fun _ => 0) 2 exampleSig .add = .ok W ∧ operatorCode hashCfg (fun _ => 0) 2 exampleSig .sub = .ok V ∧
    ∀ (var : String → ℝ) env, var "x0" = (2 : ℝ) ^ (0 : ℤ) → var "x1" = (2 : ℝ) ^ (-60 : ℤ) → var "y0" = (2 : ℝ) ^ (-120 : ℤ) →
      var "y1" = (2 : ℝ) ^ (-180 : ℤ) →
      |((2 : ℝ) ^ (0 : ℤ) + (2 : ℝ) ^ (-60 : ℤ)) + ((2 : ℝ) ^ (-120 : ℤ) + (2 : ℝ) ^ (-180 : ℤ)) -
        (returned (machine double.rne var) W env).sum| ≤ 2 ^ 18 / (2 ^ 53) ^ 2 * 1 ∧
      |((2 : ℝ) ^ (0 : ℤ) + (2 : ℝ) ^ (-60 : ℤ)) - ((2 : ℝ) ^ (-120 : ℤ) + (2 : ℝ) ^ (-180 : ℤ)) -
        (returned (machine double.rne var) V env).sum| ≤ 2 ^ 18 / (2 ^ 53) ^ 2 * 1 := by
  obtain ⟨W, e, h⟩ := clear_spec clear_add_two
  obtain ⟨V, f, g⟩ := clear_spec clear_sub_two
  refine ⟨W, V, e, f, fun var env h0 h1 h2 h3 => ?_⟩
  have g0 : given (machine double.rne var) 2 false = [(2 : ℝ) ^ (0 : ℤ), (2 : ℝ) ^ (-60 : ℤ)] := by
    rw [← h0, ← h1]; rfl
  have g1 : given (machine double.rne var) 2 true = [(2 : ℝ) ^ (-120 : ℤ), (2 : ℝ) ^ (-180 : ℤ)] := by
    rw [← h2, ← h3]; rfl
  have r0 : ∀ a ∈ given (machine double.rne var) 2 false, double.Rep a := by
    rw [g0]; intro a ha; fin_cases ha <;> exact Float.double_pow (by norm_num)
  have r1 : ∀ a ∈ given (machine double.rne var) 2 true, double.Rep a := by
    rw [g1]; intro a ha; fin_cases ha <;> exact Float.double_pow (by norm_num)
  have m : ∀ a ∈ given (machine double.rne var) 2 false ++ given (machine double.rne var) 2 true, |a| ≤ (1 : ℝ) := by
    rw [g0, g1]; intro a ha; fin_cases ha <;> norm_num
  have A := C71_add_accuracy e (rne_symmetric double) (machine_fused var) (h _ _) Float.double_rounds (by norm_num) r0 r1 m (by norm_num) env
  have B := C71_sub_accuracy f (rne_symmetric double) (machine_fused var) (g _ _) Float.double_rounds (by norm_num) r0 r1 m (by norm_num) env
  rw [g0, g1] at A B
  constructor
  · simpa using A
  · simpa using B

end Mandelbrot.Sym
