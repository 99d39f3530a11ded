import Verif.Sym.Block

/-!
# The code of a block computes its expressions
-/

namespace Mandelbrot.Sym

open Sig (Sg)

/-- The variables of an expression. -/
def Ex.vars : Ex → List String
  | .var v _ => [v]
  | .int _ => []
  | .field x _ _ => x.vars
  | .neg x _ => x.vars
  | .add x y _ => x.vars ++ y.vars
  | .sub x y _ => x.vars ++ y.vars
  | .mul x y _ => x.vars ++ y.vars
  | .div x _ _ => x.vars
  | .call1 _ x _ => x.vars
  | .call2 _ x y _ => x.vars ++ y.vars
  | .call3 _ x y z _ => x.vars ++ y.vars ++ z.vars
  | .other _ _ _ => []

/-- The parts of an expression, with itself. -/
def Ex.subs : Ex → List Ex
  | .var v s => [.var v s]
  | .int n => [.int n]
  | .field x f s => .field x f s :: x.subs
  | .neg x s => .neg x s :: x.subs
  | .add x y s => .add x y s :: (x.subs ++ y.subs)
  | .sub x y s => .sub x y s :: (x.subs ++ y.subs)
  | .mul x y s => .mul x y s :: (x.subs ++ y.subs)
  | .div x a s => .div x a s :: x.subs
  | .call1 f x s => .call1 f x s :: x.subs
  | .call2 f x y s => .call2 f x y s :: (x.subs ++ y.subs)
  | .call3 f x y z s => .call3 f x y z s :: (x.subs ++ y.subs ++ z.subs)
  | .other t p s => [.other t p s]

theorem Ex.self_mem_subs (e : Ex) : e ∈ e.subs := by cases e <;> simp [Ex.subs]

namespace Spec

/-- The names a piece of code declares, in order. -/
def declared : List Item → List String
  | [] => []
  | .decl v :: l => v :: declared l
  | .def v _ :: l => v :: declared l
  | .out _ :: l => declared l

/-- The names of the inputs. -/
def inputs : List Item → List String
  | [] => []
  | .decl v :: l => v :: inputs l
  | .def _ _ :: l => inputs l
  | .out _ :: l => inputs l

/-- No name is declared twice, and each is declared before it is used; `D` are the names of before. -/
def Scoped : List String → List Item → Prop
  | _, [] => True
  | D, .decl v :: l => v ∉ D ∧ Scoped (D ++ [v]) l
  | D, .def v e :: l => v ∉ D ∧ (∀ w ∈ e.vars, w ∈ D) ∧ Scoped (D ++ [v]) l
  | D, .out e :: l => (∀ w ∈ e.vars, w ∈ D) ∧ Scoped D l

section
variable {R : Type} [IntCast R] [Neg R] [Add R] [Sub R] [Mul R]

/-- The same interpretation with other values of the variables. -/
def withVar (ρ : Interp R) (env : String → R) : Interp R := { ρ with var := env }

/-- The values of all names after the code, when inputs have the values `ρ.var`. -/
def after (ρ : Interp R) : List Item → (String → R) → String → R
  | [], env => env
  | .decl v :: l, env => after ρ l (Function.update env v (ρ.var v))
  | .def v e :: l, env => after ρ l (Function.update env v (e.val (withVar ρ env)))
  | .out _ :: l, env => after ρ l env

/-- The values the code puts out. -/
def outputs (ρ : Interp R) : List Item → (String → R) → List R
  | [], _ => []
  | .decl v :: l, env => outputs ρ l (Function.update env v (ρ.var v))
  | .def v e :: l, env => outputs ρ l (Function.update env v (e.val (withVar ρ env)))
  | .out e :: l, env => e.val (withVar ρ env) :: outputs ρ l env

end

/-- The expressions whose code is requested. -/
def requested : List Act → List Ex
  | [] => []
  | .out x :: l => x :: requested l
  | _ :: l => requested l

/-- Requested expressions only have inputs declared before. -/
def Known : List String → List Act → Prop
  | _, [] => True
  | D, .input v :: l => Known (v :: D) l
  | D, .use _ :: l => Known D l
  | D, .out x :: l => (∀ w ∈ x.vars, w ∈ D) ∧ Known D l

end Spec

open Spec

theorem declared_append (a b : List Item) : declared (a ++ b) = declared a ++ declared b := by
  induction a with
  | nil => rfl
  | cons i a ih => cases i <;> simp [declared, ih]

theorem inputs_append (a b : List Item) : inputs (a ++ b) = inputs a ++ inputs b := by
  induction a with
  | nil => rfl
  | cons i a ih => cases i <;> simp [inputs, ih]

theorem inputs_sub (a : List Item) : ∀ v ∈ inputs a, v ∈ declared a := by
  induction a with
  | nil => intro v h; simp [inputs] at h
  | cons i a ih =>
    intro v h
    cases i with
    | decl w =>
      simp only [inputs, declared, List.mem_cons] at h ⊢
      rcases h with h | h
      · exact Or.inl h
      · exact Or.inr (ih v h)
    | «def» w e => simp only [inputs, declared, List.mem_cons] at h ⊢; exact Or.inr (ih v h)
    | out e => exact ih v h

theorem scoped_append (a : List Item) : ∀ (D : List String) (b : List Item),
    Scoped D (a ++ b) ↔ Scoped D a ∧ Scoped (D ++ declared a) b := by
  induction a with
  | nil => intro D b; simp [Scoped, declared]
  | cons i a ih =>
    intro D b
    cases i <;> simp only [List.cons_append, Scoped, declared, ih, List.append_assoc, List.nil_append, and_assoc]

section
variable {R : Type} [IntCast R] [Neg R] [Add R] [Sub R] [Mul R]

theorem after_append (ρ : Interp R) (a : List Item) : ∀ (b : List Item) env, after ρ (a ++ b) env = after ρ b (after ρ a env) := by
  induction a with
  | nil => intro b env; rfl
  | cons i a ih => intro b env; cases i <;> simp only [List.cons_append, after, ih]

theorem outputs_append (ρ : Interp R) (a : List Item) : ∀ (b : List Item) env,
    outputs ρ (a ++ b) env = outputs ρ a env ++ outputs ρ b (after ρ a env) := by
  induction a with
  | nil => intro b env; rfl
  | cons i a ih => intro b env; cases i <;> simp only [List.cons_append, outputs, after, ih]

/-- Later code does not change a name declared before. -/
theorem after_old (ρ : Interp R) (a : List Item) : ∀ (D : List String) env v, Scoped D a → v ∈ D → after ρ a env v = env v := by
  induction a with
  | nil => intro D env v _ _; rfl
  | cons i a ih =>
    intro D env v h hv
    cases i with
    | decl w =>
      simp only [Scoped] at h
      rw [after, ih _ _ v h.2 (by simp [hv])]
      exact Function.update_of_ne (by rintro rfl; exact h.1 hv) _ _
    | «def» w e =>
      simp only [Scoped] at h
      rw [after, ih _ _ v h.2.2 (by simp [hv])]
      exact Function.update_of_ne (by rintro rfl; exact h.1 hv) _ _
    | out e =>
      simp only [Scoped] at h
      exact ih D env v h.2 hv

theorem val_congr (ρ : Interp R) (e : Ex) : ∀ {env env' : String → R}, (∀ v ∈ e.vars, env v = env' v) →
    e.val (withVar ρ env) = e.val (withVar ρ env') := by
  induction e with
  | var v s => intro env env' h; exact h v (by simp [Ex.vars])
  | int n => intro env env' _; rfl
  | field x f s ih => intro env env' h; simp only [Ex.val]; rw [ih h]; rfl
  | neg x s ih => intro env env' h; simp only [Ex.val]; rw [ih h]
  | add x y s ihx ihy =>
    intro env env' h; simp only [Ex.vars, List.mem_append] at h
    simp only [Ex.val]; rw [ihx fun v hv => h v (Or.inl hv), ihy fun v hv => h v (Or.inr hv)]
  | sub x y s ihx ihy =>
    intro env env' h; simp only [Ex.vars, List.mem_append] at h
    simp only [Ex.val]; rw [ihx fun v hv => h v (Or.inl hv), ihy fun v hv => h v (Or.inr hv)]
  | mul x y s ihx ihy =>
    intro env env' h; simp only [Ex.vars, List.mem_append] at h
    simp only [Ex.val]; rw [ihx fun v hv => h v (Or.inl hv), ihy fun v hv => h v (Or.inr hv)]
  | div x a s ih => intro env env' h; simp only [Ex.val]; rw [ih h]; rfl
  | call1 f x s ih => intro env env' h; simp only [Ex.val]; rw [ih h]; rfl
  | call2 f x y s ihx ihy =>
    intro env env' h; simp only [Ex.vars, List.mem_append] at h
    simp only [Ex.val]; rw [ihx fun v hv => h v (Or.inl hv), ihy fun v hv => h v (Or.inr hv)]; rfl
  | call3 f x y z s ihx ihy ihz =>
    intro env env' h; simp only [Ex.vars, List.mem_append] at h
    simp only [Ex.val]
    rw [ihx fun v hv => h v (Or.inl (Or.inl hv)), ihy fun v hv => h v (Or.inl (Or.inr hv)), ihz fun v hv => h v (Or.inr hv)]; rfl
  | other t p s => intro env env' _; rfl

/-- Invariant of a block: the code is well-scoped, and the variables in `lets` have the values of the expressions. -/
structure Inv (C : Cfg) (ρ : Interp R) (U : Ex → Prop) (B : Blk) : Prop where
  wf : Scoped [] B.code
  names : ∀ v ∈ declared B.code, v ∈ B.names
  inputs : ∀ env v, v ∈ inputs B.code → after ρ B.code env v = ρ.var v
  lets : ∀ s v, B.lets s = some v → ∃ n, v = .var n s ∧ n ∈ declared B.code ∧
    ∀ e, U e → e.sig C = s → ∀ env, after ρ B.code env n = e.val ρ

/-- The block grew by temporaries only. -/
def Ext (B B' : Blk) : Prop := ∃ l : List (String × Ex), B'.code = B.code ++ l.map fun p => .def p.1 p.2

theorem Ext.refl (B : Blk) : Ext B B := ⟨[], by simp⟩
theorem Ext.trans {A B D : Blk} (h1 : Ext A B) (h2 : Ext B D) : Ext A D := by
  obtain ⟨l, e⟩ := h1
  obtain ⟨m, f⟩ := h2
  exact ⟨l ++ m, by rw [f, e, List.map_append, List.append_assoc]⟩

theorem inputs_defs (l : List (String × Ex)) : Spec.inputs (l.map fun p => .def p.1 p.2) = [] := by
  induction l with
  | nil => rfl
  | cons p l ih => simpa [Spec.inputs] using ih

theorem outputs_defs (ρ : Interp R) (l : List (String × Ex)) : ∀ env, outputs ρ (l.map fun p => .def p.1 p.2) env = [] := by
  induction l with
  | nil => intro env; rfl
  | cons p l ih => intro env; simpa [outputs] using ih _

theorem Ext.inputs {B B' : Blk} (h : Ext B B') : Spec.inputs B'.code = Spec.inputs B.code := by
  obtain ⟨l, e⟩ := h
  rw [e, inputs_append, inputs_defs, List.append_nil]

theorem Ext.declared {B B' : Blk} (h : Ext B B') : ∀ v ∈ Spec.declared B.code, v ∈ Spec.declared B'.code := by
  obtain ⟨l, e⟩ := h
  intro v hv
  rw [e, declared_append]
  exact List.mem_append_left _ hv

theorem Ext.after {B B' : Blk} (h : Ext B B') (hs : Scoped [] B'.code) (ρ : Interp R) (env : String → R) {v : String}
    (hv : v ∈ Spec.declared B.code) : Spec.after ρ B'.code env v = Spec.after ρ B.code env v := by
  obtain ⟨l, e⟩ := h
  rw [e, scoped_append] at hs
  rw [e, after_append]
  exact after_old ρ _ _ _ v hs.2 (by simpa using hv)

/-- What `compute` does. -/
structure CStep (C : Cfg) (ρ : Interp R) (U : Ex → Prop) (v : R) (B : Blk) (r : Ex × Blk) : Prop where
  inv : Inv C ρ U r.2
  ext : Ext B r.2
  vars : ∀ w ∈ r.1.vars, w ∈ declared r.2.code
  val : ∀ env, r.1.val (withVar ρ (after ρ r.2.code env)) = v

/-- A result is still good after more temporaries. -/
theorem CStep.later {C : Cfg} {ρ : Interp R} {U : Ex → Prop} {v : R} {B B' : Blk} {r : Ex × Blk} (h : CStep C ρ U v B r)
    (he : Ext r.2 B') (hi : Inv C ρ U B') :
    (∀ w ∈ r.1.vars, w ∈ declared B'.code) ∧ ∀ env, r.1.val (withVar ρ (after ρ B'.code env)) = v := by
  refine ⟨fun w hw => he.declared w (h.vars w hw), fun env => ?_⟩
  rw [← h.val env]
  exact val_congr ρ _ fun w hw => he.after hi.wf ρ env (h.vars w hw)

theorem fresh_not_mem (pre : String) (names : List String) : fresh pre names ∉ names :=
  Nat.find_spec (exists_fresh pre names)

theorem finish_step {C : Cfg} {ρ : Interp R} {U : Ex → Prop} (hU : ∀ e e', U e → U e' → e.sig C = e'.sig C → e.val ρ = e'.val ρ)
    {x y : Ex} (hx : U x) (hy : y.sig C = x.sig C) {B0 B : Blk} (h : CStep C ρ U (x.val ρ) B0 (y, B)) :
    CStep C ρ U (x.val ρ) B0 (B.finish C x y) := by
  unfold Blk.finish
  split_ifs with hf
  · exact h
  · simp only [Blk.now]
    have hi := h.inv
    simp only at hi
    have hn := fresh_not_mem "t" B.names
    set n := fresh "t" B.names
    have hnd : n ∉ declared B.code := fun hm => hn (hi.names n hm)
    have hsc : Scoped [] (B.code ++ [.def n y]) := by
      rw [scoped_append]
      exact ⟨hi.wf, by simpa using hnd, by simpa using h.vars, trivial⟩
    have hd : ∀ v, v ∈ declared (B.code ++ [.def n y]) ↔ v ∈ declared B.code ∨ v = n := by
      intro v; rw [declared_append]; simp [declared]
    have hnew : ∀ env, after ρ (B.code ++ [.def n y]) env n = x.val ρ := by
      intro env
      rw [after_append]
      simp only [after, Function.update_self]
      exact h.val env
    have hold : ∀ env v, v ∈ declared B.code → after ρ (B.code ++ [.def n y]) env v = after ρ B.code env v := by
      intro env v hv
      rw [after_append]
      simp only [after]
      exact Function.update_of_ne (by rintro rfl; exact hnd hv) _ _
    refine ⟨⟨hsc, ?_, ?_, ?_⟩, h.ext.trans ⟨[(n, y)], rfl⟩, ?_, ?_⟩
    · intro v hv
      rcases (hd v).mp hv with hv | rfl
      · exact List.mem_cons_of_mem _ (hi.names v hv)
      · simp
    · intro env v hv
      have : v ∈ inputs B.code := by simpa [inputs_append, inputs] using hv
      rw [hold env v (inputs_sub _ v this)]
      exact hi.inputs env v this
    · intro s v hv
      simp only at hv
      split_ifs at hv with hs
      · rw [Option.some.injEq] at hv
        refine ⟨n, by rw [← hv, hs, hy], (hd n).mpr (Or.inr rfl), fun e he hes env => ?_⟩
        rw [hnew env]
        exact hU x e hx he (by rw [hes, hs])
      · obtain ⟨m, e1, e2, e3⟩ := hi.lets s v hv
        exact ⟨m, e1, (hd m).mpr (Or.inl e2), fun e he hes env => by rw [hold env m e2]; exact e3 e he hes env⟩
    · intro w hw
      simp only [Ex.vars, List.mem_singleton] at hw
      rw [hw]
      exact (hd n).mpr (Or.inr rfl)
    · intro env
      exact hnew env

theorem around_step {C : Cfg} {ρ : Interp R} {U : Ex → Prop} (hU : ∀ e e', U e → U e' → e.sig C = e'.sig C → e.val ρ = e'.val ρ)
    {x : Ex} (hx : U x) {B : Blk} (hi : Inv C ρ U B) {k : Res (Ex × Blk)}
    (hk : ∀ r, k = .ok r → r.1.sig C = x.sig C ∧ CStep C ρ U (x.val ρ) B r) {r} (hr : B.around C x k = .ok r) :
    CStep C ρ U (x.val ρ) B r := by
  unfold Blk.around at hr
  cases hl : B.lets (x.sig C) with
  | some v =>
    rw [hl] at hr
    simp only [Except.ok.injEq] at hr
    subst hr
    obtain ⟨n, e1, e2, e3⟩ := hi.lets _ v hl
    refine ⟨hi, Ext.refl B, ?_, fun env => ?_⟩
    · rw [e1]; intro w hw; simp only [Ex.vars, List.mem_singleton] at hw; rw [hw]; exact e2
    · rw [e1]; exact e3 x hx rfl env
  | none =>
    rw [hl] at hr
    simp only at hr
    by_cases hc : B.counts (x.sig C) = 0
    · rw [if_pos hc] at hr; simp at hr
    rw [if_neg hc] at hr
    cases k with
    | error e => simp at hr
    | ok p =>
      obtain ⟨y, B1⟩ := p
      simp only [Except.ok.injEq] at hr
      subst hr
      obtain ⟨h1, h2⟩ := hk _ rfl
      exact finish_step hU hx h1 h2

theorem bind_pair {α : Type} {x : Res (Ex × Blk)} {f : Ex → Blk → Res α} {r : α} :
    (x >>= fun p => f p.1 p.2) = .ok r ↔ ∃ p, x = .ok p ∧ f p.1 p.2 = .ok r := by
  cases x with
  | error e => simp [bind, Except.bind]
  | ok p => simp [bind, Except.bind]

theorem compute_step {C : Cfg} {ρ : Interp R} {U : Ex → Prop}
    (hU : ∀ e e', U e → U e' → e.sig C = e'.sig C → e.val ρ = e'.val ρ) :
    ∀ (x : Ex) {B : Blk} {r : Ex × Blk}, Inv C ρ U B → (∀ e ∈ x.subs, U e) → (∀ v ∈ x.vars, v ∈ inputs B.code) →
      compute C x B = .ok r → CStep C ρ U (x.val ρ) B r := by
  intro x
  -- one, two and three arguments
  have one : ∀ {x : Ex} {x1 : Ex} (mk : Ex → Ex) (g : R → R),
      (∀ {B : Blk} {r : Ex × Blk}, Inv C ρ U B → (∀ e ∈ x1.subs, U e) → (∀ v ∈ x1.vars, v ∈ inputs B.code) →
        compute C x1 B = .ok r → CStep C ρ U (x1.val ρ) B r) →
      (∀ a, (mk a).vars = a.vars) → (∀ (ρ' : String → R) a, (mk a).val (withVar ρ ρ') = g (a.val (withVar ρ ρ'))) →
      (∀ a, (mk a).sig C = x.sig C) → x.val ρ = g (x1.val ρ) → U x → (∀ e ∈ x1.subs, U e) →
      ∀ {B : Blk} {r : Ex × Blk}, Inv C ρ U B → (∀ v ∈ x1.vars, v ∈ inputs B.code) →
      B.around C x (do
        let (a, B) ← compute C x1 B
        return (mk a, B)) = .ok r → CStep C ρ U (x.val ρ) B r := by
    intro x x1 mk g ih hv hval hsig hxv hx hx1 B r hi hin hr
    refine around_step hU hx hi ?_ hr
    intro p hp
    rw [bind_pair (f := fun a B => pure (mk a, B))] at hp
    obtain ⟨⟨a, B1⟩, h1, h2⟩ := hp
    simp only [pok, Except.ok.injEq] at h2
    subst h2
    have s1 := ih hi hx1 hin h1
    refine ⟨hsig a, s1.inv, s1.ext, by simpa only [hv] using s1.vars, fun env => ?_⟩
    simp only
    rw [hval, hxv]
    exact congrArg g (s1.val env)
  have two : ∀ {x : Ex} {x1 x2 : Ex} (mk : Ex → Ex → Ex) (g : R → R → R),
      (∀ {B : Blk} {r : Ex × Blk}, Inv C ρ U B → (∀ e ∈ x1.subs, U e) → (∀ v ∈ x1.vars, v ∈ inputs B.code) →
        compute C x1 B = .ok r → CStep C ρ U (x1.val ρ) B r) →
      (∀ {B : Blk} {r : Ex × Blk}, Inv C ρ U B → (∀ e ∈ x2.subs, U e) → (∀ v ∈ x2.vars, v ∈ inputs B.code) →
        compute C x2 B = .ok r → CStep C ρ U (x2.val ρ) B r) →
      (∀ a b, (mk a b).vars = a.vars ++ b.vars) →
      (∀ (ρ' : String → R) a b, (mk a b).val (withVar ρ ρ') = g (a.val (withVar ρ ρ')) (b.val (withVar ρ ρ'))) →
      (∀ a b, (mk a b).sig C = x.sig C) → x.val ρ = g (x1.val ρ) (x2.val ρ) → U x → (∀ e ∈ x1.subs, U e) → (∀ e ∈ x2.subs, U e) →
      ∀ {B : Blk} {r : Ex × Blk}, Inv C ρ U B → (∀ v ∈ x1.vars, v ∈ inputs B.code) → (∀ v ∈ x2.vars, v ∈ inputs B.code) →
      B.around C x (do
        let (a, B) ← compute C x1 B
        let (b, B) ← compute C x2 B
        return (mk a b, B)) = .ok r → CStep C ρ U (x.val ρ) B r := by
    intro x x1 x2 mk g ih1 ih2 hv hval hsig hxv hx hx1 hx2 B r hi hin1 hin2 hr
    refine around_step hU hx hi ?_ hr
    intro p hp
    rw [bind_pair (f := fun a B => compute C x2 B >>= fun p => pure (mk a p.1, p.2))] at hp
    obtain ⟨⟨a, B1⟩, h1, h2⟩ := hp
    simp only at h2
    rw [bind_pair (f := fun b B => pure (mk a b, B))] at h2
    obtain ⟨⟨b, B2⟩, h2, h3⟩ := h2
    simp only [pok, Except.ok.injEq] at h3
    subst h3
    have s1 := ih1 hi hx1 hin1 h1
    have s2 := ih2 s1.inv hx2 (by rw [s1.ext.inputs]; exact hin2) h2
    obtain ⟨l1, l2⟩ := s1.later s2.ext s2.inv
    refine ⟨hsig a b, s2.inv, s1.ext.trans s2.ext, ?_, fun env => ?_⟩
    · simp only [hv, List.mem_append]
      rintro w (hw | hw)
      · exact l1 w hw
      · exact s2.vars w hw
    · simp only
      rw [hval, hxv]
      exact congrArg₂ g (l2 env) (s2.val env)
  induction x with
  | var v s =>
    intro B r hi hs hv hr
    refine around_step hU (hs _ (Ex.self_mem_subs _)) hi ?_ hr
    intro p hp
    cases hp
    refine ⟨rfl, hi, Ext.refl B, fun w hw => inputs_sub _ w (hv w hw), fun env => ?_⟩
    exact hi.inputs env v (hv v (by simp [Ex.vars]))
  | int n =>
    intro B r hi hs hv hr
    refine around_step hU (hs _ (Ex.self_mem_subs _)) hi ?_ hr
    intro p hp
    cases hp
    exact ⟨rfl, hi, Ext.refl B, fun w hw => by simp [Ex.vars] at hw, fun env => rfl⟩
  | other t p s =>
    intro B r hi hs hv hr
    refine around_step hU (hs _ (Ex.self_mem_subs _)) hi ?_ hr
    intro p hp
    cases hp
    exact ⟨rfl, hi, Ext.refl B, fun w hw => by simp [Ex.vars] at hw, fun env => rfl⟩
  | field x1 f s ih =>
    intro B r hi hs hv hr
    exact one (fun a => .field a f s) (ρ.field f) ih (fun _ => rfl) (fun _ _ => rfl) (fun _ => rfl) rfl
      (hs _ (Ex.self_mem_subs _)) (fun e he => hs e (by simp [Ex.subs, he])) hi hv hr
  | neg x1 s ih =>
    intro B r hi hs hv hr
    exact one (fun a => .neg a s) (fun a => -a) ih (fun _ => rfl) (fun _ _ => rfl) (fun _ => rfl) rfl
      (hs _ (Ex.self_mem_subs _)) (fun e he => hs e (by simp [Ex.subs, he])) hi hv hr
  | div x1 n s ih =>
    intro B r hi hs hv hr
    exact one (fun a => .div a n s) (fun a => ρ.div a n) ih (fun _ => rfl) (fun _ _ => rfl) (fun _ => rfl) rfl
      (hs _ (Ex.self_mem_subs _)) (fun e he => hs e (by simp [Ex.subs, he])) hi hv hr
  | call1 f x1 s ih =>
    intro B r hi hs hv hr
    exact one (fun a => .call1 f a s) (fun a => ρ.call f [a]) ih (fun _ => rfl) (fun _ _ => rfl) (fun _ => rfl) rfl
      (hs _ (Ex.self_mem_subs _)) (fun e he => hs e (by simp [Ex.subs, he])) hi hv hr
  | add x1 x2 s ih1 ih2 =>
    intro B r hi hs hv hr
    exact two (fun a b => .add a b s) (fun a b => a + b) ih1 ih2 (fun _ _ => rfl) (fun _ _ _ => rfl) (fun _ _ => rfl) rfl
      (hs _ (Ex.self_mem_subs _)) (fun e he => hs e (by simp [Ex.subs, he])) (fun e he => hs e (by simp [Ex.subs, he])) hi
      (fun v h => hv v (by simp [Ex.vars, h])) (fun v h => hv v (by simp [Ex.vars, h])) hr
  | sub x1 x2 s ih1 ih2 =>
    intro B r hi hs hv hr
    exact two (fun a b => .sub a b s) (fun a b => a - b) ih1 ih2 (fun _ _ => rfl) (fun _ _ _ => rfl) (fun _ _ => rfl) rfl
      (hs _ (Ex.self_mem_subs _)) (fun e he => hs e (by simp [Ex.subs, he])) (fun e he => hs e (by simp [Ex.subs, he])) hi
      (fun v h => hv v (by simp [Ex.vars, h])) (fun v h => hv v (by simp [Ex.vars, h])) hr
  | mul x1 x2 s ih1 ih2 =>
    intro B r hi hs hv hr
    exact two (fun a b => .mul a b s) (fun a b => a * b) ih1 ih2 (fun _ _ => rfl) (fun _ _ _ => rfl) (fun _ _ => rfl) rfl
      (hs _ (Ex.self_mem_subs _)) (fun e he => hs e (by simp [Ex.subs, he])) (fun e he => hs e (by simp [Ex.subs, he])) hi
      (fun v h => hv v (by simp [Ex.vars, h])) (fun v h => hv v (by simp [Ex.vars, h])) hr
  | call2 f x1 x2 s ih1 ih2 =>
    intro B r hi hs hv hr
    exact two (fun a b => .call2 f a b s) (fun a b => ρ.call f [a, b]) ih1 ih2 (fun _ _ => rfl) (fun _ _ _ => rfl) (fun _ _ => rfl)
      rfl (hs _ (Ex.self_mem_subs _)) (fun e he => hs e (by simp [Ex.subs, he])) (fun e he => hs e (by simp [Ex.subs, he])) hi
      (fun v h => hv v (by simp [Ex.vars, h])) (fun v h => hv v (by simp [Ex.vars, h])) hr
  | call3 f x1 x2 x3 s ih1 ih2 ih3 =>
    intro B r hi hs hv hr
    refine around_step hU (hs _ (Ex.self_mem_subs _)) hi ?_ hr
    intro p hp
    rw [bind_pair (f := fun a B => compute C x2 B >>= fun p => compute C x3 p.2 >>= fun q => pure (Ex.call3 f a p.1 q.1 s, q.2))] at hp
    obtain ⟨⟨a, B1⟩, h1, h2⟩ := hp
    simp only at h2
    rw [bind_pair (f := fun b B => compute C x3 B >>= fun q => pure (Ex.call3 f a b q.1 s, q.2))] at h2
    obtain ⟨⟨b, B2⟩, h2, h3⟩ := h2
    simp only at h3
    rw [bind_pair (f := fun c B => pure (Ex.call3 f a b c s, B))] at h3
    obtain ⟨⟨c, B3⟩, h3, h4⟩ := h3
    simp only [pok, Except.ok.injEq] at h4
    subst h4
    have s1 := ih1 hi (fun e he => hs e (by simp [Ex.subs, he])) (fun v h => hv v (by simp [Ex.vars, h])) h1
    have s2 := ih2 s1.inv (fun e he => hs e (by simp [Ex.subs, he]))
      (fun v h => by rw [s1.ext.inputs]; exact hv v (by simp [Ex.vars, h])) h2
    have s3 := ih3 s2.inv (fun e he => hs e (by simp [Ex.subs, he]))
      (fun v h => by rw [s2.ext.inputs, s1.ext.inputs]; exact hv v (by simp [Ex.vars, h])) h3
    obtain ⟨k1, k2⟩ := s1.later (s2.ext.trans s3.ext) s3.inv
    obtain ⟨l1, l2⟩ := s2.later s3.ext s3.inv
    refine ⟨rfl, s3.inv, (s1.ext.trans s2.ext).trans s3.ext, ?_, fun env => ?_⟩
    · simp only [Ex.vars, List.mem_append]
      rintro w ((hw | hw) | hw)
      · exact k1 w hw
      · exact l1 w hw
      · exact s3.vars w hw
    · have q1 := k2 env
      have q2 := l2 env
      have q3 := s3.val env
      simp only at q1 q2 q3
      simp only [Ex.val]
      rw [q1, q2, q3]
      rfl

/-- The actions keep the invariant and put out the values. -/
theorem runActs_step {C : Cfg} {ρ : Interp R} {U : Ex → Prop}
    (hU : ∀ e e', U e → U e' → e.sig C = e'.sig C → e.val ρ = e'.val ρ) :
    ∀ (l : List Act) {B B' : Blk}, Inv C ρ U B → (∀ x ∈ requested l, ∀ e ∈ x.subs, U e) → Known (inputs B.code) l →
      runActs C l B = .ok B' → Inv C ρ U B' ∧ ∃ more, B'.code = B.code ++ more ∧
        ∀ env, outputs ρ more (after ρ B.code env) = (requested l).map (Ex.val ρ) := by
  intro l
  induction l with
  | nil =>
    intro B B' hi _ _ hr
    simp only [runActs, Except.ok.injEq] at hr
    subst hr
    exact ⟨hi, [], by simp, fun env => rfl⟩
  | cons a l ih =>
    intro B B' hi hq hk hr
    simp only [runActs] at hr
    cases a with
    | input v =>
      simp only [Act.exec, Blk.input] at hr
      by_cases hv : v ∈ B.names
      · rw [slowAssert, if_neg (by simpa using hv)] at hr
        simp [bind, Except.bind] at hr
      rw [slowAssert_true (by simpa using hv), bok, pok] at hr
      simp only at hr
      have hnd : v ∉ declared B.code := fun h => hv (hi.names v h)
      have hd : ∀ w, w ∈ declared (B.code ++ [.decl v]) ↔ w ∈ declared B.code ∨ w = v := by
        intro w; rw [declared_append]; simp [declared]
      have hold : ∀ env w, w ∈ declared B.code → after ρ (B.code ++ [.decl v]) env w = after ρ B.code env w := by
        intro env w hw
        rw [after_append]
        simp only [after]
        exact Function.update_of_ne (by rintro rfl; exact hnd hw) _ _
      have hi' : Inv C ρ U { B with names := v :: B.names, code := B.code ++ [.decl v] } := by
        refine ⟨?_, ?_, ?_, ?_⟩
        · rw [scoped_append]; exact ⟨hi.wf, by simpa using hnd, trivial⟩
        · intro w hw
          rcases (hd w).mp hw with hw | rfl
          · exact List.mem_cons_of_mem _ (hi.names w hw)
          · simp
        · intro env w hw
          have : w ∈ inputs B.code ∨ w = v := by simpa [inputs_append, inputs] using hw
          rcases this with hw | rfl
          · simp only
            rw [hold env w (inputs_sub _ w hw)]; exact hi.inputs env w hw
          · simp [after_append, after]
        · intro s x hx
          obtain ⟨n, e1, e2, e3⟩ := hi.lets s x hx
          refine ⟨n, e1, (hd n).mpr (Or.inl e2), fun e he hes env => ?_⟩
          simp only
          rw [hold env n e2]; exact e3 e he hes env
      obtain ⟨h1, more, h2, h3⟩ := ih hi' hq (by
        simp only [Known] at hk
        refine (?_ : ∀ (l : List Act) (D D' : List String), (∀ w ∈ D, w ∈ D') → Known D l → Known D' l) l _ _ ?_ hk
        · intro l
          induction l with
          | nil => intro D D' _ _; trivial
          | cons a l ih =>
            intro D D' hD h
            cases a with
            | input u =>
              refine ih _ _ ?_ h
              intro w hw
              rcases List.mem_cons.mp hw with rfl | hw
              · simp
              · exact List.mem_cons_of_mem _ (hD w hw)
            | use x => exact ih _ _ hD h
            | out x => exact ⟨fun w hw => hD w (h.1 w hw), ih _ _ hD h.2⟩
        · intro w hw
          simp only [inputs_append, inputs, List.mem_append, List.mem_singleton]
          rcases List.mem_cons.mp hw with rfl | hw
          · exact Or.inr rfl
          · exact Or.inl hw) hr
      refine ⟨h1, .decl v :: more, by rw [h2]; simp, fun env => ?_⟩
      have := h3 env
      simp only [after_append, after] at this
      simpa [outputs, requested] using this
    | use x =>
      simp only [Act.exec] at hr
      have hi' : Inv C ρ U (B.use C x) := ⟨hi.wf, hi.names, hi.inputs, hi.lets⟩
      have := ih (B := B.use C x) hi' hq hk hr
      exact this
    | out x =>
      simp only [Act.exec] at hr
      cases hc : compute C x B with
      | error e => rw [hc] at hr; simp at hr
      | ok p =>
        obtain ⟨y, B1⟩ := p
        rw [hc] at hr
        simp only at hr
        simp only [Known] at hk
        have s := compute_step hU x hi (hq x (by simp [requested])) hk.1 hc
        have si := s.inv
        simp only at si
        have hd : declared (B1.code ++ [.out y]) = declared B1.code := by rw [declared_append]; simp [declared]
        have hin : inputs (B1.code ++ [.out y]) = inputs B.code := by
          rw [inputs_append]; simp only [inputs, List.append_nil]; exact s.ext.inputs
        have haf : ∀ env, after ρ (B1.code ++ [.out y]) env = after ρ B1.code env := by intro env; rw [after_append]; rfl
        have hi' : Inv C ρ U { B1 with code := B1.code ++ [.out y] } := by
          refine ⟨?_, ?_, ?_, ?_⟩
          · rw [scoped_append]; exact ⟨si.wf, by simpa using s.vars, trivial⟩
          · simp only [hd]; exact si.names
          · intro env v hv
            simp only [haf]
            simp only [hin, ← s.ext.inputs] at hv
            exact si.inputs env v hv
          · simp only [hd, haf]; exact si.lets
        obtain ⟨h1, more, h2, h3⟩ := ih hi' (fun x' hx' => hq x' (by simp [requested, hx'])) (by simp only [hin]; exact hk.2) hr
        obtain ⟨ts, ht⟩ := s.ext
        simp only at ht
        refine ⟨h1, (ts.map fun p => .def p.1 p.2) ++ .out y :: more, by rw [h2]; simp [ht], fun env => ?_⟩
        have e1 := h3 env
        simp only [haf] at e1
        have e2 := s.val env
        simp only at e2
        rw [outputs_append, outputs_defs, List.nil_append, ← after_append, ← ht]
        simp only [outputs, requested, List.map_cons]
        rw [e1, e2]

end

/-! ## Success -/

theorem bump_self (c : Sg → ℕ) (s : Sg) : bump c s s ≠ 0 := by simp [bump]
theorem bump_mono {c : Sg → ℕ} {s t : Sg} (h : c t ≠ 0) : bump c s t ≠ 0 := by unfold bump; split_ifs <;> omega
theorem bump_cases {c : Sg → ℕ} {s t : Sg} (h : bump c s t ≠ 0) : t = s ∨ c t ≠ 0 := by
  unfold bump at h; split_ifs at h with h1
  · exact Or.inl h1
  · exact Or.inr h

theorem useEx_mono (C : Cfg) : ∀ (x : Ex) (c : Sg → ℕ) (t : Sg), c t ≠ 0 → useEx C x c t ≠ 0 := by
  intro x
  induction x with
  | var v s => intro c t h; exact bump_mono h
  | int n => intro c t h; exact bump_mono h
  | other u p s => intro c t h; exact bump_mono h
  | field x f s ih => intro c t h; simp only [useEx]; apply bump_mono; split_ifs; exacts [ih _ _ h, h]
  | neg x s ih => intro c t h; simp only [useEx]; apply bump_mono; split_ifs; exacts [ih _ _ h, h]
  | div x a s ih => intro c t h; simp only [useEx]; apply bump_mono; split_ifs; exacts [ih _ _ h, h]
  | call1 f x s ih => intro c t h; simp only [useEx]; apply bump_mono; split_ifs; exacts [ih _ _ h, h]
  | add x y s ihx ihy => intro c t h; simp only [useEx]; apply bump_mono; split_ifs; exacts [ihy _ _ (ihx _ _ h), h]
  | sub x y s ihx ihy => intro c t h; simp only [useEx]; apply bump_mono; split_ifs; exacts [ihy _ _ (ihx _ _ h), h]
  | mul x y s ihx ihy => intro c t h; simp only [useEx]; apply bump_mono; split_ifs; exacts [ihy _ _ (ihx _ _ h), h]
  | call2 f x y s ihx ihy => intro c t h; simp only [useEx]; apply bump_mono; split_ifs; exacts [ihy _ _ (ihx _ _ h), h]
  | call3 f x y z s ihx ihy ihz =>
    intro c t h; simp only [useEx]; apply bump_mono; split_ifs; exacts [ihz _ _ (ihy _ _ (ihx _ _ h)), h]

/-- Whatever is counted has all its parts counted. -/
def CClosed (C : Cfg) (U : Ex → Prop) (c : Sg → ℕ) : Prop := ∀ e, U e → c (e.sig C) ≠ 0 → ∀ a ∈ e.subs, c (a.sig C) ≠ 0

theorem useEx_closed {C : Cfg} {U : Ex → Prop} (hU : ∀ e e', U e → U e' → e.sig C = e'.sig C → e = e') :
    ∀ (x : Ex) {c : Sg → ℕ}, (∀ e ∈ x.subs, U e) → CClosed C U c →
      CClosed C U (useEx C x c) ∧ ∀ a ∈ x.subs, useEx C x c (a.sig C) ≠ 0 := by
  -- a node whose arguments `l` are counted
  have node : ∀ {x : Ex} {l : List Ex} {c c' : Sg → ℕ}, U x → (∀ a ∈ x.subs, a = x ∨ a ∈ l) → CClosed C U c' → CClosed C U c →
      (∀ a ∈ l, c' (a.sig C) ≠ 0) →
      CClosed C U (bump (if c (x.sig C) = 0 then c' else c) (x.sig C)) ∧
        ∀ a ∈ x.subs, bump (if c (x.sig C) = 0 then c' else c) (x.sig C) (a.sig C) ≠ 0 := by
    intro x l c c' hx hl h' h hc
    have key : ∀ a ∈ x.subs, bump (if c (x.sig C) = 0 then c' else c) (x.sig C) (a.sig C) ≠ 0 := by
      intro a ha
      by_cases h0 : c (x.sig C) = 0
      · rw [if_pos h0]
        rcases hl a ha with rfl | hm
        · exact bump_self _ _
        · exact bump_mono (hc a hm)
      · rw [if_neg h0]
        exact bump_mono (h x hx h0 a ha)
    refine ⟨?_, key⟩
    intro e he hn a ha
    rcases bump_cases hn with hs | hs
    · rw [hU e x he hx hs] at ha
      exact key a ha
    · by_cases h0 : c (x.sig C) = 0
      · rw [if_pos h0] at hs ⊢; exact bump_mono (h' e he hs a ha)
      · rw [if_neg h0] at hs ⊢; exact bump_mono (h e he hs a ha)
  have leaf : ∀ {x : Ex} {c : Sg → ℕ}, U x → x.subs = [x] → CClosed C U c →
      CClosed C U (bump c (x.sig C)) ∧ ∀ a ∈ x.subs, bump c (x.sig C) (a.sig C) ≠ 0 := by
    intro x c hx hs h
    have := node (x := x) (l := []) (c := c) (c' := c) hx (fun a ha => by rw [hs] at ha; simpa using ha) h h (by simp)
    simpa using this
  intro x
  induction x with
  | var v s => intro c hx h; exact leaf (hx _ (Ex.self_mem_subs _)) rfl h
  | int n => intro c hx h; exact leaf (hx _ (Ex.self_mem_subs _)) rfl h
  | other u p s => intro c hx h; exact leaf (hx _ (Ex.self_mem_subs _)) rfl h
  | field x f s ih =>
    intro c hx h
    have i1 := ih (fun e he => hx e (by simp [Ex.subs, he])) h
    exact node (l := x.subs) (hx _ (Ex.self_mem_subs _)) (fun a ha => by simpa [Ex.subs] using ha) i1.1 h i1.2
  | neg x s ih =>
    intro c hx h
    have i1 := ih (fun e he => hx e (by simp [Ex.subs, he])) h
    exact node (l := x.subs) (hx _ (Ex.self_mem_subs _)) (fun a ha => by simpa [Ex.subs] using ha) i1.1 h i1.2
  | div x a s ih =>
    intro c hx h
    have i1 := ih (fun e he => hx e (by simp [Ex.subs, he])) h
    exact node (l := x.subs) (hx _ (Ex.self_mem_subs _)) (fun a ha => by simpa [Ex.subs] using ha) i1.1 h i1.2
  | call1 f x s ih =>
    intro c hx h
    have i1 := ih (fun e he => hx e (by simp [Ex.subs, he])) h
    exact node (l := x.subs) (hx _ (Ex.self_mem_subs _)) (fun a ha => by simpa [Ex.subs] using ha) i1.1 h i1.2
  | add x y s ihx ihy =>
    intro c hx h
    have i1 := ihx (fun e he => hx e (by simp [Ex.subs, he])) h
    have i2 := ihy (fun e he => hx e (by simp [Ex.subs, he])) i1.1
    refine node (l := x.subs ++ y.subs) (hx _ (Ex.self_mem_subs _)) (fun a ha => by simpa [Ex.subs] using ha) i2.1 h ?_
    intro a ha
    rcases List.mem_append.mp ha with ha | ha
    · exact useEx_mono _ _ _ _ (i1.2 a ha)
    · exact i2.2 a ha
  | sub x y s ihx ihy =>
    intro c hx h
    have i1 := ihx (fun e he => hx e (by simp [Ex.subs, he])) h
    have i2 := ihy (fun e he => hx e (by simp [Ex.subs, he])) i1.1
    refine node (l := x.subs ++ y.subs) (hx _ (Ex.self_mem_subs _)) (fun a ha => by simpa [Ex.subs] using ha) i2.1 h ?_
    intro a ha
    rcases List.mem_append.mp ha with ha | ha
    · exact useEx_mono _ _ _ _ (i1.2 a ha)
    · exact i2.2 a ha
  | mul x y s ihx ihy =>
    intro c hx h
    have i1 := ihx (fun e he => hx e (by simp [Ex.subs, he])) h
    have i2 := ihy (fun e he => hx e (by simp [Ex.subs, he])) i1.1
    refine node (l := x.subs ++ y.subs) (hx _ (Ex.self_mem_subs _)) (fun a ha => by simpa [Ex.subs] using ha) i2.1 h ?_
    intro a ha
    rcases List.mem_append.mp ha with ha | ha
    · exact useEx_mono _ _ _ _ (i1.2 a ha)
    · exact i2.2 a ha
  | call2 f x y s ihx ihy =>
    intro c hx h
    have i1 := ihx (fun e he => hx e (by simp [Ex.subs, he])) h
    have i2 := ihy (fun e he => hx e (by simp [Ex.subs, he])) i1.1
    refine node (l := x.subs ++ y.subs) (hx _ (Ex.self_mem_subs _)) (fun a ha => by simpa [Ex.subs] using ha) i2.1 h ?_
    intro a ha
    rcases List.mem_append.mp ha with ha | ha
    · exact useEx_mono _ _ _ _ (i1.2 a ha)
    · exact i2.2 a ha
  | call3 f x y z s ihx ihy ihz =>
    intro c hx h
    have i1 := ihx (fun e he => hx e (by simp [Ex.subs, he])) h
    have i2 := ihy (fun e he => hx e (by simp [Ex.subs, he])) i1.1
    have i3 := ihz (fun e he => hx e (by simp [Ex.subs, he])) i2.1
    refine node (l := x.subs ++ y.subs ++ z.subs) (hx _ (Ex.self_mem_subs _)) (fun a ha => by simpa [Ex.subs] using ha) i3.1 h ?_
    intro a ha
    rcases List.mem_append.mp ha with ha | ha
    · rcases List.mem_append.mp ha with ha | ha
      · exact useEx_mono _ _ _ _ (useEx_mono _ _ _ _ (i1.2 a ha))
      · exact useEx_mono _ _ _ _ (i2.2 a ha)
    · exact i3.2 a ha

theorem finish_counts (C : Cfg) (x y : Ex) (B : Blk) : (B.finish C x y).2.counts = B.counts := by
  unfold Blk.finish Blk.now; split_ifs <;> rfl

theorem around_ok {C : Cfg} {x : Ex} {B : Blk} (h : B.counts (x.sig C) ≠ 0) {k : Res (Ex × Blk)}
    (hk : ∃ r, k = .ok r ∧ r.2.counts = B.counts) : ∃ r, B.around C x k = .ok r ∧ r.2.counts = B.counts := by
  unfold Blk.around
  cases hl : B.lets (x.sig C) with
  | some v => exact ⟨_, rfl, rfl⟩
  | none =>
    simp only
    rw [if_neg h]
    obtain ⟨⟨y, B1⟩, e, hc⟩ := hk
    rw [e]
    exact ⟨_, rfl, by rw [finish_counts]; exact hc⟩

/-- `compute` succeeds when all parts are counted. -/
theorem compute_ok (C : Cfg) : ∀ (x : Ex) {B : Blk}, (∀ a ∈ x.subs, B.counts (a.sig C) ≠ 0) →
    ∃ r, compute C x B = .ok r ∧ r.2.counts = B.counts := by
  intro x
  have one : ∀ {x1 : Ex} (mk : Ex → Ex) {B : Blk}, (∃ r, compute C x1 B = .ok r ∧ r.2.counts = B.counts) →
      ∃ r, (do
        let (a, B) ← compute C x1 B
        return (mk a, B) : Res (Ex × Blk)) = .ok r ∧ r.2.counts = B.counts := by
    intro x1 mk B ⟨r, e, hc⟩
    rw [e]
    exact ⟨_, rfl, hc⟩
  have two : ∀ {x1 x2 : Ex} (mk : Ex → Ex → Ex) {B : Blk}, (∃ r, compute C x1 B = .ok r ∧ r.2.counts = B.counts) →
      (∀ {B' : Blk}, B'.counts = B.counts → ∃ r, compute C x2 B' = .ok r ∧ r.2.counts = B'.counts) →
      ∃ r, (do
        let (a, B) ← compute C x1 B
        let (b, B) ← compute C x2 B
        return (mk a b, B) : Res (Ex × Blk)) = .ok r ∧ r.2.counts = B.counts := by
    intro x1 x2 mk B ⟨r, e, hc⟩ h2
    obtain ⟨r2, e2, hc2⟩ := h2 hc
    rw [e]
    simp only [bind, Except.bind]
    rw [e2]
    exact ⟨_, rfl, hc2.trans hc⟩
  induction x with
  | var v s => intro B h; exact around_ok (h _ (Ex.self_mem_subs _)) ⟨_, rfl, rfl⟩
  | int n => intro B h; exact around_ok (h _ (Ex.self_mem_subs _)) ⟨_, rfl, rfl⟩
  | other u p s => intro B h; exact around_ok (h _ (Ex.self_mem_subs _)) ⟨_, rfl, rfl⟩
  | field x f s ih =>
    intro B h; exact around_ok (h _ (Ex.self_mem_subs _)) (one (fun a => .field a f s) (ih fun a ha => h a (by simp [Ex.subs, ha])))
  | neg x s ih =>
    intro B h; exact around_ok (h _ (Ex.self_mem_subs _)) (one (fun a => .neg a s) (ih fun a ha => h a (by simp [Ex.subs, ha])))
  | div x n s ih =>
    intro B h; exact around_ok (h _ (Ex.self_mem_subs _)) (one (fun a => .div a n s) (ih fun a ha => h a (by simp [Ex.subs, ha])))
  | call1 f x s ih =>
    intro B h; exact around_ok (h _ (Ex.self_mem_subs _)) (one (fun a => .call1 f a s) (ih fun a ha => h a (by simp [Ex.subs, ha])))
  | add x y s ihx ihy =>
    intro B h
    exact around_ok (h _ (Ex.self_mem_subs _)) (two (fun a b => .add a b s) (ihx fun a ha => h a (by simp [Ex.subs, ha]))
      (fun hc => ihy fun a ha => by rw [hc]; exact h a (by simp [Ex.subs, ha])))
  | sub x y s ihx ihy =>
    intro B h
    exact around_ok (h _ (Ex.self_mem_subs _)) (two (fun a b => .sub a b s) (ihx fun a ha => h a (by simp [Ex.subs, ha]))
      (fun hc => ihy fun a ha => by rw [hc]; exact h a (by simp [Ex.subs, ha])))
  | mul x y s ihx ihy =>
    intro B h
    exact around_ok (h _ (Ex.self_mem_subs _)) (two (fun a b => .mul a b s) (ihx fun a ha => h a (by simp [Ex.subs, ha]))
      (fun hc => ihy fun a ha => by rw [hc]; exact h a (by simp [Ex.subs, ha])))
  | call2 f x y s ihx ihy =>
    intro B h
    exact around_ok (h _ (Ex.self_mem_subs _)) (two (fun a b => .call2 f a b s) (ihx fun a ha => h a (by simp [Ex.subs, ha]))
      (fun hc => ihy fun a ha => by rw [hc]; exact h a (by simp [Ex.subs, ha])))
  | call3 f x y z s ihx ihy ihz =>
    intro B h
    refine around_ok (h _ (Ex.self_mem_subs _)) ?_
    obtain ⟨⟨a, B1⟩, e1, h1⟩ := ihx (B := B) fun a ha => h a (by simp [Ex.subs, ha])
    simp only at h1
    obtain ⟨⟨b, B2⟩, e2, h2⟩ := ihy (B := B1) fun a ha => by rw [h1]; exact h a (by simp [Ex.subs, ha])
    simp only at h2
    obtain ⟨⟨c, B3⟩, e3, h3⟩ := ihz (B := B2) fun a ha => by rw [h2, h1]; exact h a (by simp [Ex.subs, ha])
    rw [e1]
    simp only [bind, Except.bind]
    rw [e2]
    simp only
    rw [e3]
    exact ⟨_, rfl, h3.trans (h2.trans h1)⟩

namespace Spec

/-- Each requested expression was registered before; `l` are those registered so far. -/
def Used : List Ex → List Act → Prop
  | _, [] => True
  | l, .input _ :: acts => Used l acts
  | l, .use x :: acts => Used (x :: l) acts
  | l, .out x :: acts => x ∈ l ∧ Used l acts

/-- The registered expressions. -/
def used : List Act → List Ex
  | [] => []
  | .use x :: l => x :: used l
  | _ :: l => used l

/-- The declared names. -/
def names : List Act → List String
  | [] => []
  | .input v :: l => v :: names l
  | _ :: l => names l

end Spec

open Spec

theorem now_names (C : Cfg) (x y : Ex) (B : Blk) : ∀ v ∈ (B.finish C x y).2.names, v ∈ B.names ∨ ∃ n, v = candidate "t" n := by
  unfold Blk.finish Blk.now
  split_ifs
  · intro v hv; exact Or.inl hv
  · intro v hv
    rcases List.mem_cons.mp hv with rfl | hv
    · exact Or.inr ⟨_, rfl⟩
    · exact Or.inl hv

theorem around_names {C : Cfg} {x : Ex} {B : Blk} {k : Res (Ex × Blk)}
    (hk : ∀ r, k = .ok r → ∀ v ∈ r.2.names, v ∈ B.names ∨ ∃ n, v = candidate "t" n) {r} (hr : B.around C x k = .ok r) :
    ∀ v ∈ r.2.names, v ∈ B.names ∨ ∃ n, v = candidate "t" n := by
  unfold Blk.around at hr
  cases hl : B.lets (x.sig C) with
  | some v => rw [hl] at hr; simp only [Except.ok.injEq] at hr; subst hr; exact fun v hv => Or.inl hv
  | none =>
    rw [hl] at hr
    simp only at hr
    by_cases hc : B.counts (x.sig C) = 0
    · rw [if_pos hc] at hr; simp at hr
    rw [if_neg hc] at hr
    cases k with
    | error e => simp at hr
    | ok p =>
      obtain ⟨y, B1⟩ := p
      simp only [Except.ok.injEq] at hr
      subst hr
      intro v hv
      rcases now_names C x y B1 v hv with hv | hv
      · exact hk _ rfl v hv
      · exact Or.inr hv

/-- `compute` only takes names of temporaries. -/
theorem compute_names (C : Cfg) : ∀ (x : Ex) {B : Blk} {r : Ex × Blk}, compute C x B = .ok r →
    ∀ v ∈ r.2.names, v ∈ B.names ∨ ∃ n, v = candidate "t" n := by
  intro x
  have tr : ∀ {A B D : Blk}, (∀ v ∈ B.names, v ∈ A.names ∨ ∃ n, v = candidate "t" n) →
      (∀ v ∈ D.names, v ∈ B.names ∨ ∃ n, v = candidate "t" n) → ∀ v ∈ D.names, v ∈ A.names ∨ ∃ n, v = candidate "t" n := by
    intro A B D h1 h2 v hv
    rcases h2 v hv with h | h
    · exact h1 v h
    · exact Or.inr h
  have one : ∀ {x1 : Ex} (mk : Ex → Ex) {B : Blk} {r : Ex × Blk}, (∀ {B : Blk} {r : Ex × Blk}, compute C x1 B = .ok r →
      ∀ v ∈ r.2.names, v ∈ B.names ∨ ∃ n, v = candidate "t" n) →
      (do
        let (a, B) ← compute C x1 B
        return (mk a, B) : Res (Ex × Blk)) = .ok r → ∀ v ∈ r.2.names, v ∈ B.names ∨ ∃ n, v = candidate "t" n := by
    intro x1 mk B r ih hp
    rw [bind_pair (f := fun a B => pure (mk a, B))] at hp
    obtain ⟨⟨a, B1⟩, h1, h2⟩ := hp
    simp only [pok, Except.ok.injEq] at h2
    subst h2
    exact ih (r := (a, B1)) h1
  have two : ∀ {x1 x2 : Ex} (mk : Ex → Ex → Ex) {B : Blk} {r : Ex × Blk}, (∀ {B : Blk} {r : Ex × Blk}, compute C x1 B = .ok r →
      ∀ v ∈ r.2.names, v ∈ B.names ∨ ∃ n, v = candidate "t" n) → (∀ {B : Blk} {r : Ex × Blk}, compute C x2 B = .ok r →
      ∀ v ∈ r.2.names, v ∈ B.names ∨ ∃ n, v = candidate "t" n) →
      (do
        let (a, B) ← compute C x1 B
        let (b, B) ← compute C x2 B
        return (mk a b, B) : Res (Ex × Blk)) = .ok r → ∀ v ∈ r.2.names, v ∈ B.names ∨ ∃ n, v = candidate "t" n := by
    intro x1 x2 mk B r ih1 ih2 hp
    rw [bind_pair (f := fun a B => compute C x2 B >>= fun p => pure (mk a p.1, p.2))] at hp
    obtain ⟨⟨a, B1⟩, h1, h2⟩ := hp
    simp only at h2
    rw [bind_pair (f := fun b B => pure (mk a b, B))] at h2
    obtain ⟨⟨b, B2⟩, h2, h3⟩ := h2
    simp only [pok, Except.ok.injEq] at h3
    subst h3
    exact tr (B := B1) (D := B2) (ih1 (r := (a, B1)) h1) (ih2 (r := (b, B2)) h2)
  induction x with
  | var v s => intro B r hr; exact around_names (fun p hp => by cases hp; exact fun v hv => Or.inl hv) hr
  | int n => intro B r hr; exact around_names (fun p hp => by cases hp; exact fun v hv => Or.inl hv) hr
  | other u p s => intro B r hr; exact around_names (fun p hp => by cases hp; exact fun v hv => Or.inl hv) hr
  | field x f s ih => intro B r hr; exact around_names (fun p hp => one (fun a => .field a f s) ih hp) hr
  | neg x s ih => intro B r hr; exact around_names (fun p hp => one (fun a => .neg a s) ih hp) hr
  | div x n s ih => intro B r hr; exact around_names (fun p hp => one (fun a => .div a n s) ih hp) hr
  | call1 f x s ih => intro B r hr; exact around_names (fun p hp => one (fun a => .call1 f a s) ih hp) hr
  | add x y s ihx ihy => intro B r hr; exact around_names (fun p hp => two (fun a b => .add a b s) ihx ihy hp) hr
  | sub x y s ihx ihy => intro B r hr; exact around_names (fun p hp => two (fun a b => .sub a b s) ihx ihy hp) hr
  | mul x y s ihx ihy => intro B r hr; exact around_names (fun p hp => two (fun a b => .mul a b s) ihx ihy hp) hr
  | call2 f x y s ihx ihy => intro B r hr; exact around_names (fun p hp => two (fun a b => .call2 f a b s) ihx ihy hp) hr
  | call3 f x1 x2 x3 s ih1 ih2 ih3 =>
    intro B r hr
    refine around_names (fun p hp => ?_) hr
    rw [bind_pair (f := fun a B => compute C x2 B >>= fun p => compute C x3 p.2 >>= fun q => pure (Ex.call3 f a p.1 q.1 s, q.2))] at hp
    obtain ⟨⟨a, B1⟩, h1, h2⟩ := hp
    simp only at h2
    rw [bind_pair (f := fun b B => compute C x3 B >>= fun q => pure (Ex.call3 f a b q.1 s, q.2))] at h2
    obtain ⟨⟨b, B2⟩, h2, h3⟩ := h2
    simp only at h3
    rw [bind_pair (f := fun c B => pure (Ex.call3 f a b c s, B))] at h3
    obtain ⟨⟨c, B3⟩, h3, h4⟩ := h3
    simp only [pok, Except.ok.injEq] at h4
    subst h4
    exact tr (B := B2) (D := B3) (tr (B := B1) (D := B2) (ih1 (r := (a, B1)) h1) (ih2 (r := (b, B2)) h2)) (ih3 (r := (c, B3)) h3)

/-- All actions succeed. -/
theorem runActs_ok {C : Cfg} {U : Ex → Prop} (hU : ∀ e e', U e → U e' → e.sig C = e'.sig C → e = e') :
    ∀ (l : List Act) {B : Blk} (us : List Ex), (∀ x ∈ us, U x ∧ B.counts (x.sig C) ≠ 0) → CClosed C U B.counts →
      (∀ x ∈ used l, ∀ e ∈ x.subs, U e) → Used us l → (names l).Nodup →
      (∀ v ∈ names l, v ∉ B.names ∧ ∀ n, v ≠ candidate "t" n) → ∃ B', runActs C l B = .ok B' := by
  intro l
  induction l with
  | nil => intro B us _ _ _ _ _ _; exact ⟨B, rfl⟩
  | cons a l ih =>
    intro B us hus hcl hl hu hnd hn
    cases a with
    | input v =>
      have hv := hn v (by simp [names])
      simp only [runActs, Act.exec, Blk.input]
      rw [slowAssert_true hv.1, bok, pok]
      simp only [names, List.nodup_cons] at hnd
      refine ih us hus hcl hl hu hnd.2 fun w hw => ?_
      have := hn w (by simp [names, hw])
      refine ⟨?_, this.2⟩
      simp only [List.mem_cons, not_or]
      exact ⟨fun e => hnd.1 (e ▸ hw), this.1⟩
    | use x =>
      simp only [runActs, Act.exec]
      have hx : ∀ e ∈ x.subs, U e := hl x (by simp [used])
      have h1 := useEx_closed hU x hx hcl
      refine ih (B := B.use C x) (x :: us) ?_ h1.1 (fun y hy => hl y (by simp [used, hy])) hu hnd hn
      intro y hy
      rcases List.mem_cons.mp hy with rfl | hy
      · exact ⟨hx _ (Ex.self_mem_subs _), h1.2 _ (Ex.self_mem_subs _)⟩
      · exact ⟨(hus y hy).1, useEx_mono _ _ _ _ (hus y hy).2⟩
    | out x =>
      simp only [Used] at hu
      have hx := hus x hu.1
      obtain ⟨⟨y, B1⟩, e, hc⟩ := compute_ok C x (hcl x hx.1 hx.2)
      simp only at hc
      simp only [runActs, Act.exec, e]
      refine ih us (fun z hz => by simp only [hc]; exact hus z hz) (by simp only [hc]; exact hcl) hl hu.2 hnd fun v hv => ?_
      have h1 := hn v hv
      refine ⟨fun hm => ?_, h1.2⟩
      rcases compute_names C x e v hm with h | ⟨n, h⟩
      · exact h1.1 h
      · exact h1.2 n h

end Mandelbrot.Sym
