import Verif.Sym.Exact

/-!
# Histories of expression construction
-/

namespace Mandelbrot.Sym

open Sig (Sg)

/-- One construction; operands are named by their position among the results so far. -/
inductive Op where
  | var (v : String) (s : Sg)
  | int (n : ℤ)
  | neg (i : ℕ)
  | add (i j : ℕ)
  | sub (i j : ℕ)
  | mul (i j : ℕ)
  | div (i : ℕ) (a : ℤ)
  | sum (l : List ℕ)
  | field (i : ℕ) (f : String)
  | call1 (f : String) (i : ℕ) (s : Sg)
  | call2 (f : String) (i j : ℕ) (s : Sg)
  | call3 (f : String) (i j k : ℕ) (s : Sg)
  | other (t : String) (prec : ℕ) (s : Sg)

/-- The operand at a position. -/
def arg (rs : List Ex) (i : ℕ) : Ex := rs.getD i (.int 0)

/-- Runs one construction: /repo/exp.cc 78-79, 148-219. -/
def Op.exec (C : Cfg) (rs : List Ex) (st : CSt) : Op → Res (Ex × CSt)
  | .var v s => .ok (.var v s, st)
  | .int n => .ok (.int n, st)
  | .neg i => Sym.neg C (arg rs i) st
  | .add i j => Sym.add C (arg rs i) (arg rs j) st
  | .sub i j => Sym.sub C (arg rs i) (arg rs j) st
  | .mul i j => Sym.mul C (arg rs i) (arg rs j) st
  | .div i a => Sym.div C (arg rs i) a st
  | .sum l => Sym.sum C (l.map (arg rs)) st
  | .field i f => .ok (Sym.field C (arg rs i) f st)
  | .call1 f i s => .ok (Sym.call1 C f (arg rs i) s st)
  | .call2 f i j s => .ok (Sym.call2 C f (arg rs i) (arg rs j) s st)
  | .call3 f i j k s => .ok (Sym.call3 C f (arg rs i) (arg rs j) (arg rs k) s st)
  | .other t p s => .ok (Sym.other C t p s st)

/-- Runs a history, starting from earlier results. -/
def runFrom (C : Cfg) : List Op → List Ex → CSt → Res (List Ex × CSt)
  | [], rs, st => .ok (rs, st)
  | op :: ops, rs, st =>
    match op.exec C rs st with
    | .error e => .error e
    | .ok r => runFrom C ops (rs ++ [r.1]) r.2

/-- Runs a history under a new `CSE` object (/repo/exp.cc 120). -/
def run (C : Cfg) (exact : Bool) (ops : List Op) : Res (List Ex × CSt) := runFrom C ops [] ⟨exact, [], []⟩

namespace Spec

/-- The requested value. -/
def want {R : Type} [CommRing R] (ρ : Interp R) (vs : List R) : Op → R
  | .var v _ => ρ.var v
  | .int n => n
  | .neg i => -vs.getD i 0
  | .add i j => vs.getD i 0 + vs.getD j 0
  | .sub i j => vs.getD i 0 - vs.getD j 0
  | .mul i j => vs.getD i 0 * vs.getD j 0
  | .div i a => ρ.div (vs.getD i 0) a
  | .sum l => (l.map fun i => vs.getD i 0).sum
  | .field i f => ρ.field f (vs.getD i 0)
  | .call1 f i _ => ρ.call f [vs.getD i 0]
  | .call2 f i j _ => ρ.call f [vs.getD i 0, vs.getD j 0]
  | .call3 f i j k _ => ρ.call f [vs.getD i 0, vs.getD j 0, vs.getD k 0]
  | .other t _ _ => ρ.other t

/-- The requested values of a history. -/
def values {R : Type} [CommRing R] (ρ : Interp R) : List Op → List R → List R
  | [], vs => vs
  | op :: ops, vs => values ρ ops (vs ++ [want ρ vs op])

/-- The request is in the domain: integers other than the smallest `int`, nonzero divisors, canonical signatures. -/
def InRange (F : Sg) : Op → Prop
  | .var _ s => ∀ i, s i < F i
  | .int n => -2 ^ 31 < n ∧ n < 2 ^ 31
  | .div _ a => a ≠ 0 ∧ -2 ^ 31 < a ∧ a < 2 ^ 31
  | .call1 _ _ s => ∀ i, s i < F i
  | .call2 _ _ _ s => ∀ i, s i < F i
  | .call3 _ _ _ _ s => ∀ i, s i < F i
  | .other _ _ s => ∀ i, s i < F i
  | _ => True

end Spec

section
variable {R : Type} [CommRing R]

theorem arg_val (ρ : Interp R) (rs : List Ex) (i : ℕ) : (arg rs i).val ρ = (rs.map (Ex.val ρ)).getD i 0 := by
  unfold arg
  simp only [List.getD_eq_getElem?_getD, List.getElem?_map]
  cases rs[i]? <;> simp [Ex.val]

theorem exec_step {C : Cfg} {ρ : Interp R} (hd : ρ.DivOk) {rs : List Ex} {st : CSt} (h : st.Ok C) {op : Op} {r}
    (hr : op.exec C rs st = .ok r) : Step C ρ (Spec.want ρ (rs.map (Ex.val ρ)) op) st r := by
  cases op with
  | var v s => simp only [Op.exec, Except.ok.injEq] at hr; subst hr; exact Step.refl h rfl
  | int n => simp only [Op.exec, Except.ok.injEq] at hr; subst hr; exact Step.refl h rfl
  | neg i => simp only [Spec.want, ← arg_val]; exact neg_step ρ h hr
  | add i j => simp only [Spec.want, ← arg_val]; exact add_step ρ h hr
  | sub i j => simp only [Spec.want, ← arg_val]; exact sub_step ρ h hr
  | mul i j => simp only [Spec.want, ← arg_val]; exact mul_step ρ h hr
  | div i a => simp only [Spec.want, ← arg_val]; exact div_step hd h hr
  | sum l =>
    have := sum_step ρ _ (Nat.lt_succ_self _) h r hr
    simp only [Spec.want, ← arg_val]
    rw [List.map_map] at this
    exact this
  | field i f =>
    simp only [Op.exec, Except.ok.injEq] at hr; subst hr
    simp only [Spec.want, ← arg_val]; exact cse_step ρ (.field _ _ _) h
  | call1 f i s =>
    simp only [Op.exec, Except.ok.injEq] at hr; subst hr
    simp only [Spec.want, ← arg_val]; exact cse_step ρ (.call1 _ _ _) h
  | call2 f i j s =>
    simp only [Op.exec, Except.ok.injEq] at hr; subst hr
    simp only [Spec.want, ← arg_val]; exact cse_step ρ (.call2 _ _ _ _) h
  | call3 f i j k s =>
    simp only [Op.exec, Except.ok.injEq] at hr; subst hr
    simp only [Spec.want, ← arg_val]; exact cse_step ρ (.call3 _ _ _ _ _) h
  | other t p s =>
    simp only [Op.exec, Except.ok.injEq] at hr; subst hr
    exact cse_step ρ (.other _ _ _) h

theorem runFrom_met {C : Cfg} {ρ : Interp R} (hd : ρ.DivOk) : ∀ (ops : List Op) {rs rs' : List Ex} {st st' : CSt}, st.Ok C →
    runFrom C ops rs st = .ok (rs', st') → st.met ⊆ st'.met := by
  intro ops
  induction ops with
  | nil =>
    intro rs rs' st st' _ hr
    simp only [runFrom, Except.ok.injEq, Prod.mk.injEq] at hr
    rw [hr.2]; exact fun _ h => h
  | cons op ops ih =>
    intro rs rs' st st' h hr
    simp only [runFrom] at hr
    cases ho : op.exec C rs st with
    | error e => rw [ho] at hr; simp at hr
    | ok r =>
      rw [ho] at hr
      have hs := exec_step hd h ho
      exact fun _ hx => ih hs.ok hr (hs.met hx)

theorem runFrom_val {C : Cfg} {ρ : Interp R} (hd : ρ.DivOk) : ∀ (ops : List Op) {rs rs' : List Ex} {st st' : CSt}, st.Ok C →
    runFrom C ops rs st = .ok (rs', st') → NoClash C ρ st'.met →
    rs'.map (Ex.val ρ) = Spec.values ρ ops (rs.map (Ex.val ρ)) := by
  intro ops
  induction ops with
  | nil =>
    intro rs rs' st st' _ hr _
    simp only [runFrom, Except.ok.injEq, Prod.mk.injEq] at hr
    rw [hr.1]; rfl
  | cons op ops ih =>
    intro rs rs' st st' h hr hc
    simp only [runFrom] at hr
    cases ho : op.exec C rs st with
    | error e => rw [ho] at hr; simp at hr
    | ok r =>
      rw [ho] at hr
      have hs := exec_step hd h ho
      have hv := hs.val (hc.mono (runFrom_met hd ops hs.ok hr))
      rw [ih hs.ok hr hc, List.map_append, List.map_cons, List.map_nil, hv]
      rfl

end

section
variable {C : Cfg} (hC : C.Ok)
include hC

omit hC in
theorem arg_good {b : Bool} {rs : List Ex} (h : ∀ e ∈ rs, Good C b e) (i : ℕ) : Good C b (arg rs i) := by
  unfold arg
  rw [List.getD_eq_getElem?_getD]
  cases hi : rs[i]? with
  | none => exact ⟨⟨by norm_num, by norm_num⟩, fun _ => trivial⟩
  | some e => exact h e (List.mem_of_getElem? hi)

theorem exec_good {rs : List Ex} {st : CSt} (h : st.Good C) (hr : ∀ e ∈ rs, Good C st.exact e) {op : Op} (ho : Spec.InRange C.F op) :
    ∃ r v, op.exec C rs st = .ok r ∧ GStep C v st r := by
  have a := arg_good hr
  have w : ∀ {v : (i : Fin 4) → ZMod (C.F i)} {p : Res (Ex × CSt)}, (∃ r, p = .ok r ∧ GStep C v st r) →
      ∃ r v, p = .ok r ∧ GStep C v st r := fun ⟨r, h1, h2⟩ => ⟨r, _, h1, h2⟩
  cases op with
  | var v s => exact ⟨_, fun i => (Ex.var v s).point C i, rfl, GStep.refl h (e := .var v s) ⟨trivial, fun _ => ho⟩ (fun _ => rfl)⟩
  | int n => exact ⟨_, fun i => (Ex.int n).point C i, rfl, GStep.refl h (e := .int n) ⟨ho, fun _ => trivial⟩ (fun _ => rfl)⟩
  | neg i => exact w (neg_good hC h (a i))
  | add i j => exact w (add_good hC h (a i) (a j))
  | sub i j => exact w (sub_good hC h (a i) (a j))
  | mul i j => exact w (mul_good hC h (a i) (a j))
  | div i n => exact w (div_good hC ho.1 ho.2.1 ho.2.2 h (a i))
  | sum l =>
    exact w (sum_good hC _ (Nat.lt_succ_self _) h (fun x hx => by
      obtain ⟨i, _, rfl⟩ := List.mem_map.mp hx
      exact a i))
  | field i f =>
    exact ⟨_, _, rfl, cse_good hC h (e := .field _ _ _) (a i).1 (fun hb => ⟨(a i).2 hb, fun k => hC.H _ _ k⟩)⟩
  | call1 f i s =>
    exact ⟨_, _, rfl, cse_good hC h (e := .call1 _ _ _) (a i).1 (fun hb => ⟨(a i).2 hb, ho⟩)⟩
  | call2 f i j s =>
    exact ⟨_, _, rfl, cse_good hC h (e := .call2 _ _ _ _) ⟨(a i).1, (a j).1⟩ (fun hb => ⟨(a i).2 hb, (a j).2 hb, ho⟩)⟩
  | call3 f i j k s =>
    exact ⟨_, _, rfl, cse_good hC h (e := .call3 _ _ _ _ _) ⟨(a i).1, (a j).1, (a k).1⟩
      (fun hb => ⟨(a i).2 hb, (a j).2 hb, (a k).2 hb, ho⟩)⟩
  | other t p s => exact ⟨_, _, rfl, cse_good hC h (e := .other _ _ _) trivial (fun _ => ho)⟩

theorem runFrom_good : ∀ (ops : List Op) {rs : List Ex} {st : CSt}, st.Good C → (∀ e ∈ rs, Good C st.exact e) →
    (∀ op ∈ ops, Spec.InRange C.F op) → ∃ rs' st', runFrom C ops rs st = .ok (rs', st') ∧ st'.Good C ∧ st'.exact = st.exact ∧
      ∀ e ∈ rs', Good C st.exact e := by
  intro ops
  induction ops with
  | nil => intro rs st h hr _; exact ⟨rs, st, rfl, h, rfl, hr⟩
  | cons op ops ih =>
    intro rs st h hr ho
    obtain ⟨r, v, e, hs⟩ := exec_good hC h hr (ho op (by simp))
    have hr' : ∀ x ∈ rs ++ [r.1], Good C r.2.exact x := by
      rw [hs.exact]
      intro x hx
      rcases List.mem_append.mp hx with hx | hx
      · exact hr x hx
      · rw [List.mem_singleton.mp hx]; exact hs.good
    obtain ⟨rs', st', e', h1, h2, h3⟩ := ih hs.tbl hr' (fun o hm => ho o (by simp [hm]))
    refine ⟨rs', st', ?_, h1, h2.trans hs.exact, by rw [← hs.exact]; exact h3⟩
    simp only [runFrom, e]
    exact e'

end

end Mandelbrot.Sym
