import Verif.Sym.History

/-!
# Properties of expressions that the operators keep
-/

namespace Mandelbrot.Sym

open Sig (Sg)

/-- A property of expressions that holds of whatever the operators put together; `unneg` and `unint` are as found when they do. -/
structure Kept (P : Ex → Prop) : Prop where
  int : ∀ n, P (.int n)
  unneg : ∀ {x y s}, x = .neg y s → P x → P y
  neg : ∀ {x} s, P x → x.unint = none → x.unneg = .ok none → P (.neg x s)
  add : ∀ {x y} s, P x → P y → P (.add x y s)
  sub : ∀ {x y} s, P x → P y → P (.sub x y s)
  mul : ∀ {x y} s, P x → P y → P (.mul x y s)
  div : ∀ {x a} s, P x → 1 < a → P (.div x a s)

/-- The entries of the table have the property. -/
def CSt.Holds (P : Ex → Prop) (st : CSt) : Prop := ∀ p ∈ st.table, P p.2

section
variable {C : Cfg} {P : Ex → Prop}

/-- The result and the table have the property. -/
def Keeps (P : Ex → Prop) (r : Ex × CSt) : Prop := P r.1 ∧ r.2.Holds P

theorem pick_keeps (hi : ∀ n, P (.int n)) {e : Ex} {st : CSt} (he : P e) (h : st.Holds P) (small : Option ℤ) {found : Option (Sg × Ex)}
    (hf : ∀ p, found = some p → P p.2) : Keeps P (pick C e st small found) := by
  cases small with
  | some n => exact ⟨hi n, h⟩
  | none =>
    cases found with
    | some p => exact ⟨hf p rfl, h⟩
    | none =>
      refine ⟨he, fun p hp => ?_⟩
      rcases List.mem_cons.mp hp with hp | hp
      · rw [hp]; exact he
      · exact h p hp

theorem lookup_keeps (hi : ∀ n, P (.int n)) {e : Ex} {st : CSt} (he : P e) (h : st.Holds P) : Keeps P (lookup C e st) := by
  unfold lookup
  by_cases hf : e.fast = true
  · rw [if_pos hf]; exact ⟨he, h⟩
  · rw [if_neg hf]
    exact pick_keeps hi he (st := { st with met := e :: st.met }) h _ fun p hp => h _ (List.mem_of_find?_eq_some hp)

theorem cse_keeps (hi : ∀ n, P (.int n)) {e : Ex} {st : CSt} (he : ∀ s, P (e.withSig s)) (he' : P e) (h : st.Holds P) :
    Keeps P (cse C e st) := by
  unfold cse
  split_ifs
  · exact lookup_keeps hi he' h
  · exact lookup_keeps hi (he _) h

variable (hP : Kept P)
include hP

theorem unneg_keeps {x y : Ex} (hx : P x) (h : x.unneg = .ok (some y)) : P y := by
  cases x <;> simp only [Ex.unneg] at h <;> try (simp at h; done)
  · rename_i n
    split_ifs at h
    · unfold negInt at h
      split_ifs at h
      · simp [Except.map] at h
      · simp only [Except.map, Except.ok.injEq, Option.some.injEq] at h
        subst h; exact hP.int _
    · simp at h
  · rename_i z s
    simp only [Except.ok.injEq, Option.some.injEq] at h
    subst h
    exact hP.unneg rfl hx

theorem neg_keeps {e : Ex} {st : CSt} (he : P e) (h : st.Holds P) {r} (hr : neg C e st = .ok r) : Keeps P r := by
  unfold neg at hr
  cases hu : e.unint with
  | some n =>
    rw [hu] at hr
    simp only at hr
    cases hn : negInt n with
    | error x => rw [hn] at hr; simp [bind, Except.bind] at hr
    | ok m =>
      rw [hn, bok, pok, Except.ok.injEq] at hr
      subst hr
      exact ⟨hP.int _, h⟩
  | none =>
    rw [hu] at hr
    simp only at hr
    cases hx : e.unneg with
    | error x => rw [hx] at hr; simp [bind, Except.bind] at hr
    | ok o =>
      rw [hx, bok] at hr
      cases o with
      | some x =>
        simp only at hr
        rw [pok, Except.ok.injEq] at hr
        subst hr
        exact ⟨unneg_keeps hP he hx, h⟩
      | none =>
        simp only at hr
        rw [pok, Except.ok.injEq] at hr
        subst hr
        exact cse_keeps hP.int (fun s => hP.neg s he hu hx) (hP.neg _ he hu hx) h

theorem addsub_keeps : ∀ (n : ℕ) {x y : Ex} {st : CSt}, x.negs + y.negs < n → P x → P y → st.Holds P →
    (∀ r, add C x y st = .ok r → Keeps P r) ∧ (∀ r, sub C x y st = .ok r → Keeps P r) := by
  intro n
  induction n with
  | zero => intro x y st hn; omega
  | succ n ih =>
    intro x y st hn px py h
    constructor
    · intro r hr
      rw [add] at hr
      split_ifs at hr
      · simp only [Except.ok.injEq] at hr; subst hr; exact ⟨py, h⟩
      · simp only [Except.ok.injEq] at hr; subst hr; exact ⟨px, h⟩
      split at hr
      · simp at hr
      · rename_i nx hx
        have hneg := Ex.unneg_negs hx
        exact (ih (x := y) (y := nx) (by omega) py (unneg_keeps hP px hx) h).2 r hr
      · split at hr
        · simp at hr
        · rename_i ny hy
          have hneg := Ex.unneg_negs hy
          exact (ih (x := x) (y := ny) (by omega) px (unneg_keeps hP py hy) h).2 r hr
        · simp only [Except.ok.injEq] at hr; subst hr
          exact cse_keeps hP.int (fun s => hP.add s px py) (hP.add _ px py) h
    · intro r hr
      rw [sub] at hr
      split_ifs at hr
      · exact neg_keeps hP py h hr
      · simp only [Except.ok.injEq] at hr; subst hr; exact ⟨px, h⟩
      split at hr
      · simp at hr
      · rename_i nx hx
        have hneg := Ex.unneg_negs hx
        split at hr
        · simp at hr
        · rename_i z st1 hz
          have k := (ih (x := nx) (y := y) (by omega) (unneg_keeps hP px hx) py h).1 _ hz
          exact neg_keeps hP k.1 k.2 hr
      · split at hr
        · simp at hr
        · rename_i ny hy
          have hneg := Ex.unneg_negs hy
          exact (ih (x := x) (y := ny) (by omega) px (unneg_keeps hP py hy) h).1 r hr
        · simp only [Except.ok.injEq] at hr; subst hr
          exact cse_keeps hP.int (fun s => hP.sub s px py) (hP.sub _ px py) h

theorem mul_keeps : ∀ (n : ℕ) {x y : Ex} {st : CSt}, x.negs + y.negs < n → P x → P y → st.Holds P →
    ∀ r, mul C x y st = .ok r → Keeps P r := by
  intro n
  induction n with
  | zero => intro x y st hn; omega
  | succ n ih =>
    intro x y st hn px py h r hr
    rw [mul] at hr
    by_cases h1 : (x.isZero || y.isZero) = true
    · rw [if_pos h1] at hr
      simp only [Except.ok.injEq] at hr
      subst hr
      exact ⟨hP.int _, h⟩
    · rw [if_neg h1] at hr
      split at hr
      · simp at hr
      · rename_i nx hx
        have hneg := Ex.unneg_negs hx
        split at hr
        · simp at hr
        · rename_i z st1 hz
          have k := ih (x := nx) (y := y) (by omega) (unneg_keeps hP px hx) py h _ hz
          exact neg_keeps hP k.1 k.2 hr
      · rename_i hx
        split at hr
        · simp at hr
        · rename_i ny hy
          have hneg := Ex.unneg_negs hy
          split at hr
          · simp at hr
          · rename_i z st1 hz
            have k := ih (x := x) (y := ny) (by omega) px (unneg_keeps hP py hy) h _ hz
            exact neg_keeps hP k.1 k.2 hr
        · clear ih
          split_ifs at hr with h2 h3
          · simp only [Except.ok.injEq] at hr
            subst hr; exact ⟨py, h⟩
          · simp only [Except.ok.injEq] at hr
            subst hr; exact ⟨px, h⟩
          · simp only [Except.ok.injEq] at hr
            subst hr
            exact cse_keeps hP.int (fun s => hP.mul s px py) (hP.mul _ px py) h

theorem divPos_keeps {a : ℤ} (ha : 0 < a) : ∀ (n : ℕ) {x : Ex} {st : CSt}, x.negs < n → P x → st.Holds P →
    ∀ r, divPos C x a st = .ok r → Keeps P r := by
  intro n
  induction n with
  | zero => intro x st hn; omega
  | succ n ih =>
    intro x st hn px h r hr
    rw [divPos] at hr
    split_ifs at hr with h1
    · simp only [Except.ok.injEq] at hr
      subst hr; exact ⟨px, h⟩
    · split at hr
      · simp at hr
      · rename_i nx hx
        have hneg := Ex.unneg_negs hx
        split at hr
        · simp at hr
        · rename_i z st1 hz
          have k := ih (x := nx) (by omega) (unneg_keeps hP px hx) h _ hz
          exact neg_keeps hP k.1 k.2 hr
      · split at hr
        · simp at hr
        · simp only [Except.ok.injEq] at hr
          subst hr
          exact cse_keeps hP.int (fun s => hP.div s px (by omega)) (hP.div _ px (by omega)) h

theorem div_keeps {x : Ex} {a : ℤ} {st : CSt} (px : P x) (h : st.Holds P) {r} (hr : div C x a st = .ok r) : Keeps P r := by
  unfold div at hr
  by_cases h0 : a ≠ 0
  · rw [slowAssert_true h0, bok] at hr
    split_ifs at hr with h1 h2 h3
    · rw [pok, Except.ok.injEq] at hr
      subst hr; exact ⟨px, h⟩
    · exact neg_keeps hP px h hr
    · cases hn : negInt a with
      | error e => rw [hn, berr] at hr; simp at hr
      | ok b =>
        rw [hn, bok] at hr
        cases hz : divPos C x b st with
        | error e => rw [hz, berr] at hr; simp at hr
        | ok q =>
          obtain ⟨z, st1⟩ := q
          rw [hz, bok] at hr
          have hb : 0 < b := by
            unfold negInt at hn
            split_ifs at hn
            · simp only [Except.ok.injEq] at hn; omega
          have k := divPos_keeps hP hb _ (Nat.lt_succ_self _) px h _ hz
          exact neg_keeps hP k.1 k.2 hr
    · exact divPos_keeps hP (by omega) _ (Nat.lt_succ_self _) px h _ hr
  · rw [slowAssert_false h0, berr] at hr
    simp at hr

theorem sum_keeps : ∀ (n : ℕ) {xs : List Ex} {st : CSt}, xs.length < n → (∀ x ∈ xs, P x) → st.Holds P →
    ∀ r, sum C xs st = .ok r → Keeps P r := by
  intro n
  induction n with
  | zero => intro xs st hn; omega
  | succ n ih =>
    intro xs st hn px h r hr
    rw [sum.eq_def] at hr
    split at hr
    · simp only [Except.ok.injEq] at hr
      subst hr; exact ⟨hP.int _, h⟩
    · simp only [Except.ok.injEq] at hr
      subst hr; exact ⟨px _ (by simp), h⟩
    · rename_i u w l
      split at hr
      · simp at hr
      · rename_i a st1 ha
        split at hr
        · simp at hr
        · rename_i b st2 hb
          have k1 := ih (by simp only [List.length_take, List.length_cons] at hn ⊢; omega) (fun x hx => px x (List.mem_of_mem_take hx)) h _ ha
          have k2 := ih (by simp only [List.length_drop, List.length_cons] at hn ⊢; omega) (fun x hx => px x (List.mem_of_mem_drop hx)) k1.2 _ hb
          exact (addsub_keeps hP _ (Nat.lt_succ_self _) k1.1 k2.1 k2.2).1 r hr

/-- A construction keeps the property, if it starts from what has it. -/
theorem exec_keeps {rs : List Ex} {st : CSt} (hr : ∀ e ∈ rs, P e) (h : st.Holds P) {op : Op}
    (hv : ∀ v s, op = .var v s → P (.var v s)) (hf : ∀ i f, op = .field i f → ∀ s, P (.field (arg rs i) f s))
    (h1 : ∀ f i s, op = .call1 f i s → ∀ s, P (.call1 f (arg rs i) s))
    (h2 : ∀ f i j s, op = .call2 f i j s → ∀ s, P (.call2 f (arg rs i) (arg rs j) s))
    (h3 : ∀ f i j k s, op = .call3 f i j k s → ∀ s, P (.call3 f (arg rs i) (arg rs j) (arg rs k) s))
    (ho : ∀ t p s, op = .other t p s → ∀ s, P (.other t p s)) {r} (hx : op.exec C rs st = .ok r) : Keeps P r := by
  have a : ∀ i, P (arg rs i) := by
    intro i
    unfold arg
    rw [List.getD_eq_getElem?_getD]
    cases hi : rs[i]? with
    | none => exact hP.int 0
    | some e => exact hr e (List.mem_of_getElem? hi)
  cases op with
  | var v s => simp only [Op.exec, Except.ok.injEq] at hx; subst hx; exact ⟨hv v s rfl, h⟩
  | int n => simp only [Op.exec, Except.ok.injEq] at hx; subst hx; exact ⟨hP.int n, h⟩
  | neg i => exact neg_keeps hP (a i) h hx
  | add i j => exact (addsub_keeps hP _ (Nat.lt_succ_self _) (a i) (a j) h).1 r hx
  | sub i j => exact (addsub_keeps hP _ (Nat.lt_succ_self _) (a i) (a j) h).2 r hx
  | mul i j => exact mul_keeps hP _ (Nat.lt_succ_self _) (a i) (a j) h r hx
  | div i n => exact div_keeps hP (a i) h hx
  | sum l =>
    refine sum_keeps hP _ (Nat.lt_succ_self _) (fun x hx => ?_) h r hx
    obtain ⟨i, _, rfl⟩ := List.mem_map.mp hx
    exact a i
  | field i f => simp only [Op.exec, Except.ok.injEq] at hx; subst hx; exact cse_keeps hP.int (hf i f rfl) (hf i f rfl _) h
  | call1 f i s => simp only [Op.exec, Except.ok.injEq] at hx; subst hx; exact cse_keeps hP.int (h1 f i s rfl) (h1 f i s rfl _) h
  | call2 f i j s => simp only [Op.exec, Except.ok.injEq] at hx; subst hx; exact cse_keeps hP.int (h2 f i j s rfl) (h2 f i j s rfl _) h
  | call3 f i j k s => simp only [Op.exec, Except.ok.injEq] at hx; subst hx; exact cse_keeps hP.int (h3 f i j k s rfl) (h3 f i j k s rfl _) h
  | other t p s => simp only [Op.exec, Except.ok.injEq] at hx; subst hx; exact cse_keeps hP.int (ho t p s rfl) (ho t p s rfl _) h

end

end Mandelbrot.Sym
