import Verif.Sym.Lemmas

/-!
# Signatures are values at the random point, and the operators return
-/

namespace Mandelbrot.Sym

open Sig (Sg)

/-- All integers in the expression are of type `int` and not the smallest one. -/
def Ex.IntsOk : Ex → Prop
  | .var _ _ => True
  | .int n => -2 ^ 31 < n ∧ n < 2 ^ 31
  | .field x _ _ => x.IntsOk
  | .neg x _ => x.IntsOk
  | .add x y _ => x.IntsOk ∧ y.IntsOk
  | .sub x y _ => x.IntsOk ∧ y.IntsOk
  | .mul x y _ => x.IntsOk ∧ y.IntsOk
  | .div x a _ => x.IntsOk ∧ a ≠ 0 ∧ -2 ^ 31 < a ∧ a < 2 ^ 31
  | .call1 _ x _ => x.IntsOk
  | .call2 _ x y _ => x.IntsOk ∧ y.IntsOk
  | .call3 _ x y z _ => x.IntsOk ∧ y.IntsOk ∧ z.IntsOk
  | .other _ _ _ => True

/-- The signature of each sum, difference, product, negation and quotient is that of the operands, and the others are canonical. -/
def Ex.Exact (C : Cfg) : Ex → Prop
  | .var _ s => ∀ i, s i < C.F i
  | .int _ => True
  | .field x _ s => x.Exact C ∧ ∀ i, s i < C.F i
  | .neg x s => x.Exact C ∧ s = Sig.sneg C.F (x.sig C)
  | .add x y s => x.Exact C ∧ y.Exact C ∧ s = Sig.sadd C.F (x.sig C) (y.sig C)
  | .sub x y s => x.Exact C ∧ y.Exact C ∧ s = Sig.ssub C.F (x.sig C) (y.sig C)
  | .mul x y s => x.Exact C ∧ y.Exact C ∧ s = Sig.smul C.F (x.sig C) (y.sig C)
  | .div x a s => x.Exact C ∧ ∃ t, invSig C.F (Sig.ofInt C.F a) = .ok t ∧ s = Sig.smul C.F (x.sig C) t
  | .call1 _ x s => x.Exact C ∧ ∀ i, s i < C.F i
  | .call2 _ x y s => x.Exact C ∧ y.Exact C ∧ ∀ i, s i < C.F i
  | .call3 _ x y z s => x.Exact C ∧ y.Exact C ∧ z.Exact C ∧ ∀ i, s i < C.F i
  | .other _ _ s => ∀ i, s i < C.F i

/-- The value of an expression in field `i`, with the signatures as the values of variables, calls and other opaque parts. -/
def Ex.point (C : Cfg) (i : Fin 4) : Ex → ZMod (C.F i)
  | .var _ s => s i
  | .int n => n
  | .field _ _ s => s i
  | .neg x _ => -x.point C i
  | .add x y _ => x.point C i + y.point C i
  | .sub x y _ => x.point C i - y.point C i
  | .mul x y _ => x.point C i * y.point C i
  | .div x a _ => x.point C i * (a : ZMod (C.F i))⁻¹
  | .call1 _ _ s => s i
  | .call2 _ _ _ s => s i
  | .call3 _ _ _ _ s => s i
  | .other _ _ s => s i

/-- The moduli are those of the program and the hash gives canonical values. -/
structure Cfg.Ok (C : Cfg) : Prop where
  F : C.F = Sig.Spec.moduli
  H : ∀ f l i, C.H f l i < C.F i

section
variable {C : Cfg} (hC : C.Ok)
include hC

theorem F31 (i : Fin 4) : 2 ^ 31 ≤ C.F i := by rw [hC.F]; have := Sig.moduli_range i; omega
theorem F64 (i : Fin 4) : C.F i < 2 ^ 64 := by rw [hC.F]; exact (Sig.moduli_range i).2
theorem Fprime (i : Fin 4) : (C.F i).Prime := by rw [hC.F]; exact Sig.moduli_prime i

theorem ofInt_cast {n : ℤ} (h1 : -2 ^ 31 < n) (h2 : n < 2 ^ 31) (i : Fin 4) :
    Sig.ofInt C.F n i < C.F i ∧ (Sig.ofInt C.F n i : ZMod (C.F i)) = n := Sig.C36_ofInt (F31 hC) (F64 hC) h1.le h2 i

theorem invSig_ok {a : ℤ} (h0 : a ≠ 0) (h1 : -2 ^ 31 < a) (h2 : a < 2 ^ 31) :
    ∃ t, invSig C.F (Sig.ofInt C.F a) = .ok t ∧ ∀ i, (t i : ZMod (C.F i)) = (a : ZMod (C.F i))⁻¹ := by
  have hx : ∀ i, Sig.ofInt Sig.Spec.moduli a i < Sig.Spec.moduli i := by
    intro i; have := (ofInt_cast hC h1 h2 i).1; rwa [hC.F] at this
  have hx0 : ∀ i, Sig.ofInt Sig.Spec.moduli a i ≠ 0 := by
    intro i
    have hr := Sig.moduli_range i
    obtain ⟨l, e⟩ := Sig.ofInt_eq (F := Sig.Spec.moduli) (a := a) (i := i) (by omega) hr.2 h1.le h2
    intro h
    rw [h] at e
    split_ifs at e <;> simp only [Nat.cast_zero] at e <;> omega
  obtain ⟨y, hy, hm⟩ := Sig.C37_inv_sig hx hx0 (n := 2 ^ 65) le_rfl
  refine ⟨![y 0, y 1, y 2, y 3], ?_, ?_⟩
  · unfold invSig
    rw [hC.F]
    simp only [hy, bok, pok]
  · intro i
    have ey : (![y 0, y 1, y 2, y 3] : Sg) i = y i := by fin_cases i <;> rfl
    rw [ey]
    have hfact : Fact (C.F i).Prime := ⟨Fprime hC i⟩
    have h3 := congrFun hm i
    rw [Sig.smul] at h3
    rw [← hC.F] at h3
    have h4 : ((Sig.mul (C.F i) (y i) (Sig.ofInt C.F a i) : ℕ) : ZMod (C.F i)) = (Sig.ofInt C.F 1 i : ℕ) := by rw [h3]
    rw [Sig.mul_cast, (ofInt_cast hC h1 h2 i).2, (ofInt_cast hC (by norm_num) (by norm_num) i).2] at h4
    exact eq_inv_of_mul_eq_one_left (by simpa using h4)

/-- The signature of an exact expression is its value at the point. -/
theorem exact_point : ∀ e : Ex, e.Exact C → e.IntsOk → ∀ i, e.sig C i < C.F i ∧ (e.sig C i : ZMod (C.F i)) = e.point C i := by
  intro e
  induction e with
  | var v s => intro h _ i; exact ⟨h i, rfl⟩
  | int n => intro _ h i; exact ofInt_cast hC h.1 h.2 i
  | field x f s _ => intro h _ i; exact ⟨h.2 i, rfl⟩
  | neg x s ih =>
    intro h h' i
    have hx := ih h.1 h' i
    have := (Sig.C36_ops (F64 hC i) hx.1 hx.1).1
    simp only [Ex.sig, Ex.point]
    rw [h.2, ← hx.2]
    exact this
  | add x y s ihx ihy =>
    intro h h' i
    have hx := ihx h.1 h'.1 i
    have hy := ihy h.2.1 h'.2 i
    have := (Sig.C36_ops (F64 hC i) hx.1 hy.1).2.1
    simp only [Ex.sig, Ex.point]
    rw [h.2.2, ← hx.2, ← hy.2]
    exact this
  | sub x y s ihx ihy =>
    intro h h' i
    have hx := ihx h.1 h'.1 i
    have hy := ihy h.2.1 h'.2 i
    have := (Sig.C36_ops (F64 hC i) hx.1 hy.1).2.2.1
    simp only [Ex.sig, Ex.point]
    rw [h.2.2, ← hx.2, ← hy.2]
    exact this
  | mul x y s ihx ihy =>
    intro h h' i
    have hx := ihx h.1 h'.1 i
    have hy := ihy h.2.1 h'.2 i
    have := (Sig.C36_ops (F64 hC i) hx.1 hy.1).2.2.2
    simp only [Ex.sig, Ex.point]
    rw [h.2.2, ← hx.2, ← hy.2]
    exact this
  | div x a s ih =>
    intro h h' i
    have hx := ih h.1 h'.1 i
    obtain ⟨t, ht, hs⟩ := h.2
    obtain ⟨t', ht', hc⟩ := invSig_ok hC h'.2.1 h'.2.2.1 h'.2.2.2
    rw [ht] at ht'
    cases ht'
    have h0 : 0 < C.F i := (Fprime hC i).pos
    simp only [Ex.sig, Ex.point]
    rw [hs, ← hx.2, ← hc i]
    exact ⟨Sig.mul_lt h0 _ _, Sig.mul_cast _ _⟩
  | call1 f x s _ => intro h _ i; exact ⟨h.2 i, rfl⟩
  | call2 f x y s _ _ => intro h _ i; exact ⟨h.2.2 i, rfl⟩
  | call3 f x y z s _ _ _ => intro h _ i; exact ⟨h.2.2.2 i, rfl⟩
  | other t p s => intro h _ i; exact ⟨h i, rfl⟩

omit hC in
theorem withSig_ints (e : Ex) (s : Sg) : (e.withSig s).IntsOk ↔ e.IntsOk := by cases e <;> rfl

/-- What is kept: integers in range and, in exact mode, exact signatures. -/
def Good (C : Cfg) (b : Bool) (e : Ex) : Prop := e.IntsOk ∧ (b = true → e.Exact C)

/-- The same for everything in the table. -/
def CSt.Good (C : Cfg) (st : CSt) : Prop := ∀ p ∈ st.table, Sym.Good C st.exact p.2 ∧ p.2.sig C = p.1

/-- Result of an operation, with the value it has at the random point in exact mode. -/
structure GStep (C : Cfg) (v : (i : Fin 4) → ZMod (C.F i)) (st : CSt) (r : Ex × CSt) : Prop where
  tbl : r.2.Good C
  exact : r.2.exact = st.exact
  good : Sym.Good C st.exact r.1
  point : st.exact = true → ∀ i, r.1.point C i = v i

omit hC in
theorem GStep.refl {st : CSt} (h : st.Good C) {e : Ex} (he : Sym.Good C st.exact e) {v : (i : Fin 4) → ZMod (C.F i)}
    (hv : ∀ i, e.point C i = v i) : GStep C v st (e, st) := ⟨h, rfl, he, fun _ => hv⟩

omit hC in
theorem GStep.trans {st st1 : CSt} {v w : (i : Fin 4) → ZMod (C.F i)} {z : Ex} {r : Ex × CSt} (h1 : GStep C v st (z, st1))
    (h2 : GStep C w st1 r) : GStep C w st r := by
  have e : st1.exact = st.exact := h1.exact
  exact ⟨h2.tbl, h2.exact.trans e, by rw [← e]; exact h2.good, by rw [← e]; exact h2.point⟩

omit hC in
theorem GStep.congr {st : CSt} {v w : (i : Fin 4) → ZMod (C.F i)} {r : Ex × CSt} (h : GStep C v st r)
    (hv : st.exact = true → ∀ i, v i = w i) : GStep C w st r :=
  ⟨h.tbl, h.exact, h.good, fun hb i => (h.point hb i).trans (hv hb i)⟩

theorem sig_eq_of_point {e e' : Ex} (he : e.Exact C) (hi : e.IntsOk) (he' : e'.Exact C) (hi' : e'.IntsOk) (h : e.sig C = e'.sig C)
    (i : Fin 4) : e.point C i = e'.point C i := by
  rw [← (exact_point hC e he hi i).2, ← (exact_point hC e' he' hi' i).2, h]

theorem lookup_good {e : Ex} {st : CSt} (h : st.Good C) (hi : e.IntsOk) (hx : st.exact = true → e.Exact C) :
    GStep C (fun i => e.point C i) st (lookup C e st) := by
  unfold lookup
  split_ifs with hf
  · exact GStep.refl h ⟨hi, hx⟩ (fun _ => rfl)
  · have h1 : ∀ n, Sig.unsmall C.F (e.sig C) = some n → |n| ≤ 32 ∧ e.sig C = Sig.ofInt C.F n :=
      fun n hs => (Sig.C36_unsmall (F31 hC) (F64 hC) _ _).mp hs
    have h2 : ∀ p, st.table.find? (fun p => decide (∀ i, p.1 i = e.sig C i)) = some p →
        Sym.Good C st.exact p.2 ∧ p.2.sig C = e.sig C := by
      intro p hl
      have hp := List.find?_some hl
      simp only [decide_eq_true_eq] at hp
      have := h p (List.mem_of_find?_eq_some hl)
      exact ⟨this.1, this.2.trans (funext hp)⟩
    revert h1 h2
    generalize Sig.unsmall C.F (e.sig C) = small
    generalize st.table.find? (fun p => decide (∀ i, p.1 i = e.sig C i)) = found
    intro h1 h2
    cases small with
    | some n =>
      have hn := h1 n rfl
      rw [abs_le] at hn
      have hin : (Ex.int n).IntsOk := ⟨by omega, by omega⟩
      refine ⟨h, rfl, ⟨hin, fun _ => trivial⟩, fun hb i => ?_⟩
      exact sig_eq_of_point hC (e := .int n) trivial hin (hx hb) hi hn.2.symm i
    | none =>
      cases found with
      | some p =>
        have hp := h2 p rfl
        exact ⟨h, rfl, hp.1, fun hb i => sig_eq_of_point hC (hp.1.2 hb) hp.1.1 (hx hb) hi hp.2 i⟩
      | none =>
        refine ⟨?_, rfl, ⟨hi, hx⟩, fun _ _ => rfl⟩
        intro p hp
        rcases List.mem_cons.mp hp with rfl | hp
        · exact ⟨⟨hi, hx⟩, rfl⟩
        · exact h p hp

theorem cse_good {e : Ex} {st : CSt} (h : st.Good C) (hi : e.IntsOk) (hx : st.exact = true → e.Exact C) :
    GStep C (fun i => e.point C i) st (cse C e st) := by
  unfold cse
  split_ifs with hb
  · exact lookup_good hC h hi hx
  · have := lookup_good hC (e := e.withSig (e.arb C)) h ((withSig_ints _ _).mpr hi) (fun h => absurd h hb)
    exact ⟨this.tbl, this.exact, this.good, fun h => absurd h hb⟩

omit hC in
theorem negInt_range {n : ℤ} (h : -2 ^ 31 < n ∧ n < 2 ^ 31) : negInt n = .ok (-n) := by
  unfold negInt; rw [if_neg (by omega)]

omit hC in
/-- `unneg` returns on good expressions. -/
theorem unneg_good {b : Bool} {x : Ex} (h : Good C b x) : ∃ o, x.unneg = .ok o ∧
    ∀ y, o = some y → Good C b y ∧ ∀ i, x.point C i = -y.point C i := by
  cases x with
  | int n =>
    by_cases h0 : n < 0
    · have hr := h.1
      simp only [Ex.IntsOk] at hr
      refine ⟨some (.int (-n)), ?_, ?_⟩
      · simp only [Ex.unneg]; rw [if_pos h0, negInt_range hr]; rfl
      · rintro y hy
        cases hy
        exact ⟨⟨⟨by omega, by omega⟩, fun _ => trivial⟩, fun i => by simp [Ex.point]⟩
    · exact ⟨none, by simp only [Ex.unneg]; rw [if_neg h0], by simp⟩
  | neg x s =>
    refine ⟨some x, rfl, ?_⟩
    rintro y hy
    cases hy
    exact ⟨⟨h.1, fun hb => (h.2 hb).1⟩, fun i => rfl⟩
  | _ => exact ⟨none, rfl, by simp⟩

omit hC in
theorem isZero_eq {x : Ex} (h : x.isZero = true) : x = .int 0 := by
  cases x <;> simp [Ex.isZero, Ex.unint] at h
  rw [h]

omit hC in
theorem isOne_eq {x : Ex} (h : x.isOne = true) : x = .int 1 := by
  cases x <;> simp [Ex.isOne, Ex.unint] at h
  rw [h]

theorem neg_good {e : Ex} {st : CSt} (h : st.Good C) (he : Good C st.exact e) :
    ∃ r, neg C e st = .ok r ∧ GStep C (fun i => -e.point C i) st r := by
  unfold neg
  cases hu : e.unint with
  | some n =>
    have e1 : e = .int n := by cases e <;> simp [Ex.unint] at hu; rw [hu]
    subst e1
    have hr : -2 ^ 31 < n ∧ n < 2 ^ 31 := he.1
    simp only [negInt_range hr, bok, pok]
    exact ⟨_, rfl, GStep.refl h (e := .int (-n)) ⟨⟨by omega, by omega⟩, fun _ => trivial⟩ (fun i => by simp [Ex.point])⟩
  | none =>
    obtain ⟨o, ho, hy⟩ := unneg_good he
    simp only [ho, bok]
    cases o with
    | some x =>
      obtain ⟨hx, hp⟩ := hy x rfl
      exact ⟨_, rfl, GStep.refl h hx (fun i => by rw [hp i]; simp)⟩
    | none =>
      refine ⟨_, rfl, cse_good hC h (e := .neg e _) he.1 (fun hb => ⟨he.2 hb, rfl⟩)⟩

theorem addsub_good : ∀ (n : ℕ) {x y : Ex} {st : CSt}, x.negs + y.negs < n → st.Good C → Good C st.exact x → Good C st.exact y →
    (∃ r, add C x y st = .ok r ∧ GStep C (fun i => x.point C i + y.point C i) st r) ∧
      (∃ r, sub C x y st = .ok r ∧ GStep C (fun i => x.point C i - y.point C i) st r) := by
  intro n
  induction n with
  | zero => intro x y st hn; omega
  | succ n ih =>
    intro x y st hn h hx hy
    obtain ⟨ox, hox, hux⟩ := unneg_good hx
    obtain ⟨oy, hoy, huy⟩ := unneg_good hy
    constructor
    · rw [add]
      by_cases h1 : x.isZero = true
      · rw [if_pos h1]
        exact ⟨_, rfl, GStep.refl h hy (fun i => by rw [isZero_eq h1]; simp [Ex.point])⟩
      rw [if_neg h1]
      by_cases h2 : y.isZero = true
      · rw [if_pos h2]
        exact ⟨_, rfl, GStep.refl h hx (fun i => by rw [isZero_eq h2]; simp [Ex.point])⟩
      rw [if_neg h2]
      split
      · rename_i e he; rw [hox] at he; simp at he
      · rename_i nx hnx
        have hneg := Ex.unneg_negs hnx
        rw [hox, Except.ok.injEq] at hnx
        obtain ⟨hg, hp⟩ := hux nx hnx
        obtain ⟨r, hr, hs⟩ := (ih (x := y) (y := nx) (st := st) (by omega) h hy hg).2
        exact ⟨r, hr, hs.congr fun _ i => by rw [hp i]; ring⟩
      · split
        · rename_i e he; rw [hoy] at he; simp at he
        · rename_i ny hny
          have hneg := Ex.unneg_negs hny
          rw [hoy, Except.ok.injEq] at hny
          obtain ⟨hg, hp⟩ := huy ny hny
          obtain ⟨r, hr, hs⟩ := (ih (x := x) (y := ny) (st := st) (by omega) h hx hg).2
          exact ⟨r, hr, hs.congr fun _ i => by rw [hp i]; ring⟩
        · exact ⟨_, rfl, cse_good hC h (e := .add x y _) ⟨hx.1, hy.1⟩ (fun hb => ⟨hx.2 hb, hy.2 hb, rfl⟩)⟩
    · rw [sub]
      by_cases h1 : x.isZero = true
      · rw [if_pos h1]
        obtain ⟨r, hr, hs⟩ := neg_good hC h hy
        exact ⟨r, hr, hs.congr fun _ i => by rw [isZero_eq h1]; simp [Ex.point]⟩
      rw [if_neg h1]
      by_cases h2 : y.isZero = true
      · rw [if_pos h2]
        exact ⟨_, rfl, GStep.refl h hx (fun i => by rw [isZero_eq h2]; simp [Ex.point])⟩
      rw [if_neg h2]
      split
      · rename_i e he; rw [hox] at he; simp at he
      · rename_i nx hnx
        have hneg := Ex.unneg_negs hnx
        rw [hox, Except.ok.injEq] at hnx
        obtain ⟨hg, hp⟩ := hux nx hnx
        obtain ⟨⟨z, st1⟩, hr, hs⟩ := (ih (x := nx) (y := y) (st := st) (by omega) h hg hy).1
        have ex : st1.exact = st.exact := hs.exact
        obtain ⟨r2, hr2, hs2⟩ := neg_good hC hs.tbl (by rw [ex]; exact hs.good)
        simp only [hr]
        refine ⟨r2, hr2, (hs.trans hs2).congr fun hb i => ?_⟩
        have := hs.point hb i
        simp only at this ⊢
        rw [this, hp i]; ring
      · split
        · rename_i e he; rw [hoy] at he; simp at he
        · rename_i ny hny
          have hneg := Ex.unneg_negs hny
          rw [hoy, Except.ok.injEq] at hny
          obtain ⟨hg, hp⟩ := huy ny hny
          obtain ⟨r, hr, hs⟩ := (ih (x := x) (y := ny) (st := st) (by omega) h hx hg).1
          exact ⟨r, hr, hs.congr fun _ i => by rw [hp i]; ring⟩
        · exact ⟨_, rfl, cse_good hC h (e := .sub x y _) ⟨hx.1, hy.1⟩ (fun hb => ⟨hx.2 hb, hy.2 hb, rfl⟩)⟩

theorem add_good {x y : Ex} {st : CSt} (h : st.Good C) (hx : Good C st.exact x) (hy : Good C st.exact y) :
    ∃ r, add C x y st = .ok r ∧ GStep C (fun i => x.point C i + y.point C i) st r :=
  (addsub_good hC _ (Nat.lt_succ_self _) h hx hy).1

theorem sub_good {x y : Ex} {st : CSt} (h : st.Good C) (hx : Good C st.exact x) (hy : Good C st.exact y) :
    ∃ r, sub C x y st = .ok r ∧ GStep C (fun i => x.point C i - y.point C i) st r :=
  (addsub_good hC _ (Nat.lt_succ_self _) h hx hy).2

theorem mul_good' : ∀ (n : ℕ) {x y : Ex} {st : CSt}, x.negs + y.negs < n → st.Good C → Good C st.exact x → Good C st.exact y →
    ∃ r, mul C x y st = .ok r ∧ GStep C (fun i => x.point C i * y.point C i) st r := by
  intro n
  induction n with
  | zero => intro x y st hn; omega
  | succ n ih =>
    intro x y st hn h hx hy
    obtain ⟨ox, hox, hux⟩ := unneg_good hx
    obtain ⟨oy, hoy, huy⟩ := unneg_good hy
    rw [mul]
    by_cases h1 : (x.isZero || y.isZero) = true
    · rw [if_pos h1]
      refine ⟨_, rfl, GStep.refl h (e := .int 0) ⟨⟨by norm_num, by norm_num⟩, fun _ => trivial⟩ (fun i => ?_)⟩
      rcases (Bool.or_eq_true _ _).mp h1 with h1 | h1
      · rw [isZero_eq h1]; simp [Ex.point]
      · rw [isZero_eq h1]; simp [Ex.point]
    rw [if_neg h1]
    split
    · rename_i e he; rw [hox] at he; simp at he
    · rename_i nx hnx
      have hneg := Ex.unneg_negs hnx
      rw [hox, Except.ok.injEq] at hnx
      obtain ⟨hg, hp⟩ := hux nx hnx
      obtain ⟨⟨z, st1⟩, hr, hs⟩ := ih (x := nx) (y := y) (st := st) (by omega) h hg hy
      have ex : st1.exact = st.exact := hs.exact
      obtain ⟨r2, hr2, hs2⟩ := neg_good hC hs.tbl (by rw [ex]; exact hs.good)
      simp only [hr]
      refine ⟨r2, hr2, (hs.trans hs2).congr fun hb i => ?_⟩
      have := hs.point hb i
      simp only at this ⊢
      rw [this, hp i]; ring
    · split
      · rename_i e he; rw [hoy] at he; simp at he
      · rename_i ny hny
        have hneg := Ex.unneg_negs hny
        rw [hoy, Except.ok.injEq] at hny
        obtain ⟨hg, hp⟩ := huy ny hny
        obtain ⟨⟨z, st1⟩, hr, hs⟩ := ih (x := x) (y := ny) (st := st) (by omega) h hx hg
        have ex : st1.exact = st.exact := hs.exact
        obtain ⟨r2, hr2, hs2⟩ := neg_good hC hs.tbl (by rw [ex]; exact hs.good)
        simp only [hr]
        refine ⟨r2, hr2, (hs.trans hs2).congr fun hb i => ?_⟩
        have := hs.point hb i
        simp only at this ⊢
        rw [this, hp i]; ring
      · by_cases h2 : x.isOne = true
        · rw [if_pos h2]
          exact ⟨_, rfl, GStep.refl h hy (fun i => by rw [isOne_eq h2]; simp [Ex.point])⟩
        rw [if_neg h2]
        by_cases h3 : y.isOne = true
        · rw [if_pos h3]
          exact ⟨_, rfl, GStep.refl h hx (fun i => by rw [isOne_eq h3]; simp [Ex.point])⟩
        rw [if_neg h3]
        exact ⟨_, rfl, cse_good hC h (e := .mul x y _) ⟨hx.1, hy.1⟩ (fun hb => ⟨hx.2 hb, hy.2 hb, rfl⟩)⟩

theorem mul_good {x y : Ex} {st : CSt} (h : st.Good C) (hx : Good C st.exact x) (hy : Good C st.exact y) :
    ∃ r, mul C x y st = .ok r ∧ GStep C (fun i => x.point C i * y.point C i) st r := mul_good' hC _ (Nat.lt_succ_self _) h hx hy

theorem divPos_good {a : ℤ} (h0 : a ≠ 0) (ha1 : -2 ^ 31 < a) (ha2 : a < 2 ^ 31) : ∀ (n : ℕ) {x : Ex} {st : CSt}, x.negs < n →
    st.Good C → Good C st.exact x →
    ∃ r, divPos C x a st = .ok r ∧ GStep C (fun i => x.point C i * (a : ZMod (C.F i))⁻¹) st r := by
  intro n
  induction n with
  | zero => intro x st hn; omega
  | succ n ih =>
    intro x st hn h hx
    obtain ⟨ox, hox, hux⟩ := unneg_good hx
    rw [divPos]
    by_cases h1 : a = 1
    · rw [if_pos h1]
      exact ⟨_, rfl, GStep.refl h hx (fun i => by rw [h1]; simp)⟩
    rw [if_neg h1]
    split
    · rename_i e he; rw [hox] at he; simp at he
    · rename_i nx hnx
      have hneg := Ex.unneg_negs hnx
      rw [hox, Except.ok.injEq] at hnx
      obtain ⟨hg, hp⟩ := hux nx hnx
      obtain ⟨⟨z, st1⟩, hr, hs⟩ := ih (x := nx) (st := st) (by omega) h hg
      have ex : st1.exact = st.exact := hs.exact
      obtain ⟨r2, hr2, hs2⟩ := neg_good hC hs.tbl (by rw [ex]; exact hs.good)
      simp only [hr]
      refine ⟨r2, hr2, (hs.trans hs2).congr fun hb i => ?_⟩
      have := hs.point hb i
      simp only at this ⊢
      rw [this, hp i]; ring
    · obtain ⟨t, ht, _⟩ := invSig_ok hC h0 ha1 ha2
      rw [ht]
      exact ⟨_, rfl, cse_good hC h (e := .div x a _) ⟨hx.1, h0, ha1, ha2⟩ (fun hb => ⟨hx.2 hb, t, ht, rfl⟩)⟩

theorem div_good {a : ℤ} (h0 : a ≠ 0) (ha1 : -2 ^ 31 < a) (ha2 : a < 2 ^ 31) {x : Ex} {st : CSt} (h : st.Good C)
    (hx : Good C st.exact x) : ∃ r, div C x a st = .ok r ∧ GStep C (fun i => x.point C i * (a : ZMod (C.F i))⁻¹) st r := by
  unfold div
  rw [slowAssert_true h0, bok]
  by_cases h1 : a = 1
  · rw [if_pos h1]
    exact ⟨_, rfl, GStep.refl h hx (fun i => by rw [h1]; simp)⟩
  rw [if_neg h1]
  by_cases h2 : a = -1
  · rw [if_pos h2]
    obtain ⟨r, hr, hs⟩ := neg_good hC h hx
    exact ⟨r, hr, hs.congr fun _ i => by
      have : Fact (C.F i).Prime := ⟨Fprime hC i⟩
      rw [h2]; push_cast; rw [inv_neg, inv_one]; ring⟩
  rw [if_neg h2]
  by_cases h3 : a < 0
  · rw [if_pos h3, negInt_range ⟨ha1, ha2⟩, bok]
    obtain ⟨⟨z, st1⟩, hr, hs⟩ := divPos_good hC (a := -a) (by omega) (by omega) (by omega) _ (Nat.lt_succ_self _) h hx
    have ex : st1.exact = st.exact := hs.exact
    obtain ⟨r2, hr2, hs2⟩ := neg_good hC hs.tbl (by rw [ex]; exact hs.good)
    rw [hr, bok]
    refine ⟨r2, hr2, (hs.trans hs2).congr fun hb i => ?_⟩
    have := hs.point hb i
    have hfact : Fact (C.F i).Prime := ⟨Fprime hC i⟩
    simp only at this ⊢
    rw [this]; push_cast; rw [inv_neg]; ring
  · rw [if_neg h3]
    exact divPos_good hC h0 ha1 ha2 _ (Nat.lt_succ_self _) h hx

theorem sum_good : ∀ (n : ℕ) {xs : List Ex} {st : CSt}, xs.length < n → st.Good C → (∀ x ∈ xs, Good C st.exact x) →
    ∃ r, sum C xs st = .ok r ∧ GStep C (fun i => (xs.map (Ex.point C i)).sum) st r := by
  intro n
  induction n with
  | zero => intro xs st hn; omega
  | succ n ih =>
    intro xs st hn h hx
    rw [sum.eq_def]
    split
    · exact ⟨_, rfl, GStep.refl h (e := .int 0) ⟨⟨by norm_num, by norm_num⟩, fun _ => trivial⟩ (fun i => by simp [Ex.point])⟩
    · exact ⟨_, rfl, GStep.refl h (hx _ (by simp)) (fun i => by simp)⟩
    · rename_i u w l
      obtain ⟨⟨a, st1⟩, ha, sa⟩ := ih (xs := (u :: w :: l).take ((u :: w :: l).length / 2)) (st := st)
        (by simp only [List.length_take, List.length_cons] at hn ⊢; omega) h (fun x hm => hx x (List.mem_of_mem_take hm))
      have e1 : st1.exact = st.exact := sa.exact
      obtain ⟨⟨b, st2⟩, hb, sb⟩ := ih (xs := (u :: w :: l).drop ((u :: w :: l).length / 2)) (st := st1)
        (by simp only [List.length_drop, List.length_cons] at hn ⊢; omega) sa.tbl
        (fun x hm => by rw [e1]; exact hx x (List.mem_of_mem_drop hm))
      have e2 : st2.exact = st1.exact := sb.exact
      obtain ⟨r, hr, sr⟩ := add_good hC sb.tbl (x := a) (y := b) (by rw [e2, e1]; exact sa.good) (by rw [e2]; exact sb.good)
      simp only [ha, hb]
      refine ⟨r, hr, ((sa.trans sb).trans sr).congr fun hq i => ?_⟩
      have p1 := sa.point hq i
      have p2 := sb.point (e1.trans hq) i
      simp only at p1 p2 ⊢
      rw [p1, p2, ← List.sum_append, ← List.map_append, List.take_append_drop]

end

end Mandelbrot.Sym
