import Verif.Sym.SeriesNum
import Verif.Sym.SeriesLines
import Verif.Props.MulBase
import Mathlib.Algebra.Field.Rat

/-!
# The generated base cases of the series functions: C70
-/

namespace Mandelbrot.Sym

open Sig (Sg)
open Spec
open PowerSeries

theorem serNames_nodup : serNames.Nodup := by decide +kernel

theorem serNames_get (i : ℕ) (h : i < 5) : serNames[4 + i]'(by simp [serNames]; omega) = inName false i := by
  interval_cases i <;> rfl

theorem inName_mem (i : ℕ) (h : i < 5) : inName false i ∈ serNames := by
  rw [← serNames_get i h]
  exact List.getElem_mem _

section
variable {K : Type} [Field K]

theorem execS_withVar (ρ : Interp K) (a : SArgs) (e : String → K) :
    ∀ (l : List SLine) (env : String → K) (mem : ℕ → K), execS (withVar ρ e) a l env mem = execS ρ a l env mem := by
  intro l
  induction l with
  | nil => intro env mem; rfl
  | cons i l ih =>
    intro env mem
    cases i <;> simp only [execS, ih] <;> rfl

/-- The generated function stores what the series function gives on values. -/
theorem serBase_run {C : Cfg} {leading : ℕ} {set : Ser Ex → Ser Ex → Gen CSt (Ser Ex)} {set' : Ser K → Ser K → Gen Unit (Ser K)}
    {s : ℕ → Sg} {lines : List SLine} {ts : List Ex} {st : CSt} (hr : serBaseCode C leading set s = .ok (lines, ts, st))
    {ρ : Interp K} (hρ : ρ.Fielded)
    (hset : ∀ (ρ : Interp K) (y x : Ser Ex), ρ.Fielded → InS serNames y → InS serNames x →
      Sim C ρ serNames (InS serNames) (vals ρ) (set y x) (set' (vals ρ y) (vals ρ x)))
    (a : SArgs) (env : String → K) (mem : ℕ → K) (hny : 1 ≤ a.ny) {f : ℕ → K}
    (hnum : ∃ y', Runs (set' (newG (numArith K) 5) (serArg leading 0 (cell mem a.x a.nx))) y' ∧ ∀ i < 5, y'.data i = f i)
    (hc : ∀ v : String → K, (∀ i < 5, leading ≤ i → v (inName false i) = cell mem a.x a.nx i) →
      NoClash C (withVar ρ v) (st.met ++ ts.flatMap Ex.subs)) :
    execS ρ a lines env mem = stored mem a.y 5 a.ny f := by
  unfold serBaseCode at hr
  set arg := serArg leading (.int 0) fun i => Ex.var (inName false i) (s i) with harg
  cases hk : set (newG (exArith C) 5) arg ⟨true, [], []⟩ with
  | error e => rw [hk] at hr; simp at hr
  | ok u =>
    obtain ⟨y, st'⟩ := u
    rw [hk] at hr
    simp only at hr
    set ts' := (List.range 5).map y.data with hts
    cases hb : runActs C (serActs ts') Blk.empty with
    | error e => rw [hb] at hr; simp at hr
    | ok B =>
      rw [hb] at hr
      simp only [Except.ok.injEq, Prod.mk.injEq] at hr
      obtain ⟨rfl, rfl, rfl⟩ := hr
      let σ := withVar ρ (serEnv leading a mem 0 serNames env)
      have hσ : σ.Fielded := ⟨hρ.inv, hρ.div⟩
      have hload : ∀ i < 5, leading ≤ i → σ.var (inName false i) = cell mem a.x a.nx i := by
        intro i hi hle
        show serEnv leading a mem 0 serNames env (inName false i) = _
        rw [← serNames_get i hi, serEnv_get leading a mem serNames 0 env serNames_nodup (4 + i) (by simp [serNames]; omega) (by omega)]
        rw [show 0 + (4 + i) - 4 = i by omega]
        rfl
      have hcl := hc σ.var hload
      have hin : InS serNames arg := by
        intro i
        show In serNames (if leading ≤ i ∧ i < 5 then Ex.var (inName false i) (s i) else .int 0)
        split_ifs with h
        · intro v hv
          simp only [Ex.vars, List.mem_singleton] at hv
          rw [hv]
          exact inName_mem i h.2
        · intro v hv; simp [Ex.vars] at hv
      have hvals : vals σ arg = serArg leading 0 (cell mem a.x a.nx) := by
        show (⟨_, _, _, _⟩ : Ser K) = ⟨_, _, _, _⟩
        congr 1
        funext i
        show Ex.val σ (if leading ≤ i ∧ i < 5 then _ else _) = if leading ≤ i ∧ i < 5 then _ else _
        split_ifs with h
        · exact hload i h.2 h.1
        · simp [Ex.val]
      obtain ⟨_, _, h3, _, h5⟩ := hset σ _ arg hσ (in_new 5) hin ⟨true, [], []⟩ _ (fun p hp => by simp at hp) (fun p hp => by simp at hp) hk
      have h6 := h5 (hcl.mono fun _ h => List.mem_append_left _ h)
      rw [vals_new, hvals] at h6
      obtain ⟨y', e, hy'⟩ := hnum
      have hyy : y' = vals σ y := by
        have := e.symm.trans h6
        simpa using this
      have hv : ∀ t ∈ ts', ∀ v ∈ t.vars, v ∈ serNames := by
        intro t ht
        obtain ⟨i, _, rfl⟩ := List.mem_map.mp ht
        exact h3 i
      have hcu : ∀ x ∈ ts', ∀ x' ∈ ts', ∀ e ∈ x.subs, ∀ e' ∈ x'.subs, e.sig C = e'.sig C → e.val σ = e'.val σ :=
        fun x hx x' hx' e he e' he' => hcl.1 e (List.mem_append_right _ (List.mem_flatMap.mpr ⟨x, hx, he⟩)) e'
          (List.mem_append_right _ (List.mem_flatMap.mpr ⟨x', hx', he'⟩))
      have hlen : ts'.length = 5 := by simp [hts]
      rw [← execS_withVar ρ a (serEnv leading a mem 0 serNames env), serLines_spec a leading mem env rfl hv hlen hcu hny hb]
      funext p
      rw [storeFrom_apply, List.length_map, hlen]
      simp only [Nat.add_zero, stored]
      by_cases hp : a.y ≤ p ∧ p < a.y + 5 ∧ (p : ℤ) < a.y + a.ny
      · rw [if_pos hp, if_pos hp, List.getD_eq_getElem _ _ (by simp [hlen]; omega), ← hy' _ (by omega), hyy]
        simp only [hts, List.getElem_map, List.getElem_range]
        rfl
      · rw [if_neg hp, if_neg hp]

theorem serArg_is (leading : ℕ) (x : ℕ → K) (F : K⟦X⟧) (h : ∀ i < 5, coeff i F = if leading ≤ i then x i else 0) :
    (serArg leading 0 x).Is 5 F := by
  refine ⟨⟨by norm_num [serArg], by norm_num [serArg], by norm_num [serArg]⟩, rfl, fun i hi => ?_⟩
  rw [Ser.coeff_ps, h i hi, if_pos (by simp only [serArg]; omega)]
  simp only [serArg]
  by_cases hl : leading ≤ i <;> simp [hl, hi]

/-- C70: the generated function for the inverse reads the first `nx` terms at `x`, with zero for missing ones, and stores the first
`min 5 ny` terms of the inverse at `y`, however they overlap in memory, and changes nothing else.  This is for all values with a
constant term that is not zero, if parts of the expressions with equal signatures have equal values. -/
theorem C70_inv_base {C : Cfg} {s : ℕ → Sg} {lines : List SLine} {ts : List Ex} {st : CSt}
    (hr : invBaseCode C s = .ok (lines, ts, st)) {ρ : Interp K} (hρ : ρ.Fielded) (a : SArgs) (env : String → K) (mem : ℕ → K)
    (hny : 1 ≤ a.ny) (h0 : cell mem a.x a.nx 0 ≠ 0)
    (hc : ∀ v : String → K, (∀ i < 5, v (inName false i) = cell mem a.x a.nx i) →
      NoClash C (withVar ρ v) (st.met ++ ts.flatMap Ex.subs)) :
    execS ρ a lines env mem = stored mem a.y 5 a.ny fun i => coeff i (PowerSeries.mk (cell mem a.x a.nx))⁻¹ := by
  refine serBase_run hr hρ (fun ρ y x hρ hy hx => sim_invBody hρ hy hx) a env mem hny ?_ fun v hv => hc v fun i hi => hv i hi (by omega)
  have hx := serArg_is 0 (cell mem a.x a.nx) (PowerSeries.mk (cell mem a.x a.nx)) (fun i hi => by simp)
  exact invBodyG_has ⟨hx, fun _ => by norm_num [serArg]⟩ rfl (by
    rw [← coeff_zero_eq_constantCoeff_apply, coeff_mk]; exact h0) le_rfl

/-- C70: the generated function for the exponential likewise.  It does not read the constant term, but takes it to be zero. -/
theorem C70_exp_base [CharZero K] {C : Cfg} {s : ℕ → Sg} {lines : List SLine} {ts : List Ex} {st : CSt}
    (hr : expBaseCode C s = .ok (lines, ts, st)) {ρ : Interp K} (hρ : ρ.Fielded) (a : SArgs) (env : String → K) (mem : ℕ → K)
    (hny : 1 ≤ a.ny)
    (hc : ∀ v : String → K, (∀ i < 5, 1 ≤ i → v (inName false i) = cell mem a.x a.nx i) →
      NoClash C (withVar ρ v) (st.met ++ ts.flatMap Ex.subs)) :
    execS ρ a lines env mem = stored mem a.y 5 a.ny fun i =>
      coeff i ((PowerSeries.exp K).subst (PowerSeries.mk fun j => if j = 0 then 0 else cell mem a.x a.nx j)) := by
  refine serBase_run hr hρ (fun ρ y x hρ hy hx => sim_exp hρ hy hx) a env mem hny ?_ hc
  have hx := serArg_is 1 (cell mem a.x a.nx) (PowerSeries.mk fun j => if j = 0 then 0 else cell mem a.x a.nx j) (fun i hi => by
    rw [coeff_mk]; rcases Nat.eq_zero_or_pos i with h | h
    · subst h; simp
    · rw [if_neg (by omega), if_pos (by omega)])
  obtain ⟨y', e, _, h1, h2⟩ := expG_has (y := newG (numArith K) 5) (x := serArg 1 0 (cell mem a.x a.nx)) (n := 5) hx (by
    rw [← coeff_zero_eq_constantCoeff_apply, coeff_mk, if_pos rfl]) (by omega) le_rfl (by omega)
  exact ⟨y', e, fun i hi => full_data h1 (h2 rfl) hi⟩

end

/-! ## What the models of the series functions call -/

section
variable {K : Type} [Field K] [CharZero K] [Ldexp K] [Ser.LawfulLdexp K] [DecidableEq K]

omit [CharZero K] [Ldexp K] [Ser.LawfulLdexp K] [DecidableEq K] in
theorem cell_agree {x : Ser K} {n : ℕ} {F : K⟦X⟧} (hx : x.Is n F) {mem : ℕ → K} {xo : ℕ}
    (hm : ∀ i : ℕ, (i : ℤ) < x.nonzero → mem (xo + i) = x.data i) : Agree n (PowerSeries.mk (cell mem xo x.nonzero)) F := by
  refine Agree.trans (fun i hi => ?_) hx.agree
  rw [coeff_mk, Ser.coeff_ps, cell]
  by_cases h : (i : ℤ) < x.nonzero
  · rw [if_pos h, if_pos h, hm i h]
  · rw [if_neg h, if_neg h]

/-- C70: the base case of the inverse that the model of the series functions calls is what is generated. -/
theorem C70_inv_link {C : Cfg} {s : ℕ → Sg} {lines : List SLine} {ts : List Ex} {st : CSt}
    (hr : invBaseCode C s = .ok (lines, ts, st)) {ρ : Interp K} (hρ : ρ.Fielded) (env : String → K) (mem : ℕ → K) (yo xo : ℕ)
    (J : Junk K) (y x : Ser K) (n : ℕ) (F : K⟦X⟧) (hx : x.Has n F) (hn : 0 < n) (hF : constantCoeff F ≠ 0) (hl : n ≤ y.limit)
    (hm : ∀ i : ℕ, (i : ℤ) < x.nonzero → mem (xo + i) = x.data i)
    (hc : ∀ v : String → K, (∀ i < 5, v (inName false i) = cell mem xo x.nonzero i) →
      NoClash C (withVar ρ v) (st.met ++ ts.flatMap Ex.subs)) :
    ∃ y', invBase J y x = .ok y' ∧ execS ρ ⟨yo, min 5 n, xo, x.nonzero⟩ lines env mem = stored mem yo 5 (min 5 n) y'.data := by
  obtain ⟨y', e, _, _, _, h4, _⟩ := C43_inv_base J y x n F hx hn hF hl
  refine ⟨y', e, ?_⟩
  have ha := cell_agree hx.is hm
  have h0 : constantCoeff (PowerSeries.mk (cell mem xo x.nonzero)) = constantCoeff F := by
    rw [← coeff_zero_eq_constantCoeff_apply, ← coeff_zero_eq_constantCoeff_apply, ha 0 hn]
  rw [C70_inv_base hr hρ ⟨yo, min 5 n, xo, x.nonzero⟩ env mem (by show (1 : ℤ) ≤ min 5 (n : ℤ); omega) (by
    rw [← coeff_zero_eq_constantCoeff_apply, coeff_mk] at h0
    show cell mem xo x.nonzero 0 ≠ 0
    rw [h0]; exact hF) hc]
  funext p
  simp only [stored]
  by_cases hp : yo ≤ p ∧ p < yo + 5 ∧ (p : ℤ) < yo + min 5 (n : ℤ)
  · rw [if_pos hp, if_pos hp, h4 _ (by omega)]
    exact ha.inv (by rw [h0]; exact hF) hF _ (by omega)
  · rw [if_neg hp, if_neg hp]

/-- C70: the same for the exponential. -/
theorem C70_exp_link {C : Cfg} {s : ℕ → Sg} {lines : List SLine} {ts : List Ex} {st : CSt}
    (hr : expBaseCode C s = .ok (lines, ts, st)) {ρ : Interp K} (hρ : ρ.Fielded) (env : String → K) (mem : ℕ → K) (yo xo : ℕ)
    (J : Junk K) (y x : Ser K) (n : ℕ) (F : K⟦X⟧) (hx : x.Is n F) (hn : 0 < n) (hF : constantCoeff F = 0) (hl : n ≤ y.limit)
    (hm : ∀ i : ℕ, (i : ℤ) < x.nonzero → mem (xo + i) = x.data i)
    (hc : ∀ v : String → K, (∀ i < 5, 1 ≤ i → v (inName false i) = cell mem xo x.nonzero i) →
      NoClash C (withVar ρ v) (st.met ++ ts.flatMap Ex.subs)) :
    ∃ y', expBase J y x = .ok y' ∧ execS ρ ⟨yo, min 5 n, xo, x.nonzero⟩ lines env mem = stored mem yo 5 (min 5 n) y'.data := by
  obtain ⟨y', e, _, _, _, h4, _⟩ := C43_exp_base J y x n F hx hn hF hl
  refine ⟨y', e, ?_⟩
  have ha := cell_agree hx hm
  rw [C70_exp_base hr hρ ⟨yo, min 5 n, xo, x.nonzero⟩ env mem (by show (1 : ℤ) ≤ min 5 (n : ℤ); omega) hc]
  funext p
  simp only [stored]
  by_cases hp : yo ≤ p ∧ p < yo + 5 ∧ (p : ℤ) < yo + min 5 (n : ℤ)
  · rw [if_pos hp, if_pos hp, h4 _ (by omega)]
    refine E_agree (n := n) ?_ hF (fun i hi => ?_) _ (by omega)
    · rw [← coeff_zero_eq_constantCoeff_apply, coeff_mk, if_pos rfl]
    · rw [← ha i hi, coeff_mk, coeff_mk]
      by_cases h : i = 0
      · subst h
        rw [if_pos rfl, ← coeff_mk 0 (cell mem xo x.nonzero), ha 0 hn, coeff_zero_eq_constantCoeff_apply, hF]
      · rw [if_neg h]
  · rw [if_neg hp, if_neg hp]

end

/-! ## Products into an operand -/

/-- The first `n` terms of the result of a computation. -/
def firstTerms (n : ℕ) (m : Gen Unit (Ser ℚ)) : Option (List ℚ) :=
  match m () with
  | .ok (y, _) => some ((List.range n).map y.data)
  | .error _ => none

/-- A series with the given terms. -/
def ofTerms (l : List ℚ) : Ser ℚ := ⟨l.length, l.length, l.length, fun i => l.getD i 0⟩

/-- C70: in the generator a product into one of its operands is wrong in general: `(1 + z)^2` gives `1 + 2 z + 2 z^2`. -/
theorem C70_in_place_witness :
    firstTerms 3 (mulG (numArith ℚ) .left (ofTerms [1, 1, 0]) (ofTerms [1, 1, 0]) (ofTerms [1, 1, 0])) = some [1, 2, 2] ∧
      firstTerms 3 (mulG (numArith ℚ) .none (ofTerms [1, 1, 0]) (ofTerms [1, 1, 0]) (ofTerms [1, 1, 0])) = some [1, 2, 1] := by
  decide +kernel

/-- C70: that the generated functions are right depends on their number of terms: with ten instead of five the generator would get
the last term of `1 / (1 - z)` wrong. -/
theorem C70_ten_terms_witness : firstTerms 10 (invG (numArith ℚ) (newG (numArith ℚ) 10) (ofTerms [1, -1, 0, 0, 0, 0, 0, 0, 0, 0])) =
    some [1, 1, 1, 1, 1, 1, 1, 1, 1, 0] := by
  decide +kernel

/-! ## Examples -/

/-- An interpretation for the examples: `2 + 3 z + 5 z^2 + 7 z^3 + 11 z^4`. -/
def exampleInterp : Interp ℚ where
  var := fun v => if v = "x0" then 2 else if v = "x1" then 3 else if v = "x2" then 5 else if v = "x3" then 7 else 11
  field := fun _ a => a
  call := fun f l => match l with
    | [a] => if f = "inv" then a⁻¹ else 0
    | _ => 0
  other := fun _ => 0
  div := fun a n => a / n

theorem exampleInterp_ok : exampleInterp.Fielded := ⟨fun _ => rfl, fun _ _ => rfl⟩

/-- Parts with equal signatures have equal values. -/
def tame (C : Cfg) (ρ : Interp ℚ) (l : List Ex) : Bool :=
  l.all fun e => (l.all fun e' => !decide (e.sig C 1 = e'.sig C 1) || decide (e.val ρ = e'.val ρ)) &&
    match Sig.unsmall C.F (e.sig C) with
    | none => true
    | some n => decide (e.val ρ = n)

theorem tame_noClash {C : Cfg} {ρ : Interp ℚ} {l : List Ex} (h : tame C ρ l = true) : NoClash C ρ l := by
  unfold tame at h
  rw [List.all_eq_true] at h
  refine ⟨fun e he e' he' hs => ?_, fun e he n hn => ?_⟩
  · have h1 := h e he
    rw [Bool.and_eq_true, List.all_eq_true] at h1
    have h2 := h1.1 e' he'
    rw [hs] at h2
    simpa using h2
  · have h1 := h e he
    rw [Bool.and_eq_true] at h1
    have h2 := h1.2
    rw [hn] at h2
    simpa using h2

/-- The outcome of a generator is usable for the values of the example; the names are among those loaded. -/
def serUsable (D : List String) : Res (List SLine × List Ex × CSt) → Bool
  | .ok (_, ts, st) => tame exampleCfg exampleInterp (st.met ++ ts.flatMap Ex.subs) &&
    (st.met ++ ts.flatMap Ex.subs).all fun e => e.vars.all fun v => D.contains v
  | .error _ => false

theorem serUsable_inv : serUsable ["x0", "x1", "x2", "x3", "x4"] (invBaseCode exampleCfg (exampleSig false)) = true := by decide +kernel
theorem serUsable_exp : serUsable ["x1", "x2", "x3", "x4"] (expBaseCode exampleCfg (exampleSig false)) = true := by decide +kernel

theorem serUsable_spec {D : List String} {r : Res (List SLine × List Ex × CSt)} (h : serUsable D r = true) :
    ∃ lines ts st, r = .ok (lines, ts, st) ∧ ∀ v : String → ℚ, (∀ n ∈ D, v n = exampleInterp.var n) →
      NoClash exampleCfg (withVar exampleInterp v) (st.met ++ ts.flatMap Ex.subs) := by
  cases r with
  | error e => simp [serUsable] at h
  | ok u =>
    obtain ⟨lines, ts, st⟩ := u
    simp only [serUsable, Bool.and_eq_true, List.all_eq_true, List.contains_iff_mem] at h
    refine ⟨lines, ts, st, rfl, fun v hv => ?_⟩
    have h1 := tame_noClash h.1
    have h2 : ∀ e ∈ st.met ++ ts.flatMap Ex.subs, e.val (withVar exampleInterp v) = e.val exampleInterp := fun e he =>
      val_congr exampleInterp e (env := v) (env' := exampleInterp.var) fun n hn => hv n (h.2 e he n hn)
    exact ⟨fun e he e' he' hs => by rw [h2 e he, h2 e' he']; exact h1.1 e he e' he' hs,
      fun e he n hn => by rw [h2 e he]; exact h1.2 e he n hn⟩

/-- The memory of the examples. -/
def exampleMem (p : ℕ) : ℚ := [2, 3, 5, 7, 11, 13].getD p 0

/-- Examples for the theorems: the generator finishes and the condition on signatures holds; three terms of the inverse and of the
exponential of `3 z + 5 z^2`, into the place of the argument. -/
example : ∃ lines ts st lines' ts' st', invBaseCode exampleCfg (exampleSig false) = .ok (lines, ts, st) ∧
    expBaseCode exampleCfg (exampleSig false) = .ok (lines', ts', st') ∧
    (∀ v : String → ℚ, (∀ i < 5, v (inName false i) = cell exampleMem 0 5 i) →
      NoClash exampleCfg (withVar exampleInterp v) (st.met ++ ts.flatMap Ex.subs)) ∧
    (∀ v : String → ℚ, (∀ i < 5, 1 ≤ i → v (inName false i) = cell exampleMem 0 5 i) →
      NoClash exampleCfg (withVar exampleInterp v) (st'.met ++ ts'.flatMap Ex.subs)) ∧
    ∀ env, execS exampleInterp ⟨0, 3, 0, 5⟩ lines env exampleMem 0 = 1 / 2 ∧ execS exampleInterp ⟨0, 3, 0, 5⟩ lines env exampleMem 1 = -3 / 4 ∧
      execS exampleInterp ⟨0, 3, 0, 5⟩ lines env exampleMem 3 = 7 := by
  obtain ⟨l, ts, st, e, h⟩ := serUsable_spec serUsable_inv
  obtain ⟨l', ts', st', e', h'⟩ := serUsable_spec serUsable_exp
  have k1 : ∀ v : String → ℚ, (∀ i < 5, v (inName false i) = cell exampleMem 0 5 i) →
      NoClash exampleCfg (withVar exampleInterp v) (st.met ++ ts.flatMap Ex.subs) := by
    intro v hv
    refine h v fun n hn => ?_
    simp only [List.mem_cons, List.not_mem_nil, or_false] at hn
    rcases hn with rfl | rfl | rfl | rfl | rfl
    · exact (hv 0 (by omega)).trans (by decide +kernel)
    · exact (hv 1 (by omega)).trans (by decide +kernel)
    · exact (hv 2 (by omega)).trans (by decide +kernel)
    · exact (hv 3 (by omega)).trans (by decide +kernel)
    · exact (hv 4 (by omega)).trans (by decide +kernel)
  refine ⟨l, ts, st, l', ts', st', e, e', k1, fun v hv => ?_, fun env => ?_⟩
  · refine h' v fun n hn => ?_
    simp only [List.mem_cons, List.not_mem_nil, or_false] at hn
    rcases hn with rfl | rfl | rfl | rfl
    · exact (hv 1 (by omega) (by omega)).trans (by decide +kernel)
    · exact (hv 2 (by omega) (by omega)).trans (by decide +kernel)
    · exact (hv 3 (by omega) (by omega)).trans (by decide +kernel)
    · exact (hv 4 (by omega) (by omega)).trans (by decide +kernel)
  · rw [C70_inv_base e exampleInterp_ok ⟨0, 3, 0, 5⟩ env exampleMem (by norm_num) (by norm_num [cell, exampleMem]) k1]
    have hc0 : cell exampleMem 0 5 0 = 2 := by norm_num [cell, exampleMem]
    have hc1 : cell exampleMem 0 5 1 = 3 := by norm_num [cell, exampleMem]
    have c0 : coeff 0 (PowerSeries.mk (cell exampleMem 0 5))⁻¹ = 1 / 2 := by
      rw [coeff_inv, if_pos rfl, ← coeff_zero_eq_constantCoeff_apply, coeff_mk, hc0]; norm_num
    have c1 : coeff 1 (PowerSeries.mk (cell exampleMem 0 5))⁻¹ = -3 / 4 := by
      rw [coeff_inv, if_neg (by omega), ← coeff_zero_eq_constantCoeff_apply, coeff_mk, hc0]
      rw [Finset.sum_eq_single (1, 0)]
      · simp only [Nat.lt_one_iff, if_true]; rw [c0, coeff_mk, hc1]; norm_num
      · rintro ⟨i, j⟩ hb hne
        rw [Finset.mem_antidiagonal] at hb
        rw [if_neg]
        intro hj
        exact hne (by ext <;> simp at * <;> omega)
      · intro hn; simp at hn
    refine ⟨?_, ?_, ?_⟩
    · simpa [stored] using c0
    · simpa [stored] using c1
    · norm_num [stored, exampleMem]

end Mandelbrot.Sym
